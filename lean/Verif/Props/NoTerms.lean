import Verif.Model.Text

/-!
# C14: a right-hand side without terms
-/

namespace Gopf.Props

open Gopf.Pf

/-- A character of a piece is a character of the text. -/
private theorem piece_mem (c : Char) : ∀ (s p : Str), p ∈ goSplit c s → ∀ x ∈ p, x ∈ s
  | [], p, hp, x, hx => by
    simp only [goSplit, List.mem_singleton] at hp
    subst hp
    exact hx
  | y :: ys, p, hp, x, hx => by
    have ih := piece_mem c ys
    simp only [goSplit] at hp
    split_ifs at hp with h
    · rcases List.mem_cons.mp hp with rfl | hp
      · simp at hx
      · exact List.mem_cons_of_mem _ (ih p hp x hx)
    · cases hg : goSplit c ys with
      | nil => exact absurd hg (goSplit_ne_nil c ys)
      | cons a t =>
        rw [hg] at hp ih
        rcases List.mem_cons.mp hp with rfl | hp
        · rcases List.mem_cons.mp hx with rfl | hx
          · exact List.mem_cons_self
          · exact List.mem_cons_of_mem _ (ih a List.mem_cons_self x hx)
        · exact List.mem_cons_of_mem _ (ih p (List.mem_cons_of_mem _ hp) x hx)

/-- The loop panics if every piece it has yet to look at consists of signs only. -/
private theorem loop_none (signs : List Char) : ∀ (k : Nat) (q out : List SubDelim),
    queueSize signs q ≤ k → q ≠ [] →
    (∀ i ∈ q, i.sub ≠ [] ∧ ∀ x ∈ i.sub, x ∈ signs) → splitLoop signs q out = none := by
  intro k
  induction k with
  | zero =>
    intro q out hk hq _
    cases q with
    | nil => exact absurd rfl hq
    | cons i r => simp [queueSize] at hk
  | succ k ih =>
    intro q out hk hq hall
    cases q with
    | nil => exact absurd rfl hq
    | cons item rest =>
      obtain ⟨hne, hsig⟩ := hall item List.mem_cons_self
      rw [splitLoop]
      split
      · next hd =>
        obtain ⟨x, hx⟩ := List.exists_mem_of_ne_nil _ hne
        have := List.find?_eq_none.mp hd x (hsig x hx)
        simp [hx] at this
      · next c hd =>
        have hmem := List.mem_of_find?_eq_some hd
        have hcont : c ∈ item.sub := by simpa using List.find?_some hd
        have hsize := split_size signs c hmem item.sub hcont
        have hpieces : ∀ p ∈ removeEmpty (goSplit c item.sub), p ≠ [] ∧ ∀ x ∈ p, x ∈ signs := by
          intro p hp
          simp only [removeEmpty, List.mem_filter] at hp
          refine ⟨by rintro rfl; simp at hp, fun x hx => hsig x (piece_mem c _ p hp.1 x hx)⟩
        split
        · rfl
        · next s0 more hs =>
          rw [hs] at hsize hpieces
          apply ih
          · simp only [queueSize, List.map_append, List.map_cons, List.sum_append, List.sum_cons,
              List.map_map, Function.comp_def] at hsize hk ⊢
            omega
          · simp
          · intro i hi
            rcases List.mem_append.mp hi with hi | hi
            · exact hall i (List.mem_cons_of_mem _ hi)
            · rcases List.mem_cons.mp hi with rfl | hi
              · exact hpieces s0 List.mem_cons_self
              · obtain ⟨s, hs', rfl⟩ := List.mem_map.mp hi
                exact hpieces s (List.mem_cons_of_mem _ hs')

/-- C14: a text without terms, that is the empty text or a text made of signs only, makes the splitter
panic, whatever the signs are (at least one). Without any sign to split on, no text panics: it is
returned as it stands. -/
theorem c14_no_terms (signs : List Char) :
    (signs ≠ [] → ∀ value : Str, (∀ x ∈ value, x ∈ signs) → splitOnMany value signs = none) ∧
    ∀ value : Str, splitOnMany value [] = some [⟨value, none⟩] := by
  constructor
  · intro hs value hv
    cases signs with
    | nil => exact absurd rfl hs
    | cons a l =>
      cases value with
      | nil => rfl
      | cons x xs =>
        simp only [splitOnMany, getFirstDelimiter, Option.bind_eq_bind, Option.bind_some]
        apply loop_none _ _ _ _ le_rfl (by simp)
        intro i hi
        simp only [List.mem_singleton] at hi
        subst hi
        exact ⟨by simp, hv⟩
  · intro value
    simp [splitOnMany, getFirstDelimiter, splitLoop]

/-- Such texts: nothing after the equality sign, or `-+-`. -/
example : splitOnMany [] ['+', '-'] = none ∧ splitOnMany "-+-".toList ['+', '-'] = none :=
  ⟨(c14_no_terms _).1 (by simp) _ (by simp), (c14_no_terms _).1 (by simp) _ (by decide)⟩

end Gopf.Props
