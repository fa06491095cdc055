import Verif.Proofs.Text
import Verif.Model.SortFactors
import Mathlib.Tactic.DeriveFintype

/-!
# C13, C14, C16: splitting right-hand sides, sorting factors
-/

namespace Gopf.Props
open Spec Pf

/-- C13: splitting the text of a sum returns each term once with the sign in front of it (in some
order), for any list of one character signs. -/
theorem c13_split (signs : List Char) (s : SignedSum) (hs : s.WellFormed signs) :
    ∃ res, splitOnMany s.render signs = some res ∧
      (res.map fun x => (x.sub, x.delim)).Perm s.terms := by
  have hfirst : getFirstDelimiter s.render signs = some s.lead := by
    obtain ⟨lead, t0, l⟩ := s
    obtain ⟨hlead, h0, hl⟩ := hs
    simp only [] at *
    cases signs with
    | nil =>
      cases lead with
      | none =>
        cases t0 <;> cases l <;> simp [SignedSum.render, getFirstDelimiter]
      | some c => exact absurd (hlead c (by simp)) (by simp)
    | cons a signs =>
      cases lead with
      | none =>
        cases t0 with
        | nil => exact absurd rfl h0.1
        | cons x t0 =>
          have : x ∉ a :: signs := h0.2 x (by simp)
          simp only [SignedSum.render, Option.toList_none, List.nil_append, List.cons_append,
            getFirstDelimiter, if_neg this]
      | some c =>
        have := hlead c (by simp)
        simp only [SignedSum.render, Option.toList_some, List.cons_append, List.nil_append,
            getFirstDelimiter, if_pos this]
  obtain ⟨res, hr, hp⟩ := splitLoop_spec signs (queueSize signs [⟨s.render, s.lead⟩])
    [(s, s.lead)] [⟨s.render, s.lead⟩] [] le_rfl rfl (by
      intro x hx
      obtain rfl := List.mem_singleton.mp hx
      exact hs)
  refine ⟨res, ?_, ?_⟩
  · simp only [splitOnMany, hfirst, Option.bind_eq_bind, Option.bind_some]; exact hr
  · simpa [SignedSum.terms] using hp

example : (SignedSum.mk (some '-') "a*b".toList [('+', "c".toList), ('-', "d^2".toList)]).WellFormed
    ['+', '-'] := by
  refine ⟨by simp, ⟨by simp, by decide⟩, ?_⟩
  intro p hp
  rcases List.mem_cons.mp hp with rfl | hp
  · exact ⟨by simp, by simp, by decide⟩
  · obtain rfl := List.mem_singleton.mp hp
    exact ⟨by simp, by simp, by decide⟩

private theorem isTerm_not {a : Str} (ha : IsTerm ['+', '-'] a) : '+' ∉ a ∧ '-' ∉ a :=
  ⟨fun h => ha.2 _ h (by simp), fun h => ha.2 _ h (by simp)⟩

private theorem first_term {a : Str} (ha : IsTerm ['+', '-'] a) (b : Str) :
    getFirstDelimiter (a ++ b) ['+', '-'] = some none := by
  cases a with
  | nil => exact absurd rfl ha.1
  | cons x a =>
    have : x ∉ ['+', '-'] := ha.2 x (by simp)
    simp only [List.cons_append, getFirstDelimiter, if_neg this]

/-- C14: for all terms `a`, `b`, splitting `a+-b` gives `b` the sign `+`, and splitting `a--b` gives
`b` the sign `-`: the second sign is dropped. -/
theorem c14_second_sign_dropped (a b : Str) (ha : IsTerm ['+', '-'] a) (hb : IsTerm ['+', '-'] b) :
    splitOnMany (a ++ '+' :: '-' :: b) ['+', '-'] = some [⟨a, none⟩, ⟨b, some '+'⟩] ∧
    splitOnMany (a ++ '-' :: '-' :: b) ['+', '-'] = some [⟨a, none⟩, ⟨b, some '-'⟩] := by
  obtain ⟨a1, a2⟩ := isTerm_not ha
  obtain ⟨b1, b2⟩ := isTerm_not hb
  have na := ha.1
  have nb := hb.1
  have skip : ∀ (t : Str) (d : Option Char) (rest out : List SubDelim), '+' ∉ t → '-' ∉ t →
      splitLoop ['+', '-'] (⟨t, d⟩ :: rest) out = splitLoop ['+', '-'] rest (out ++ [⟨t, d⟩]) := by
    intro t d rest out h1 h2
    apply splitLoop_skip
    intro c hc
    simp only [List.mem_cons, List.not_mem_nil, or_false] at hc
    rcases hc with rfl | rfl
    · exact h1
    · exact h2
  constructor
  · simp only [splitOnMany, first_term ha, Option.bind_eq_bind, Option.bind_some]
    have e1 : removeEmpty (goSplit '+' (a ++ '+' :: '-' :: b)) = a :: ['-' :: b] := by
      obtain ⟨h, t, k1, k2⟩ := goSplit_append a1 ('+' :: '-' :: b)
      simp only [goSplit, if_true] at k1
      rw [k2]
      have : goSplit '+' ('-' :: b) = ['-' :: b] := goSplit_none (by simpa using b1)
      simp only [goSplit] at this
      rw [this] at k1
      obtain ⟨rfl, rfl⟩ := List.cons.inj k1
      simp [removeEmpty, na]
    rw [splitLoop_split (c := '+') [] [] (by simp) e1]
    simp only [List.map_cons, List.map_nil, List.nil_append]
    rw [skip a none _ _ a1 a2]
    have e2 : removeEmpty (goSplit '-' ('-' :: b)) = b :: [] := by
      simp [goSplit, goSplit_none b2, removeEmpty, nb]
    rw [splitLoop_split (c := '-') [] _ (by simp [b1]) e2]
    simp only [List.map_nil, List.nil_append]
    rw [skip b _ _ _ b1 b2, splitLoop]
    simp
  · simp only [splitOnMany, first_term ha, Option.bind_eq_bind, Option.bind_some]
    have e1 : removeEmpty (goSplit '-' (a ++ '-' :: '-' :: b)) = a :: [b] := by
      obtain ⟨h, t, k1, k2⟩ := goSplit_append a2 ('-' :: '-' :: b)
      simp only [goSplit, if_true, goSplit_none b2] at k1
      rw [k2]
      obtain ⟨rfl, rfl⟩ := List.cons.inj k1
      simp [removeEmpty, na, nb]
    rw [splitLoop_split (c := '-') [] [] (by simp [a1, b1]) e1]
    simp only [List.map_cons, List.map_nil, List.nil_append]
    rw [skip a none _ _ a1 a2, skip b _ _ _ b1 b2, splitLoop]
    simp

example : IsTerm ['+', '-'] "m*conc".toList := ⟨by simp, by decide⟩

/-- C14: a sign sequence `+-+` inside a sum, or a trailing `+-`, makes the splitter panic. -/
theorem c14_panics (a b : Str) (ha : IsTerm ['+', '-'] a) (hb : '+' ∉ b) :
    splitOnMany (a ++ '+' :: '-' :: '+' :: b) ['+', '-'] = none ∧
    splitOnMany (a ++ ['+', '-']) ['+', '-'] = none := by
  obtain ⟨a1, a2⟩ := isTerm_not ha
  have na := ha.1
  have skip : ∀ (t : Str) (d : Option Char) (rest out : List SubDelim), '+' ∉ t → '-' ∉ t →
      splitLoop ['+', '-'] (⟨t, d⟩ :: rest) out = splitLoop ['+', '-'] rest (out ++ [⟨t, d⟩]) := by
    intro t d rest out h1 h2
    apply splitLoop_skip
    intro c hc
    simp only [List.mem_cons, List.not_mem_nil, or_false] at hc
    rcases hc with rfl | rfl
    · exact h1
    · exact h2
  have e2 : removeEmpty (goSplit '-' ['-']) = [] := by decide
  constructor
  · simp only [splitOnMany, first_term ha, Option.bind_eq_bind, Option.bind_some]
    have e1 : ∃ l, removeEmpty (goSplit '+' (a ++ '+' :: '-' :: '+' :: b)) = a :: ['-'] :: l := by
      obtain ⟨h, t, k1, k2⟩ := goSplit_append a1 ('+' :: '-' :: '+' :: b)
      simp only [goSplit, if_true, goSplit_none hb] at k1
      rw [k2]
      simp only [show ('-' = '+') = False by decide, if_false] at k1
      obtain ⟨rfl, rfl⟩ := List.cons.inj k1
      simp [removeEmpty, na]
    obtain ⟨l, e1⟩ := e1
    rw [splitLoop_split (c := '+') [] [] (by simp) e1]
    simp only [List.map_cons, List.nil_append]
    rw [skip a none _ _ a1 a2, splitLoop_panic (c := '-') _ _ (by decide) e2]
  · simp only [splitOnMany, first_term ha, Option.bind_eq_bind, Option.bind_some]
    have e1 : removeEmpty (goSplit '+' (a ++ ['+', '-'])) = a :: [['-']] := by
      obtain ⟨h, t, k1, k2⟩ := goSplit_append a1 ['+', '-']
      simp only [goSplit, if_true] at k1
      rw [k2]
      simp only [show ('-' = '+') = False by decide, if_false] at k1
      obtain ⟨rfl, rfl⟩ := List.cons.inj k1
      simp [removeEmpty, na]
    rw [splitLoop_split (c := '+') [] [] (by simp) e1]
    simp only [List.map_cons, List.map_nil, List.nil_append]
    rw [skip a none _ _ a1 a2, splitLoop_panic (c := '-') _ _ (by decide) e2]

/-! ### Sorting factors -/

theorem goSplit_join (l : List Str) (hne : l ≠ []) (h : ∀ f ∈ l, '*' ∉ f) :
    goSplit '*' (joinStar l) = l := by
  induction l with
  | nil => exact absurd rfl hne
  | cons a l ih =>
    cases l with
    | nil => simp [joinStar, goSplit_none (h a (by simp))]
    | cons b l =>
      have ih' := ih (by simp) (fun f hf => h f (by simp [hf]))
      have e : joinStar (a :: b :: l) = a ++ '*' :: joinStar (b :: l) := by
        simp [joinStar, List.intercalate, List.intersperse]
      obtain ⟨x, t, k1, k2⟩ := goSplit_append (h a (by simp)) ('*' :: joinStar (b :: l))
      rw [e, k2]
      simp only [goSplit, if_true, ih'] at k1
      obtain ⟨rfl, rfl⟩ := List.cons.inj k1
      simp

theorem join_goSplit (s : Str) : joinStar (goSplit '*' s) = s := by
  induction s with
  | nil => simp [goSplit, joinStar]
  | cons x xs ih =>
    simp only [goSplit]
    cases h : goSplit '*' xs with
    | nil => exact absurd h (goSplit_ne_nil _ _)
    | cons a t =>
      rw [h] at ih
      split_ifs with hx
      · subst hx
        have : joinStar ([] :: a :: t) = '*' :: joinStar (a :: t) := by
          simp [joinStar, List.intercalate, List.intersperse]
        rw [this, ih]
      · cases t with
        | nil => simp [joinStar] at ih ⊢; exact ih
        | cons b t =>
          have e1 : joinStar ((x :: a) :: b :: t) = x :: joinStar (a :: b :: t) := by
            simp [joinStar, List.intercalate, List.intersperse]
          simp only [e1, ih]

theorem goSplit_free (s : Str) : ∀ f ∈ goSplit '*' s, '*' ∉ f := by
  induction s with
  | nil => simp [goSplit]
  | cons x xs ih =>
    simp only [goSplit]
    cases h : goSplit '*' xs with
    | nil => exact absurd h (goSplit_ne_nil _ _)
    | cons a t =>
      rw [h] at ih
      split_ifs with hx
      · intro f hf
        rcases List.mem_cons.mp hf with rfl | hf
        · simp
        · exact ih f hf
      · intro f hf
        rcases List.mem_cons.mp hf with rfl | hf
        · have := ih a (by simp)
          simp only [List.mem_cons, not_or]
          exact ⟨fun e => hx e.symm, this⟩
        · exact ih f (by simp [hf])

/-- The factors of a product text: cut at every `*`. Specification: the only list of star-free texts
whose join is the text. -/
def Factors (s : Str) (fs : List Str) : Prop :=
  fs ≠ [] ∧ (∀ f ∈ fs, '*' ∉ f) ∧ List.intercalate ['*'] fs = s

/-- C16: the canonical text has the same factors as the original one, in ascending order. -/
theorem c16_sorted (s : Str) (fs : List Str) (h : Factors s fs) :
    ∃ gs, Factors (sortFactors s) gs ∧ gs.Perm fs ∧ gs.Pairwise (· ≤ ·) := by
  obtain ⟨h1, h2, h3⟩ := h
  have hs : goSplit '*' s = fs := by rw [← h3]; exact goSplit_join fs h1 h2
  have hp : (sortStrings fs).Perm fs := List.perm_insertionSort _ _
  refine ⟨sortStrings fs, ⟨?_, ?_, ?_⟩, hp, ?_⟩
  · intro e; rw [e] at hp; exact h1 hp.nil_eq.symm
  · intro f hf; exact h2 f (hp.subset hf)
  · simp [sortFactors, hs, joinStar]
  · exact List.pairwise_insertionSort _ _

/-- C16: every text has factors. -/
theorem c16_factors_exist (s : Str) : ∃ fs, Factors s fs :=
  ⟨goSplit '*' s, goSplit_ne_nil _ _, goSplit_free s, join_goSplit s⟩

/-- C16: two products of the same factors in different orders get the same canonical text, products
of different factors get different ones. -/
theorem c16_canonical (s t : Str) (fs gs : List Str) (hf : Factors s fs) (hg : Factors t gs) :
    sortFactors s = sortFactors t ↔ fs.Perm gs := by
  have hs : goSplit '*' s = fs := by rw [← hf.2.2]; exact goSplit_join fs hf.1 hf.2.1
  have ht : goSplit '*' t = gs := by rw [← hg.2.2]; exact goSplit_join gs hg.1 hg.2.1
  have pf : (sortStrings fs).Perm fs := List.perm_insertionSort _ _
  have pg : (sortStrings gs).Perm gs := List.perm_insertionSort _ _
  simp only [sortFactors, hs, ht]
  constructor
  · intro e
    have h1 : goSplit '*' (joinStar (sortStrings fs)) = sortStrings fs :=
      goSplit_join _ (fun e => by rw [e] at pf; exact hf.1 pf.nil_eq.symm)
        (fun f h => hf.2.1 f (pf.subset h))
    have h2 : goSplit '*' (joinStar (sortStrings gs)) = sortStrings gs :=
      goSplit_join _ (fun e => by rw [e] at pg; exact hg.1 pg.nil_eq.symm)
        (fun f h => hg.2.1 f (pg.subset h))
    rw [e, h2] at h1
    rw [h1] at pg
    exact pf.symm.trans pg
  · intro hp
    congr 1
    exact (pf.trans (hp.trans pg.symm)).eq_of_pairwise' (List.pairwise_insertionSort _ _)
      (List.pairwise_insertionSort _ _)

/-- C16: canonicalising is idempotent. -/
theorem c16_idempotent (s : Str) : sortFactors (sortFactors s) = sortFactors s := by
  obtain ⟨fs, hf⟩ := c16_factors_exist s
  obtain ⟨gs, hg, hp, -⟩ := c16_sorted s fs hf
  exact (c16_canonical _ _ gs fs hg hf).mpr hp

example : Factors "solute*temperature*conc".toList
    ["solute".toList, "temperature".toList, "conc".toList] ∧
    sortFactors "solute*temperature*conc".toList = "conc*solute*temperature".toList := by
  refine ⟨⟨by simp, by decide, by decide⟩, by decide +kernel⟩

end Gopf.Props
