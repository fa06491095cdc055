import Verif.Proofs.Bilinear

/-!
# C17: which terms are treated implicitly
-/

namespace Gopf.Props
open Spec Pf

/-- C17: for well-named models, a product is classified as linear in the field of the equation exactly
if it is: the field occurs once, with power 1, and no other known field or function occurs. `known` is
what the parser is given: fields, functions and the products it registered itself. -/
theorem c17_classification (N : Names) (hN : N.WellNamed) (field : Str) (hf : field ∈ N.fields)
    (known : List Str) (hk : ∀ k ∈ known, k ∈ N.varying ∨ IsProductName N k) (items : List Item)
    (hw : ∀ i ∈ items, i.WellFormed N) :
    ∃ b, isBilinear (productText items) field known = some b ∧ (b = true ↔ LinearIn field known items) :=
  isBilinear_spec hN (by simp [Names.varying, hf]) known hk items hw

private theorem first_occ {h : Str} (hstar : '*' ∉ h) (rest : Str) : ∀ x : Str, h <:+: x →
    ∃ A B, x = A ++ (h ++ B) ∧ NoStart h A (h ++ (B ++ '*' :: rest))
  | x, hi => by
    by_cases hp : h <+: x
    · obtain ⟨B, rfl⟩ := hp
      exact ⟨[], B, rfl, noStart_nil _ _⟩
    · cases x with
      | nil => exact absurd (by simpa using hi) (fun e : h = [] => hp (by simp [e]))
      | cons y x =>
        rcases List.infix_cons_iff.mp hi with h1 | h1
        · exact absurd h1 hp
        · obtain ⟨A, B, rfl, hA⟩ := first_occ hstar rest x h1
          refine ⟨y :: A, B, rfl, ?_⟩
          intro D hD hs hpre
          rcases List.suffix_cons_iff.mp hs with rfl | hs
          · refine hp (prefix_of_stop hstar (s := rest) ?_)
            simpa using hpre
          · exact hA D hD hs hpre

/-- C17: without the condition on names the classification is wrong. If the name of the field without
its last letter occurs in the name of a scalar, then scalar times field to any power is classified as
linear. -/
theorem c17_shortened_name (h x : Str) (c : Char) (hg : IsIdent (h ++ [c])) (hx : IsIdent x)
    (hin : h <:+: x) (hnot : ¬ h ++ [c] <:+: x) (e : Exponent) (he : e.WellFormed) :
    isBilinear (x ++ '*' :: (h ++ [c] ++ '^' :: e.text)) (h ++ [c]) [h ++ [c]] = some true := by
  obtain ⟨⟨a, t, hat, ha⟩, hid⟩ := hg
  have hstarG : '*' ∉ h ++ [c] := not_mem_ident hid (by decide) (by decide)
  have hstarH : '*' ∉ h := fun hm => hstarG (by simp [hm])
  have hidH : ∀ y ∈ h, IdentChar y := fun y hy => hid y (by simp [hy])
  have hidC : IdentChar c := hid c (by simp)
  have hgne : h ++ [c] ≠ [] := by simp
  have hc1 : cnt (h ++ [c]) (x ++ '*' :: (h ++ [c] ++ '^' :: e.text)) = 1 := by
    have e1 : x ++ '*' :: (h ++ [c] ++ '^' :: e.text) = (x ++ ['*']) ++ ((h ++ [c]) ++ '^' :: e.text) := by simp
    rw [e1, cnt_skip hgne (noStart_stop hgne hstarG hnot), cnt_match hgne, cnt_zero]
    rw [hat]
    exact not_infix_head (alpha_not_power ha (e := some e) (by simpa using he))
  have hstar : compileText (h ++ [c] ++ ['*']) = some (lits h ++ [.star fun x => decide (x = c)]) := by
    rw [compileText_ident_star hidH hidC []]; simp [compileText]
  unfold isBilinear
  rw [compileText_ident hid]
  simp only
  have hlen : (findAll (lits (h ++ [c])) (x ++ '*' :: (h ++ [c] ++ '^' :: e.text))).length = 1 := hc1
  rw [if_neg (by rw [hlen]; decide)]
  rw [show noOtherField (x ++ '*' :: (h ++ [c] ++ '^' :: e.text)) (h ++ [c]) [h ++ [c]] = some true by
    simp [noOtherField]]
  simp only
  rw [hstar]
  simp only [List.append_assoc, List.singleton_append]
  -- the match lies inside the scalar
  obtain ⟨A, B, rfl, hA⟩ := first_occ hstarH (h ++ [c] ++ '^' :: e.text) x hin
  have hB : ∀ y ∈ B, (y ≠ '/' && y ≠ '*') = true := by
    intro y hy
    have := hx.2 y (by simp [hy])
    have h1 : y ≠ '/' := ident_ne this (by decide) (by decide)
    have h2 : y ≠ '*' := ident_ne this (by decide) (by decide)
    simp [h1, h2]
  let p : Char → Bool := fun c => c ≠ '/' && c ≠ '*'
  let rest : Str := '*' :: (h ++ [c] ++ '^' :: e.text)
  have hm : ∀ st, matchHere (lits h ++ [.star (fun x => decide (x = c)), .star p]) st
      (h ++ (B ++ rest)) = some rest := by
    intro st
    rw [matchHere_lits_append, matchHere_star_total _ (total_star p total_nil) _ _ false, matchHere_star_end]
    have hsplit : B.takeWhile (fun x => decide (x = c)) ++ B.dropWhile (fun x => decide (x = c)) = B :=
      List.takeWhile_append_dropWhile
    have hcs : c ≠ '*' := ident_ne hidC (by decide) (by decide)
    have hdrop : (B ++ rest).dropWhile (fun x => decide (x = c)) =
        B.dropWhile (fun x => decide (x = c)) ++ rest := by
      rw [List.dropWhile_append]
      split_ifs with hemp
      · rw [List.isEmpty_iff.mp hemp, List.nil_append]
        simp only [rest]
        rw [List.dropWhile_cons_of_neg (by simpa using hcs.symm)]
      · rfl
    rw [hdrop]
    congr 1
    apply dropWhile_append_stop
    · intro y hy
      exact hB y ((List.dropWhile_suffix _).subset hy)
    · intro y hy
      simp only [rest, List.head?_cons, Option.mem_some_iff] at hy
      subst hy; decide
  have hfind : findString (lits h ++ [.star (fun x => decide (x = c)), .star p])
      (A ++ (h ++ (B ++ rest))) = h ++ B := by
    unfold findString
    rw [findFrom_lits_skip _ (by simpa [rest] using hA), findFrom_match (hm _)]
    simp only [Option.map_some]
    have : (h ++ (B ++ rest)).length - rest.length = (h ++ B).length := by simp; omega
    rw [this, ← List.append_assoc, List.take_left']
    rfl
  have hnohat : '^' ∉ h ++ B := by
    intro hm
    have : '^' ∈ A ++ (h ++ B) := by simp at hm ⊢; tauto
    exact ident_ne (hx.2 '^' this) (d := '^') (by decide) (by decide) rfl
  simp only [p, rest, List.append_assoc, List.singleton_append] at hfind
  rw [List.append_assoc A, List.append_assoc h B, hfind, powerText_none hnohat]

/-- C17: in particular, for a field whose name is one letter, every scalar times every power of the
field is classified as linear (unless the name of the scalar contains the letter). -/
theorem c17_one_letter (c : Char) (hc : c.isAlpha = true) (x : Str) (hx : IsIdent x) (hnot : c ∉ x)
    (e : Exponent) (he : e.WellFormed) :
    isBilinear (x ++ '*' :: c :: '^' :: e.text) [c] [[c]] = some true := by
  have := c17_shortened_name [] x c ⟨⟨c, [], rfl, hc⟩, by simp [IdentChar, Char.isAlphanum, hc]⟩ hx
    List.nil_infix (by rintro ⟨s, t, h⟩; exact hnot (by rw [← h]; simp)) e he
  simpa using this

/-- Names used in examples. -/
def demoNames : Names := ⟨["conc".toList, "eta".toList], ["FUNC".toList], ["gamma".toList, "m1".toList]⟩

theorem demo_wellNamed : demoNames.WellNamed where
  ident := by
    have : ∀ x ∈ demoNames.all, (∀ c ∈ x, c.isAlphanum = true ∨ c = '_') ∧ ∃ c ∈ x.head?, c.isAlpha = true := by
      decide
    intro x hx
    obtain ⟨h1, c, hc, h2⟩ := this x hx
    cases x with
    | nil => simp at hc
    | cons y x =>
      simp only [List.head?_cons, Option.mem_some_iff] at hc
      subst hc
      exact ⟨⟨y, x, rfl, h2⟩, h1⟩
  nodup := by decide
  noLap := by decide
  long := by decide
  sepLap := by decide
  sepVarying := by decide
  sepScalar := by decide

/-- The condition on names is met by ordinary names. -/
example : demoNames.WellNamed := demo_wellNamed

/-- `gamma*LAP^2conc` is a well-formed product, linear in `conc`; `m1*conc^3` is not. -/
example : (∀ i ∈ [⟨none, some ⟨"gamma".toList, none⟩⟩, ⟨some (some ['2']), some ⟨"conc".toList, none⟩⟩],
      Item.WellFormed demoNames i) ∧
    productText [⟨none, some ⟨"gamma".toList, none⟩⟩, ⟨some (some ['2']), some ⟨"conc".toList, none⟩⟩] =
      "gamma*LAP^2conc".toList ∧
    LinearIn "conc".toList demoNames.varying
      [⟨none, some ⟨"gamma".toList, none⟩⟩, ⟨some (some ['2']), some ⟨"conc".toList, none⟩⟩] := by
  refine ⟨?_, rfl, ?_, ?_, ?_⟩
  · intro i hi
    rcases List.mem_cons.mp hi with rfl | hi
    · exact ⟨by simp, by simp, by simp, by simp; decide, by simp⟩
    · obtain rfl := List.mem_singleton.mp hi
      exact ⟨by simp, by simp, by simp, by simp; decide, by simp; decide⟩
  · decide
  · decide
  · intro i hi f hf
    have : i = ⟨some (some ['2']), some ⟨"conc".toList, none⟩⟩ := by
      simpa [occurrences, Item.name?] using hi
    subst this
    obtain rfl := Option.some.inj hf
    simp [Factor.power]

example : IsIdent "phase".toList ∧ "ph".toList <:+: "phase".toList ∧ ¬ "phi".toList <:+: "phase".toList ∧
    Exponent.WellFormed ⟨['2'], none⟩ :=
  ⟨⟨⟨'p', _, rfl, by decide⟩, by unfold IdentChar; decide⟩, by decide, by decide, by simp, by decide, by simp⟩

end Gopf.Props
