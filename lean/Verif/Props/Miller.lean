import Verif.Model.Miller
import Mathlib.Data.List.Permutation
import Mathlib.Data.Finset.Card
import Mathlib.Algebra.BigOperators.Group.Finset.Basic
import Mathlib.Data.Finset.Prod
import Mathlib.Tactic.Ring
import Mathlib.Tactic.NormNum

/-!
# C58, C59: equivalent Miller indices
-/

namespace Gopf.Props
open Pfc

/-- Two triples of Miller indices are equivalent if they agree up to order and signs. -/
def Equivalent (a b : Miller) : Prop :=
  [a.H.natAbs, a.K.natAbs, a.L.natAbs].Perm [b.H.natAbs, b.K.natAbs, b.L.natAbs]

private theorem mem_signs (x y : Int) : (∃ s ∈ signs x, s * x = y) ↔ y.natAbs = x.natAbs := by
  unfold signs
  by_cases h : x = 0
  · subst h; simp; exact eq_comm
  · simp [h]; omega

private theorem mem_noPerm (m a : Miller) : a ∈ equivalentNoPerm m ↔
    a.H.natAbs = m.H.natAbs ∧ a.K.natAbs = m.K.natAbs ∧ a.L.natAbs = m.L.natAbs := by
  unfold equivalentNoPerm
  simp only [List.mem_flatMap, List.mem_map, ← mem_signs]
  constructor
  · rintro ⟨sH, h1, sK, h2, sL, h3, rfl⟩
    exact ⟨⟨sH, h1, rfl⟩, ⟨sK, h2, rfl⟩, ⟨sL, h3, rfl⟩⟩
  · rintro ⟨⟨sH, h1, e1⟩, ⟨sK, h2, e2⟩, ⟨sL, h3, e3⟩⟩
    refine ⟨sH, h1, sK, h2, sL, h3, ?_⟩
    rw [e1, e2, e3]

private theorem perm3 {α : Type} (a b c : α) (l : List α) : l.Perm [a, b, c] ↔
    l = [a, b, c] ∨ l = [a, c, b] ∨ l = [c, a, b] ∨ l = [c, b, a] ∨ l = [b, c, a] ∨ l = [b, a, c] := by
  rw [← List.mem_permutations']
  have : List.permutations' [a, b, c] = [[a, b, c], [b, a, c], [b, c, a], [a, c, b], [c, a, b], [c, b, a]] := rfl
  rw [this]
  simp only [List.mem_cons, List.not_mem_nil, or_false]
  tauto

private theorem mem_allSigned (m a : Miller) : a ∈ allSigned m ↔ Equivalent a m := by
  unfold allSigned Equivalent
  rw [perm3]
  simp only [permutations, List.flatMap_cons, List.flatMap_nil, List.append_nil, List.mem_append,
    mem_noPerm, Miller.at, List.getD_cons_zero, List.getD_cons_succ, List.cons.injEq, and_true]
  simp

private theorem moveLast_perm {α : Type} (l : List α) : (moveLast l).Perm l := by
  unfold moveLast
  cases h : l.getLast? with
  | none => rw [List.getLast?_eq_none_iff] at h; simp [h]
  | some x =>
    have hne : l ≠ [] := by rintro rfl; simp at h
    have hx : l.getLast hne = x := by rw [List.getLast?_eq_some_getLast hne] at h; simpa using h
    have := List.dropLast_append_getLast hne
    rw [hx] at this
    conv_rhs => rw [← this]
    exact (List.perm_append_singleton x l.dropLast).symm

private theorem dedupInner_perm (x : Miller) (seen rest : List Miller) :
    (dedupInner x seen rest).Perm (seen ++ rest.filter (fun y => y ≠ x)) := by
  induction h : rest.length generalizing seen rest with
  | zero =>
    obtain rfl := List.length_eq_zero_iff.mp h
    rw [dedupInner]; simp
  | succ n ih =>
    cases rest with
    | nil => simp at h
    | cons y ys =>
      have hy : ys.length = n := by simpa using h
      rw [dedupInner]
      split
      · rename_i hxy
        subst hxy
        refine (ih seen (moveLast ys) (by rw [moveLast_length, hy])).trans ?_
        simp only [List.filter_cons]
        simp only [ne_eq, not_true_eq_false, decide_false, Bool.false_eq_true, if_false]
        exact ((moveLast_perm ys).filter _).append_left _
      · rename_i hxy
        refine (ih (seen ++ [y]) ys hy).trans ?_
        simp [List.filter_cons, Ne.symm hxy]

private theorem dedup_spec (l : List Miller) : (dedup l).Nodup ∧ ∀ a, a ∈ dedup l ↔ a ∈ l := by
  induction h : l.length using Nat.strong_induction_on generalizing l with
  | _ n ih =>
    cases l with
    | nil => rw [dedup]; simp
    | cons x t =>
      have hlen := dedupInner_length x [] t
      obtain ⟨h1, h2⟩ := ih (dedupInner x [] t).length (by simp at h hlen; omega) _ rfl
      have hp := dedupInner_perm x [] t
      rw [List.nil_append] at hp
      have hm : ∀ a, a ∈ dedupInner x [] t ↔ a ∈ t ∧ a ≠ x := by
        intro a; rw [hp.mem_iff]; simp
      rw [dedup]
      constructor
      · rw [List.nodup_cons]
        refine ⟨fun hx => ?_, h1⟩
        rw [h2, hm] at hx
        exact hx.2 rfl
      · intro a
        rw [List.mem_cons, h2, hm, List.mem_cons]
        by_cases ha : a = x <;> simp [ha]

/-- C58: the list of equivalent indices has no duplicates and contains exactly the triples that agree up
to order and signs. -/
theorem c58_equivalent (m : Miller) : (equivalentMiller m).Nodup ∧
    ∀ a, a ∈ equivalentMiller m ↔ Equivalent a m := by
  obtain ⟨h1, h2⟩ := dedup_spec (allSigned m)
  exact ⟨h1, fun a => by rw [equivalentMiller, h2, mem_allSigned]⟩

/-- C58: for indices all different from zero and with different absolute values the 48 members are
found. -/
example : (equivalentMiller ⟨1, -2, 3⟩).length = 48 := by decide +kernel

example : equivalentMiller ⟨0, 0, 2⟩ =
    [⟨0, 0, -2⟩, ⟨0, 0, 2⟩, ⟨0, -2, 0⟩, ⟨0, 2, 0⟩, ⟨-2, 0, 0⟩, ⟨2, 0, 0⟩] := by decide +kernel

/-! ## C59 -/

/-- The integers with absolute value `a`. -/
private def sgn (a : ℕ) : Finset ℤ := {(a : ℤ), -(a : ℤ)}

private theorem mem_sgn (a : ℕ) (x : ℤ) : x ∈ sgn a ↔ x.natAbs = a := by
  simp [sgn]; omega

private theorem card_sgn (a : ℕ) : (sgn a).card = if a = 0 then 1 else 2 := by
  unfold sgn
  split
  · rename_i h; subst h; simp
  · rw [Finset.card_pair]; omega

private def toTriple (m : Miller) : ℤ × ℤ × ℤ := (m.H, m.K, m.L)

private theorem toTriple_injective : Function.Injective toTriple := by
  rintro ⟨a, b, c⟩ ⟨d, e, f⟩ h
  simp only [toTriple, Prod.mk.injEq] at h
  simp [h]

/-- The rearrangements of three numbers. -/
private def arr (a b c : ℕ) : Finset (ℕ × ℕ × ℕ) :=
  {(a, b, c), (a, c, b), (c, a, b), (c, b, a), (b, c, a), (b, a, c)}

private def signed (t : ℕ × ℕ × ℕ) : Finset (ℤ × ℤ × ℤ) := sgn t.1 ×ˢ sgn t.2.1 ×ˢ sgn t.2.2

private def w (a : ℕ) : ℕ := if a = 0 then 1 else 2

private theorem equiv_image (m : Miller) : ((equivalentMiller m).map toTriple).toFinset =
    (arr m.H.natAbs m.K.natAbs m.L.natAbs).biUnion signed := by
  ext ⟨x, y, z⟩
  simp only [List.mem_toFinset, List.mem_map, (c58_equivalent m).2, Equivalent, perm3, arr,
    Finset.mem_biUnion, Finset.mem_insert, Finset.mem_singleton, signed, Finset.mem_product, mem_sgn,
    List.cons.injEq, and_true]
  constructor
  · rintro ⟨a, h, e⟩
    simp only [toTriple, Prod.mk.injEq] at e
    obtain ⟨rfl, rfl, rfl⟩ := e
    refine ⟨(a.H.natAbs, a.K.natAbs, a.L.natAbs), ?_, rfl, rfl, rfl⟩
    simp only [Prod.mk.injEq]
    exact h
  · rintro ⟨⟨t1, t2, t3⟩, h, h1, h2, h3⟩
    simp only at h1 h2 h3
    subst h1 h2 h3
    refine ⟨⟨x, y, z⟩, ?_, rfl⟩
    simp only [Prod.mk.injEq] at h
    exact h

private theorem card_equiv (m : Miller) : (equivalentMiller m).length =
    (arr m.H.natAbs m.K.natAbs m.L.natAbs).card * (w m.H.natAbs * w m.K.natAbs * w m.L.natAbs) := by
  have h1 : (equivalentMiller m).length = (((equivalentMiller m).map toTriple).toFinset).card := by
    rw [List.toFinset_card_of_nodup, List.length_map]
    exact (c58_equivalent m).1.map toTriple_injective
  rw [h1, equiv_image, Finset.card_biUnion]
  · rw [Finset.sum_const_nat (m := w m.H.natAbs * w m.K.natAbs * w m.L.natAbs)]
    intro t ht
    simp only [signed, Finset.card_product, card_sgn]
    simp only [arr, Finset.mem_insert, Finset.mem_singleton] at ht
    rcases ht with rfl | rfl | rfl | rfl | rfl | rfl <;> simp only [w] <;> ring
  · intro s _ t _ hst
    change Disjoint (signed s) (signed t)
    rw [Finset.disjoint_left]
    rintro ⟨x, y, z⟩ hx hy
    simp only [signed, Finset.mem_product, mem_sgn] at hx hy
    apply hst
    ext <;> simp [← hx.1, ← hx.2.1, ← hx.2.2, hy.1, hy.2.1, hy.2.2]

private theorem card_arr (a b c : ℕ) : (arr a b c).card =
    if a = b ∧ b = c then 1 else if a = b ∨ b = c ∨ a = c then 3 else 6 := by
  unfold arr
  by_cases h1 : a = b
  · subst h1
    by_cases h2 : a = c
    · subst h2; simp
    · have h2' : ¬ c = a := fun h => h2 h.symm
      rw [if_neg (by simp [h2]), if_pos (by simp)]
      have : ({(a, a, c), (a, c, a), (c, a, a), (c, a, a), (a, c, a), (a, a, c)} : Finset (ℕ × ℕ × ℕ)) =
          {(a, a, c), (a, c, a), (c, a, a)} := by ext; simp; tauto
      rw [this, Finset.card_insert_of_notMem, Finset.card_insert_of_notMem, Finset.card_singleton] <;>
        simp [h2, h2']
  · have h1' : ¬ b = a := fun h => h1 h.symm
    by_cases h2 : b = c
    · subst h2
      rw [if_neg (by simp [h1]), if_pos (by simp)]
      have : ({(a, b, b), (a, b, b), (b, a, b), (b, b, a), (b, b, a), (b, a, b)} : Finset (ℕ × ℕ × ℕ)) =
          {(a, b, b), (b, a, b), (b, b, a)} := by ext; simp; tauto
      rw [this, Finset.card_insert_of_notMem, Finset.card_insert_of_notMem, Finset.card_singleton] <;>
        simp [h1, h1']
    · have h2' : ¬ c = b := fun h => h2 h.symm
      by_cases h3 : a = c
      · subst h3
        rw [if_neg (by simp [h1]), if_pos (by simp)]
        have : ({(a, b, a), (a, a, b), (a, a, b), (a, b, a), (b, a, a), (b, a, a)} : Finset (ℕ × ℕ × ℕ)) =
            {(a, b, a), (a, a, b), (b, a, a)} := by ext; simp; tauto
        rw [this, Finset.card_insert_of_notMem, Finset.card_insert_of_notMem, Finset.card_singleton] <;>
          simp [h1, h1']
      · have h3' : ¬ c = a := fun h => h3 h.symm
        rw [if_neg (by simp [h1]), if_neg (by simp [h1, h2, h3])]
        rw [Finset.card_insert_of_notMem, Finset.card_insert_of_notMem, Finset.card_insert_of_notMem,
          Finset.card_insert_of_notMem, Finset.card_insert_of_notMem, Finset.card_singleton] <;>
          simp [h1, h1', h2, h2', h3, h3']

private theorem iabs_eq (x y : Int) : iabs x = iabs y ↔ x.natAbs = y.natAbs := by
  unfold iabs; split <;> split <;> omega

private theorem num3D_eq (m : Miller) : numEquivalent3D m =
    w m.H.natAbs * w m.K.natAbs * w m.L.natAbs *
      (if m.H.natAbs = m.K.natAbs ∧ m.K.natAbs = m.L.natAbs then 1
       else if m.H.natAbs = m.K.natAbs ∨ m.K.natAbs = m.L.natAbs then 3 else 6) := by
  have f1 : factorial 1 = 1 := by decide
  have f2 : factorial 2 = 2 := by decide
  have f3 : factorial 3 = 6 := by decide
  unfold numEquivalent3D w
  simp only [iabs_eq, Int.natAbs_eq_zero]
  have e1 : (m.K.natAbs = m.H.natAbs) = (m.H.natAbs = m.K.natAbs) := propext eq_comm
  have e2 : (m.L.natAbs = m.K.natAbs) = (m.K.natAbs = m.L.natAbs) := propext eq_comm
  simp only [e1, e2]
  have hw : (if m.L ≠ 0 then (if m.K ≠ 0 then (if m.H ≠ 0 then 1 * 2 else 1) * 2
        else if m.H ≠ 0 then 1 * 2 else 1) * 2
      else if m.K ≠ 0 then (if m.H ≠ 0 then 1 * 2 else 1) * 2 else if m.H ≠ 0 then 1 * 2 else 1) =
      (((if m.H = 0 then 1 else 2) * if m.K = 0 then 1 else 2) * if m.L = 0 then 1 else 2) := by
    by_cases hH : m.H = 0 <;> by_cases hK : m.K = 0 <;> by_cases hL : m.L = 0 <;> simp [hH, hK, hL]
  rw [hw]
  congr 1
  by_cases h1 : m.H.natAbs = m.K.natAbs <;> by_cases h2 : m.K.natAbs = m.L.natAbs
  · rw [if_pos h2, if_pos h1, if_pos ⟨h1, h2⟩, f3]
  · rw [if_neg h2, if_pos h1, if_neg (fun h => h2 h.2), if_pos (Or.inl h1), f2, f3]
  · rw [if_pos h2, if_neg h1, if_neg (fun h => h1 h.1), if_pos (Or.inr h2), f2, f3]
  · rw [if_neg h2, if_neg h1, if_neg (fun h => h1 h.1), if_neg (by tauto), f1, f3]

/-- C59: the 3D multiplicity is the number of equivalent indices, unless `|H| = |L| ≠ |K|`: then it is
twice that number. -/
theorem c59_three_dimensions (m : Miller) :
    numEquivalent3D m = (equivalentMiller m).length *
      (if m.H.natAbs = m.L.natAbs ∧ m.H.natAbs ≠ m.K.natAbs then 2 else 1) := by
  rw [card_equiv, card_arr, num3D_eq]
  generalize m.H.natAbs = a
  generalize m.K.natAbs = b
  generalize m.L.natAbs = c
  generalize w a * w b * w c = s
  by_cases h1 : a = b
  · subst h1
    by_cases h2 : a = c <;> simp [h2] <;> ring
  · by_cases h2 : b = c
    · subst h2
      simp [h1]; ring
    · by_cases h3 : a = c
      · subst h3; simp [h1, h2]; ring
      · simp [h1, h2, h3]; ring

/-- C59: in 2D (third index zero) the multiplicity is the number of pairs that agree with `(H, K)` up to
order and signs. -/
theorem c59_two_dimensions (H K : Int) :
    ∃ l : List (Int × Int), l.Nodup ∧ l.length = numEquivalent2D ⟨H, K, 0⟩ ∧
      ∀ p : Int × Int, p ∈ l ↔ [p.1.natAbs, p.2.natAbs].Perm [H.natAbs, K.natAbs] := by
  obtain ⟨hn, hm⟩ := c58_equivalent ⟨H, K, 0⟩
  have hcount : ∀ (l : List Miller) (a : ℕ),
      l.foldl (fun (num : ℕ) e => if e.L = 0 then num + 1 else num) a =
        a + (l.filter (fun e => e.L = 0)).length := by
    intro l
    induction l with
    | nil => simp
    | cons e l ih =>
      intro a
      rw [List.foldl_cons, ih]
      by_cases h : e.L = 0 <;> simp [h] <;> omega
  refine ⟨((equivalentMiller ⟨H, K, 0⟩).filter (fun e => e.L = 0)).map fun e => (e.H, e.K), ?_, ?_, ?_⟩
  · refine List.Nodup.map_on ?_ (hn.filter _)
    rintro ⟨a, b, c⟩ ha ⟨d, e, f⟩ hd h
    simp only [List.mem_filter, decide_eq_true_eq, Prod.mk.injEq] at ha hd h
    simp [ha.2, hd.2, h]
  · rw [List.length_map, numEquivalent2D, hcount, zero_add]
  · rintro ⟨x, y⟩
    simp only [List.mem_map, List.mem_filter, hm, decide_eq_true_eq, Prod.mk.injEq]
    have key : ∀ a b c d : ℕ, [a, b, 0].Perm [c, d, 0] ↔ [a, b].Perm [c, d] := by
      intro a b c d
      have e1 : ([a, b, 0] : List ℕ) = [a, b] ++ [0] := rfl
      have e2 : ([c, d, 0] : List ℕ) = [c, d] ++ [0] := rfl
      rw [e1, e2, List.perm_append_right_iff]
    constructor
    · rintro ⟨⟨a, b, c⟩, ⟨he, hc⟩, rfl, rfl⟩
      simp only at hc
      subst hc
      exact (key _ _ _ _).mp he
    · intro h
      exact ⟨⟨x, y, 0⟩, ⟨(key _ _ _ _).mpr h, rfl⟩, rfl, rfl⟩

/-- C59: any other dimension panics. -/
theorem c59_other_dimension (m : Miller) (dim : Int) : (numEquivalent m dim).isSome ↔ dim = 2 ∨ dim = 3 := by
  unfold numEquivalent
  by_cases h1 : dim = 2
  · simp [h1]
  · by_cases h2 : dim = 3 <;> simp [h1, h2]

example : numEquivalent3D ⟨1, 2, 1⟩ = 48 ∧ (equivalentMiller ⟨1, 2, 1⟩).length = 24 := by decide +kernel

end Gopf.Props
