import Verif.Props.Index

/-!
# C01: node numbers outside of the domain
-/

namespace Gopf.Props
open Spec Pfutil

private theorem tdiv_tdiv_nonneg {n a b : ℤ} (hn : 0 ≤ n) (ha : 0 < a) : (n.tdiv a).tdiv b = n.tdiv (b * a) := by
  rw [Int.tdiv_eq_ediv_of_nonneg (Int.tdiv_nonneg hn ha.le), Int.tdiv_eq_ediv_of_nonneg hn, Int.tdiv_eq_ediv_of_nonneg hn,
    Int.ediv_ediv_of_nonneg ha.le, mul_comm]

private theorem tdiv_tdiv_pos (n : ℤ) {a : ℤ} (b : ℤ) (ha : 0 < a) : (n.tdiv a).tdiv b = n.tdiv (b * a) := by
  rcases le_or_gt 0 n with hn | hn
  · exact tdiv_tdiv_nonneg hn ha
  · have := tdiv_tdiv_nonneg (b := b) (neg_nonneg.mpr hn.le) ha
    rw [Int.neg_tdiv, Int.neg_tdiv, Int.neg_tdiv] at this
    exact neg_injective this

/-- C01: negative node numbers have the mirrored positions. -/
theorem c01_mirrored (dims : List Int) (n : Int) : pos dims (-n) = (pos dims n).map fun p => p.map fun x => -x := by
  unfold pos
  split
  · rename_i d0 d1
    unfold pos2 goMod goDiv
    by_cases h : d1 = 0 <;> simp [h]
  · rename_i d0 d1 d2
    unfold pos3 goMod goDiv
    by_cases h : d1 = 0
    · simp [h]
    · by_cases h' : d0 = 0 <;> simp [h, h']
  · rfl

/-- C01: converting to a position and back returns the number for every integer, and the position is in the domain exactly if the
number is one of a node. -/
theorem c01_any_number (dims : List Int) (h : GoodDims dims) (n : Int) :
    ∃ p, pos dims n = some p ∧ nodeIdx dims p = some n ∧ (InBox dims p ↔ 0 ≤ n ∧ n < numNodes dims) := by
  have hback : ∃ p, pos dims n = some p ∧ nodeIdx dims p = some n := by
    obtain ⟨hl, hd⟩ := h
    match dims, hl, hd with
    | [d0, d1], _, hd =>
      have h1 : d1 ≠ 0 := (hd d1 (by simp)).ne'
      refine ⟨[n.tdiv d1, n.tmod d1], by simp [pos, pos2, goMod, goDiv, h1], ?_⟩
      show some (n.tdiv d1 * d1 + n.tmod d1) = some n
      rw [Int.tdiv_mul_add_tmod]
    | [d0, d1, d2], _, hd =>
      have h0 : d0 ≠ 0 := (hd d0 (by simp)).ne'
      have h1 : d1 ≠ 0 := (hd d1 (by simp)).ne'
      refine ⟨[(n.tdiv d1).tmod d0, n.tmod d1, n.tdiv (d0 * d1)], by simp [pos, pos3, goMod, goDiv, h0, h1], ?_⟩
      show some (n.tdiv (d0 * d1) * d0 * d1 + (n.tdiv d1).tmod d0 * d1 + n.tmod d1) = some n
      rw [← tdiv_tdiv_pos n d0 (hd d1 (by simp)), ← add_mul, Int.tdiv_mul_add_tmod, Int.tdiv_mul_add_tmod]
  obtain ⟨p, h1, h2⟩ := hback
  refine ⟨p, h1, h2, fun hp => ?_, fun ⟨a, b⟩ => ?_⟩
  · obtain ⟨k, e, a, b, -⟩ := c01_nodeIdx_then_pos dims h p hp
    rw [h2] at e
    obtain rfl := Option.some.inj e
    exact ⟨a, b⟩
  · obtain ⟨q, e, hq, -⟩ := c01_pos_then_nodeIdx dims h n a b
    rw [h1] at e
    obtain rfl := Option.some.inj e
    exact hq

/-- The number before the first, and one above the last. -/
example : GoodDims [4, 7, 3] ∧ pos [4, 7, 3] (-1) = some [0, -1, 0] ∧ pos [4, 7, 3] 84 = some [0, 0, 3] :=
  ⟨⟨by simp, by simp⟩, by decide, by decide⟩

end Gopf.Props
