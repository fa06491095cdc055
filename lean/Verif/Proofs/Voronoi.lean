import Verif.Model.Voronoi
import Verif.Proofs.Index
import Verif.Spec.Torus
import Mathlib.Tactic.LinearCombination
import Mathlib.Algebra.Order.Ring.Abs

namespace Gopf.Pfutil
open Spec

theorem absInt_eq (x : Int) : absInt x = |x| := by
  unfold absInt
  split_ifs with h
  · rw [abs_of_neg h]
  · rw [abs_of_nonneg (not_lt.mp h)]

theorem smallestDiff_spec {a b d : Int} (ha : 0 ≤ a) (ha' : a < d) (hb : 0 ≤ b) (hb' : b < d) :
    (∃ z, smallestDiff a b d = a - b + z * d) ∧ ∀ z : Int, (smallestDiff a b d) ^ 2 ≤ (a - b + z * d) ^ 2 := by
  have hd : 0 < d := by omega
  obtain ⟨m, hm⟩ : ∃ m, smallestDiff a b d = m := ⟨_, rfl⟩
  have key : (m = a - b ∨ m = a - b - d ∨ m = a - b + d) ∧ |m| ≤ |a - b| ∧ |m| ≤ |a - b - d| ∧
      |m| ≤ |a - b + d| := by
    rw [← hm]
    simp only [smallestDiff, List.foldl_cons, List.foldl_nil, absInt_eq]
    have e1 : a - b + -1 * d = a - b - d := by ring
    have e2 : a - b + 1 * d = a - b + d := by ring
    rw [e1, e2]
    split_ifs <;> refine ⟨?_, ?_, ?_, ?_⟩ <;> omega
  rw [hm]
  constructor
  · rcases key.1 with h | h | h
    · exact ⟨0, by rw [h]; ring⟩
    · exact ⟨-1, by rw [h]; ring⟩
    · exact ⟨1, by rw [h]; ring⟩
  · intro z
    rw [sq_le_sq]
    obtain ⟨-, h0, h1, h2⟩ := key
    rcases lt_trichotomy z 0 with hz | rfl | hz
    · refine h1.trans ?_
      rw [abs_of_neg (by omega : a - b - d < 0), abs_of_neg (by nlinarith : a - b + z * d < 0)]
      nlinarith
    · simpa using h0
    · refine h2.trans ?_
      rw [abs_of_pos (by omega : 0 < a - b + d), abs_of_pos (by nlinarith : 0 < a - b + z * d)]
      nlinarith

theorem distLoop_spec : ∀ {dims p q : List Int}, InBox dims p → InBox dims q → ∀ acc,
    ∃ m, distLoop p q dims acc = some (acc + m) ∧ IsTorusDistSq dims p q m
  | [], [], [], _, _, acc => ⟨0, by simp [distLoop], ⟨[], rfl, rfl⟩, fun z _ => by simp [imageDistSq]⟩
  | d :: ds, a :: as, b :: bs, hp, hq, acc => by
    cases hp with
    | cons p1 p2 => cases hq with
      | cons q1 q2 =>
        obtain ⟨m, hm, ⟨z, hz, hmz⟩, hmin⟩ :=
          distLoop_spec p2 q2 (acc + smallestDiff a b d * smallestDiff a b d)
        obtain ⟨⟨w, hw⟩, hle⟩ := smallestDiff_spec p1.1 p1.2 q1.1 q1.2
        refine ⟨smallestDiff a b d * smallestDiff a b d + m, ?_, ⟨w :: z, by simp [hz], ?_⟩, ?_⟩
        · rw [distLoop, hm, add_assoc]
        · rw [imageDistSq, ← hw, ← hmz]; ring
        · intro z' hz'
          cases z' with
          | nil => simp at hz'
          | cons u us =>
            rw [imageDistSq]
            have := hle u
            have := hmin us (by simpa using hz')
            nlinarith

theorem isTorusDistSq_unique {dims p q : List Int} {m m' : Int} (h : IsTorusDistSq dims p q m)
    (h' : IsTorusDistSq dims p q m') : m = m' := by
  obtain ⟨⟨z, hz, e⟩, hmin⟩ := h
  obtain ⟨⟨z', hz', e'⟩, hmin'⟩ := h'
  have := hmin z' hz'
  have := hmin' z hz
  omega

theorem pointDistSq_spec {dims : List Int} (h : GoodDims dims) {i j : Int} (hi : 0 ≤ i)
    (hi' : i < numNodes dims) (hj : 0 ≤ j) (hj' : j < numNodes dims) :
    ∃ p q m, pos dims i = some p ∧ pos dims j = some q ∧ pointDistSq i j dims = some m ∧
      IsTorusDistSq dims p q m := by
  obtain ⟨p, hp, hpb, -⟩ := pos_spec h hi hi'
  obtain ⟨q, hq, hqb, -⟩ := pos_spec h hj hj'
  obtain ⟨m, hm, hmt⟩ := distLoop_spec hpb hqb 0
  exact ⟨p, q, m, hp, hq, by simp [pointDistSq, hp, hq, hm], hmt⟩

/-- Invariant of the search loop: `best` is the first index of a minimal distance below the start
value among the points seen, or the start index if there is none. -/
theorem closestLoop_spec (f : Int → Int) (point : Int) (dims : List Int) :
    ∀ (pts : List Int) (k mind best : Int),
    (∀ p ∈ pts, pointDistSq p point dims = some (f p)) →
    ∃ r, closestLoop point dims pts k mind best = some r ∧
      ((r = best ∧ ∀ p ∈ pts, mind ≤ f p) ∨
       (∃ (j : Nat) (hj : j < pts.length), r = k + j ∧ f pts[j] < mind ∧
          (∀ p ∈ pts, f pts[j] ≤ f p) ∧
          ∀ (i : Nat) (hi : i < pts.length), i < j → f pts[j] < f pts[i]))
  | [], k, mind, best, _ => ⟨best, rfl, Or.inl ⟨rfl, by simp⟩⟩
  | p :: ps, k, mind, best, h => by
    have hp := h p (by simp)
    by_cases hlt : f p < mind
    · obtain ⟨r, hr, hr'⟩ := closestLoop_spec f point dims ps (k + 1) (f p) k
        (fun q hq => h q (by simp [hq]))
      refine ⟨r, by simp [closestLoop, hp, hlt, hr], Or.inr ?_⟩
      rcases hr' with ⟨rfl, hmin⟩ | ⟨j, hj, rfl, h1, h2, h3⟩
      · refine ⟨0, by simp, by simp, by simpa using hlt, ?_, by simp⟩
        intro q hq
        rcases List.mem_cons.mp hq with rfl | hq
        · simp
        · simpa using hmin q hq
      · refine ⟨j + 1, by simpa using hj, by push_cast; ring, by simp; omega, ?_, ?_⟩
        · intro q hq
          rcases List.mem_cons.mp hq with rfl | hq
          · simp; omega
          · simpa using h2 q hq
        · intro i hi hij
          cases i with
          | zero => simpa using h1
          | succ i => simpa using h3 i (by simpa using hi) (by omega)
    · obtain ⟨r, hr, hr'⟩ := closestLoop_spec f point dims ps (k + 1) mind best
        (fun q hq => h q (by simp [hq]))
      refine ⟨r, by simp [closestLoop, hp, hlt, hr], ?_⟩
      rcases hr' with ⟨rfl, hmin⟩ | ⟨j, hj, rfl, h1, h2, h3⟩
      · left
        refine ⟨rfl, ?_⟩
        intro q hq
        rcases List.mem_cons.mp hq with rfl | hq
        · omega
        · exact hmin q hq
      · right
        refine ⟨j + 1, by simpa using hj, by push_cast; ring, by simpa using h1, ?_, ?_⟩
        · intro q hq
          rcases List.mem_cons.mp hq with rfl | hq
          · simp; omega
          · simpa using h2 q hq
        · intro i hi hij
          cases i with
          | zero => simp; omega
          | succ i => simpa using h3 i (by simpa using hi) (by omega)

end Gopf.Pfutil
