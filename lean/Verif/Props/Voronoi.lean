import Verif.Proofs.Voronoi
import Verif.Proofs.Blur

/-!
# C07: Voronoi labels
-/

namespace Gopf.Props
open Spec Pfutil

/-- C07: the distance function computes the squared distance on the torus: the minimum over all
(infinitely many) periodic images, although only three images per direction are inspected. -/
theorem c07_distance (dims : List Int) (h : GoodDims dims) (i j : Int) (hi : 0 ≤ i)
    (hi' : i < numNodes dims) (hj : 0 ≤ j) (hj' : j < numNodes dims) :
    ∃ p q m, pos dims i = some p ∧ pos dims j = some q ∧ pointDistSq i j dims = some m ∧
      IsTorusDistSq dims p q m :=
  pointDistSq_spec h hi hi' hj hj'

/-- `D p i` is the squared torus distance of the nodes `p` and `i`. -/
def IsNodeDist (dims : List Int) (D : Int → Int → Int) : Prop :=
  ∀ p i, 0 ≤ p → p < numNodes dims → 0 ≤ i → i < numNodes dims →
    ∃ a b, pos dims p = some a ∧ pos dims i = some b ∧ IsTorusDistSq dims a b (D p i)

/-- C07: every node is labelled with the lowest index among the generators at minimal torus
distance, provided that distance is below `2^31 - 1`; otherwise it is labelled 0. -/
theorem c07_voronoi (dims : List Int) (h : GoodDims dims) (D : Int → Int → Int)
    (hD : IsNodeDist dims D) (pts : List Int) (hpts : ∀ p ∈ pts, 0 ≤ p ∧ p < numNodes dims) (n : Nat)
    (hn : (n : Int) ≤ numNodes dims) :
    ∃ labels, voronoi pts n dims = some labels ∧ labels.length = n ∧
      ∀ (i : Nat) (hi : i < labels.length),
        ((∀ p ∈ pts, 2 ^ 31 - 1 ≤ D p i) → labels[i] = 0) ∧
        ((∃ p ∈ pts, D p i < 2 ^ 31 - 1) →
          ∃ (j : Nat) (hj : j < pts.length), labels[i] = j ∧
            (∀ p ∈ pts, D pts[j] i ≤ D p i) ∧
            ∀ (k : Nat) (hk : k < pts.length), k < j → D pts[j] i < D pts[k] i) := by
  have hdist : ∀ i : Nat, i < n → ∀ p ∈ pts, pointDistSq p i dims = some (D p i) := by
    intro i hi p hp
    have hpp := hpts p hp
    obtain ⟨a, b, m, ha, hb, hm, hmt⟩ := pointDistSq_spec h hpp.1 hpp.2 (Int.natCast_nonneg i)
      (by omega : (i : Int) < numNodes dims)
    obtain ⟨a', b', ha', hb', hDt⟩ := hD p i hpp.1 hpp.2 (Int.natCast_nonneg i)
      (by omega : (i : Int) < numNodes dims)
    rw [ha] at ha'; rw [hb] at hb'
    obtain rfl : a = a' := by simpa using ha'
    obtain rfl : b = b' := by simpa using hb'
    rw [hm, isTorusDistSq_unique hmt hDt]
  have hcl : ∀ i : Nat, i < n → ∃ r, closestPoint pts i dims = some r ∧
      ((r = 0 ∧ ∀ p ∈ pts, 2 ^ 31 - 1 ≤ D p i) ∨
       (∃ (j : Nat) (hj : j < pts.length), r = j ∧ D pts[j] i < 2 ^ 31 - 1 ∧
          (∀ p ∈ pts, D pts[j] i ≤ D p i) ∧
          ∀ (k : Nat) (hk : k < pts.length), k < j → D pts[j] i < D pts[k] i)) := by
    intro i hi
    obtain ⟨r, hr, hr'⟩ := closestLoop_spec (fun p => D p i) i dims pts 0 (2 ^ 31 - 1) 0 (hdist i hi)
    refine ⟨r, hr, ?_⟩
    rcases hr' with h | ⟨j, hj, e, h1, h2, h3⟩
    · exact Or.inl h
    · exact Or.inr ⟨j, hj, by simpa using e, h1, h2, h3⟩
  have hget : ∀ i ∈ List.range n, closestPoint pts (i : Int) dims =
      some ((closestPoint pts (i : Int) dims).getD 0) := by
    intro i hi
    obtain ⟨r, hr, -⟩ := hcl i (List.mem_range.mp hi)
    rw [hr]; rfl
  refine ⟨_, mapM_some _ _ _ hget, by simp, ?_⟩
  intro i hi
  simp only [List.length_map, List.length_range] at hi
  simp only [List.getElem_map, List.getElem_range]
  obtain ⟨r, hr, hr'⟩ := hcl i hi
  rw [hr]
  simp only [Option.getD_some]
  rcases hr' with ⟨rfl, hall⟩ | ⟨j, hj, rfl, hlt, hmin, hfirst⟩
  · refine ⟨fun _ => rfl, ?_⟩
    rintro ⟨p, hp, hlt⟩
    have := hall p hp
    omega
  · refine ⟨?_, fun _ => ⟨j, hj, rfl, hmin, hfirst⟩⟩
    intro hall
    have := hall _ (List.getElem_mem hj)
    omega

/-- The hypotheses of `c07_voronoi` can be met: a distance function exists for every good domain. -/
theorem c07_dist_exists (dims : List Int) (h : GoodDims dims) : ∃ D, IsNodeDist dims D := by
  refine ⟨fun p i => (pointDistSq p i dims).getD 0, ?_⟩
  intro p i hp hp' hi hi'
  obtain ⟨a, b, m, ha, hb, hm, hmt⟩ := pointDistSq_spec h hp hp' hi hi'
  exact ⟨a, b, ha, hb, by simpa [hm] using hmt⟩

/-- C07: the label 0 for remote generators is wrong in general: on a `2^17 × 1` strip, with
generators at the half-way point and nearer than it but both beyond the limit, node 0 gets the
generator that is farther away. -/
theorem c07_far_generators_wrong :
    closestPoint [65536, 65535] 0 [131072, 1] = some 0 ∧
    pointDistSq 65536 0 [131072, 1] = some (65536 ^ 2) ∧
    pointDistSq 65535 0 [131072, 1] = some (65535 ^ 2) := by
  decide +kernel

example : voronoi [0, 7] 12 [4, 3] = some [0, 0, 0, 0, 1, 0, 1, 1, 1, 0, 1, 0] := by decide +kernel

end Gopf.Props
