import Verif.Model.Elasticity
import Mathlib.LinearAlgebra.Matrix.Kronecker
import Mathlib.Algebra.BigOperators.Ring.Finset
import Mathlib.Algebra.BigOperators.Fin
import Mathlib.Tactic.Ring

/-!
# Facts about rank-4 tensors
-/

namespace Gopf.Elasticity
open scoped BigOperators

theorem indexF_injective : Function.Injective indexF := by
  rintro ⟨⟨i, hi⟩, ⟨j, hj⟩, ⟨k, hk⟩, ⟨l, hl⟩⟩ ⟨⟨i', hi'⟩, ⟨j', hj'⟩, ⟨k', hk'⟩, ⟨l', hl'⟩⟩ h
  simp only [indexF, index, Fin.mk.injEq] at h
  simp only [Prod.mk.injEq, Fin.mk.injEq]
  omega

theorem get_set (r : Rank4) (t u : Idx4) (v : ℝ) :
    (r.set t v).get u = if u = t then v else r.get u := by
  unfold Rank4.set Rank4.get
  simp only [Function.update_apply, indexF_injective.eq_iff]

theorem get_new (t : Idx4) : newRank4.get t = 0 := rfl

theorem mem_loops (t : Idx4) : t ∈ loops := by
  obtain ⟨i, j, k, l⟩ := t
  simp [loops]

theorem nodup_loops : loops.Nodup := by decide +kernel

theorem loops_toFinset : loops.toFinset = Finset.univ := by
  ext t; simp [mem_loops]

theorem sum_loops {M : Type} [AddCommMonoid M] (f : Idx4 → M) : (loops.map f).sum = ∑ t, f t := by
  rw [← List.sum_toFinset _ nodup_loops, loops_toFinset]

theorem sum_idx {M : Type} [AddCommMonoid M] (f : Idx4 → M) :
    ∑ t, f t = ∑ i, ∑ j, ∑ k, ∑ l, f (i, j, k, l) := by
  rw [Fintype.sum_prod_type]
  refine Finset.sum_congr rfl fun i _ => ?_
  rw [Fintype.sum_prod_type]
  refine Finset.sum_congr rfl fun j _ => ?_
  rw [Fintype.sum_prod_type]

theorem foldl_add {α M : Type} [AddCommMonoid M] (f : α → M) (l : List α) (a : M) :
    l.foldl (fun acc x => acc + f x) a = a + (l.map f).sum := by
  induction l generalizing a with
  | nil => simp
  | cons x l ih => simp [ih, add_assoc]

theorem sum_finRange {M : Type} [AddCommMonoid M] (f : Fin 3 → M) :
    ((List.finRange 3).map f).sum = ∑ i, f i := by
  rw [← List.ofFn_eq_map, List.sum_ofFn]

/-- A loop that sets each position once. -/
theorem get_foldl_set (f : Idx4 → ℝ) (l : List Idx4) (r : Rank4) (u : Idx4) :
    (l.foldl (fun (r : Rank4) t => r.set t (f t)) r).get u = if u ∈ l then f u else r.get u := by
  induction l generalizing r with
  | nil => simp
  | cons x l ih =>
    rw [List.foldl_cons, ih, get_set]
    by_cases h1 : u ∈ l
    · simp [h1]
    · by_cases h2 : u = x <;> simp [h1, h2]

/-- A loop over writes, all of which write the value belonging to their position. -/
theorem get_foldl_writes (g : Idx4 → ℝ) (l : List (Idx4 × ℝ)) (h : ∀ w ∈ l, w.2 = g w.1) (r : Rank4)
    (u : Idx4) : (l.foldl (fun (r : Rank4) w => r.set w.1 w.2) r).get u =
      if u ∈ l.map Prod.fst then g u else r.get u := by
  induction l generalizing r with
  | nil => simp
  | cons x l ih =>
    rw [List.foldl_cons, ih (fun w hw => h w (by simp [hw])), get_set]
    by_cases h1 : u ∈ l.map Prod.fst
    · simp [h1]
    · by_cases h2 : u = x.1
      · simp [h1, h2, h x (by simp)]
      · simp [h1, h2]

/-- The inner loop of `Rotate`. -/
theorem get_foldl_acc (t : Idx4) (f : Idx4 → ℝ) (l : List Idx4) (r : Rank4) (u : Idx4) :
    (l.foldl (fun (out : Rank4) x => out.set t (out.get t + f x)) r).get u =
      if u = t then r.get t + (l.map f).sum else r.get u := by
  induction l generalizing r with
  | nil => simp; rintro rfl; rfl
  | cons x l ih =>
    rw [List.foldl_cons, ih, get_set, get_set]
    by_cases h : u = t <;> simp [h, add_assoc]

theorem get_foldl_foldl (f : Idx4 → Idx4 → ℝ) (l : List Idx4) (hl : l.Nodup) (r : Rank4) (u : Idx4) :
    (l.foldl (fun out t =>
      loops.foldl (fun (out : Rank4) x => out.set t (out.get t + f t x)) out) r).get u =
      if u ∈ l then r.get u + ∑ x, f u x else r.get u := by
  induction l generalizing r with
  | nil => simp
  | cons t l ih =>
    rw [List.foldl_cons, ih (List.nodup_cons.mp hl).2, get_foldl_acc, sum_loops]
    have hnot := (List.nodup_cons.mp hl).1
    by_cases h1 : u = t
    · subst h1; simp [hnot]
    · simp [h1]

theorem get_rotate (r : Rank4) (R : Mat3) (t : Idx4) :
    (r.rotate R).get t =
      ∑ u : Idx4, R t.1 u.1 * R t.2.1 u.2.1 * R t.2.2.1 u.2.2.1 * R t.2.2.2 u.2.2.2 * r.get u := by
  unfold Rank4.rotate
  refine (get_foldl_foldl (fun t u => R t.1 u.1 * R t.2.1 u.2.1 * R t.2.2.1 u.2.2.1 * R t.2.2.2 u.2.2.2 *
    r.get u) loops nodup_loops newRank4 t).trans ?_
  simp [mem_loops, get_new]

theorem energyDensity_eq (c : Idx4 → ℝ) (e : Mat3) :
    energyDensity c e = 1 / 2 * ∑ t : Idx4, c t * e t.1 t.2.1 * e t.2.2.1 t.2.2.2 := by
  unfold energyDensity
  rw [foldl_add, sum_loops, zero_add]

theorem contractLast_eq (r : Rank4) (e : Mat3) (i j : Fin 3) :
    r.contractLast e i j = ∑ k, ∑ l, r.get (i, j, k, l) * e k l := by
  have key : ∀ (l : List Idx4) (out : Mat3),
      (l.foldl (fun (out : Mat3) t => out.updateRow t.1 (Function.update (out t.1) t.2.1
        (out t.1 t.2.1 + r.get t * e t.2.2.1 t.2.2.2))) out) i j =
      out i j + (l.map fun t => if t.1 = i ∧ t.2.1 = j then r.get t * e t.2.2.1 t.2.2.2 else 0).sum := by
    intro l
    induction l with
    | nil => simp
    | cons t l ih =>
      intro out
      rw [List.foldl_cons, ih, List.map_cons, List.sum_cons, ← add_assoc]
      congr 1
      rw [Matrix.updateRow_apply]
      by_cases h1 : i = t.1
      · rw [if_pos h1, Function.update_apply]
        by_cases h2 : j = t.2.1
        · simp [h1, h2]
        · have h2' : ¬ t.2.1 = j := fun h => h2 h.symm
          simp [h1, h2, h2']
      · have h1' : ¬ t.1 = i := fun h => h1 h.symm
        simp [h1, h1']
  refine (key loops 0).trans ?_
  rw [sum_loops, sum_idx]
  simp only [Matrix.zero_apply, zero_add]
  rw [Finset.sum_eq_single i (by intro a _ ha; simp [ha]) (by simp)]
  rw [Finset.sum_eq_single j (by intro a _ ha; simp [ha]) (by simp)]
  simp

theorem dispElem_eq (m n : Fin 3) (f : Fin 3 → ℝ) (c : Idx4 → ℝ) :
    dispElem m n f c = (2 * Real.pi) ^ 2 * ∑ j, ∑ l, c (m, j, n, l) * f j * f l := by
  unfold dispElem
  have : ∀ (l : List (Fin 3)) (a : ℝ), l.foldl (fun (elem : ℝ) j =>
      (List.finRange 3).foldl (fun (elem : ℝ) l => elem + c (m, j, n, l) * f j * f l) elem) a =
      a + (l.map fun j => ∑ l, c (m, j, n, l) * f j * f l).sum := by
    intro l
    induction l with
    | nil => simp
    | cons x l ih =>
      intro a
      rw [List.foldl_cons, foldl_add, ih, sum_finRange, List.map_cons, List.sum_cons, add_assoc]
  rw [this, sum_finRange, zero_add, mul_comm]

theorem effForce_eq (S : Mat3) (c : Fin 3) (k : Fin 3 → ℝ) (ind : ℂ) :
    effForce S c k ind = -(2 * Real.pi * Complex.I * ind * ∑ j, (S c j : ℂ) * (k j : ℂ)) := by
  unfold effForce
  rw [foldl_add, sum_finRange, zero_add, Finset.mul_sum, ← Finset.sum_neg_distrib]
  refine Finset.sum_congr rfl fun j _ => ?_
  push_cast
  ring

end Gopf.Elasticity
