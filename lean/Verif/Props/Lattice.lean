import Verif.Model.Lattice
import Verif.Proofs.Product
import Mathlib.Analysis.Calculus.FDeriv.Mul
import Mathlib.Analysis.Matrix.Normed
import Mathlib.Analysis.Calculus.Deriv.Mul
import Mathlib.Analysis.Calculus.Deriv.Comp
import Mathlib.Analysis.Calculus.Deriv.Add
import Mathlib.Analysis.Calculus.Deriv.Pow
import Mathlib.LinearAlgebra.Matrix.Determinant.Basic
import Mathlib.Topology.Algebra.Module.FiniteDimension

/-!
# C60, C61, C63, C88, C89: cells, reciprocal cells, plane densities and start points
-/

namespace Gopf.Props
open Pfc

/-! ## C60 -/

private theorem reciprocal_eq {n : ℕ} (C : Matrix (Fin n) (Fin n) ℝ) :
    reciprocal C = (2 * Real.pi) • (C⁻¹).transpose := by
  ext i j; simp [reciprocal]

/-- C60: every real cell vector (column `i`) and reciprocal cell vector (column `j`) have the scalar
product 2π if `i = j` and 0 otherwise. -/
theorem c60_dual {n : ℕ} (C : Matrix (Fin n) (Fin n) ℝ) (hC : C.det ≠ 0) (i j : Fin n) :
    ∑ x, C x i * reciprocal C x j = if i = j then 2 * Real.pi else 0 := by
  have h : C⁻¹ * C = 1 := Matrix.nonsing_inv_mul C (isUnit_iff_ne_zero.mpr hC)
  have : ∑ x, C x i * reciprocal C x j = 2 * Real.pi * (C⁻¹ * C) j i := by
    rw [Matrix.mul_apply, Finset.mul_sum]
    refine Finset.sum_congr rfl fun x _ => ?_
    simp only [reciprocal, Matrix.of_apply]; ring
  rw [this, h, Matrix.one_apply]
  by_cases hij : i = j
  · subst hij; simp
  · rw [if_neg hij, if_neg (fun h => hij h.symm), mul_zero]

/-- C60: the reciprocal cell is the only one with this property. -/
theorem c60_unique {n : ℕ} (C B : Matrix (Fin n) (Fin n) ℝ) (hC : C.det ≠ 0)
    (hB : ∀ i j, ∑ x, C x i * B x j = if i = j then 2 * Real.pi else 0) : B = reciprocal C := by
  have h1 : C.transpose * B = (2 * Real.pi) • (1 : Matrix (Fin n) (Fin n) ℝ) := by
    ext i j
    rw [Matrix.mul_apply]
    simp only [Matrix.transpose_apply, hB, Matrix.smul_apply, Matrix.one_apply, smul_eq_mul, mul_ite,
      mul_one, mul_zero]
  have hu : IsUnit C.transpose.det := by rw [Matrix.det_transpose]; exact isUnit_iff_ne_zero.mpr hC
  have h2 : C.transpose⁻¹ * (C.transpose * B) = B := by
    rw [← Matrix.mul_assoc, Matrix.nonsing_inv_mul _ hu, Matrix.one_mul]
  rw [← h2, h1, reciprocal_eq, Matrix.transpose_nonsing_inv]
  simp

/-- C60: the reciprocal cell of the reciprocal cell is the cell. -/
theorem c60_involution {n : ℕ} (C : Matrix (Fin n) (Fin n) ℝ) (hC : C.det ≠ 0) :
    reciprocal (reciprocal C) = C := by
  have hpi : (2 * Real.pi) ≠ 0 := by positivity
  have hu := isUnit_iff_ne_zero.mpr hC
  symm
  apply c60_unique
  · rw [reciprocal_eq, Matrix.det_smul, Matrix.det_transpose, Matrix.det_nonsing_inv]
    have : Ring.inverse C.det ≠ 0 := by rw [Ring.inverse_eq_inv']; exact inv_ne_zero hC
    exact mul_ne_zero (pow_ne_zero _ hpi) this
  · intro i j
    have := c60_dual C hC j i
    rw [show (if i = j then 2 * Real.pi else 0) = if j = i then 2 * Real.pi else 0 by
      by_cases h : i = j
      · simp [h]
      · rw [if_neg h, if_neg (fun h' => h h'.symm)], ← this]
    exact Finset.sum_congr rfl fun x _ => mul_comm _ _

/-- C60: the volume of the reciprocal cell. -/
theorem c60_volume {n : ℕ} (C : Matrix (Fin n) (Fin n) ℝ) :
    volume (reciprocal C) = (2 * Real.pi) ^ n / volume C := by
  unfold volume
  rw [reciprocal_eq, Matrix.det_smul, Matrix.det_transpose, Matrix.det_nonsing_inv, Ring.inverse_eq_inv']
  simp [div_eq_mul_inv]

/-- C60: an HKL vector has the scalar products 2πH, 2πK and 2πL with the cell vectors. -/
theorem c60_hkl_three (C : Matrix (Fin 3) (Fin 3) ℝ) (hC : C.det ≠ 0) (m : Miller) :
    ∑ x, C x 0 * hklVector (k := 1) (reciprocal C) m x = 2 * Real.pi * m.H ∧
    ∑ x, C x 1 * hklVector (k := 1) (reciprocal C) m x = 2 * Real.pi * m.K ∧
    ∑ x, C x 2 * hklVector (k := 1) (reciprocal C) m x = 2 * Real.pi * m.L := by
  have h := c60_dual C hC
  have key : ∀ i : Fin 3, ∑ x, C x i * hklVector (k := 1) (reciprocal C) m x =
      m.H * (∑ x, C x i * reciprocal C x 0) + m.K * (∑ x, C x i * reciprocal C x 1) +
        m.L * (∑ x, C x i * reciprocal C x 2) := by
    intro i
    simp only [Fin.sum_univ_three, hklVector, Nat.reduceAdd, if_true]
    ring
  refine ⟨?_, ?_, ?_⟩ <;> rw [key, h, h, h] <;> simp <;> ring

/-- C60: in two dimensions the third index is ignored. -/
theorem c60_hkl_two (C : Matrix (Fin 2) (Fin 2) ℝ) (hC : C.det ≠ 0) (m : Miller) :
    ∑ x, C x 0 * hklVector (k := 0) (reciprocal C) m x = 2 * Real.pi * m.H ∧
    ∑ x, C x 1 * hklVector (k := 0) (reciprocal C) m x = 2 * Real.pi * m.K := by
  have h := c60_dual C hC
  have key : ∀ i : Fin 2, ∑ x, C x i * hklVector (k := 0) (reciprocal C) m x =
      m.H * (∑ x, C x i * reciprocal C x 0) + m.K * (∑ x, C x i * reciprocal C x 1) := by
    intro i
    simp only [Fin.sum_univ_two, hklVector, zero_add, Nat.reduceEqDiff, if_false]
    ring
  refine ⟨?_, ?_⟩ <;> rw [key, h, h] <;> simp <;> ring

/-- The hypothesis of the C60 theorems is met by the library's cells. -/
example : (fcc 2).det ≠ 0 := by
  rw [Matrix.det_fin_three]; simp [fcc]

/-! ## C61 -/

section
attribute [local instance] Matrix.linftyOpNormedRing Matrix.linftyOpNormedAlgebra
  Matrix.linftyOpNormedSpace

private theorem inverse_deriv {n : ℕ} (C D : Matrix (Fin n) (Fin n) ℝ) (hC : C.det ≠ 0) (i j : Fin n) :
    HasDerivAt (fun t : ℝ => (C + t • D)⁻¹ i j) (-(C⁻¹ * D * C⁻¹) i j) 0 := by
  have hu : IsUnit C := (Matrix.isUnit_iff_isUnit_det C).mpr (isUnit_iff_ne_zero.mpr hC)
  have h0 := hasFDerivAt_ringInverse (𝕜 := ℝ) (R := Matrix (Fin n) (Fin n) ℝ) hu.unit
  have hl : HasDerivAt (fun t : ℝ => C + t • D) D 0 := by
    have := (hasDerivAt_id (0 : ℝ)).smul_const D
    exact (this.const_add C).congr_deriv (by simp)
  have h1 : HasFDerivAt Ring.inverse (-ContinuousLinearMap.mulLeftRight ℝ (Matrix (Fin n) (Fin n) ℝ)
      ↑hu.unit⁻¹ ↑hu.unit⁻¹) (C + (0 : ℝ) • D) := by
    simpa using h0
  have h2 := h1.comp_hasDerivAt (0 : ℝ) hl
  have hinv : (↑(hu.unit⁻¹) : Matrix (Fin n) (Fin n) ℝ) = C⁻¹ := by
    rw [Matrix.nonsing_inv_eq_ringInverse, Ring.inverse_of_isUnit hu]
    
  let L : Matrix (Fin n) (Fin n) ℝ →L[ℝ] ℝ :=
    LinearMap.toContinuousLinearMap (Matrix.entryLinearMap ℝ ℝ i j)
  have h3 := L.hasFDerivAt.comp_hasDerivAt (0 : ℝ) h2
  have e1 : (fun t : ℝ => (C + t • D)⁻¹ i j) = L ∘ (Ring.inverse ∘ fun t : ℝ => C + t • D) := by
    funext t
    simp [L, Matrix.nonsing_inv_eq_ringInverse]
  rw [e1]
  refine h3.congr_deriv ?_
  simp [L, hinv, ContinuousLinearMap.mulLeftRight_apply]
  rfl

end

/-- The derivative of the reciprocal cell when the cell changes at the rate `D`. -/
def IsRate {n : ℕ} (C D B' : Matrix (Fin n) (Fin n) ℝ) : Prop :=
  ∀ i j, HasDerivAt (fun t : ℝ => reciprocal (C + t • D) i j) (B' i j) 0

private theorem true_rate {n : ℕ} (C D : Matrix (Fin n) (Fin n) ℝ) (hC : C.det ≠ 0) :
    IsRate C D (cellChange (reciprocal C) D.transpose) := by
  intro i j
  have h := HasDerivAt.const_mul (2 * Real.pi) (inverse_deriv C D hC j i)
  have hpi : (2 * Real.pi) ≠ 0 := by positivity
  simp only [reciprocal, Matrix.of_apply]
  refine h.congr_deriv ?_
  have e : cellChange (Matrix.of fun j i => 2 * Real.pi * C⁻¹ i j) D.transpose =
      (-(2 * Real.pi)) • (C⁻¹ * D * C⁻¹).transpose := by
    change cellChange (reciprocal C) D.transpose = _
    rw [cellChange, reciprocal_eq, Matrix.transpose_mul, Matrix.transpose_mul]
    simp only [Matrix.smul_mul, Matrix.mul_smul, smul_smul, Matrix.mul_assoc]
    congr 1
    field_simp
  change _ = cellChange (Matrix.of fun j i => 2 * Real.pi * C⁻¹ i j) D.transpose i j
  rw [e, Matrix.smul_apply, Matrix.transpose_apply, smul_eq_mul]
  ring

/-- C61: the reported change of the reciprocal cell is its first order change exactly if the change of
the cell is symmetric. -/
theorem c61_first_order {n : ℕ} (C D : Matrix (Fin n) (Fin n) ℝ) (hC : C.det ≠ 0) :
    IsRate C D (cellChange (reciprocal C) D) ↔ D.transpose = D := by
  have hpi : (2 * Real.pi) ≠ 0 := by positivity
  constructor
  · intro h
    have ht := true_rate C D hC
    have heq : cellChange (reciprocal C) D.transpose = cellChange (reciprocal C) D := by
      ext i j; exact (ht i j).unique (h i j)
    have hu : IsUnit (reciprocal C) := by
      rw [Matrix.isUnit_iff_isUnit_det, isUnit_iff_ne_zero]
      have := c60_volume C
      unfold volume at this
      rw [this]
      exact div_ne_zero (pow_ne_zero _ hpi) hC
    unfold cellChange at heq
    have hs : (-1 / (2 * Real.pi)) ≠ 0 := div_ne_zero (by norm_num) hpi
    have h2 := smul_right_injective (Matrix (Fin n) (Fin n) ℝ) hs heq
    have h3 := hu.mul_right_cancel h2
    exact hu.mul_left_cancel h3
  · intro h
    have ht := true_rate C D hC
    rwa [h] at ht

/-- C61: for a change that is not symmetric the right answer is obtained by passing its transpose. -/
theorem c61_transpose {n : ℕ} (C D : Matrix (Fin n) (Fin n) ℝ) (hC : C.det ≠ 0) :
    IsRate C D (cellChange (reciprocal C) D.transpose) := true_rate C D hC

/-- C61: the same for HKL vectors of three dimensional cells: for a symmetric change the reported change
is the derivative of the HKL vector, for every index. -/
theorem c61_hkl (C D : Matrix (Fin 3) (Fin 3) ℝ) (hC : C.det ≠ 0) (hD : D.transpose = D) (m : Miller)
    (i : Fin 3) : HasDerivAt (fun t : ℝ => hklVector (k := 1) (reciprocal (C + t • D)) m i)
      (changeHKLVector (k := 1) (reciprocal C) m D i) 0 := by
  have h := (c61_first_order C D hC).mpr hD
  simp only [changeHKLVector, hklVector, Nat.reduceAdd, if_true]
  exact (((h i 0).const_mul (m.H : ℝ)).add ((h i 1).const_mul (m.K : ℝ))).add
    ((h i 2).const_mul (m.L : ℝ))

/-- C61: a shear of the simple cubic cell along one axis is not symmetric. -/
example : (sc3D 1).det ≠ 0 ∧
    ¬ IsRate (sc3D 1) !![0, 1, 0; 0, 0, 0; 0, 0, 0] (cellChange (reciprocal (sc3D 1)) !![0, 1, 0; 0, 0, 0; 0, 0, 0]) := by
  have h : (sc3D 1).det ≠ 0 := by rw [Matrix.det_fin_three]; simp [sc3D]
  refine ⟨h, fun hr => ?_⟩
  have := (c61_first_order _ _ h).mp hr
  have := congrFun (congrFun this 0) 1
  simp [Matrix.transpose_apply] at this

/-! ## C63 -/

private theorem octant_calls (x0 : List ℚ) (p : Pfutil.Product) (fuel : ℕ) (ts : List (List Int))
    (h : Pfutil.Product.forLoop fuel p = some ts) (hl : ∀ t ∈ ts, t.length = x0.length) :
    HyperOctant.forLoop fuel ⟨x0, some p⟩ =
      some (ts.map fun c => x0.zipWith (fun (x : ℚ) (ci : Int) => (2 * (ci : ℚ) - 1) * x) c) := by
  induction fuel generalizing p ts with
  | zero => simp [Pfutil.Product.forLoop] at h
  | succ f ih =>
    rw [Pfutil.Product.forLoop] at h
    rw [HyperOctant.forLoop]
    cases hn : p.next with
    | none => simp [hn] at h
    | some r =>
      obtain ⟨r, p'⟩ := r
      simp only [hn, Option.bind_eq_bind, Option.bind_some] at h
      cases r with
      | none =>
        simp only [Option.pure_def, Option.some.injEq] at h
        subst h
        simp [HyperOctant.next, hn]
      | some t =>
        simp only at h
        cases hf : Pfutil.Product.forLoop f p' with
        | none => simp [hf] at h
        | some ts' =>
          simp only [hf, Option.bind_some, Option.pure_def, Option.some.injEq] at h
          subst h
          have ht := hl t (by simp)
          have := ih p' ts' hf (fun t ht => hl t (by simp [ht]))
          simp [HyperOctant.next, hn, ht, this]

private theorem octant_mem (x0 : List ℚ) (v : List ℚ) :
    (∃ c ∈ Spec.allTuples (x0.map fun _ => 2),
      x0.zipWith (fun (x : ℚ) (ci : Int) => (2 * (ci : ℚ) - 1) * x) c = v) ↔
    List.Forall₂ (fun x y => y = x ∨ y = -x) x0 v := by
  induction x0 generalizing v with
  | nil => simp [Spec.allTuples]
  | cons x xs ih =>
    simp only [List.map_cons, Spec.allTuples, List.mem_flatMap, List.mem_map]
    rw [List.forall₂_cons_left_iff]
    constructor
    · rintro ⟨c, ⟨d, hd, c', hc', rfl⟩, rfl⟩
      refine ⟨(2 * (d : ℚ) - 1) * x, _, ?_, (ih _).mp ⟨c', hc', rfl⟩, rfl⟩
      have hd' := List.mem_range.mp hd
      have : d = 0 ∨ d = 1 := by omega
      rcases this with rfl | rfl
      · right; norm_num
      · left; norm_num
    · rintro ⟨y, ys, hy, h, rfl⟩
      obtain ⟨c', hc', he⟩ := (ih _).mpr h
      rcases hy with rfl | rfl
      · exact ⟨1 :: c', ⟨1, by simp, c', hc', rfl⟩, by simp [he]; norm_num⟩
      · exact ⟨0 :: c', ⟨0, by simp, c', hc', rfl⟩, by simp [he]⟩

private theorem octant_nodup (x0 : List ℚ) (hx : ∀ x ∈ x0, x ≠ 0) (c d : List Int)
    (hc : c.length = x0.length) (hd : d.length = x0.length)
    (h : x0.zipWith (fun (x : ℚ) (ci : Int) => (2 * (ci : ℚ) - 1) * x) c =
      x0.zipWith (fun (x : ℚ) (ci : Int) => (2 * (ci : ℚ) - 1) * x) d) : c = d := by
  induction x0 generalizing c d with
  | nil => simp at hc hd; rw [hc, hd]
  | cons x xs ih =>
    cases c with
    | nil => simp at hc
    | cons c cs =>
      cases d with
      | nil => simp at hd
      | cons d ds =>
        simp only [List.zipWith_cons_cons, List.cons.injEq] at h
        have h1 := mul_right_cancel₀ (hx x (by simp)) h.1
        have h2 : c = d := by
          have : (c : ℚ) = d := by linarith
          exact_mod_cast this
        rw [h2, ih (fun x hx' => hx x (by simp [hx'])) cs ds (by simpa using hc) (by simpa using hd) h.2]

/-- C63: for a non-empty start vector the loop over the explorer's points ends after `2 ^ n` points,
which are exactly the vectors obtained from the start vector by changing signs; if no component is zero
no point occurs twice. -/
theorem c63_octants (x0 : List ℚ) (hne : x0 ≠ []) :
    ∃ pts, HyperOctant.forLoop (2 ^ x0.length + 1) ⟨x0, none⟩ = some pts ∧
      pts.length = 2 ^ x0.length ∧
      (∀ v, v ∈ pts ↔ List.Forall₂ (fun x y => y = x ∨ y = -x) x0 v) ∧
      ((∀ x ∈ x0, x ≠ 0) → pts.Nodup) := by
  have hprod : (x0.map fun _ => 2).prod = 2 ^ x0.length := by simp
  have h := Pfutil.forLoop_new (x0.map fun _ => 2) (by simpa using hne) (by simp) (2 ^ x0.length + 1)
    (by rw [hprod])
  have hlen : ∀ t ∈ Spec.allTuples (x0.map fun _ => 2), t.length = x0.length := by
    intro t ht
    have := (Pfutil.allTuples_mem _ t).mp ht
    have := this.length_eq
    simpa using this.symm
  have h2 := octant_calls x0 _ _ _ h hlen
  refine ⟨(Spec.allTuples (x0.map fun _ => 2)).map fun c =>
    x0.zipWith (fun (x : ℚ) (ci : Int) => (2 * (ci : ℚ) - 1) * x) c, ?_, ?_, ?_, ?_⟩
  rotate_left
  · rw [List.length_map, Pfutil.allTuples_length, hprod]
  · intro v
    rw [List.mem_map]
    exact octant_mem x0 v
  · intro hx
    refine List.Nodup.map_on ?_ (Pfutil.allTuples_nodup _)
    intro c hc d hd he
    exact octant_nodup x0 hx c d (hlen c hc) (hlen d hd) he
  · rw [← h2]
    have hn : HyperOctant.next ⟨x0, none⟩ = HyperOctant.next
        ⟨x0, some (Pfutil.newProduct (List.map Int.ofNat (x0.map fun _ => 2)))⟩ := by
      simp only [HyperOctant.next, Option.getD_none, Option.getD_some, List.map_map]
      rfl
    simp only [HyperOctant.forLoop, hn]

/-- C63: with an empty start vector the second call panics. -/
theorem c63_empty (fuel : ℕ) : HyperOctant.forLoop fuel ⟨[], none⟩ = none := by
  match fuel with
  | 0 => rfl
  | 1 => rfl
  | n + 2 => rfl

/-- C63: the single point explorer returns its point once and nil ever after. -/
theorem c63_single (x0 : List ℚ) (n : ℕ) :
    let s1 := (SinglePoint.next ⟨x0, false⟩).2
    (SinglePoint.next ⟨x0, false⟩).1 = some x0 ∧
      (SinglePoint.next ((fun s : SinglePoint => s.next.2)^[n] s1)).1 = none := by
  refine ⟨rfl, ?_⟩
  have : ∀ n : ℕ, (fun s : SinglePoint => s.next.2)^[n] ⟨x0, true⟩ = ⟨x0, true⟩ := by
    intro n
    induction n with
    | zero => rfl
    | succ n ih => rw [Function.iterate_succ_apply]; exact ih
  change (SinglePoint.next ((fun s : SinglePoint => s.next.2)^[n] ⟨x0, true⟩)).1 = none
  rw [this]; rfl

example : HyperOctant.forLoop 5 ⟨[1/10, 2], none⟩ =
    some [[-1/10, -2], [-1/10, 2], [1/10, -2], [1/10, 2]] := by decide +kernel

/-! ## C88: the predefined cells -/

/-- The points of the lattice spanned by the columns of a cell. -/
def latticePoints {n : ℕ} (C : Matrix (Fin n) (Fin n) ℝ) : Set (Fin n → ℝ) :=
  {v | ∃ z : Fin n → ℤ, ∀ i, v i = ∑ j, C i j * z j}

/-- C88: the points of the FCC cell are the points of a cubic grid of spacing `a/2` whose coordinates
have an even sum: corners and face centres of cubes of side `a`. -/
theorem c88_fcc (a : ℝ) (v : Fin 3 → ℝ) : v ∈ latticePoints (fcc a) ↔
    ∃ z : Fin 3 → ℤ, Even (z 0 + z 1 + z 2) ∧ ∀ i, v i = a / 2 * z i := by
  constructor
  · rintro ⟨z, hz⟩
    refine ⟨![z 0 + z 2, z 0 + z 1, z 1 + z 2], ⟨z 0 + z 1 + z 2, by simp; ring⟩, fun i => ?_⟩
    rw [hz]
    fin_cases i <;> simp [fcc, Fin.sum_univ_three] <;> ring
  · rintro ⟨z, ⟨s, hs⟩, hz⟩
    -- z0 = x + w, z1 = x + y, z2 = y + w
    refine ⟨![s - z 2, s - z 0, s - z 1], fun i => ?_⟩
    rw [hz]
    have hs' : (z 0 : ℝ) + z 1 + z 2 = s + s := by exact_mod_cast hs
    fin_cases i <;> simp [fcc, Fin.sum_univ_three]
    · linear_combination (a / 2) * hs'
    · linear_combination (a / 2) * hs'
    · linear_combination (a / 2) * hs'

/-- C88: the points of the BCC cell are the points of a cubic grid of spacing `a/2` whose coordinates
are all even or all odd: corners and centres of cubes of side `a`. -/
theorem c88_bcc (a : ℝ) (v : Fin 3 → ℝ) : v ∈ latticePoints (bcc a) ↔
    ∃ z : Fin 3 → ℤ, (∃ w : Fin 3 → ℤ, (∀ i, z i = 2 * w i) ∨ ∀ i, z i = 2 * w i + 1) ∧
      ∀ i, v i = a / 2 * z i := by
  constructor
  · rintro ⟨z, hz⟩
    refine ⟨![z 0 - z 1 + z 2, z 0 + z 1 - z 2, z 0 + z 1 + z 2], ?_, fun i => ?_⟩
    · rcases Int.even_or_odd' (z 0 + z 1 + z 2) with ⟨s, h | h⟩
      · refine ⟨![s - z 1, s - z 2, s], Or.inl fun i => ?_⟩
        fin_cases i <;> simp <;> omega
      · refine ⟨![s - z 1, s - z 2, s], Or.inr fun i => ?_⟩
        fin_cases i <;> simp <;> omega
    · rw [hz]
      fin_cases i <;> simp [bcc, Fin.sum_univ_three] <;> ring
  · rintro ⟨z, ⟨w, hw⟩, hz⟩
    refine ⟨![w 0 + w 1 + (z 0 - 2 * w 0), w 2 - w 0, w 2 - w 1], fun i => ?_⟩
    rw [hz]
    have hd : ∃ d : ℤ, ∀ i, z i = 2 * w i + d := by
      rcases hw with h | h
      · exact ⟨0, fun i => by rw [h]; ring⟩
      · exact ⟨1, h⟩
    obtain ⟨d, hd⟩ := hd
    fin_cases i <;> simp [bcc, Fin.sum_univ_three, hd] <;> ring

/-- C88: volumes of the predefined cells. -/
theorem c88_volumes (a : ℝ) : volume (fcc a) = a ^ 3 / 4 ∧ volume (bcc a) = a ^ 3 / 2 ∧
    volume (sc3D a) = a ^ 3 ∧ volume (sc2D a) = a ^ 2 := by
  unfold volume
  refine ⟨?_, ?_, ?_, ?_⟩
  · rw [Matrix.det_fin_three]; simp [fcc]; ring
  · rw [Matrix.det_fin_three]; simp [bcc]; ring
  · rw [Matrix.det_fin_three]; simp [sc3D]; ring
  · rw [Matrix.det_fin_two]; simp [sc2D]; ring

/-- C88: the vectors of a triangular lattice have equal lengths and enclose 60 (or 120) degrees. The cell
called triangular has neither property: its second vector is shorter and encloses 45 degrees. -/
theorem c88_triangular_lengths (a : ℝ) (ha : a ≠ 0) :
    ∑ x, triangular2D a x 1 * triangular2D a x 1 ≠ ∑ x, triangular2D a x 0 * triangular2D a x 0 := by
  simp only [triangular2D, Fin.sum_univ_two]
  simp
  intro h
  have : a * a = 0 := by linarith
  simp [ha] at this

/-- C88: in fact it spans a square lattice with lattice parameter `a / √2`. -/
theorem c88_triangular_is_square (a : ℝ) : ∃ u w : Fin 2 → ℝ,
    (∑ x, u x * w x = 0) ∧ (∑ x, u x * u x = a ^ 2 / 2) ∧ (∑ x, w x * w x = a ^ 2 / 2) ∧
    ∀ v, v ∈ latticePoints (triangular2D a) ↔ ∃ p q : ℤ, ∀ i, v i = p * u i + q * w i := by
  refine ⟨![a / 2, a / 2], ![a / 2, -(a / 2)], ?_, ?_, ?_, fun v => ?_⟩
  · simp [Fin.sum_univ_two]
  · simp [Fin.sum_univ_two]; ring
  · simp [Fin.sum_univ_two]; ring
  constructor
  · rintro ⟨z, hz⟩
    refine ⟨z 0 + z 1, z 0, fun i => ?_⟩
    rw [hz]
    fin_cases i <;> simp [triangular2D, Fin.sum_univ_two] <;> ring
  · rintro ⟨p, q, h⟩
    refine ⟨![q, p - q], fun i => ?_⟩
    rw [h]
    fin_cases i <;> simp [triangular2D, Fin.sum_univ_two] <;> ring

/-! ## C89: plane density -/

/-- C89: value of the plane density, in terms of the sorted indices. -/
theorem c89_value (m : Miller) (p q r : ℤ) (hpq : p ≤ q) (hqr : q ≤ r)
    (hperm : [m.H, m.K, m.L].Perm [p, q, r]) :
    cubicUnitCellDensity m =
      if p = 0 ∧ q = 0 then some 1
      else if p = 1 then some (q * r / Real.sqrt (1 + q ^ 2 + r ^ 2))
      else if p = 0 then some (q * r / Real.sqrt (q ^ 2 + r ^ 2))
      else none := by
  have hs : ([m.at 0, m.at 1, m.at 2] : List Int).insertionSort (· ≤ ·) = [p, q, r] := by
    refine List.Perm.eq_of_pairwise' (r := (· ≤ ·)) (List.pairwise_insertionSort _ _) ?_ ?_
    · simp [hpq, hqr, hpq.trans hqr]
    · exact (List.perm_insertionSort _ _).trans hperm
  unfold cubicUnitCellDensity
  rw [hs]
  simp only
  by_cases h0 : p = 0 ∧ q = 0
  · rw [if_pos h0, if_pos h0]
  rw [if_neg h0, if_neg h0]
  by_cases h1 : p = 1
  · rw [if_pos h1, if_pos h1]
    have hq : (0 : ℝ) < q := by exact_mod_cast (by omega : (0 : ℤ) < q)
    have hr : (0 : ℝ) < r := by exact_mod_cast (by omega : (0 : ℤ) < r)
    congr 1
    have : crossLength (0 - 1, 0 - 0, 1 / (r : ℝ) - 0) (0 - 1, 1 / (q : ℝ) - 0, 0 - 0) =
        Real.sqrt (1 + q ^ 2 + r ^ 2) / (q * r) := by
      unfold crossLength
      rw [← Real.sqrt_sq (mul_pos hq hr).le, ← Real.sqrt_div (by positivity)]
      congr 1
      field_simp
      ring
    rw [this, one_div_div]
  rw [if_neg h1, if_neg h1]
  by_cases h2 : p = 0
  · rw [if_pos h2, if_pos h2]
    have hq0 : q ≠ 0 := fun h => h0 ⟨h2, h⟩
    have hq : (0 : ℝ) < q := by exact_mod_cast (by omega : (0 : ℤ) < q)
    have hr : (0 : ℝ) < r := by exact_mod_cast (by omega : (0 : ℤ) < r)
    congr 1
    have : crossLength (0 - 0, 0 - 1 / (q : ℝ), 1 / (r : ℝ) - 0) (1, 0, 0) =
        Real.sqrt (q ^ 2 + r ^ 2) / (q * r) := by
      unfold crossLength
      rw [← Real.sqrt_sq (mul_pos hq hr).le, ← Real.sqrt_div (by positivity)]
      congr 1
      field_simp
      ring
    rw [this, one_div_div]
  · rw [if_neg h2, if_neg h2]

/-- C89: the number of lattice points per area in a plane of the simple cubic lattice with coprime indices
is `1 / |hkl|`. The computed density has this value exactly if no index exceeds one (indices not
negative, the smallest 0 or 1, not all zero; with two zero indices coprime means that the third is
one). -/
theorem c89_right_iff (m : Miller) (p q r : ℤ) (hp : p = 0 ∨ p = 1) (hpq : p ≤ q) (hqr : q ≤ r)
    (hr : 0 < r) (hco : p = 0 ∧ q = 0 → r = 1) (hperm : [m.H, m.K, m.L].Perm [p, q, r]) :
    cubicUnitCellDensity m = some (1 / Real.sqrt (m.H ^ 2 + m.K ^ 2 + m.L ^ 2)) ↔ r = 1 := by
  have hsum : (m.H : ℝ) ^ 2 + (m.K : ℝ) ^ 2 + (m.L : ℝ) ^ 2 = (p : ℝ) ^ 2 + (q : ℝ) ^ 2 + (r : ℝ) ^ 2 := by
    have := (hperm.map (fun x : ℤ => (x : ℝ) ^ 2)).sum_eq
    simpa [add_assoc] using this
  rw [hsum, c89_value m p q r hpq hqr hperm]
  by_cases h0 : p = 0 ∧ q = 0
  · rw [if_pos h0]
    obtain rfl := hco h0
    simp [h0.1, h0.2]
  rw [if_neg h0]
  have key : ∀ x : ℝ, 0 < x → ((q : ℝ) * r / Real.sqrt x = 1 / Real.sqrt x ↔ q * r = 1) := by
    intro x hx
    have : Real.sqrt x ≠ 0 := (Real.sqrt_pos.mpr hx).ne'
    rw [div_left_inj' this]
    exact_mod_cast Iff.rfl
  have hq : 0 < q := by
    rcases hp with rfl | rfl
    · have : q ≠ 0 := fun h => h0 ⟨rfl, h⟩
      omega
    · omega
  have fin : q * r = 1 ↔ r = 1 := by
    constructor
    · intro h
      exact Int.eq_one_of_mul_eq_one_left (by omega) h
    · rintro rfl
      have : q = 1 := by omega
      simp [this]
  have hqR : (0 : ℝ) < q := by exact_mod_cast hq
  rcases hp with rfl | rfl
  · rw [if_neg (by norm_num), if_pos rfl, Option.some.injEq]
    rw [show ((0 : ℤ) : ℝ) ^ 2 + (q : ℝ) ^ 2 + (r : ℝ) ^ 2 = (q : ℝ) ^ 2 + (r : ℝ) ^ 2 by simp]
    rw [key _ (by positivity), fin]
  · rw [if_pos rfl, Option.some.injEq]
    rw [show ((1 : ℤ) : ℝ) ^ 2 + (q : ℝ) ^ 2 + (r : ℝ) ^ 2 = 1 + (q : ℝ) ^ 2 + (r : ℝ) ^ 2 by simp]
    rw [key _ (by positivity), fin]

/-- C89: (1 2 1) is too dense by a factor of two. -/
example : cubicUnitCellDensity ⟨1, 2, 1⟩ = some (2 / Real.sqrt 6) := by
  have h := c89_value ⟨1, 2, 1⟩ 1 1 2 (by norm_num) (by norm_num) (by decide)
  rw [h]; norm_num

end Gopf.Props
