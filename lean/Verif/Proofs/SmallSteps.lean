import Mathlib.Analysis.Complex.Polynomial.Basic
import Mathlib.Analysis.Matrix.Normed
import Mathlib.LinearAlgebra.Matrix.Charpoly.Coeff
import Mathlib.LinearAlgebra.Matrix.Charpoly.Eigs
import Mathlib.LinearAlgebra.Matrix.ToLinearEquiv
import Mathlib.Topology.Instances.Matrix
import Mathlib.Topology.MetricSpace.Sequences
import Mathlib.Topology.Algebra.Module.FiniteDimension

/-!
# Eigenvalues of steps of linear equations, for small time steps
-/

namespace Gopf.Proofs
open Filter Topology

variable {n : ℕ}

/-- A step multiplies `w` by `μ`: part of the equations, `K`, sees the new values. -/
def StepsBy (K A : Matrix (Fin n) (Fin n) ℂ) (dt : ℝ) (μ : ℂ) (w : Fin n → ℂ) : Prop :=
  (μ - 1) • (w - (dt : ℂ) • K.mulVec w) = (dt : ℂ) • A.mulVec w

theorem StepsBy.smul {K A : Matrix (Fin n) (Fin n) ℂ} {dt : ℝ} {μ : ℂ} {w : Fin n → ℂ} (h : StepsBy K A dt μ w) (r : ℂ) :
    StepsBy K A dt μ (r • w) := by
  unfold StepsBy at *
  rw [Matrix.mulVec_smul, Matrix.mulVec_smul, smul_comm (dt : ℂ) r (K.mulVec w), ← smul_sub, smul_comm (μ - 1) r, h, smul_comm]

theorem mulVec_bound (A : Matrix (Fin n) (Fin n) ℂ) : ∃ C : ℝ, 0 ≤ C ∧ ∀ w, ‖A.mulVec w‖ ≤ C * ‖w‖ :=
  ⟨‖A.mulVecLin.toContinuousLinearMap‖, norm_nonneg _, fun w => A.mulVecLin.toContinuousLinearMap.le_opNorm w⟩

/-- If the eigenvalues have negative real parts, short steps shrink. -/
theorem steps_inside (K A : Matrix (Fin n) (Fin n) ℂ)
    (hA : ∀ (l : ℂ) w, w ≠ 0 → A.mulVec w = l • w → l.re < 0) :
    ∃ dt0 : ℝ, 0 < dt0 ∧ ∀ dt : ℝ, 0 < dt → dt < dt0 → ∀ μ w, w ≠ 0 → StepsBy K A dt μ w → ‖μ‖ < 1 := by
  by_contra hcon
  push Not at hcon
  have hseq : ∀ j : ℕ, ∃ (dt : ℝ) (μ : ℂ) (w : Fin n → ℂ), 0 < dt ∧ dt < 1 / ((j : ℝ) + 1) ∧ ‖w‖ = 1 ∧ StepsBy K A dt μ w ∧ 1 ≤ ‖μ‖ := by
    intro j
    obtain ⟨dt, h1, h2, μ, w, h3, h4, h5⟩ := hcon (1 / ((j : ℝ) + 1)) (by positivity)
    refine ⟨dt, μ, ((‖w‖⁻¹ : ℝ) : ℂ) • w, h1, h2, ?_, h4.smul _, h5⟩
    rw [norm_smul, Complex.norm_real, norm_inv, norm_norm]
    exact inv_mul_cancel₀ (norm_ne_zero_iff.mpr h3)
  choose dt μ w h1 h2 h3 h4 h5 using hseq
  obtain ⟨CK, hCK, hK⟩ := mulVec_bound K
  obtain ⟨CA, hCA, hA'⟩ := mulVec_bound A
  have hdt : Tendsto dt atTop (𝓝 0) :=
    squeeze_zero (fun j => (h1 j).le) (fun j => (h2 j).le) tendsto_one_div_add_atTop_nhds_zero_nat
  set l : ℕ → ℂ := fun j => (μ j - 1) / dt j with hl
  have hdtc : ∀ j, (dt j : ℂ) ≠ 0 := fun j => Complex.ofReal_ne_zero.mpr (h1 j).ne'
  have key : ∀ j, l j • (w j - (dt j : ℂ) • K.mulVec (w j)) = A.mulVec (w j) := by
    intro j
    have := h4 j
    unfold StepsBy at this
    have e : (dt j : ℂ)⁻¹ • ((μ j - 1) • (w j - (dt j : ℂ) • K.mulVec (w j))) = A.mulVec (w j) := by
      rw [this, smul_smul, inv_mul_cancel₀ (hdtc j), one_smul]
    rw [← e, smul_smul, hl]
    congr 1
    exact div_eq_inv_mul _ _
  have hre : ∀ j, 0 ≤ 2 * (l j).re + dt j * ‖l j‖ ^ 2 := by
    intro j
    have hμ : μ j = 1 + dt j * l j := by
      rw [hl]
      field_simp [hdtc j]
      ring
    have h6 : 1 ≤ ‖μ j‖ ^ 2 := one_le_pow₀ (h5 j)
    rw [hμ, ← Complex.normSq_eq_norm_sq, Complex.normSq_apply] at h6
    simp only [Complex.add_re, Complex.one_re, Complex.mul_re, Complex.ofReal_re, Complex.ofReal_im, zero_mul, sub_zero,
      Complex.add_im, Complex.one_im, Complex.mul_im, zero_add, add_zero] at h6
    rw [← Complex.normSq_eq_norm_sq, Complex.normSq_apply]
    have h7 : 0 ≤ dt j * (2 * (l j).re + dt j * ((l j).re * (l j).re + (l j).im * (l j).im)) := by linarith
    exact nonneg_of_mul_nonneg_right h7 (h1 j)
  have hsmall : ∀ᶠ j in atTop, ‖l j‖ ≤ 2 * CA := by
    have hev : ∀ᶠ j in atTop, dt j * CK < 1 / 2 := by
      have : Tendsto (fun j => dt j * CK) atTop (𝓝 (0 * CK)) := hdt.mul_const CK
      rw [zero_mul] at this
      exact this.eventually (gt_mem_nhds (by norm_num))
    filter_upwards [hev] with j hj
    have a1 : 1 / 2 ≤ ‖w j - (dt j : ℂ) • K.mulVec (w j)‖ := by
      have b1 := norm_sub_norm_le (w j) ((dt j : ℂ) • K.mulVec (w j))
      have b2 : ‖(dt j : ℂ) • K.mulVec (w j)‖ ≤ dt j * CK := by
        rw [norm_smul, Complex.norm_real, Real.norm_of_nonneg (h1 j).le]
        have := hK (w j)
        rw [h3 j, mul_one] at this
        exact mul_le_mul_of_nonneg_left this (h1 j).le
      rw [h3 j] at b1
      linarith
    have a2 : ‖l j‖ * ‖w j - (dt j : ℂ) • K.mulVec (w j)‖ ≤ CA := by
      rw [← norm_smul, key j]
      have := hA' (w j)
      rwa [h3 j, mul_one] at this
    have a3 := mul_le_mul_of_nonneg_left a1 (norm_nonneg (l j))
    linarith
  obtain ⟨j0, hj0⟩ := eventually_atTop.mp hsmall
  have hcomp : IsCompact (Metric.closedBall (0 : ℂ) (2 * CA) ×ˢ Metric.sphere (0 : Fin n → ℂ) 1) :=
    (isCompact_closedBall _ _).prod (isCompact_sphere _ _)
  obtain ⟨⟨l', w'⟩, hmem, φ, hφ, hlim⟩ := hcomp.tendsto_subseq (x := fun j => (l (j + j0), w (j + j0))) fun j =>
    ⟨by simpa using hj0 (j + j0) (by omega), by simpa using h3 (j + j0)⟩
  have hlim1 : Tendsto (fun j => l (φ j + j0)) atTop (𝓝 l') := (continuous_fst.tendsto _).comp hlim
  have hlim2 : Tendsto (fun j => w (φ j + j0)) atTop (𝓝 w') := (continuous_snd.tendsto _).comp hlim
  have hlim3 : Tendsto (fun j => dt (φ j + j0)) atTop (𝓝 0) :=
    hdt.comp ((tendsto_add_atTop_nat j0).comp hφ.tendsto_atTop)
  have hw' : w' ≠ 0 := by
    have : ‖w'‖ = 1 := by simpa using hmem.2
    intro h0
    rw [h0, norm_zero] at this
    exact zero_ne_one this
  have hmv : ∀ B : Matrix (Fin n) (Fin n) ℂ, Tendsto (fun j => B.mulVec (w (φ j + j0))) atTop (𝓝 (B.mulVec w')) := fun B =>
    (B.mulVecLin.toContinuousLinearMap.continuous.tendsto w').comp hlim2
  have hlim3c : Tendsto (fun j => (dt (φ j + j0) : ℂ)) atTop (𝓝 0) := by
    have := (Complex.continuous_ofReal.tendsto 0).comp hlim3
    rw [Complex.ofReal_zero] at this
    exact this
  have heig : A.mulVec w' = l' • w' := by
    have a1 : Tendsto (fun j => l (φ j + j0) • (w (φ j + j0) - (dt (φ j + j0) : ℂ) • K.mulVec (w (φ j + j0)))) atTop
        (𝓝 (l' • (w' - (0 : ℂ) • K.mulVec w'))) := hlim1.smul (hlim2.sub (hlim3c.smul (hmv K)))
    simp only [key, zero_smul, sub_zero] at a1
    exact tendsto_nhds_unique (hmv A) a1
  have hneg := hA l' w' hw' heig
  have hnn : 0 ≤ 2 * l'.re + 0 * ‖l'‖ ^ 2 := by
    have a1 : Tendsto (fun j => 2 * (l (φ j + j0)).re + dt (φ j + j0) * ‖l (φ j + j0)‖ ^ 2) atTop
        (𝓝 (2 * l'.re + 0 * ‖l'‖ ^ 2)) :=
      (((Complex.continuous_re.tendsto l').comp hlim1).const_mul 2).add (hlim3.mul (hlim1.norm.pow 2))
    exact ge_of_tendsto' a1 fun j => hre _
  linarith

/-- If some eigenvalue has positive real part, some waves grow in short steps. -/
theorem steps_outside (K A : Matrix (Fin n) (Fin n) ℂ) {l : ℂ} {w0 : Fin n → ℂ} (hw0 : w0 ≠ 0) (hl : A.mulVec w0 = l • w0)
    (hpos : 0 < l.re) :
    ∃ dt0 : ℝ, 0 < dt0 ∧ ∀ dt : ℝ, 0 < dt → dt < dt0 → ∃ μ w, w ≠ 0 ∧ StepsBy K A dt μ w ∧ 1 < ‖μ‖ := by
  have hdet0 : (l • (1 : Matrix (Fin n) (Fin n) ℂ) - A).det = 0 := by
    apply Matrix.exists_mulVec_eq_zero_iff.mp
    exact ⟨w0, hw0, by rw [Matrix.sub_mulVec, Matrix.smul_mulVec, Matrix.one_mulVec, hl, sub_self]⟩
  have c0 : Continuous fun dt : ℝ => (1 - (dt : ℂ) • K : Matrix (Fin n) (Fin n) ℂ) := by fun_prop
  have c1 : Continuous fun dt : ℝ => (1 - (dt : ℂ) • K).det := c0.matrix_det
  have c2 : Continuous fun dt : ℝ => (l • (1 - (dt : ℂ) • K) - A).det :=
    Continuous.matrix_det (by fun_prop)
  have ev : ∀ᶠ dt : ℝ in 𝓝 (0 : ℝ), ‖(l • (1 - (dt : ℂ) • K) - A).det‖ < l.re ^ n * ‖(1 - (dt : ℂ) • K).det‖ := by
    have t1 : Tendsto (fun dt : ℝ => ‖(l • (1 - (dt : ℂ) • K) - A).det‖) (𝓝 0) (𝓝 0) := by
      have := (c2.tendsto 0).norm
      simpa [hdet0] using this
    have t2 : Tendsto (fun dt : ℝ => l.re ^ n * ‖(1 - (dt : ℂ) • K).det‖) (𝓝 0) (𝓝 (l.re ^ n)) := by
      have := ((c1.tendsto 0).norm).const_mul (l.re ^ n)
      simpa using this
    exact t1.eventually_lt t2 (pow_pos hpos n)
  obtain ⟨dt0, hdt0, hball⟩ := Metric.eventually_nhds_iff.mp ev
  refine ⟨dt0, hdt0, fun dt hdt hlt => ?_⟩
  have hb := hball (y := dt) (by rw [Real.dist_eq, sub_zero, abs_of_pos hdt]; exact hlt)
  set D : Matrix (Fin n) (Fin n) ℂ := 1 - (dt : ℂ) • K with hD
  have hDdet : D.det ≠ 0 := by
    intro h0
    rw [h0, norm_zero, mul_zero] at hb
    exact absurd hb (not_lt.mpr (norm_nonneg _))
  have hDu : IsUnit D.det := isUnit_iff_ne_zero.mpr hDdet
  set B : Matrix (Fin n) (Fin n) ℂ := D⁻¹ * A with hB
  have hDB : D * B = A := by rw [hB, ← mul_assoc, Matrix.mul_nonsing_inv D hDu, one_mul]
  have hfac : (l • D - A).det = D.det * B.charpoly.eval l := by
    rw [Matrix.eval_charpoly, ← Matrix.det_mul, mul_sub, hDB]
    congr 2
    rw [Matrix.scalar_apply, ← Matrix.smul_one_eq_diagonal, mul_smul_comm, mul_one]
  rw [hfac, norm_mul, mul_comm, mul_lt_mul_iff_left₀ (norm_pos_iff.mpr hDdet)] at hb
  have hroots : B.charpoly.eval l = (B.charpoly.roots.map fun r => l - r).prod := by
    have := (IsAlgClosed.splits B.charpoly).eq_prod_roots_of_monic B.charpoly_monic
    conv_lhs => rw [this]
    rw [Polynomial.eval_multiset_prod, Multiset.map_map]
    simp
  have hcard : Multiset.card B.charpoly.roots = n := by
    rw [← (IsAlgClosed.splits B.charpoly).natDegree_eq_card_roots, Matrix.charpoly_natDegree_eq_dim, Fintype.card_fin]
  have hex : ∃ r ∈ B.charpoly.roots, ‖l - r‖ < l.re := by
    by_contra hno
    push Not at hno
    have hle : l.re ^ n ≤ ‖B.charpoly.eval l‖ := by
      have hpw : l.re ^ n = l.re ^ Multiset.card B.charpoly.roots := congrArg (fun q => l.re ^ q) hcard.symm
      rw [hroots, hpw]
      generalize B.charpoly.roots = R at hno
      induction R using Multiset.induction with
      | empty => simp
      | cons r R ih =>
        rw [Multiset.map_cons, Multiset.prod_cons, Multiset.card_cons, norm_mul, pow_succ']
        exact mul_le_mul (hno r (by simp)) (ih fun q hq => hno q (by simp [hq])) (pow_nonneg hpos.le _) (norm_nonneg _)
    exact absurd hb (not_lt.mpr hle)
  obtain ⟨r, hr, hrl⟩ := hex
  have hrre : 0 < r.re := by
    have := (Complex.re_le_norm (l - r)).trans_lt hrl
    rw [Complex.sub_re] at this
    linarith
  have hrdet : (Matrix.scalar (Fin n) r - B).det = 0 := by
    rw [← Matrix.eval_charpoly]
    exact (Polynomial.mem_roots'.mp hr).2
  obtain ⟨w, hw, hwe⟩ := Matrix.exists_mulVec_eq_zero_iff.mpr hrdet
  have hBw : B.mulVec w = r • w := by
    rw [Matrix.sub_mulVec, sub_eq_zero, Matrix.scalar_apply, ← Matrix.smul_one_eq_diagonal, Matrix.smul_mulVec,
      Matrix.one_mulVec] at hwe
    exact hwe.symm
  refine ⟨1 + dt * r, w, hw, ?_, ?_⟩
  · unfold StepsBy
    have e1 : w - (dt : ℂ) • K.mulVec w = D.mulVec w := by
      rw [hD, Matrix.sub_mulVec, Matrix.one_mulVec, Matrix.smul_mulVec]
    rw [e1, ← hDB, ← Matrix.mulVec_mulVec, hBw, Matrix.mulVec_smul, smul_smul, add_sub_cancel_left]
  · have h6 : 1 < (1 + dt * r : ℂ).re := by
      simp only [Complex.add_re, Complex.one_re, Complex.mul_re, Complex.ofReal_re, Complex.ofReal_im, zero_mul, sub_zero]
      have := mul_pos hdt hrre
      linarith
    exact h6.trans_le (Complex.re_le_norm _)

end Gopf.Proofs
