import Mathlib.Analysis.Normed.Algebra.GelfandFormula
import Mathlib.Analysis.Calculus.ContDiff.RCLike
import Mathlib.Analysis.Calculus.ContDiff.Operations
import Mathlib.Analysis.Calculus.MeanValue
import Mathlib.LinearAlgebra.Eigenspace.Basic
import Mathlib.Topology.Algebra.Module.FiniteDimension
import Mathlib.Algebra.Order.Ring.GeomSum

/-!
# Stability of fixed points from the eigenvalues of the derivative

General facts, used for C161. They do not mention the model.
-/

namespace Gopf.Dynamics
open Filter Topology

variable {E : Type} [NormedAddCommGroup E] [NormedSpace ℂ E]

theorem mem_spectrum_iff [FiniteDimensional ℂ E] (L : E →L[ℂ] E) (μ : ℂ) :
    μ ∈ spectrum ℂ L ↔ ∃ v, v ≠ 0 ∧ L v = μ • v := by
  have h1 : spectrum ℂ L = spectrum ℂ (L : E →ₗ[ℂ] E) := by
    have := AlgEquiv.spectrum_eq (Module.End.toContinuousLinearMap (𝕜 := ℂ) E) (L : E →ₗ[ℂ] E)
    rw [← this]
    rfl
  rw [h1, ← Module.End.hasEigenvalue_iff_mem_spectrum]
  constructor
  · intro h
    obtain ⟨v, hv⟩ := h.exists_hasEigenvector
    exact ⟨v, hv.2, by simpa using hv.apply_eq_smul⟩
  · rintro ⟨v, hv, e⟩
    exact Module.End.hasEigenvalue_of_hasEigenvector (x := v)
      (Module.End.hasEigenvector_iff.mpr ⟨Module.End.mem_eigenspace_iff.mpr e, hv⟩)

/-- The powers of a map grow no faster than those of a number larger than its eigenvalues. -/
theorem pow_bound [CompleteSpace E] (L : E →L[ℂ] E) {ν : ℝ} (hν : 0 < ν) (h : spectralRadius ℂ L < ENNReal.ofReal ν) :
    ∃ C : ℝ, 1 ≤ C ∧ ∀ n : ℕ, ‖L ^ n‖ ≤ C * ν ^ n := by
  have h1 := (spectrum.pow_norm_pow_one_div_tendsto_nhds_spectralRadius L).eventually (gt_mem_nhds h)
  obtain ⟨N, hN⟩ := eventually_atTop.mp h1
  have h2 : ∀ n, N + 1 ≤ n → ‖L ^ n‖ ≤ ν ^ n := by
    intro n hn
    have hn0 : n ≠ 0 := by omega
    have := (ENNReal.ofReal_lt_ofReal_iff hν).mp (hN n (by omega))
    have h3 : (‖L ^ n‖ ^ (1 / (n : ℝ))) ^ n ≤ ν ^ n :=
      pow_le_pow_left₀ (Real.rpow_nonneg (norm_nonneg _) _) this.le n
    rwa [one_div, Real.rpow_inv_natCast_pow (norm_nonneg _) hn0] at h3
  refine ⟨1 + ∑ j ∈ Finset.range (N + 1), ‖L ^ j‖ / ν ^ j, ?_, fun n => ?_⟩
  · have : 0 ≤ ∑ j ∈ Finset.range (N + 1), ‖L ^ j‖ / ν ^ j := Finset.sum_nonneg fun j _ => by positivity
    linarith
  · have hs : 0 ≤ ∑ j ∈ Finset.range (N + 1), ‖L ^ j‖ / ν ^ j := Finset.sum_nonneg fun j _ => by positivity
    have hp : 0 < ν ^ n := by positivity
    rcases Nat.lt_or_ge n (N + 1) with hn | hn
    · have h3 : ‖L ^ n‖ / ν ^ n ≤ ∑ j ∈ Finset.range (N + 1), ‖L ^ j‖ / ν ^ j :=
        Finset.single_le_sum (f := fun j => ‖L ^ j‖ / ν ^ j) (fun j _ => by positivity) (Finset.mem_range.mpr hn)
      rw [div_le_iff₀ hp] at h3
      nlinarith
    · have := h2 n hn
      nlinarith [mul_nonneg hs hp.le]

/-- Close to a fixed point a differentiable map is at most linear. -/
theorem near_fixed {F : E → E} {L : E →L[ℂ] E} {z : E} (hz : F z = z) (hF : HasFDerivAt F L z) {a : ℝ} (ha : ‖L‖ < a) :
    ∃ r : ℝ, 0 < r ∧ ∀ y, ‖y - z‖ < r → ‖F y - z‖ ≤ a * ‖y - z‖ := by
  have h1 := hasFDerivAt_iff_isLittleO.mp hF
  have h2 := Asymptotics.isLittleO_iff.mp h1 (sub_pos.mpr ha)
  obtain ⟨r, hr, hball⟩ := Metric.eventually_nhds_iff.mp h2
  refine ⟨r, hr, fun y hy => ?_⟩
  have h3 := hball (by rwa [dist_eq_norm])
  rw [hz] at h3
  calc ‖F y - z‖ = ‖(F y - z - L (y - z)) + L (y - z)‖ := by congr 1; abel
    _ ≤ (a - ‖L‖) * ‖y - z‖ + ‖L‖ * ‖y - z‖ := (norm_add_le _ _).trans (add_le_add h3 (L.le_opNorm _))
    _ = a * ‖y - z‖ := by ring

/-- A fixed point at which all eigenvalues of the derivative are less than one in modulus attracts, also from within an
invariant set. -/
theorem attracts [CompleteSpace E] {F : E → E} {L : E →L[ℂ] E} {z : E} (hz : F z = z) (hF : HasFDerivAt F L z)
    (hL : spectralRadius ℂ L < 1) :
    ∃ δ C q : ℝ, 0 < δ ∧ q < 1 ∧ 0 ≤ q ∧ ∀ y, ‖y - z‖ < δ → ∀ n, ‖F^[n] y - z‖ ≤ C * q ^ n := by
  obtain ⟨ν, hν0, hν, hν1⟩ : ∃ ν : ℝ, 0 < ν ∧ spectralRadius ℂ L < ENNReal.ofReal ν ∧ ν < 1 := by
    obtain ⟨t, h1, h2⟩ := ENNReal.lt_iff_exists_nnreal_btwn.mp hL
    have ht : (t : ℝ) < 1 := by exact_mod_cast h2
    refine ⟨t, ?_, by rw [ENNReal.ofReal_coe_nnreal]; exact h1, ht⟩
    rcases t.2.lt_or_eq with h | h
    · exact h
    · have : t = 0 := NNReal.eq h.symm
      rw [this] at h1
      simp at h1
  obtain ⟨C, hC, hpow⟩ := pow_bound L hν0 hν
  obtain ⟨p, hp⟩ := exists_pow_lt_of_lt_one (by positivity : 0 < 1 / (2 * C)) hν1
  -- one may take a positive number of steps
  have hp' : ‖L ^ (p + 1)‖ < 3 / 4 := by
    have h1 := hpow (p + 1)
    have h2 : ν ^ (p + 1) ≤ ν ^ p := pow_le_pow_of_le_one hν0.le hν1.le (Nat.le_succ p)
    have h3 : C * ν ^ (p + 1) ≤ C * (1 / (2 * C)) := mul_le_mul_of_nonneg_left (h2.trans hp.le) (by linarith)
    have h4 : C * (1 / (2 * C)) = 1 / 2 := by field_simp
    linarith
  set P := p + 1 with hP
  obtain ⟨r, hr, hG⟩ := near_fixed (F := F^[P]) (Function.iterate_fixed hz P) (hF.iterate hz P) hp'
  -- the steps in between
  have hK : ∀ j : ℕ, ∃ rj : ℝ, 0 < rj ∧ ∀ y, ‖y - z‖ < rj → ‖F^[j] y - z‖ ≤ (‖L ^ j‖ + 1) * ‖y - z‖ := fun j =>
    near_fixed (F := F^[j]) (Function.iterate_fixed hz j) (hF.iterate hz j) (lt_add_one _)
  choose rj hrj hj using hK
  obtain ⟨δ, hδ, hδr, hδj⟩ : ∃ δ : ℝ, 0 < δ ∧ δ ≤ r ∧ ∀ j < P, δ ≤ rj j := by
    obtain ⟨j0, -, hmin⟩ := Finset.exists_min_image (Finset.range P) rj ⟨0, by simp [hP]⟩
    exact ⟨min r (rj j0), lt_min hr (hrj j0), min_le_left _ _, fun j hj' =>
      (min_le_right _ _).trans (hmin j (Finset.mem_range.mpr hj'))⟩
  set q : ℝ := (3 / 4 : ℝ) ^ (1 / (P : ℝ)) with hq
  have hq0 : 0 < q := Real.rpow_pos_of_pos (by norm_num) _
  have hqP : q ^ P = 3 / 4 := by
    rw [hq, one_div, Real.rpow_inv_natCast_pow (by norm_num) (by omega)]
  have hq1 : q < 1 := by
    by_contra hc
    have := one_le_pow₀ (n := P) (not_lt.mp hc)
    rw [hqP] at this
    norm_num at this
  have hGm : ∀ m y, ‖y - z‖ < δ → ‖(F^[P])^[m] y - z‖ ≤ (3 / 4) ^ m * ‖y - z‖ := by
    intro m y hy
    induction m with
    | zero => simp
    | succ m ih =>
      rw [Function.iterate_succ_apply']
      have h1 : (3 / 4 : ℝ) ^ m * ‖y - z‖ ≤ 1 * ‖y - z‖ :=
        mul_le_mul_of_nonneg_right (pow_le_one₀ (by norm_num) (by norm_num)) (norm_nonneg _)
      refine (hG _ (lt_of_le_of_lt (ih.trans h1) (by linarith))).trans ?_
      rw [pow_succ]
      linarith
  obtain ⟨j1, -, hmax⟩ := Finset.exists_max_image (Finset.range P) (fun j => ‖L ^ j‖) ⟨0, by simp [hP]⟩
  refine ⟨δ, (‖L ^ j1‖ + 1) * (4 / 3) * δ, q, hδ, hq1, hq0.le, fun y hy n => ?_⟩
  have hmod : n % P < P := Nat.mod_lt _ (by omega)
  have e : F^[n] y = F^[n % P] ((F^[P])^[n / P] y) := by
    rw [← Function.iterate_mul, ← Function.iterate_add_apply]
    congr 1
    have := Nat.mod_add_div n P
    rw [this]
  have h1 := hGm (n / P) y hy
  have hle : (3 / 4 : ℝ) ^ (n / P) * ‖y - z‖ ≤ ‖y - z‖ := by
    have := mul_le_mul_of_nonneg_right (pow_le_one₀ (n := n / P) (by norm_num : (0 : ℝ) ≤ 3 / 4) (by norm_num)) (norm_nonneg (y - z))
    linarith
  have h2 := hj (n % P) ((F^[P])^[n / P] y) (lt_of_lt_of_le (lt_of_le_of_lt (h1.trans hle) hy) (hδj _ hmod))
  rw [e]
  refine h2.trans ?_
  have h3 : ‖L ^ (n % P)‖ + 1 ≤ ‖L ^ j1‖ + 1 := by
    have := hmax (n % P) (Finset.mem_range.mpr hmod)
    linarith
  have h4 : (3 / 4 : ℝ) ^ (n / P) ≤ 4 / 3 * q ^ n := by
    have h5 : q ^ n = q ^ (n % P) * (3 / 4) ^ (n / P) := by
      rw [← hqP, ← pow_mul, ← pow_add, Nat.mod_add_div]
    have h6 : q ^ P ≤ q ^ (n % P) := pow_le_pow_of_le_one hq0.le hq1.le hmod.le
    rw [h5]
    have h7 : (0 : ℝ) ≤ (3 / 4) ^ (n / P) := by positivity
    rw [hqP] at h6
    have := mul_le_mul_of_nonneg_right h6 h7
    linarith
  have h8 : ‖(F^[P])^[n / P] y - z‖ ≤ 4 / 3 * q ^ n * δ :=
    h1.trans (mul_le_mul h4 hy.le (norm_nonneg _) (by positivity))
  calc (‖L ^ (n % P)‖ + 1) * ‖(F^[P])^[n / P] y - z‖ ≤ (‖L ^ j1‖ + 1) * (4 / 3 * q ^ n * δ) :=
        mul_le_mul h3 h8 (norm_nonneg _) (by positivity)
    _ = (‖L ^ j1‖ + 1) * (4 / 3) * δ * q ^ n := by ring

/-- What a smooth map does near a point, up to second order. -/
theorem second_order {F : E → E} {z : E} (hF : ContDiff ℂ 2 F) :
    ∃ K r : ℝ, 0 ≤ K ∧ 0 < r ∧ ∀ y, ‖y - z‖ < r → ‖F y - F z - fderiv ℂ F z (y - z)‖ ≤ K * ‖y - z‖ ^ 2 := by
  have h1 : ContDiff ℂ 1 (fderiv ℂ F) := hF.fderiv_right (by norm_num)
  obtain ⟨K, t, ht, hK⟩ := h1.contDiffAt.exists_lipschitzOnWith (x := z)
  obtain ⟨r, hr, hball⟩ := Metric.mem_nhds_iff.mp ht
  refine ⟨K, r, K.2, hr, fun y hy => ?_⟩
  have h2 := Convex.norm_image_sub_le_of_norm_fderiv_le' (𝕜 := ℂ) (f := F) (φ := fderiv ℂ F z) (C := K * ‖y - z‖)
    (s := Metric.closedBall z ‖y - z‖) (fun x _ => (hF.differentiable (by norm_num)) x) (by
      intro x hx
      rw [Metric.mem_closedBall, dist_eq_norm] at hx
      have h3 := hK.dist_le_mul x (hball (by rw [Metric.mem_ball, dist_eq_norm]; linarith)) z
        (hball (Metric.mem_ball_self hr))
      rw [dist_eq_norm, dist_eq_norm] at h3
      exact h3.trans (mul_le_mul_of_nonneg_left hx K.2))
    (convex_closedBall _ _) (Metric.mem_closedBall_self (norm_nonneg _))
    (by rw [Metric.mem_closedBall, dist_eq_norm] : y ∈ Metric.closedBall z ‖y - z‖)
  rw [pow_two, ← mul_assoc]
  exact h2

/-- The solution of `w (j+1) = L (w j) + R j`. -/
theorem variation (L : E →L[ℂ] E) (w R : ℕ → E) (h : ∀ j, w (j + 1) = L (w j) + R j) (n : ℕ) :
    w n = (L ^ n) (w 0) + ∑ j ∈ Finset.range n, (L ^ (n - 1 - j)) (R j) := by
  induction n with
  | zero => simp
  | succ n ih =>
    rw [h, ih, map_add, map_sum, Finset.sum_range_succ]
    have e1 : L ((L ^ n) (w 0)) = (L ^ (n + 1)) (w 0) := by rw [pow_succ']; rfl
    have e2 : ∀ j ∈ Finset.range n, L ((L ^ (n - 1 - j)) (R j)) = (L ^ (n + 1 - 1 - j)) (R j) := by
      intro j hj
      have hj' := Finset.mem_range.mp hj
      have : n + 1 - 1 - j = (n - 1 - j) + 1 := by omega
      rw [this, pow_succ']
      rfl
    rw [e1, Finset.sum_congr rfl e2]
    simp [add_assoc]

/-- A fixed point of a smooth map repels, if the derivative has an eigenvalue larger than one in modulus: from a
set `S` of directions in which the powers of the derivative grow no faster than those of the largest eigenvalue, and
in one of which they do grow like that, one comes to starts as close as one likes that go a fixed distance away. -/
theorem repels [CompleteSpace E] {F : E → E} {z : E} (hz : F z = z) (hF : ContDiff ℂ 2 F) {μ : ℝ} (hμ : 1 < μ)
    (hL : spectralRadius ℂ (fderiv ℂ F z) = ENNReal.ofReal μ) (S : Set E) {c : ℝ} (hc : 0 < c)
    (hup : ∀ v ∈ S, ∀ j : ℕ, ‖((fderiv ℂ F z) ^ j) v‖ ≤ μ ^ j)
    (hlow : ∀ n : ℕ, ∃ v ∈ S, c * μ ^ n ≤ ‖((fderiv ℂ F z) ^ n) v‖) :
    ∃ ρ : ℝ, 0 < ρ ∧ ∀ δ : ℝ, 0 < δ → ∃ v ∈ S, ∃ t : ℝ, 0 < t ∧ t < δ ∧ ∃ n, ρ ≤ ‖F^[n] (z + (t : ℂ) • v) - z‖ := by
  set L := fderiv ℂ F z with hLdef
  have hμ0 : 0 < μ := by linarith
  have hμ2 : μ < μ ^ 2 := by nlinarith
  obtain ⟨ν, hν1, hν2⟩ := exists_between hμ2
  have hν0 : 0 < ν := by linarith
  obtain ⟨C, hC, hpow⟩ := pow_bound L hν0 (by rw [hL]; exact (ENNReal.ofReal_lt_ofReal_iff hν0).mpr hν1)
  obtain ⟨K, r, hK, hr, hsec⟩ := second_order (z := z) hF
  set K' := 4 * K * C / (μ ^ 2 - ν) with hK'
  have hd : 0 < μ ^ 2 - ν := by linarith
  have hK'0 : 0 ≤ K' := by positivity
  -- how far the linear part can be trusted
  obtain ⟨η, hη, hη1, hη2⟩ : ∃ η : ℝ, 0 < η ∧ K' * η ≤ 1 ∧ K' * η ≤ c / 2 := by
    refine ⟨min (1 / (K' + 1)) (c / 2 / (K' + 1)), lt_min (by positivity) (by positivity), ?_, ?_⟩
    · have h1 : K' * min (1 / (K' + 1)) (c / 2 / (K' + 1)) ≤ K' * (1 / (K' + 1)) :=
        mul_le_mul_of_nonneg_left (min_le_left _ _) hK'0
      have h2 : K' * (1 / (K' + 1)) ≤ 1 := by
        rw [mul_one_div, div_le_one (by positivity)]
        linarith
      linarith
    · have h1 : K' * min (1 / (K' + 1)) (c / 2 / (K' + 1)) ≤ K' * (c / 2 / (K' + 1)) :=
        mul_le_mul_of_nonneg_left (min_le_right _ _) hK'0
      have h2 : K' * (c / 2 / (K' + 1)) ≤ c / 2 := by
        rw [← mul_div_assoc, div_le_iff₀ (by positivity)]
        nlinarith
      linarith
  refine ⟨min (r / 2) (c / 2 * η), lt_min (by linarith) (by positivity), fun δ hδ => ?_⟩
  obtain ⟨n, hn⟩ := exists_pow_lt_of_lt_one (by positivity : 0 < δ / η) (inv_lt_one_of_one_lt₀ hμ)
  obtain ⟨v, hv, hvn⟩ := hlow n
  have hpn : 0 < μ ^ n := by positivity
  refine ⟨v, hv, η / μ ^ n, by positivity, ?_, ?_⟩
  · rw [inv_pow] at hn
    rw [lt_div_iff₀ hη] at hn
    rw [div_eq_inv_mul]
    exact hn
  set t := η / μ ^ n with ht
  have ht0 : 0 < t := by positivity
  have htn : t * μ ^ n = η := by rw [ht]; field_simp
  by_contra hc'
  push Not at hc'
  set w : ℕ → E := fun j => F^[j] (z + (t : ℂ) • v) - z with hw
  have hwr : ∀ j, ‖w j‖ < r := fun j => by
    have h1 := hc' j
    have h2 := min_le_left (r / 2) (c / 2 * η)
    have h3 : ‖w j‖ = ‖F^[j] (z + (t : ℂ) • v) - z‖ := rfl
    linarith
  set R : ℕ → E := fun j => w (j + 1) - L (w j) with hR
  have hRb : ∀ j, ‖R j‖ ≤ K * ‖w j‖ ^ 2 := by
    intro j
    have h1 := hsec (F^[j] (z + (t : ℂ) • v)) (hwr j)
    rw [hz] at h1
    have e : R j = F (F^[j] (z + (t : ℂ) • v)) - z - L (F^[j] (z + (t : ℂ) • v) - z) := by
      simp only [hR, hw, Function.iterate_succ_apply']
    rw [e]
    exact h1
  have hw0 : w 0 = (t : ℂ) • v := by simp [hw]
  have hvar := variation L w R (fun j => by simp [hR])
  have hlin : ∀ j, ‖(L ^ j) (w 0)‖ = t * ‖(L ^ j) v‖ := by
    intro j
    rw [hw0, map_smul, norm_smul, Complex.norm_real, Real.norm_eq_abs, abs_of_pos ht0]
  have key : ∀ j ≤ n, ‖w j - (L ^ j) (w 0)‖ ≤ K' * (t * μ ^ j) ^ 2 := by
    intro j
    induction j using Nat.strong_induction_on with
    | _ j ih =>
      intro hj
      rw [hvar j, add_sub_cancel_left]
      have hterm : ∀ i ∈ Finset.range j, ‖(L ^ (j - 1 - i)) (R i)‖ ≤ 4 * K * C * t ^ 2 * ((μ ^ 2) ^ i * ν ^ (j - 1 - i)) := by
        intro i hi
        have hij := Finset.mem_range.mp hi
        have h1 := ih i hij (by omega)
        have htm : t * μ ^ i ≤ η := by
          rw [← htn]
          exact mul_le_mul_of_nonneg_left (pow_le_pow_right₀ hμ.le (by omega)) ht0.le
        have hpos : 0 < t * μ ^ i := by positivity
        have h2 : ‖w i‖ ≤ 2 * (t * μ ^ i) := by
          have h3 : ‖w i‖ ≤ ‖w i - (L ^ i) (w 0)‖ + ‖(L ^ i) (w 0)‖ := by
            have := norm_add_le (w i - (L ^ i) (w 0)) ((L ^ i) (w 0))
            rwa [sub_add_cancel] at this
          have h4 : ‖(L ^ i) (w 0)‖ ≤ t * μ ^ i := by
            rw [hlin]
            exact mul_le_mul_of_nonneg_left (hup v hv i) ht0.le
          have h5 : K' * (t * μ ^ i) ^ 2 ≤ t * μ ^ i := by
            have h6 : K' * (t * μ ^ i) ≤ 1 := (mul_le_mul_of_nonneg_left htm hK'0).trans hη1
            have := mul_le_mul_of_nonneg_right h6 hpos.le
            rw [pow_two]
            linarith
          linarith
        have h7 : ‖R i‖ ≤ K * (2 * (t * μ ^ i)) ^ 2 :=
          (hRb i).trans (mul_le_mul_of_nonneg_left (pow_le_pow_left₀ (norm_nonneg _) h2 2) hK)
        calc ‖(L ^ (j - 1 - i)) (R i)‖ ≤ ‖L ^ (j - 1 - i)‖ * ‖R i‖ := (L ^ (j - 1 - i)).le_opNorm _
          _ ≤ (C * ν ^ (j - 1 - i)) * (K * (2 * (t * μ ^ i)) ^ 2) :=
            mul_le_mul (hpow _) h7 (norm_nonneg _) (by positivity)
          _ = 4 * K * C * t ^ 2 * ((μ ^ 2) ^ i * ν ^ (j - 1 - i)) := by rw [← pow_mul, mul_comm 2 i, pow_mul]; ring
      refine (norm_sum_le _ _).trans ((Finset.sum_le_sum hterm).trans ?_)
      rw [← Finset.mul_sum]
      have hg := geom_sum₂_mul (μ ^ 2) ν j
      have hsum : ∑ i ∈ Finset.range j, (μ ^ 2) ^ i * ν ^ (j - 1 - i) ≤ (μ ^ 2) ^ j / (μ ^ 2 - ν) := by
        rw [le_div_iff₀ hd, hg]
        have : 0 ≤ ν ^ j := by positivity
        linarith
      calc 4 * K * C * t ^ 2 * ∑ i ∈ Finset.range j, (μ ^ 2) ^ i * ν ^ (j - 1 - i)
          ≤ 4 * K * C * t ^ 2 * ((μ ^ 2) ^ j / (μ ^ 2 - ν)) := mul_le_mul_of_nonneg_left hsum (by positivity)
        _ = K' * (t * μ ^ j) ^ 2 := by rw [hK', ← pow_mul, mul_comm 2 j, pow_mul]; ring
  have hfin := key n le_rfl
  rw [htn] at hfin
  have h1 : c * η ≤ ‖(L ^ n) (w 0)‖ := by
    rw [hlin]
    have := mul_le_mul_of_nonneg_left hvn ht0.le
    calc c * η = t * (c * μ ^ n) := by rw [← htn]; ring
      _ ≤ _ := this
  have h2 : ‖(L ^ n) (w 0)‖ ≤ ‖w n‖ + ‖w n - (L ^ n) (w 0)‖ := by
    have := norm_sub_le (w n) (w n - (L ^ n) (w 0))
    rwa [sub_sub_cancel] at this
  have h3 : K' * η ^ 2 ≤ c / 2 * η := by
    have := mul_le_mul_of_nonneg_right hη2 hη.le
    rw [pow_two]
    linarith
  have h4 := hc' n
  have h5 := min_le_right (r / 2) (c / 2 * η)
  have h6 : ‖w n‖ = ‖F^[n] (z + (t : ℂ) • v) - z‖ := rfl
  linarith

end Gopf.Dynamics
