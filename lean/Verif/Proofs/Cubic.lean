import Verif.Proofs.Parseval
import Mathlib.Analysis.Normed.Module.FiniteDimension
import Mathlib.Analysis.Calculus.LocalExtr.Basic
import Mathlib.Analysis.Calculus.Deriv.Pow
import Mathlib.Analysis.Calculus.Deriv.Add
import Mathlib.Analysis.Calculus.Deriv.Mul
import Mathlib.Topology.Order.Compact

/-!
# Implicit steps with a cubic force

A step takes the real field `a` to a real field `b` with `α b + b³ = β a - ρ a³`, where `α`, `β` and `ρ` multiply the
waves. Such a `b` exists whatever `a` is, and repeated steps stay bounded, if `|ρ| ≤ 1` and `α + β` is positive where
`|ρ| = 1`.
-/

namespace Gopf.Cubic
open Pfutil Spec Filter Topology

variable {n : ℕ}

/-- Sums of terms of degree six, four and two are not negative far out, if the first is never negative and the second is
positive where the first vanishes. -/
theorem far {a6 a4 a2 : (Fin n → ℝ) → ℝ} (c6 : Continuous a6) (c4 : Continuous a4) (c2 : Continuous a2)
    (s6 : ∀ t v, a6 (t • v) = t ^ 6 * a6 v) (s4 : ∀ t v, a4 (t • v) = t ^ 4 * a4 v) (s2 : ∀ t v, a2 (t • v) = t ^ 2 * a2 v)
    (h6 : ∀ v, 0 ≤ a6 v) (h4 : ∀ v, v ≠ 0 → a6 v = 0 → 0 < a4 v) :
    ∃ r : ℝ, ∀ u, r ≤ ‖u‖ → 0 ≤ a6 u + a4 u + a2 u := by
  rcases (Metric.sphere (0 : Fin n → ℝ) 1).eq_empty_or_nonempty with hS | hS
  · refine ⟨1, fun u hu => ?_⟩
    exfalso
    have hu0 : u ≠ 0 := by rintro rfl; simp at hu; linarith
    have : (‖u‖⁻¹ • u) ∈ Metric.sphere (0 : Fin n → ℝ) 1 := by
      rw [mem_sphere_zero_iff_norm, norm_smul, norm_inv, norm_norm, inv_mul_cancel₀ (norm_ne_zero_iff.mpr hu0)]
    rw [hS] at this
    exact this
  have hK := isCompact_sphere (0 : Fin n → ℝ) 1
  obtain ⟨v0, hv0, hmin⟩ := hK.exists_isMinOn hS (f := fun v => max (a6 v) (a4 v)) (c6.max c4).continuousOn
  obtain ⟨M4, hM4⟩ := hK.exists_bound_of_continuousOn c4.continuousOn
  obtain ⟨M2, hM2⟩ := hK.exists_bound_of_continuousOn c2.continuousOn
  set c := max (a6 v0) (a4 v0) with hc
  have hv0' : v0 ≠ 0 := by rintro rfl; simp at hv0
  have hc0 : 0 < c := by
    rcases (h6 v0).lt_or_eq with h | h
    · exact lt_max_of_lt_left h
    · exact lt_max_of_lt_right (h4 v0 hv0' h.symm)
  set M := max M4 M2 with hM
  have hM0 : 0 ≤ M := (norm_nonneg _).trans ((hM4 v0 hv0).trans (le_max_left _ _))
  refine ⟨1 + 2 * M / c, fun u hu => ?_⟩
  have hpos : 0 ≤ 2 * M / c := by positivity
  have ht1 : 1 ≤ ‖u‖ := by linarith
  set t := ‖u‖ with ht
  have ht0 : t ≠ 0 := by linarith
  set v := t⁻¹ • u with hv
  have hvS : v ∈ Metric.sphere (0 : Fin n → ℝ) 1 := by
    rw [mem_sphere_zero_iff_norm, hv, norm_smul, norm_inv, ht, norm_norm, inv_mul_cancel₀ ht0]
  have hu' : u = t • v := by rw [hv, smul_smul, mul_inv_cancel₀ ht0, one_smul]
  have b4 : |a4 v| ≤ M := (hM4 v hvS).trans (le_max_left _ _)
  have b2 : |a2 v| ≤ M := (hM2 v hvS).trans (le_max_right _ _)
  have hcv : c ≤ max (a6 v) (a4 v) := hmin hvS
  have key : 2 * M ≤ t ^ 2 * c := by
    have e : 2 * M ≤ t * c := by
      have := mul_le_mul_of_nonneg_right (show 2 * M / c ≤ t by linarith) hc0.le
      rwa [div_mul_cancel₀ _ hc0.ne'] at this
    nlinarith
  have hsq : 1 ≤ t ^ 2 := by nlinarith
  rw [hu', s6, s4, s2]
  have hfac : t ^ 6 * a6 v + t ^ 4 * a4 v + t ^ 2 * a2 v = t ^ 2 * (t ^ 2 * (t ^ 2 * a6 v + a4 v) + a2 v) := by ring
  rw [hfac]
  refine mul_nonneg (by positivity) ?_
  have b4' := (abs_le.mp b4).1
  have b2' := (abs_le.mp b2).1
  rcases le_max_iff.mp hcv with h | h
  · have e1 : 2 * M ≤ t ^ 2 * a6 v := key.trans (mul_le_mul_of_nonneg_left h (by positivity))
    have e2 : M ≤ t ^ 2 * a6 v + a4 v := by linarith
    have e3 : M ≤ t ^ 2 * (t ^ 2 * a6 v + a4 v) := by nlinarith
    linarith
  · have e1 : 2 * M ≤ t ^ 2 * a4 v := key.trans (mul_le_mul_of_nonneg_left h (by positivity))
    have e2 : t ^ 2 * a4 v ≤ t ^ 2 * (t ^ 2 * a6 v + a4 v) :=
      mul_le_mul_of_nonneg_left (by have := mul_nonneg (sq_nonneg t) (h6 v); linarith) (by positivity)
    linarith

variable {dims : List ℕ}

/-- The waves of a real field. -/
noncomputable def waves (u : Fin dims.prod → ℝ) (k : Fin dims.prod) : ℂ := fft dims (fun x => (u x : ℂ)) k

/-- The cubes of the values. -/
def cube (u : Fin n → ℝ) : Fin n → ℝ := fun x => u x ^ 3

theorem waves_continuous (k : Fin dims.prod) : Continuous fun u : Fin dims.prod → ℝ => waves u k := by
  unfold waves fft
  fun_prop

theorem cube_continuous : Continuous (cube (n := n)) := by
  unfold cube
  fun_prop

theorem waves_smul (t : ℝ) (u : Fin dims.prod → ℝ) (k : Fin dims.prod) : waves (t • u) k = (t : ℂ) * waves u k := by
  unfold waves fft
  rw [Finset.mul_sum]
  refine Finset.sum_congr rfl fun x _ => ?_
  simp only [Pi.smul_apply, smul_eq_mul, Complex.ofReal_mul]
  ring

theorem cube_smul (t : ℝ) (u : Fin n → ℝ) : cube (t • u) = t ^ 3 • cube u := by
  funext x
  simp only [cube, Pi.smul_apply, smul_eq_mul]
  ring

/-- Wave by wave: what is the same before and after a step. -/
noncomputable def kept (α : Fin dims.prod → ℝ) (u : Fin dims.prod → ℝ) (k : Fin dims.prod) : ℂ :=
  α k * waves u k + waves (cube u) k

/-- Wave by wave: what the step gets. -/
noncomputable def given (β ρ : Fin dims.prod → ℝ) (u : Fin dims.prod → ℝ) (k : Fin dims.prod) : ℂ :=
  β k * waves u k - ρ k * waves (cube u) k

theorem kept_sq (α : Fin dims.prod → ℝ) (u : Fin dims.prod → ℝ) :
    ∑ k, ‖kept α u k‖ ^ 2 = ∑ k, ‖waves (cube u) k‖ ^ 2 + ∑ k, 2 * α k * (waves u k * (starRingEnd ℂ) (waves (cube u) k)).re +
      ∑ k, α k ^ 2 * ‖waves u k‖ ^ 2 := by
  rw [← Finset.sum_add_distrib, ← Finset.sum_add_distrib]
  refine Finset.sum_congr rfl fun k _ => ?_
  unfold kept
  rw [← Complex.normSq_eq_norm_sq, ← Complex.normSq_eq_norm_sq, ← Complex.normSq_eq_norm_sq, Complex.normSq_add, Complex.normSq_mul,
    Complex.normSq_ofReal, mul_assoc (α k : ℂ), Complex.re_ofReal_mul]
  ring

theorem given_sq (β ρ : Fin dims.prod → ℝ) (u : Fin dims.prod → ℝ) :
    ∑ k, ‖given β ρ u k‖ ^ 2 = ∑ k, ρ k ^ 2 * ‖waves (cube u) k‖ ^ 2 -
      ∑ k, 2 * (β k * ρ k) * (waves u k * (starRingEnd ℂ) (waves (cube u) k)).re + ∑ k, β k ^ 2 * ‖waves u k‖ ^ 2 := by
  rw [← Finset.sum_sub_distrib, ← Finset.sum_add_distrib]
  refine Finset.sum_congr rfl fun k _ => ?_
  unfold given
  rw [← Complex.normSq_eq_norm_sq, ← Complex.normSq_eq_norm_sq, ← Complex.normSq_eq_norm_sq, Complex.normSq_sub, Complex.normSq_mul,
    Complex.normSq_mul, Complex.normSq_ofReal, Complex.normSq_ofReal, map_mul, Complex.conj_ofReal,
    show (β k : ℂ) * waves u k * ((ρ k : ℂ) * (starRingEnd ℂ) (waves (cube u) k)) =
      ((β k * ρ k : ℝ) : ℂ) * (waves u k * (starRingEnd ℂ) (waves (cube u) k)) by push_cast; ring, Complex.re_ofReal_mul]
  ring

theorem sixth_smul (g : Fin dims.prod → ℝ) (t : ℝ) (v : Fin dims.prod → ℝ) :
    ∑ k, g k * ‖waves (cube (t • v)) k‖ ^ 2 = t ^ 6 * ∑ k, g k * ‖waves (cube v) k‖ ^ 2 := by
  rw [Finset.mul_sum]
  refine Finset.sum_congr rfl fun k _ => ?_
  rw [cube_smul, waves_smul, norm_mul, mul_pow, Complex.norm_real, Real.norm_eq_abs, sq_abs]
  ring

theorem fourth_smul (g : Fin dims.prod → ℝ) (t : ℝ) (v : Fin dims.prod → ℝ) :
    ∑ k, g k * (waves (t • v) k * (starRingEnd ℂ) (waves (cube (t • v)) k)).re =
      t ^ 4 * ∑ k, g k * (waves v k * (starRingEnd ℂ) (waves (cube v) k)).re := by
  rw [Finset.mul_sum]
  refine Finset.sum_congr rfl fun k _ => ?_
  rw [cube_smul, waves_smul, waves_smul, map_mul, Complex.conj_ofReal,
    show (t : ℂ) * waves v k * (((t ^ 3 : ℝ) : ℂ) * (starRingEnd ℂ) (waves (cube v) k)) =
      ((t ^ 4 : ℝ) : ℂ) * (waves v k * (starRingEnd ℂ) (waves (cube v) k)) by push_cast; ring, Complex.re_ofReal_mul]
  ring

theorem second_smul (g : Fin dims.prod → ℝ) (t : ℝ) (v : Fin dims.prod → ℝ) :
    ∑ k, g k * ‖waves (t • v) k‖ ^ 2 = t ^ 2 * ∑ k, g k * ‖waves v k‖ ^ 2 := by
  rw [Finset.mul_sum]
  refine Finset.sum_congr rfl fun k _ => ?_
  rw [waves_smul, norm_mul, mul_pow, Complex.norm_real, Real.norm_eq_abs, sq_abs]
  ring

theorem sixth_continuous (g : Fin dims.prod → ℝ) : Continuous fun v : Fin dims.prod → ℝ => ∑ k, g k * ‖waves (cube v) k‖ ^ 2 := by
  refine continuous_finsetSum _ fun k _ => ?_
  exact continuous_const.mul (((waves_continuous k).comp cube_continuous).norm.pow 2)

theorem fourth_continuous (g : Fin dims.prod → ℝ) :
    Continuous fun v : Fin dims.prod → ℝ => ∑ k, g k * (waves v k * (starRingEnd ℂ) (waves (cube v) k)).re := by
  refine continuous_finsetSum _ fun k _ => ?_
  exact continuous_const.mul (Complex.continuous_re.comp ((waves_continuous k).mul
    (Complex.continuous_conj.comp ((waves_continuous k).comp cube_continuous))))

theorem second_continuous (g : Fin dims.prod → ℝ) : Continuous fun v : Fin dims.prod → ℝ => ∑ k, g k * ‖waves v k‖ ^ 2 := by
  refine continuous_finsetSum _ fun k _ => ?_
  exact continuous_const.mul ((waves_continuous k).norm.pow 2)

theorem waves_dot (h : ∀ d ∈ dims, 0 < d) (u v : Fin dims.prod → ℝ) :
    ∑ k, (waves u k * (starRingEnd ℂ) (waves v k)).re = dims.prod * ∑ x, u x * v x := by
  have := congrArg Complex.re (parseval h (fun x => (u x : ℂ)) (fun x => (v x : ℂ)))
  rw [Complex.re_sum] at this
  refine Eq.trans this ?_
  have e : ∑ x, (u x : ℂ) * (starRingEnd ℂ) (v x : ℂ) = ((∑ x, u x * v x : ℝ) : ℂ) := by
    push_cast
    simp only [Complex.conj_ofReal]
  rw [e, ← Complex.ofReal_natCast, ← Complex.ofReal_mul, Complex.ofReal_re]

theorem prod_pos (h : ∀ d ∈ dims, 0 < d) : (0 : ℝ) < (dims.prod : ℕ) := by
  have := List.prod_pos h
  exact_mod_cast this

theorem waves_sq (h : ∀ d ∈ dims, 0 < d) (u : Fin dims.prod → ℝ) : ∑ k, ‖waves u k‖ ^ 2 = dims.prod * ∑ x, u x ^ 2 := by
  have := waves_dot h u u
  have e : ∀ k, (waves u k * (starRingEnd ℂ) (waves u k)).re = ‖waves u k‖ ^ 2 := by
    intro k
    rw [Complex.mul_conj, Complex.ofReal_re, Complex.normSq_eq_norm_sq]
  simp only [e] at this
  rw [this]
  simp only [pow_two]

theorem sum_fourth_pos {v : Fin n → ℝ} (hv : v ≠ 0) : 0 < ∑ x, v x * cube v x := by
  obtain ⟨x, hx⟩ := Function.ne_iff.mp hv
  refine Finset.sum_pos' (fun y _ => ?_) ⟨x, Finset.mem_univ _, ?_⟩
  · simp only [cube]
    have : v y * v y ^ 3 = (v y ^ 2) ^ 2 := by ring
    rw [this]; positivity
  · simp only [cube]
    have : v x * v x ^ 3 = (v x ^ 2) ^ 2 := by ring
    have hx : v x ≠ 0 := hx
    rw [this]; positivity

section
variable (h : ∀ d ∈ dims, 0 < d) {α β ρ : Fin dims.prod → ℝ} (h1 : ∀ k, |ρ k| ≤ 1) {c : ℝ} (hc : 0 < c)
  (h2 : ∀ k, |ρ k| = 1 → α k + β k * ρ k = c)
include h

/-- What is kept grows with the field. -/
theorem kept_large (α : Fin dims.prod → ℝ) : ∃ r : ℝ, ∀ u : Fin dims.prod → ℝ, r ≤ ‖u‖ → ∑ k, ‖waves u k‖ ^ 2 ≤ ∑ k, ‖kept α u k‖ ^ 2 := by
  obtain ⟨r, hr⟩ := far (sixth_continuous (dims := dims) fun _ => 1) (fourth_continuous fun k => 2 * α k)
    (second_continuous fun k => α k ^ 2 - 1) (sixth_smul _) (fourth_smul _) (second_smul _)
    (fun v => Finset.sum_nonneg fun k _ => by positivity) (by
      intro v hv h0
      exfalso
      simp only [one_mul] at h0
      rw [waves_sq h] at h0
      have h0' := (mul_eq_zero.mp h0).resolve_left (prod_pos h).ne'
      obtain ⟨x, hx⟩ := Function.ne_iff.mp hv
      have := (Finset.sum_eq_zero_iff_of_nonneg fun y _ => sq_nonneg (cube v y)).mp h0' x (Finset.mem_univ _)
      simp only [cube] at this
      have hx : v x ≠ 0 := hx
      exact absurd this (by positivity))
  refine ⟨r, fun u hu => ?_⟩
  have := hr u hu
  rw [kept_sq]
  simp only [one_mul, sub_mul, Finset.sum_sub_distrib] at this
  linarith

include h1 hc h2 in
/-- Far out, a step gets no more than what is kept. -/
theorem given_le : ∃ r : ℝ, ∀ u : Fin dims.prod → ℝ, r ≤ ‖u‖ → ∑ k, ‖given β ρ u k‖ ^ 2 ≤ ∑ k, ‖kept α u k‖ ^ 2 := by
  have hr2 : ∀ k, ρ k ^ 2 ≤ 1 := fun k => by rw [← sq_abs]; exact pow_le_one₀ (abs_nonneg _) (h1 k)
  obtain ⟨r, hr⟩ := far (sixth_continuous (dims := dims) fun k => 1 - ρ k ^ 2) (fourth_continuous fun k => 2 * (α k + β k * ρ k))
    (second_continuous fun k => α k ^ 2 - β k ^ 2) (sixth_smul _) (fourth_smul _) (second_smul _)
    (fun v => Finset.sum_nonneg fun k _ => mul_nonneg (sub_nonneg.mpr (hr2 k)) (by positivity)) (by
      intro v hv h0
      have hz := (Finset.sum_eq_zero_iff_of_nonneg fun k _ => mul_nonneg (sub_nonneg.mpr (hr2 k)) (by positivity)).mp h0
      have e : ∑ k, 2 * (α k + β k * ρ k) * (waves v k * (starRingEnd ℂ) (waves (cube v) k)).re =
          2 * c * ∑ k, (waves v k * (starRingEnd ℂ) (waves (cube v) k)).re := by
        rw [Finset.mul_sum]
        refine Finset.sum_congr rfl fun k hk => ?_
        rcases mul_eq_zero.mp (hz k hk) with h0 | h0
        · rw [h2 k (by rw [← Real.sqrt_sq_eq_abs, show ρ k ^ 2 = 1 by linarith, Real.sqrt_one])]
        · have : waves (cube v) k = 0 := by simpa using h0
          rw [this]
          simp
      rw [e, waves_dot h]
      have := sum_fourth_pos hv
      have := prod_pos h
      positivity)
  refine ⟨r, fun u hu => ?_⟩
  have := hr u hu
  rw [kept_sq, given_sq]
  simp only [one_mul, sub_mul, mul_add, add_mul, Finset.sum_sub_distrib, Finset.sum_add_distrib] at this
  linarith

theorem norm_le_waves (u : Fin dims.prod → ℝ) : ‖u‖ ^ 2 ≤ ∑ k, ‖waves u k‖ ^ 2 := by
  rw [waves_sq h]
  have hp : (1 : ℝ) ≤ (dims.prod : ℕ) := by
    have := List.prod_pos h
    exact_mod_cast this
  have h0 : 0 ≤ ∑ x, u x ^ 2 := Finset.sum_nonneg fun x _ => sq_nonneg _
  have hn : ‖u‖ ≤ Real.sqrt (∑ x, u x ^ 2) := by
    rw [pi_norm_le_iff_of_nonneg (Real.sqrt_nonneg _)]
    intro x
    rw [Real.norm_eq_abs]
    exact Real.abs_le_sqrt (Finset.single_le_sum (f := fun x => u x ^ 2) (fun y _ => sq_nonneg _) (Finset.mem_univ x))
  have := pow_le_pow_left₀ (norm_nonneg u) hn 2
  rw [Real.sq_sqrt h0] at this
  nlinarith

include h1 hc h2 in
/-- Runs that start in a bounded set stay in a bounded set. -/
theorem bounded (R : ℝ) : ∃ C : ℝ, ∀ u : ℕ → Fin dims.prod → ℝ, ‖u 0‖ ≤ R → (∀ n k, kept α (u (n + 1)) k = given β ρ (u n) k) →
    ∀ n, ‖u n‖ ≤ C := by
  obtain ⟨r1, hr1⟩ := kept_large h α
  obtain ⟨r2, hr2⟩ := given_le h h1 hc h2
  have ck : Continuous fun u : Fin dims.prod → ℝ => ∑ k, ‖kept α u k‖ ^ 2 := by
    unfold kept
    refine continuous_finsetSum _ fun k _ => ?_
    exact ((continuous_const.mul (waves_continuous k)).add ((waves_continuous k).comp cube_continuous)).norm.pow 2
  have cg : Continuous fun u : Fin dims.prod → ℝ => ∑ k, ‖given β ρ u k‖ ^ 2 := by
    unfold given
    refine continuous_finsetSum _ fun k _ => ?_
    exact ((continuous_const.mul (waves_continuous k)).sub (continuous_const.mul ((waves_continuous k).comp cube_continuous))).norm.pow 2
  obtain ⟨K, hK⟩ := (isCompact_closedBall (0 : Fin dims.prod → ℝ) R).exists_bound_of_continuousOn ck.continuousOn
  obtain ⟨G, hG⟩ := (isCompact_closedBall (0 : Fin dims.prod → ℝ) r2).exists_bound_of_continuousOn cg.continuousOn
  set B := max K G with hB
  refine ⟨max r1 (Real.sqrt B), fun u hu hstep n => ?_⟩
  have key : ∀ n, ∑ k, ‖kept α (u n) k‖ ^ 2 ≤ B := by
    intro n
    induction n with
    | zero =>
      have := hK (u 0) (by simpa using hu)
      exact ((le_abs_self _).trans this).trans (le_max_left _ _)
    | succ n ih =>
      simp only [hstep n]
      rcases le_total r2 ‖u n‖ with hh | hh
      · exact (hr2 _ hh).trans ih
      · have := hG (u n) (by simpa using hh)
        exact ((le_abs_self _).trans this).trans (le_max_right _ _)
  rcases le_total r1 ‖u n‖ with hh | hh
  · refine le_max_of_le_right (Real.le_sqrt_of_sq_le ?_)
    exact (norm_le_waves h _).trans ((hr1 _ hh).trans (key n))
  · exact le_max_of_le_left hh

omit h in
theorem low (t D : ℝ) : |t| - (1 + (D + 1) ^ 2 / 2) ≤ t ^ 4 / 4 - t ^ 2 / 2 - D * |t| := by
  have e : t ^ 2 = |t| ^ 2 := (sq_abs t).symm
  have e4 : t ^ 4 = |t| ^ 4 := by rw [show t ^ 4 = (t ^ 2) ^ 2 by ring, e]; ring
  rw [e, e4]
  generalize |t| = y
  have h1 : (D + 1) * y ≤ (D + 1) ^ 2 / 2 + y ^ 2 / 2 := by nlinarith [sq_nonneg (D + 1 - y)]
  nlinarith [sq_nonneg (y ^ 2 / 2 - 1)]

omit h in
theorem slope_zero' {a1 a2 a3 a4 : ℝ} (hs : ∀ s : ℝ, 0 ≤ a1 * s + a2 * s ^ 2 + a3 * s ^ 3 + a4 * s ^ 4) : a1 = 0 := by
  have hd : HasDerivAt (fun s : ℝ => a1 * s + a2 * s ^ 2 + a3 * s ^ 3 + a4 * s ^ 4) a1 0 := by
    have := (((hasDerivAt_id (0 : ℝ)).const_mul a1).add (((hasDerivAt_pow 2 (0 : ℝ))).const_mul a2)).add
      (((hasDerivAt_pow 3 (0 : ℝ))).const_mul a3) |>.add (((hasDerivAt_pow 4 (0 : ℝ))).const_mul a4)
    refine (this.congr_deriv (by simp)).congr_of_eventuallyEq ?_
    exact Filter.Eventually.of_forall fun s => by simp
  refine IsLocalMin.hasDerivAt_eq_zero (f := fun s : ℝ => a1 * s + a2 * s ^ 2 + a3 * s ^ 3 + a4 * s ^ 4) ?_ hd
  exact Filter.Eventually.of_forall fun s => by simpa using hs s

omit h in
theorem waves_add (u v : Fin dims.prod → ℝ) (k : Fin dims.prod) : waves (u + v) k = waves u k + waves v k := by
  unfold waves fft
  rw [← Finset.sum_add_distrib]
  refine Finset.sum_congr rfl fun x _ => ?_
  simp only [Pi.add_apply, Complex.ofReal_add]
  ring

/-- There is a step: the waves of every real field are kept by some field. -/
theorem exists_kept (hlow : ∀ k, -1 ≤ α k) (hreal : ∀ u : Fin dims.prod → ℝ, ∃ e : Fin dims.prod → ℝ, ∀ k, waves e k = α k * waves u k)
    (g : Fin dims.prod → ℝ) : ∃ u : Fin dims.prod → ℝ, ∀ k, kept α u k = waves g k := by
  set P : ℝ := ((dims.prod : ℕ) : ℝ) with hP
  have hP0 : 0 < P := prod_pos h
  set J : (Fin dims.prod → ℝ) → ℝ := fun u => (∑ k, α k * ‖waves u k‖ ^ 2) / (2 * P) + ∑ x, (u x ^ 4 / 4 - g x * u x) with hJ
  have cJ : Continuous J := by
    refine ((second_continuous α).div_const _).add (continuous_finsetSum _ fun x _ => ?_)
    fun_prop
  have hJlow : ∀ u, ‖u‖ - ∑ x, (1 + (|g x| + 1) ^ 2 / 2) ≤ J u := by
    intro u
    have e1 : -(∑ x, u x ^ 2 / 2) ≤ (∑ k, α k * ‖waves u k‖ ^ 2) / (2 * P) := by
      rw [le_div_iff₀ (by positivity)]
      have e2 : ∑ k, (-1) * ‖waves u k‖ ^ 2 ≤ ∑ k, α k * ‖waves u k‖ ^ 2 :=
        Finset.sum_le_sum fun k _ => mul_le_mul_of_nonneg_right (hlow k) (by positivity)
      rw [← Finset.mul_sum, waves_sq h, ← hP] at e2
      have e5 : ∑ x, u x ^ 2 / 2 = (∑ x, u x ^ 2) / 2 := by
        rw [div_eq_mul_inv, Finset.sum_mul]
        exact Finset.sum_congr rfl fun x _ => by ring
      rw [e5]
      linarith
    have e3 : ∑ x, (|u x| - (1 + (|g x| + 1) ^ 2 / 2)) ≤ ∑ x, (u x ^ 4 / 4 - u x ^ 2 / 2 - g x * u x) := by
      refine Finset.sum_le_sum fun x _ => ?_
      have a := low (u x) |g x|
      have b : g x * u x ≤ |g x| * |u x| := by rw [← abs_mul]; exact le_abs_self _
      linarith
    have e4 : ‖u‖ ≤ ∑ x, |u x| := by
      rw [pi_norm_le_iff_of_nonneg (Finset.sum_nonneg fun x _ => abs_nonneg _)]
      intro x
      rw [Real.norm_eq_abs]
      exact Finset.single_le_sum (f := fun x => |u x|) (fun y _ => abs_nonneg _) (Finset.mem_univ x)
    simp only [hJ]
    simp only [Finset.sum_sub_distrib] at e3 ⊢
    linarith
  have hlim : Tendsto J (cocompact _) atTop := by
    refine tendsto_atTop_mono hJlow ?_
    exact tendsto_atTop_add_const_right _ _ (tendsto_norm_cocompact_atTop (E := Fin dims.prod → ℝ))
  obtain ⟨u, hu⟩ := cJ.exists_forall_le hlim
  obtain ⟨e, he⟩ := hreal u
  refine ⟨u, ?_⟩
  -- the direction of steepest descent
  set d : Fin dims.prod → ℝ := fun x => e x + cube u x - g x with hd
  have hdw : ∀ k, waves d k = kept α u k - waves g k := by
    intro k
    have : d + g = e + cube u := by funext x; simp [hd]
    have := congrArg (fun f => waves f k) this
    simp only [waves_add, he] at this
    unfold kept
    linear_combination this
  have hdot : ∑ k, α k * (waves u k * (starRingEnd ℂ) (waves d k)).re = P * ∑ x, e x * d x := by
    rw [hP, ← waves_dot h]
    refine Finset.sum_congr rfl fun k _ => ?_
    rw [he, mul_assoc, Complex.re_ofReal_mul]
  have hexp : ∀ s : ℝ, J (u + s • d) - J u = (∑ x, d x ^ 2) * s +
      ((∑ k, α k * ‖waves d k‖ ^ 2) / (2 * P) + ∑ x, 3 / 2 * u x ^ 2 * d x ^ 2) * s ^ 2 +
      (∑ x, u x * d x ^ 3) * s ^ 3 + (∑ x, d x ^ 4 / 4) * s ^ 4 := by
    intro s
    have a1 : ∑ k, α k * ‖waves (u + s • d) k‖ ^ 2 = ∑ k, α k * ‖waves u k‖ ^ 2 +
        2 * s * ∑ k, α k * (waves u k * (starRingEnd ℂ) (waves d k)).re + s ^ 2 * ∑ k, α k * ‖waves d k‖ ^ 2 := by
      rw [Finset.mul_sum, Finset.mul_sum, ← Finset.sum_add_distrib, ← Finset.sum_add_distrib]
      refine Finset.sum_congr rfl fun k _ => ?_
      rw [waves_add, waves_smul, ← Complex.normSq_eq_norm_sq, ← Complex.normSq_eq_norm_sq, ← Complex.normSq_eq_norm_sq,
        Complex.normSq_add, Complex.normSq_mul, Complex.normSq_ofReal, map_mul, Complex.conj_ofReal,
        show waves u k * ((s : ℂ) * (starRingEnd ℂ) (waves d k)) = (s : ℂ) * (waves u k * (starRingEnd ℂ) (waves d k)) by ring,
        Complex.re_ofReal_mul]
      ring
    have a2 : ∑ x, ((u + s • d) x ^ 4 / 4 - g x * (u + s • d) x) = ∑ x, (u x ^ 4 / 4 - g x * u x) +
        s * ∑ x, (cube u x - g x) * d x + s ^ 2 * ∑ x, 3 / 2 * u x ^ 2 * d x ^ 2 + s ^ 3 * ∑ x, u x * d x ^ 3 +
        s ^ 4 * ∑ x, d x ^ 4 / 4 := by
      rw [Finset.mul_sum, Finset.mul_sum, Finset.mul_sum, Finset.mul_sum, ← Finset.sum_add_distrib, ← Finset.sum_add_distrib,
        ← Finset.sum_add_distrib, ← Finset.sum_add_distrib]
      refine Finset.sum_congr rfl fun x _ => ?_
      simp only [Pi.add_apply, Pi.smul_apply, smul_eq_mul, cube]
      ring
    have a3 : ∑ x, d x ^ 2 = ∑ x, e x * d x + ∑ x, (cube u x - g x) * d x := by
      rw [← Finset.sum_add_distrib]
      refine Finset.sum_congr rfl fun x _ => ?_
      simp only [hd]
      ring
    simp only [hJ]
    rw [a1, a2, a3, hdot]
    field_simp
    ring
  have hzero : ∑ x, d x ^ 2 = 0 := slope_zero' fun s => by
    rw [← hexp s]
    exact sub_nonneg.mpr (hu _)
  intro k
  have hd0 : d = 0 := by
    funext x
    have := (Finset.sum_eq_zero_iff_of_nonneg fun y _ => sq_nonneg (d y)).mp hzero x (Finset.mem_univ _)
    simpa using this
  have := hdw k
  rw [hd0] at this
  have z : waves (0 : Fin dims.prod → ℝ) k = 0 := by simp [waves, fft]
  rw [z] at this
  exact (sub_eq_zero.mp this.symm)

end

end Gopf.Cubic
