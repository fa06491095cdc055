import Verif.Proofs.ConvergeRk
import Mathlib.Analysis.Calculus.ContDiff.Basic
import Mathlib.Analysis.Calculus.ContDiff.Operations
import Mathlib.Analysis.Calculus.Deriv.Pow
import Mathlib.Analysis.Calculus.FDeriv.Pi
import Mathlib.Analysis.Calculus.IteratedDeriv.Defs
import Mathlib.Analysis.Normed.Module.FiniteDimension
import Mathlib.Tactic.Module

/-!
# Fourth order convergence of the classical Runge-Kutta method for autonomous equations
-/

namespace Gopf.Converge
open Set

section explicit
variable {E : Type} [NormedAddCommGroup E] [NormedSpace ℝ E]

/-- One step of the classical method. -/
noncomputable def rk4Of (f : E → E) (h : ℝ) (Y : E) : E :=
  let k1 := f Y
  let k2 := f (Y + (h / 2) • k1)
  let k3 := f (Y + (h / 2) • k2)
  let k4 := f (Y + h • k3)
  Y + (h / 6) • (k1 + (2 : ℝ) • k2 + (2 : ℝ) • k3 + k4)

/-- A quantity that is `O (h ^ k)`, uniformly in `t`. -/
def Small {F : Type} [NormedAddCommGroup F] (T : ℝ) (k : ℕ) (X : ℝ → ℝ → F) : Prop :=
  ∃ M : ℝ, 0 ≤ M ∧ ∀ t h : ℝ, 0 ≤ t → 0 ≤ h → h ≤ 1 → t + h ≤ T → ‖X t h‖ ≤ M * h ^ k

variable {T : ℝ} {k l : ℕ} {X Z : ℝ → ℝ → E}

omit [NormedSpace ℝ E] in
theorem Small.congr (h : Small T k X) (e : ∀ t h, Z t h = X t h) : Small T k Z := by
  have : Z = X := by funext t h; exact e t h
  rwa [this]

omit [NormedSpace ℝ E] in
theorem Small.add (hX : Small T k X) (hZ : Small T k Z) : Small T k fun t h => X t h + Z t h := by
  obtain ⟨M, hM, hX⟩ := hX
  obtain ⟨M', hM', hZ⟩ := hZ
  refine ⟨M + M', by positivity, fun t h a b c d => ?_⟩
  have := norm_add_le (X t h) (Z t h)
  have := hX t h a b c d
  have := hZ t h a b c d
  linarith

theorem Small.smul (c : ℝ) (hX : Small T k X) : Small T k fun t h => c • X t h := by
  obtain ⟨M, hM, hX⟩ := hX
  refine ⟨|c| * M, by positivity, fun t h a b d e => ?_⟩
  rw [norm_smul, Real.norm_eq_abs, mul_assoc]
  exact mul_le_mul_of_nonneg_left (hX t h a b d e) (abs_nonneg _)

theorem Small.neg (hX : Small T k X) : Small T k fun t h => -X t h :=
  (hX.smul (-1)).congr fun t h => by module

theorem Small.sub (hX : Small T k X) (hZ : Small T k Z) : Small T k fun t h => X t h - Z t h :=
  (hX.add hZ.neg).congr fun t h => by module

omit [NormedSpace ℝ E] in
theorem Small.mono (hX : Small T k X) (hl : l ≤ k) : Small T l X := by
  obtain ⟨M, hM, hX⟩ := hX
  refine ⟨M, hM, fun t h a b c d => (hX t h a b c d).trans ?_⟩
  exact mul_le_mul_of_nonneg_left (pow_le_pow_of_le_one b c hl) hM

theorem Small.pow (j : ℕ) (hX : Small T k X) : Small T (k + j) fun t h => h ^ j • X t h := by
  obtain ⟨M, hM, hX⟩ := hX
  refine ⟨M, hM, fun t h a b c d => ?_⟩
  rw [norm_smul, Real.norm_eq_abs, abs_of_nonneg (pow_nonneg b j), pow_add]
  have := mul_le_mul_of_nonneg_left (hX t h a b c d) (pow_nonneg b j)
  linarith

theorem Small.op {J : ℝ → ℝ → E →L[ℝ] E} (hJ : Small T l J) (hX : Small T k X) :
    Small T (k + l) fun t h => J t h (X t h) := by
  obtain ⟨M, hM, hJ⟩ := hJ
  obtain ⟨M', hM', hX⟩ := hX
  refine ⟨M * M', by positivity, fun t h a b c d => ?_⟩
  refine ((J t h).le_opNorm _).trans ?_
  have := mul_le_mul (hJ t h a b c d) (hX t h a b c d) (norm_nonneg _) (by positivity)
  rw [pow_add]
  linarith

/-- Integrating an estimate of the derivative. -/
theorem Small.integrate {u u' : ℝ → E} (hu : ∀ t ∈ Icc 0 T, HasDerivWithinAt u (u' t) (Icc 0 T) t)
    {p p' : ℝ → ℝ → E} (hp : ∀ t h, HasDerivAt (p t) (p' t h) h) (h0 : ∀ t, p t 0 = u t)
    (hs : Small T k fun t h => u' (t + h) - p' t h) : Small T (k + 1) fun t h => u (t + h) - p t h := by
  obtain ⟨M, hM, hs⟩ := hs
  refine ⟨M, hM, fun t h ht hh h1 hth => ?_⟩
  have hder : ∀ x ∈ Icc 0 h, HasDerivWithinAt (fun s : ℝ => u (t + s) - p t s) (u' (t + x) - p' t x) (Icc 0 h) x := by
    intro x hx
    have e1 : HasDerivWithinAt (fun s : ℝ => u (t + s)) (u' (t + x)) (Icc 0 h) x := by
      have e2 : HasDerivWithinAt (fun s : ℝ => t + s) 1 (Icc 0 h) x := (hasDerivWithinAt_id x _).const_add t
      have := (hu (t + x) ⟨by linarith [hx.1], by linarith [hx.2]⟩).scomp x e2
        (fun s hs => ⟨by linarith [hs.1], by linarith [hs.2]⟩)
      rwa [one_smul] at this
    exact e1.sub (hp t x).hasDerivWithinAt
  have := (convex_Icc (0 : ℝ) h).norm_image_sub_le_of_norm_hasDerivWithin_le (C := M * h ^ k) hder
    (fun x hx => (hs t x ht hx.1 (hx.2.trans h1) (by linarith [hx.2])).trans
      (mul_le_mul_of_nonneg_left (pow_le_pow_left₀ hx.1 hx.2 k) hM))
    (⟨le_rfl, hh⟩ : (0 : ℝ) ∈ Icc 0 h) (⟨hh, le_rfl⟩ : h ∈ Icc 0 h)
  rw [add_zero, h0, sub_self, sub_zero, sub_zero, Real.norm_eq_abs, abs_of_nonneg hh] at this
  rw [pow_succ]
  linarith

omit [NormedSpace ℝ E] in
/-- Half a step. -/
theorem Small.half (hX : Small T k X) : Small T k fun t h => X t (h / 2) := by
  obtain ⟨M, hM, hX⟩ := hX
  refine ⟨M, hM, fun t h a b c d => (hX t (h / 2) a (by linarith) (by linarith) (by linarith)).trans ?_⟩
  exact mul_le_mul_of_nonneg_left (pow_le_pow_left₀ (by linarith) (by linarith) k) hM

/-! ### The right-hand side -/

theorem deriv_lipschitz [ProperSpace E] {F : Type} [NormedAddCommGroup F] [NormedSpace ℝ F] {f : E → F}
    (hf : ContDiff ℝ 1 f) (R : ℝ) :
    ∃ L : ℝ, 0 ≤ L ∧ ∀ a b : E, ‖a‖ ≤ R → ‖b‖ ≤ R → ‖f a - f b‖ ≤ L * ‖a - b‖ := by
  have hc : Continuous (fderiv ℝ f) := hf.continuous_fderiv (by norm_num)
  obtain ⟨L0, hL0⟩ := (isCompact_closedBall (0 : E) R).exists_bound_of_continuousOn hc.continuousOn
  refine ⟨max L0 0, le_max_right _ _, fun a b ha hb => ?_⟩
  refine (convex_closedBall (0 : E) R).norm_image_sub_le_of_norm_fderiv_le (𝕜 := ℝ)
    (fun x _ => (hf.differentiable (by norm_num)) x) (fun x hx => (hL0 x hx).trans (le_max_left _ _)) ?_ ?_
  · simpa using hb
  · simpa using ha

theorem quadratic_remainder [ProperSpace E] {f : E → E} (hf : ContDiff ℝ 2 f) (R : ℝ) :
    ∃ L : ℝ, 0 ≤ L ∧ ∀ a b : E, ‖a‖ ≤ R → ‖b‖ ≤ R → ‖f b - f a - fderiv ℝ f a (b - a)‖ ≤ L * ‖b - a‖ ^ 2 := by
  have h1 : ContDiff ℝ 1 (fderiv ℝ f) := hf.fderiv_right (by norm_num)
  obtain ⟨L, hL, h⟩ := deriv_lipschitz h1 R
  refine ⟨L, hL, fun a b ha hb => ?_⟩
  have hball : segment ℝ a b ⊆ Metric.closedBall 0 R :=
    (convex_closedBall (0 : E) R).segment_subset (by simpa using ha) (by simpa using hb)
  have := (convex_segment a b).norm_image_sub_le_of_norm_fderiv_le' (𝕜 := ℝ) (f := f) (φ := fderiv ℝ f a)
    (C := L * ‖b - a‖) (fun x _ => (hf.differentiable (by norm_num)) x) (fun x hx => by
      refine (h x a (by simpa using hball hx) ha).trans (mul_le_mul_of_nonneg_left ?_ hL)
      obtain ⟨θ, hθ0, hθ1, rfl⟩ : ∃ θ : ℝ, 0 ≤ θ ∧ θ ≤ 1 ∧ a + θ • (b - a) = x := by
        rw [segment_eq_image'] at hx
        obtain ⟨θ, hθ, e⟩ := hx
        exact ⟨θ, hθ.1, hθ.2, e⟩
      rw [add_sub_cancel_left, norm_smul, Real.norm_eq_abs, abs_of_nonneg hθ0]
      exact mul_le_of_le_one_left (norm_nonneg _) hθ1) (left_mem_segment ℝ a b) (right_mem_segment ℝ a b)
  rw [pow_two, ← mul_assoc]
  exact this

/-- The solution inherits the smoothness of the right-hand side. -/
theorem solution_smooth {f : E → E} {m : ℕ} (hf : ContDiff ℝ m f) (hT : 0 < T) {y : ℝ → E}
    (hy : ∀ t ∈ Icc 0 T, HasDerivWithinAt y (f (y t)) (Icc 0 T) t) : ContDiffOn ℝ (m + 1 : ℕ) y (Icc 0 T) := by
  have hu : UniqueDiffOn ℝ (Icc 0 T) := uniqueDiffOn_Icc hT
  have hdiff : DifferentiableOn ℝ y (Icc 0 T) := fun t ht => (hy t ht).differentiableWithinAt
  have hder : ∀ t ∈ Icc 0 T, derivWithin y (Icc 0 T) t = f (y t) := fun t ht => (hy t ht).derivWithin (hu t ht)
  have key : ∀ j : ℕ, j ≤ m + 1 → ContDiffOn ℝ (j : ℕ) y (Icc 0 T) := by
    intro j
    induction j with
    | zero => intro _; rw [Nat.cast_zero, contDiffOn_zero]; exact hdiff.continuousOn
    | succ j ih =>
      intro hj
      have h1 := ih (by omega)
      rw [Nat.cast_succ, contDiffOn_succ_iff_derivWithin hu]
      refine ⟨hdiff, by simp, ?_⟩
      have h2 : ContDiffOn ℝ (j : ℕ) (fun t => f (y t)) (Icc 0 T) :=
        (hf.of_le (by exact_mod_cast (by omega : j ≤ m))).comp_contDiffOn h1
      exact h2.congr hder
  exact key (m + 1) le_rfl

theorem derivatives {u : ℝ → E} {m : ℕ} (hT : 0 < T) (hu : ContDiffOn ℝ m u (Icc 0 T)) :
    ∃ g : ℕ → ℝ → E, g 0 = u ∧ (∀ j, j < m → ∀ t ∈ Icc 0 T, HasDerivWithinAt (g j) (g (j + 1) t) (Icc 0 T) t) ∧
      ∀ j, j ≤ m → ∃ M : ℝ, 0 ≤ M ∧ ∀ t ∈ Icc 0 T, ‖g j t‖ ≤ M := by
  have hU : UniqueDiffOn ℝ (Icc 0 T) := uniqueDiffOn_Icc hT
  refine ⟨fun j => iteratedDerivWithin j u (Icc 0 T), ?_, ?_, ?_⟩
  · exact iteratedDerivWithin_zero
  · intro j hj t ht
    have h1 := hu.differentiableOn_iteratedDerivWithin (m := j) (by exact_mod_cast hj) hU
    have h2 := (h1 t ht).hasDerivWithinAt
    rwa [← iteratedDerivWithin_succ] at h2
  · intro j hj
    have h1 := hu.continuousOn_iteratedDerivWithin (m := j) (by exact_mod_cast hj) hU
    obtain ⟨M, hM⟩ := isCompact_Icc.exists_bound_of_continuousOn h1
    exact ⟨max M 0, le_max_right _ _, fun t ht => (hM t ht).trans (le_max_left _ _)⟩

/-! ### The error of one step -/

theorem hasDerivAt_term (n : ℕ) (c : ℝ) (v : E) (h : ℝ) :
    HasDerivAt (fun h : ℝ => (h ^ (n + 1) / c) • v) (((n + 1 : ℕ) * h ^ n / c) • v) h :=
  ((hasDerivAt_pow (n + 1) h).div_const c).smul_const v

theorem remainder [ProperSpace E] {f : E → E} (hf : ContDiff ℝ 2 f) {y : ℝ → E} {M : ℝ} (hy : ∀ t ∈ Icc 0 T, ‖y t‖ ≤ M)
    {D : ℝ → ℝ → E} (hD : Small T k D) {σ : ℝ} (h0 : 0 ≤ σ) (h1 : σ ≤ 1) :
    Small T (k + k) fun t h => f (y (t + σ * h) + D t h) - f (y (t + σ * h)) - fderiv ℝ f (y (t + σ * h)) (D t h) := by
  obtain ⟨MD, hMD, hD⟩ := hD
  obtain ⟨L, hL, hq⟩ := quadratic_remainder hf (M + MD)
  refine ⟨L * MD ^ 2, by positivity, fun t h ht hh hh1 hth => ?_⟩
  have hin : t + σ * h ∈ Icc 0 T := ⟨by positivity, by nlinarith⟩
  have hd := hD t h ht hh hh1 hth
  have hd1 : ‖D t h‖ ≤ MD := hd.trans (mul_le_of_le_one_right hMD (pow_le_one₀ hh hh1))
  have := hq (y (t + σ * h)) (y (t + σ * h) + D t h) ((hy _ hin).trans (by linarith))
    ((norm_add_le _ _).trans (add_le_add (hy _ hin) hd1))
  rw [add_sub_cancel_left] at this
  refine this.trans ?_
  have h2 := pow_le_pow_left₀ (norm_nonneg _) hd 2
  have h3 := mul_le_mul_of_nonneg_left h2 hL
  have e : L * (MD * h ^ k) ^ 2 = L * MD ^ 2 * h ^ (k + k) := by ring
  linarith

theorem local_error [ProperSpace E] {f : E → E} (hf : ContDiff ℝ 4 f) (hT : 0 < T) {y : ℝ → E}
    (hy : ∀ t ∈ Icc 0 T, HasDerivWithinAt y (f (y t)) (Icc 0 T) t) :
    Small T 5 fun t h => rk4Of f h (y t) - y (t + h) := by
  have hys : ContDiffOn ℝ (4 + 1 : ℕ) y (Icc 0 T) := solution_smooth (m := 4) hf hT hy
  have hgs : ContDiffOn ℝ (4 : ℕ) (fun t => f (y t)) (Icc 0 T) :=
    hf.comp_contDiffOn (hys.of_le (by norm_num))
  obtain ⟨g, hg0, hg, hgb⟩ := derivatives hT hgs
  obtain ⟨M, hM, hyM⟩ : ∃ M : ℝ, 0 ≤ M ∧ ∀ t ∈ Icc 0 T, ‖y t‖ ≤ M := by
    obtain ⟨M, hM⟩ := isCompact_Icc.exists_bound_of_continuousOn hys.continuousOn
    exact ⟨max M 0, le_max_right _ _, fun t ht => (hM t ht).trans (le_max_left _ _)⟩
  -- bounded quantities
  have b : ∀ j, j ≤ 4 → Small T 0 fun t _ => g j t := by
    intro j hj
    obtain ⟨M, hM, h⟩ := hgb j hj
    refine ⟨M, hM, fun t h' a b c d => ?_⟩
    rw [pow_zero, mul_one]
    exact h t ⟨a, by linarith⟩
  have b4 : Small T 0 fun t h => g 4 (t + h) := by
    obtain ⟨M, hM, h⟩ := hgb 4 le_rfl
    refine ⟨M, hM, fun t h' a b c d => ?_⟩
    rw [pow_zero, mul_one]
    exact h _ ⟨by linarith, d⟩
  have b1 := b 1 (by norm_num)
  have b2 := b 2 (by norm_num)
  have b3 := b 3 (by norm_num)
  -- Taylor expansions
  have q3 : Small T 1 fun t h => g 3 (t + h) - g 3 t :=
    Small.integrate (hg 3 (by norm_num)) (p := fun t _ => g 3 t) (p' := fun _ _ => 0)
      (fun t h => hasDerivAt_const h (g 3 t)) (fun t => rfl) (b4.congr fun t h => sub_zero _)
  have q2 : Small T 2 fun t h => g 2 (t + h) - (g 2 t + (h ^ 1 / 1) • g 3 t) :=
    Small.integrate (hg 2 (by norm_num)) (p := fun t h => g 2 t + (h ^ 1 / 1) • g 3 t) (p' := fun t _ => g 3 t)
      (fun t h => ((hasDerivAt_term 0 1 (g 3 t) h).const_add (g 2 t)).congr_deriv (by norm_num))
      (fun t => by simp) q3
  have q1 : Small T 3 fun t h => g 1 (t + h) - (g 1 t + (h ^ 1 / 1) • g 2 t + (h ^ 2 / 2) • g 3 t) :=
    Small.integrate (hg 1 (by norm_num)) (p := fun t h => g 1 t + (h ^ 1 / 1) • g 2 t + (h ^ 2 / 2) • g 3 t)
      (p' := fun t h => g 2 t + (h ^ 1 / 1) • g 3 t)
      (fun t h => (((hasDerivAt_term 0 1 (g 2 t) h).const_add (g 1 t)).add (hasDerivAt_term 1 2 (g 3 t) h)).congr_deriv
        (by push_cast; module))
      (fun t => by simp) q2
  have q0 : Small T 4 fun t h => g 0 (t + h) -
      (g 0 t + (h ^ 1 / 1) • g 1 t + (h ^ 2 / 2) • g 2 t + (h ^ 3 / 6) • g 3 t) :=
    Small.integrate (hg 0 (by norm_num))
      (p := fun t h => g 0 t + (h ^ 1 / 1) • g 1 t + (h ^ 2 / 2) • g 2 t + (h ^ 3 / 6) • g 3 t)
      (p' := fun t h => g 1 t + (h ^ 1 / 1) • g 2 t + (h ^ 2 / 2) • g 3 t)
      (fun t h => ((((hasDerivAt_term 0 1 (g 1 t) h).const_add (g 0 t)).add (hasDerivAt_term 1 2 (g 2 t) h)).add
        (hasDerivAt_term 2 6 (g 3 t) h)).congr_deriv (by push_cast; module))
      (fun t => by simp) q1
  have hyg : ∀ t ∈ Icc 0 T, HasDerivWithinAt y (g 0 t) (Icc 0 T) t := by
    intro t ht; rw [hg0]; exact hy t ht
  have qy : Small T 5 fun t h => y (t + h) -
      (y t + (h ^ 1 / 1) • g 0 t + (h ^ 2 / 2) • g 1 t + (h ^ 3 / 6) • g 2 t + (h ^ 4 / 24) • g 3 t) :=
    Small.integrate hyg
      (p := fun t h => y t + (h ^ 1 / 1) • g 0 t + (h ^ 2 / 2) • g 1 t + (h ^ 3 / 6) • g 2 t + (h ^ 4 / 24) • g 3 t)
      (p' := fun t h => g 0 t + (h ^ 1 / 1) • g 1 t + (h ^ 2 / 2) • g 2 t + (h ^ 3 / 6) • g 3 t)
      (fun t h => (((((hasDerivAt_term 0 1 (g 0 t) h).const_add (y t)).add (hasDerivAt_term 1 2 (g 1 t) h)).add
        (hasDerivAt_term 2 6 (g 2 t) h)).add (hasDerivAt_term 3 24 (g 3 t) h)).congr_deriv (by push_cast; module))
      (fun t => by simp) q0
  have q0h := q0.half
  have qyh := qy.half
  -- the derivative of the right-hand side along the solution
  set J : ℝ → E →L[ℝ] E := fun t => fderiv ℝ f (y t) with hJ
  have hf1 : ContDiff ℝ 1 (fderiv ℝ f) := hf.fderiv_right (by norm_num)
  obtain ⟨LJ, hLJ, hLip⟩ := deriv_lipschitz hf1 M
  obtain ⟨MJ, hMJ, hJb⟩ : ∃ MJ : ℝ, 0 ≤ MJ ∧ ∀ t ∈ Icc 0 T, ‖J t‖ ≤ MJ := by
    obtain ⟨M', hM'⟩ := isCompact_Icc.exists_bound_of_continuousOn (hf1.continuous.comp_continuousOn hys.continuousOn)
    exact ⟨max M' 0, le_max_right _ _, fun t ht => (hM' t ht).trans (le_max_left _ _)⟩
  have j0 : Small T 0 fun t _ => J t := ⟨MJ, hMJ, fun t h a b c d => by
    rw [pow_zero, mul_one]; exact hJb t ⟨a, by linarith⟩⟩
  have j1 : Small T 0 fun t h => J (t + h) := ⟨MJ, hMJ, fun t h a b c d => by
    rw [pow_zero, mul_one]; exact hJb _ ⟨by linarith, d⟩⟩
  have y1 : Small T 1 fun t h => y (t + h) - y t :=
    Small.integrate hyg (p := fun t _ => y t) (p' := fun _ _ => 0) (fun t h => hasDerivAt_const h (y t)) (fun t => rfl) (by
      obtain ⟨M, hM, h⟩ := hgb 0 (by norm_num)
      refine ⟨M, hM, fun t h' a b c d => ?_⟩
      dsimp only
      rw [pow_zero, mul_one, sub_zero]
      exact h _ ⟨by linarith, d⟩)
  have jd : Small T 1 fun t h => J (t + h) - J t := by
    obtain ⟨M1, hM1, h1⟩ := y1
    refine ⟨LJ * M1, by positivity, fun t h a b c d => ?_⟩
    refine (hLip _ _ (hyM _ ⟨by linarith, d⟩) (hyM _ ⟨a, by linarith⟩)).trans ?_
    rw [mul_assoc]
    exact mul_le_mul_of_nonneg_left (h1 t h a b c d) hLJ
  have j1h := j1.half
  have jdh := jd.half
  -- the second stage
  set D2 : ℝ → ℝ → E := fun t h => y t + (h / 2) • f (y t) - y (t + h / 2) with hD2
  have fg : ∀ t, f (y t) = g 0 t := fun t => by rw [hg0]
  have d2 : Small T 4 fun t h => D2 t h + (h ^ 2 / 8) • g 1 t + (h ^ 3 / 48) • g 2 t :=
    ((qyh.mono (by norm_num : 4 ≤ 5)).neg.sub ((b3.pow 4).smul (1 / 384))).congr fun t h => by
      simp only [hD2, fg]; module
  have d2s : Small T 2 D2 :=
    ((d2.mono (by norm_num : 2 ≤ 4)).sub (((b1.pow 2).smul (1 / 8)).add
      (((b2.pow 3).mono (by norm_num : 2 ≤ 0 + 3)).smul (1 / 48)))).congr fun t h => by module
  set k2 : ℝ → ℝ → E := fun t h => f (y t + (h / 2) • f (y t)) with hk2
  have r2 : Small T 4 fun t h => k2 t h - g 0 (t + h / 2) - J (t + h / 2) (D2 t h) :=
    (remainder (hf.of_le (by norm_num)) hyM d2s (σ := 1 / 2) (by norm_num) (by norm_num)).congr fun t h => by
      have e : t + 1 / 2 * h = t + h / 2 := by ring
      have e2 : y (t + h / 2) + D2 t h = y t + (h / 2) • f (y t) := by simp only [hD2]; abel
      simp only [e, e2, hk2, ← fg, hJ]
  -- the third stage
  set D3 : ℝ → ℝ → E := fun t h => y t + (h / 2) • k2 t h - y (t + h / 2) with hD3
  have jd2 : Small T 3 fun t h => J (t + h / 2) (D2 t h) + (h ^ 2 / 8) • J t (g 1 t) := by
    have e1 := j1h.op (((d2.mono (by norm_num : 3 ≤ 4)).sub ((b2.pow 3).smul (1 / 48))))
    have e2 := (jdh.op ((b1.pow 2).smul (1 / 8)))
    refine (e1.sub e2).congr fun t h => ?_
    simp only [map_add, map_sub, map_smul, _root_.sub_apply]
    module
  have d3 : Small T 4 fun t h => D3 t h - (h ^ 2 / 8) • g 1 t - (h ^ 3 / 24) • g 2 t + (h ^ 3 / 16) • J t (g 1 t) :=
    ((((((r2.pow 1).mono (by norm_num : 4 ≤ 4 + 1)).smul (1 / 2)).add ((jd2.pow 1).smul (1 / 2))).add
      (((q0h.pow 1).mono (by norm_num : 4 ≤ 4 + 1)).smul (1 / 2))).sub
        ((qyh.mono (by norm_num : 4 ≤ 5)).sub ((b3.pow 4).smul (1 / 96 - 1 / 384)))).congr fun t h => by
      simp only [hD3]; module
  have jg : Small T 0 fun t _ => J t (g 1 t) := j0.op b1
  have d3s : Small T 2 D3 :=
    ((d3.mono (by norm_num : 2 ≤ 4)).add ((((b1.pow 2).smul (1 / 8)).add
      (((b2.pow 3).mono (by norm_num : 2 ≤ 0 + 3)).smul (1 / 24))).sub
        (((jg.pow 3).mono (by norm_num : 2 ≤ 0 + 3)).smul (1 / 16)))).congr fun t h => by module
  set k3 : ℝ → ℝ → E := fun t h => f (y t + (h / 2) • k2 t h) with hk3
  have r3 : Small T 4 fun t h => k3 t h - g 0 (t + h / 2) - J (t + h / 2) (D3 t h) :=
    (remainder (hf.of_le (by norm_num)) hyM d3s (σ := 1 / 2) (by norm_num) (by norm_num)).congr fun t h => by
      have e : t + 1 / 2 * h = t + h / 2 := by ring
      have e2 : y (t + h / 2) + D3 t h = y t + (h / 2) • k2 t h := by simp only [hD3]; abel
      simp only [e, e2, hk3, ← fg, hJ]
  -- the fourth stage
  set D4 : ℝ → ℝ → E := fun t h => y t + h • k3 t h - y (t + h) with hD4
  have jd3 : Small T 3 fun t h => J (t + h / 2) (D3 t h) - (h ^ 2 / 8) • J t (g 1 t) := by
    have e1 := j1h.op ((d3.mono (by norm_num : 3 ≤ 4)).add (((b2.pow 3).smul (1 / 24)).sub ((jg.pow 3).smul (1 / 16))))
    have e2 := (jdh.op ((b1.pow 2).smul (1 / 8)))
    refine (e1.add e2).congr fun t h => ?_
    simp only [map_add, map_sub, map_smul, _root_.sub_apply]
    module
  have d4 : Small T 4 fun t h => D4 t h + (h ^ 3 / 24) • g 2 t - (h ^ 3 / 8) • J t (g 1 t) :=
    (((((r3.pow 1).mono (by norm_num : 4 ≤ 4 + 1)).add (jd3.pow 1)).add
      ((q0h.pow 1).mono (by norm_num : 4 ≤ 4 + 1))).sub
        ((qy.mono (by norm_num : 4 ≤ 5)).sub ((b3.pow 4).smul (1 / 48 - 1 / 24)))).congr fun t h => by
      simp only [hD4]; module
  have d4s : Small T 2 D4 :=
    ((d4.mono (by norm_num : 2 ≤ 4)).sub ((((b2.pow 3).mono (by norm_num : 2 ≤ 0 + 3)).smul (1 / 24)).sub
      (((jg.pow 3).mono (by norm_num : 2 ≤ 0 + 3)).smul (1 / 8)))).congr fun t h => by module
  set k4 : ℝ → ℝ → E := fun t h => f (y t + h • k3 t h) with hk4
  have r4 : Small T 4 fun t h => k4 t h - g 0 (t + h) - J (t + h) (D4 t h) :=
    (remainder (hf.of_le (by norm_num)) hyM d4s (σ := 1) (by norm_num) (by norm_num)).congr fun t h => by
      have e : t + 1 * h = t + h := by ring
      have e2 : y (t + h) + D4 t h = y t + h • k3 t h := by simp only [hD4]; abel
      simp only [e, e2, hk4, ← fg, hJ]
  -- the contributions of the stage errors cancel
  have jjg : Small T 0 fun t _ => J t (J t (g 1 t)) := j0.op jg
  have c23 : Small T 4 fun t h => J (t + h / 2) (D2 t h + D3 t h) - (h ^ 3 / 48) • J t (g 2 t) +
      (h ^ 3 / 16) • J t (J t (g 1 t)) := by
    have e1 := j1h.op (d2.add d3)
    have e2 := jdh.op (((b2.pow 3).smul (1 / 48)).sub ((jg.pow 3).smul (1 / 16)))
    refine (e1.add e2).congr fun t h => ?_
    simp only [map_add, map_sub, map_smul, _root_.sub_apply]
    module
  have c4 : Small T 4 fun t h => J (t + h) (D4 t h) + (h ^ 3 / 24) • J t (g 2 t) - (h ^ 3 / 8) • J t (J t (g 1 t)) := by
    have e1 := j1.op d4
    have e2 := jd.op (((b2.pow 3).smul (1 / 24)).sub ((jg.pow 3).smul (1 / 8)))
    refine (e1.sub e2).congr fun t h => ?_
    simp only [map_add, map_sub, map_smul, _root_.sub_apply]
    module
  refine ((((((r2.add r3).smul 2).add r4).add ((c23.smul 2).add c4)).add ((q0h.smul 4).add q0)).pow 1).smul (1 / 6)
    |>.sub qy |>.congr fun t h => ?_
  show y t + (h / 6) • (f (y t) + (2 : ℝ) • k2 t h + (2 : ℝ) • k3 t h + k4 t h) - y (t + h) = _
  rw [fg]
  simp only [map_add]
  module

/-! ### Stability -/

/-- A stage depends on the state in a Lipschitz way near the solution. -/
def Stab {F : Type} [NormedAddCommGroup F] (T : ℝ) (y : ℝ → E) (S : ℝ → E → F) : Prop :=
  ∃ α R : ℝ, 0 ≤ α ∧ ∀ h t : ℝ, ∀ Y : E, 0 ≤ h → h ≤ 1 → t ∈ Icc 0 T → ‖Y - y t‖ ≤ 1 →
    ‖S h Y - S h (y t)‖ ≤ α * ‖Y - y t‖ ∧ ‖S h Y‖ ≤ R ∧ ‖S h (y t)‖ ≤ R

theorem Stab.comp [ProperSpace E] {f : E → E} (hf : ContDiff ℝ 1 f) {y : ℝ → E} {S : ℝ → E → E} (hS : Stab T y S) :
    Stab T y fun h Y => f (S h Y) := by
  obtain ⟨α, R, hα, hS⟩ := hS
  obtain ⟨L, hL, hLip⟩ := deriv_lipschitz hf R
  obtain ⟨B, hB⟩ := (isCompact_closedBall (0 : E) R).exists_bound_of_continuousOn hf.continuous.continuousOn
  refine ⟨L * α, B, by positivity, fun h t Y a b c d => ?_⟩
  obtain ⟨h1, h2, h3⟩ := hS h t Y a b c d
  refine ⟨(hLip _ _ h2 h3).trans ?_, hB _ (by simpa using h2), hB _ (by simpa using h3)⟩
  rw [mul_assoc]
  exact mul_le_mul_of_nonneg_left h1 hL

omit [NormedSpace ℝ E] in
theorem Stab.add {y : ℝ → E} {S S' : ℝ → E → E} (hS : Stab T y S) (hS' : Stab T y S') :
    Stab T y fun h Y => S h Y + S' h Y := by
  obtain ⟨α, R, hα, hS⟩ := hS
  obtain ⟨α', R', hα', hS'⟩ := hS'
  refine ⟨α + α', R + R', by positivity, fun h t Y a b c d => ?_⟩
  obtain ⟨h1, h2, h3⟩ := hS h t Y a b c d
  obtain ⟨h1', h2', h3'⟩ := hS' h t Y a b c d
  refine ⟨?_, (norm_add_le _ _).trans (add_le_add h2 h2'), (norm_add_le _ _).trans (add_le_add h3 h3')⟩
  rw [add_sub_add_comm, add_mul]
  exact (norm_add_le _ _).trans (add_le_add h1 h1')

theorem Stab.smul {y : ℝ → E} {S : ℝ → E → E} {c : ℝ → ℝ} {b : ℝ} (hc : ∀ h, 0 ≤ h → h ≤ 1 → |c h| ≤ b)
    (hS : Stab T y S) : Stab T y fun h Y => c h • S h Y := by
  obtain ⟨α, R, hα, hS⟩ := hS
  have hb : 0 ≤ b := (abs_nonneg _).trans (hc 0 le_rfl zero_le_one)
  refine ⟨b * α, b * R, by positivity, fun h t Y a a' d e => ?_⟩
  obtain ⟨h1, h2, h3⟩ := hS h t Y a a' d e
  have key : ∀ v : E, ∀ r : ℝ, ‖v‖ ≤ r → ‖c h • v‖ ≤ b * r := fun v r hv => by
    rw [norm_smul, Real.norm_eq_abs]
    exact mul_le_mul (hc h a a') hv (norm_nonneg _) hb
  refine ⟨?_, key _ _ h2, key _ _ h3⟩
  rw [← smul_sub, mul_assoc]
  exact key _ _ h1

theorem rk4_stable [ProperSpace E] {f : E → E} (hf : ContDiff ℝ 1 f) {y : ℝ → E} {M : ℝ}
    (hy : ∀ t ∈ Icc 0 T, ‖y t‖ ≤ M) :
    ∃ K : ℝ, 0 ≤ K ∧ ∀ h t : ℝ, ∀ Y : E, 0 ≤ h → h ≤ 1 → t ∈ Icc 0 T → ‖Y - y t‖ ≤ 1 →
      ‖rk4Of f h Y - rk4Of f h (y t)‖ ≤ (1 + K * h) * ‖Y - y t‖ := by
  have s0 : Stab T y fun _ Y => Y := ⟨1, M + 1, zero_le_one, fun h t Y a b c d => by
    refine ⟨by rw [one_mul], ?_, (hy t c).trans (by linarith)⟩
    have := norm_add_le (Y - y t) (y t)
    rw [sub_add_cancel] at this
    linarith [hy t c]⟩
  have hhalf : ∀ h : ℝ, 0 ≤ h → h ≤ 1 → |h / 2| ≤ 1 := fun h a b => by rw [abs_of_nonneg (by linarith)]; linarith
  have hone : ∀ h : ℝ, 0 ≤ h → h ≤ 1 → |h| ≤ 1 := fun h a b => by rw [abs_of_nonneg a]; exact b
  have k1 := s0.comp hf
  have k2 := (s0.add (k1.smul (c := fun h => h / 2) hhalf)).comp hf
  have k3 := (s0.add (k2.smul (c := fun h => h / 2) hhalf)).comp hf
  have k4 := (s0.add (k3.smul (c := fun h => h) hone)).comp hf
  have h2 : ∀ h : ℝ, 0 ≤ h → h ≤ 1 → |(2 : ℝ)| ≤ 2 := fun h _ _ => by norm_num
  have h6 : ∀ h : ℝ, 0 ≤ h → h ≤ 1 → |(1 / 6 : ℝ)| ≤ 1 := fun h _ _ => by norm_num [abs_of_pos]
  obtain ⟨α, R, hα, hκ⟩ := (((k1.add (k2.smul (c := fun _ => 2) h2)).add (k3.smul (c := fun _ => 2) h2)).add k4).smul
    (c := fun _ => 1 / 6) h6
  refine ⟨α, hα, fun h t Y a b c d => ?_⟩
  have hk := (hκ h t Y a b c d).1
  have e : ∀ Z : E, rk4Of f h Z = Z + h • ((1 / 6 : ℝ) • (f Z + (2 : ℝ) • f (Z + (h / 2) • f Z) +
      (2 : ℝ) • f (Z + (h / 2) • f (Z + (h / 2) • f Z)) +
        f (Z + h • f (Z + (h / 2) • f (Z + (h / 2) • f Z))))) := by
    intro Z
    simp only [rk4Of]
    module
  rw [e Y, e (y t), add_sub_add_comm, ← smul_sub]
  refine (norm_add_le _ _).trans ?_
  rw [norm_smul, Real.norm_eq_abs, abs_of_nonneg a]
  have := mul_le_mul_of_nonneg_left hk a
  dsimp only at this
  linarith

/-- Fourth order convergence of the classical method. -/
theorem rk4_converges [ProperSpace E] {f : E → E} (hf : ContDiff ℝ 4 f) (hT : 0 < T) {y : ℝ → E}
    (hy : ∀ t ∈ Icc 0 T, HasDerivWithinAt y (f (y t)) (Icc 0 T) t) :
    ∃ C dt0 : ℝ, 0 ≤ C ∧ 0 < dt0 ∧ ∀ dt : ℝ, 0 < dt → dt ≤ dt0 → ∀ Y : ℕ → E, Y 0 = y 0 →
      (∀ n : ℕ, Y (n + 1) = rk4Of f dt (Y n)) → ∀ n : ℕ, (n : ℝ) * dt ≤ T → ‖Y n - y (n * dt)‖ ≤ C * dt ^ 4 := by
  obtain ⟨M, hM⟩ := isCompact_Icc.exists_bound_of_continuousOn
    (fun t ht => (hy t ht).continuousWithinAt : ContinuousOn y (Icc 0 T))
  obtain ⟨K, hK, hstab⟩ := rk4_stable (hf.of_le (by norm_num)) hM
  obtain ⟨C, hC, hloc⟩ := local_error hf hT hy
  exact accumulate (p := 4) (by norm_num) hT.le hK hC zero_lt_one
    (step := fun dt _ Y Y' => Y' = rk4Of f dt Y) (by
      intro dt t hdt hd ht htT Y Y' hs he
      rw [hs]
      have h1 := hstab dt t Y hdt.le hd ⟨ht, by linarith⟩ he
      have h2 : ‖rk4Of f dt (y t) - y (t + dt)‖ ≤ C * dt ^ (4 + 1) := hloc t dt ht hdt.le hd htT
      have h3 := norm_sub_le_norm_sub_add_norm_sub (rk4Of f dt Y) (rk4Of f dt (y t)) (y (t + dt))
      linarith)

end explicit

end Gopf.Converge
