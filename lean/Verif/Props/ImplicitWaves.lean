import Verif.Props.RungeKuttaStability
import Verif.Props.ConvergeImplicit
import Mathlib.Analysis.Calculus.InverseFunctionTheorem.FDeriv
import Mathlib.Analysis.Calculus.ContDiff.RCLike

/-!
# C160: the stability of the implicit stepper
-/

namespace Gopf.Props
open Spec Pf Pfutil Converge

variable {n : ℕ} {dims : List ℕ}

/-! ### The specification -/

/-- The weight of the right-hand side after the step. -/
noncomputable def weightAfter (dt : ℝ) (a : ℂ) : ℂ :=
  if ‖a‖ < 1 / 10 ^ 5 then dt / 2 else (Complex.exp (a * dt) - a * dt - 1) / (a * a * dt)

/-- The weight of the right-hand side before the step. -/
noncomputable def weightBefore (dt : ℝ) (a : ℂ) : ℂ :=
  if ‖a‖ < 1 / 10 ^ 5 then dt / 2 * Complex.exp (a * dt) else
    (Complex.exp (a * dt) - 1) / a - (Complex.exp (a * dt) - a * dt - 1) / (a * a * dt)

/-- What a step multiplies a wave by, if the implicit part of the equation multiplies it by `a` and the explicit part
by `b`. -/
noncomputable def implicitFactor (dt : ℝ) (a b : ℂ) : ℂ :=
  (Complex.exp (a * dt) + weightBefore dt a * b) / (1 - weightAfter dt a * b)

/-- What a step of the implicit stepper multiplies the wave `k` of a small perturbation of the uniform state `z` by. -/
noncomputable def implicitWave (N : Names) (c : Str → ℂ) (freq : Frequency n) (dt : ℝ) (eq : Equation) (z : ℂ)
    (k : Fin n) : ℂ :=
  implicitFactor dt (implicitRate N c freq eq k) (linearisedRate N c freq eq z k - implicitRate N c freq eq k)

/-- A solver that returns a zero with all entries closer than `ε` to `z` whenever there is one. -/
def FindsNear (len : ℕ) (z ε : ℝ) (solve : (SolverVec ℝ → SolverVec ℝ) → SolverVec ℝ → SolverVec ℝ) : Prop :=
  ∀ F x0, (∃ x, (∀ idx < len, F x idx = 0) ∧ ∀ idx < len, |x idx - z| < ε) →
    (∀ idx < len, F (solve F x0) idx = 0) ∧ ∀ idx < len, |solve F x0 idx - z| < ε

open Classical in
/-- There are such solvers. -/
example (len : ℕ) (z ε : ℝ) : ∃ solve, FindsNear len z ε solve :=
  ⟨fun F _ => if hx : ∃ x : SolverVec ℝ, (∀ idx < len, F x idx = 0) ∧ ∀ idx < len, |x idx - z| < ε then hx.choose
    else fun _ => 0, fun F _ hx => by dsimp only; rw [dif_pos hx]; exact hx.choose_spec⟩

/-! ### The weights -/

theorem integral_by_weights {dt : ℝ} (hdt : dt ≠ 0) (a r1 r0 : ℂ) :
    nonlinearIntegral dt a r1 r0 = weightBefore dt a * r0 + weightAfter dt a * r1 := by
  have hdt' : (dt : ℂ) ≠ 0 := by exact_mod_cast hdt
  unfold nonlinearIntegral weightBefore weightAfter
  dsimp only
  split_ifs with ha
  · ring
  · have ha0 : a ≠ 0 := by
      rintro rfl
      rw [norm_zero] at ha
      norm_num at ha
    field_simp
    ring

theorem weights_conj {dt : ℝ} (hdt : dt ≠ 0) (a : ℂ) :
    weightAfter dt ((starRingEnd ℂ) a) = (starRingEnd ℂ) (weightAfter dt a) ∧
    weightBefore dt ((starRingEnd ℂ) a) = (starRingEnd ℂ) (weightBefore dt a) := by
  have h1 := conj_integral dt a 1 0
  have h2 := conj_integral dt a 0 1
  simp only [integral_by_weights hdt, map_one, map_zero, mul_zero, mul_one, zero_add, add_zero] at h1 h2
  exact ⟨h1, h2⟩

/-- C160: the factor is the one of the exact solution of `y' = a y + b (1 + (φ - 1) τ/dt)`, in which the explicit part
goes linearly from its value before to its value after the step. -/
theorem c160_factor {dt : ℝ} (hdt : 0 < dt) {a b : ℂ} (ha : a = 0 ∨ 1 / 10 ^ 5 ≤ ‖a‖)
    (hne : 1 - weightAfter dt a * b ≠ 0) :
    IsExactStep dt a b (b * implicitFactor dt a b) 1 (implicitFactor dt a b) := by
  have key : implicitFactor dt a b = 1 * Complex.exp (a * dt) +
      (weightBefore dt a * b + weightAfter dt a * (b * implicitFactor dt a b)) := by
    have e : implicitFactor dt a b * (1 - weightAfter dt a * b) = Complex.exp (a * dt) + weightBefore dt a * b := by
      unfold implicitFactor
      rw [div_mul_cancel₀ _ hne]
    linear_combination e
  rcases ha with rfl | ha
  · have h1 := exactStep_zero hdt.ne' b (b * implicitFactor dt 0 b) 1
    have e : implicitFactor dt 0 b = 1 + (dt : ℂ) / 2 * (b * implicitFactor dt 0 b + b) := by
      refine key.trans ?_
      unfold weightBefore weightAfter
      rw [if_pos (by rw [norm_zero]; norm_num), if_pos (by rw [norm_zero]; norm_num), zero_mul, Complex.exp_zero]
      ring
    rw [← e] at h1
    exact h1
  · have ha0 : a ≠ 0 := by
      rintro rfl
      rw [norm_zero] at ha
      norm_num at ha
    have h1 := exactStep_formula hdt.ne' ha0 b (b * implicitFactor dt a b) 1
    have e : implicitFactor dt a b = 1 * Complex.exp (a * dt) + (b * (Complex.exp (a * dt) - 1) / a +
        (b * implicitFactor dt a b - b) / dt * (Complex.exp (a * dt) - a * dt - 1) / (a * a)) := by
      refine key.trans ?_
      have := integral_by_weights hdt.ne' a (b * implicitFactor dt a b) b
      rw [← this]
      unfold nonlinearIntegral
      dsimp only
      rw [if_neg (not_lt.mpr ha)]
    rw [← e] at h1
    exact h1

/-! ### The step near a uniform state -/

/-- What is determined by the field after the step. -/
noncomputable def afterMap (dims : List ℕ) (E : Data dims.prod → Data dims.prod) (w : Data dims.prod)
    (v : Data dims.prod) : Data dims.prod := v + multiplier dims (fun k => -w k) (E v)

/-- What is determined by the field before the step. -/
noncomputable def beforeMap (dims : List ℕ) (E : Data dims.prod → Data dims.prod) (e w : Data dims.prod)
    (y : Data dims.prod) : Data dims.prod := multiplier dims e y + multiplier dims w (E y)

theorem contDiff_explicit (terms : List (Data dims.prod × ℕ)) (a : Data dims.prod) :
    ContDiff ℂ 1 (explicitMap dims terms a) := by
  have h1 : ContDiff ℂ 1 (fun y : Data dims.prod => (terms.map fun t => multiplier dims t.1 fun x => y x ^ t.2).sum) := by
    induction terms with
    | nil => exact contDiff_const
    | cons t l ih =>
      simp only [List.map_cons, List.sum_cons]
      refine ContDiff.add ?_ ih
      exact (LinearMap.toContinuousLinearMap (multiplier dims t.1)).contDiff.comp
        (contDiff_pi.mpr fun x => (contDiff_apply ℂ ℂ x).pow t.2)
  exact h1.add (LinearMap.toContinuousLinearMap (multiplier dims fun k => -a k)).contDiff

/-- A multiplier without zeros is invertible. -/
noncomputable def multiplierEquiv (h : ∀ d ∈ dims, 0 < d) (φ : Data dims.prod) (hφ : ∀ k, φ k ≠ 0) :
    Data dims.prod ≃L[ℂ] Data dims.prod :=
  ContinuousLinearEquiv.equivOfInverse (LinearMap.toContinuousLinearMap (multiplier dims φ))
    (LinearMap.toContinuousLinearMap (multiplier dims fun k => 1 / φ k))
    (fun w => by
      simp only [LinearMap.coe_toContinuousLinearMap']
      rw [multiplier_comp h]
      have : (fun k => 1 / φ k * φ k) = fun _ => (1 : ℂ) := funext fun k => by rw [one_div, inv_mul_cancel₀ (hφ k)]
      rw [this, multiplier_one h])
    (fun w => by
      simp only [LinearMap.coe_toContinuousLinearMap']
      rw [multiplier_comp h]
      have : (fun k => φ k * (1 / φ k)) = fun _ => (1 : ℂ) := funext fun k => by rw [one_div, mul_inv_cancel₀ (hφ k)]
      rw [this, multiplier_one h])

/-- Near a uniform state that rests, the equation of a step has exactly one solution that is near too. -/
theorem local_step (h : ∀ d ∈ dims, 0 < d) {E : Data dims.prod → Data dims.prod} {g e w0 w1 : Data dims.prod} {z : ℂ}
    (hC : ContDiff ℂ 1 E) (hE : Acts E g z) (hrest : afterMap dims E w1 (fun _ => z) = beforeMap dims E e w0 fun _ => z)
    (hne : ∀ k, 1 - w1 k * g k ≠ 0) :
    ∃ F : Data dims.prod → Data dims.prod, Acts F (fun k => (e k + w0 k * g k) / (1 - w1 k * g k)) z ∧
      F (fun _ => z) = (fun _ => z) ∧
      (∃ ε : ℝ, 0 < ε ∧ ∀ v v' : Data dims.prod, ‖v - fun _ => z‖ < ε → ‖v' - fun _ => z‖ < ε →
        afterMap dims E w1 v = afterMap dims E w1 v' → v = v') ∧
      ∀ ε : ℝ, 0 < ε → ∃ δ : ℝ, 0 < δ ∧ ∀ y : Data dims.prod, ‖y - fun _ => z‖ < δ →
        ‖F y - fun _ => z‖ < ε ∧ afterMap dims E w1 (F y) = beforeMap dims E e w0 y := by
  have hG : Acts (afterMap dims E w1) (fun k => 1 - w1 k * g k) z := by
    have := acts_add (acts_id h z) (acts_multiplier h hE fun k => -w1 k)
    simp only [neg_mul, ← sub_eq_add_neg] at this
    exact this
  have hH : Acts (beforeMap dims E e w0) (fun k => e k + w0 k * g k) z := by
    have := acts_add (acts_multiplier h (acts_id h z) e) (acts_multiplier h hE w0)
    simp only [mul_one] at this
    exact this
  have hGC : ContDiff ℂ 1 (afterMap dims E w1) :=
    contDiff_id.add ((LinearMap.toContinuousLinearMap (multiplier dims fun k => -w1 k)).contDiff.comp hC)
  have hstrict : HasStrictFDerivAt (afterMap dims E w1)
      (multiplierEquiv h (fun k => 1 - w1 k * g k) hne : Data dims.prod →L[ℂ] Data dims.prod) (fun _ => z) :=
    ContDiffAt.hasStrictFDerivAt' hGC.contDiffAt hG one_ne_zero
  set L := hstrict.localInverse with hL
  have hLz : L (beforeMap dims E e w0 fun _ => z) = fun _ => z := by
    rw [← hrest]
    exact hstrict.localInverse_apply_image
  have hHc : ContinuousAt (beforeMap dims E e w0) (fun _ => z) := HasFDerivAt.continuousAt hH
  have hLd : HasFDerivAt L ((multiplierEquiv h (fun k => 1 - w1 k * g k) hne).symm : Data dims.prod →L[ℂ] Data dims.prod)
      (beforeMap dims E e w0 fun _ => z) := by
    rw [← hrest]
    exact hstrict.to_localInverse.hasFDerivAt
  have hF : Acts (fun y => L (beforeMap dims E e w0 y)) (fun k => (e k + w0 k * g k) / (1 - w1 k * g k)) z := by
    refine (hLd.comp (fun _ => z) hH).congr_fderiv ?_
    refine ContinuousLinearMap.ext fun w => ?_
    have e1 : ∀ v : Data dims.prod, ((multiplierEquiv h (fun k => 1 - w1 k * g k) hne).symm :
        Data dims.prod →L[ℂ] Data dims.prod) v = multiplier dims (fun k => 1 / (1 - w1 k * g k)) v := fun v => rfl
    rw [ContinuousLinearMap.comp_apply, e1]
    simp only [LinearMap.coe_toContinuousLinearMap']
    rw [multiplier_comp h]
    congr 2
    funext k
    ring
  refine ⟨fun y => L (beforeMap dims E e w0 y), hF, hLz, ?_, ?_⟩
  · have hopen := hstrict.toOpenPartialHomeomorph.open_source
    have hmem := hstrict.mem_toOpenPartialHomeomorph_source
    obtain ⟨ε, hε, hball⟩ := Metric.isOpen_iff.mp hopen _ hmem
    refine ⟨ε, hε, fun v v' hv hv' heq => ?_⟩
    refine hstrict.toOpenPartialHomeomorph.injOn (hball ?_) (hball ?_) heq
    · rw [Metric.mem_ball, dist_eq_norm]; exact hv
    · rw [Metric.mem_ball, dist_eq_norm]; exact hv'
  · intro ε hε
    have h1 : ∀ᶠ y in nhds (fun _ => z : Data dims.prod), dist (L (beforeMap dims E e w0 y)) (fun _ => z) < ε := by
      have := (HasFDerivAt.continuousAt hF).eventually (Metric.ball_mem_nhds _ hε)
      filter_upwards [this] with y hy
      rw [hLz] at hy
      exact hy
    have h2 : ∀ᶠ y in nhds (fun _ => z : Data dims.prod), afterMap dims E w1 (L (beforeMap dims E e w0 y)) =
        beforeMap dims E e w0 y := by
      have := hstrict.eventually_right_inverse
      rw [hrest] at this
      exact hHc.eventually this
    obtain ⟨δ, hδ, hb⟩ := Metric.eventually_nhds_iff.mp (h1.and h2)
    refine ⟨δ, hδ, fun y hy => ?_⟩
    obtain ⟨b1, b2⟩ := hb (by rw [dist_eq_norm]; exact hy)
    rw [dist_eq_norm] at b1
    exact ⟨b1, b2⟩

/-! ### Real fields -/

/-- The conjugate field. -/
noncomputable def conjField (w : Data n) : Data n := fun x => (starRingEnd ℂ) (w x)

theorem conjField_real {w : Data n} (hw : IsReal w) : conjField w = w :=
  funext fun x => Complex.conj_eq_iff_im.mpr (hw x)

theorem real_of_conjField {w : Data n} (hw : conjField w = w) : IsReal w := fun x =>
  Complex.conj_eq_iff_im.mp (congrFun hw x)

theorem multiplier_conj (h : GoodDims (intDims dims)) (hl : LayoutOk dims) {φ : Data dims.prod} (hφ : Hermitian dims φ)
    (w : Data dims.prod) : multiplier dims φ (conjField w) = conjField (multiplier dims φ w) := by
  have hpos := pos_of_goodDims h
  have hr : ∀ p : Data dims.prod, IsReal p → IsReal (multiplier dims φ p) := by
    intro p hp
    refine real_of_hermitian h hl fun b c hc => ?_
    rw [fft_multiplier hpos, fft_multiplier hpos, hφ b c hc, hermitian_fft h hl hp b c hc, map_mul]
  set p : Data dims.prod := fun x => ((w x).re : ℂ) with hp
  set q : Data dims.prod := fun x => ((w x).im : ℂ) with hq
  have e1 : w = p + Complex.I • q := by
    funext x
    simp only [hp, hq, Pi.add_apply, Pi.smul_apply, smul_eq_mul]
    rw [mul_comm]
    exact (Complex.re_add_im (w x)).symm
  have e2 : conjField w = p + (-Complex.I) • q := by
    funext x
    simp only [hp, hq, Pi.add_apply, Pi.smul_apply, smul_eq_mul, conjField]
    apply Complex.ext <;> simp
  have hP := hr p fun x => by simp [hp]
  have hQ := hr q fun x => by simp [hq]
  rw [e2]
  conv_rhs => rw [e1]
  rw [map_add, map_smul, map_add, map_smul]
  funext x
  simp only [Pi.add_apply, Pi.smul_apply, smul_eq_mul, conjField, map_add, map_mul, Complex.conj_I]
  rw [Complex.conj_eq_iff_im.mpr (hP x), Complex.conj_eq_iff_im.mpr (hQ x)]

theorem conjField_add (v w : Data n) : conjField (v + w) = conjField v + conjField w := by
  funext x
  simp [conjField]

theorem conjField_norm (w : Data n) (z : ℝ) : ‖conjField w - fun _ => (z : ℂ)‖ = ‖w - fun _ => (z : ℂ)‖ := by
  have : ∀ w : Data n, ‖conjField w - fun _ => (z : ℂ)‖ ≤ ‖w - fun _ => (z : ℂ)‖ := by
    intro w
    refine (pi_norm_le_iff_of_nonneg (norm_nonneg _)).mpr fun x => ?_
    have e : (conjField w - fun _ => (z : ℂ) : Data n) x = (starRingEnd ℂ) ((w - fun _ => (z : ℂ) : Data n) x) := by
      simp [conjField]
    rw [e, RCLike.norm_conj]
    exact norm_le_pi_norm _ x
  refine le_antisymm (this w) ?_
  have h2 := this (conjField w)
  have e : conjField (conjField w) = w := funext fun x => Complex.conj_conj _
  rw [e] at h2
  exact h2

theorem explicit_conj (h : GoodDims (intDims dims)) (hl : LayoutOk dims) {terms : List (Data dims.prod × ℕ)}
    {a : Data dims.prod} (ht : ∀ t ∈ terms, Hermitian dims t.1) (ha : Hermitian dims a) (y : Data dims.prod) :
    explicitMap dims terms a (conjField y) = conjField (explicitMap dims terms a y) := by
  unfold explicitMap
  rw [conjField_add, multiplier_conj h hl fun b c hc => by rw [ha b c hc, map_neg]]
  congr 1
  induction terms with
  | nil => funext x; simp [conjField]
  | cons t l ih =>
    simp only [List.map_cons, List.sum_cons]
    rw [conjField_add, ih fun t ht' => ht t (List.mem_cons_of_mem _ ht'),
      ← multiplier_conj h hl (ht t (List.mem_cons_self ..))]
    congr 2
    funext x
    simp [conjField]

theorem valueTerms_hermitian (h : GoodDims (intDims dims)) {N : Names} {c : Str → ℂ} {eq : Equation}
    (hpow : Equation.RealPowers N c eq) : ∀ t ∈ valueTerms N c (freqOf dims) eq, Hermitian dims t.1 := by
  intro t ht
  obtain ⟨p, hp, rfl⟩ := List.mem_map.mp ht
  have := hermitian_symbol h (coefficient N c p) (coefficient_real (hpow p hp).2) [(laplacians p.1).sum]
  simp only [List.map_cons, List.map_nil, List.prod_cons, List.prod_nil, mul_one] at this
  exact this

/-! ### The steps of a run -/

/-- A sequence that follows a map as long as it is near the state of rest, if the map is contracting there. -/
theorem attraction_run (h : ∀ d ∈ dims, 0 < d) {F : Data dims.prod → Data dims.prod} {φ : Data dims.prod} {z : ℂ}
    (hF : Acts F φ z) (hfix : F (fun _ => z) = fun _ => z) {r : ℝ} (hr : 0 < r) (Z : Set (Fin dims.prod))
    (hφ : ∀ k, k ∉ Z → ‖φ k‖ < 1)
    (hZ : ∀ y : Data dims.prod, ‖y - fun _ => z‖ < r → ∀ k ∈ Z, fft dims (F y) k = fft dims y k) :
    ∃ δ C q : ℝ, 0 < δ ∧ q < 1 ∧ 0 ≤ q ∧ ∀ Y : ℕ → Data dims.prod, (∀ x, ‖Y 0 x - z‖ < δ) →
      (∀ k ∈ Z, fft dims (Y 0 - fun _ => z) k = 0) → (∀ j, ‖Y j - fun _ => z‖ < r → Y (j + 1) = F (Y j)) →
      ∀ j, ‖Y j - fun _ => z‖ < r ∧ ∀ x, ‖Y j x - z‖ ≤ C * q ^ j := by
  classical
  obtain ⟨q, hq0, hq1, hqb⟩ := uniform_bound φ Z hφ
  -- beyond the distance `r` the map is replaced by the identity
  set F' : Data dims.prod → Data dims.prod := fun y => if ‖y - fun _ => z‖ < r then F y else y with hF'
  have hnear : F' =ᶠ[nhds (fun _ => z : Data dims.prod)] F := by
    filter_upwards [Metric.ball_mem_nhds (fun _ => z : Data dims.prod) hr] with y hy
    rw [Metric.mem_ball, dist_eq_norm] at hy
    simp only [hF', if_pos hy]
  have esub : ∀ (w : Data dims.prod) k, fft dims (w - fun _ => z) k = fft dims w k - fft dims (fun _ => z) k := by
    intro w k
    have := fft_add (w - fun _ => z) (fun _ => z) k
    have e2 : (fun j => (w - fun _ => z : Data dims.prod) j + z) = w := by funext j; simp
    rw [e2] at this
    rw [this]
    ring
  have hfix' : F' (fun _ => z) = fun _ => z := by
    simp only [hF', sub_self, norm_zero, if_pos hr]
    exact hfix
  obtain ⟨δ, C, hδ, hall⟩ := attraction h (HasFDerivAt.congr_of_eventuallyEq hF hnear) hfix' (q := q) (q' := (q + 1) / 2)
    (by linarith) (by linarith) hq0 Z hqb (by
      intro y hy k hk
      by_cases hyr : ‖y - fun _ => z‖ < r
      · simp only [hF', if_pos hyr]
        rw [esub, hZ y hyr k hk, ← esub]
        exact hy k hk
      · simp only [hF', if_neg hyr]
        exact hy k hk)
  refine ⟨δ, C, (q + 1) / 2, hδ, by linarith, by linarith, ?_⟩
  intro Y hY hYZ hrun
  have hb := hall (Y 0) hY hYZ
  -- the sequence never gets to the distance `r`
  have hin : ∀ j, ‖F'^[j] (Y 0) - fun _ => z‖ < r := by
    intro j
    by_contra hc
    have hstay : ∀ i, F'^[i] (F'^[j] (Y 0)) = F'^[j] (Y 0) := by
      intro i
      refine Function.iterate_fixed ?_ i
      exact if_neg hc
    have hle : ∀ i : ℕ, ‖F'^[j] (Y 0) - fun _ => z‖ ≤ |C| * ((q + 1) / 2) ^ i := by
      intro i
      refine (pi_norm_le_iff_of_nonneg (by positivity)).mpr fun x => ?_
      have h1 := hb (i + j) x
      rw [Function.iterate_add_apply, hstay] at h1
      refine h1.trans ?_
      have h2 : ((q + 1) / 2) ^ (i + j) ≤ ((q + 1) / 2) ^ i := by
        rw [pow_add]
        exact mul_le_of_le_one_right (by positivity) (pow_le_one₀ (by linarith) (by linarith))
      calc C * ((q + 1) / 2) ^ (i + j) ≤ |C| * ((q + 1) / 2) ^ (i + j) :=
            mul_le_mul_of_nonneg_right (le_abs_self C) (by positivity)
        _ ≤ _ := mul_le_mul_of_nonneg_left h2 (abs_nonneg C)
    have hlim : Filter.Tendsto (fun i : ℕ => |C| * ((q + 1) / 2) ^ i) Filter.atTop (nhds (|C| * 0)) :=
      (tendsto_pow_atTop_nhds_zero_of_lt_one (by linarith) (by linarith)).const_mul _
    have := ge_of_tendsto' hlim hle
    rw [mul_zero] at this
    push Not at hc
    linarith
  have hsame : ∀ j, Y j = F'^[j] (Y 0) := by
    intro j
    induction j with
    | zero => rfl
    | succ j ih =>
      rw [Function.iterate_succ_apply', ← ih]
      have hj := hin j
      rw [← ih] at hj
      rw [hrun j hj]
      simp only [hF', if_pos hj]
  intro j
  rw [hsame j]
  exact ⟨hin j, hb j⟩

/-- The same if the map is expanding for some waves. -/
theorem repulsion_run (h : ∀ d ∈ dims, 0 < d) {F : Data dims.prod → Data dims.prod} {φ : Data dims.prod} {z : ℂ}
    (hF : Acts F φ z) (hfix : F (fun _ => z) = fun _ => z) {r ρ : ℝ} (hr : 0 < r) (hρ : 1 < ρ) (hmax : ∀ k, ‖φ k‖ ≤ ρ) :
    ∃ ε : ℝ, 0 < ε ∧ ∀ Y : ℕ → Data dims.prod, (Y 0 ≠ fun _ => z) →
      (∀ k, fft dims (Y 0 - fun _ => z) k ≠ 0 → ‖φ k‖ = ρ) → (∀ j, ‖Y j - fun _ => z‖ < r → Y (j + 1) = F (Y j)) →
      ∃ (j : ℕ) (x : Fin dims.prod), ε ≤ ‖Y j x - z‖ := by
  obtain ⟨ε, hε, hall⟩ := repulsion h hF hfix hρ hmax
  refine ⟨min ε (r / 2), lt_min hε (by linarith), ?_⟩
  intro Y h0 hk hrun
  by_contra hc
  push Not at hc
  have hin : ∀ j, ‖Y j - fun _ => z‖ < r := by
    intro j
    refine lt_of_le_of_lt ((pi_norm_le_iff_of_nonneg (by linarith : (0 : ℝ) ≤ r / 2)).mpr fun x => ?_) (by linarith : r / 2 < r)
    exact (hc j x).le.trans (min_le_right _ _)
  have hsame : ∀ j, Y j = F^[j] (Y 0) := by
    intro j
    induction j with
    | zero => rfl
    | succ j ih => rw [Function.iterate_succ_apply', ← ih, hrun j (hin j)]
  obtain ⟨j, x, hj⟩ := hall (Y 0) h0 hk
  rw [← hsame j] at hj
  have := (hc j x).trans_le (min_le_left _ _)
  linarith

/-! ### Equations given as text -/

/-- The explicit part at a uniform state that rests. -/
theorem explicit_rest (h : GoodDims (intDims dims)) (N : Names) (c : Str → ℂ) (eq : Equation) (z : ℂ)
    (hz : uniformRate N c eq z = 0) (k : Fin dims.prod) :
    fft dims (explicitMap dims (valueTerms N c (freqOf dims) eq) (implicitRate N c (freqOf dims) eq) fun _ => z) k =
      -(implicitRate N c (freqOf dims) eq k * fft dims (fun _ => z) k) := by
  have hpos := pos_of_goodDims h
  rw [fft_explicitMap hpos]
  have e : ((valueTerms N c (freqOf dims) eq).map fun t => t.1 k * fft dims (fun _ => z ^ t.2) k).sum = 0 := by
    simp only [fft_const hpos]
    by_cases hk : k.val = 0
    · have e : ((valueTerms N c (freqOf dims) eq).map fun t => t.1 k *
          (if k.val = 0 then (dims.prod : ℂ) * z ^ t.2 else 0)).sum = (dims.prod : ℂ) * uniformRate N c eq z := by
        unfold valueTerms uniformRate
        rw [List.map_map]
        induction eq.terms with
        | nil => simp
        | cons p l ih =>
          rw [List.map_cons, List.sum_cons, List.map_cons, List.sum_cons, mul_add, ← ih]
          congr 1
          simp only [Function.comp_apply, symbol_origin h k hk, if_pos hk]
          split_ifs with hp
          · rw [hp]; ring
          · rw [zero_pow hp]; ring
      rw [e, hz, mul_zero]
    · apply List.sum_eq_zero
      intro y hy
      obtain ⟨t, -, rfl⟩ := List.mem_map.mp hy
      rw [if_neg hk, mul_zero]
  rw [e]
  ring

/-- The steps near a uniform state that rests follow a map with the given factors. -/
theorem text_implicit (h : GoodDims (intDims dims)) (hl : LayoutOk dims) (N : Names) (hN : N.WellNamed) (f : Str)
    (m0 : EqModel dims.prod) (h0 : StartsAs N m0) (heq : m0.equations = [])
    (eq : Equation) (hone : OneField N f eq) (hq : eq.Polynomial N ∧ Unregistered m0 eq)
    (s0 : Str) (hs : s0.filter (fun c => c ≠ ' ') = eq.text) (c : Str → ℂ)
    (hc : ∀ x ∈ N.scalars, (c x).im = 0) (hpow : Equation.RealPowers N c eq) :
    ∃ m M, m0.addEquation s0 = some m ∧ m.fields = [f] ∧ m.assemble c = some M ∧
      ∀ z : ℝ, uniformRate N c eq z = 0 → ∀ s : Stepper dims.prod, 0 < s.dt → s.freq = freqOf dims →
      (∀ k : Fin dims.prod, k.val = 0 → z = 0 ∨ implicitRate N c (freqOf dims) eq k = 0 ∨
        1 / 10 ^ 5 ≤ ‖implicitRate N c (freqOf dims) eq k‖) →
      (∀ k, 1 - weightAfter s.dt (implicitRate N c (freqOf dims) eq k) *
        (linearisedRate N c (freqOf dims) eq z k - implicitRate N c (freqOf dims) eq k) ≠ 0) →
      ∃ F : Data dims.prod → Data dims.prod, Acts F (implicitWave N c (freqOf dims) s.dt eq z) z ∧
        F (fun _ => (z : ℂ)) = (fun _ => (z : ℂ)) ∧
        ∃ ε0 : ℝ, 0 < ε0 ∧ ∀ ε : ℝ, 0 < ε → ε ≤ ε0 → ∃ r : ℝ, 0 < r ∧
          (∀ y : Data dims.prod, ‖y - fun _ => (z : ℂ)‖ < r → ‖F y - fun _ => (z : ℂ)‖ < ε ∧
            afterMap dims (explicitMap dims (valueTerms N c (freqOf dims) eq) (implicitRate N c (freqOf dims) eq))
              (fun k => weightAfter s.dt (implicitRate N c (freqOf dims) eq k)) (F y) =
            beforeMap dims (explicitMap dims (valueTerms N c (freqOf dims) eq) (implicitRate N c (freqOf dims) eq))
              (fun k => Complex.exp (implicitRate N c (freqOf dims) eq k * s.dt))
              (fun k => weightBefore s.dt (implicitRate N c (freqOf dims) eq k)) y) ∧
          ∀ solve, FindsNear (m.fields.length * dims.prod) z ε solve →
          ∀ (s' : Stepper dims.prod) (st : Store m.fields.length m.derived.length dims.prod), s'.dt = s.dt →
          s'.freq = freqOf dims → (∀ i, IsReal (st.fields i)) → (∀ i, ‖st.fields i - fun _ => (z : ℂ)‖ < r) →
          (∀ idx < m.fields.length * dims.prod, leftOver solve M (s', st) idx = 0) ∧
          ∀ i, (ieStep solve M (s', st)).2.fields i = F (st.fields i) := by
  have hpos := pos_of_goodDims h
  obtain ⟨m, M, h1, h2, h3, h4, h5, h6⟩ := text_rates hpos N hN f m0 h0 heq eq hone hq s0 hs c
  have hder : m0.derived = [] := by
    have := h0.functions
    rw [hone.functions] at this
    exact List.map_eq_nil_iff.mp this
  obtain ⟨m', M', h1', -, h3', hrr, -⟩ := text_realRates h N hN m0 h0 heq (by rw [hder]; simp) [eq]
    (by intro e he; obtain rfl := List.mem_singleton.mp he; exact hq) (by rw [hone.fields]; simp) [s0]
    (by simpa using hs) c hc (by intro e he; obtain rfl := List.mem_singleton.mp he; exact hpow)
  rw [List.foldlM_cons, h1] at h1'
  have hadd2 : some m = some m' := h1'
  obtain rfl := Option.some.inj hadd2
  rw [h3] at h3'
  obtain rfl := Option.some.inj h3'
  refine ⟨m, M, h1, h2, h3, ?_⟩
  intro z hz s hdt hfreq hsmall hne
  have hA : ∀ i st t, M.getDenum i st (freqOf dims) t = (fun _ => implicitRate N c (freqOf dims) eq) i :=
    fun i st t => h5 i st (freqOf dims) t
  have haH : ∀ _ : Fin m.fields.length, Hermitian dims (implicitRate N c (freqOf dims) eq) := fun i => hermitian_part hrr hA i
  have i0 : Fin m.fields.length := ⟨0, by rw [h2]; simp⟩
  set a := implicitRate N c (freqOf dims) eq with ha
  set E := explicitMap dims (valueTerms N c (freqOf dims) eq) a with hE
  have hR : ∀ i t (Y : State m.fields.length dims.prod), spectralRHS (freqOf dims) M i t Y Y =
      fft dims (E (realSpace (Y i))) := fun i t Y => h6 (freqOf dims) t Y i
  set w1 : Data dims.prod := fun k => weightAfter s.dt (a k) with hw1
  set w0 : Data dims.prod := fun k => weightBefore s.dt (a k) with hw0
  set ex : Data dims.prod := fun k => Complex.exp (a k * s.dt) with hex
  have hg := acts_explicit (valueTerms N c (freqOf dims) eq) hpos a z
  simp only [valueTerms_linearised] at hg
  -- what a step is
  have hEq : ∀ y v : Data dims.prod, (afterMap dims E w1 v = beforeMap dims E ex w0 y ↔
      ∀ k, fft dims v k = fft dims y k * Complex.exp (a k * (s.dt : ℂ)) +
        nonlinearIntegral s.dt (a k) (fft dims (E v) k) (fft dims (E y) k)) := by
    intro y v
    have e1 : ∀ k, fft dims (afterMap dims E w1 v) k = fft dims v k - w1 k * fft dims (E v) k := by
      intro k
      unfold afterMap
      rw [fft_plus, fft_multiplier hpos]
      ring
    have e2 : ∀ k, fft dims (beforeMap dims E ex w0 y) k = ex k * fft dims y k + w0 k * fft dims (E y) k := by
      intro k
      unfold beforeMap
      rw [fft_plus, fft_multiplier hpos, fft_multiplier hpos]
    constructor
    · intro hv k
      have := congrArg (fun w => fft dims w k) hv
      simp only [e1, e2] at this
      rw [integral_by_weights hdt.ne']
      linear_combination this
    · intro hv
      apply fft_injective hpos
      funext k
      have := hv k
      rw [integral_by_weights hdt.ne'] at this
      rw [e1, e2]
      linear_combination this
  -- the state of rest
  have hrest : afterMap dims E w1 (fun _ => (z : ℂ)) = beforeMap dims E ex w0 fun _ => (z : ℂ) := by
    refine (hEq _ _).mpr fun k => ?_
    rw [explicit_rest h N c eq z hz k, ← ha]
    by_cases hk : k.val = 0
    · rcases hsmall k hk with h7 | h7 | h7
      · have e0 : fft dims (fun _ => (z : ℂ)) k = 0 := by
          rw [fft_const hpos, if_pos hk, h7]
          simp
        rw [e0, mul_zero, integral_by_weights hdt.ne']
        simp
      · rw [h7]
        simp [integral_by_weights hdt.ne']
      · have ha0 : a k ≠ 0 := by
          intro h8
          rw [h8, norm_zero] at h7
          norm_num at h7
        unfold nonlinearIntegral
        dsimp only
        rw [if_neg (not_lt.mpr h7), sub_self, zero_div, zero_mul, zero_div, add_zero]
        field_simp
        ring
    · have e0 : fft dims (fun _ => (z : ℂ)) k = 0 := by rw [fft_const hpos, if_neg hk]
      rw [e0, mul_zero, integral_by_weights hdt.ne']
      simp
  obtain ⟨F, hF1, hF2, ⟨ε0, hε0, huniq⟩, hF4⟩ := local_step hpos (contDiff_explicit _ _) hg hrest hne
  refine ⟨F, hF1, hF2, ε0, hε0, ?_⟩
  intro ε hε hle
  obtain ⟨r, hr, hFr⟩ := hF4 ε hε
  refine ⟨r, hr, hFr, ?_⟩
  intro solve hsolve s' st hs1 hs2 hst hnear
  have hconjE : ∀ y, E (conjField y) = conjField (E y) :=
    explicit_conj h hl (valueTerms_hermitian h hpow) (haH i0)
  -- the solution is real
  have hreal : ∀ y : Data dims.prod, IsReal y → ‖y - fun _ => (z : ℂ)‖ < r → IsReal (F y) := by
    intro y hy hyr
    obtain ⟨b1, b2⟩ := hFr y hyr
    apply real_of_conjField
    refine huniq _ _ (by rw [conjField_norm]; exact b1.trans_le hle) (b1.trans_le hle) ?_
    rw [b2]
    have e1 : afterMap dims E w1 (conjField (F y)) = conjField (afterMap dims E w1 (F y)) := by
      unfold afterMap
      rw [conjField_add, hconjE, multiplier_conj h hl]
      intro b b' hb
      simp only [hw1]
      rw [haH i0 b b' hb, (weights_conj hdt.ne' _).1, map_neg]
    rw [e1, b2]
    unfold beforeMap
    rw [conjField_add, ← multiplier_conj h hl, ← multiplier_conj h hl, ← hconjE, conjField_real hy]
    · intro b b' hb
      simp only [hw0]
      rw [haH i0 b b' hb, (weights_conj hdt.ne' _).2]
    · intro b b' hb
      simp only [hex]
      rw [haH i0 b b' hb, ← Complex.exp_conj, map_mul, Complex.conj_ofReal]
  have hlen : ∀ i j : Fin m.fields.length, i = j := fun i j => by
    have : m.fields.length = 1 := by rw [h2]; rfl
    exact Fin.ext (by have := i.2; have := j.2; omega)
  obtain ⟨x, hx1, hx2⟩ := zero_of_step h hl hrr hA s' hs2 st hst (Y' := fun i => fft dims (F (st.fields i)))
    (fun i => hermitian_fft h hl (hreal _ (hst i) (hnear i))) (by
      intro i k
      rw [hR, hR, realSpace_fft hpos, realSpace_fft hpos, hs1]
      have := (hEq (st.fields i) (F (st.fields i))).mp (hFr _ (hnear i)).2 k
      rw [← this]
      simp)
  have hzero : ∃ x : SolverVec ℝ, (∀ idx < m.fields.length * dims.prod, (ieProblem M s' st (fun _ => 0)).1 x idx = 0) ∧
      ∀ idx < m.fields.length * dims.prod, |x idx - z| < ε := by
    refine ⟨x, hx2, fun idx hidx => ?_⟩
    obtain ⟨p, rfl⟩ := flatIdx_surj hidx
    have h7 := hx1 p
    rw [realSpace_fft hpos] at h7
    have h8 := (hFr _ (hnear p.1)).1
    have h9 := norm_le_pi_norm (F (st.fields p.1) - fun _ => (z : ℂ)) p.2
    rw [Pi.sub_apply, ← h7, ← Complex.ofReal_sub, Complex.norm_real, Real.norm_eq_abs] at h9
    exact lt_of_le_of_lt h9 h8
  obtain ⟨z1, z2⟩ := hsolve _ (fields2vec (ieProblem M s' st (fun _ => 0)).2.fields (fun _ => 0)) hzero
  refine ⟨z1, fun i => ?_⟩
  have hstep := step_of_leftOver h hl hrr hA s' hs2 st hst
    (solve (ieProblem M s' st (fun _ => 0)).1 (fields2vec (ieProblem M s' st (fun _ => 0)).2.fields (fun _ => 0)))
    (le_refl 0) (fun idx hidx => by rw [z1 idx hidx]; simp)
  rw [after_fields]
  dsimp only
  generalize solve (ieProblem M s' st (fun _ => 0)).1 (fields2vec (ieProblem M s' st (fun _ => 0)).2.fields (fun _ => 0)) = u
    at z1 z2 hstep ⊢
  refine huniq _ _ ?_ ((hFr _ (hnear i)).1.trans_le hle) ?_
  · refine lt_of_lt_of_le ?_ hle
    refine (pi_norm_lt_iff hε).mpr fun j => ?_
    rw [Pi.sub_apply, ← Complex.ofReal_sub, Complex.norm_real, Real.norm_eq_abs]
    exact z2 _ (flatIdx_lt _)
  · rw [(hFr _ (hnear i)).2]
    refine (hEq _ _).mpr fun k => ?_
    have := hstep i k
    rw [hR, hR, realSpace_fft hpos, realSpace_fft hpos, hs1, mul_zero, norm_le_zero_iff, sub_eq_zero] at this
    exact this

/-- The sequence of the fields of a run. -/
theorem run_follows {nf nd : ℕ} {M : Model nf nd dims.prod} (hlen : ∀ i j : Fin nf, i = j)
    {F : Data dims.prod → Data dims.prod} {z r : ℝ} {s : Stepper dims.prod} (hfreq : s.freq = freqOf dims)
    {solve : (SolverVec ℝ → SolverVec ℝ) → SolverVec ℝ → SolverVec ℝ}
    (hstep : ∀ (s' : Stepper dims.prod) (st : Store nf nd dims.prod), s'.dt = s.dt → s'.freq = freqOf dims →
      (∀ i, IsReal (st.fields i)) → (∀ i, ‖st.fields i - fun _ => (z : ℂ)‖ < r) →
      (∀ idx < nf * dims.prod, leftOver solve M (s', st) idx = 0) ∧
      ∀ i, (ieStep solve M (s', st)).2.fields i = F (st.fields i))
    (st : Store nf nd dims.prod) (hst : ∀ i, IsReal (st.fields i)) (i : Fin nf) (j : ℕ)
    (hj : ‖((ieStep solve M)^[j] (s, st)).2.fields i - fun _ => (z : ℂ)‖ < r) :
    (∀ idx < nf * dims.prod, leftOver solve M ((ieStep solve M)^[j] (s, st)) idx = 0) ∧
      ((ieStep solve M)^[j + 1] (s, st)).2.fields i = F (((ieStep solve M)^[j] (s, st)).2.fields i) := by
  have hre := run_real solve M s st hst j
  have hsp := run_stepper solve M s st j
  rw [Function.iterate_succ_apply']
  generalize (ieStep solve M)^[j] (s, st) = p at hj hre hsp
  obtain ⟨p1, p2⟩ := p
  dsimp only at hj hre hsp ⊢
  obtain ⟨b1, b2⟩ := hstep p1 p2 (by rw [hsp]) (by rw [hsp]; exact hfreq) hre (fun i' => by rw [hlen i' i]; exact hj)
  exact ⟨b1, b2 i⟩

/-- The common part of the theorems on stability. -/
theorem stable_implicit (h : GoodDims (intDims dims)) (hl : LayoutOk dims) (N : Names) (hN : N.WellNamed) (f : Str)
    (m0 : EqModel dims.prod) (h0 : StartsAs N m0) (heq : m0.equations = [])
    (eq : Equation) (hone : OneField N f eq) (hq : eq.Polynomial N ∧ Unregistered m0 eq)
    (s0 : Str) (hs : s0.filter (fun c => c ≠ ' ') = eq.text) (c : Str → ℂ)
    (hc : ∀ x ∈ N.scalars, (c x).im = 0) (hpow : Equation.RealPowers N c eq) :
    ∃ m M, m0.addEquation s0 = some m ∧ m.fields = [f] ∧ m.assemble c = some M ∧
      ∀ z : ℝ, uniformRate N c eq z = 0 → ∀ s : Stepper dims.prod, 0 < s.dt → s.freq = freqOf dims →
      (∀ k : Fin dims.prod, k.val = 0 → z = 0 ∨ implicitRate N c (freqOf dims) eq k = 0 ∨
        1 / 10 ^ 5 ≤ ‖implicitRate N c (freqOf dims) eq k‖) →
      (∀ k, 1 - weightAfter s.dt (implicitRate N c (freqOf dims) eq k) *
        (linearisedRate N c (freqOf dims) eq z k - implicitRate N c (freqOf dims) eq k) ≠ 0) →
      ∀ Z : Set (Fin dims.prod), (∀ k, k ∉ Z → ‖implicitWave N c (freqOf dims) s.dt eq z k‖ < 1) →
      (∀ k ∈ Z, ∀ p ∈ eq.terms, laplaceSymbol (freqOf dims k) ^ (laplacians p.1).sum = 0) →
      ∃ ε0 : ℝ, 0 < ε0 ∧ ∀ ε : ℝ, 0 < ε → ε ≤ ε0 → ∃ δ C q : ℝ, 0 < δ ∧ q < 1 ∧ 0 ≤ q ∧
        ∀ solve, FindsNear (m.fields.length * dims.prod) z ε solve →
        ∀ st : Store m.fields.length m.derived.length dims.prod, (∀ i, IsReal (st.fields i)) →
        (∀ i x, ‖st.fields i x - z‖ < δ) → (∀ i, ∀ k ∈ Z, fft dims (st.fields i - fun _ => (z : ℂ)) k = 0) →
        ∀ steps, (∀ idx < m.fields.length * dims.prod, leftOver solve M ((ieStep solve M)^[steps] (s, st)) idx = 0) ∧
          ∀ i x, ‖((ieStep solve M)^[steps] (s, st)).2.fields i x - z‖ ≤ C * q ^ steps := by
  have hpos := pos_of_goodDims h
  obtain ⟨m, M, h1, h2, h3, h4⟩ := text_implicit h hl N hN f m0 h0 heq eq hone hq s0 hs c hc hpow
  refine ⟨m, M, h1, h2, h3, ?_⟩
  intro z hz s hdt hfreq hsmall hne Z hφ hZ
  obtain ⟨F, hF1, hF2, ε0, hε0, hall⟩ := h4 z hz s hdt hfreq hsmall hne
  refine ⟨ε0, hε0, fun ε hε hle => ?_⟩
  obtain ⟨r, hr, hFr, hrun⟩ := hall ε hε hle
  have hlen : ∀ i j : Fin m.fields.length, i = j := fun i j => by
    have : m.fields.length = 1 := by rw [h2]; rfl
    exact Fin.ext (by have := i.2; have := j.2; omega)
  set a := implicitRate N c (freqOf dims) eq with hadef
  set E := explicitMap dims (valueTerms N c (freqOf dims) eq) a with hEdef
  have ha0 : ∀ k ∈ Z, a k = 0 := by
    intro k hk
    rw [hadef]
    unfold implicitRate
    apply List.sum_eq_zero
    intro y hy
    obtain ⟨p, hp, rfl⟩ := List.mem_map.mp hy
    rw [hZ k hk p hp]
    simp
  have hE0 : ∀ (y : Data dims.prod), ∀ k ∈ Z, fft dims (E y) k = 0 := by
    intro y k hk
    rw [hEdef, fft_explicitMap hpos, ha0 k hk, List.sum_eq_zero]
    · ring
    · intro v hv
      obtain ⟨t, ht, rfl⟩ := List.mem_map.mp hv
      obtain ⟨p, hp, rfl⟩ := List.mem_map.mp ht
      dsimp only
      rw [hZ k hk p hp]
      simp
  obtain ⟨δ, C, q, hδ, hq1, hq0, hconv⟩ := attraction_run hpos hF1 hF2 hr Z hφ (by
    intro y hy k hk
    have := congrFun (congrArg (fft dims) (hFr y hy).2) k
    unfold afterMap beforeMap at this
    rw [fft_plus, fft_plus, fft_multiplier hpos, fft_multiplier hpos, fft_multiplier hpos, hE0 _ k hk, hE0 _ k hk,
      ha0 k hk] at this
    simpa using this)
  refine ⟨δ, C, q, hδ, hq1, hq0, ?_⟩
  intro solve hsolve st hst hnear hstZ steps
  have key : ∀ i : Fin m.fields.length, ∀ j, ‖((ieStep solve M)^[j] (s, st)).2.fields i - fun _ => (z : ℂ)‖ < r ∧
      ∀ x, ‖((ieStep solve M)^[j] (s, st)).2.fields i x - z‖ ≤ C * q ^ j := fun i =>
    hconv (fun j => ((ieStep solve M)^[j] (s, st)).2.fields i) (hnear i) (hstZ i)
      (fun j hj => (run_follows hlen hfreq (hrun solve hsolve) st hst i j hj).2)
  refine ⟨?_, fun i x => (key i steps).2 x⟩
  have i0 : Fin m.fields.length := ⟨0, by rw [h2]; simp⟩
  exact (run_follows hlen hfreq (hrun solve hsolve) st hst i0 steps (key i0 steps).1).1

/-- C160: if all factors are less than one in modulus, real fields that are everywhere close enough to the uniform state
converge to it with the implicit stepper, exponentially in the number of steps, with any solver that returns a solution
near the uniform state whenever there is one. The equation given to the solver has such a solution in every step. -/
theorem c160_stable (h : GoodDims (intDims dims)) (hl : LayoutOk dims) (N : Names) (hN : N.WellNamed) (f : Str)
    (m0 : EqModel dims.prod) (h0 : StartsAs N m0) (heq : m0.equations = [])
    (eq : Equation) (hone : OneField N f eq) (hq : eq.Polynomial N ∧ Unregistered m0 eq)
    (s0 : Str) (hs : s0.filter (fun c => c ≠ ' ') = eq.text) (c : Str → ℂ)
    (hc : ∀ x ∈ N.scalars, (c x).im = 0) (hpow : Equation.RealPowers N c eq) :
    ∃ m M, m0.addEquation s0 = some m ∧ m.fields = [f] ∧ m.assemble c = some M ∧
      ∀ z : ℝ, uniformRate N c eq z = 0 → ∀ s : Stepper dims.prod, 0 < s.dt → s.freq = freqOf dims →
      (∀ k : Fin dims.prod, k.val = 0 → z = 0 ∨ implicitRate N c (freqOf dims) eq k = 0 ∨
        1 / 10 ^ 5 ≤ ‖implicitRate N c (freqOf dims) eq k‖) →
      (∀ k, 1 - weightAfter s.dt (implicitRate N c (freqOf dims) eq k) *
        (linearisedRate N c (freqOf dims) eq z k - implicitRate N c (freqOf dims) eq k) ≠ 0) →
      (∀ k, ‖implicitWave N c (freqOf dims) s.dt eq z k‖ < 1) →
      ∃ ε0 : ℝ, 0 < ε0 ∧ ∀ ε : ℝ, 0 < ε → ε ≤ ε0 → ∃ δ C q : ℝ, 0 < δ ∧ q < 1 ∧ 0 ≤ q ∧
        ∀ solve, FindsNear (m.fields.length * dims.prod) z ε solve →
        ∀ st : Store m.fields.length m.derived.length dims.prod, (∀ i, IsReal (st.fields i)) →
        (∀ i x, ‖st.fields i x - z‖ < δ) →
        ∀ steps, (∀ idx < m.fields.length * dims.prod, leftOver solve M ((ieStep solve M)^[steps] (s, st)) idx = 0) ∧
          ∀ i x, ‖((ieStep solve M)^[steps] (s, st)).2.fields i x - z‖ ≤ C * q ^ steps := by
  obtain ⟨m, M, h1, h2, h3, h4⟩ := stable_implicit h hl N hN f m0 h0 heq eq hone hq s0 hs c hc hpow
  refine ⟨m, M, h1, h2, h3, ?_⟩
  intro z hz s hdt hfreq hsmall hne hφ
  obtain ⟨ε0, hε0, hall⟩ := h4 z hz s hdt hfreq hsmall hne ∅ (fun k _ => hφ k) (by simp)
  refine ⟨ε0, hε0, fun ε hε hle => ?_⟩
  obtain ⟨δ, C, q, hδ, hq1, hq0, hconv⟩ := hall ε hε hle
  exact ⟨δ, C, q, hδ, hq1, hq0, fun solve hsolve st hst hnear => hconv solve hsolve st hst hnear (by simp)⟩

/-- C160: if every term has a Laplacian and the factors of all waves except the uniform one are less than one in
modulus, real fields close enough to a uniform state with the same mean converge to it. -/
theorem c160_conserved (h : GoodDims (intDims dims)) (hl : LayoutOk dims) (N : Names) (hN : N.WellNamed) (f : Str)
    (m0 : EqModel dims.prod) (h0 : StartsAs N m0) (heq : m0.equations = [])
    (eq : Equation) (hone : OneField N f eq) (hq : eq.Polynomial N ∧ Unregistered m0 eq) (hdiv : Equation.Divergence eq)
    (s0 : Str) (hs : s0.filter (fun c => c ≠ ' ') = eq.text) (c : Str → ℂ)
    (hc : ∀ x ∈ N.scalars, (c x).im = 0) (hpow : Equation.RealPowers N c eq) :
    ∃ m M, m0.addEquation s0 = some m ∧ m.fields = [f] ∧ m.assemble c = some M ∧
      ∀ (z : ℝ) (s : Stepper dims.prod), 0 < s.dt → s.freq = freqOf dims →
      (∀ k, 1 - weightAfter s.dt (implicitRate N c (freqOf dims) eq k) *
        (linearisedRate N c (freqOf dims) eq z k - implicitRate N c (freqOf dims) eq k) ≠ 0) →
      (∀ k : Fin dims.prod, k.val ≠ 0 → ‖implicitWave N c (freqOf dims) s.dt eq z k‖ < 1) →
      ∃ ε0 : ℝ, 0 < ε0 ∧ ∀ ε : ℝ, 0 < ε → ε ≤ ε0 → ∃ δ C q : ℝ, 0 < δ ∧ q < 1 ∧ 0 ≤ q ∧
        ∀ solve, FindsNear (m.fields.length * dims.prod) z ε solve →
        ∀ st : Store m.fields.length m.derived.length dims.prod, (∀ i, IsReal (st.fields i)) →
        (∀ i x, ‖st.fields i x - z‖ < δ) → (∀ i, ∑ x, st.fields i x = ∑ _x : Fin dims.prod, (z : ℂ)) →
        ∀ steps, (∀ idx < m.fields.length * dims.prod, leftOver solve M ((ieStep solve M)^[steps] (s, st)) idx = 0) ∧
          ∀ i x, ‖((ieStep solve M)^[steps] (s, st)).2.fields i x - z‖ ≤ C * q ^ steps := by
  obtain ⟨m, M, h1, h2, h3, h4⟩ := stable_implicit h hl N hN f m0 h0 heq eq hone hq s0 hs c hc hpow
  refine ⟨m, M, h1, h2, h3, ?_⟩
  intro z s hdt hfreq hne hφ
  have hz : uniformRate N c eq z = 0 := by
    apply List.sum_eq_zero
    intro y hy
    obtain ⟨p, hp, rfl⟩ := List.mem_map.mp hy
    rw [if_neg (hdiv p hp)]
  have hZ : ∀ k : Fin dims.prod, k.val = 0 → ∀ p ∈ eq.terms, laplaceSymbol (freqOf dims k) ^ (laplacians p.1).sum = 0 := by
    intro k hk p hp
    rw [symbol_origin h k hk, zero_pow (hdiv p hp)]
  obtain ⟨ε0, hε0, hall⟩ := h4 z hz s hdt hfreq (fun k hk => Or.inr (Or.inl (by
    unfold implicitRate
    apply List.sum_eq_zero
    intro y hy
    obtain ⟨p, hp, rfl⟩ := List.mem_map.mp hy
    rw [hZ k hk p hp]
    simp))) hne {k | k.val = 0} (fun k hk => hφ k hk) (fun k hk => hZ k hk)
  refine ⟨ε0, hε0, fun ε hε hle => ?_⟩
  obtain ⟨δ, C, q, hδ, hq1, hq0, hconv⟩ := hall ε hε hle
  refine ⟨δ, C, q, hδ, hq1, hq0, fun solve hsolve st hst hnear hsum => hconv solve hsolve st hst hnear ?_⟩
  intro i k hk
  rw [fft_zero_bin _ k hk]
  simp only [Pi.sub_apply, Finset.sum_sub_distrib, hsum, sub_self]

theorem implicitWave_conj (h : GoodDims (intDims dims)) (N : Names) (c : Str → ℂ) (dt : ℝ) (eq : Equation) (z : ℂ)
    {b b' : Fin dims.prod} (hb : conjugateNode (intDims dims) (b.val : Int) = some (b'.val : Int)) :
    implicitWave N c (freqOf dims) dt eq z b' = implicitWave N c (freqOf dims) dt eq z b := by
  have e : laplaceSymbol (freqOf dims b') = laplaceSymbol (freqOf dims b) := by
    rw [symbol_laplaceNumber, symbol_laplaceNumber, laplaceNumber, laplaceNumber, freq_sq_conj h hb]
  unfold implicitWave linearisedRate implicitRate
  rw [e]

/-- C160: if some factor is larger than one in modulus, real fields that are as close to the uniform state as one
likes, and in which only waves are there that grow, leave it, with any solver that returns a solution near the uniform
state whenever there is one. -/
theorem c160_leaves (h : GoodDims (intDims dims)) (hl : LayoutOk dims) (N : Names) (hN : N.WellNamed) (f : Str)
    (m0 : EqModel dims.prod) (h0 : StartsAs N m0) (heq : m0.equations = [])
    (eq : Equation) (hone : OneField N f eq) (hq : eq.Polynomial N ∧ Unregistered m0 eq)
    (s0 : Str) (hs : s0.filter (fun c => c ≠ ' ') = eq.text) (c : Str → ℂ)
    (hc : ∀ x ∈ N.scalars, (c x).im = 0) (hpow : Equation.RealPowers N c eq) :
    ∃ m M, m0.addEquation s0 = some m ∧ m.fields = [f] ∧ m.assemble c = some M ∧
      ∀ z : ℝ, uniformRate N c eq z = 0 → ∀ s : Stepper dims.prod, 0 < s.dt → s.freq = freqOf dims →
      (∀ k : Fin dims.prod, k.val = 0 → z = 0 ∨ implicitRate N c (freqOf dims) eq k = 0 ∨
        1 / 10 ^ 5 ≤ ‖implicitRate N c (freqOf dims) eq k‖) →
      (∀ k, 1 - weightAfter s.dt (implicitRate N c (freqOf dims) eq k) *
        (linearisedRate N c (freqOf dims) eq z k - implicitRate N c (freqOf dims) eq k) ≠ 0) →
      (∃ k, 1 < ‖implicitWave N c (freqOf dims) s.dt eq z k‖) →
      ∃ ε0 : ℝ, 0 < ε0 ∧ ∀ ε : ℝ, 0 < ε → ε ≤ ε0 → ∃ ρ : ℝ, 0 < ρ ∧
        ∀ solve, FindsNear (m.fields.length * dims.prod) z ε solve →
        ∀ δ : ℝ, 0 < δ → ∃ v : Data dims.prod, IsReal v ∧ (∀ x, ‖v x‖ < δ) ∧
        (∀ k, fft dims v k ≠ 0 → 1 < ‖implicitWave N c (freqOf dims) s.dt eq z k‖) ∧
        ∀ st : Store m.fields.length m.derived.length dims.prod, (∀ i, st.fields i = fun x => z + v x) →
        ∀ i, ∃ steps x, ρ ≤ ‖((ieStep solve M)^[steps] (s, st)).2.fields i x - z‖ := by
  have hpos := pos_of_goodDims h
  obtain ⟨m, M, h1, h2, h3, h4⟩ := text_implicit h hl N hN f m0 h0 heq eq hone hq s0 hs c hc hpow
  refine ⟨m, M, h1, h2, h3, ?_⟩
  intro z hz s hdt hfreq hsmall hne ⟨k1, hk1⟩
  obtain ⟨F, hF1, hF2, ε0, hε0, hall⟩ := h4 z hz s hdt hfreq hsmall hne
  refine ⟨ε0, hε0, fun ε hε hle => ?_⟩
  obtain ⟨r, hr, -, hrun⟩ := hall ε hε hle
  have hlen : ∀ i j : Fin m.fields.length, i = j := fun i j => by
    have : m.fields.length = 1 := by rw [h2]; rfl
    exact Fin.ext (by have := i.2; have := j.2; omega)
  obtain ⟨k0, -, hmax⟩ := Finset.exists_max_image Finset.univ
    (fun k => ‖implicitWave N c (freqOf dims) s.dt eq z k‖) ⟨k1, Finset.mem_univ k1⟩
  obtain ⟨ρ, hρ, hgo⟩ := repulsion_run hpos hF1 hF2 hr (lt_of_lt_of_le hk1 (hmax k1 (Finset.mem_univ k1)))
    (fun k => hmax k (Finset.mem_univ k))
  refine ⟨ρ, hρ, fun solve hsolve δ hδ => ?_⟩
  obtain ⟨v, v1, v2, v3, v4⟩ := perturbation_exists h hl
    {k | ∀ k', ‖implicitWave N c (freqOf dims) s.dt eq z k'‖ ≤ ‖implicitWave N c (freqOf dims) s.dt eq z k‖}
    k0 (fun k' => hmax k' (Finset.mem_univ k')) (by
      intro b b' hb
      simp only [Set.mem_ofPred_eq, implicitWave_conj h N c s.dt eq z hb]) hδ
  refine ⟨v, v1, v3, fun k hk => lt_of_lt_of_le hk1 (v4 k hk k1), fun st hst i => ?_⟩
  have e : (st.fields i - fun _ => (z : ℂ)) = v := by
    rw [hst i]
    funext x
    simp
  have hre : ∀ i, IsReal (st.fields i) := by
    intro i x
    rw [hst i]
    have := v1 x
    simp [this]
  exact hgo (fun j => ((ieStep solve M)^[j] (s, st)).2.fields i) (fun hc' => v2 (by
      have hc2 : st.fields i = fun _ => (z : ℂ) := hc'
      rw [← e, hc2]
      funext x
      simp)) (fun k hk => le_antisymm (hmax k (Finset.mem_univ k)) (by
        have hk2 : fft dims (st.fields i - fun _ => (z : ℂ)) k ≠ 0 := hk
        rw [e] at hk2
        exact v4 k hk2 k0))
    (fun j hj => (run_follows hlen hfreq (hrun solve hsolve) st hre i j hj).2)

end Gopf.Props
