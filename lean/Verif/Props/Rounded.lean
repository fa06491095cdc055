import Verif.Proofs.ConvergeRounded
import Verif.Props.ConvergeRk

/-!
# C135: what rounding errors do to a simulation
-/

namespace Gopf.Props
open Spec Pf Pfutil Converge Set

variable {nf nd : ℕ} {dims : List ℕ}

/-! ## Specification -/

/-- A run on a machine that carries out every step with some error: after each step the value of every field at
every node is within `δ` of what an exact step from the values before it gives. -/
def RoundedRun (step : ℕ → Store nf nd dims.prod → Store nf nd dims.prod) (δ : ℝ)
    (run : ℕ → Store nf nd dims.prod) : Prop :=
  ∀ n i x, ‖(run (n + 1)).fields i x - (step n (run n)).fields i x‖ ≤ δ

/-! ## Proof -/

theorem spectra_close (f g : Fin nf → Data dims.prod) {b : ℝ} (hb0 : 0 ≤ b) (hb : ∀ i x, ‖f i x - g i x‖ ≤ b) :
    ‖(fun j => fft dims (f j)) - (fun j => fft dims (g j))‖ ≤ dims.prod * b := by
  rw [pi_norm_le_iff_of_nonneg (by positivity)]
  intro j
  refine (fft_dist (f j) (g j)).trans (mul_le_mul_of_nonneg_left ?_ (Nat.cast_nonneg _))
  rw [pi_norm_le_iff_of_nonneg hb0]
  exact fun x => hb j x

/-- From the spectra to the fields. -/
theorem rounded_fields (h : ∀ d ∈ dims, 0 < d) {T : ℝ} {p : ℕ} {u : ℝ → Fin nf → Data dims.prod}
    {next : ℝ → ℕ → Store nf nd dims.prod → Store nf nd dims.prod}
    {step : ℝ → ℝ → State nf dims.prod → State nf dims.prod → Prop} {d : ℝ}
    (hnext : ∀ dt n st, 0 < dt → dt ≤ d → step dt ((n : ℕ) * dt) (fun j => fft dims (st.fields j))
      (fun j => fft dims ((next dt n st).fields j)))
    (hconv : ∃ B dt0 : ℝ, 0 < B ∧ 0 < dt0 ∧ dt0 ≤ d ∧ ∀ dt η δ : ℝ, 0 < dt → dt ≤ dt0 → 0 ≤ η → 0 ≤ δ →
      B * (η + δ / dt) ≤ 1 / 2 → ∀ Y : ℕ → State nf dims.prod, ‖Y 0 - (fun j => fft dims (u 0 j))‖ ≤ η →
      (∀ n : ℕ, ((n : ℝ) + 1) * dt ≤ T → ∃ Z, step dt ((n : ℝ) * dt) (Y n) Z ∧ ‖Y (n + 1) - Z‖ ≤ δ) →
        ∀ n : ℕ, (n : ℝ) * dt ≤ T →
          ‖Y n - (fun j => fft dims (u (n * dt) j))‖ ≤ B * (η + dt ^ p + δ / dt)) :
    ∃ C c dt0 : ℝ, 0 ≤ C ∧ 0 < c ∧ 0 < dt0 ∧ ∀ dt η δ : ℝ, 0 < dt → dt ≤ dt0 → 0 ≤ η → 0 ≤ δ → η + δ / dt ≤ c →
      ∀ run : ℕ → Store nf nd dims.prod, (∀ i x, ‖(run 0).fields i x - u 0 i x‖ ≤ η) →
        RoundedRun (next dt) δ run → ∀ n : ℕ, (n : ℝ) * dt ≤ T → ∀ i x,
          ‖(run n).fields i x - u (n * dt) i x‖ ≤ C * (η + dt ^ p + δ / dt) := by
  obtain ⟨B, dt0, hB, hdt0, hd, hc⟩ := hconv
  have hN : (0 : ℝ) ≤ ((dims.prod : ℕ) : ℝ) := Nat.cast_nonneg _
  refine ⟨B * (1 + ((dims.prod : ℕ) : ℝ)), 1 / (2 * B * (1 + ((dims.prod : ℕ) : ℝ))), dt0, by positivity, by positivity,
    hdt0, ?_⟩
  intro dt η δ hdt hle hη hδ hsmall run h0 hrun n hn i x
  have hδd : 0 ≤ δ / dt := by positivity
  have hp : 0 ≤ dt ^ p := by positivity
  have key := hc dt (((dims.prod : ℕ) : ℝ) * η) (((dims.prod : ℕ) : ℝ) * δ) hdt hle (by positivity) (by positivity)
    (by
      rw [le_div_iff₀ (by positivity)] at hsmall
      have e : ((dims.prod : ℕ) : ℝ) * η + ((dims.prod : ℕ) : ℝ) * δ / dt = ((dims.prod : ℕ) : ℝ) * (η + δ / dt) := by
        rw [mul_add, mul_div_assoc]
      rw [e]
      have : 0 ≤ B * (η + δ / dt) := by positivity
      nlinarith)
    (fun n j => fft dims ((run n).fields j)) (spectra_close _ _ hη h0)
    (fun n _ => ⟨_, hnext dt n (run n) hdt (hle.trans hd), spectra_close _ _ hδ (hrun n)⟩) n hn
  refine field_error h _ _ (key.trans ?_) i x
  have e : ((dims.prod : ℕ) : ℝ) * η + dt ^ p + ((dims.prod : ℕ) : ℝ) * δ / dt =
      ((dims.prod : ℕ) : ℝ) * (η + δ / dt) + dt ^ p := by
    rw [mul_div_assoc]; ring
  rw [e, mul_assoc]
  refine mul_le_mul_of_nonneg_left ?_ hB.le
  have := mul_nonneg hN hp
  nlinarith

/-! ## C135 -/

/-- C135: the default stepper, carried out with errors. If the equations are Lipschitz on bounded sets and have a
constant implicit part, and `u` solves them on `[0, T]`, there are constants `C`, `c` and a largest time step such
that a run that starts within `η` of `u 0` and carries out every step up to an error `δ` stays within
`C (η + dt + δ / dt)` of `u`, as long as `η + δ / dt ≤ c`. -/
theorem c135_euler (h : ∀ d ∈ dims, 0 < d) {T : ℝ} (hT : 0 ≤ T) (freq : Frequency dims.prod)
    (m : Model nf nd dims.prod) (hm : LocallyLipschitz T freq m) (A : Fin nf → Data dims.prod)
    (hA : ∀ i st t, m.getDenum i st freq t = A i) (u : ℝ → Fin nf → Data dims.prod)
    (hu : SolvesModel T freq m A u) :
    ∃ C c dt0 : ℝ, 0 ≤ C ∧ 0 < c ∧ 0 < dt0 ∧ ∀ dt η δ : ℝ, 0 < dt → dt ≤ dt0 → 0 ≤ η → 0 ≤ δ → η + δ / dt ≤ c →
      ∀ run : ℕ → Store nf nd dims.prod, (∀ i x, ‖(run 0).fields i x - u 0 i x‖ ≤ η) →
        RoundedRun (fun n st => (eulerStep m (⟨dt, freq, none, n⟩, st)).2) δ run →
          ∀ n : ℕ, (n : ℝ) * dt ≤ T → ∀ i x,
            ‖(run n).fields i x - u (n * dt) i x‖ ≤ C * (η + dt + δ / dt) := by
  obtain ⟨K, C, hK, hC, hone⟩ := one_step hT (lipBounded_rhs hm) (solves_spectral h hu)
  have hsmall : ∀ dt : ℝ, dt ≤ min 1 (1 / (2 * (‖A‖ + 1))) → 0 < dt → dt * ‖A‖ ≤ 1 / 2 := by
    intro dt hd hdt
    have h1 : dt ≤ 1 / (2 * (‖A‖ + 1)) := hd.trans (min_le_right _ _)
    rw [le_div_iff₀ (by positivity)] at h1
    nlinarith
  have hacc := accumulate_rounded (p := 1) le_rfl hT (y := fun t j => fft dims (u t j)) hK hC
    (d := min 1 (1 / (2 * (‖A‖ + 1)))) (by positivity) (step := IsStep A (spectralRHS freq m))
    (fun dt t hdt hd ht htT Y Y' hs he =>
      hone dt t hdt (hd.trans (min_le_left _ _)) (hsmall dt hd hdt) ht htT Y Y' hs he)
  have := rounded_fields h (next := fun dt n st => (eulerStep m (⟨dt, freq, none, n⟩, st)).2) (by
    intro dt n st hdt hd
    have hne : ∀ i k, 1 - (dt : ℂ) * A i k ≠ 0 := by
      intro i k he
      have h2 : ‖A i k‖ ≤ ‖A‖ := (norm_le_pi_norm (A i) k).trans (norm_le_pi_norm A i)
      have h3 : ‖(dt : ℂ) * A i k‖ = 1 := by rw [← sub_eq_zero.mp he, norm_one]
      rw [norm_mul, Complex.norm_real, Real.norm_eq_abs, abs_of_pos hdt] at h3
      have := mul_le_mul_of_nonneg_left h2 hdt.le
      have := hsmall dt hd hdt
      linarith
    have ht : Stepper.getTime (⟨dt, freq, none, n⟩ : Stepper dims.prod) = n * dt := rfl
    have := eulerStep_isStep h (fieldsOnly_of_lipschitz hm) (s := ⟨dt, freq, none, n⟩) rfl hA hne (n * dt) st
    rw [← ht] at this
    exact this) hacc
  simpa only [pow_one] using this

/-- C135: the RK4 stepper, carried out with errors. -/
theorem c135_rk4 (h : ∀ d ∈ dims, 0 < d) {T : ℝ} (hT : 0 ≤ T) (freq : Frequency dims.prod)
    (m : Model nf nd dims.prod) (hm : LocallyLipschitz T freq m) (A : Fin nf → Data dims.prod)
    (hA : ∀ i st t, m.getDenum i st freq t = A i) (u : ℝ → Fin nf → Data dims.prod)
    (hu : SolvesModel T freq m A u) :
    ∃ C c dt0 : ℝ, 0 ≤ C ∧ 0 < c ∧ 0 < dt0 ∧ ∀ dt η δ : ℝ, 0 < dt → dt ≤ dt0 → 0 ≤ η → 0 ≤ δ → η + δ / dt ≤ c →
      ∀ run : ℕ → Store nf nd dims.prod, (∀ i x, ‖(run 0).fields i x - u 0 i x‖ ≤ η) →
        RoundedRun (fun n st => (rk4Step m (⟨dt, freq, none, n⟩, st)).2) δ run →
          ∀ n : ℕ, (n : ℝ) * dt ≤ T → ∀ i x,
            ‖(run n).fields i x - u (n * dt) i x‖ ≤ C * (η + dt + δ / dt) := by
  obtain ⟨K, C, hK, hC, hone⟩ := rk_one_step hT (lipBounded_rhs hm) (solves_spectral h hu)
  have hacc := accumulate_rounded (p := 1) le_rfl hT (y := fun t j => fft dims (u t j)) hK hC
    (d := min 1 (1 / (2 * (‖A‖ + 1)))) (by positivity)
    (step := fun dt t Y Y' => Y' = rkStep A (slopeOf (spectralRHS freq m) t) dt Y) (by
      intro dt t hdt hd ht htT Y Y' hs he
      rw [hs]
      refine hone dt t Y ⟨hdt, hd.trans (min_le_left _ _), ?_, ht, htT, he⟩
      have h1 : dt ≤ 1 / (2 * (‖A‖ + 1)) := hd.trans (min_le_right _ _)
      rw [le_div_iff₀ (by positivity)] at h1
      nlinarith)
  have := rounded_fields h (next := fun dt n st => (rk4Step m (⟨dt, freq, none, n⟩, st)).2)
    (step := fun dt t Y Y' => Y' = rkStep A (slopeOf (spectralRHS freq m) t) dt Y) (by
    intro dt n st hdt hd
    rw [← slope_eq, ← rkStep_eq]
    exact c111_scheme h m (fieldsOnly_of_lipschitz hm) A ⟨dt, freq, none, n⟩ rfl (fun i st => hA i st _) st) hacc
  simpa only [pow_one] using this

/-- C135: the RK4 stepper, carried out with errors, for smooth equations without implicit part. -/
theorem c135_rk4_fourth_order (h : ∀ d ∈ dims, 0 < d) {T : ℝ} (hT : 0 < T) (freq : Frequency dims.prod)
    (m : Model nf nd dims.prod) (hm : SmoothModel freq m) (hd : FieldsOnly m)
    (hA : ∀ i st t k, m.getDenum i st freq t k = 0) (u : ℝ → Fin nf → Data dims.prod)
    (hu : SolvesModel T freq m (fun _ _ => 0) u) :
    ∃ C c dt0 : ℝ, 0 ≤ C ∧ 0 < c ∧ 0 < dt0 ∧ ∀ dt η δ : ℝ, 0 < dt → dt ≤ dt0 → 0 ≤ η → 0 ≤ δ → η + δ / dt ≤ c →
      ∀ run : ℕ → Store nf nd dims.prod, (∀ i x, ‖(run 0).fields i x - u 0 i x‖ ≤ η) →
        RoundedRun (fun n st => (rk4Step m (⟨dt, freq, none, n⟩, st)).2) δ run →
          ∀ n : ℕ, (n : ℝ) * dt ≤ T → ∀ i x,
            ‖(run n).fields i x - u (n * dt) i x‖ ≤ C * (η + dt ^ 4 + δ / dt) := by
  have hslope : ∀ t, slope m freq t = slope m freq 0 := by
    intro t
    funext Y i
    exact hm.autonomous i _ t
  have hy : ∀ t ∈ Icc 0 T, HasDerivWithinAt (fun t j => fft dims (u t j)) (slope m freq 0 fun j => fft dims (u t j))
      (Icc 0 T) t := by
    intro t ht
    rw [← hslope t, hasDerivWithinAt_pi]
    intro i
    refine (solves_spectral h hu t ht i).congr_deriv ?_
    funext k
    simp only [Pi.add_apply, Pi.mul_apply, zero_mul, add_zero]
    rfl
  obtain ⟨M, hM⟩ := isCompact_Icc.exists_bound_of_continuousOn
    (fun t ht => (hy t ht).continuousWithinAt : ContinuousOn (fun t j => fft dims (u t j)) (Icc 0 T))
  obtain ⟨K, hK, hstab⟩ := rk4_stable ((slope_smooth hm).of_le (by norm_num)) hM
  obtain ⟨C, hC, hloc⟩ := local_error (slope_smooth hm) hT hy
  have hacc := accumulate_rounded (p := 4) (by norm_num) hT.le (y := fun t j => fft dims (u t j)) hK hC zero_lt_one
    (step := fun dt _ Y Y' => Y' = rk4Of (slope m freq 0) dt Y) (by
      intro dt t hdt hd ht htT Y Y' hs he
      rw [hs]
      have h1 := hstab dt t Y hdt.le hd ⟨ht, by linarith⟩ he
      have h2 := hloc t dt ht hdt.le hd htT
      have h3 := norm_sub_le_norm_sub_add_norm_sub (rk4Of (slope m freq 0) dt Y)
        (rk4Of (slope m freq 0) dt fun j => fft dims (u t j)) (fun j => fft dims (u (t + dt) j))
      have h4 : C * dt ^ 5 = C * dt ^ (4 + 1) := by norm_num
      linarith)
  exact rounded_fields h (next := fun dt n st => (rk4Step m (⟨dt, freq, none, n⟩, st)).2)
    (step := fun dt _ Y Y' => Y' = rk4Of (slope m freq 0) dt Y) (by
    intro dt n st hdt hle
    rw [← rk4Of_eq, ← hslope (n * dt)]
    exact c111_scheme h m hd 0 ⟨dt, freq, none, n⟩ rfl (fun i st => funext fun k => hA i st _ k) st) hacc

/-- C135: nothing is gained by choosing the time step much smaller than the square root of the error of a step;
with `dt = √δ` the default stepper is within `2 C √δ`. -/
theorem c135_best_step (h : ∀ d ∈ dims, 0 < d) {T : ℝ} (hT : 0 ≤ T) (freq : Frequency dims.prod)
    (m : Model nf nd dims.prod) (hm : LocallyLipschitz T freq m) (A : Fin nf → Data dims.prod)
    (hA : ∀ i st t, m.getDenum i st freq t = A i) (u : ℝ → Fin nf → Data dims.prod)
    (hu : SolvesModel T freq m A u) :
    ∃ C δ0 : ℝ, 0 ≤ C ∧ 0 < δ0 ∧ ∀ δ : ℝ, 0 < δ → δ ≤ δ0 →
      ∀ run : ℕ → Store nf nd dims.prod, (run 0).fields = u 0 →
        RoundedRun (fun n st => (eulerStep m (⟨√δ, freq, none, n⟩, st)).2) δ run →
          ∀ n : ℕ, (n : ℝ) * √δ ≤ T → ∀ i x, ‖(run n).fields i x - u (n * √δ) i x‖ ≤ C * √δ := by
  obtain ⟨C, c, dt0, hC, hc, hdt0, hconv⟩ := c135_euler h hT freq m hm A hA u hu
  refine ⟨2 * C, (min c dt0) ^ 2, by positivity, by positivity, ?_⟩
  intro δ hδ hle run h0 hrun n hn i x
  have hs : 0 < √δ := Real.sqrt_pos.mpr hδ
  have hs1 : √δ ≤ min c dt0 := Real.sqrt_le_iff.mpr ⟨by positivity, hle⟩
  have hdiv : δ / √δ = √δ := Real.div_sqrt
  have := hconv (√δ) 0 δ hs (hs1.trans (min_le_right _ _)) le_rfl hδ.le
    (by rw [hdiv, zero_add]; exact hs1.trans (min_le_left _ _)) run (fun i x => by rw [h0]; simp) hrun n hn i x
  rw [hdiv] at this
  linarith

/-- An equation without terms: nothing changes. -/
def stillModel (nf : ℕ) (dims : List ℕ) : Model nf 0 dims.prod :=
  { calcs := fun d => d.elim0
    terms := fun _ => []
    denum := fun _ => []
    sources := fun _ => []
    modifiers := [] }

theorem still_step (h : ∀ d ∈ dims, 0 < d) (s : Stepper dims.prod) (hs : s.filter = none)
    (st : Store nf 0 dims.prod) : (eulerStep (stillModel nf dims) (s, st)).2.fields = st.fields := by
  funext i
  apply fft_injective h
  funext k
  obtain ⟨st', -, e1, e2⟩ := eulerStep_store h (stillModel nf dims) s s.getTime st i
  rw [hs] at e2
  have e3 : fft dims ((eulerStep (stillModel nf dims) (s, st)).2.fields i) k = _ := congrFun e2 k
  rw [e3]
  have e4 := e1 i
  simp only [lt_self_iff_false, if_false] at e4
  have hr : (stillModel nf dims).getRHS i st' s.freq s.getTime k = 0 := by
    rw [c21_rhs]; simp [stillModel]
  have hd : (stillModel nf dims).getDenum i st' s.freq s.getTime k = 0 := by
    rw [c21_denum]; simp [stillModel]
  simp only [optFilter, hr, hd, mul_zero, add_zero, sub_zero, div_one]

/-- C135: the bound cannot be improved. For the equation without terms, whose solutions do not change, a run that
errs by `δ` in the same direction in every step is off by `(n dt) (δ / dt)` after `n` steps. -/
theorem c135_sharp (h : ∀ d ∈ dims, 0 < d) (freq : Frequency dims.prod) (dt δ : ℝ) (hdt : 0 < dt) (hδ : 0 ≤ δ) :
    ∃ run : ℕ → Store nf 0 dims.prod, (run 0).fields = (fun _ _ => 0) ∧
      RoundedRun (fun n st => (eulerStep (stillModel nf dims) (⟨dt, freq, none, n⟩, st)).2) δ run ∧
      (∀ T, SolvesModel T freq (stillModel nf dims) (fun _ _ => 0) fun _ _ _ => 0) ∧
      ∀ n i x, ‖(run n).fields i x - 0‖ = (n * dt) * (δ / dt) := by
  refine ⟨fun n => ⟨fun _ _ => ((n * δ : ℝ) : ℂ), fun d => d.elim0⟩, ?_, ?_, ?_, ?_⟩
  · funext i x
    simp
  · intro n i x
    dsimp only
    rw [still_step h _ rfl]
    have : (((n + 1 : ℕ) * δ : ℝ) : ℂ) - ((n * δ : ℝ) : ℂ) = (δ : ℂ) := by push_cast; ring
    rw [this, Complex.norm_real, Real.norm_eq_abs, abs_of_nonneg hδ]
  · intro T t _ i k
    have hr : ∀ st s, (stillModel nf dims).getRHS i st freq s k = 0 := by
      intro st s
      rw [c21_rhs]; simp [stillModel]
    rw [hr, zero_mul, add_zero]
    exact hasDerivWithinAt_const _ _ _
  · intro n i x
    rw [sub_zero, Complex.norm_real, Real.norm_eq_abs, abs_of_nonneg (by positivity)]
    field_simp

/-- The hypotheses of `c135_euler` are those of `c107_euler_converges`, met by the logistic equation; an exact run
is a rounded run with `δ = 0`, and a run that rounds is one with a positive `δ`. -/
example (dt : ℝ) (st : Store 1 1 [1].prod) :
    RoundedRun (fun n st => (eulerStep logisticModel (⟨dt, fun _ => [0], none, n⟩, st)).2) 0
      (fun n => (eulerPropagate logisticModel n (⟨dt, fun _ => [0], none, 0⟩, st)).2) := by
  intro n i x
  have hs1 := propagate_stepper logisticModel n ⟨dt, fun _ => [0], none, 0⟩ st
  have hpair : eulerPropagate logisticModel n (⟨dt, fun _ => [0], none, 0⟩, st) =
      (⟨dt, fun _ => [0], none, n⟩, (eulerPropagate logisticModel n (⟨dt, fun _ => [0], none, 0⟩, st)).2) := by
    rw [Nat.zero_add] at hs1
    rw [← hs1]
  dsimp only
  rw [propagate_succ, hpair, sub_self, norm_zero]

end Gopf.Props
