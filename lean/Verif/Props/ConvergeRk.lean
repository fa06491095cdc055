import Verif.Proofs.ConvergeRk4
import Verif.Props.Converge
import Verif.Props.RungeKutta
import Verif.Props.Solver

/-!
# C111: convergence of the RK4 stepper
-/

namespace Gopf.Props
open Spec Pf Pfutil Converge Set

variable {nf nd : ℕ} {dims : List ℕ}

/-! ## Specification -/

/-- The explicit right-hand sides do not depend on time and are four times continuously differentiable, as
functions of fields and derived fields; the derived fields are so as functions of the fields. -/
structure SmoothModel (freq : Frequency dims.prod) (m : Model nf nd dims.prod) : Prop where
  autonomous : ∀ i st t, m.getRHS i st freq t = m.getRHS i st freq 0
  rhs : ∀ i, ContDiff ℝ 4 fun p : (Fin nf → Data dims.prod) × (Fin nd → Data dims.prod) =>
    m.getRHS i ⟨p.1, p.2⟩ freq 0
  calcs : ∀ d, ContDiff ℝ 4 fun f : Fin nf → Data dims.prod => m.calcs d ⟨f, fun _ _ => 0⟩

/-! ## Proof -/

theorem slope_eq (freq : Frequency dims.prod) (m : Model nf nd dims.prod) (t : ℝ) :
    slope m freq t = slopeOf (spectralRHS freq m) t := rfl

theorem rkStep_eq (A : State nf dims.prod) (F : State nf dims.prod → State nf dims.prod) (dt : ℝ)
    (Y : State nf dims.prod) : rungeKutta4Implicit F A (dt : ℂ) Y = rkStep A F dt Y := by
  have hst : ∀ (c : ℝ) (z : ℂ) (k : State nf dims.prod), z = (c : ℂ) → (Y + z • k) / (1 - z • A) = stage A c Y k := by
    rintro c z k rfl
    rfl
  unfold rungeKutta4Implicit rkStep
  dsimp only
  rw [hst (1 / 2 * dt) _ _ (by push_cast; ring), hst (1 / 2 * dt) _ _ (by push_cast; ring),
    hst (1 * dt) (dt : ℂ) _ (by push_cast; ring)]
  rw [← hst dt (dt : ℂ) _ rfl]
  congr 2
  rw [smul_smul]
  congr 1
  ring

theorem rk4_succ (m : Model nf nd dims.prod) (n : ℕ) (p : Stepper dims.prod × Store nf nd dims.prod) :
    rk4Propagate m (n + 1) p =
      ({ (rk4Propagate m n p).1 with currentStep := (rk4Propagate m n p).1.currentStep + 1 },
        (rk4Step m (rk4Propagate m n p)).2) := by
  simp only [rk4Propagate, List.range_succ, List.foldl_append, List.foldl_cons, List.foldl_nil]
  rfl

theorem rk4_stepper (m : Model nf nd dims.prod) (n : ℕ) (s : Stepper dims.prod) (st : Store nf nd dims.prod) :
    (rk4Propagate m n (s, st)).1 = { s with currentStep := s.currentStep + n } := by
  induction n with
  | zero => rfl
  | succ n ih =>
    rw [rk4_succ, ih]
    rfl

/-- The spectra after one more step. -/
theorem rk4_next (h : ∀ d ∈ dims, 0 < d) (m : Model nf nd dims.prod) (hd : FieldsOnly m) (freq : Frequency dims.prod)
    (A : Fin nf → Data dims.prod) (hA : ∀ i st t, m.getDenum i st freq t = A i) (dt : ℝ)
    (st : Store nf nd dims.prod) (n : ℕ) :
    (fun j => fft dims ((rk4Propagate m (n + 1) (⟨dt, freq, none, 0⟩, st)).2.fields j)) =
      rungeKutta4Implicit (slope m freq (n * dt)) A (dt : ℂ)
        fun j => fft dims ((rk4Propagate m n (⟨dt, freq, none, 0⟩, st)).2.fields j) := by
  have hs1 := rk4_stepper m n ⟨dt, freq, none, 0⟩ st
  have hpair : rk4Propagate m n (⟨dt, freq, none, 0⟩, st) =
      (⟨dt, freq, none, 0 + n⟩, (rk4Propagate m n (⟨dt, freq, none, 0⟩, st)).2) := by
    rw [← hs1]
  have := c111_scheme h m hd A ⟨dt, freq, none, 0 + n⟩ rfl (fun i st => hA i st _)
    (rk4Propagate m n (⟨dt, freq, none, 0⟩, st)).2
  rw [← hpair, zero_add] at this
  rw [rk4_succ]
  exact this

/-- Errors of the spectra bound errors of the fields. -/
theorem field_error (h : ∀ d ∈ dims, 0 < d) (f g : Fin nf → Data dims.prod) {b : ℝ}
    (hb : ‖(fun j => fft dims (f j)) - (fun j => fft dims (g j))‖ ≤ b) (i : Fin nf) (x : Fin dims.prod) :
    ‖f i x - g i x‖ ≤ b := by
  have e1 : f i - g i = realSpace (fft dims (f i) - fft dims (g i)) := by
    rw [← realSpace_sub, realSpace_fft h, realSpace_fft h]
  calc _ ≤ ‖f i - g i‖ := norm_le_pi_norm (f i - g i) x
    _ ≤ ‖fft dims (f i) - fft dims (g i)‖ := by rw [e1]; exact realSpace_norm _
    _ ≤ _ := (norm_le_pi_norm ((fun j => fft dims (f j)) - (fun j => fft dims (g j))) i).trans hb

theorem solves_spectral (h : ∀ d ∈ dims, 0 < d) {T : ℝ} {freq : Frequency dims.prod} {m : Model nf nd dims.prod}
    {A : Fin nf → Data dims.prod} {u : ℝ → Fin nf → Data dims.prod} (hu : SolvesModel T freq m A u) :
    Solves T A (spectralRHS freq m) (fun t j => fft dims (u t j)) := by
  intro t ht i
  rw [hasDerivWithinAt_pi]
  intro k
  have := hu t ht i k
  have e : (fun j => realSpace (fft dims (u t j))) = u t := funext fun j => realSpace_fft h _
  simp only [spectralRHS, Pi.add_apply, Pi.mul_apply, e]
  exact this

theorem fft_smooth {V : Type} [NormedAddCommGroup V] [NormedSpace ℝ V] {f : V → Data dims.prod}
    (hf : ContDiff ℝ 4 f) : ContDiff ℝ 4 fun v => fft dims (f v) := by
  rw [contDiff_pi] at hf ⊢
  intro k
  unfold fft
  exact ContDiff.sum fun y _ => (hf y).mul contDiff_const

theorem realSpace_smooth {V : Type} [NormedAddCommGroup V] [NormedSpace ℝ V] {f : V → Data dims.prod}
    (hf : ContDiff ℝ 4 f) : ContDiff ℝ 4 fun v => realSpace (f v) := by
  rw [contDiff_pi] at hf ⊢
  intro k
  unfold realSpace ifft
  simp only [div_eq_mul_inv]
  exact (ContDiff.sum fun y _ => (hf y).mul contDiff_const).mul contDiff_const

theorem slope_smooth {freq : Frequency dims.prod} {m : Model nf nd dims.prod} (hm : SmoothModel freq m) :
    ContDiff ℝ 4 (slope m freq 0) := by
  rw [contDiff_pi]
  intro i
  have hreal : ContDiff ℝ 4 fun (Y : State nf dims.prod) (j : Fin nf) => realSpace (Y j) := by
    rw [contDiff_pi]
    intro j
    exact realSpace_smooth (contDiff_apply ℝ (Data dims.prod) j)
  have hder : ContDiff ℝ 4 fun (Y : State nf dims.prod) (d : Fin nd) =>
      fft dims (m.calcs d ⟨fun j => realSpace (Y j), fun _ _ => 0⟩) := by
    rw [contDiff_pi]
    intro d
    exact fft_smooth ((hm.calcs d).comp hreal)
  exact (hm.rhs i).comp (contDiff_id.prodMk hder)

theorem rk4Of_eq (F : State nf dims.prod → State nf dims.prod) (dt : ℝ) (Y : State nf dims.prod) :
    rungeKutta4Implicit F 0 (dt : ℂ) Y = rk4Of F dt Y := by
  have hr : ∀ (c : ℝ) (v : State nf dims.prod), (c : ℂ) • v = c • v := fun c v => Complex.coe_smul c v
  have hd : ∀ (z : ℂ) (v : State nf dims.prod), v / (1 - z • (0 : State nf dims.prod)) = v := by
    intro z v
    rw [smul_zero, sub_zero, div_one]
  unfold rungeKutta4Implicit rk4Of
  simp only [hd]
  have e2 : (dt : ℂ) / 2 = ((dt / 2 : ℝ) : ℂ) := by push_cast; ring
  have e6 : (dt : ℂ) / 6 = ((dt / 6 : ℝ) : ℂ) := by push_cast; ring
  have e : (2 : ℂ) = ((2 : ℝ) : ℂ) := by push_cast; ring
  rw [e2, e6, e]
  simp only [hr]

/-! ## C111 -/

/-- C111: the RK4 stepper without filter converges at least with first order. If the equations are Lipschitz on
bounded sets and have a constant implicit part, and `u` solves them on `[0, T]`, there are a constant `C` and a
largest time step such that the fields after `n` steps of any smaller time step `dt`, started from `u 0`, differ
from `u (n dt)` by at most `C dt`, at every node and as long as `n dt ≤ T`. -/
theorem c111_converges (h : ∀ d ∈ dims, 0 < d) {T : ℝ} (hT : 0 ≤ T) (freq : Frequency dims.prod)
    (m : Model nf nd dims.prod) (hm : LocallyLipschitz T freq m) (A : Fin nf → Data dims.prod)
    (hA : ∀ i st t, m.getDenum i st freq t = A i) (u : ℝ → Fin nf → Data dims.prod)
    (hu : SolvesModel T freq m A u) :
    ∃ C dt0 : ℝ, 0 ≤ C ∧ 0 < dt0 ∧ ∀ dt : ℝ, 0 < dt → dt ≤ dt0 →
      ∀ st : Store nf nd dims.prod, st.fields = u 0 → ∀ n : ℕ, (n : ℝ) * dt ≤ T → ∀ i, ∀ x : Fin dims.prod,
        ‖(rk4Propagate m n (⟨dt, freq, none, 0⟩, st)).2.fields i x - u (n * dt) i x‖ ≤ C * dt := by
  obtain ⟨C, dt0, hC, hdt0, hconv⟩ := rk_converges hT (lipBounded_rhs hm) (solves_spectral h hu)
  refine ⟨C, dt0, hC, hdt0, ?_⟩
  intro dt hdt hle st hst n hn i x
  refine field_error h _ _ (hconv dt hdt hle
    (fun n j => fft dims ((rk4Propagate m n (⟨dt, freq, none, 0⟩, st)).2.fields j)) ?_ ?_ n hn) i x
  · funext j
    simp only [rk4Propagate, List.range_zero, List.foldl_nil, hst]
  · intro n
    rw [← slope_eq, ← rkStep_eq]
    exact rk4_next h m (fieldsOnly_of_lipschitz hm) freq A hA dt st n

/-- C111: the RK4 stepper converges with fourth order if nothing is treated implicitly, no filter is set, and the
right-hand sides are smooth and do not depend on time. -/
theorem c111_fourth_order (h : ∀ d ∈ dims, 0 < d) {T : ℝ} (hT : 0 < T) (freq : Frequency dims.prod)
    (m : Model nf nd dims.prod) (hm : SmoothModel freq m) (hd : FieldsOnly m)
    (hA : ∀ i st t k, m.getDenum i st freq t k = 0) (u : ℝ → Fin nf → Data dims.prod)
    (hu : SolvesModel T freq m (fun _ _ => 0) u) :
    ∃ C dt0 : ℝ, 0 ≤ C ∧ 0 < dt0 ∧ ∀ dt : ℝ, 0 < dt → dt ≤ dt0 →
      ∀ st : Store nf nd dims.prod, st.fields = u 0 → ∀ n : ℕ, (n : ℝ) * dt ≤ T → ∀ i, ∀ x : Fin dims.prod,
        ‖(rk4Propagate m n (⟨dt, freq, none, 0⟩, st)).2.fields i x - u (n * dt) i x‖ ≤ C * dt ^ 4 := by
  have hslope : ∀ t, slope m freq t = slope m freq 0 := by
    intro t
    funext Y i
    exact hm.autonomous i _ t
  have hy : ∀ t ∈ Icc 0 T, HasDerivWithinAt (fun t j => fft dims (u t j)) (slope m freq 0 fun j => fft dims (u t j))
      (Icc 0 T) t := by
    intro t ht
    rw [← hslope t, hasDerivWithinAt_pi]
    intro i
    refine (solves_spectral h hu t ht i).congr_deriv ?_
    funext k
    simp only [Pi.add_apply, Pi.mul_apply, zero_mul, add_zero]
    rfl
  obtain ⟨C, dt0, hC, hdt0, hconv⟩ := rk4_converges (slope_smooth hm) hT hy
  refine ⟨C, dt0, hC, hdt0, ?_⟩
  intro dt hdt hle st hst n hn i x
  refine field_error h _ _ (hconv dt hdt hle
    (fun n j => fft dims ((rk4Propagate m n (⟨dt, freq, none, 0⟩, st)).2.fields j)) ?_ ?_ n hn) i x
  · funext j
    simp only [rk4Propagate, List.range_zero, List.foldl_nil, hst]
  · intro n
    rw [← rk4Of_eq, ← hslope (n * dt)]
    exact rk4_next h m hd freq 0 (fun i st t => funext fun k => hA i st t k) dt st n

/-- C111: if there are only implicit terms, a step of the RK4 stepper is a step of the Euler stepper, which is
first order accurate. -/
theorem c111_only_implicit (h : ∀ d ∈ dims, 0 < d) (m : Model nf nd dims.prod) (hd : FieldsOnly m)
    (A : Fin nf → Data dims.prod) (s : Stepper dims.prod) (hs : s.filter = none)
    (hA : ∀ i st t, m.getDenum i st s.freq t = A i) (hR : ∀ i st t k, m.getRHS i st s.freq t k = 0)
    (st : Store nf nd dims.prod) : (rk4Step m (s, st)).2.fields = (eulerStep m (s, st)).2.fields := by
  have e := c111_scheme h m hd A s hs (fun i st => hA i st _) st
  funext i
  apply fft_injective h
  have e1 := congrFun e i
  rw [e1]
  funext k
  obtain ⟨st', -, -, e2⟩ := eulerStep_field h m s s.getTime st i
  rw [hs] at e2
  have e3 : fft dims ((eulerStep m (s, st)).2.fields i) k = _ := congrFun e2 k
  rw [e3]
  have hsl : ∀ t Y, slope m s.freq t Y = 0 := by
    intro t Y
    funext i k
    exact hR i _ t k
  unfold rungeKutta4Implicit
  simp only [optFilter, hsl, hA, hR, Pi.div_apply, Pi.add_apply, Pi.sub_apply, Pi.smul_apply, Pi.one_apply, smul_eq_mul,
    Pi.zero_apply, mul_zero, add_zero]

/-- One node with a source `2 t`: the field grows like `t ^ 2`. -/
noncomputable def ramp2Model : Model 1 0 [1].prod :=
  { calcs := fun d => d.elim0
    terms := fun _ => []
    denum := fun _ => []
    sources := fun _ => [⟨[0], fun t => 2 * t⟩]
    modifiers := [] }

theorem ramp_rhs (i : Fin 1) (st : Store 1 0 [1].prod) (t : ℝ) (k : Fin [1].prod) :
    ramp2Model.getRHS i st (fun _ => [0]) t k = 2 * t := by
  rw [c21_rhs]
  simp [ramp2Model, Source.eval, dotR]

/-- C111: for right-hand sides that depend on time the RK4 stepper is not better than first order. With the source
`2 t` and no other term, `t ^ 2` is the solution and the field computed after `n` steps is smaller by exactly
`t dt`. -/
theorem c111_time_dependent (T : ℝ) :
    SolvesModel T (fun _ => [0]) ramp2Model (fun _ _ => 0) (fun t _ _ => ((t ^ 2 : ℝ) : ℂ)) ∧
    ∀ (dt : ℝ) (n : ℕ) (x : Fin [1].prod),
      (rk4Propagate ramp2Model n (⟨dt, fun _ => [0], none, 0⟩, ⟨fun _ _ => 0, fun d => d.elim0⟩)).2.fields 0 x =
        (((n * dt) ^ 2 : ℝ) : ℂ) - (((n * dt) * dt : ℝ) : ℂ) := by
  refine ⟨?_, ?_⟩
  · intro t _ i k
    simp only [fft_one, ramp_rhs, zero_mul, add_zero]
    have h1 : HasDerivAt (fun s : ℝ => s ^ 2) (2 * t) t := by
      simpa using hasDerivAt_pow 2 t
    exact (h1.ofReal_comp.hasDerivWithinAt (s := Icc 0 T)).congr_deriv (by push_cast; ring)
  · intro dt n
    induction n with
    | zero => intro x; simp [rk4Propagate]
    | succ n ih =>
      intro x
      have hs1 := rk4_stepper ramp2Model n ⟨dt, fun _ => [0], none, 0⟩ ⟨fun _ _ => 0, fun d => d.elim0⟩
      have hpair : rk4Propagate ramp2Model n (⟨dt, fun _ => [0], none, 0⟩, ⟨fun _ _ => 0, fun d => d.elim0⟩) =
          (⟨dt, fun _ => [0], none, 0 + n⟩,
            (rk4Propagate ramp2Model n (⟨dt, fun _ => [0], none, 0⟩, ⟨fun _ _ => 0, fun d => d.elim0⟩)).2) := by
        rw [← hs1]
      have e := c27_time_frozen (dims := [1]) (by simp) ramp2Model (fun d => d.elim0) (fun _ => rfl)
        ⟨dt, fun _ => [0], none, 0 + n⟩ rfl (fun t _ _ => 2 * t) (fun i st t => funext fun k => ramp_rhs i st t k)
        (rk4Propagate ramp2Model n (⟨dt, fun _ => [0], none, 0⟩, ⟨fun _ _ => 0, fun d => d.elim0⟩)).2 0 x
      rw [← hpair, fft_one, fft_one, ih x] at e
      rw [rk4_succ]
      refine e.trans ?_
      push_cast
      ring

/-! ### Driven by the solver -/

/-- If the right-hand sides do not depend on time, the solver with the RK4 stepper computes the same fields as
the stepper's own loop, although its time stands still. -/
theorem solver_rk4 (h : ∀ d ∈ dims, 0 < d) (freq : Frequency dims.prod) (m : Model nf nd dims.prod) (hd : FieldsOnly m)
    (hauto : ∀ i st t, m.getRHS i st freq t = m.getRHS i st freq 0) (A : Fin nf → Data dims.prod)
    (hA : ∀ i st t, m.getDenum i st freq t = A i) (terms : Fin 3 → List Str) (order : ℕ → List Str → List Str)
    (dt : ℝ) (st : Store nf nd dims.prod) (log : List Event) (n : ℕ) :
    ((solverWith (rk4Step m) terms order).propagate n ((⟨dt, freq, none, 0⟩, st), log)).1.2.fields =
      (rk4Propagate m n (⟨dt, freq, none, 0⟩, st)).2.fields := by
  rw [(c26_rk4_stuck m terms order ⟨dt, freq, none, 0⟩ st n log).2.2]
  induction n with
  | zero => simp [rk4Propagate]
  | succ n ih =>
    rw [Function.iterate_succ_apply']
    funext i
    apply fft_injective h
    have hsl : ∀ t, slope m freq t = slope m freq 0 := by
      intro t
      funext Y i
      exact hauto i _ t
    have e1 := c111_scheme h m hd A ⟨dt, freq, none, 0⟩ rfl (fun i st => hA i st _)
      ((rk4StepStore m ⟨dt, freq, none, 0⟩)^[n] st)
    have e2 := rk4_next h m hd freq A hA dt st n
    rw [hsl] at e1 e2
    rw [← ih] at e2
    exact (congrFun e1 i).trans (congrFun e2 i).symm

/-- C111: run by the solver, the RK4 stepper converges for right-hand sides that do not depend on time. -/
theorem c111_solver (h : ∀ d ∈ dims, 0 < d) {T : ℝ} (hT : 0 ≤ T) (freq : Frequency dims.prod)
    (m : Model nf nd dims.prod) (hm : LocallyLipschitz T freq m)
    (hauto : ∀ i st t, m.getRHS i st freq t = m.getRHS i st freq 0) (A : Fin nf → Data dims.prod)
    (hA : ∀ i st t, m.getDenum i st freq t = A i) (terms : Fin 3 → List Str) (order : ℕ → List Str → List Str)
    (u : ℝ → Fin nf → Data dims.prod) (hu : SolvesModel T freq m A u) :
    ∃ C dt0 : ℝ, 0 ≤ C ∧ 0 < dt0 ∧ ∀ dt : ℝ, 0 < dt → dt ≤ dt0 →
      ∀ (st : Store nf nd dims.prod) (log : List Event), st.fields = u 0 → ∀ n : ℕ, (n : ℝ) * dt ≤ T →
        ∀ i, ∀ x : Fin dims.prod,
        ‖((solverWith (rk4Step m) terms order).propagate n ((⟨dt, freq, none, 0⟩, st), log)).1.2.fields i x -
          u (n * dt) i x‖ ≤ C * dt := by
  obtain ⟨C, dt0, hC, hdt0, hc⟩ := c111_converges h hT freq m hm A hA u hu
  refine ⟨C, dt0, hC, hdt0, ?_⟩
  intro dt hdt hle st log hst n hn i x
  rw [solver_rk4 h freq m (fieldsOnly_of_lipschitz hm) hauto A hA]
  exact hc dt hdt hle st hst n hn i x

/-- C111: run by the solver, the RK4 stepper does not converge if the right-hand sides depend on time. With the
source `2 t` and no other term the field never changes, whatever the time step; the solution is `t ^ 2`. -/
theorem c111_solver_time_dependent (terms : Fin 3 → List Str) (order : ℕ → List Str → List Str) (dt : ℝ)
    (log : List Event) (n : ℕ) (x : Fin [1].prod) :
    ((solverWith (rk4Step ramp2Model) terms order).propagate n
      ((⟨dt, fun _ => [0], none, 0⟩, ⟨fun _ _ => 0, fun d => d.elim0⟩), log)).1.2.fields 0 x = 0 := by
  rw [(c26_rk4_stuck ramp2Model terms order ⟨dt, fun _ => [0], none, 0⟩ ⟨fun _ _ => 0, fun d => d.elim0⟩ n log).2.2]
  induction n generalizing x with
  | zero => rfl
  | succ n ih =>
    rw [Function.iterate_succ_apply']
    have e := c27_time_frozen (dims := [1]) (by simp) ramp2Model (fun d => d.elim0) (fun _ => rfl)
      ⟨dt, fun _ => [0], none, 0⟩ rfl (fun t _ _ => 2 * t) (fun i st t => funext fun k => ramp_rhs i st t k)
      ((rk4StepStore ramp2Model ⟨dt, fun _ => [0], none, 0⟩)^[n] ⟨fun _ _ => 0, fun d => d.elim0⟩) 0 x
    rw [fft_one, fft_one, ih x] at e
    refine e.trans ?_
    simp

/-! ### The conditions are met -/

/-- One node, `dc/dt = c^2`: the square is a derived field. -/
def squareModel : Model 1 1 [1].prod :=
  { calcs := fun _ st x => st.fields 0 x ^ 2
    terms := fun _ => [fun st _ _ => st.derived 0]
    denum := fun _ => []
    sources := fun _ => []
    modifiers := [] }

/-- The hypotheses of `c111_fourth_order` are met by `dc/dt = c^2` and its solution `-1 / (1 + t)`. -/
example (T : ℝ) : SmoothModel (fun _ => [0]) squareModel ∧ FieldsOnly squareModel ∧
    (∀ i st t k, squareModel.getDenum i st (fun _ => [0]) t k = 0) ∧
    SolvesModel T (fun _ => [0]) squareModel (fun _ _ => 0) (fun t _ _ => ((-(1 + t)⁻¹ : ℝ) : ℂ)) := by
  have e : ∀ i st t, squareModel.getRHS i st (fun _ => [0]) t = st.derived 0 := by
    intro i st t
    rw [c21_rhs]
    simp [squareModel]
  refine ⟨⟨?_, ?_, ?_⟩, ?_, ?_, ?_⟩
  · intro i st t
    rw [e, e]
  · intro i
    simp only [e]
    exact (contDiff_apply ℝ (Data [1].prod) (0 : Fin 1)).comp contDiff_snd
  · intro d
    rw [contDiff_pi]
    intro x
    exact ((contDiff_apply_apply ℝ ℂ (0 : Fin 1) x)).pow 2
  · intro d st st' hst
    simp only [squareModel, hst]
  · intro i st t k
    rw [c21_denum]
    simp [squareModel]
  · intro t ht i k
    have hne : 1 + t ≠ 0 := by have := ht.1; positivity
    simp only [fft_one, e, zero_mul, add_zero]
    simp only [squareModel]
    have h1 : HasDerivAt (fun s : ℝ => -(1 + s)⁻¹) (-(-1 / (1 + t) ^ 2)) t :=
      (((hasDerivAt_id t).const_add 1).inv hne).neg
    refine (h1.ofReal_comp.hasDerivWithinAt (s := Icc 0 T)).congr_deriv ?_
    rw [← Complex.ofReal_pow]
    congr 1
    field_simp

/-- The hypotheses of `c111_only_implicit` are met: one node, `dc/dt = -c`. -/
example : ∃ m : Model 1 0 [1].prod, FieldsOnly m ∧ (∀ i st t, m.getDenum i st (fun _ => [0]) t = fun _ => -1) ∧
    ∀ i st t k, m.getRHS i st (fun _ => [0]) t k = 0 := by
  refine ⟨⟨fun d => d.elim0, fun _ => [], fun _ => [fun _ _ _ _ => -1], fun _ => [], []⟩, fun d => d.elim0, ?_, ?_⟩
  · intro i st t
    funext k
    rw [c21_denum]
    simp
  · intro i st t k
    rw [c21_rhs]
    simp

end Gopf.Props
