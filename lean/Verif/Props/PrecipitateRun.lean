import Mathlib.Analysis.Calculus.Deriv.Pow
import Mathlib.Analysis.Calculus.Deriv.Mul
import Mathlib.Analysis.Calculus.Deriv.Add
import Verif.Props.Precipitate
import Verif.Props.CubicElast

/-!
# C146: runs of the example with a strained precipitate
-/

namespace Gopf.Spec

/-- The fraction of the second phase. -/
def mixing (φ : ℝ) : ℝ := φ ^ 2 * (3 - 2 * φ)

/-- The free energy of a mixture with concentration `c` and order parameter `φ`. -/
noncomputable def mixture (A B W c φ : ℝ) : ℝ :=
  A / 2 * c ^ 2 * (1 - mixing φ) + B / 2 * (1 - c) ^ 2 * mixing φ + W * (φ ^ 2 * (1 - φ) ^ 2)

/-- Its derivative in the concentration. -/
def mixtureByConc (A B c φ : ℝ) : ℝ := A * c * (1 - mixing φ) - B * (1 - c) * mixing φ

/-- Its derivative in the order parameter. -/
noncomputable def mixtureByPhase (A B W c φ : ℝ) : ℝ :=
  (B / 2 * (1 - c) ^ 2 - A / 2 * c ^ 2) * (6 * φ * (1 - φ)) + W * (2 * φ * (1 - φ) * (1 - 2 * φ))

end Gopf.Spec

namespace Gopf.Props
open Spec Pfutil Pf Elasticity
open scoped BigOperators

variable {n : ℕ} {dims : List ℕ}

theorem mixing_deriv (φ : ℝ) : HasDerivAt mixing (6 * φ * (1 - φ)) φ := by
  have h1 : HasDerivAt (fun x : ℝ => x ^ 2) (2 * φ) φ := by simpa using hasDerivAt_pow 2 φ
  have h2 : HasDerivAt (fun x : ℝ => 3 - 2 * x) (-2) φ := by
    simpa using ((hasDerivAt_id φ).const_mul 2).const_sub 3
  have := h1.mul h2
  exact this.congr_deriv (by ring)

theorem mixture_conc (A B W c φ : ℝ) : HasDerivAt (fun c => mixture A B W c φ) (mixtureByConc A B c φ) c := by
  have h1 : HasDerivAt (fun x : ℝ => x ^ 2) (2 * c) c := by simpa using hasDerivAt_pow 2 c
  have h2 : HasDerivAt (fun x : ℝ => (1 - x) ^ 2) (2 * (1 - c) * (-1)) c := by
    exact (((hasDerivAt_id c).const_sub 1).pow 2).congr_deriv (by simp)
  have := (((h1.const_mul (A / 2)).mul_const (1 - mixing φ)).add
    ((h2.const_mul (B / 2)).mul_const (mixing φ))).add_const (W * (φ ^ 2 * (1 - φ) ^ 2))
  exact this.congr_deriv (by unfold mixtureByConc; ring)

theorem mixture_phase (A B W c φ : ℝ) : HasDerivAt (fun φ => mixture A B W c φ) (mixtureByPhase A B W c φ) φ := by
  have h1 : HasDerivAt (fun x : ℝ => x ^ 2) (2 * φ) φ := by simpa using hasDerivAt_pow 2 φ
  have h2 : HasDerivAt (fun x : ℝ => (1 - x) ^ 2) (2 * (1 - φ) * (-1)) φ := by
    exact (((hasDerivAt_id φ).const_sub 1).pow 2).congr_deriv (by simp)
  have h3 := mixing_deriv φ
  have := (((h3.const_sub 1).const_mul (A / 2 * c ^ 2)).add (h3.const_mul (B / 2 * (1 - c) ^ 2))).add
    ((h1.mul h2).const_mul W)
  exact this.congr_deriv (by unfold mixtureByPhase; ring)

section
variable (p : Precipitate) (b : Bricks n) (x : Fin n)

theorem chemPot_eq : precipitateChemPot p b x =
    ((-(p.M * mixtureByConc p.A p.B (b "conc".toList x).re (b "phase".toList x).re) : ℝ) : ℂ) := by
  unfold precipitateChemPot precipitateH mixtureByConc mixing
  dsimp only
  rw [← Complex.ofReal_mul, ← Complex.ofReal_neg]
  congr 1
  ring

theorem derivPhase_eq : precipitateDerivPhase p b x =
    ((-mixtureByPhase p.A p.B p.W (b "conc".toList x).re (b "phase".toList x).re : ℝ) : ℂ) := by
  unfold precipitateDerivPhase precipitateDH precipitateDLandau mixtureByPhase
  dsimp only
  rw [← Complex.ofReal_neg]
  congr 1
  ring

theorem smearing_eq : precipitateSmearing b x =
    ((6 * (b "phase".toList x).re * (1 - (b "phase".toList x).re) : ℝ) : ℂ) := by
  unfold precipitateSmearing precipitateDH
  dsimp only
  congr 1
  ring

/-- C146: the functions of the program are the derivatives of the free energy, with mobility `M` and opposite sign, and
of the fraction of the second phase. -/
theorem c146_reaction :
    (∃ d, HasDerivAt (fun c => mixture p.A p.B p.W c (b "phase".toList x).re) d (b "conc".toList x).re ∧
      precipitateChemPot p b x = ((-(p.M * d) : ℝ) : ℂ)) ∧
    (∃ d, HasDerivAt (fun φ => mixture p.A p.B p.W (b "conc".toList x).re φ) d (b "phase".toList x).re ∧
      precipitateDerivPhase p b x = ((-d : ℝ) : ℂ)) ∧
    (∃ d, HasDerivAt mixing d (b "phase".toList x).re ∧ precipitateSmearing b x = (d : ℂ)) :=
  ⟨⟨_, mixture_conc _ _ _ _ _, chemPot_eq p b x⟩, ⟨_, mixture_phase _ _ _ _ _, derivPhase_eq p b x⟩,
    ⟨_, mixing_deriv _, smearing_eq b x⟩⟩

end

/-! ### Rounds in real space -/

/-- The elastic term in real space. -/
noncomputable def elasticForce (el : HomoLinElast dims.prod) : Data dims.prod :=
  divRealScalar (ifft dims el.construct) (dims.prod : ℕ)

/-- The rate of the order parameter without diffusion, at a node. -/
noncomputable def phaseRate (p : Precipitate) (S : PrecipitateState dims) (x : Fin dims.prod) : ℂ :=
  ((-mixtureByPhase p.A p.B p.W (S.conc x).re (S.phase x).re +
    S.lp.multiplier * (6 * (S.phase x).re * (1 - (S.phase x).re)) : ℝ) : ℂ) + elasticForce S.el x

/-- A state in which a run can be: the stepper is the one of the program. -/
structure PrecipitateReady (p : Precipitate) (S : PrecipitateState dims) : Prop where
  dt : S.stepper.dt = p.dt
  freq : S.stepper.freq = freqOf dims
  filter : S.stepper.filter = none
  lpdt : S.lp.dt = p.dt

theorem precipitate_space (h : ∀ d ∈ dims, 0 < d) (p : Precipitate) (hκ : 0 ≤ p.kappa) (hdt : 0 ≤ p.dt) (z : Fin dims.prod)
    (S : PrecipitateState dims) (hS : PrecipitateReady p S) :
    ∃ S', precipitateRound p z S = some S' ∧ PrecipitateReady p S' ∧
      S'.stepper = { S.stepper with currentStep := S.stepper.currentStep + 1 } ∧
      S'.el = S.el.onStepFinished S'.phase ∧
      S'.lp = S.lp.finished z S'.phase (fft dims fun x => ((6 * (S.phase x).re * (1 - (S.phase x).re) : ℝ) : ℂ)) ∧
      (∀ k, fft dims S'.conc k * ((1 + p.dt * p.kappa * laplaceNumber dims k : ℝ) : ℂ) =
          fft dims (fun x => S.conc x - ((p.dt * p.M * mixtureByConc p.A p.B (S.conc x).re (S.phase x).re : ℝ) : ℂ)) k) ∧
      ∀ k, fft dims S'.phase k * ((1 + p.dt * p.kappa * laplaceNumber dims k : ℝ) : ℂ) =
          fft dims (fun x => S.phase x + (p.dt : ℂ) * phaseRate p S x) k := by
  obtain ⟨S', h1, h2, h3, h4, h5⟩ := precipitate_round h p hκ z S hS.freq hS.filter (by rw [hS.dt]; exact hdt)
  have b1 : ∀ x, precipitateChemPot p (precipitateBricks S.conc S.phase) x =
      ((-(p.M * mixtureByConc p.A p.B (S.conc x).re (S.phase x).re) : ℝ) : ℂ) := fun x => by
    rw [chemPot_eq, precipitateBricks_conc, precipitateBricks_phase]
  have b2 : ∀ x, precipitateDerivPhase p (precipitateBricks S.conc S.phase) x =
      ((-mixtureByPhase p.A p.B p.W (S.conc x).re (S.phase x).re : ℝ) : ℂ) := fun x => by
    rw [derivPhase_eq, precipitateBricks_conc, precipitateBricks_phase]
  have b3 : precipitateSmearing (precipitateBricks S.conc S.phase) =
      fun x => ((6 * (S.phase x).re * (1 - (S.phase x).re) : ℝ) : ℂ) := by
    funext x
    rw [smearing_eq, precipitateBricks_phase]
  have hlp : S'.lp.dt = S.lp.dt := by
    rw [h4]
    unfold VolumeLP.finished
    dsimp only
    split_ifs <;> rfl
  refine ⟨S', h1, ⟨by rw [h2]; exact hS.dt, by rw [h2]; exact hS.freq, by rw [h2]; exact hS.filter, hlp.trans hS.lpdt⟩,
    h2, h3, by rw [h4, b3], fun k => ?_, fun k => ?_⟩
  · have e := (h5 k).1
    rw [hS.dt] at e
    rw [e]
    have a := fft_smul (p.dt : ℂ) (precipitateChemPot p (precipitateBricks S.conc S.phase)) k
    rw [← a, ← fft_add]
    congr 1
    funext x
    rw [b1]
    push_cast
    ring
  · have e := (h5 k).2
    rw [hS.dt, b3] at e
    rw [e]
    have e4 : S.el.construct k = fft dims (elasticForce S.el) k := by
      unfold elasticForce
      rw [fft_divided h]
    rw [e4, ← fft_smul, ← fft_add, ← fft_add, ← fft_smul, ← fft_add]
    congr 1
    funext x
    rw [b2]
    unfold phaseRate
    push_cast
    ring

theorem solve_space (hpos : ∀ d ∈ dims, 0 < d) {r : ℝ} {v w : Data dims.prod}
    (e : ∀ k, fft dims v k * ((1 + r * laplaceNumber dims k : ℝ) : ℂ) = fft dims w k) (x : Fin dims.prod) :
    v x - (r : ℂ) * gridLaplacian (freqOf dims) v x = w x := by
  have : (fun x => v x - (r : ℂ) * gridLaplacian (freqOf dims) v x) = w := by
    apply fft_injective hpos
    funext k
    rw [← e k]
    have a1 := fft_sub v (fun x => (r : ℂ) * gridLaplacian (freqOf dims) v x) k
    have a2 := fft_smul (r : ℂ) (gridLaplacian (freqOf dims) v) k
    have a3 : fft dims (gridLaplacian (freqOf dims) v) k = laplaceSymbol (freqOf dims k) * fft dims v k :=
      fft_lap hpos (freqOf dims) v k
    rw [a1, a2, a3, symbol_laplaceNumber]
    push_cast
    ring
  exact congrFun this x

theorem solve_sum (h : GoodDims (intDims dims)) {r : ℝ} {v w : Data dims.prod}
    (e : ∀ k, fft dims v k * ((1 + r * laplaceNumber dims k : ℝ) : ℂ) = fft dims w k) : ∑ x, v x = ∑ x, w x := by
  have hp : 0 < dims.prod := Nat.pos_of_ne_zero (by exact_mod_cast prod_ne_zero (pos_of_goodDims h))
  have := e ⟨0, hp⟩
  rw [fft_zero_bin _ _ rfl, fft_zero_bin _ _ rfl, laplace_origin h _ rfl] at this
  simpa using this

theorem solve_unique (hpos : ∀ d ∈ dims, 0 < d) {r : ℝ} (hr : 0 ≤ r) {v w u : Data dims.prod}
    (e : ∀ k, fft dims v k * ((1 + r * laplaceNumber dims k : ℝ) : ℂ) = fft dims u k)
    (e' : ∀ k, fft dims w k * ((1 + r * laplaceNumber dims k : ℝ) : ℂ) = fft dims u k) : v = w := by
  apply fft_injective hpos
  funext k
  have := mul_nonneg hr (laplaceNumber_nonneg k)
  have hne : ((1 + r * laplaceNumber dims k : ℝ) : ℂ) ≠ 0 := by exact_mod_cast (by linarith : (0 : ℝ) < _).ne'
  exact mul_right_cancel₀ hne ((e k).trans (e' k).symm)

theorem solve_real (h : GoodDims (intDims dims)) (hl : LayoutOk dims) {r : ℝ} (hr : 0 ≤ r) {v w : Data dims.prod}
    (e : ∀ k, fft dims v k * ((1 + r * laplaceNumber dims k : ℝ) : ℂ) = fft dims w k) (hw : IsReal w) : IsReal v := by
  apply real_of_hermitian h hl
  intro b b' hb
  have e1 := hermitian_fft h hl hw b b' hb
  have hf : laplaceNumber dims b' = laplaceNumber dims b := by
    unfold laplaceNumber
    rw [freq_sq_conj h hb]
  rw [← e b', ← e b, hf, map_mul, Complex.conj_ofReal] at e1
  have := mul_nonneg hr (laplaceNumber_nonneg b)
  exact mul_right_cancel₀ (by exact_mod_cast (by linarith : (0 : ℝ) < _).ne') e1

/-! ### Runs -/

/-- `S 0, S 1, ...` are the states of the program started with these fields. -/
def IsRun (p : Precipitate) (z : Fin dims.prod) (r : Rank4) (misfit : Mat3) (conc phase : Data dims.prod)
    (S : ℕ → PrecipitateState dims) : Prop :=
  ∀ k, precipitateRounds p z k (precipitateInit dims p r misfit conc phase) = some (S k)

section
variable {p : Precipitate} {z : Fin dims.prod} {r : Rank4} {misfit : Mat3} {conc phase : Data dims.prod}
  {S : ℕ → PrecipitateState dims}

theorem IsRun.zero (hS : IsRun p z r misfit conc phase S) : S 0 = precipitateInit dims p r misfit conc phase :=
  (Option.some.inj (hS 0)).symm

theorem IsRun.succ (hS : IsRun p z r misfit conc phase S) (k : ℕ) : precipitateRound p z (S k) = some (S (k + 1)) := by
  have := hS (k + 1)
  rwa [precipitateRounds, hS k, Option.bind_some] at this

theorem init_ready (p : Precipitate) (r : Rank4) (misfit : Mat3) (conc phase : Data dims.prod) :
    PrecipitateReady p (precipitateInit dims p r misfit conc phase) := ⟨rfl, rfl, rfl, rfl⟩

theorem IsRun.ready (h : ∀ d ∈ dims, 0 < d) (hκ : 0 ≤ p.kappa) (hdt : 0 ≤ p.dt) (hS : IsRun p z r misfit conc phase S)
    (k : ℕ) : PrecipitateReady p (S k) := by
  induction k with
  | zero => rw [hS.zero]; exact init_ready _ _ _ _ _
  | succ k ih =>
    obtain ⟨S', e, hr, -⟩ := precipitate_space h p hκ hdt z (S k) ih
    rw [hS.succ k] at e
    rw [Option.some.inj e]
    exact hr

theorem IsRun.step (h : ∀ d ∈ dims, 0 < d) (hκ : 0 ≤ p.kappa) (hdt : 0 ≤ p.dt) (hS : IsRun p z r misfit conc phase S)
    (k : ℕ) : (S (k + 1)).el = (S k).el.onStepFinished (S (k + 1)).phase ∧
      (S (k + 1)).lp = (S k).lp.finished z (S (k + 1)).phase
        (fft dims fun x => ((6 * ((S k).phase x).re * (1 - ((S k).phase x).re) : ℝ) : ℂ)) ∧
      (∀ b, fft dims (S (k + 1)).conc b * ((1 + p.dt * p.kappa * laplaceNumber dims b : ℝ) : ℂ) =
          fft dims (fun x => (S k).conc x -
            ((p.dt * p.M * mixtureByConc p.A p.B ((S k).conc x).re ((S k).phase x).re : ℝ) : ℂ)) b) ∧
      ∀ b, fft dims (S (k + 1)).phase b * ((1 + p.dt * p.kappa * laplaceNumber dims b : ℝ) : ℂ) =
          fft dims (fun x => (S k).phase x + (p.dt : ℂ) * phaseRate p (S k) x) b := by
  obtain ⟨S', e, -, -, h1, h2, h3, h4⟩ := precipitate_space h p hκ hdt z (S k) (hS.ready h hκ hdt k)
  rw [hS.succ k] at e
  obtain rfl := Option.some.inj e
  exact ⟨h1, h2, h3, h4⟩

theorem IsRun.elastic (h : ∀ d ∈ dims, 0 < d) (hκ : 0 ≤ p.kappa) (hdt : 0 ≤ p.dt) (hS : IsRun p z r misfit conc phase S)
    (k : ℕ) : (S k).el = ((List.range k).map fun j => (S (j + 1)).phase).foldl HomoLinElast.onStepFinished
      (newHomogeneousModulus dims.prod r misfit) := by
  induction k with
  | zero => rw [hS.zero]; rfl
  | succ k ih =>
    rw [(hS.step h hκ hdt k).1, List.range_succ, List.map_append, List.foldl_append, ← ih]
    rfl

/-- C146: the program runs, and its fields solve the implicit equations in real space. The elastic force of a step is the
one of the current order parameter, in the first step there is none. -/
theorem c146_run (h : ∀ d ∈ dims, 0 < d) (p : Precipitate) (hκ : 0 ≤ p.kappa) (hdt : 0 ≤ p.dt) (z : Fin dims.prod)
    (r : Rank4) (misfit : Mat3) (conc phase : Data dims.prod) :
    ∃ S, IsRun p z r misfit conc phase S ∧ (S 0).conc = conc ∧ (S 0).phase = phase ∧
      (S 0).lp.multiplier = 0 ∧ elasticForce (S 0).el = (fun _ => 0) ∧
      (∀ k, (S (k + 1)).el = elasticTerm dims.prod r misfit fun x => ((S (k + 1)).phase x).re) ∧
      ∀ k x,
        (S (k + 1)).conc x - ((p.dt * p.kappa : ℝ) : ℂ) * gridLaplacian (freqOf dims) (S (k + 1)).conc x =
          (S k).conc x - ((p.dt * p.M * mixtureByConc p.A p.B ((S k).conc x).re ((S k).phase x).re : ℝ) : ℂ) ∧
        (S (k + 1)).phase x - ((p.dt * p.kappa : ℝ) : ℂ) * gridLaplacian (freqOf dims) (S (k + 1)).phase x =
          (S k).phase x + (p.dt : ℂ) * (((-mixtureByPhase p.A p.B p.W ((S k).conc x).re ((S k).phase x).re +
            (S k).lp.multiplier * (6 * ((S k).phase x).re * (1 - ((S k).phase x).re)) : ℝ) : ℂ) + elasticForce (S k).el x) := by
  have hex : ∀ k, ∃ S, precipitateRounds p z k (precipitateInit dims p r misfit conc phase) = some S ∧ PrecipitateReady p S := by
    intro k
    induction k with
    | zero => exact ⟨_, rfl, init_ready _ _ _ _ _⟩
    | succ k ih =>
      obtain ⟨S, e, hr⟩ := ih
      obtain ⟨S', e', hr', -⟩ := precipitate_space h p hκ hdt z S hr
      exact ⟨S', by rw [precipitateRounds, e, Option.bind_some, e'], hr'⟩
  choose S hS _ using hex
  have hrun : IsRun p z r misfit conc phase S := hS
  refine ⟨S, hS, by rw [hrun.zero]; rfl, by rw [hrun.zero]; rfl, by rw [hrun.zero]; rfl, ?_, fun k => ?_, fun k x => ?_⟩
  · rw [hrun.zero]
    unfold elasticForce
    rw [show (precipitateInit dims p r misfit conc phase).el = newHomogeneousModulus dims.prod r misfit from rfl, c103_initial]
    funext x
    simp [divRealScalar, ifft]
  · rw [hrun.elastic h hκ hdt, List.range_succ, List.map_append]
    exact c103_update r misfit _ _
  · obtain ⟨-, -, h3, h4⟩ := hrun.step h hκ hdt k
    exact ⟨solve_space h h3 x, solve_space h h4 x⟩

/-- C146: these equations have one solution: the fields after a step are determined by them. -/
theorem c146_unique (h : ∀ d ∈ dims, 0 < d) {q : ℝ} (hq : 0 ≤ q) {v w : Data dims.prod}
    (e : ∀ x, v x - (q : ℂ) * gridLaplacian (freqOf dims) v x = w x - (q : ℂ) * gridLaplacian (freqOf dims) w x) : v = w := by
  have key : ∀ (v : Data dims.prod) b, fft dims v b * ((1 + q * laplaceNumber dims b : ℝ) : ℂ) =
      fft dims (fun x => v x - (q : ℂ) * gridLaplacian (freqOf dims) v x) b := by
    intro v b
    have a1 := fft_sub v (fun x => (q : ℂ) * gridLaplacian (freqOf dims) v x) b
    have a2 := fft_smul (q : ℂ) (gridLaplacian (freqOf dims) v) b
    have a3 : fft dims (gridLaplacian (freqOf dims) v) b = laplaceSymbol (freqOf dims b) * fft dims v b :=
      fft_lap h (freqOf dims) v b
    rw [a1, a2, a3, symbol_laplaceNumber]
    push_cast
    ring
  refine solve_unique h hq (key v) fun b => ?_
  rw [key w b]
  congr 1
  funext x
  exact (e x).symm

/-- C146: the total concentration changes by the reaction alone. -/
theorem c146_conc_total (h : GoodDims (intDims dims)) (hκ : 0 ≤ p.kappa) (hdt : 0 ≤ p.dt)
    (hS : IsRun p z r misfit conc phase S) (k : ℕ) :
    ∑ x, (S (k + 1)).conc x = ∑ x, (S k).conc x -
      ((p.dt * p.M * ∑ x, mixtureByConc p.A p.B ((S k).conc x).re ((S k).phase x).re : ℝ) : ℂ) := by
  rw [solve_sum h (hS.step (pos_of_goodDims h) hκ hdt k).2.2.1, Finset.sum_sub_distrib, Finset.mul_sum, Complex.ofReal_sum]

/-- C146: with equal curvatures, as in the program, the total concentration relaxes towards the volume of the second
phase: it is conserved in a step exactly if it equals this volume (or nothing reacts). -/
theorem c146_conc_volume (h : GoodDims (intDims dims)) (hκ : 0 ≤ p.kappa) (hdt : 0 ≤ p.dt) (hAB : p.A = p.B)
    (hS : IsRun p z r misfit conc phase S) (k : ℕ) :
    ∑ x, ((S (k + 1)).conc x).re = ∑ x, ((S k).conc x).re +
      p.dt * p.M * p.A * (∑ x, mixing ((S k).phase x).re - ∑ x, ((S k).conc x).re) := by
  have e := congrArg Complex.re (c146_conc_total h hκ hdt hS k)
  rw [Complex.sub_re, Complex.ofReal_re, Complex.re_sum, Complex.re_sum] at e
  rw [e]
  have : ∀ x, mixtureByConc p.A p.B ((S k).conc x).re ((S k).phase x).re =
      p.A * (((S k).conc x).re - mixing ((S k).phase x).re) := by
    intro x
    unfold mixtureByConc
    rw [← hAB]
    ring
  simp only [this]
  rw [← Finset.mul_sum, Finset.sum_sub_distrib]
  ring

/-- C146: started with equal fields that are zero or one, the first step is diffusion alone: the two fields stay equal
and keep their total. -/
theorem c146_first (h : GoodDims (intDims dims)) (hκ : 0 ≤ p.kappa) (hdt : 0 ≤ p.dt)
    (h01 : ∀ x, conc x = phase x ∧ (phase x = 0 ∨ phase x = 1)) (hS : IsRun p z r misfit conc phase S) :
    (S 1).conc = (S 1).phase ∧ ∑ x, (S 1).phase x = ∑ x, phase x ∧
      ∀ x, (S 1).phase x - ((p.dt * p.kappa : ℝ) : ℂ) * gridLaplacian (freqOf dims) (S 1).phase x = phase x := by
  have hpos := pos_of_goodDims h
  obtain ⟨-, -, h3, h4⟩ := hS.step hpos hκ hdt 0
  have e0 := hS.zero
  have hc : (S 0).conc = conc := by rw [e0]; rfl
  have hp : (S 0).phase = phase := by rw [e0]; rfl
  have a1 : (fun x => (S 0).conc x -
      ((p.dt * p.M * mixtureByConc p.A p.B ((S 0).conc x).re ((S 0).phase x).re : ℝ) : ℂ)) = phase := by
    funext x
    rw [hc, hp, (h01 x).1]
    rcases (h01 x).2 with e | e <;> rw [e] <;> simp [mixtureByConc, mixing] <;> norm_num
  have a2 : (fun x => (S 0).phase x + (p.dt : ℂ) * phaseRate p (S 0) x) = phase := by
    funext x
    have hz : phaseRate p (S 0) x = 0 := by
      unfold phaseRate
      have : elasticForce (S 0).el x = 0 := by
        rw [e0]
        unfold elasticForce
        rw [show (precipitateInit dims p r misfit conc phase).el = newHomogeneousModulus dims.prod r misfit from rfl, c103_initial]
        simp [divRealScalar, ifft]
      rw [this, hc, hp, (h01 x).1]
      rcases (h01 x).2 with e | e <;> rw [e] <;> simp [mixtureByPhase]
    rw [hz, mul_zero, add_zero, hp]
  rw [a1] at h3
  rw [a2] at h4
  exact ⟨solve_unique hpos (mul_nonneg hdt hκ) h3 h4, solve_sum h h4, fun x => solve_space hpos h4 x⟩

/-- The volume of the precipitate, as the program measures it. -/
noncomputable def phaseVolume (S : PrecipitateState dims) : ℝ := ∑ x, (S.phase x).re

/-- The weight of the interface. -/
noncomputable def interface (S : PrecipitateState dims) : ℝ := ∑ x, 6 * (S.phase x).re * (1 - (S.phase x).re)

/-- The rate of the volume without the multiplier. -/
noncomputable def freeRate (p : Precipitate) (S : PrecipitateState dims) : ℝ :=
  ∑ x, (-mixtureByPhase p.A p.B p.W (S.conc x).re (S.phase x).re + (elasticForce S.el x).re)

theorem volume_step (h : GoodDims (intDims dims)) (hκ : 0 ≤ p.kappa) (hdt : 0 ≤ p.dt)
    (hS : IsRun p z r misfit conc phase S) (k : ℕ) :
    phaseVolume (S (k + 1)) = phaseVolume (S k) + p.dt * (freeRate p (S k) + (S k).lp.multiplier * interface (S k)) := by
  have e := congrArg Complex.re (solve_sum h (hS.step (pos_of_goodDims h) hκ hdt k).2.2.2)
  rw [Complex.re_sum, Complex.re_sum] at e
  unfold phaseVolume freeRate interface
  rw [e, Finset.mul_sum, ← Finset.sum_add_distrib, Finset.mul_sum, ← Finset.sum_add_distrib]
  refine Finset.sum_congr rfl fun x _ => ?_
  unfold phaseRate
  rw [Complex.add_re, Complex.re_ofReal_mul, Complex.add_re, Complex.ofReal_re]
  ring

theorem multiplier_step (h : GoodDims (intDims dims)) (hκ : 0 ≤ p.kappa) (hdt : 0 ≤ p.dt) (hz : z.val = 0)
    (hS : IsRun p z r misfit conc phase S) :
    (S 0).lp.multiplier = 0 ∧ (S 1).lp.multiplier = 0 ∧
    ∀ k, (S (k + 1)).lp.isFirstUpdate = false ∧ (S (k + 1)).lp.currentIntegral = phaseVolume (S (k + 1)) ∧
      (S (k + 2)).lp.multiplier = (S (k + 1)).lp.multiplier -
        (phaseVolume (S (k + 2)) - phaseVolume (S (k + 1))) / (p.dt * interface (S (k + 1))) := by
  have hpos := pos_of_goodDims h
  have hvol : ∀ w : Data dims.prod, (List.finRange dims.prod).foldl (fun acc i => acc + (w i).re) 0 = ∑ x, (w x).re := by
    intro w
    exact foldl_total _ _
  have hind : ∀ k, (fft dims (fun x => ((6 * ((S k).phase x).re * (1 - ((S k).phase x).re) : ℝ) : ℂ)) z).re = interface (S k) := by
    intro k
    rw [fft_zero_bin _ _ hz, ← Complex.ofReal_sum, Complex.ofReal_re]
    rfl
  have h0 : (S 0).lp = newVolumeLP p.dt := by rw [hS.zero]; rfl
  have h1 : (S 1).lp = { (S 0).lp with currentIntegral := phaseVolume (S 1), isFirstUpdate := false } := by
    rw [(hS.step hpos hκ hdt 0).2.1]
    unfold VolumeLP.finished
    dsimp only
    rw [if_pos (by rw [h0]; rfl), hvol]
    rfl
  have hnext : ∀ k, (S (k + 1)).lp.isFirstUpdate = false → (S (k + 1)).lp.currentIntegral = phaseVolume (S (k + 1)) →
      (S (k + 2)).lp.isFirstUpdate = false ∧ (S (k + 2)).lp.currentIntegral = phaseVolume (S (k + 2)) ∧
      (S (k + 2)).lp.multiplier = (S (k + 1)).lp.multiplier -
        (phaseVolume (S (k + 2)) - phaseVolume (S (k + 1))) / (p.dt * interface (S (k + 1))) := by
    intro k hf hc
    have hd := (hS.ready hpos hκ hdt (k + 1)).lpdt
    rw [(hS.step hpos hκ hdt (k + 1)).2.1]
    unfold VolumeLP.finished
    dsimp only
    rw [if_neg (by rw [hf]; simp), hvol, hind, hc, hd]
    exact ⟨hf, rfl, rfl⟩
  have hall : ∀ k, (S (k + 1)).lp.isFirstUpdate = false ∧ (S (k + 1)).lp.currentIntegral = phaseVolume (S (k + 1)) := by
    intro k
    induction k with
    | zero => rw [h1]; exact ⟨rfl, rfl⟩
    | succ k ih => exact ⟨(hnext k ih.1 ih.2).1, (hnext k ih.1 ih.2).2.1⟩
  refine ⟨by rw [h0]; rfl, by rw [h1, h0]; rfl, fun k => ⟨(hall k).1, (hall k).2, (hnext k (hall k).1 (hall k).2).2.2⟩⟩

/-- C146: what becomes of the volume of the precipitate. In the first two steps it follows the free rate; afterwards it
changes only by as much as the rate per weight of the interface has changed since the step before. -/
theorem c146_volume (h : GoodDims (intDims dims)) (hκ : 0 ≤ p.kappa) (hdt : 0 < p.dt) (hz : z.val = 0)
    (hS : IsRun p z r misfit conc phase S) :
    phaseVolume (S 1) = phaseVolume (S 0) + p.dt * freeRate p (S 0) ∧
    phaseVolume (S 2) = phaseVolume (S 1) + p.dt * freeRate p (S 1) ∧
    ∀ k, interface (S (k + 1)) ≠ 0 →
      (S (k + 2)).lp.multiplier = -(freeRate p (S (k + 1)) / interface (S (k + 1))) ∧
      phaseVolume (S (k + 3)) = phaseVolume (S (k + 2)) +
        p.dt * (freeRate p (S (k + 2)) - freeRate p (S (k + 1)) / interface (S (k + 1)) * interface (S (k + 2))) := by
  obtain ⟨m0, m1, hm⟩ := multiplier_step h hκ hdt.le hz hS
  have v0 := volume_step h hκ hdt.le hS 0
  have v1 := volume_step h hκ hdt.le hS 1
  rw [m0, zero_mul, add_zero] at v0
  rw [m1, zero_mul, add_zero] at v1
  refine ⟨v0, v1, fun k hI => ?_⟩
  have e := (hm k).2.2
  have v2 := volume_step h hκ hdt.le hS (k + 1)
  have v3 := volume_step h hκ hdt.le hS (k + 2)
  have hmul : (S (k + 2)).lp.multiplier = -(freeRate p (S (k + 1)) / interface (S (k + 1))) := by
    rw [e, show S (k + 1 + 1) = S (k + 2) from rfl] at *
    rw [v2]
    field_simp
    ring
  refine ⟨hmul, ?_⟩
  rw [hmul] at v3
  rw [show S (k + 3) = S (k + 2 + 1) from rfl, v3]
  ring

theorem solve_shrinks (h : GoodDims (intDims dims)) {q : ℝ} (hq : 0 < q) {v w : Data dims.prod}
    (e : ∀ k, fft dims v k * ((1 + q * laplaceNumber dims k : ℝ) : ℂ) = fft dims w k) (hw : ∀ c : ℂ, w ≠ fun _ => c) :
    ∑ x, ‖v x‖ ^ 2 < ∑ x, ‖w x‖ ^ 2 := by
  have hpos := pos_of_goodDims h
  have hp : 0 < dims.prod := Nat.pos_of_ne_zero (by exact_mod_cast prod_ne_zero hpos)
  have hex : ∃ k : Fin dims.prod, k.val ≠ 0 ∧ fft dims w k ≠ 0 := by
    by_contra hc
    push Not at hc
    refine hw (fft dims w ⟨0, hp⟩ / ((dims.prod : ℕ) : ℂ)) (fft_injective hpos ?_)
    funext k
    rw [fft_const hpos]
    split_ifs with hk
    · have : k = ⟨0, hp⟩ := Fin.ext hk
      have hne := prod_ne_zero' hpos
      rw [this]
      field_simp
    · exact hc k hk
  have hnorm : ∀ k, ‖fft dims v k‖ * (1 + q * laplaceNumber dims k) = ‖fft dims w k‖ := by
    intro k
    have h0 := mul_nonneg hq.le (laplaceNumber_nonneg k)
    rw [← e k, norm_mul, Complex.norm_real, Real.norm_of_nonneg (by linarith)]
  have hle : ∀ k, ‖fft dims v k‖ ≤ ‖fft dims w k‖ := by
    intro k
    rw [← hnorm k]
    have h0 := mul_nonneg hq.le (laplaceNumber_nonneg k)
    exact le_mul_of_one_le_right (norm_nonneg _) (by linarith)
  have hsum : ∑ k, ‖fft dims v k‖ ^ 2 < ∑ k, ‖fft dims w k‖ ^ 2 := by
    refine Finset.sum_lt_sum (fun k _ => pow_le_pow_left₀ (norm_nonneg _) (hle k) 2) ?_
    obtain ⟨k, hk, hne⟩ := hex
    refine ⟨k, Finset.mem_univ k, pow_lt_pow_left₀ ?_ (norm_nonneg _) two_ne_zero⟩
    have h0 := mul_pos hq (laplaceNumber_pos h k hk)
    have hv : 0 < ‖fft dims v k‖ := by
      rw [norm_pos_iff]
      intro hv
      apply hne
      rw [← e k, hv, zero_mul]
    rw [← hnorm k]
    exact lt_mul_of_one_lt_right hv (by linarith)
  rw [squares_parseval hpos, squares_parseval hpos] at hsum
  exact lt_of_mul_lt_mul_left hsum (Nat.cast_nonneg _)

/-- C146: started with equal fields that are zero or one, and not one phase alone, the divisor of the second update of
the multiplier is positive. -/
theorem c146_interface (h : GoodDims (intDims dims)) (hκ : 0 < p.kappa) (hdt : 0 < p.dt)
    (h01 : ∀ x, conc x = phase x ∧ (phase x = 0 ∨ phase x = 1)) (hne : ∀ c : ℂ, phase ≠ fun _ => c)
    (hS : IsRun p z r misfit conc phase S) : 0 < interface (S 1) := by
  obtain ⟨-, f2, f3⟩ := c146_first h hκ.le hdt.le h01 hS
  have hpos := pos_of_goodDims h
  have hstep : ∀ b, fft dims (S 1).phase b * ((1 + p.dt * p.kappa * laplaceNumber dims b : ℝ) : ℂ) = fft dims phase b := by
    intro b
    have a1 := fft_sub (S 1).phase (fun x => ((p.dt * p.kappa : ℝ) : ℂ) * gridLaplacian (freqOf dims) (S 1).phase x) b
    have a2 := fft_smul ((p.dt * p.kappa : ℝ) : ℂ) (gridLaplacian (freqOf dims) (S 1).phase) b
    have a3 : fft dims (gridLaplacian (freqOf dims) (S 1).phase) b = laplaceSymbol (freqOf dims b) * fft dims (S 1).phase b :=
      fft_lap hpos (freqOf dims) (S 1).phase b
    have a4 : fft dims phase b = fft dims (fun x => (S 1).phase x -
        ((p.dt * p.kappa : ℝ) : ℂ) * gridLaplacian (freqOf dims) (S 1).phase x) b := by
      congr 1
      funext x
      exact (f3 x).symm
    rw [a4, a1, a2, a3, symbol_laplaceNumber]
    push_cast
    ring
  have hlt := solve_shrinks h (mul_pos hdt hκ) hstep hne
  have hsum := congrArg Complex.re f2
  rw [Complex.re_sum, Complex.re_sum] at hsum
  have h0 : ∑ x, (phase x).re = ∑ x, ‖phase x‖ ^ 2 := by
    refine Finset.sum_congr rfl fun x _ => ?_
    rcases (h01 x).2 with e | e <;> rw [e] <;> simp
  have h1 : ∑ x, ((S 1).phase x).re ^ 2 ≤ ∑ x, ‖(S 1).phase x‖ ^ 2 := by
    refine Finset.sum_le_sum fun x _ => ?_
    rw [← sq_abs]
    exact pow_le_pow_left₀ (abs_nonneg _) (Complex.abs_re_le_norm _) 2
  have hI : interface (S 1) = 6 * (∑ x, ((S 1).phase x).re - ∑ x, ((S 1).phase x).re ^ 2) := by
    unfold interface
    rw [← Finset.sum_sub_distrib, Finset.mul_sum]
    refine Finset.sum_congr rfl fun x _ => ?_
    ring
  rw [hI, hsum, h0]
  linarith

/-- C146: if one of the phases fills the domain, nothing moves, and the divisor of the update of the multiplier is zero
from the second step on (the code computes `0/0`). -/
theorem c146_pure (h : GoodDims (intDims dims)) (hκ : 0 ≤ p.kappa) (hdt : 0 ≤ p.dt) {c : ℂ} (hc : c = 0 ∨ c = 1)
    (hS : IsRun p z r misfit (fun _ => c) (fun _ => c) S) (k : ℕ) :
    (S k).conc = (fun _ => c) ∧ (S k).phase = (fun _ => c) ∧ phaseVolume (S (k + 1)) - phaseVolume (S k) = 0 ∧
      (S k).lp.dt * interface (S k) = 0 := by
  have hpos := pos_of_goodDims h
  have hconst : ∀ b, fft dims (fun _ => c) b * ((1 + p.dt * p.kappa * laplaceNumber dims b : ℝ) : ℂ) = fft dims (fun _ => c) b := by
    intro b
    rw [fft_const hpos]
    split_ifs with hb
    · rw [laplace_origin h _ hb]; simp
    · simp
  have hfields : ∀ k, (S k).conc = (fun _ => c) ∧ (S k).phase = (fun _ => c) := by
    intro k
    induction k with
    | zero => rw [hS.zero]; exact ⟨rfl, rfl⟩
    | succ k ih =>
      obtain ⟨-, -, h3, h4⟩ := hS.step hpos hκ hdt k
      have hel : elasticForce (S k).el = fun _ => 0 := by
        have : (S k).el.construct = fun _ => 0 := by
          apply c146_elastic_none
          intro x
          cases k with
          | zero => rw [hS.zero]; exact Or.inl rfl
          | succ k =>
            rw [(hS.step hpos hκ hdt k).1]
            show ((S (k + 1)).phase x).re = 0 ∨ ((S (k + 1)).phase x).re = 1
            rw [ih.2]
            rcases hc with rfl | rfl <;> simp
        unfold elasticForce
        rw [this]
        funext x
        simp [divRealScalar, ifft]
      have a1 : (fun x => (S k).conc x -
          ((p.dt * p.M * mixtureByConc p.A p.B ((S k).conc x).re ((S k).phase x).re : ℝ) : ℂ)) = fun _ => c := by
        funext x
        rw [ih.1, ih.2]
        rcases hc with rfl | rfl <;> simp [mixtureByConc, mixing] <;> norm_num
      have a2 : (fun x => (S k).phase x + (p.dt : ℂ) * phaseRate p (S k) x) = fun _ => c := by
        funext x
        unfold phaseRate
        rw [hel, ih.1, ih.2]
        rcases hc with rfl | rfl <;> simp [mixtureByPhase]
      rw [a1] at h3
      rw [a2] at h4
      exact ⟨solve_unique hpos (mul_nonneg hdt hκ) h3 hconst, solve_unique hpos (mul_nonneg hdt hκ) h4 hconst⟩
  refine ⟨(hfields k).1, (hfields k).2, ?_, ?_⟩
  · unfold phaseVolume
    rw [(hfields k).2, (hfields (k + 1)).2, sub_self]
  · unfold interface
    rw [(hfields k).2]
    rcases hc with rfl | rfl <;> simp

/-- C146: real fields stay real on every domain, for every cubic material and every misfit without shear. -/
theorem c146_real (h : GoodDims (intDims dims)) (hl : LayoutOk dims) (hκ : 0 ≤ p.kappa) (hdt : 0 ≤ p.dt) {c11 c12 c44 : ℝ}
    (hm : NoShear misfit) (hc : IsReal conc) (hp : IsReal phase)
    (hS : IsRun p z (cubicMaterial c11 c12 c44) misfit conc phase S) (k : ℕ) : IsReal (S k).conc ∧ IsReal (S k).phase := by
  have hpos := pos_of_goodDims h
  induction k with
  | zero => rw [hS.zero]; exact ⟨hc, hp⟩
  | succ k ih =>
    obtain ⟨-, -, h3, h4⟩ := hS.step hpos hκ hdt k
    refine ⟨solve_real h hl (mul_nonneg hdt hκ) h3 fun x => ?_, solve_real h hl (mul_nonneg hdt hκ) h4 fun x => ?_⟩
    · rw [Complex.sub_im, Complex.ofReal_im, ih.1 x, sub_zero]
    · have hel : (elasticForce (S k).el x).im = 0 := by
        obtain ⟨g, hg⟩ := c146_elastic_real h hl c11 c12 c44 misfit hm ((List.range k).map fun j => (S (j + 1)).phase)
        rw [← hS.elastic hpos hκ hdt k] at hg
        have : elasticForce (S k).el = fun x => (g x : ℂ) := by
          apply fft_injective hpos
          unfold elasticForce
          rw [fft_divided hpos, hg]
        rw [this]
        exact Complex.ofReal_im _
      unfold phaseRate
      rw [Complex.add_im, Complex.im_ofReal_mul, Complex.add_im, Complex.ofReal_im, hel, ih.2 x]
      simp

end

/-! ### The start -/

theorem square_line (M : ℕ) : ∑ r : Fin M, (if r.val > 3 * M / 8 ∧ r.val < 5 * M / 8 then (1 : ℝ) else 0) =
    ((5 * M / 8 - 3 * M / 8 - 1 : ℕ) : ℝ) := by
  rw [Fin.sum_univ_eq_sum_range (fun r => if r > 3 * M / 8 ∧ r < 5 * M / 8 then (1 : ℝ) else 0) M, ← Finset.sum_filter,
    Finset.sum_const, nsmul_eq_mul, mul_one, ← Nat.card_Ioo]
  congr 2
  ext r
  simp only [Finset.mem_filter, Finset.mem_range, Finset.mem_Ioo]
  omega

/-- C146: how many nodes the precipitate has at the start; there are none exactly on domains with fewer than five or with
six nodes per side. -/
theorem c146_square (M : ℕ) :
    ∑ i : Fin (M * M), precipitateSquare M i = ((5 * M / 8 - 3 * M / 8 - 1 : ℕ) : ℝ) ^ 2 ∧
    (∀ i, precipitateSquare M i = 0 ∨ precipitateSquare M i = 1) ∧
    ((∀ i : Fin (M * M), precipitateSquare M i = 0) ↔ M < 5 ∨ M = 6) := by
  have hval : ∀ a : Fin M × Fin M, precipitateSquare M (finProdFinEquiv a).val =
      (if a.1.val > 3 * M / 8 ∧ a.1.val < 5 * M / 8 then (1 : ℝ) else 0) *
        (if a.2.val > 3 * M / 8 ∧ a.2.val < 5 * M / 8 then (1 : ℝ) else 0) := by
    rintro ⟨a, b⟩
    have hM : 0 < M := Nat.lt_of_le_of_lt (Nat.zero_le _) a.2
    have e1 : (b.val + M * a.val) / M = a.val := by
      rw [Nat.add_mul_div_left _ _ hM, Nat.div_eq_of_lt b.2, zero_add]
    have e2 : (b.val + M * a.val) % M = b.val := by
      rw [Nat.add_mul_mod_self_left, Nat.mod_eq_of_lt b.2]
    unfold precipitateSquare
    simp only [finProdFinEquiv_apply_val, e1, e2]
    by_cases h1 : a.val > 3 * M / 8 ∧ a.val < 5 * M / 8
    · by_cases h2 : b.val > 3 * M / 8 ∧ b.val < 5 * M / 8
      · rw [if_pos ⟨h1.1, h1.2, h2.1, h2.2⟩, if_pos h1, if_pos h2, mul_one]
      · rw [if_neg fun h => h2 ⟨h.2.2.1, h.2.2.2⟩, if_neg h2, mul_zero]
    · rw [if_neg fun h => h1 ⟨h.1, h.2.1⟩, if_neg h1, zero_mul]
  have hsum : ∑ i : Fin (M * M), precipitateSquare M i = ((5 * M / 8 - 3 * M / 8 - 1 : ℕ) : ℝ) ^ 2 := by
    rw [← Equiv.sum_comp finProdFinEquiv, Fintype.sum_prod_type]
    simp only [hval]
    rw [pow_two, ← square_line]
    rw [Finset.sum_mul_sum]
  have h01 : ∀ i, precipitateSquare M i = 0 ∨ precipitateSquare M i = 1 := by
    intro i
    unfold precipitateSquare
    dsimp only
    split_ifs
    · exact Or.inr rfl
    · exact Or.inl rfl
  refine ⟨hsum, h01, ?_⟩
  have hz : (∀ i : Fin (M * M), precipitateSquare M i = 0) ↔ ∑ i : Fin (M * M), precipitateSquare M i = 0 := by
    rw [Finset.sum_eq_zero_iff_of_nonneg]
    · simp
    · intro i _
      rcases h01 i with e | e <;> rw [e] <;> norm_num
  rw [hz, hsum, pow_eq_zero_iff two_ne_zero, Nat.cast_eq_zero]
  by_cases h8 : M < 8
  · interval_cases M <;> simp
  · omega

/-! ### The program -/

theorem precipitate_noShear : NoShear precipitateMisfit := by
  intro i j hij
  fin_cases i <;> fin_cases j <;> first | exact absurd rfl hij | simp [precipitateMisfit]

/-- The program itself: 64 by 64 nodes, its constants, material, misfit and start. The fields exist for all times, are
real, and start with 225 nodes of the precipitate. -/
theorem c146_program : ∃ S : ℕ → PrecipitateState [64, 64],
    IsRun precipitateConstants ⟨0, by norm_num⟩ precipitateStiffness precipitateMisfit
      (fun i => (precipitateSquare 64 i : ℂ)) (fun i => (precipitateSquare 64 i : ℂ)) S ∧
    (∀ k, IsReal (S k).conc ∧ IsReal (S k).phase) ∧ (S 1).conc = (S 1).phase ∧ phaseVolume (S 0) = 225 ∧
    phaseVolume (S 1) = 225 ∧ 0 < interface (S 1) ∧
    ∀ k, ∑ x, ((S (k + 1)).conc x).re = ∑ x, ((S k).conc x).re +
      (∑ x, mixing ((S k).phase x).re - ∑ x, ((S k).conc x).re) / 100 := by
  have hg : GoodDims (intDims [64, 64]) := by
    refine ⟨Or.inl rfl, ?_⟩
    intro d hd
    simp [intDims] at hd
    omega
  have hκ : 0 ≤ precipitateConstants.kappa := by norm_num [precipitateConstants]
  have hdt : 0 ≤ precipitateConstants.dt := by norm_num [precipitateConstants]
  obtain ⟨S, hS, s1, s2, -⟩ := c146_run (pos_of_goodDims hg) precipitateConstants hκ hdt ⟨0, by norm_num⟩ precipitateStiffness
    precipitateMisfit (fun i => (precipitateSquare 64 i : ℂ)) (fun i => (precipitateSquare 64 i : ℂ))
  have h01 : ∀ x : Fin [64, 64].prod, ((precipitateSquare 64 x : ℝ) : ℂ) = 0 ∨ ((precipitateSquare 64 x : ℝ) : ℂ) = 1 := by
    intro x
    rcases (c146_square 64).2.1 x with e | e <;> rw [e] <;> simp
  have hsum : ∑ x : Fin [64, 64].prod, precipitateSquare 64 x = 225 := by
    have := (c146_square 64).1
    norm_num at this
    exact this
  have hreal := c146_real hg trivial hκ hdt (c11 := 110) (c12 := 60) (c44 := 30) precipitate_noShear
    (fun x => Complex.ofReal_im _) (fun x => Complex.ofReal_im _) hS
  obtain ⟨f1, f2, -⟩ := c146_first hg hκ hdt (fun x => ⟨rfl, h01 x⟩) hS
  refine ⟨S, hS, hreal, f1, ?_, ?_, c146_interface hg (by norm_num [precipitateConstants])
    (by norm_num [precipitateConstants]) (fun x => ⟨rfl, h01 x⟩) ?_ hS, fun k => ?_⟩
  · unfold phaseVolume
    rw [s2]
    simp only [Complex.ofReal_re]
    exact hsum
  · unfold phaseVolume
    have := congrArg Complex.re f2
    rw [Complex.re_sum, Complex.re_sum] at this
    rw [this]
    simp only [Complex.ofReal_re]
    exact hsum
  · intro c hc
    have a1 := congrFun hc (⟨0, by norm_num⟩ : Fin [64, 64].prod)
    have a2 := congrFun hc (⟨2080, by norm_num⟩ : Fin [64, 64].prod)
    dsimp only at a1 a2
    rw [← a2] at a1
    norm_num [precipitateSquare] at a1
  · rw [c146_conc_volume hg hκ hdt rfl hS k]
    norm_num [precipitateConstants]
    ring

/-- The material of the program meets the conditions of `c146_solvable`. -/
example (f : Fin 3 → ℝ) (hf : f ≠ 0) : IsUnit (Matrix.of fun j k => dispElem j k f precipitateStiffness.get : Mat3) :=
  c146_solvable (by norm_num) (by norm_num) (by norm_num) f hf

end Gopf.Props
