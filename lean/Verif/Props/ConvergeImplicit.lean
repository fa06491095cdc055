import Verif.Proofs.ConvergeImplicit
import Verif.Props.ConvergeExists
import Verif.Props.ConvergeText
import Verif.Props.RealSession
import Verif.Props.Session

/-!
# C133: the implicit stepper converges with second order
-/

namespace Gopf.Props
open Pf Pfutil Converge Set Spec

variable {nf nd : ℕ} {dims : List ℕ}

/-! ## Specification -/

/-- What is left of the function given to the solver at the point that the solver returns in a step. -/
noncomputable def leftOver (solve : (SolverVec ℝ → SolverVec ℝ) → SolverVec ℝ → SolverVec ℝ)
    (m : Model nf nd dims.prod) (p : Stepper dims.prod × Store nf nd dims.prod) : SolverVec ℝ :=
  let pr := ieProblem m p.1 p.2 (fun _ => 0)
  pr.1 (solve pr.1 (fields2vec pr.2.fields (fun _ => 0)))

/-- A solver that returns a zero with entries of size at most `R` whenever there is one. -/
def FindsZeros (len : ℕ) (R : ℝ) (solve : (SolverVec ℝ → SolverVec ℝ) → SolverVec ℝ → SolverVec ℝ) : Prop :=
  ∀ F x0, (∃ x, (∀ idx < len, F x idx = 0) ∧ ∀ idx < len, |x idx| ≤ R) →
    (∀ idx < len, F (solve F x0) idx = 0) ∧ ∀ idx < len, |solve F x0 idx| ≤ R

/-! ## Proof -/

section
variable (h : GoodDims (intDims dims)) (hl : LayoutOk dims) {m : Model nf nd dims.prod} (hm : RealRates m)
  {A : Fin nf → Data dims.prod} (hA : ∀ i st t, m.getDenum i st (freqOf dims) t = A i)

theorem seen_rhs (h : ∀ d ∈ dims, 0 < d) (hd : FieldsOnly m) (freq : Frequency dims.prod) (i : Fin nf) (t : ℝ)
    (st : Store nf nd dims.prod) : m.getRHS i (seen m st) freq t =
      spectralRHS freq m i t (fun j => fft dims (st.fields j)) (fun j => fft dims (st.fields j)) := by
  unfold seen spectralRHS
  congr 2
  funext d
  congr 1
  refine hd d _ _ ?_
  funext j
  exact (realSpace_fft h _).symm

include h hl hm in
theorem hermitian_spectralRHS {Y : State nf dims.prod} (hY : ∀ i, Hermitian dims (Y i)) (i : Fin nf) (t : ℝ) :
    Hermitian dims (spectralRHS (freqOf dims) m i t Y Y) := by
  have hpos := pos_of_goodDims h
  refine hm.rhs i _ t ⟨hY, fun d => hermitian_fft h hl (hm.calcs d _ fun j => ?_)⟩
  apply real_of_hermitian h hl
  dsimp only
  rw [fft_realSpace hpos]
  exact hY j

include hm hA in
theorem hermitian_part (i : Fin nf) : Hermitian dims (A i) := by
  rw [← hA i ⟨fun _ _ => 0, fun _ _ => 0⟩ 0]
  exact hm.denum i _ 0

/-- The bins after a step. -/
noncomputable def nextBins (m : Model nf nd dims.prod) (A : Fin nf → Data dims.prod) (dt t : ℝ)
    (Y Z : State nf dims.prod) : State nf dims.prod :=
  fun i k => Y i k * Complex.exp (A i k * (dt : ℂ)) + nonlinearIntegral dt (A i k)
    (spectralRHS (freqOf dims) m i t Z Z k) (spectralRHS (freqOf dims) m i t Y Y k)

include h hl hm hA in
theorem nextBins_hermitian (dt t : ℝ) {Y Z : State nf dims.prod} (hY : ∀ i, Hermitian dims (Y i))
    (hZ : ∀ i, Hermitian dims (Z i)) (i : Fin nf) : Hermitian dims (nextBins m A dt t Y Z i) := by
  have hD := hermitian_part hm hA i
  have h1 := hermitian_spectralRHS h hl hm hZ i t
  have h0 := hermitian_spectralRHS h hl hm hY i t
  intro b c hc
  unfold nextBins
  rw [hY i b c hc, hD b c hc, h1 b c hc, h0 b c hc, conj_integral]
  simp only [map_add, map_mul]
  rw [← Complex.exp_conj, map_mul, Complex.conj_ofReal]

include h hl hm hA in
/-- The function given to the solver, for real fields. -/
theorem problem_value (s : Stepper dims.prod) (hs : s.freq = freqOf dims) (st : Store nf nd dims.prod)
    (hst : ∀ i, IsReal (st.fields i)) (x : SolverVec ℝ) (i : Fin nf) :
    let new : Fin nf → Data dims.prod := fun i j => ((x (flatIdx (i, j)) : ℝ) : ℂ)
    let F : Data dims.prod := fun k => fft dims (new i) k - nextBins m A s.dt (s.dt * s.currentStep)
      (fun j => fft dims (st.fields j)) (fun j => fft dims (new j)) i k
    (∀ j, (ieProblem m s st (fun _ => 0)).1 x (flatIdx (i, j)) = (realSpace F j).re) ∧ IsReal (realSpace F) := by
  intro new F
  have hpos := pos_of_goodDims h
  have hnew : ∀ i, IsReal (new i) := fun i j => by simp [new]
  have hF : Hermitian dims F := by
    have e1 := hermitian_fft h hl (hnew i)
    have e2 := nextBins_hermitian h hl hm hA s.dt (s.dt * s.currentStep)
      (fun i => hermitian_fft h hl (hst i)) (fun i => hermitian_fft h hl (hnew i)) i
    intro b c hc
    simp only [F]
    rw [e1 b c hc, e2 b c hc, map_sub]
  refine ⟨fun j => ?_, ?_⟩
  · rw [problem_eq hm.fieldsOnly]
    have e : residualSpectrum m s (collectRHS m s (seen m st)) (seen m st).fields
        (seen m ⟨fun i j => ((x (flatIdx (i, j)) : ℝ) : ℂ), st.derived⟩) i = F := by
      funext k
      have e : collectRHS m s (seen m st) (i.val * dims.prod + k.val) =
          m.getRHS i (seen m st) s.freq (ieTime s) k := collectRHS_apply m s (seen m st) (i, k)
      simp only [residualSpectrum, e, hs, hA, seen_rhs hpos hm.fieldsOnly]
      rfl
    rw [e]
    simp only [divRealScalar, realSpace, Complex.ofReal_natCast]
  · apply real_of_hermitian h hl
    rw [fft_realSpace hpos]
    exact hF

include h hl hm hA in
/-- A small rest of the function given to the solver means a small error of the bins. -/
theorem step_of_leftOver (s : Stepper dims.prod) (hs : s.freq = freqOf dims) (st : Store nf nd dims.prod)
    (hst : ∀ i, IsReal (st.fields i)) (x : SolverVec ℝ) {ε : ℝ} (hε : 0 ≤ ε)
    (hx : ∀ idx < nf * dims.prod, |(ieProblem m s st (fun _ => 0)).1 x idx| ≤ ε) :
    IsImplicitStep A (spectralRHS (freqOf dims) m) s.dt (s.dt * s.currentStep) (dims.prod * ε)
      (fun j => fft dims (st.fields j)) (fun j => fft dims fun y => ((x (flatIdx (j, y)) : ℝ) : ℂ)) := by
  have hpos := pos_of_goodDims h
  intro i k
  obtain ⟨h1, h2⟩ := problem_value h hl hm hA s hs st hst x i
  set F : Data dims.prod := fun k => fft dims (fun y => ((x (flatIdx (i, y)) : ℝ) : ℂ)) k -
    nextBins m A s.dt (s.dt * s.currentStep) (fun j => fft dims (st.fields j))
      (fun j => fft dims fun y => ((x (flatIdx (j, y)) : ℝ) : ℂ)) i k with hF
  have hb : ‖realSpace F‖ ≤ ε := by
    rw [pi_norm_le_iff_of_nonneg hε]
    intro j
    have e : realSpace F j = (((realSpace F j).re : ℝ) : ℂ) := Complex.ext (by simp) (by simpa using h2 j)
    rw [e, Complex.norm_real, Real.norm_eq_abs, ← h1 j]
    exact hx _ (flatIdx_lt _)
  have e : F = fft dims (realSpace F) := (fft_realSpace hpos F).symm
  have hk : ‖F k‖ ≤ dims.prod * ε := by
    rw [e]
    refine (norm_le_pi_norm _ k).trans ((fft_norm _).trans ?_)
    exact mul_le_mul_of_nonneg_left hb (Nat.cast_nonneg _)
  exact hk

include h hl hm hA in
/-- Conversely, conjugate symmetric bins that make a step give a zero. -/
theorem zero_of_step (s : Stepper dims.prod) (hs : s.freq = freqOf dims) (st : Store nf nd dims.prod)
    (hst : ∀ i, IsReal (st.fields i)) {Y' : State nf dims.prod} (hY' : ∀ i, Hermitian dims (Y' i))
    (hstep : IsImplicitStep A (spectralRHS (freqOf dims) m) s.dt (s.dt * s.currentStep) 0
      (fun j => fft dims (st.fields j)) Y') :
    ∃ x : SolverVec ℝ, (∀ p : Fin nf × Fin dims.prod, ((x (flatIdx p) : ℝ) : ℂ) = realSpace (Y' p.1) p.2) ∧
      ∀ idx < nf * dims.prod, (ieProblem m s st (fun _ => 0)).1 x idx = 0 := by
  have hpos := pos_of_goodDims h
  have hreal : ∀ i, IsReal (realSpace (Y' i)) := fun i => real_of_hermitian h hl (by
    rw [fft_realSpace hpos]; exact hY' i)
  let x : SolverVec ℝ := fun idx => if hidx : idx < nf * dims.prod then
    (realSpace (Y' (flatIdx_surj hidx).choose.1) (flatIdx_surj hidx).choose.2).re else 0
  have hx : ∀ p : Fin nf × Fin dims.prod, ((x (flatIdx p) : ℝ) : ℂ) = realSpace (Y' p.1) p.2 := by
    intro p
    have hp := flatIdx_lt p
    have e : (flatIdx_surj hp).choose = p := flatIdx_injective (flatIdx_surj hp).choose_spec
    simp only [x, dif_pos hp]
    rw [e]
    exact Complex.ext (by simp) (by simpa using (hreal p.1 p.2).symm)
  refine ⟨x, hx, ?_⟩
  intro idx hidx
  obtain ⟨⟨i, j⟩, rfl⟩ := flatIdx_surj hidx
  obtain ⟨h1, -⟩ := problem_value h hl hm hA s hs st hst x i
  have enew : ∀ i, (fun j => ((x (flatIdx (i, j)) : ℝ) : ℂ)) = realSpace (Y' i) := fun i => funext fun j => hx (i, j)
  simp only [enew, fft_realSpace hpos] at h1
  rw [h1 j]
  have e0 : (fun k => Y' i k - nextBins m A s.dt (s.dt * s.currentStep) (fun j => fft dims (st.fields j)) Y' i k) =
      fun _ => 0 := by
    funext k
    have := hstep i k
    rw [norm_le_zero_iff] at this
    exact this
  rw [e0]
  simp [realSpace, ifft]

theorem after_fields (solve : (SolverVec ℝ → SolverVec ℝ) → SolverVec ℝ → SolverVec ℝ)
    (m : Model nf nd dims.prod) (p : Stepper dims.prod × Store nf nd dims.prod) :
    let pr := ieProblem m p.1 p.2 (fun _ => 0)
    (ieStep solve m p).2.fields =
      fun i j => ((solve pr.1 (fields2vec pr.2.fields (fun _ => 0)) (flatIdx (i, j)) : ℝ) : ℂ) := by
  intro pr
  funext i j
  exact vec2fields_apply _ pr.2.fields (i, j)

theorem run_stepper (solve : (SolverVec ℝ → SolverVec ℝ) → SolverVec ℝ → SolverVec ℝ)
    (m : Model nf nd dims.prod) (s : Stepper dims.prod) (st : Store nf nd dims.prod) (n : ℕ) :
    ((ieStep solve m)^[n] (s, st)).1 = { s with currentStep := s.currentStep + n } := by
  induction n with
  | zero => rfl
  | succ k ih =>
    rw [Function.iterate_succ_apply']
    generalize (ieStep solve m)^[k] (s, st) = p at ih ⊢
    show ({ p.1 with currentStep := p.1.currentStep + 1 } : Stepper dims.prod) = _
    rw [ih]
    rfl

theorem run_real (solve : (SolverVec ℝ → SolverVec ℝ) → SolverVec ℝ → SolverVec ℝ)
    (m : Model nf nd dims.prod) (s : Stepper dims.prod) (st : Store nf nd dims.prod)
    (hst : ∀ i, IsReal (st.fields i)) (n : ℕ) (i : Fin nf) : IsReal (((ieStep solve m)^[n] (s, st)).2.fields i) := by
  cases n with
  | zero => exact hst i
  | succ n =>
    rw [Function.iterate_succ_apply', after_fields]
    intro j
    simp

include h hl hm hA in
/-- The steps of a run. -/
theorem run_step (solve : (SolverVec ℝ → SolverVec ℝ) → SolverVec ℝ → SolverVec ℝ)
    (s : Stepper dims.prod) (hs : s.freq = freqOf dims) (h0 : s.currentStep = 0) (st : Store nf nd dims.prod)
    (hst : ∀ i, IsReal (st.fields i)) (j : ℕ) {ε : ℝ} (hε : 0 ≤ ε)
    (hx : ∀ idx < nf * dims.prod, |leftOver solve m ((ieStep solve m)^[j] (s, st)) idx| ≤ ε) :
    IsImplicitStep A (spectralRHS (freqOf dims) m) s.dt (j * s.dt) (dims.prod * ε)
      (fun i => fft dims (((ieStep solve m)^[j] (s, st)).2.fields i))
      (fun i => fft dims (((ieStep solve m)^[j + 1] (s, st)).2.fields i)) := by
  have hstp := run_stepper solve m s st j
  have hre := run_real solve m s st hst j
  rw [Function.iterate_succ_apply']
  generalize (ieStep solve m)^[j] (s, st) = p at hx hstp hre ⊢
  have e := step_of_leftOver h hl hm hA p.1 (by rw [hstp]; exact hs) p.2 hre _ hε hx
  rw [hstp, h0] at e
  have e2 : s.dt * ((0 + j : ℕ) : ℝ) = j * s.dt := by push_cast; ring
  simp only [e2] at e
  rw [after_fields]
  rw [show p.1 = { s with currentStep := 0 + j } by rw [hstp, h0]]
  exact e

theorem spectra_norm {f : Fin nf → Data dims.prod} {R : ℝ} (hR : 0 ≤ R) (hf : ∀ i x, ‖f i x‖ ≤ R) :
    ‖(fun i => fft dims (f i) : State nf dims.prod)‖ ≤ dims.prod * R := by
  rw [pi_norm_le_iff_of_nonneg (by positivity)]
  intro i
  refine (fft_norm _).trans (mul_le_mul_of_nonneg_left ?_ (Nat.cast_nonneg _))
  rw [pi_norm_le_iff_of_nonneg hR]
  exact hf i

include h hl hm hA in
theorem ie_converges {T : ℝ} (hT : 0 ≤ T) {G : Fin nf → ℝ → State nf dims.prod → State nf dims.prod → Fin dims.prod → ℂ}
    (hGeq : ∀ i t Y, G i t Y Y = spectralRHS (freqOf dims) m i t Y Y) (hG : LipBounded T G)
    {u : ℝ → Fin nf → Data dims.prod} (hu : SolvesModel T (freqOf dims) m A u) {p : ℕ} (hp : p ≤ 2)
    (hi : Interpolated T p G fun t j => fft dims (u t j)) (R : ℝ) :
    ∃ C dt0 : ℝ, 0 ≤ C ∧ 0 < dt0 ∧
      ∀ (s : Stepper dims.prod) (ε : ℝ), 0 < s.dt → s.dt ≤ dt0 → s.freq = freqOf dims → s.currentStep = 0 → 0 ≤ ε →
      ∀ solve (st : Store nf nd dims.prod), st.fields = u 0 → (∀ i, IsReal (u 0 i)) → ∀ n : ℕ, (n : ℝ) * s.dt ≤ T →
        (∀ j < n, ∀ idx < nf * dims.prod, |leftOver solve m ((ieStep solve m)^[j] (s, st)) idx| ≤ ε) →
        (∀ j ≤ n, ∀ i x, ‖((ieStep solve m)^[j] (s, st)).2.fields i x‖ ≤ R) →
        ‖(fun i => fft dims (((ieStep solve m)^[n] (s, st)).2.fields i)) - (fun i => fft dims (u (n * s.dt) i))‖ ≤
          C * (s.dt ^ p + ε / s.dt) := by
  have hpos := pos_of_goodDims h
  have hy : Solves T A G (fun t j => fft dims (u t j)) := by
    intro t ht i
    rw [hGeq]
    exact solves_spectral hpos hu t ht i
  obtain ⟨C, d, hC, hd, hconv⟩ := implicit_converges hT hG hy hp hi (dims.prod * max R 0)
  refine ⟨C * (1 + dims.prod), d, by positivity, hd, ?_⟩
  intro s ε hdt hle hf h0 hε solve st hst hre n hn hleft hbound
  have hst' : ∀ i, IsReal (st.fields i) := by rw [hst]; exact hre
  have := hconv s.dt (dims.prod * ε) hdt hle (by positivity)
    (fun j i => fft dims (((ieStep solve m)^[j] (s, st)).2.fields i)) (by simp [hst]) n hn
    (fun j hj => spectra_norm (le_max_right _ _) fun i x => (hbound j hj i x).trans (le_max_left _ _))
    (fun j hj => by
      have e := run_step h hl hm hA solve s hf h0 st hst' j hε (hleft j hj)
      intro i k
      rw [hGeq, hGeq]
      exact e i k)
  refine this.trans ?_
  rw [mul_assoc]
  refine mul_le_mul_of_nonneg_left ?_ hC
  have hp0 : 0 ≤ s.dt ^ p := by positivity
  have he0 : 0 ≤ ε / s.dt := by positivity
  have hN : (0 : ℝ) ≤ dims.prod := Nat.cast_nonneg _
  have e1 : (dims.prod : ℝ) * ε / s.dt = dims.prod * (ε / s.dt) := by ring
  rw [e1]
  have := mul_nonneg hN hp0
  linarith

include h hl hm hA in
/-- The solver need not be assumed to succeed: the function has a zero. -/
theorem ie_converges_found {T : ℝ} (hT : 0 ≤ T)
    {G : Fin nf → ℝ → State nf dims.prod → State nf dims.prod → Fin dims.prod → ℂ}
    (hGeq : ∀ i t Y, G i t Y Y = spectralRHS (freqOf dims) m i t Y Y) (hG : LipBounded T G)
    {u : ℝ → Fin nf → Data dims.prod} (hu : SolvesModel T (freqOf dims) m A u) {p : ℕ} (hp1 : 1 ≤ p) (hp : p ≤ 2)
    (hi : Interpolated T p G fun t j => fft dims (u t j)) {M R : ℝ} (hMR : M < R)
    (hM : ∀ t ∈ Icc 0 T, ∀ i x, ‖u t i x‖ ≤ M) (hM0 : 0 ≤ M) :
    ∃ C dt0 : ℝ, 0 ≤ C ∧ 0 < dt0 ∧
      ∀ s : Stepper dims.prod, 0 < s.dt → s.dt ≤ dt0 → s.freq = freqOf dims → s.currentStep = 0 →
      ∀ solve, FindsZeros (nf * dims.prod) R solve →
      ∀ st : Store nf nd dims.prod, st.fields = u 0 → (∀ i, IsReal (u 0 i)) → ∀ n : ℕ, (n : ℝ) * s.dt ≤ T →
        ((∀ j < n, ∀ idx < nf * dims.prod, leftOver solve m ((ieStep solve m)^[j] (s, st)) idx = 0) ∧
        ∀ j ≤ n, ∀ i x, ‖((ieStep solve m)^[j] (s, st)).2.fields i x‖ ≤ R) ∧
        ‖(fun i => fft dims (((ieStep solve m)^[n] (s, st)).2.fields i)) - (fun i => fft dims (u (n * s.dt) i))‖ ≤
          C * s.dt ^ p := by
  have hpos := pos_of_goodDims h
  have hR0 : 0 ≤ R := by linarith
  have hN : (0 : ℝ) ≤ dims.prod := Nat.cast_nonneg _
  have hy : Solves T A G (fun t j => fft dims (u t j)) := by
    intro t ht i
    rw [hGeq]
    exact solves_spectral hpos hu t ht i
  obtain ⟨C, d1, hC, hd1, hconv⟩ := ie_converges h hl hm hA hT hGeq hG hu hp hi R
  obtain ⟨Cd, hCd, hdef⟩ := solution_defect hT hG hy hp hi
  obtain ⟨K, d2, hK, hd2, hd21, hstep⟩ := two_steps (a := A) (R := dims.prod * R + 1) hG
  have hS : IsClosed {Y : State nf dims.prod | ∀ i, Hermitian dims (Y i)} := by
    simp only [Hermitian, ofPred_forall]
    refine isClosed_iInter fun i => isClosed_iInter fun b => isClosed_iInter fun c => isClosed_iInter fun _ => ?_
    refine isClosed_eq ?_ ?_
    · exact (continuous_apply c).comp (continuous_apply i)
    · exact Complex.continuous_conj.comp ((continuous_apply b).comp (continuous_apply i))
  obtain ⟨d3, hd3, -, hsolv⟩ := implicit_solvable (a := A) hG (R := dims.prod * R) (by positivity) hS (by
    intro dt t Y hY Z hZ i
    simp only [hGeq]
    exact nextBins_hermitian h hl hm hA dt t hY hZ i)
  set η : ℝ := R - M with hη
  have hη0 : 0 < η := by rw [hη]; linarith
  set W : ℝ := (1 + K) * C + 2 * Cd with hW
  have hW0 : 0 ≤ W := by positivity
  refine ⟨C, min (min (min d1 d2) d3) (η / (W + 1)), hC, by positivity, ?_⟩
  intro s hdt hle hf h0 solve hsolve st hst hre n
  have hle1 : s.dt ≤ d1 := hle.trans ((min_le_left _ _).trans ((min_le_left _ _).trans (min_le_left _ _)))
  have hle2 : s.dt ≤ d2 := hle.trans ((min_le_left _ _).trans ((min_le_left _ _).trans (min_le_right _ _)))
  have hle3 : s.dt ≤ d3 := hle.trans ((min_le_left _ _).trans (min_le_right _ _))
  have hdt1 : s.dt ≤ 1 := hle2.trans hd21
  have hWdt : W * s.dt ≤ η := by
    have : s.dt ≤ η / (W + 1) := hle.trans (min_le_right _ _)
    rw [le_div_iff₀ (by positivity)] at this
    nlinarith
  have hpw : s.dt ^ p ≤ s.dt := by
    have := pow_le_pow_of_le_one hdt.le hdt1 hp1
    rwa [pow_one] at this
  have hst' : ∀ i, IsReal (st.fields i) := by rw [hst]; exact hre
  intro hn
  have key : (∀ j < n, ∀ idx < nf * dims.prod, leftOver solve m ((ieStep solve m)^[j] (s, st)) idx = 0) ∧
        ∀ j ≤ n, ∀ i x, ‖((ieStep solve m)^[j] (s, st)).2.fields i x‖ ≤ R := by
    induction n with
    | zero =>
      refine ⟨fun j hj => absurd hj (by omega), fun j hj i x => ?_⟩
      obtain rfl : j = 0 := by omega
      rw [Function.iterate_zero, id_eq]
      dsimp only
      rw [hst]
      exact (hM 0 ⟨le_rfl, hT⟩ i x).trans hMR.le
    | succ n ih =>
      have hn' : (n : ℝ) * s.dt + s.dt ≤ T := by push_cast at hn; linarith
      have hnT : (n : ℝ) * s.dt ≤ T := by linarith
      have hn0 : 0 ≤ (n : ℝ) * s.dt := by positivity
      obtain ⟨i1, i2⟩ := ih hnT
      have herr := hconv s 0 hdt hle1 hf h0 le_rfl solve st hst hre n hnT
        (fun j hj idx hidx => by rw [i1 j hj idx hidx, abs_zero]) i2
      rw [zero_div, add_zero] at herr
      have hYn := spectra_norm (dims := dims) hR0 (i2 n le_rfl)
      have hreal := run_real solve m s st hst' n
      have hstp := run_stepper solve m s st n
      have hYS : (fun i => fft dims (((ieStep solve m)^[n] (s, st)).2.fields i)) ∈
          {Y : State nf dims.prod | ∀ i, Hermitian dims (Y i)} := fun i => hermitian_fft h hl (hreal i)
      obtain ⟨Y', hY'S, hY'n, hY'⟩ := hsolv (n * s.dt) s.dt ⟨hn0, hnT⟩ hdt hle3 _ hYS hYn
      have hd := hdef (n * s.dt) s.dt hn0 hdt hdt1 hn'
      have hyb : ∀ t ∈ Icc 0 T, ‖(fun j => fft dims (u t j) : State nf dims.prod)‖ ≤ dims.prod * R + 1 := fun t ht =>
        (spectra_norm hR0 fun i x => (hM t ht i x).trans hMR.le).trans (by linarith)
      have hclose := hstep (n * s.dt) s.dt 0 (Cd * s.dt ^ (p + 1)) hn0 hdt hle2 hn' _ Y' _ _ (hYn.trans (by linarith))
        hY'n (hyb _ ⟨hn0, hnT⟩) (hyb _ ⟨by linarith, hn'⟩) le_rfl (by positivity) hY' hd
      have hsmall : ‖Y' - (fun j => fft dims (u (n * s.dt + s.dt) j))‖ ≤ η := by
        refine hclose.trans (le_trans ?_ hWdt)
        have a1 := mul_le_mul_of_nonneg_left (herr.trans (mul_le_mul_of_nonneg_left hpw hC))
          (by positivity : 0 ≤ 1 + K * s.dt)
        have a2 : K * s.dt ≤ K := mul_le_of_le_one_right hK hdt1
        have a3 : (1 + K * s.dt) * (C * s.dt) ≤ (1 + K) * (C * s.dt) :=
          mul_le_mul_of_nonneg_right (by linarith) (by positivity)
        have a4 : s.dt ^ (p + 1) ≤ s.dt := by
          have := pow_le_pow_of_le_one hdt.le hdt1 (by omega : 1 ≤ p + 1)
          rwa [pow_one] at this
        have a5 := mul_le_mul_of_nonneg_left a4 hCd
        rw [hW]
        linarith
      -- the zero
      have hdtp : ((ieStep solve m)^[n] (s, st)).1.dt = s.dt := by rw [hstp]
      have hzero := zero_of_step h hl hm hA ((ieStep solve m)^[n] (s, st)).1 (by rw [hstp]; exact hf)
        ((ieStep solve m)^[n] (s, st)).2 hreal hY'S (by
          rw [hstp, h0]
          have e2 : s.dt * ((0 + n : ℕ) : ℝ) = n * s.dt := by push_cast; ring
          dsimp only
          rw [e2]
          intro i k
          have := hY' i k
          rwa [hGeq, hGeq] at this)
      obtain ⟨x, hx1, hx2⟩ := hzero
      have hxR : ∀ idx < nf * dims.prod, |x idx| ≤ R := by
        intro idx hidx
        obtain ⟨⟨i, y⟩, rfl⟩ := flatIdx_surj hidx
        have e1 : |x (flatIdx (i, y))| = ‖realSpace (Y' i) y‖ := by
          rw [← hx1 (i, y), Complex.norm_real, Real.norm_eq_abs]
        rw [e1]
        have hu' : ∀ y, ‖u (n * s.dt + s.dt) i y‖ ≤ M := hM _ ⟨by linarith, hn'⟩ i
        have e2 : realSpace (Y' i) y = u (n * s.dt + s.dt) i y +
            realSpace (Y' i - fft dims (u (n * s.dt + s.dt) i)) y := by
          rw [← realSpace_sub, realSpace_fft hpos]
          simp
        rw [e2]
        refine (norm_add_le _ _).trans ?_
        have e3 : ‖realSpace (Y' i - fft dims (u (n * s.dt + s.dt) i)) y‖ ≤ η :=
          ((norm_le_pi_norm _ y).trans (realSpace_norm _)).trans
            ((norm_le_pi_norm (Y' - fun j => fft dims (u (n * s.dt + s.dt) j)) i).trans hsmall)
        have := hu' y
        rw [hη] at e3
        linarith
      obtain ⟨z1, z2⟩ := hsolve _ (fields2vec (ieProblem m ((ieStep solve m)^[n] (s, st)).1
        ((ieStep solve m)^[n] (s, st)).2 (fun _ => 0)).2.fields (fun _ => 0)) ⟨x, hx2, hxR⟩
      refine ⟨fun j hj => ?_, fun j hj => ?_⟩
      · rcases Nat.lt_succ_iff_lt_or_eq.mp hj with hj' | rfl
        · exact i1 j hj'
        · exact z1
      · rcases Nat.lt_or_eq_of_le hj with hj' | rfl
        · exact i2 j (by omega)
        · intro i y
          rw [Function.iterate_succ_apply', after_fields]
          dsimp only
          rw [Complex.norm_real, Real.norm_eq_abs]
          exact z2 _ (flatIdx_lt _)
  refine ⟨key, ?_⟩
  have := hconv s 0 hdt hle1 hf h0 le_rfl solve st hst hre n hn
    (fun j hj idx hidx => by rw [key.1 j hj idx hidx, abs_zero]) key.2
  rwa [zero_div, add_zero] at this

end

theorem lipBounded_slope {T : ℝ} {freq : Frequency dims.prod} {m : Model nf nd dims.prod} (hm : SmoothModel freq m) :
    LipBounded T (fun (i : Fin nf) (_ : ℝ) (_ Y : State nf dims.prod) => slope m freq 0 Y i) := by
  intro R
  obtain ⟨L, hL, hLip⟩ := deriv_lipschitz ((slope_smooth hm).of_le (by norm_num)) R
  refine ⟨L, hL, ?_⟩
  intro i s _ t _ X X' Y Y' _ _ hY hY'
  have h1 := (norm_le_pi_norm (slope m freq 0 Y - slope m freq 0 Y') i).trans (hLip Y Y' hY hY')
  refine h1.trans (mul_le_mul_of_nonneg_left ?_ hL)
  have := abs_nonneg (s - t)
  have := norm_nonneg (X - X')
  linarith

theorem slope_diagonal {freq : Frequency dims.prod} {m : Model nf nd dims.prod} (hm : SmoothModel freq m)
    (i : Fin nf) (t : ℝ) (Y : State nf dims.prod) : slope m freq 0 Y i = spectralRHS freq m i t Y Y :=
  (hm.autonomous i _ t).symm

section
variable (h : GoodDims (intDims dims)) (hl : LayoutOk dims) (m : Model nf nd dims.prod) (hreal : RealRates m)
  (A : Fin nf → Data dims.prod) (hA : ∀ i st t, m.getDenum i st (freqOf dims) t = A i)
  (u : ℝ → Fin nf → Data dims.prod)
include h hl hreal hA

omit hl hreal hA in
theorem solved_interpolated {T : ℝ} (hT : 0 < T) (hm : SmoothModel (freqOf dims) m)
    (hu : SolvesModel T (freqOf dims) m A u) :
    Interpolated T 2 (fun (i : Fin nf) (_ : ℝ) (_ Y : State nf dims.prod) => slope m (freqOf dims) 0 Y i)
      fun t j => fft dims (u t j) := by
  refine interpolated_two (a := A) hT (f := slope m (freqOf dims) 0) ((slope_smooth hm).of_le (by norm_num))
    (fun _ _ _ => rfl) ?_
  intro t ht i
  have := solves_spectral (pos_of_goodDims h) hu t ht i
  rwa [← slope_diagonal hm] at this

/-- C133: the implicit stepper converges with second order for smooth equations that do not depend on time. The
solver may leave a rest of at most `ε` in each step, which adds `ε / dt`. The fields that the solver returns are
assumed to stay below a bound. -/
theorem c133_second_order {T : ℝ} (hT : 0 < T) (hm : SmoothModel (freqOf dims) m)
    (hu : SolvesModel T (freqOf dims) m A u) (R : ℝ) :
    ∃ C dt0 : ℝ, 0 ≤ C ∧ 0 < dt0 ∧
      ∀ (s : Stepper dims.prod) (ε : ℝ), 0 < s.dt → s.dt ≤ dt0 → s.freq = freqOf dims → s.currentStep = 0 → 0 ≤ ε →
      ∀ solve (st : Store nf nd dims.prod), st.fields = u 0 → (∀ i, IsReal (u 0 i)) → ∀ n : ℕ, (n : ℝ) * s.dt ≤ T →
        (∀ j < n, ∀ idx < nf * dims.prod, |leftOver solve m ((ieStep solve m)^[j] (s, st)) idx| ≤ ε) →
        (∀ j ≤ n, ∀ i x, ‖((ieStep solve m)^[j] (s, st)).2.fields i x‖ ≤ R) →
        ∀ i x, ‖((ieStep solve m)^[n] (s, st)).2.fields i x - u (n * s.dt) i x‖ ≤ C * (s.dt ^ 2 + ε / s.dt) := by
  obtain ⟨C, d, hC, hd, hconv⟩ := ie_converges h hl hreal hA hT.le (slope_diagonal hm) (lipBounded_slope hm) hu le_rfl
    (solved_interpolated h m A u hT hm hu) R
  refine ⟨C, d, hC, hd, ?_⟩
  intro s ε h1 h2 h3 h4 h5 solve st h6 h7 n h8 h9 h10
  exact field_error (pos_of_goodDims h) _ _ (hconv s ε h1 h2 h3 h4 h5 solve st h6 h7 n h8 h9 h10)

/-- C133: for all equations that are Lipschitz on bounded sets, also those that depend on time, it converges with
first order. -/
theorem c133_first_order {T : ℝ} (hT : 0 ≤ T) (hm : LocallyLipschitz T (freqOf dims) m)
    (hu : SolvesModel T (freqOf dims) m A u) (R : ℝ) :
    ∃ C dt0 : ℝ, 0 ≤ C ∧ 0 < dt0 ∧
      ∀ (s : Stepper dims.prod) (ε : ℝ), 0 < s.dt → s.dt ≤ dt0 → s.freq = freqOf dims → s.currentStep = 0 → 0 ≤ ε →
      ∀ solve (st : Store nf nd dims.prod), st.fields = u 0 → (∀ i, IsReal (u 0 i)) → ∀ n : ℕ, (n : ℝ) * s.dt ≤ T →
        (∀ j < n, ∀ idx < nf * dims.prod, |leftOver solve m ((ieStep solve m)^[j] (s, st)) idx| ≤ ε) →
        (∀ j ≤ n, ∀ i x, ‖((ieStep solve m)^[j] (s, st)).2.fields i x‖ ≤ R) →
        ∀ i x, ‖((ieStep solve m)^[n] (s, st)).2.fields i x - u (n * s.dt) i x‖ ≤ C * (s.dt + ε / s.dt) := by
  have hpos := pos_of_goodDims h
  obtain ⟨C, d, hC, hd, hconv⟩ := ie_converges h hl hreal hA hT (fun _ _ _ => rfl) (lipBounded_rhs hm) hu
    (by norm_num : 1 ≤ 2) (interpolated_one hT (lipBounded_rhs hm) (solves_spectral hpos hu)) R
  refine ⟨C, d, hC, hd, ?_⟩
  intro s ε h1 h2 h3 h4 h5 solve st h6 h7 n h8 h9 h10
  have := hconv s ε h1 h2 h3 h4 h5 solve st h6 h7 n h8 h9 h10
  rw [pow_one] at this
  exact field_error hpos _ _ this

/-- C133: nothing need be assumed about the run if the solver finds a zero whose entries are at most `R` whenever
there is one. For any `R` above the values of the solution there is one in every step (if the time step is small),
the fields stay below `R`, and the error is of second order. -/
theorem c133_found {T : ℝ} (hT : 0 < T) (hm : SmoothModel (freqOf dims) m)
    (hu : SolvesModel T (freqOf dims) m A u) {M R : ℝ} (hM0 : 0 ≤ M) (hM : ∀ t ∈ Icc 0 T, ∀ i x, ‖u t i x‖ ≤ M)
    (hMR : M < R) :
    ∃ C dt0 : ℝ, 0 ≤ C ∧ 0 < dt0 ∧
      ∀ s : Stepper dims.prod, 0 < s.dt → s.dt ≤ dt0 → s.freq = freqOf dims → s.currentStep = 0 →
      ∀ solve, FindsZeros (nf * dims.prod) R solve →
      ∀ st : Store nf nd dims.prod, st.fields = u 0 → (∀ i, IsReal (u 0 i)) → ∀ n : ℕ, (n : ℝ) * s.dt ≤ T →
        (∀ j < n, ∀ idx < nf * dims.prod, leftOver solve m ((ieStep solve m)^[j] (s, st)) idx = 0) ∧
        (∀ j ≤ n, ∀ i x, ‖((ieStep solve m)^[j] (s, st)).2.fields i x‖ ≤ R) ∧
        ∀ i x, ‖((ieStep solve m)^[n] (s, st)).2.fields i x - u (n * s.dt) i x‖ ≤ C * s.dt ^ 2 := by
  obtain ⟨C, d, hC, hd, hconv⟩ := ie_converges_found h hl hreal hA hT.le (slope_diagonal hm) (lipBounded_slope hm) hu
    (by norm_num) le_rfl (solved_interpolated h m A u hT hm hu) hMR hM hM0
  refine ⟨C, d, hC, hd, ?_⟩
  intro s h1 h2 h3 h4 solve h5 st h6 h7 n h8
  obtain ⟨⟨a, b⟩, c⟩ := hconv s h1 h2 h3 h4 solve h5 st h6 h7 n h8
  exact ⟨a, b, field_error (pos_of_goodDims h) _ _ c⟩

/-- C133: the same with first order for equations that are Lipschitz on bounded sets. -/
theorem c133_found_first_order {T : ℝ} (hT : 0 ≤ T) (hm : LocallyLipschitz T (freqOf dims) m)
    (hu : SolvesModel T (freqOf dims) m A u) {M R : ℝ} (hM0 : 0 ≤ M) (hM : ∀ t ∈ Icc 0 T, ∀ i x, ‖u t i x‖ ≤ M)
    (hMR : M < R) :
    ∃ C dt0 : ℝ, 0 ≤ C ∧ 0 < dt0 ∧
      ∀ s : Stepper dims.prod, 0 < s.dt → s.dt ≤ dt0 → s.freq = freqOf dims → s.currentStep = 0 →
      ∀ solve, FindsZeros (nf * dims.prod) R solve →
      ∀ st : Store nf nd dims.prod, st.fields = u 0 → (∀ i, IsReal (u 0 i)) → ∀ n : ℕ, (n : ℝ) * s.dt ≤ T →
        (∀ j < n, ∀ idx < nf * dims.prod, leftOver solve m ((ieStep solve m)^[j] (s, st)) idx = 0) ∧
        (∀ j ≤ n, ∀ i x, ‖((ieStep solve m)^[j] (s, st)).2.fields i x‖ ≤ R) ∧
        ∀ i x, ‖((ieStep solve m)^[n] (s, st)).2.fields i x - u (n * s.dt) i x‖ ≤ C * s.dt := by
  have hpos := pos_of_goodDims h
  obtain ⟨C, d, hC, hd, hconv⟩ := ie_converges_found h hl hreal hA hT (fun _ _ _ => rfl) (lipBounded_rhs hm) hu
    le_rfl (by norm_num : 1 ≤ 2) (interpolated_one hT (lipBounded_rhs hm) (solves_spectral hpos hu)) hMR hM hM0
  refine ⟨C, d, hC, hd, ?_⟩
  intro s h1 h2 h3 h4 solve h5 st h6 h7 n h8
  obtain ⟨⟨a, b⟩, c⟩ := hconv s h1 h2 h3 h4 solve h5 st h6 h7 n h8
  rw [pow_one] at c
  exact ⟨a, b, field_error hpos _ _ c⟩

end

/-- There are solvers of this kind. -/
theorem findsZeros_exists (len : ℕ) (R : ℝ) : ∃ solve, FindsZeros len R solve := by
  classical
  refine ⟨fun F x0 => if hx : ∃ x, (∀ idx < len, F x idx = 0) ∧ ∀ idx < len, |x idx| ≤ R then hx.choose else x0, ?_⟩
  intro F x0 hx
  dsimp only
  rw [dif_pos hx]
  exact hx.choose_spec

/-! ### Equations given as text -/

/-- C133: for equations given as text. They are parsed, and the implicit stepper tends to their solution with second
order if the registered functions are smooth. -/
theorem c133_text (h : GoodDims (intDims dims)) (hl : LayoutOk dims) {T : ℝ} (hT : 0 < T) (N : Names)
    (hN : N.WellNamed) (m0 : EqModel dims.prod) (h0 : StartsAs N m0) (heq : m0.equations = [])
    (hfun : ∀ p ∈ m0.derived, LipschitzFunction N p.2 ∧ SmoothFunction N p.2 ∧ RealFunction p.2)
    (eqs : List Equation) (hq : ∀ eq ∈ eqs, eq.Polynomial N ∧ Unregistered m0 eq)
    (hnat : ∀ eq ∈ eqs, NaturalPowers N eq) (hord : eqs.map Equation.field = N.fields)
    (ss : List Str) (hs : ss.map (fun s => s.filter fun c => c ≠ ' ') = eqs.map Equation.text) (c : Str → ℂ)
    (hc : ∀ x ∈ N.scalars, (c x).im = 0) (hpow : ∀ eq ∈ eqs, Equation.RealPowers N c eq)
    (u : ℝ → Str → Data dims.prod) (hu : SolvesEquations T (freqOf dims) N c m0.derived eqs u) {M R : ℝ} (hM0 : 0 ≤ M)
    (hM : ∀ t ∈ Icc 0 T, ∀ x ∈ N.fields, ∀ y, ‖u t x y‖ ≤ M) (hMR : M < R) :
    ∃ m P, ss.foldlM EqModel.addEquation m0 = some m ∧ m.fields = N.fields ∧ m.assemble c = some P ∧
      ∃ C dt0 : ℝ, 0 ≤ C ∧ 0 < dt0 ∧
        ∀ s : Stepper dims.prod, 0 < s.dt → s.dt ≤ dt0 → s.freq = freqOf dims → s.currentStep = 0 →
        ∀ solve, FindsZeros (m.fields.length * dims.prod) R solve →
        ∀ st : Store m.fields.length m.derived.length dims.prod, (∀ j, st.fields j = u 0 m.fields[j]) →
        (∀ j, IsReal (st.fields j)) → ∀ n : ℕ, (n : ℝ) * s.dt ≤ T → ∀ j, ∀ x : Fin dims.prod,
          ‖((ieStep solve P)^[n] (s, st)).2.fields j x - u (n * s.dt) m.fields[j] x‖ ≤ C * s.dt ^ 2 := by
  obtain ⟨m, P, hadd, hf, has, hLip, ⟨A, hA, hsol, -⟩, hsm⟩ :=
    text_model (pos_of_goodDims h) (freqOf dims) N hN m0 h0 heq (fun p hp => (hfun p hp).1) eqs hq hnat hord ss hs c
  obtain ⟨m', P', hadd', -, has', hrr, -⟩ := text_realRates h N hN m0 h0 heq
    (fun p hp => ⟨readsFields_of_lipschitz (hfun p hp).1, (hfun p hp).2.2⟩) eqs hq
    (by rw [← hord, List.length_map]) ss hs c hc hpow
  rw [hadd] at hadd'
  obtain rfl := Option.some.inj hadd'
  rw [has] at has'
  obtain rfl := Option.some.inj has'
  refine ⟨m, P, hadd, hf, has, ?_⟩
  obtain ⟨C, dt0, hC, hdt0, hconv⟩ := c133_found h hl P hrr A hA _ hT (hsm fun p hp => (hfun p hp).2.1) (hsol T u hu)
    (M := M) (R := R) hM0 (fun t ht i x => hM t ht _ (by rw [← hf]; exact List.getElem_mem _) x) hMR
  refine ⟨C, dt0, hC, hdt0, ?_⟩
  intro s h1 h2 h3 h4 solve h5 st h6 h7 n h8 j x
  have e : st.fields = fun j => u 0 m.fields[j] := funext h6
  exact (hconv s h1 h2 h3 h4 solve h5 st e (fun i => by have := h7 i; rwa [e] at this) n h8).2.2 j x

/-! ### Time dependent equations -/

theorem ramp_bins (freq : Frequency dims.prod) (i : Fin 1) (st : Store 1 0 dims.prod) (t : ℝ) (k : Fin dims.prod) :
    (rampModel dims.prod).getRHS i st freq t k = t := by
  rw [c21_rhs]
  have e : dotR (freq k) [0, 0] = 0 := by
    rcases freq k with _ | ⟨a, _ | ⟨b, l⟩⟩ <;> simp [dotR]
  simp [rampModel, Source.eval, e]

theorem ramp_part (freq : Frequency dims.prod) (i : Fin 1) (st : Store 1 0 dims.prod) (t : ℝ) :
    (rampModel dims.prod).getDenum i st freq t = fun _ => 0 := by
  funext k
  rw [c21_denum]
  simp [rampModel]

theorem ramp_real : RealRates (rampModel dims.prod) where
  fieldsOnly := fun d => d.elim0
  calcs := fun d => d.elim0
  rhs := by
    intro i st t _ b c hc
    rw [ramp_bins, ramp_bins, Complex.conj_ofReal]
  denum := by
    intro i st t b c hc
    rw [ramp_part, map_zero]
  const := fun i st st' t => by rw [ramp_part, ramp_part]

/-- C133: for right-hand sides that depend on time the implicit stepper is not better than first order, because the
time at which the right-hand side is evaluated is the one before the step, also for the values after the step. With a
source of strength `t` at one node of any grid and no other term, the bins of the solution are `t ^ 2 / 2`. Whenever the
solver finds zeros, the bins computed after `n` steps are smaller by exactly `t dt / 2`. -/
theorem c133_time_dependent (h : GoodDims (intDims dims)) (hl : LayoutOk dims) (T : ℝ) :
    SolvesModel T (freqOf dims) (rampModel dims.prod) (fun _ _ => 0)
      (fun t _ => realSpace fun _ => ((t ^ 2 / 2 : ℝ) : ℂ)) ∧
    ∀ (dt : ℝ) solve (n : ℕ),
      let start : Stepper dims.prod × Store 1 0 dims.prod := (⟨dt, freqOf dims, none, 0⟩, ⟨fun _ _ => 0, fun d => d.elim0⟩)
      (∀ j < n, ∀ idx < 1 * dims.prod,
        leftOver solve (rampModel dims.prod) ((ieStep solve (rampModel dims.prod))^[j] start) idx = 0) →
      ∀ k, fft dims (((ieStep solve (rampModel dims.prod))^[n] start).2.fields 0) k =
        (((n * dt) ^ 2 / 2 : ℝ) : ℂ) - (((n * dt) * dt / 2 : ℝ) : ℂ) := by
  have hpos := pos_of_goodDims h
  refine ⟨?_, ?_⟩
  · intro t _ i k
    simp only [fft_realSpace hpos, ramp_bins, zero_mul, add_zero]
    have h1 : HasDerivAt (fun s : ℝ => s ^ 2 / 2) t t := by
      have := (hasDerivAt_pow 2 t).div_const 2
      refine this.congr_deriv ?_
      simp
    exact h1.ofReal_comp.hasDerivWithinAt
  · intro dt solve n start hleft
    induction n with
    | zero =>
      intro k
      rw [Function.iterate_zero, id_eq]
      simp [start, fft]
    | succ n ih =>
      intro k
      have ih := ih (fun j hj => hleft j (by omega)) k
      have hst : ∀ i, IsReal (start.2.fields i) := by intro i j; simp [start]
      have e := run_step h hl ramp_real (A := fun _ _ => 0) (fun i st t => ramp_part _ i st t)
        solve start.1 rfl rfl start.2 hst n le_rfl (fun idx hidx => by rw [hleft n (by omega) idx hidx, abs_zero]) 0 k
      rw [mul_zero, norm_le_zero_iff, sub_eq_zero] at e
      simp only [spectralRHS, ramp_bins, nonlinearIntegral, zero_mul, Complex.exp_zero, norm_zero] at e
      rw [if_pos (by norm_num)] at e
      refine e.trans ?_
      rw [show (start.1, start.2) = start from rfl, ih]
      have hd : start.1.dt = dt := rfl
      rw [hd]
      push_cast
      ring

/-! ### A case -/

theorem pair_powers : ∀ eq ∈ [squareEquation, followEquation], Equation.RealPowers pairNames (fun _ => 0) eq := by
  intro eq heq p hp
  have hsc : ∀ l, factorsIn pairNames.scalars l = [] := by intro l; simp [factorsIn, pairNames]
  simp only [List.mem_cons, List.not_mem_nil, or_false] at heq
  refine ⟨fun f hf => ?_, fun f hf => by simp [hsc] at hf⟩
  rcases heq with rfl | rfl
  · simp only [squareEquation, Equation.terms, List.map_cons, List.map_nil, List.mem_cons, List.not_mem_nil,
      or_false] at hp
    rcases hp with rfl | rfl
    · have : f = ⟨"conc".toList, some ⟨['2'], none⟩⟩ := by simpa using (List.mem_filter.mp hf).1
      subst this
      decide +kernel
    · have : f = ⟨"conc".toList, none⟩ := by simpa using (List.mem_filter.mp hf).1
      subst this
      decide +kernel
  · simp only [followEquation, Equation.terms, List.map_nil, List.mem_singleton] at hp
    subst hp
    have : f = ⟨"conc".toList, none⟩ := by simpa using (List.mem_filter.mp hf).1
    subst this
    decide +kernel

theorem pair_bounded (t : ℝ) (ht : 0 ≤ t) (x : Str) (y : Fin dims.prod) : ‖pairSolution (dims := dims) t x y‖ ≤ 1 := by
  have hE := Real.exp_pos t
  unfold pairSolution
  split_ifs
  · rw [Complex.norm_real, Real.norm_of_nonneg (by positivity), div_le_one (by positivity)]
    linarith
  · rw [Complex.norm_real, Real.norm_eq_abs, abs_le]
    have h1 : Real.log (Real.exp t) ≤ Real.log (1 + Real.exp t) := Real.log_le_log hE (by linarith)
    rw [Real.log_exp] at h1
    have h2 : Real.log (1 + Real.exp t) ≤ t + 1 := by
      rw [Real.log_le_iff_le_exp (by positivity), Real.exp_add]
      have h3 : 1 ≤ Real.exp t := Real.one_le_exp ht
      have h4 := Real.add_one_le_exp (1 : ℝ)
      nlinarith
    constructor <;> linarith

/-- All conditions of `c133_text` are met by `dconc/dt = conc^2 - conc`, `deta/dt = conc` on any grid: started from the
fields of a solution that is known, the fields tend to it with second order, for any solver that finds zeros with entries
of at most two. -/
theorem c133_pair (h : GoodDims (intDims dims)) (hl : LayoutOk dims) {T : ℝ} (hT : 0 < T) :
    ∃ m P, ["dconc/dt = conc^2 - conc".toList, "deta/dt = conc".toList].foldlM EqModel.addEquation
        (((EqModel.empty (n := dims.prod)).addField "conc".toList).addField "eta".toList) = some m ∧
      m.assemble (fun _ => 0) = some P ∧
      ∃ C dt0 : ℝ, 0 ≤ C ∧ 0 < dt0 ∧
        ∀ s : Stepper dims.prod, 0 < s.dt → s.dt ≤ dt0 → s.freq = freqOf dims → s.currentStep = 0 →
        ∀ solve, FindsZeros (m.fields.length * dims.prod) 2 solve →
        ∀ st : Store m.fields.length m.derived.length dims.prod, (∀ j, st.fields j = pairSolution 0 m.fields[j]) →
        ∀ n : ℕ, (n : ℝ) * s.dt ≤ T → ∀ j, ∀ x : Fin dims.prod,
          ‖((ieStep solve P)^[n] (s, st)).2.fields j x - pairSolution (n * s.dt) m.fields[j] x‖ ≤ C * s.dt ^ 2 := by
  obtain ⟨h1, h2, h3, h4, h5, h6⟩ := pair_conditions (dims := dims) T (freqOf dims)
  obtain ⟨m, P, hadd, -, has, C, d, hC, hd, hconv⟩ := c133_text h hl hT pairNames h1 _ h2 rfl
    (by intro p hp; simp [EqModel.empty, EqModel.addField] at hp) [squareEquation, followEquation]
    (fun eq heq => ⟨(h3 eq heq).1, (h3 eq heq).2.2⟩) (fun eq heq => (h3 eq heq).2.1) h4 _ h5 (fun _ => 0)
    (fun _ _ => rfl) pair_powers pairSolution h6 (M := 1) (R := 2) zero_le_one
    (fun t ht x _ y => pair_bounded t ht.1 x y) (by norm_num)
  refine ⟨m, P, hadd, has, C, d, hC, hd, ?_⟩
  intro s a1 a2 a3 a4 solve a5 st a6 n hn j x
  refine hconv s a1 a2 a3 a4 solve a5 st a6 (fun j => ?_) n hn j x
  rw [a6]
  intro y
  unfold pairSolution
  split_ifs <;> exact Complex.ofReal_im _

example (len : ℕ) : ∃ solve, FindsZeros len 2 solve := findsZeros_exists len 2

end Gopf.Props
