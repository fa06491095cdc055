import Verif.Proofs.ImplicitEuler
import Verif.Spec.Duhamel
import Verif.Proofs.Parseval
import Mathlib.Analysis.SpecialFunctions.ExpDeriv
import Mathlib.Analysis.Calculus.MeanValue
import Mathlib.Tactic.FieldSimp
import Mathlib.Tactic.LinearCombination
import Mathlib.Tactic.NormNum

/-!
# C76: the implicit stepper
-/

namespace Gopf.Props
open Pf Pfutil Spec

/-! ## One bin -/

private theorem hasDerivAt_cexp (A : ℂ) (τ : ℝ) :
    HasDerivAt (fun τ : ℝ => Complex.exp (A * (τ : ℂ))) (A * Complex.exp (A * (τ : ℂ))) τ := by
  have h1 : HasDerivAt (fun τ : ℝ => A * (τ : ℂ)) A τ := by
    simpa using (Complex.ofRealCLM.hasDerivAt (x := τ)).const_mul A
  exact h1.cexp.congr_deriv (by ring)

/-- The exact step is unique. -/
theorem isExactStep_unique {dt : ℝ} {A N0 N1 y0 y1 z1 : ℂ} (hy : IsExactStep dt A N0 N1 y0 y1)
    (hz : IsExactStep dt A N0 N1 y0 z1) : y1 = z1 := by
  obtain ⟨y, hy0, hy1, hyd⟩ := hy
  obtain ⟨z, hz0, hz1, hzd⟩ := hz
  let w : ℝ → ℂ := fun τ => Complex.exp (-A * (τ : ℂ)) * (y τ - z τ)
  have hw : ∀ τ, HasDerivAt w 0 τ := by
    intro τ
    refine ((hasDerivAt_cexp (-A) τ).mul ((hyd τ).sub (hzd τ))).congr_deriv ?_
    rw [Pi.sub_apply]
    ring
  have hc := is_const_of_deriv_eq_zero (f := w) (fun τ => (hw τ).differentiableAt)
    (fun τ => (hw τ).deriv) dt 0
  simp only [w, hy0, hz0, sub_self, mul_zero, mul_eq_zero, Complex.exp_ne_zero, false_or] at hc
  rw [← hy1, ← hz1]
  exact sub_eq_zero.mp hc

/-- The formula for the exact step away from `A = 0`. -/
theorem exactStep_formula {dt : ℝ} (hdt : dt ≠ 0) {A : ℂ} (hA : A ≠ 0) (N0 N1 y0 : ℂ) :
    IsExactStep dt A N0 N1 y0 (y0 * Complex.exp (A * dt) + (N0 * (Complex.exp (A * dt) - 1) / A +
      (N1 - N0) / dt * (Complex.exp (A * dt) - A * dt - 1) / (A * A))) := by
  have hdt' : (dt : ℂ) ≠ 0 := by exact_mod_cast hdt
  refine ⟨fun τ => y0 * Complex.exp (A * (τ : ℂ)) + (N0 * (Complex.exp (A * (τ : ℂ)) - 1) / A +
    (N1 - N0) / dt * (Complex.exp (A * (τ : ℂ)) - A * (τ : ℂ) - 1) / (A * A)), by simp, rfl, fun τ => ?_⟩
  have h1 := hasDerivAt_cexp A τ
  have h2 : HasDerivAt (fun τ : ℝ => A * (τ : ℂ)) A τ := by
    simpa using (Complex.ofRealCLM.hasDerivAt (x := τ)).const_mul A
  have h3 := (h1.const_mul y0).add ((((h1.sub_const 1).const_mul N0).div_const A).add
    ((((h1.sub h2).sub_const 1).const_mul ((N1 - N0) / dt)).div_const (A * A)))
  refine h3.congr_deriv ?_
  push_cast
  field_simp
  ring

/-- The formula for the exact step at `A = 0`. -/
theorem exactStep_zero {dt : ℝ} (hdt : dt ≠ 0) (N0 N1 y0 : ℂ) :
    IsExactStep dt 0 N0 N1 y0 (y0 + dt / 2 * (N1 + N0)) := by
  have hdt' : (dt : ℂ) ≠ 0 := by exact_mod_cast hdt
  refine ⟨fun τ => y0 + (N0 * (τ : ℂ) + (N1 - N0) / dt * ((τ : ℂ) ^ 2 / 2)), by simp, ?_, fun τ => ?_⟩
  · field_simp; ring
  have h2 : HasDerivAt (fun τ : ℝ => (τ : ℂ)) 1 τ := by
    simpa using HasDerivAt.ofReal_comp (hasDerivAt_id τ)
  have h3 := ((h2.const_mul N0).add (((h2.pow 2).div_const 2).const_mul ((N1 - N0) / dt))).const_add y0
  refine h3.congr_deriv ?_
  push_cast
  field_simp
  ring

/-- How far the update of a bin may be from the exact step: not at all, except for the bins with a very
small but nonzero linear coefficient. -/
noncomputable def stepDefect (dt : ℝ) (A N0 N1 : ℂ) : ℝ :=
  if A = 0 ∨ 1 / 10 ^ 5 ≤ ‖A‖ then 0 else ‖A‖ * dt ^ 2 * (‖N0‖ + ‖N1‖)

/-- C76: the update of one bin: the sum of the amplified old value and the integral is the exact step.
For `0 < |A| < 1e-5` it is so up to a small defect. -/
theorem c76_bin {dt : ℝ} (hdt : 0 < dt) (hdt' : dt ≤ 10 ^ 5) (A N0 N1 y0 : ℂ) :
    ∃ y1, IsExactStep dt A N0 N1 y0 y1 ∧
      ‖y0 * Complex.exp (A * dt) + nonlinearIntegral dt A N1 N0 - y1‖ ≤ stepDefect dt A N0 N1 := by
  by_cases hA : A = 0
  · subst hA
    refine ⟨_, exactStep_zero hdt.ne' N0 N1 y0, ?_⟩
    rw [stepDefect, if_pos (Or.inl rfl)]
    apply le_of_eq
    rw [norm_eq_zero]
    simp only [nonlinearIntegral, norm_zero, zero_mul, Complex.exp_zero]
    rw [if_pos (by norm_num)]
    ring
  · refine ⟨_, exactStep_formula hdt.ne' hA N0 N1 y0, ?_⟩
    by_cases hs : ‖A‖ < 1 / 10 ^ 5
    · rw [stepDefect, if_neg (by push Not; exact ⟨hA, hs⟩)]
      simp only [nonlinearIntegral]
      rw [if_pos hs]
      have hdtc : (dt : ℂ) ≠ 0 := by exact_mod_cast hdt.ne'
      set z : ℂ := A * dt with hz
      have hz0 : z ≠ 0 := mul_ne_zero hA hdtc
      have hzn : ‖z‖ = ‖A‖ * dt := by rw [hz, norm_mul, Complex.norm_real, Real.norm_of_nonneg hdt.le]
      have hz1 : ‖z‖ ≤ 1 := by
        rw [hzn]
        calc ‖A‖ * dt ≤ 1 / 10 ^ 5 * 10 ^ 5 := mul_le_mul hs.le hdt' hdt.le (by norm_num)
          _ = 1 := by norm_num
      -- remainder of the exponential series
      obtain ⟨e, he⟩ : ∃ e : ℂ, Complex.exp z = 1 + z + z ^ 2 * (1 / 2 + e) :=
        ⟨(Complex.exp z - 1 - z) / z ^ 2 - 1 / 2, by field_simp; ring⟩
      have hebound : ‖e‖ ≤ 2 / 9 * ‖z‖ := by
        have hb := Complex.exp_bound hz1 (n := 3) (by norm_num)
        have h1 : Complex.exp z - ∑ m ∈ Finset.range 3, z ^ m / (m.factorial : ℂ) = z ^ 2 * e := by
          rw [he]
          simp [Finset.sum_range_succ, Nat.factorial]
          ring
        rw [h1, norm_mul, norm_pow] at hb
        have h2 : (Nat.succ 3 : ℝ) * ((Nat.factorial 3 : ℝ) * (3 : ℕ))⁻¹ = 2 / 9 := by
          norm_num [Nat.factorial]
        have hp : 0 < ‖z‖ ^ 2 := by positivity
        have h3 : ‖z‖ ^ 2 * ‖e‖ ≤ ‖z‖ ^ 2 * (2 / 9 * ‖z‖) := by
          refine hb.trans (le_of_eq ?_)
          push_cast at h2 ⊢
          rw [h2]; ring
        exact le_of_mul_le_mul_left h3 hp
      have hdiff : y0 * Complex.exp z + 1 / 2 * (dt : ℂ) * (N1 + N0 * Complex.exp z) -
          (y0 * Complex.exp z + (N0 * (Complex.exp z - 1) / A +
            (N1 - N0) / dt * (Complex.exp z - z - 1) / (A * A))) =
          dt * (-(N0 * (z * e - e - z ^ 2 / 4 - z ^ 2 * e / 2)) - N1 * e) := by
        have e1 : (Complex.exp z - 1) / A = dt * (1 + z * (1 / 2 + e)) := by
          rw [he, hz]; field_simp; ring
        have e2 : (Complex.exp z - z - 1) / (A * A) = dt * dt * (1 / 2 + e) := by
          rw [he, hz]; field_simp; ring
        rw [mul_div_assoc, mul_div_assoc, e1, e2, he]
        field_simp
        ring
      rw [hdiff, norm_mul, Complex.norm_real, Real.norm_of_nonneg hdt.le]
      have hn := norm_nonneg z
      have hq : ‖z * e - e - z ^ 2 / 4 - z ^ 2 * e / 2‖ ≤ ‖z‖ := by
        have a1 : ‖z * e - e - z ^ 2 / 4 - z ^ 2 * e / 2‖ ≤
            ‖z‖ * ‖e‖ + ‖e‖ + ‖z‖ ^ 2 / 4 + ‖z‖ ^ 2 * ‖e‖ / 2 := by
          refine (norm_sub_le _ _).trans (add_le_add ((norm_sub_le _ _).trans
            (add_le_add ((norm_sub_le _ _).trans (add_le_add ?_ le_rfl)) ?_)) ?_)
          · rw [norm_mul]
          · rw [norm_div, norm_pow]; norm_num
          · rw [norm_div, norm_mul, norm_pow]; norm_num
        nlinarith [norm_nonneg e, mul_nonneg hn (norm_nonneg e)]
      have hmain : ‖-(N0 * (z * e - e - z ^ 2 / 4 - z ^ 2 * e / 2)) - N1 * e‖ ≤
          ‖z‖ * (‖N0‖ + ‖N1‖) := by
        refine (norm_sub_le _ _).trans ?_
        rw [norm_neg, norm_mul, norm_mul]
        have b1 := mul_le_mul_of_nonneg_left hq (norm_nonneg N0)
        have b2 := mul_le_mul_of_nonneg_left (hebound.trans (by linarith : 2 / 9 * ‖z‖ ≤ ‖z‖))
          (norm_nonneg N1)
        linarith
      calc dt * ‖-(N0 * (z * e - e - z ^ 2 / 4 - z ^ 2 * e / 2)) - N1 * e‖
          ≤ dt * (‖z‖ * (‖N0‖ + ‖N1‖)) := mul_le_mul_of_nonneg_left hmain hdt.le
        _ = ‖A‖ * dt ^ 2 * (‖N0‖ + ‖N1‖) := by rw [hzn]; ring
    · rw [stepDefect, if_pos (Or.inr (not_lt.mp hs))]
      apply le_of_eq
      rw [norm_eq_zero]
      simp only [nonlinearIntegral]
      rw [if_neg hs]
      ring

/-! ## The whole step -/

variable {nf nd : ℕ} {dims : List ℕ}

theorem hermitian_denum {m : Model nf nd dims.prod} (hm : RealModel m) {st : Store nf nd dims.prod}
    (hst : HermitianStore st) (i : Fin nf) (t : ℝ) :
    Hermitian dims (m.getDenum i st (freqOf dims) t) := by
  have : m.getDenum i st (freqOf dims) t = fun k =>
      ((m.denum i).map fun f => f st (freqOf dims) t k).sum := funext fun k => c21_denum ..
  rw [this]
  exact Hermitian.sum _ _ fun f hf => hm.terms i f (by simp [hf]) st t hst

theorem hermitian_rhs {m : Model nf nd dims.prod} (hm : RealModel m) {st : Store nf nd dims.prod}
    (hst : HermitianStore st) (i : Fin nf) (t : ℝ) :
    Hermitian dims (m.getRHS i st (freqOf dims) t) := by
  rw [c21_rhs]
  have hfold : ∀ (l : List (Data dims.prod → Data dims.prod)) (d : Data dims.prod),
      (∀ f ∈ l, ∀ data, Hermitian dims data → Hermitian dims (f data)) → Hermitian dims d →
      Hermitian dims (l.foldl (fun data f => f data) d) := by
    intro l
    induction l with
    | nil => intro d _ hd; exact hd
    | cons f l ih =>
      intro d hl hd
      exact ih _ (fun g hg => hl g (by simp [hg])) (hl f (by simp) d hd)
  apply hfold
  · intro f hf
    obtain ⟨md, hmd, rfl⟩ := List.mem_map.mp hf
    exact hm.modifiers md (List.mem_filter.mp hmd).1
  · exact Hermitian.add
      (Hermitian.sum _ _ fun f hf => hm.terms i f (by simp [hf]) st t hst)
      (Hermitian.sum _ _ fun f hf => hm.sources i f hf t)

theorem conj_integral (dt : ℝ) (A N1 N0 : ℂ) :
    nonlinearIntegral dt ((starRingEnd ℂ) A) ((starRingEnd ℂ) N1) ((starRingEnd ℂ) N0) =
      (starRingEnd ℂ) (nonlinearIntegral dt A N1 N0) := by
  have he : Complex.exp ((starRingEnd ℂ) A * dt) = (starRingEnd ℂ) (Complex.exp (A * dt)) := by
    rw [← Complex.exp_conj, map_mul, Complex.conj_ofReal]
  simp only [nonlinearIntegral, RCLike.norm_conj, he]
  split_ifs <;>
    simp only [map_mul, map_add, map_sub, map_div₀, map_one, map_ofNat, Complex.conj_ofReal]

/-- The transformed store of a state with real fields `fields`, as seen by the terms. -/
noncomputable def seen (m : Model nf nd dims.prod) (st : Store nf nd dims.prod) :
    Store nf nd dims.prod := ⟨fun j => fft dims (st.fields j), fun d => fft dims (m.calcs d st)⟩

theorem ieFft_eq {m : Model nf nd dims.prod} (hm : FieldsOnly m) (st : Store nf nd dims.prod) :
    ieFft m st = seen m st := by
  unfold ieFft
  rw [sync_eq hm]
  rfl

private theorem seen_hermitian (h : GoodDims (intDims dims)) (hl : LayoutOk dims)
    {m : Model nf nd dims.prod} (hm : RealModel m) {st : Store nf nd dims.prod}
    (hst : ∀ i, IsReal (st.fields i)) : HermitianStore (seen m st) :=
  ⟨fun i => hermitian_fft h hl (hst i), fun d => hermitian_fft h hl (hm.calcs d st hst)⟩

private theorem residual_hermitian {m : Model nf nd dims.prod} (hm : RealModel m)
    {s : Stepper dims.prod} (hs : s.freq = freqOf dims) {st st1 : Store nf nd dims.prod}
    (hst : HermitianStore st) (hst1 : HermitianStore st1) (i : Fin nf) :
    Hermitian dims (residualSpectrum m s (collectRHS m s st) st.fields st1 i) := by
  have hD := hermitian_denum hm hst1 i (ieTime s)
  have hR := hermitian_rhs hm hst1 i (ieTime s)
  have hP := hermitian_rhs hm hst i (ieTime s)
  intro b c hc
  have e : ∀ k : Fin dims.prod, collectRHS m s st (i.val * dims.prod + k.val) =
      m.getRHS i st s.freq (ieTime s) k := fun k => collectRHS_apply m s st (i, k)
  simp only [residualSpectrum, e, hs]
  rw [hst1.1 i b c hc, hst.1 i b c hc, hD b c hc, hR b c hc, hP b c hc, conj_integral]
  simp only [map_sub, map_add, map_mul]
  rw [← Complex.exp_conj, map_mul, Complex.conj_ofReal]

/-- The residual vector of a real state vanishes exactly if its spectrum does. -/
private theorem residual_zero_iff (h : GoodDims (intDims dims)) (hl : LayoutOk dims)
    {F : Fin dims.prod → ℂ} (hF : Hermitian dims F) :
    (∀ x, (divRealScalar (ifft dims F) (dims.prod : ℕ) x).re = 0) ↔ ∀ k, F k = 0 := by
  have hpos := pos_of_goodDims h
  have hN := Pf.prod_ne_zero hpos
  have hfft : fft dims (divRealScalar (ifft dims F) (dims.prod : ℕ)) = F := by
    funext k
    have e : divRealScalar (ifft dims F) ((dims.prod : ℕ) : ℝ) =
        fun x => (dims.prod : ℂ)⁻¹ * ifft dims F x := by
      funext x
      simp only [divRealScalar, Complex.ofReal_natCast]
      rw [div_eq_inv_mul]
    rw [e, fft_smul, fft_ifft hpos]
    field_simp
  constructor
  · intro hz k
    have hr : IsReal (divRealScalar (ifft dims F) (dims.prod : ℕ)) :=
      real_of_hermitian h hl (by rw [hfft]; exact hF)
    have h0 : divRealScalar (ifft dims F) (dims.prod : ℕ) = fun _ => 0 := by
      funext x
      exact Complex.ext (hz x) (hr x)
    rw [← hfft, h0]
    simp [fft]
  · intro hz x
    have : F = fun _ => 0 := funext hz
    rw [this]
    simp [divRealScalar, ifft]

theorem problem_eq {m : Model nf nd dims.prod} (hm : FieldsOnly m)
    (s : Stepper dims.prod) (st : Store nf nd dims.prod) (x zeros : SolverVec ℝ)
    (p : Fin nf × Fin dims.prod) :
    (ieProblem m s st zeros).1 x (flatIdx p) =
      (divRealScalar (ifft dims (residualSpectrum m s (collectRHS m s (seen m st)) (seen m st).fields
        (seen m ⟨fun i j => ((x (flatIdx (i, j)) : ℝ) : ℂ), st.derived⟩) p.1)) (dims.prod : ℕ) p.2).re := by
  unfold ieProblem
  dsimp only
  rw [updateEquation_apply, ieFft_eq hm, ieFft_eq hm]
  have e : ∀ (st3 : Store nf nd dims.prod),
      seen m { st3 with fields := vec2fields x st3.fields } =
        seen m ⟨fun i j => ((x (flatIdx (i, j)) : ℝ) : ℂ), st.derived⟩ := by
    intro st3
    have hf : vec2fields x st3.fields = fun i j => ((x (flatIdx (i, j)) : ℝ) : ℂ) := by
      funext i j; exact vec2fields_apply x st3.fields (i, j)
    unfold seen
    dsimp only
    rw [hf]
    congr 1
    funext d
    congr 1
    exact hm d _ _ rfl
  rw [e]

/-- A vector whose entries are zero as far as the non-linear solver is concerned. -/
def Vanishes (nf n : ℕ) (v : ℕ → ℝ) : Prop := ∀ idx < nf * n, v idx = 0

/-- What a zero of the function given to the solver means for a bin. -/
private theorem step_value (h : GoodDims (intDims dims)) (hl : LayoutOk dims) {m : Model nf nd dims.prod}
    (hm : RealModel m) (s : Stepper dims.prod) (hs : s.freq = freqOf dims)
    (st : Store nf nd dims.prod) (hst : ∀ i, IsReal (st.fields i))
    (solve : (SolverVec ℝ → SolverVec ℝ) → SolverVec ℝ → SolverVec ℝ)
    (hsolve : let pr := ieProblem m s st (fun _ => 0)
      Vanishes nf dims.prod (pr.1 (solve pr.1 (fields2vec pr.2.fields (fun _ => 0))))) :
    let t := s.dt * s.currentStep
    let after := (ieStep solve m (s, st)).2
    (∀ i, IsReal (after.fields i)) ∧
    ∀ (i : Fin nf) (k : Fin dims.prod),
      let A := m.getDenum i (seen m after) (freqOf dims) t k
      let N0 := m.getRHS i (seen m st) (freqOf dims) t k
      let N1 := m.getRHS i (seen m after) (freqOf dims) t k
      fft dims (after.fields i) k =
        fft dims (st.fields i) k * Complex.exp (A * s.dt) + nonlinearIntegral s.dt A N1 N0 := by
  intro t after
  set pr := ieProblem m s st (fun _ => 0) with hpr
  set x := solve pr.1 (fields2vec pr.2.fields (fun _ => 0)) with hx
  have hafter : after.fields = fun i j => ((x (flatIdx (i, j)) : ℝ) : ℂ) := by
    funext i j
    exact vec2fields_apply x pr.2.fields (i, j)
  have hreal : ∀ i, IsReal (after.fields i) := by
    intro i j; rw [hafter]; simp
  have hseen : seen m after = seen m ⟨fun i j => ((x (flatIdx (i, j)) : ℝ) : ℂ), st.derived⟩ := by
    unfold seen
    rw [hafter]
    congr 1
    funext d
    congr 1
    exact hm.fieldsOnly d _ _ hafter
  refine ⟨hreal, ?_⟩
  intro i k A N0 N1
  have hz := (residual_zero_iff h hl (residual_hermitian hm hs (seen_hermitian h hl hm hst)
    (seen_hermitian h hl hm hreal) i)).mp (fun j => by
      have := hsolve (flatIdx (i, j)) (flatIdx_lt _)
      rw [hpr, problem_eq hm.fieldsOnly, ← hseen] at this
      exact this) k
  have e : collectRHS m s (seen m st) (i.val * dims.prod + k.val) =
      m.getRHS i (seen m st) s.freq (ieTime s) k := collectRHS_apply m s (seen m st) (i, k)
  simp only [residualSpectrum, e, hs] at hz
  exact sub_eq_zero.mp hz

/-- C76: if the non-linear solver returns a zero of the function it is given, then after the step every
bin of every field has the value of the exact solution of `y' = A y + N(τ)` over the time step, where `A`
is the linear coefficient after the step and `N(τ)` goes linearly from the explicit right-hand side before
to the one after the step. The fields are real. -/
theorem c76_step (h : GoodDims (intDims dims)) (hl : LayoutOk dims) {m : Model nf nd dims.prod}
    (hm : RealModel m) (s : Stepper dims.prod) (hs : s.freq = freqOf dims) (hdt : 0 < s.dt)
    (hdt' : s.dt ≤ 10 ^ 5) (st : Store nf nd dims.prod) (hst : ∀ i, IsReal (st.fields i))
    (solve : (SolverVec ℝ → SolverVec ℝ) → SolverVec ℝ → SolverVec ℝ)
    (hsolve : let pr := ieProblem m s st (fun _ => 0)
      Vanishes nf dims.prod (pr.1 (solve pr.1 (fields2vec pr.2.fields (fun _ => 0))))) :
    let t := s.dt * s.currentStep
    let after := (ieStep solve m (s, st)).2
    (∀ i, IsReal (after.fields i)) ∧
    ∀ (i : Fin nf) (k : Fin dims.prod),
      let A := m.getDenum i (seen m after) (freqOf dims) t k
      let N0 := m.getRHS i (seen m st) (freqOf dims) t k
      let N1 := m.getRHS i (seen m after) (freqOf dims) t k
      ∃ y1, IsExactStep s.dt A N0 N1 (fft dims (st.fields i) k) y1 ∧
        ‖fft dims (after.fields i) k - y1‖ ≤ stepDefect s.dt A N0 N1 := by
  intro t after
  obtain ⟨hreal, hval⟩ := step_value h hl hm s hs st hst solve hsolve
  refine ⟨hreal, ?_⟩
  intro i k A N0 N1
  obtain ⟨y1, h1, h2⟩ := c76_bin hdt hdt' A N0 N1 (fft dims (st.fields i) k)
  refine ⟨y1, h1, ?_⟩
  rw [hval i k]
  exact h2

/-- C76: a linear model (implicit terms only) is solved exactly for every time step, however large. -/
theorem c76_linear (h : GoodDims (intDims dims)) (hl : LayoutOk dims) {m : Model nf nd dims.prod}
    (hm : RealModel m) (hlin : ∀ i, m.terms i = [] ∧ m.sources i = []) (hmod : m.modifiers = [])
    (s : Stepper dims.prod) (hs : s.freq = freqOf dims)
    (st : Store nf nd dims.prod) (hst : ∀ i, IsReal (st.fields i))
    (solve : (SolverVec ℝ → SolverVec ℝ) → SolverVec ℝ → SolverVec ℝ)
    (hsolve : let pr := ieProblem m s st (fun _ => 0)
      Vanishes nf dims.prod (pr.1 (solve pr.1 (fields2vec pr.2.fields (fun _ => 0)))))
    (i : Fin nf) (k : Fin dims.prod) :
    let after := (ieStep solve m (s, st)).2
    fft dims (after.fields i) k = Complex.exp
      (m.getDenum i (seen m after) (freqOf dims) (s.dt * s.currentStep) k * s.dt) *
        fft dims (st.fields i) k := by
  intro after
  obtain ⟨-, hval⟩ := step_value h hl hm s hs st hst solve hsolve
  have hr : ∀ st', m.getRHS i st' (freqOf dims) (s.dt * s.currentStep) k = 0 := by
    intro st'
    rw [c21_rhs, hmod, (hlin i).1, (hlin i).2]
    simp
  have := hval i k
  dsimp only at this
  rw [hr, hr] at this
  show fft dims ((ieStep solve m (s, st)).2.fields i) k = _
  rw [this, mul_comm]
  simp only [nonlinearIntegral]
  simp [after]

/-- C76: conversely, any real state that is the exact step in all bins is a zero of the function given to
the solver (when no linear coefficient lies strictly between `0` and `1e-5`). -/
theorem c76_converse (h : GoodDims (intDims dims)) {m : Model nf nd dims.prod}
    (hm : FieldsOnly m) (s : Stepper dims.prod) (hs : s.freq = freqOf dims) (hdt : 0 < s.dt)
    (hdt' : s.dt ≤ 10 ^ 5) (st new : Store nf nd dims.prod) (hnew : ∀ i, IsReal (new.fields i))
    (hexact : ∀ (i : Fin nf) (k : Fin dims.prod),
      let t := s.dt * s.currentStep
      let A := m.getDenum i (seen m new) (freqOf dims) t k
      (A = 0 ∨ 1 / 10 ^ 5 ≤ ‖A‖) ∧
      IsExactStep s.dt A (m.getRHS i (seen m st) (freqOf dims) t k)
        (m.getRHS i (seen m new) (freqOf dims) t k) (fft dims (st.fields i) k)
        (fft dims (new.fields i) k)) :
    Vanishes nf dims.prod
      ((ieProblem m s st (fun _ => 0)).1 (fields2vec new.fields (fun _ => 0))) := by
  intro idx hidx
  obtain ⟨p, rfl⟩ := flatIdx_surj hidx
  have hpos := pos_of_goodDims h
  have hf : (fun (i : Fin nf) (j : Fin dims.prod) =>
      ((fields2vec new.fields (fun _ => 0) (flatIdx (i, j)) : ℝ) : ℂ)) = new.fields := by
    funext i j
    rw [fields2vec_apply]
    exact Complex.ext rfl (by simpa using (hnew i j).symm)
  have hseen : seen m ⟨fun (i : Fin nf) (j : Fin dims.prod) =>
      ((fields2vec new.fields (fun _ => 0) (flatIdx (i, j)) : ℝ) : ℂ), st.derived⟩ = seen m new := by
    unfold seen
    rw [hf]
    congr 1
    funext d
    congr 1
    exact hm d _ _ rfl
  rw [problem_eq hm, hseen]
  have hz : residualSpectrum m s (collectRHS m s (seen m st)) (seen m st).fields (seen m new) p.1 = fun _ => 0 := by
    funext k
    have e : collectRHS m s (seen m st) (p.1.val * dims.prod + k.val) =
      m.getRHS p.1 (seen m st) s.freq (ieTime s) k := collectRHS_apply m s (seen m st) (p.1, k)
    obtain ⟨hA, hex⟩ := hexact p.1 k
    obtain ⟨y1, h1, h2⟩ := c76_bin hdt hdt' (m.getDenum p.1 (seen m new) (freqOf dims) (s.dt * s.currentStep) k)
      (m.getRHS p.1 (seen m st) (freqOf dims) (s.dt * s.currentStep) k)
      (m.getRHS p.1 (seen m new) (freqOf dims) (s.dt * s.currentStep) k) (fft dims (st.fields p.1) k)
    rw [stepDefect, if_pos hA] at h2
    have h3 := sub_eq_zero.mp (norm_le_zero_iff.mp h2)
    have h4 := isExactStep_unique hex h1
    simp only [residualSpectrum, e, hs]
    rw [sub_eq_zero]
    exact h4.trans h3.symm
  rw [hz]
  simp [divRealScalar, ifft]

/-- `dy/dt = -y` on a single node. -/
noncomputable def decayModel : Model 1 0 ([1, 1] : List ℕ).prod :=
  { calcs := fun d => d.elim0
    terms := fun _ => []
    denum := fun _ => [fun _ _ _ _ => -1]
    sources := fun _ => []
    modifiers := [] }

theorem decayModel_real : RealModel (dims := [1, 1]) decayModel where
  fieldsOnly := fun d => d.elim0
  calcs := fun d => d.elim0
  terms := fun i f hf st t _ => by
    simp only [decayModel, List.nil_append, List.mem_singleton] at hf
    subst hf
    simpa using Hermitian.const (dims := [1, 1]) (-1)
  sources := fun i s hs => by simp [decayModel] at hs
  modifiers := fun md hmd => absurd hmd List.not_mem_nil

private theorem decay_zero : Vanishes 1 ([1, 1] : List ℕ).prod
    ((ieProblem (dims := [1, 1]) decayModel ⟨1, freqOf [1, 1], none, 0⟩ ⟨fun _ _ => 1, fun d => d.elim0⟩
      (fun _ => 0)).1 (fields2vec (nf := 1) (n := ([1, 1] : List ℕ).prod)
        (fun _ _ => ((Real.exp (-1) : ℝ) : ℂ)) (fun _ => 0))) := by
  have hg : GoodDims (intDims [1, 1]) := ⟨Or.inl rfl, by decide⟩
  refine c76_converse (dims := [1, 1]) hg decayModel_real.fieldsOnly ⟨1, freqOf [1, 1], none, 0⟩ rfl
    one_pos (by norm_num) _ ⟨fun _ _ => ((Real.exp (-1) : ℝ) : ℂ), fun d => d.elim0⟩
    (fun i x => Complex.ofReal_im _) ?_
  intro i k t A
  have hA : A = -1 := by
    show decayModel.getDenum i _ _ _ k = -1
    rw [c21_denum]; simp [decayModel]
  have hr : ∀ st', decayModel.getRHS i st' (freqOf [1, 1]) t k = 0 := by
    intro st'; rw [c21_rhs]; simp [decayModel]
  have hf : ∀ c : ℂ, fft [1, 1] (fun _ => c) k = c := by
    intro c
    have hk : k.val = 0 := Nat.lt_one_iff.mp k.2
    show ∑ x : Fin 1, c * cis (-phase [1, 1] k x) = c
    simp [hk, phase, rowMajor, phaseSum, cis_zero]
  refine ⟨Or.inr (by rw [hA]; norm_num), ?_⟩
  rw [hr, hr, hA]
  show IsExactStep 1 (-1) 0 0 (fft [1, 1] (fun _ => 1) k) (fft [1, 1] (fun _ => _) k)
  rw [hf, hf]
  have := exactStep_formula (dt := 1) one_ne_zero (A := -1) (by norm_num) 0 0 1
  convert this using 1
  push_cast
  simp

/-- C76: the scheme is not the backward Euler scheme of the documentation
(`y' = y + dt (L y' + N(y'))`): it fails for `dy/dt = -y`, although the solver finds the zero. -/
theorem c76_not_backward_euler :
    let dims := [1, 1]
    let s : Stepper dims.prod := ⟨1, freqOf dims, none, 0⟩
    let st : Store 1 0 dims.prod := ⟨fun _ _ => 1, fun d => d.elim0⟩
    (∃ solve : (SolverVec ℝ → SolverVec ℝ) → SolverVec ℝ → SolverVec ℝ,
      let pr := ieProblem decayModel s st (fun _ => 0)
      Vanishes 1 dims.prod (pr.1 (solve pr.1 (fields2vec pr.2.fields (fun _ => 0))))) ∧
    ∀ solve : (SolverVec ℝ → SolverVec ℝ) → SolverVec ℝ → SolverVec ℝ,
      (let pr := ieProblem decayModel s st (fun _ => 0)
       Vanishes 1 dims.prod (pr.1 (solve pr.1 (fields2vec pr.2.fields (fun _ => 0))))) →
      let after := (ieStep solve decayModel (s, st)).2
      ∀ k, fft dims (after.fields 0) k ≠ fft dims (st.fields 0) k + s.dt *
        (decayModel.getDenum 0 (seen decayModel after) (freqOf dims) 0 k * fft dims (after.fields 0) k +
          decayModel.getRHS 0 (seen decayModel after) (freqOf dims) 0 k) := by
  intro dims s st
  refine ⟨⟨fun _ _ => _, decay_zero⟩, ?_⟩
  intro solve hsolve after k hbad
  have hg : GoodDims (intDims dims) := ⟨Or.inl rfl, by decide⟩
  have hv := c76_linear hg trivial decayModel_real (fun _ => ⟨rfl, rfl⟩) rfl s rfl st
    (fun i x => by simp [st]) solve hsolve 0 k
  have hA : ∀ t, decayModel.getDenum 0 (seen decayModel after) (freqOf dims) t k = -1 := by
    intro t; rw [c21_denum]; simp [decayModel]
  have hr : decayModel.getRHS 0 (seen decayModel after) (freqOf dims) 0 k = 0 := by
    rw [c21_rhs]; simp [decayModel]
  have hf : fft dims (st.fields 0) k = 1 := by
    have hk : k.val = 0 := Nat.lt_one_iff.mp k.2
    show ∑ x : Fin 1, 1 * cis (-phase [1, 1] k x) = 1
    simp [hk, phase, rowMajor, phaseSum, cis_zero]
  dsimp only at hv
  rw [hA, hf] at hv
  rw [hA, hr, hf, hv] at hbad
  have h1 : (Complex.exp (-1 * (1 : ℝ)) : ℂ) = ((Real.exp (-1) : ℝ) : ℂ) := by push_cast; simp
  simp only [s] at hbad
  rw [h1] at hbad
  have h2 : Real.exp (-1) = 1 - Real.exp (-1) := by
    have : ((Real.exp (-1) : ℝ) : ℂ) = ((1 - Real.exp (-1) : ℝ) : ℂ) := by
      push_cast at hbad ⊢
      linear_combination hbad
    exact_mod_cast this
  have h3 : Real.exp 1 = 2 := by
    have h4 : Real.exp (-1) = 1 / 2 := by linarith
    rw [Real.exp_neg] at h4
    have := Real.exp_pos 1
    field_simp at h4
    linarith
  have := Real.add_one_lt_exp (x := 1) one_ne_zero
  linarith

/-- C26: the implicit stepper advances its time by `dt` per step, whatever the solver returns. -/
theorem c26_implicit_euler (solve : (SolverVec ℝ → SolverVec ℝ) → SolverVec ℝ → SolverVec ℝ)
    (m : Model nf nd dims.prod) (s : Stepper dims.prod) (st : Store nf nd dims.prod) (n : ℕ) :
    ieTime ((ieStep solve m)^[n] (s, st)).1 = (s.currentStep + n) * s.dt := by
  have key : ((ieStep solve m)^[n] (s, st)).1 = { s with currentStep := s.currentStep + n } := by
    induction n with
    | zero => rfl
    | succ k ih =>
      rw [Function.iterate_succ_apply']
      generalize (ieStep solve m)^[k] (s, st) = p at ih ⊢
      show ({ p.1 with currentStep := p.1.currentStep + 1 } : Stepper dims.prod) = _
      rw [ih]
      rfl
  rw [key]
  simp only [ieTime]
  push_cast
  ring

end Gopf.Props
