import Verif.Props.ConvergeImplicit
import Verif.Props.Conserved

/-!
# C153: what the implicit stepper does to the sum of a field
-/

namespace Gopf.Props
open Pf Pfutil Spec

variable {nf nd : ℕ} {dims : List ℕ}

/-! ## Specification -/

/-- The sum over the nodes of the real part of field `i`. -/
noncomputable def realTotal (st : Store nf nd dims.prod) (i : Fin nf) : ℝ := ∑ x, (st.fields i x).re

/-- The sum over the nodes of what the solver left of equation `i` in a step. -/
noncomputable def leftTotal (solve : (SolverVec ℝ → SolverVec ℝ) → SolverVec ℝ → SolverVec ℝ)
    (m : Model nf nd dims.prod) (p : Stepper dims.prod × Store nf nd dims.prod) (i : Fin nf) : ℝ :=
  ∑ x : Fin dims.prod, leftOver solve m p (i.val * dims.prod + x.val)

/-! ## Proof -/

section
variable (solve : (SolverVec ℝ → SolverVec ℝ) → SolverVec ℝ → SolverVec ℝ) (m : Model nf nd dims.prod)

theorem ieStep_value (p : Stepper dims.prod × Store nf nd dims.prod) (i : Fin nf) (x : Fin dims.prod) :
    (ieStep solve m p).2.fields i x = (((solve (ieProblem m p.1 p.2 fun _ => 0).1
      (fields2vec (ieProblem m p.1 p.2 fun _ => 0).2.fields fun _ => 0)) (flatIdx (i, x)) : ℝ) : ℂ) :=
  vec2fields_apply _ _ (i, x)

/-- C153: whatever the solver returns, the fields are real after a step, even if they were not before. -/
theorem c153_real (p : Stepper dims.prod × Store nf nd dims.prod) (i : Fin nf) :
    IsReal ((ieStep solve m p).2.fields i) := by
  intro x
  rw [ieStep_value]
  simp

theorem ie_iterate (n : ℕ) (p : Stepper dims.prod × Store nf nd dims.prod) :
    ((ieStep solve m)^[n] p).1 = { p.1 with currentStep := p.1.currentStep + n } := by
  induction n with
  | zero => simp
  | succ n ih =>
    rw [Function.iterate_succ_apply']
    change ({ ((ieStep solve m)^[n] p).1 with currentStep := ((ieStep solve m)^[n] p).1.currentStep + 1 } :
      Stepper dims.prod) = _
    rw [ih]
    simp [add_assoc]

variable (h : GoodDims (intDims dims)) (i : Fin nf)
include h

/-- The sum of the left-over is the real part of the component of zero frequency of the residual. -/
theorem leftTotal_eq (p : Stepper dims.prod × Store nf nd dims.prod) (k : Fin dims.prod) (hk : k.val = 0) :
    let st1 := ieFft m { (ieProblem m p.1 p.2 fun _ => 0).2 with fields := (ieStep solve m p).2.fields }
    leftTotal solve m p i = (residualSpectrum m p.1 (collectRHS m p.1 (ieFft m p.2)) (ieFft m p.2).fields st1 i k).re := by
  intro st1
  have e : ∀ x : Fin dims.prod, leftOver solve m p (i.val * dims.prod + x.val) =
      (divRealScalar (ifft dims (residualSpectrum m p.1 (collectRHS m p.1 (ieFft m p.2)) (ieFft m p.2).fields st1 i))
        (dims.prod : ℕ) x).re :=
    fun x => updateEquation_apply m p.1 _ _ _ _ _ (i, x)
  unfold leftTotal
  simp only [e]
  rw [← Complex.re_sum, ← fft_zero_bin _ k hk, fft_divided (pos_of_goodDims h)]

omit h in
theorem ieFft_origin (st : Store nf nd dims.prod) (k : Fin dims.prod) (hk : k.val = 0) :
    ((ieFft m st).fields i k).re = realTotal st i := by
  have : (ieFft m st).fields i = fft dims (st.fields i) := by
    change fft dims ((m.sync st).fields i) = _
    rw [sync_fields]
  rw [this, fft_zero_bin _ k hk, Complex.re_sum]
  rfl

/-- C153: if equation `i` has no implicit part at frequency zero, a step adds to the sum of the field half the time
step times the sums of the explicit right-hand side before and after the step, and what the solver left. -/
theorem c153_source (hd : FieldsOnly m) (p : Stepper dims.prod × Store nf nd dims.prod) (hp : p.1.freq = freqOf dims)
    (hden : ∀ st t (k : Fin dims.prod), k.val = 0 → m.getDenum i st (freqOf dims) t k = 0)
    (k : Fin dims.prod) (hk : k.val = 0) :
    realTotal (ieStep solve m p).2 i = realTotal p.2 i + leftTotal solve m p i +
      p.1.dt / 2 * ((m.getRHS i (seen m p.2) (freqOf dims) (p.1.dt * p.1.currentStep) k).re +
        (m.getRHS i (seen m (ieStep solve m p).2) (freqOf dims) (p.1.dt * p.1.currentStep) k).re) := by
  rw [leftTotal_eq solve m h i p k hk]
  have hc : collectRHS m p.1 (ieFft m p.2) (i.val * dims.prod + k.val) =
      m.getRHS i (ieFft m p.2) p.1.freq (ieTime p.1) k := collectRHS_apply m p.1 _ (i, k)
  simp only [residualSpectrum, hc, hp, hden _ _ k hk]
  have e1 : ieFft m { (ieProblem m p.1 p.2 fun _ => 0).2 with fields := (ieStep solve m p).2.fields } =
      seen m (ieStep solve m p).2 := ieFft_eq hd _
  rw [← ieFft_origin m i p.2 k hk, ← ieFft_origin m i (ieStep solve m p).2 k hk, e1, ieFft_eq hd, ieFft_eq hd]
  simp only [nonlinearIntegral, norm_zero, zero_mul, Complex.exp_zero, mul_one]
  rw [if_pos (by norm_num)]
  have e2 : (1 / 2 * (p.1.dt : ℂ)) = ((p.1.dt / 2 : ℝ) : ℂ) := by push_cast; ring
  rw [e2]
  simp only [Complex.sub_re, Complex.add_re, Complex.re_ofReal_mul, ieTime]
  ring

variable (hm : NoUniformPart (freqOf dims) m i)
include hm

/-- C153: if equation `i` has no uniform part, a step adds to the sum of the field exactly what the solver left. -/
theorem c153_step (p : Stepper dims.prod × Store nf nd dims.prod) (hp : p.1.freq = freqOf dims) :
    realTotal (ieStep solve m p).2 i = realTotal p.2 i + leftTotal solve m p i := by
  rcases Nat.eq_zero_or_pos dims.prod with h0 | h0
  · exact absurd h0 (by exact_mod_cast prod_ne_zero (pos_of_goodDims h))
  rw [leftTotal_eq solve m h i p ⟨0, h0⟩ rfl]
  have hc : collectRHS m p.1 (ieFft m p.2) (i.val * dims.prod + (⟨0, h0⟩ : Fin dims.prod).val) =
      m.getRHS i (ieFft m p.2) p.1.freq (ieTime p.1) ⟨0, h0⟩ := collectRHS_apply m p.1 _ (i, ⟨0, h0⟩)
  simp only [residualSpectrum, hc, hp, (hm _ _ ⟨0, h0⟩ rfl).1, (hm _ _ ⟨0, h0⟩ rfl).2]
  rw [Complex.sub_re, ieFft_origin m i _ ⟨0, h0⟩ rfl]
  simp only [nonlinearIntegral, norm_zero, zero_mul, Complex.exp_zero, mul_one, add_zero, mul_zero, ite_self, zero_div,
    sub_self]
  rw [ieFft_origin m i _ ⟨0, h0⟩ rfl]
  have e : realTotal { (ieProblem m p.1 p.2 fun _ => 0).2 with fields := (ieStep solve m p).2.fields } i =
    realTotal (ieStep solve m p).2 i := rfl
  rw [e]
  ring

/-- C153: after `n` steps the sum of the field is off by the sum of what the solver left in these steps. -/
theorem c153_steps (p : Stepper dims.prod × Store nf nd dims.prod) (hp : p.1.freq = freqOf dims) (n : ℕ) :
    realTotal ((ieStep solve m)^[n] p).2 i =
      realTotal p.2 i + ∑ k ∈ Finset.range n, leftTotal solve m ((ieStep solve m)^[k] p) i := by
  induction n with
  | zero => simp
  | succ n ih =>
    rw [Function.iterate_succ_apply', c153_step solve m h i hm _ (by rw [ie_iterate]; exact hp), ih,
      Finset.sum_range_succ]
    ring

/-- C153: if the solver leaves at most `ε` at every node in every step, the average of the field drifts by at most `ε`
per step. -/
theorem c153_drift (p : Stepper dims.prod × Store nf nd dims.prod) (hp : p.1.freq = freqOf dims) (n : ℕ) {ε : ℝ}
    (hε : ∀ k < n, ∀ x : Fin dims.prod, |leftOver solve m ((ieStep solve m)^[k] p) (i.val * dims.prod + x.val)| ≤ ε) :
    |realTotal ((ieStep solve m)^[n] p).2 i / (dims.prod : ℕ) - realTotal p.2 i / (dims.prod : ℕ)| ≤ n * ε := by
  have hN : (0 : ℝ) < ((dims.prod : ℕ) : ℝ) := by
    have := prod_ne_zero (pos_of_goodDims h)
    exact Nat.cast_pos.mpr (Nat.pos_of_ne_zero (by exact_mod_cast this))
  rw [c153_steps solve m h i hm p hp n, ← sub_div, add_sub_cancel_left, abs_div, abs_of_pos hN, div_le_iff₀ hN]
  refine (Finset.abs_sum_le_sum_abs _ _).trans ?_
  have hk : ∀ k ∈ Finset.range n, |leftTotal solve m ((ieStep solve m)^[k] p) i| ≤ ((dims.prod : ℕ) : ℝ) * ε := by
    intro k hk
    refine (Finset.abs_sum_le_sum_abs _ _).trans ((Finset.sum_le_sum fun x _ => hε k (Finset.mem_range.mp hk) x).trans ?_)
    rw [Finset.sum_const, Finset.card_univ, Fintype.card_fin, nsmul_eq_mul]
  refine (Finset.sum_le_sum hk).trans ?_
  rw [Finset.sum_const, Finset.card_range, nsmul_eq_mul]
  exact le_of_eq (by ring)

/-- C153: with a solver that solves its equation in every step, the sum of the field never changes. -/
theorem c153_exact (p : Stepper dims.prod × Store nf nd dims.prod) (hp : p.1.freq = freqOf dims) (n : ℕ)
    (hs : ∀ k < n, Vanishes nf dims.prod (leftOver solve m ((ieStep solve m)^[k] p))) :
    realTotal ((ieStep solve m)^[n] p).2 i = realTotal p.2 i := by
  rw [c153_steps solve m h i hm p hp n, Finset.sum_eq_zero, add_zero]
  intro k hk
  exact Finset.sum_eq_zero fun x _ => hs k (Finset.mem_range.mp hk) _ (flatIdx_lt (i, x))

end

/-- C153: the modal filter does not enter the equation handed to the solver: it only changes the point the solver
starts from. -/
theorem c153_filter {m : Model nf nd dims.prod} (hd : FieldsOnly m) (s : Stepper dims.prod) (f g : Option (ℝ → ℝ))
    (st : Store nf nd dims.prod) (x zeros : SolverVec ℝ) (idx : ℕ) (hidx : idx < nf * dims.prod) :
    (ieProblem m { s with filter := f } st zeros).1 x idx = (ieProblem m { s with filter := g } st zeros).1 x idx := by
  obtain ⟨p, rfl⟩ := flatIdx_surj hidx
  rw [problem_eq hd, problem_eq hd]
  rfl

/-- C153: the documentation says that a filter has no effect in this stepper. The sum of the field the solver starts from
is multiplied by the filter at frequency zero. -/
theorem c153_start (m : Model nf nd dims.prod) (h : GoodDims (intDims dims)) (i : Fin nf)
    (hm : NoUniformPart (freqOf dims) m i) (s : Stepper dims.prod) (hs : s.freq = freqOf dims)
    (st : Store nf nd dims.prod) (zeros : SolverVec ℝ) :
    ∑ x, (ieProblem m s st zeros).2.fields i x = zeroGain s.filter * ∑ x, st.fields i x := by
  rcases Nat.eq_zero_or_pos dims.prod with h0 | h0
  · exact absurd h0 (by exact_mod_cast prod_ne_zero (pos_of_goodDims h))
  have e : (ieProblem m s st zeros).2 = (eulerStep m (s, ifftFields (ieFft m st))).2 := rfl
  rw [e, c116_euler m h i hm s hs]
  congr 1
  rw [← fft_zero_bin _ ⟨0, h0⟩ rfl, ← fft_zero_bin _ ⟨0, h0⟩ rfl, fft_ifftFields (pos_of_goodDims h)]
  change fft dims ((m.sync st).fields i) _ = _
  rw [sync_fields]

/-! ### Equations given as text -/

/-- What the text says about the component of zero frequency. -/
theorem text_noUniform (h : GoodDims (intDims dims)) (N : Names) (hN : N.WellNamed)
    (m0 : EqModel dims.prod) (h0 : StartsAs N m0) (heq : m0.equations = [])
    (eqs : List Equation) (hq : ∀ eq ∈ eqs, eq.Polynomial N ∧ Unregistered m0 eq)
    (hcount : N.fields.length ≤ eqs.length)
    (ss : List Str) (hs : ss.map (fun s => s.filter fun c => c ≠ ' ') = eqs.map Equation.text) (c : Str → ℂ) :
    ∃ m M, ss.foldlM EqModel.addEquation m0 = some m ∧ m.fields = N.fields ∧ m.assemble c = some M ∧
      ∀ (i : Fin m.fields.length) (eq : Equation), eqs[i.val]? = some eq → Equation.Divergence eq →
        NoUniformPart (freqOf dims) M i := by
  obtain ⟨m, M, h1, hg, h3, -, -, h6⟩ := text_shape N hN m0 h0 heq eqs hq hcount ss hs c
  refine ⟨m, M, h1, hg.fields, h3, ?_⟩
  intro i eq hi hdiv
  obtain ⟨eq', hi', ⟨ts, hmem, hR⟩, hD⟩ := h6 i
  rw [hi] at hi'
  obtain rfl := Option.some.inj hi'
  intro st t k hk
  rw [hR, hD]
  constructor
  · apply List.sum_eq_zero
    intro y hy
    obtain ⟨q, hq, rfl⟩ := List.mem_map.mp hy
    unfold explicitFactor
    rw [symbol_origin h k hk, zero_pow_prod, if_neg (hdiv _ (hmem q hq).1)]
    split_ifs <;> simp
  · apply List.sum_eq_zero
    intro y hy
    obtain ⟨q, hq, rfl⟩ := List.mem_map.mp hy
    unfold linearFactor
    rw [symbol_origin h k hk, zero_pow_prod, if_neg (hdiv _ hq)]
    split_ifs <;> simp

/-- C153, from the text of the equations: if every term of an equation has a Laplacian, then with the implicit stepper
the average of its field drifts by at most `ε` per step if the solver leaves at most `ε` at the nodes. -/
theorem c153_text (h : GoodDims (intDims dims)) (N : Names) (hN : N.WellNamed)
    (m0 : EqModel dims.prod) (h0 : StartsAs N m0) (heq : m0.equations = [])
    (eqs : List Equation) (hq : ∀ eq ∈ eqs, eq.Polynomial N ∧ Unregistered m0 eq)
    (hcount : N.fields.length ≤ eqs.length)
    (ss : List Str) (hs : ss.map (fun s => s.filter fun c => c ≠ ' ') = eqs.map Equation.text) (c : Str → ℂ) :
    ∃ m M, ss.foldlM EqModel.addEquation m0 = some m ∧ m.fields = N.fields ∧ m.assemble c = some M ∧
      ∀ (i : Fin m.fields.length) (eq : Equation), eqs[i.val]? = some eq → Equation.Divergence eq →
      ∀ solve (p : Stepper dims.prod × Store m.fields.length m.derived.length dims.prod), p.1.freq = freqOf dims →
      ∀ (n : ℕ) (ε : ℝ),
        (∀ k < n, ∀ idx < m.fields.length * dims.prod, |leftOver solve M ((ieStep solve M)^[k] p) idx| ≤ ε) →
        |realTotal ((ieStep solve M)^[n] p).2 i / (dims.prod : ℕ) - realTotal p.2 i / (dims.prod : ℕ)| ≤ n * ε := by
  obtain ⟨m, M, h1, h2, h3, h4⟩ := text_noUniform h N hN m0 h0 heq eqs hq hcount ss hs c
  refine ⟨m, M, h1, h2, h3, ?_⟩
  intro i eq hi hdiv solve p hp n ε hε
  exact c153_drift solve M h i (h4 i eq hi hdiv) p hp n fun k hk x => hε k hk _ (flatIdx_lt (i, x))

/-- The hypotheses are met by diffusion with an additional term `k² c`, one treated implicitly and one explicitly. -/
example : NoUniformPart (freqOf [4, 6]) (⟨fun d => d.elim0,
    fun _ => [fun st freq _ k => dotR (freq k) (freq k) * st.fields 0 k / 2], fun _ => [fun _ freq _ k => -dotR (freq k) (freq k)],
    fun _ => [], []⟩ : Model 1 0 [4, 6].prod) 0 := by
  intro st t k hk
  rw [c21_rhs, c21_denum]
  have := dotR_origin (dims := [4, 6]) (by unfold GoodDims; decide) k hk
  simp [this]

/-- `dconc/dt = LAPconc^2 - LAPconc` has only terms with a Laplacian. -/
example : Equation.Divergence spreadEquation := by
  unfold Equation.Divergence
  decide

end Gopf.Props
