import Verif.Proofs.Converge
import Verif.Proofs.Parseval
import Verif.Props.Euler
import Mathlib.Analysis.Calculus.Deriv.Prod
import Mathlib.Analysis.Calculus.Deriv.Inv
import Mathlib.Analysis.Complex.RealDeriv
import Mathlib.Analysis.SpecialFunctions.ExpDeriv

/-!
# C107: the default time stepper converges with first order
-/

namespace Gopf.Props
open Pf Pfutil Converge Set

variable {nf nd : ℕ} {dims : List ℕ}

/-! ## Specification -/

/-- The equations are Lipschitz on bounded sets: the explicit right-hand sides in time, fields and derived
fields, and the derived fields in the fields. -/
structure LocallyLipschitz (T : ℝ) (freq : Frequency dims.prod) (m : Model nf nd dims.prod) : Prop where
  rhs : ∀ R : ℝ, ∃ L : ℝ, 0 ≤ L ∧ ∀ i, ∀ s ∈ Icc 0 T, ∀ t ∈ Icc 0 T, ∀ st st' : Store nf nd dims.prod,
    ‖st.fields‖ ≤ R → ‖st'.fields‖ ≤ R → ‖st.derived‖ ≤ R → ‖st'.derived‖ ≤ R →
      ‖m.getRHS i st freq s - m.getRHS i st' freq t‖ ≤
        L * (|s - t| + ‖st.fields - st'.fields‖ + ‖st.derived - st'.derived‖)
  calcs : ∀ R : ℝ, ∃ L : ℝ, 0 ≤ L ∧ ∀ d, ∀ st st' : Store nf nd dims.prod, ‖st.fields‖ ≤ R → ‖st'.fields‖ ≤ R →
    ‖m.calcs d st - m.calcs d st'‖ ≤ L * ‖st.fields - st'.fields‖

/-- `u` solves the equations of the model on `[0, T]`: the spectrum of every field changes at the rate given by
the explicit part, evaluated at the transformed fields and derived fields, plus the implicit part `A` times the
spectrum. -/
def SolvesModel (T : ℝ) (freq : Frequency dims.prod) (m : Model nf nd dims.prod) (A : Fin nf → Data dims.prod)
    (u : ℝ → Fin nf → Data dims.prod) : Prop :=
  ∀ t ∈ Icc 0 T, ∀ i, ∀ k : Fin dims.prod,
    HasDerivWithinAt (fun s => fft dims (u s i) k)
      (m.getRHS i ⟨fun j => fft dims (u t j), fun d => fft dims (m.calcs d ⟨u t, fun _ _ => 0⟩)⟩ freq t k +
        A i k * fft dims (u t i) k) (Icc 0 T) t

/-! ## Proof -/

theorem cis_norm (x : ℚ) : ‖cis x‖ = 1 := by
  have h : cis x = Complex.exp (((2 * Real.pi * (x : ℝ) : ℝ) : ℂ) * Complex.I) := by
    unfold cis; congr 1; push_cast; ring
  rw [h, Complex.norm_exp_ofReal_mul_I]

theorem fft_norm (x : Data dims.prod) : ‖fft dims x‖ ≤ dims.prod * ‖x‖ := by
  rw [pi_norm_le_iff_of_nonneg (by positivity)]
  intro k
  unfold fft
  refine (norm_sum_le _ _).trans ?_
  calc _ ≤ ∑ _y : Fin dims.prod, ‖x‖ := Finset.sum_le_sum fun y _ => by
        rw [norm_mul, cis_norm, mul_one]; exact norm_le_pi_norm x y
    _ = dims.prod * ‖x‖ := by simp

theorem ifft_norm (x : Data dims.prod) : ‖ifft dims x‖ ≤ dims.prod * ‖x‖ := by
  rw [pi_norm_le_iff_of_nonneg (by positivity)]
  intro k
  unfold ifft
  refine (norm_sum_le _ _).trans ?_
  calc _ ≤ ∑ _y : Fin dims.prod, ‖x‖ := Finset.sum_le_sum fun y _ => by
        rw [norm_mul, cis_norm, mul_one]; exact norm_le_pi_norm x y
    _ = dims.prod * ‖x‖ := by simp

theorem fft_sub' (a b : Data dims.prod) : fft dims a - fft dims b = fft dims (a - b) := by
  funext k
  exact (fft_sub a b k).symm

theorem ifft_sub' (a b : Data dims.prod) : ifft dims a - ifft dims b = ifft dims (a - b) := by
  funext k
  simp only [ifft, Pi.sub_apply]
  rw [← Finset.sum_sub_distrib]
  exact Finset.sum_congr rfl fun x _ => by ring

theorem fft_dist (a b : Data dims.prod) : ‖fft dims a - fft dims b‖ ≤ dims.prod * ‖a - b‖ := by
  rw [fft_sub']; exact fft_norm _

/-- Back to real space. -/
noncomputable def realSpace (x : Data dims.prod) : Data dims.prod := fun j => ifft dims x j / (dims.prod : ℂ)

theorem realSpace_fft (h : ∀ d ∈ dims, 0 < d) (x : Data dims.prod) : realSpace (fft dims x) = x := by
  funext j
  unfold realSpace
  rw [ifft_fft h, mul_div_cancel_left₀ _ (prod_ne_zero' h)]

theorem realSpace_sub (a b : Data dims.prod) : realSpace a - realSpace b = realSpace (a - b) := by
  funext k
  simp only [realSpace, Pi.sub_apply, ← ifft_sub', sub_div]

theorem realSpace_norm (x : Data dims.prod) : ‖realSpace x‖ ≤ ‖x‖ := by
  rw [pi_norm_le_iff_of_nonneg (norm_nonneg _)]
  intro k
  have hpos : 0 < dims.prod := k.pos
  have hN : (0 : ℝ) < (dims.prod : ℝ) := by exact_mod_cast hpos
  unfold realSpace
  rw [norm_div, Complex.norm_natCast, div_le_iff₀ hN, mul_comm]
  exact (norm_le_pi_norm (ifft dims x) k).trans (ifft_norm x)

theorem realSpace_dist (a b : Data dims.prod) : ‖realSpace a - realSpace b‖ ≤ ‖a - b‖ := by
  rw [realSpace_sub]; exact realSpace_norm _

/-- The explicit right-hand side as a function of the spectra seen by the equation and of the spectra before
the step. -/
noncomputable def spectralRHS (freq : Frequency dims.prod) (m : Model nf nd dims.prod) (i : Fin nf) (t : ℝ)
    (X Y : State nf dims.prod) : Fin dims.prod → ℂ :=
  m.getRHS i ⟨X, fun d => fft dims (m.calcs d ⟨fun j => realSpace (Y j), fun _ _ => 0⟩)⟩ freq t

theorem lipBounded_rhs {T : ℝ} {freq : Frequency dims.prod} {m : Model nf nd dims.prod}
    (hm : LocallyLipschitz T freq m) : LipBounded T (spectralRHS freq m) := by
  intro R
  set N : ℝ := (dims.prod : ℝ) with hN
  have hN0 : 0 ≤ N := Nat.cast_nonneg _
  obtain ⟨Lc, hLc, hc⟩ := hm.calcs (max R 0)
  set D0 : ℝ := ∑ d, ‖m.calcs d ⟨fun _ _ => 0, fun _ _ => 0⟩‖ with hD0
  have hD0n : 0 ≤ D0 := Finset.sum_nonneg fun _ _ => norm_nonneg _
  have hR0 : 0 ≤ max R 0 := le_max_right _ _
  set R' : ℝ := max R 0 + N * (D0 + Lc * max R 0) with hR'
  obtain ⟨Lr, hLr, hr⟩ := hm.rhs R'
  have hreal : ∀ Y Y' : State nf dims.prod,
      ‖(fun j => realSpace (Y j)) - (fun j => realSpace (Y' j))‖ ≤ ‖Y - Y'‖ := by
    intro Y Y'
    rw [pi_norm_le_iff_of_nonneg (norm_nonneg _)]
    intro j
    exact (realSpace_dist _ _).trans (norm_le_pi_norm (Y - Y') j)
  have hrealn : ∀ Y : State nf dims.prod, ‖fun j => realSpace (Y j)‖ ≤ ‖Y‖ := by
    intro Y
    rw [pi_norm_le_iff_of_nonneg (norm_nonneg _)]
    intro j
    exact (realSpace_norm _).trans (norm_le_pi_norm Y j)
  refine ⟨Lr * (1 + N * Lc), by positivity, ?_⟩
  intro i s hs t ht X X' Y Y' hX hX' hY hY'
  have hder : ∀ Y : State nf dims.prod, ‖Y‖ ≤ R →
      ‖fun d => fft dims (m.calcs d ⟨fun j => realSpace (Y j), fun _ _ => 0⟩)‖ ≤ R' := by
    intro Y hY
    rw [pi_norm_le_iff_of_nonneg (by positivity)]
    intro d
    refine (fft_norm _).trans ?_
    have h1 := hc d ⟨fun j => realSpace (Y j), fun _ _ => 0⟩ ⟨fun _ _ => 0, fun _ _ => 0⟩
      ((hrealn Y).trans (hY.trans (le_max_left _ _))) (by
        have : (fun (_ : Fin nf) (_ : Fin dims.prod) => (0 : ℂ)) = 0 := rfl
        rw [this, norm_zero]; exact hR0)
    have h2 : ‖(fun j => realSpace (Y j)) - (fun (_ : Fin nf) (_ : Fin dims.prod) => (0 : ℂ))‖ ≤ max R 0 := by
      have : (fun (_ : Fin nf) (_ : Fin dims.prod) => (0 : ℂ)) = 0 := rfl
      rw [this, sub_zero]
      exact (hrealn Y).trans (hY.trans (le_max_left _ _))
    have h3 : ‖m.calcs d ⟨fun _ _ => 0, fun _ _ => 0⟩‖ ≤ D0 :=
      Finset.single_le_sum (f := fun d => ‖m.calcs d ⟨fun _ _ => 0, fun _ _ => 0⟩‖) (fun j _ => norm_nonneg _)
        (Finset.mem_univ d)
    have h4 : ‖m.calcs d ⟨fun j => realSpace (Y j), fun _ _ => 0⟩‖ ≤ D0 + Lc * max R 0 := by
      have h5 := norm_le_norm_add_norm_sub' (m.calcs d ⟨fun j => realSpace (Y j), fun _ _ => 0⟩)
        (m.calcs d ⟨fun _ _ => 0, fun _ _ => 0⟩)
      have h6 := mul_le_mul_of_nonneg_left h2 hLc
      linarith
    have := mul_le_mul_of_nonneg_left h4 hN0
    rw [hR']
    linarith
  have hdist : ‖(fun d => fft dims (m.calcs d ⟨fun j => realSpace (Y j), fun _ _ => 0⟩)) -
      (fun d => fft dims (m.calcs d ⟨fun j => realSpace (Y' j), fun _ _ => 0⟩))‖ ≤ N * Lc * ‖Y - Y'‖ := by
    rw [pi_norm_le_iff_of_nonneg (by positivity)]
    intro d
    refine (fft_dist _ _).trans ?_
    have h1 := hc d ⟨fun j => realSpace (Y j), fun _ _ => 0⟩ ⟨fun j => realSpace (Y' j), fun _ _ => 0⟩
      ((hrealn Y).trans (hY.trans (le_max_left _ _))) ((hrealn Y').trans (hY'.trans (le_max_left _ _)))
    have h2 := h1.trans (mul_le_mul_of_nonneg_left (hreal Y Y') hLc)
    rw [mul_assoc]
    exact mul_le_mul_of_nonneg_left h2 hN0
  have hRR : R ≤ R' := (le_max_left R 0).trans (by rw [hR']; have : 0 ≤ N * (D0 + Lc * max R 0) := by positivity
                                                   linarith)
  have key := hr i s hs t ht ⟨X, fun d => fft dims (m.calcs d ⟨fun j => realSpace (Y j), fun _ _ => 0⟩)⟩
    ⟨X', fun d => fft dims (m.calcs d ⟨fun j => realSpace (Y' j), fun _ _ => 0⟩)⟩ (hX.trans hRR) (hX'.trans hRR)
    (hder Y hY) (hder Y' hY')
  refine key.trans ?_
  rw [mul_assoc]
  refine mul_le_mul_of_nonneg_left ?_ hLr
  have p1 : 0 ≤ N * Lc * |s - t| := by positivity
  have p2 : 0 ≤ N * Lc * ‖X - X'‖ := by positivity
  have p3 : 0 ≤ ‖Y - Y'‖ := norm_nonneg _
  dsimp only
  nlinarith

theorem fieldsOnly_of_lipschitz {T : ℝ} {freq : Frequency dims.prod} {m : Model nf nd dims.prod}
    (hm : LocallyLipschitz T freq m) : FieldsOnly m := by
  intro d st st' hst
  obtain ⟨L, -, hL⟩ := hm.calcs ‖st.fields‖
  have := hL d st st' le_rfl (by rw [hst])
  rw [hst, sub_self, norm_zero, mul_zero] at this
  exact sub_eq_zero.mp (norm_le_zero_iff.mp this)

/-- One step of the code is one step of the abstract method. -/
theorem eulerStep_isStep (h : ∀ d ∈ dims, 0 < d) {m : Model nf nd dims.prod} (hd : FieldsOnly m)
    {A : Fin nf → Data dims.prod} {s : Stepper dims.prod} (hs : s.filter = none)
    (hA : ∀ i st t, m.getDenum i st s.freq t = A i) (hdt : ∀ i k, 1 - (s.dt : ℂ) * A i k ≠ 0) (t : ℝ)
    (st : Store nf nd dims.prod) :
    IsStep A (spectralRHS s.freq m) s.dt t (fun j => fft dims (st.fields j))
      (fun j => fft dims ((eulerStepAt m s t st).fields j)) := by
  intro i k
  obtain ⟨st', h1, h2, h3⟩ := eulerStep_store h m s t st i
  have e : st' = ⟨mix i (fun j => fft dims ((eulerStepAt m s t st).fields j)) (fun j => fft dims (st.fields j)),
      fun d => fft dims (m.calcs d ⟨fun j => realSpace (fft dims (st.fields j)), fun _ _ => 0⟩)⟩ := by
    cases st' with
    | mk f d =>
      dsimp only at h1 h2
      have hf : f = mix i (fun j => fft dims ((eulerStepAt m s t st).fields j)) (fun j => fft dims (st.fields j)) := by
        funext j; exact h2 j
      have hdd : d = fun d => fft dims (m.calcs d ⟨fun j => realSpace (fft dims (st.fields j)), fun _ _ => 0⟩) := by
        rw [h1]
        unfold spectral
        rw [sync_eq hd]
        funext d
        simp only [fftDerived, fftFields]
        congr 1
        exact hd d _ _ (funext fun j => (realSpace_fft h _).symm)
      rw [hf, hdd]
  have h4 := congrFun h3 k
  rw [hs, hA] at h4
  simp only [optFilter] at h4
  dsimp only
  rw [h4, mul_div_cancel₀ _ (hdt i k), e]
  rfl

theorem propagate_succ (m : Model nf nd dims.prod) (n : ℕ) (p : Stepper dims.prod × Store nf nd dims.prod) :
    eulerPropagate m (n + 1) p = eulerStep m (eulerPropagate m n p) := by
  simp only [eulerPropagate, List.range_succ, List.foldl_append, List.foldl_cons, List.foldl_nil]

theorem propagate_stepper (m : Model nf nd dims.prod) (n : ℕ) (s : Stepper dims.prod) (st : Store nf nd dims.prod) :
    (eulerPropagate m n (s, st)).1 = { s with currentStep := s.currentStep + n } := by
  induction n with
  | zero => rfl
  | succ n ih =>
    rw [propagate_succ, eulerStep, ih]
    rfl

/-! ## C107 -/

/-- C107: the Euler stepper without filter converges with first order. If the equations are Lipschitz on
bounded sets and have a constant implicit part, and `u` solves them on `[0, T]`, there are a constant `C` and
a largest time step such that the fields after `n` steps of any smaller time step `dt`, started from `u 0`,
differ from `u (n dt)` by at most `C dt`, at every node and as long as `n dt ≤ T`. This holds although later
equations of a step use the new values of earlier fields. -/
theorem c107_euler_converges (h : ∀ d ∈ dims, 0 < d) {T : ℝ} (hT : 0 ≤ T) (freq : Frequency dims.prod)
    (m : Model nf nd dims.prod) (hm : LocallyLipschitz T freq m) (A : Fin nf → Data dims.prod)
    (hA : ∀ i st t, m.getDenum i st freq t = A i) (u : ℝ → Fin nf → Data dims.prod)
    (hu : SolvesModel T freq m A u) :
    ∃ C dt0 : ℝ, 0 ≤ C ∧ 0 < dt0 ∧ ∀ dt : ℝ, 0 < dt → dt ≤ dt0 →
      ∀ st : Store nf nd dims.prod, st.fields = u 0 → ∀ n : ℕ, (n : ℝ) * dt ≤ T → ∀ i, ∀ x : Fin dims.prod,
        ‖(eulerPropagate m n (⟨dt, freq, none, 0⟩, st)).2.fields i x - u (n * dt) i x‖ ≤ C * dt := by
  have hG := lipBounded_rhs hm
  have hFO := fieldsOnly_of_lipschitz hm
  have hsolve : Solves T A (spectralRHS freq m) (fun t j => fft dims (u t j)) := by
    intro t ht i
    rw [hasDerivWithinAt_pi]
    intro k
    have := hu t ht i k
    have e : (fun j => realSpace (fft dims (u t j))) = u t := funext fun j => realSpace_fft h _
    simp only [spectralRHS, Pi.add_apply, Pi.mul_apply, e]
    exact this
  obtain ⟨C, dt0, hC, hdt0, hconv⟩ := converges hT hG hsolve
  refine ⟨C, min dt0 (1 / (2 * (‖A‖ + 1))), hC, by positivity, ?_⟩
  intro dt hdt hle st hst n hn i x
  have hne : ∀ i k, 1 - (dt : ℂ) * A i k ≠ 0 := by
    intro i k he
    have h1 : dt ≤ 1 / (2 * (‖A‖ + 1)) := hle.trans (min_le_right _ _)
    rw [le_div_iff₀ (by positivity)] at h1
    have h2 : ‖A i k‖ ≤ ‖A‖ := (norm_le_pi_norm (A i) k).trans (norm_le_pi_norm A i)
    have h3 : ‖(dt : ℂ) * A i k‖ = 1 := by rw [← sub_eq_zero.mp he, norm_one]
    rw [norm_mul, Complex.norm_real, Real.norm_eq_abs, abs_of_pos hdt] at h3
    have := mul_le_mul_of_nonneg_left h2 hdt.le
    nlinarith
  have key := hconv dt hdt (hle.trans (min_le_left _ _))
    (fun n j => fft dims ((eulerPropagate m n (⟨dt, freq, none, 0⟩, st)).2.fields j)) (by
      funext j
      simp only [eulerPropagate, List.range_zero, List.foldl_nil, hst]) (by
      intro n
      have hs1 := propagate_stepper m n ⟨dt, freq, none, 0⟩ st
      have hs : eulerStep m (eulerPropagate m n (⟨dt, freq, none, 0⟩, st)) =
          (_, eulerStepAt m (eulerPropagate m n (⟨dt, freq, none, 0⟩, st)).1
            (eulerPropagate m n (⟨dt, freq, none, 0⟩, st)).1.getTime
            (eulerPropagate m n (⟨dt, freq, none, 0⟩, st)).2) := rfl
      simp only [propagate_succ, hs]
      rw [hs1]
      have ht : Stepper.getTime (⟨dt, freq, none, 0 + n⟩ : Stepper dims.prod) = n * dt := by
        simp only [Stepper.getTime, zero_add]
      rw [ht]
      exact eulerStep_isStep h hFO (s := ⟨dt, freq, none, 0 + n⟩) rfl hA hne (n * dt)
        (eulerPropagate m n (⟨dt, freq, none, 0⟩, st)).2) n hn
  have e1 : ((eulerPropagate m n (⟨dt, freq, none, 0⟩, st)).2.fields i - u (n * dt) i) =
      realSpace (fft dims ((eulerPropagate m n (⟨dt, freq, none, 0⟩, st)).2.fields i) - fft dims (u (n * dt) i)) := by
    rw [← realSpace_sub, realSpace_fft h, realSpace_fft h]
  calc _ ≤ ‖(eulerPropagate m n (⟨dt, freq, none, 0⟩, st)).2.fields i - u (n * dt) i‖ :=
        norm_le_pi_norm ((eulerPropagate m n (⟨dt, freq, none, 0⟩, st)).2.fields i - u (n * dt) i) x
    _ ≤ ‖fft dims ((eulerPropagate m n (⟨dt, freq, none, 0⟩, st)).2.fields i) - fft dims (u (n * dt) i)‖ := by
        rw [e1]; exact realSpace_norm _
    _ ≤ _ := (norm_le_pi_norm ((fun j => fft dims ((eulerPropagate m n (⟨dt, freq, none, 0⟩, st)).2.fields j)) -
        (fun j => fft dims (u (n * dt) j))) i).trans key

/-- One node, `dc/dt = c^2 - c`: the square is a derived field, the linear term is implicit. -/
def logisticModel : Model 1 1 [1].prod :=
  { calcs := fun _ st x => st.fields 0 x ^ 2
    terms := fun _ => [fun st _ _ => st.derived 0]
    denum := fun _ => [fun _ _ _ _ => -1]
    sources := fun _ => []
    modifiers := [] }

theorem fft_one (x : Data [1].prod) : fft [1] x = x := by
  have hs : ∀ y : Fin [1].prod, y = ⟨0, by decide⟩ := fun y => by
    have := y.2
    simp at this
    exact Fin.ext this
  funext k
  unfold fft
  rw [hs k, Finset.sum_eq_single (⟨0, by decide⟩ : Fin [1].prod) (fun b _ hb => absurd (hs b) hb)
    (fun hb => absurd (Finset.mem_univ _) hb)]
  have : phase [1] 0 0 = 0 := by simp [phase, rowMajor, phaseSum]
  rw [this, neg_zero, cis_zero, mul_one]

/-- The hypotheses of `c107_euler_converges` are met by the logistic equation and its solution
`1 / (1 + exp t)`. -/
example (T : ℝ) : LocallyLipschitz T (fun _ => [0]) logisticModel ∧
    (∀ i st t, logisticModel.getDenum i st (fun _ => [0]) t = fun _ => -1) ∧
    SolvesModel T (fun _ => [0]) logisticModel (fun _ _ => -1) (fun t _ _ => ((1 / (1 + Real.exp t) : ℝ) : ℂ)) := by
  refine ⟨⟨?_, ?_⟩, ?_, ?_⟩
  · intro R
    refine ⟨1, zero_le_one, fun i s _ t _ st st' _ _ _ _ => ?_⟩
    have e : ∀ st t, logisticModel.getRHS i st (fun _ => [0]) t = st.derived 0 := by
      intro st t
      rw [c21_rhs]
      simp [logisticModel]
    rw [e, e, one_mul]
    have := norm_le_pi_norm (st.derived - st'.derived) 0
    have := norm_nonneg (st.fields - st'.fields)
    have := abs_nonneg (s - t)
    simp only [Pi.sub_apply] at *
    linarith
  · intro R
    refine ⟨2 * max R 0, by positivity, fun d st st' h1 h2 => ?_⟩
    rw [pi_norm_le_iff_of_nonneg (by positivity)]
    intro x
    have e : (logisticModel.calcs d st - logisticModel.calcs d st') x =
        (st.fields 0 x + st'.fields 0 x) * (st.fields 0 x - st'.fields 0 x) := by
      simp only [logisticModel, Pi.sub_apply]; ring
    rw [e, norm_mul]
    have b1 : ‖st.fields 0 x‖ ≤ R := ((norm_le_pi_norm (st.fields 0) x).trans (norm_le_pi_norm st.fields 0)).trans h1
    have b2 : ‖st'.fields 0 x‖ ≤ R := ((norm_le_pi_norm (st'.fields 0) x).trans (norm_le_pi_norm st'.fields 0)).trans h2
    have b3 : ‖st.fields 0 x - st'.fields 0 x‖ ≤ ‖st.fields - st'.fields‖ :=
      (norm_le_pi_norm ((st.fields - st'.fields) 0) x).trans (norm_le_pi_norm (st.fields - st'.fields) 0)
    refine mul_le_mul ((norm_add_le _ _).trans ?_) b3 (norm_nonneg _) (by positivity)
    have := le_max_left R 0
    linarith
  · intro i st t
    funext k
    rw [c21_denum]
    simp [logisticModel]
  · intro t _ i k
    have e : ∀ st t, logisticModel.getRHS i st (fun _ => [0]) t = st.derived 0 := by
      intro st t
      rw [c21_rhs]
      simp [logisticModel]
    simp only [fft_one, e]
    have hne : (1 + Real.exp t) ≠ 0 := by positivity
    have h1 : HasDerivAt (fun s => 1 / (1 + Real.exp s)) (-(Real.exp t) / (1 + Real.exp t) ^ 2) t := by
      have := ((Real.hasDerivAt_exp t).const_add 1).inv hne
      simp only [one_div]
      exact this
    have h2 := h1.ofReal_comp.hasDerivWithinAt (s := Icc 0 T)
    refine h2.congr_deriv ?_
    simp only [logisticModel]
    rw [← Complex.ofReal_pow]
    have : (-1 : ℂ) = ((-1 : ℝ) : ℂ) := by simp
    rw [this, ← Complex.ofReal_mul, ← Complex.ofReal_add]
    congr 1
    field_simp
    ring

end Gopf.Props
