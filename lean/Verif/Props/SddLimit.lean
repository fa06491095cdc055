import Verif.Props.SddLinear
import Verif.Props.Growth
import Mathlib.Analysis.SpecialFunctions.Exp
import Mathlib.Topology.Algebra.InfiniteSum.Basic
import Mathlib.Topology.Algebra.Order.Field

/-!
# C138: where runs of the shrinking dimer stepper end
-/

namespace Gopf.Props
open Spec Pf Pfutil
open scoped BigOperators Topology
open Filter

variable {nf nd : ℕ} {dims : List ℕ}

/-- The force is a function of the field alone: `G u` is the spectrum of the explicit part of the right-hand side for
the field `u`, at any time and whatever the derived fields were before. -/
def ForceOf (m : Model 1 nd dims.prod) (freq : Frequency dims.prod) (G : Data dims.prod → Data dims.prod) : Prop :=
  ∀ st t, m.getRHS 0 (sddFft m st) freq t = G (st.fields 0)

/-- The implicit part: a factor for every wave. -/
def FactorOf (m : Model 1 nd dims.prod) (freq : Frequency dims.prod) (A : Data dims.prod) : Prop :=
  ∀ st t, m.getDenum 0 st freq t = A

/-- The run: the state after `k` steps. -/
noncomputable def dimerRun (m : Model nf nd dims.prod) (s : SDD nf dims.prod) (st : Store nf nd dims.prod) (k : ℕ) :
    SDD nf dims.prod × Store nf nd dims.prod := (SDD.step m)^[k] (s, st)

/-- A step only changes the orientation and the step counter of the stepper. -/
theorem dimerRun_settings (m : Model nf nd dims.prod) (s : SDD nf dims.prod) (st : Store nf nd dims.prod) (k : ℕ) :
    (dimerRun m s st k).1 = { s with orientation := (dimerRun m s st k).1.orientation
                                     currentStep := s.currentStep + k } := by
  induction k with
  | zero => rfl
  | succ k ih =>
    have e : dimerRun m s st (k + 1) = SDD.step m (dimerRun m s st k) := by
      unfold dimerRun; rw [Function.iterate_succ_apply']
    rw [e]
    have e2 : (SDD.step m (dimerRun m s st k)).1 =
        { (dimerRun m s st k).1 with
          orientation := (SDD.step m (dimerRun m s st k)).1.orientation
          currentStep := (dimerRun m s st k).1.currentStep + 1 } := rfl
    rw [e2]
    generalize (SDD.step m (dimerRun m s st k)).1.orientation = o
    rw [ih]
    simp [Nat.add_assoc]

/-- The length of the dimer in step `k` of the run. -/
noncomputable def lengthAt (s : SDD nf dims.prod) (k : ℕ) : ℝ := s.dimerLength ((s.currentStep + k : ℕ) * s.dt)

/-- C138: the length of the dimer converges to the minimal length, for every initial length, if time goes on. -/
theorem c138_length (s : SDD nf dims.prod) (hτ : 0 < s.tauDimerLength) (hdt : 0 < s.dt) (hl : 0 ≤ s.minDimerLength) :
    Tendsto (lengthAt s) atTop (𝓝 s.minDimerLength) := by
  have h1 : Tendsto (fun k : ℕ => s.initDimerLength * Real.exp (-(((s.currentStep + k : ℕ) : ℝ) * s.dt) / s.tauDimerLength))
      atTop (𝓝 (s.initDimerLength * 0)) := by
    refine Tendsto.const_mul _ ?_
    refine Real.tendsto_exp_atBot.comp ?_
    have : (fun k : ℕ => -(((s.currentStep + k : ℕ) : ℝ) * s.dt) / s.tauDimerLength) =
        fun k : ℕ => -(s.dt / s.tauDimerLength * ((s.currentStep + k : ℕ) : ℝ)) := by
      funext k; ring
    rw [this]
    refine tendsto_neg_atTop_atBot.comp ?_
    refine Tendsto.const_mul_atTop (by positivity) ?_
    refine tendsto_natCast_atTop_atTop.comp ?_
    exact tendsto_atTop_mono (fun k => Nat.le_add_left k _) tendsto_id
  rw [mul_zero] at h1
  have e : lengthAt s = fun k : ℕ => max s.minDimerLength
      (s.initDimerLength * Real.exp (-(((s.currentStep + k : ℕ) : ℝ) * s.dt) / s.tauDimerLength)) := by
    funext k
    unfold lengthAt SDD.dimerLength
    dsimp only
    split_ifs with h
    · exact (max_eq_left h.le).symm
    · exact (max_eq_right (not_lt.mp h)).symm
  rw [e]
  have := (tendsto_const_nhds (x := s.minDimerLength)).max h1
  rwa [max_eq_left hl] at this

/-- A reflection keeps the sum of squares. -/
theorem reflect_norm {n : ℕ} (o : Fin n → ℝ) (ho : ∑ j, o j * o j = 1) (z : Fin n → ℂ) :
    ∑ j, ‖z j - 2 * o j * ∑ k, z k * o k‖ ^ 2 = ∑ j, ‖z j‖ ^ 2 := by
  set c : ℂ := ∑ k, z k * o k with hc
  have hc' : (starRingEnd ℂ) c = ∑ k, (starRingEnd ℂ) (z k) * o k := by
    rw [hc, map_sum]
    exact Finset.sum_congr rfl fun k _ => by rw [map_mul, Complex.conj_ofReal]
  have key : ∀ w : ℂ, ((‖w‖ ^ 2 : ℝ) : ℂ) = w * (starRingEnd ℂ) w := by
    intro w; rw [Complex.mul_conj, Complex.normSq_eq_norm_sq]
  have ho' : ∑ j, (o j : ℂ) * (o j : ℂ) = 1 := by
    have : ∑ j, (o j : ℂ) * (o j : ℂ) = ((∑ j, o j * o j : ℝ) : ℂ) := by push_cast; rfl
    rw [this, ho]; simp
  have : ((∑ j, ‖z j - 2 * o j * c‖ ^ 2 : ℝ) : ℂ) = ((∑ j, ‖z j‖ ^ 2 : ℝ) : ℂ) := by
    rw [Complex.ofReal_sum, Complex.ofReal_sum]
    have e : ∀ j, ((‖z j - 2 * o j * c‖ ^ 2 : ℝ) : ℂ) = ((‖z j‖ ^ 2 : ℝ) : ℂ) -
        2 * (starRingEnd ℂ) c * (z j * o j) - 2 * c * ((starRingEnd ℂ) (z j) * o j) +
        4 * c * (starRingEnd ℂ) c * (o j * o j) := by
      intro j
      rw [key, key]
      simp only [map_sub, map_mul, Complex.conj_ofReal, map_ofNat]
      ring
    rw [Finset.sum_congr rfl fun j _ => e j, Finset.sum_add_distrib, Finset.sum_sub_distrib, Finset.sum_sub_distrib,
      ← Finset.mul_sum, ← Finset.mul_sum, ← Finset.mul_sum, ho', ← hc, ← hc']
    ring
  exact_mod_cast this

/-- The force of the dimer: the weighted force of the two ends and the implicit part. -/
noncomputable def dimerForce (G : Data dims.prod → Data dims.prod) (A : Data dims.prod) (alpha l : ℝ)
    (o : Fin dims.prod → ℝ) (x y : Data dims.prod) : Data dims.prod := fun k =>
  (alpha : ℂ) * G (fun j => x j - ((l / 2 * o j : ℝ) : ℂ)) k +
    (1 - alpha) * G (fun j => x j + ((l / 2 * o j : ℝ) : ℂ)) k + A k * fft dims y k

/-- The conditions under which the equation of a step has one solution: no divisor is zero. -/
def StepsOk (A : Data dims.prod) (dt : ℝ) (o : Fin dims.prod → ℝ) : Prop :=
  (∀ k, 1 - (dt : ℂ) * A k ≠ 0) ∧
  1 + ∑ k, fft dims (fun j => (o j : ℂ)) k * (1 / (1 - (dt : ℂ) * A k)) *
    ((2 : ℝ) * A k * dt * (starRingEnd ℂ) (fft dims (fun j => (o j : ℂ)) k) / (dims.prod : ℂ)) ≠ 0

/-- Without an implicit part the conditions hold. -/
theorem stepsOk_explicit (dt : ℝ) (o : Fin dims.prod → ℝ) : StepsOk (fun _ => 0) dt o := by
  refine ⟨fun k => by simp, ?_⟩
  simp

/-- The displacement of a step is as large as the force of the dimer. -/
theorem step_displacement (h : ∀ d ∈ dims, 0 < d) (m : Model 1 nd dims.prod) (s : SDD 1 dims.prod)
    (hc : LinearPartConst m) {G : Data dims.prod → Data dims.prod} {A : Data dims.prod} (hG : ForceOf m s.freq G)
    (hA : FactorOf m s.freq A) (ho : normSqO s.orientation = 1) (st : Store 1 nd dims.prod)
    (hok : StepsOk A s.dt (s.orientation 0)) :
    ∃ z : Data dims.prod, fft dims z = dimerForce G A s.alpha (s.dimerLength s.getTime) (s.orientation 0) (st.fields 0)
        ((SDD.step m (s, st)).2.fields 0) ∧
      ∑ j, ‖(SDD.step m (s, st)).2.fields 0 j - st.fields 0 j‖ ^ 2 = s.dt ^ 2 * ∑ j, ‖z j‖ ^ 2 := by
  obtain ⟨f, g, hf, hg, hs⟩ := c34_single_field h m hc s st (by rw [hA]; exact hok.1) (by rw [hA]; exact hok.2)
  have e1 : m.getRHS 0 (s.dimerStores m st).1 s.freq s.getTime =
      G (fun j => st.fields 0 j - ((s.dimerLength s.getTime / 2 * s.orientation 0 j : ℝ) : ℂ)) := by
    have : (s.dimerStores m st).1 = sddFft m (s.shiftFieldsAlongDimer st (-0.5 * s.dimerLength s.getTime)) := rfl
    rw [this, hG]
    congr 1
    funext j
    simp only [SDD.shiftFieldsAlongDimer]
    push_cast; ring
  have e2 : m.getRHS 0 (s.dimerStores m st).2.1 s.freq s.getTime =
      G (fun j => st.fields 0 j + ((s.dimerLength s.getTime / 2 * s.orientation 0 j : ℝ) : ℂ)) := by
    have : (s.dimerStores m st).2.1 = sddFft m (s.shiftFieldsAlongDimer (ifftFields (s.dimerStores m st).1)
      (s.dimerLength s.getTime)) := rfl
    rw [this, hG]
    congr 1
    funext j
    simp only [SDD.shiftFieldsAlongDimer]
    have h3 : (ifftFields (s.dimerStores m st).1).fields 0 =
        (s.shiftFieldsAlongDimer st (-0.5 * s.dimerLength s.getTime)).fields 0 := ifft_sddFft h m _ 0
    rw [h3]
    simp only [SDD.shiftFieldsAlongDimer]
    push_cast; ring
  refine ⟨fun j => f j + g j, ?_, ?_⟩
  · funext k
    rw [fft_add, hf, hg, e1, e2, hA]
    rfl
  · rw [← reflect_norm (s.orientation 0) (unit_single ho) (fun j => f j + g j), Finset.mul_sum]
    refine Finset.sum_congr rfl fun j _ => ?_
    rw [hs j, add_sub_cancel_left, norm_mul, mul_pow, Complex.norm_real, Real.norm_eq_abs, sq_abs]

/-- One step of the run, seen from the settings at the start. -/
theorem run_displacement (h : ∀ d ∈ dims, 0 < d) (m : Model 1 nd dims.prod) (s : SDD 1 dims.prod)
    (hc : LinearPartConst m) {G : Data dims.prod → Data dims.prod} {A : Data dims.prod} (hG : ForceOf m s.freq G)
    (hA : FactorOf m s.freq A) (ho : normSqO s.orientation = 1) (st : Store 1 nd dims.prod) (k : ℕ)
    (hok : StepsOk A s.dt ((dimerRun m s st k).1.orientation 0)) :
    ∃ z : Data dims.prod, fft dims z = dimerForce G A s.alpha (lengthAt s k) ((dimerRun m s st k).1.orientation 0)
        ((dimerRun m s st k).2.fields 0) ((dimerRun m s st (k + 1)).2.fields 0) ∧
      ∑ j, ‖(dimerRun m s st (k + 1)).2.fields 0 j - (dimerRun m s st k).2.fields 0 j‖ ^ 2 =
        s.dt ^ 2 * ∑ j, ‖z j‖ ^ 2 := by
  have hset := dimerRun_settings m s st k
  have hunit : normSqO (dimerRun m s st k).1.orientation = 1 := c30_unit_invariant h m k s ho st
  have e : dimerRun m s st (k + 1) = SDD.step m (dimerRun m s st k) := by
    unfold dimerRun; rw [Function.iterate_succ_apply']
  have hfreq : (dimerRun m s st k).1.freq = s.freq := by rw [hset]
  have hdt : (dimerRun m s st k).1.dt = s.dt := by rw [hset]
  have halpha : (dimerRun m s st k).1.alpha = s.alpha := by rw [hset]
  have hlen : (dimerRun m s st k).1.dimerLength (dimerRun m s st k).1.getTime = lengthAt s k := by
    rw [hset]; rfl
  have := step_displacement h m (dimerRun m s st k).1 hc (by rw [hfreq]; exact hG) (by rw [hfreq]; exact hA) hunit
    (dimerRun m s st k).2 (by rw [hdt]; exact hok)
  rw [hlen, halpha, hdt] at this
  rw [e]
  exact this

/-- C138: how far a step moves the field is `dt` times the size of the force of the dimer, in the sum of squares,
whatever the direction of the dimer is. So a small change per step is a small force. -/
theorem c138_displacement (h : ∀ d ∈ dims, 0 < d) (m : Model 1 nd dims.prod) (s : SDD 1 dims.prod)
    (hc : LinearPartConst m) {G : Data dims.prod → Data dims.prod} {A : Data dims.prod} (hG : ForceOf m s.freq G)
    (hA : FactorOf m s.freq A) (ho : normSqO s.orientation = 1) (st : Store 1 nd dims.prod) (k : ℕ)
    (hok : StepsOk A s.dt ((dimerRun m s st k).1.orientation 0)) :
    (dims.prod : ℝ) * ∑ j, ‖(dimerRun m s st (k + 1)).2.fields 0 j - (dimerRun m s st k).2.fields 0 j‖ ^ 2 =
      s.dt ^ 2 * ∑ q, ‖dimerForce G A s.alpha (lengthAt s k) ((dimerRun m s st k).1.orientation 0)
        ((dimerRun m s st k).2.fields 0) ((dimerRun m s st (k + 1)).2.fields 0) q‖ ^ 2 := by
  obtain ⟨z, hz, hsum⟩ := run_displacement h m s hc hG hA ho st k hok
  rw [hsum, ← hz, squares_parseval h]
  ring

/-- A limit of the run in the case that the displacement of the ends converges to `w`. -/
theorem limit_force (h : ∀ d ∈ dims, 0 < d) (m : Model 1 nd dims.prod) (s : SDD 1 dims.prod)
    (hc : LinearPartConst m) {G : Data dims.prod → Data dims.prod} {A : Data dims.prod} (hG : ForceOf m s.freq G)
    (hA : FactorOf m s.freq A) (hcont : Continuous G) (ho : normSqO s.orientation = 1) (hdt : s.dt ≠ 0)
    (st : Store 1 nd dims.prod)
    (hok : ∀ k, StepsOk A s.dt ((dimerRun m s st k).1.orientation 0)) (u : Data dims.prod)
    (hu : ∀ j, Tendsto (fun k => (dimerRun m s st k).2.fields 0 j) atTop (𝓝 (u j))) (w : Fin dims.prod → ℝ)
    (hw : ∀ j, Tendsto (fun k => lengthAt s k / 2 * (dimerRun m s st k).1.orientation 0 j) atTop (𝓝 (w j))) (q : Fin dims.prod) :
    (s.alpha : ℂ) * G (fun j => u j - (w j : ℂ)) q + (1 - s.alpha) * G (fun j => u j + (w j : ℂ)) q +
      A q * fft dims u q = 0 := by
  choose z hz hsum using fun k => run_displacement h m s hc hG hA ho st k (hok k)
  have hu1 : ∀ j, Tendsto (fun k => (dimerRun m s st (k + 1)).2.fields 0 j) atTop (𝓝 (u j)) := fun j =>
    (hu j).comp (tendsto_add_atTop_nat 1)
  have hzero : Tendsto (fun k => ∑ j, ‖z k j‖ ^ 2) atTop (𝓝 0) := by
    have h1 : Tendsto (fun k => ∑ j, ‖(dimerRun m s st (k + 1)).2.fields 0 j - (dimerRun m s st k).2.fields 0 j‖ ^ 2)
        atTop (𝓝 (∑ j, ‖u j - u j‖ ^ 2)) :=
      tendsto_finsetSum _ fun j _ => (((hu1 j).sub (hu j)).norm).pow 2
    simp only [sub_self, norm_zero, ne_eq, OfNat.ofNat_ne_zero, not_false_eq_true, zero_pow, Finset.sum_const_zero] at h1
    have e : (fun k => ∑ j, ‖z k j‖ ^ 2) = fun k => (s.dt ^ 2)⁻¹ *
        ∑ j, ‖(dimerRun m s st (k + 1)).2.fields 0 j - (dimerRun m s st k).2.fields 0 j‖ ^ 2 := by
      funext k
      rw [hsum k, ← mul_assoc, inv_mul_cancel₀ (pow_ne_zero 2 hdt), one_mul]
    rw [e]
    simpa using h1.const_mul (s.dt ^ 2)⁻¹
  have hzj : ∀ j, Tendsto (fun k => z k j) atTop (𝓝 0) := by
    intro j
    rw [tendsto_zero_iff_norm_tendsto_zero]
    have h2 : Tendsto (fun k => ‖z k j‖ ^ 2) atTop (𝓝 0) :=
      tendsto_of_tendsto_of_tendsto_of_le_of_le tendsto_const_nhds hzero (fun k => by positivity)
        (fun k => Finset.single_le_sum (f := fun j => ‖z k j‖ ^ 2) (fun i _ => by positivity) (Finset.mem_univ j))
    have h3 := h2.sqrt
    simpa [Real.sqrt_sq] using h3
  have hfz : Tendsto (fun k => fft dims (z k) q) atTop (𝓝 0) := by
    have : Tendsto (fun k => fft dims (z k) q) atTop (𝓝 (fft dims (fun _ => 0) q)) := by
      unfold fft
      exact tendsto_finsetSum _ fun j _ => (hzj j).mul_const _
    have e : fft dims (fun _ => 0) q = 0 := by simp [fft]
    rwa [e] at this
  have hlim : Tendsto (fun k => fft dims (z k) q) atTop
      (𝓝 ((s.alpha : ℂ) * G (fun j => u j - (w j : ℂ)) q + (1 - s.alpha) * G (fun j => u j + (w j : ℂ)) q +
        A q * fft dims u q)) := by
    have hw' : ∀ j, Tendsto (fun k => ((lengthAt s k / 2 * (dimerRun m s st k).1.orientation 0 j : ℝ) : ℂ)) atTop
        (𝓝 (w j : ℂ)) := fun j => (Complex.continuous_ofReal.tendsto _).comp (hw j)
    have hGq : Continuous fun v => G v q := (continuous_apply q).comp hcont
    have t1 : Tendsto (fun k => G (fun j => (dimerRun m s st k).2.fields 0 j -
        ((lengthAt s k / 2 * (dimerRun m s st k).1.orientation 0 j : ℝ) : ℂ)) q) atTop
        (𝓝 (G (fun j => u j - (w j : ℂ)) q)) :=
      (hGq.tendsto _).comp (tendsto_pi_nhds.mpr fun j => (hu j).sub (hw' j))
    have t2 : Tendsto (fun k => G (fun j => (dimerRun m s st k).2.fields 0 j +
        ((lengthAt s k / 2 * (dimerRun m s st k).1.orientation 0 j : ℝ) : ℂ)) q) atTop
        (𝓝 (G (fun j => u j + (w j : ℂ)) q)) :=
      (hGq.tendsto _).comp (tendsto_pi_nhds.mpr fun j => (hu j).add (hw' j))
    have t3 : Tendsto (fun k => fft dims ((dimerRun m s st (k + 1)).2.fields 0) q) atTop (𝓝 (fft dims u q)) := by
      unfold fft
      exact tendsto_finsetSum _ fun j _ => (hu1 j).mul_const _
    have := ((t1.const_mul (s.alpha : ℂ)).add (t2.const_mul (1 - (s.alpha : ℂ)))).add (t3.const_mul (A q))
    refine this.congr fun k => ?_
    rw [hz k]
    rfl
  exact tendsto_nhds_unique hlim hfz

/-- C138: if the fields of a run converge and the length of the dimer may shrink to zero, the limit is a state of rest of
the equation: explicit and implicit part cancel in every wave. This holds for every equation with continuous force (not
only linear ones), every initial field and direction, and whether the orientation converges or not. -/
theorem c138_limit (h : ∀ d ∈ dims, 0 < d) (m : Model 1 nd dims.prod) (s : SDD 1 dims.prod)
    (hc : LinearPartConst m) {G : Data dims.prod → Data dims.prod} {A : Data dims.prod} (hG : ForceOf m s.freq G)
    (hA : FactorOf m s.freq A) (hcont : Continuous G) (ho : normSqO s.orientation = 1) (hdt : 0 < s.dt)
    (hτ : 0 < s.tauDimerLength) (hmin : s.minDimerLength = 0) (st : Store 1 nd dims.prod)
    (hok : ∀ k, StepsOk A s.dt ((dimerRun m s st k).1.orientation 0)) (u : Data dims.prod)
    (hu : ∀ j, Tendsto (fun k => (dimerRun m s st k).2.fields 0 j) atTop (𝓝 (u j))) (q : Fin dims.prod) :
    G u q + A q * fft dims u q = 0 := by
  have hw : ∀ j, Tendsto (fun k => lengthAt s k / 2 * (dimerRun m s st k).1.orientation 0 j) atTop (𝓝 0) := by
    intro j
    have h1 := c138_length s hτ hdt hmin.ge
    rw [hmin] at h1
    have h1 : Tendsto (fun k => lengthAt s k / 2) atTop (𝓝 0) := by simpa using h1.div_const 2
    refine squeeze_zero_norm (a := fun k => |lengthAt s k / 2|) (fun k => ?_) (by simpa using h1.abs)
    rw [norm_mul, Real.norm_eq_abs, Real.norm_eq_abs]
    have hunit := unit_single (c30_unit_invariant h m k s ho st)
    have hle : |(dimerRun m s st k).1.orientation 0 j| ≤ 1 := by
      rw [← sq_le_one_iff_abs_le_one]
      have := Finset.single_le_sum (f := fun j => (dimerRun m s st k).1.orientation 0 j *
        (dimerRun m s st k).1.orientation 0 j) (fun i _ => mul_self_nonneg _) (Finset.mem_univ j)
      rw [pow_two]
      exact this.trans hunit.le
    calc |lengthAt s k / 2| * |(dimerRun m s st k).1.orientation 0 j| ≤ |lengthAt s k / 2| * 1 :=
          mul_le_mul_of_nonneg_left hle (abs_nonneg _)
      _ = _ := mul_one _
  have := limit_force h m s hc hG hA hcont ho hdt.ne' st hok u hu (fun _ => 0) hw q
  simp only [Complex.ofReal_zero, sub_zero, add_zero] at this
  rw [← this]
  ring

/-- C138: with a positive minimal length, and if the orientation converges as well, the weighted force of the two ends of
the final dimer cancels the implicit part. With `alpha` equal to a half this is the force up to second order in the
length. -/
theorem c138_limit_dimer (h : ∀ d ∈ dims, 0 < d) (m : Model 1 nd dims.prod) (s : SDD 1 dims.prod)
    (hc : LinearPartConst m) {G : Data dims.prod → Data dims.prod} {A : Data dims.prod} (hG : ForceOf m s.freq G)
    (hA : FactorOf m s.freq A) (hcont : Continuous G) (ho : normSqO s.orientation = 1) (hdt : 0 < s.dt)
    (hτ : 0 < s.tauDimerLength) (hmin : 0 ≤ s.minDimerLength) (st : Store 1 nd dims.prod)
    (hok : ∀ k, StepsOk A s.dt ((dimerRun m s st k).1.orientation 0)) (u : Data dims.prod)
    (hu : ∀ j, Tendsto (fun k => (dimerRun m s st k).2.fields 0 j) atTop (𝓝 (u j))) (o : Fin dims.prod → ℝ)
    (hv : ∀ j, Tendsto (fun k => (dimerRun m s st k).1.orientation 0 j) atTop (𝓝 (o j))) :
    dimerForce G A s.alpha s.minDimerLength o u u = fun _ => 0 := by
  funext q
  exact limit_force h m s hc hG hA hcont ho hdt.ne' st hok u hu (fun j => s.minDimerLength / 2 * o j)
    (fun j => ((c138_length s hτ hdt hmin).div_const 2).mul (hv j)) q

/-! ### The conditions are met -/

/-- The field moves with `u - u³`. -/
noncomputable def ridgeModel (dims : List ℕ) : Model 1 1 dims.prod :=
  { calcs := fun _ st x => st.fields 0 x - st.fields 0 x ^ 3
    terms := fun _ => [fun st _ _ k => st.derived 0 k]
    denum := fun _ => [], sources := fun _ => [], modifiers := [] }

/-- The spectrum of `u - u³`. -/
noncomputable def ridgeForce (dims : List ℕ) (u : Data dims.prod) : Data dims.prod := fft dims fun x => u x - u x ^ 3

theorem ridge_force (freq : Frequency dims.prod) : ForceOf (ridgeModel dims) freq (ridgeForce dims) := by
  intro st t
  funext k
  rw [getRHS_eq]
  simp [ridgeModel, rawRHS_apply, ridgeForce, sddFft, fftDerived, fftFields, Model.sync, List.finRange_succ]

theorem ridge_factor (freq : Frequency dims.prod) : FactorOf (ridgeModel dims) freq fun _ => 0 := by
  intro st t
  funext k
  rw [getDenum_apply]
  simp [ridgeModel]

theorem ridge_const : LinearPartConst (ridgeModel dims) := by
  intro i st st' freq t
  funext k
  rw [getDenum_apply, getDenum_apply]
  simp [ridgeModel]

theorem ridge_continuous : Continuous (ridgeForce dims) := by
  unfold ridgeForce fft
  fun_prop

/-- The dimer around the maximum of the energy: the field stays there. -/
theorem ridge_run (h : ∀ d ∈ dims, 0 < d) (s : SDD 1 dims.prod) (ha : s.alpha = 1 / 2) (ho : normSqO s.orientation = 1)
    (st : Store 1 1 dims.prod) (hst : st.fields 0 = fun _ => 0) (k : ℕ) :
    (dimerRun (ridgeModel dims) s st k).2.fields 0 = fun _ => 0 := by
  induction k with
  | zero => exact hst
  | succ k ih =>
    obtain ⟨z, hz, hsum⟩ := run_displacement h (ridgeModel dims) s ridge_const (ridge_force s.freq) (ridge_factor s.freq) ho
      st k (stepsOk_explicit _ _)
    have hz0 : fft dims z = fft dims fun _ => 0 := by
      rw [hz, ih]
      funext q
      unfold dimerForce ridgeForce
      rw [ha]
      have e : (fft dims fun x => (0 - ((lengthAt s k / 2 * (dimerRun (ridgeModel dims) s st k).1.orientation 0 x : ℝ) : ℂ)) -
          (0 - ((lengthAt s k / 2 * (dimerRun (ridgeModel dims) s st k).1.orientation 0 x : ℝ) : ℂ)) ^ 3) q =
          -(fft dims fun x => (0 + ((lengthAt s k / 2 * (dimerRun (ridgeModel dims) s st k).1.orientation 0 x : ℝ) : ℂ)) -
          (0 + ((lengthAt s k / 2 * (dimerRun (ridgeModel dims) s st k).1.orientation 0 x : ℝ) : ℂ)) ^ 3) q := by
        unfold fft
        rw [← Finset.sum_neg_distrib]
        exact Finset.sum_congr rfl fun x _ => by ring
      rw [e]
      have e0 : fft dims (fun _ => 0) q = 0 := by simp [fft]
      rw [e0]
      push_cast
      ring
    have := fft_injective h hz0
    rw [this, ih] at hsum
    simp only [norm_zero, ne_eq, OfNat.ofNat_ne_zero, not_false_eq_true, zero_pow, Finset.sum_const_zero, mul_zero, sub_zero] at hsum
    funext j
    have := (Finset.sum_eq_zero_iff_of_nonneg (fun j _ => by positivity)).mp hsum j (Finset.mem_univ j)
    simpa using this

/-- A stepper on a grid of four by four nodes with a dimer along one node. -/
noncomputable def ridgeDimer : SDD 1 [4, 4].prod :=
  { tauOrientation := 1, tauDimerLength := 1, alpha := 1 / 2, dt := 1 / 10, currentStep := 0, minDimerLength := 0
    initDimerLength := 1, orientation := fun _ j => if j.val = 0 then 1 else 0, freq := freqOf [4, 4] }

example : normSqO ridgeDimer.orientation = 1 ∧ 0 < ridgeDimer.dt ∧ 0 < ridgeDimer.tauDimerLength ∧ ridgeDimer.minDimerLength = 0 ∧
    LinearPartConst (ridgeModel [4, 4]) ∧ ForceOf (ridgeModel [4, 4]) ridgeDimer.freq (ridgeForce [4, 4]) ∧
    FactorOf (ridgeModel [4, 4]) ridgeDimer.freq (fun _ => 0) ∧ Continuous (ridgeForce [4, 4]) ∧
    (∀ k, StepsOk (fun _ => 0) ridgeDimer.dt
      ((dimerRun (ridgeModel [4, 4]) ridgeDimer ⟨fun _ _ => 0, fun _ _ => 0⟩ k).1.orientation 0)) ∧
    ∀ j, Tendsto (fun k => (dimerRun (ridgeModel [4, 4]) ridgeDimer ⟨fun _ _ => 0, fun _ _ => 0⟩ k).2.fields 0 j) atTop
      (𝓝 ((fun _ => (0 : ℂ)) j)) := by
  have ho : normSqO ridgeDimer.orientation = 1 := by
    unfold normSqO ridgeDimer
    simp only [Fin.sum_univ_one]
    rw [Finset.sum_eq_single ⟨0, by decide⟩]
    · simp
    · intro j _ hj
      have : j.val ≠ 0 := fun h => hj (Fin.ext h)
      simp [this]
    · exact fun h => absurd (Finset.mem_univ _) h
  refine ⟨ho, by norm_num [ridgeDimer], by norm_num [ridgeDimer], rfl, ridge_const, ridge_force _, ridge_factor _, ridge_continuous,
    fun k => stepsOk_explicit _ _, fun j => ?_⟩
  have : ∀ k, (dimerRun (ridgeModel [4, 4]) ridgeDimer ⟨fun _ _ => 0, fun _ _ => 0⟩ k).2.fields 0 = fun _ => 0 := fun k =>
    ridge_run (by decide) ridgeDimer rfl ho _ rfl k
  simp only [this]
  exact tendsto_const_nhds

end Gopf.Props
