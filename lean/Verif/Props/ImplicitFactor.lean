import Verif.Props.ImplicitWaves

/-!
# C160: for which time steps the implicit stepper damps a wave
-/

namespace Gopf.Props
open Spec Pf Pfutil Converge

variable {dims : List ℕ}

/-! ### Real rates -/

/-- The weight of the right-hand side after the step, for a real rate. -/
noncomputable def realAfter (dt a : ℝ) : ℝ :=
  if |a| < 1 / 10 ^ 5 then dt / 2 else (Real.exp (a * dt) - a * dt - 1) / (a * a * dt)

/-- The weight of the right-hand side before the step, for a real rate. -/
noncomputable def realBefore (dt a : ℝ) : ℝ :=
  if |a| < 1 / 10 ^ 5 then dt / 2 * Real.exp (a * dt) else
    (Real.exp (a * dt) - 1) / a - (Real.exp (a * dt) - a * dt - 1) / (a * a * dt)

/-- The factor, for real rates. -/
noncomputable def realFactor (dt a b : ℝ) : ℝ := (Real.exp (a * dt) + realBefore dt a * b) / (1 - realAfter dt a * b)

theorem weightAfter_real (dt a : ℝ) : weightAfter dt (a : ℂ) = ((realAfter dt a : ℝ) : ℂ) := by
  unfold weightAfter realAfter
  rw [Complex.norm_real, Real.norm_eq_abs]
  split_ifs <;> push_cast <;> rfl

theorem weightBefore_real (dt a : ℝ) : weightBefore dt (a : ℂ) = ((realBefore dt a : ℝ) : ℂ) := by
  unfold weightBefore realBefore
  rw [Complex.norm_real, Real.norm_eq_abs]
  split_ifs <;> push_cast <;> rfl

/-- The factor of real rates is real. -/
theorem implicitFactor_real (dt a b : ℝ) : implicitFactor dt (a : ℂ) (b : ℂ) = ((realFactor dt a b : ℝ) : ℂ) := by
  unfold implicitFactor realFactor
  rw [weightAfter_real, weightBefore_real]
  push_cast
  rfl

theorem after_pos {dt : ℝ} (hdt : 0 < dt) (a : ℝ) : 0 < realAfter dt a := by
  unfold realAfter
  split_ifs with h
  · positivity
  · have ha : a ≠ 0 := by
      rintro rfl
      rw [abs_zero] at h
      norm_num at h
    have hx : a * dt ≠ 0 := mul_ne_zero ha hdt.ne'
    have h1 := Real.add_one_lt_exp hx
    have h2 : 0 < a * a * dt := mul_pos (mul_self_pos.mpr ha) hdt
    exact div_pos (by linarith) h2

/-- `g(x) = e^x (x - 2) + x + 2` is negative for negative `x`. -/
theorem denominator_neg {x : ℝ} (hx : x < 0) : Real.exp x * (x - 2) + x + 2 < 0 := by
  have h1 := Well.denominator_pos (dt := -x) (by linarith)
  have h2 := mul_pos (Real.exp_pos x) h1
  have h3 : Real.exp x * Real.exp (-x) = 1 := by rw [← Real.exp_add]; simp
  have e : Real.exp x * (Real.exp (-x) * (-x - 2) + -x + 2) =
      (Real.exp x * Real.exp (-x)) * (-x - 2) + Real.exp x * (-x + 2) := by ring
  rw [e, h3] at h2
  linarith

/-- The sum and the difference of the denominator and the numerator. -/
theorem factor_sides {dt a : ℝ} (hdt : 0 < dt) (ha : ¬ |a| < 1 / 10 ^ 5) (b : ℝ) :
    (1 - realAfter dt a * b) - (Real.exp (a * dt) + realBefore dt a * b) = -(Real.exp (a * dt) - 1) * (a + b) / a ∧
    (1 - realAfter dt a * b) + (Real.exp (a * dt) + realBefore dt a * b) =
      1 + Real.exp (a * dt) + b * ((Real.exp (a * dt) * (a * dt - 2) + a * dt + 2) / (a * (a * dt))) := by
  have ha0 : a ≠ 0 := by
    rintro rfl
    rw [abs_zero] at ha
    norm_num at ha
  unfold realAfter realBefore
  rw [if_neg ha, if_neg ha]
  generalize Real.exp (a * dt) = f
  constructor
  · field_simp
    ring
  · field_simp
    ring

theorem exp_dt_lt {dt a : ℝ} (hdt : 0 < dt) (ha : a < 0) : Real.exp (a * dt) < 1 :=
  Real.exp_lt_one_iff.mpr (mul_neg_of_neg_of_pos ha hdt)

/-- C160: a wave that decays by the linearised equation (`a + b < 0`) is damped with every time step, if the implicit
part alone does not make it grow (`a ≤ 0`), and the solver's equation has a regular solution. If `a` is so small that
the code uses its short formula, the explicit part must not make the wave grow either (`c160_shortcut`). -/
theorem c160_all_steps {dt a b : ℝ} (hdt : 0 < dt) (ha : a ≤ 0) (hab : a + b < 0) (hsmall : 1 / 10 ^ 5 ≤ |a| ∨ b ≤ 0) :
    0 < 1 - realAfter dt a * b ∧ |realFactor dt a b| < 1 := by
  have hw := after_pos hdt a
  by_cases hs : |a| < 1 / 10 ^ 5
  · have hb : b ≤ 0 := by
      rcases hsmall with h | h
      · exact absurd hs (not_lt.mpr h)
      · exact h
    have hD : 0 < 1 - realAfter dt a * b := by
      have := mul_nonpos_of_nonneg_of_nonpos hw.le hb
      linarith
    refine ⟨hD, ?_⟩
    unfold realFactor
    rw [abs_div, abs_of_pos hD, div_lt_one hD]
    unfold realAfter realBefore
    rw [if_pos hs, if_pos hs]
    have e : Real.exp (a * dt) + dt / 2 * Real.exp (a * dt) * b = Real.exp (a * dt) * (1 + dt / 2 * b) := by ring
    rw [e, abs_mul, abs_of_pos (Real.exp_pos _)]
    have hf : Real.exp (a * dt) ≤ 1 := Real.exp_le_one_iff.mpr (mul_nonpos_of_nonpos_of_nonneg ha hdt.le)
    rcases hb.lt_or_eq with hb | hb
    · have hβ : dt / 2 * b < 0 := mul_neg_of_pos_of_neg (by positivity) hb
      have h1 : |1 + dt / 2 * b| < 1 - dt / 2 * b := abs_lt.mpr ⟨by linarith, by linarith⟩
      calc Real.exp (a * dt) * |1 + dt / 2 * b| ≤ 1 * |1 + dt / 2 * b| := mul_le_mul_of_nonneg_right hf (abs_nonneg _)
        _ < 1 - dt / 2 * b := by rw [one_mul]; exact h1
    · subst hb
      have := exp_dt_lt hdt (by linarith : a < 0)
      simpa using this
  · have ha1 : a < 0 := by
      rcases ha.lt_or_eq with h | h
      · exact h
      · rw [h, abs_zero] at hs
        norm_num at hs
    have hx : a * dt < 0 := mul_neg_of_neg_of_pos ha1 hdt
    have hax : 0 < a * (a * dt) := mul_pos_of_neg_of_neg ha1 hx
    have hf := exp_dt_lt hdt ha1
    obtain ⟨s1, s2⟩ := factor_sides hdt hs b
    have hD : 0 < 1 - realAfter dt a * b := by
      rcases le_or_gt b 0 with hb | hb
      · have := mul_nonpos_of_nonneg_of_nonpos hw.le hb
        linarith
      · have h1 : realAfter dt a * b < realAfter dt a * (-a) := mul_lt_mul_of_pos_left (by linarith) hw
        have h2 : realAfter dt a * (-a) < 1 := by
          unfold realAfter
          rw [if_neg hs]
          have e : (Real.exp (a * dt) - a * dt - 1) / (a * a * dt) * (-a) = (Real.exp (a * dt) - a * dt - 1) / (-(a * dt)) := by
            have := ha1.ne
            field_simp
          rw [e, div_lt_one (by linarith)]
          linarith
        linarith
    refine ⟨hD, ?_⟩
    unfold realFactor
    rw [abs_div, abs_of_pos hD, div_lt_one hD, abs_lt]
    constructor
    · suffices 0 < (1 - realAfter dt a * b) + (Real.exp (a * dt) + realBefore dt a * b) by linarith
      rw [s2]
      have hg := div_neg_of_neg_of_pos (denominator_neg hx) hax
      have hE := Real.exp_pos (a * dt)
      rcases le_or_gt b 0 with hb | hb
      · have := mul_nonneg_of_nonpos_of_nonpos hb hg.le
        linarith
      · have h1 : (-a) * ((Real.exp (a * dt) * (a * dt - 2) + a * dt + 2) / (a * (a * dt))) <
            b * ((Real.exp (a * dt) * (a * dt - 2) + a * dt + 2) / (a * (a * dt))) :=
          mul_lt_mul_of_neg_right (by linarith) hg
        have h2 : 1 + Real.exp (a * dt) + (-a) * ((Real.exp (a * dt) * (a * dt - 2) + a * dt + 2) / (a * (a * dt))) =
            2 * (Real.exp (a * dt) - 1) / (a * dt) := by
          have h3 := ha1.ne
          have h4 := hdt.ne'
          generalize Real.exp (a * dt) = f
          field_simp
          ring
        have h5 : 0 < 2 * (Real.exp (a * dt) - 1) / (a * dt) := div_pos_of_neg_of_neg (by linarith) hx
        linarith
    · suffices 0 < (1 - realAfter dt a * b) - (Real.exp (a * dt) + realBefore dt a * b) by linarith
      rw [s1]
      exact div_pos_of_neg_of_neg (mul_neg_of_pos_of_neg (by linarith) hab) ha1

/-- The numbers of the theorem, also with an explicit part that makes the wave grow. -/
example : (-2 : ℝ) ≤ 0 ∧ (-2 : ℝ) + 1 < 0 ∧ (1 / 10 ^ 5 : ℝ) ≤ |(-2 : ℝ)| := by
  refine ⟨by norm_num, by norm_num, ?_⟩
  rw [abs_of_neg (by norm_num)]
  norm_num

theorem pos_of_small {a : ℝ} (ha : 1 / 10 ^ 5 ≤ a) : 0 < a ∧ ¬ |a| < 1 / 10 ^ 5 := by
  have h0 : 0 < a := lt_of_lt_of_le (by norm_num) ha
  exact ⟨h0, by rw [abs_of_pos h0]; exact not_lt.mpr ha⟩

/-- C160: if the implicit part makes the wave grow (`a > 0`) and the explicit part makes it decay all the same, there is
a limit on the time step. -/
theorem c160_limit {dt a b : ℝ} (hdt : 0 < dt) (ha : 1 / 10 ^ 5 ≤ a) (hab : a + b < 0) :
    |realFactor dt a b| < 1 ↔
      -b * (Real.exp (a * dt) * (a * dt - 2) + a * dt + 2) < a * (a * dt) * (1 + Real.exp (a * dt)) := by
  obtain ⟨ha0, hs⟩ := pos_of_small ha
  have hx : 0 < a * dt := mul_pos ha0 hdt
  have hax : 0 < a * (a * dt) := mul_pos ha0 hx
  have hD : 0 < 1 - realAfter dt a * b := by
    have := mul_neg_of_pos_of_neg (after_pos hdt a) (by linarith : b < 0)
    linarith
  obtain ⟨s1, s2⟩ := factor_sides hdt hs b
  have hf : 1 < Real.exp (a * dt) := Real.one_lt_exp_iff.mpr hx
  unfold realFactor
  rw [abs_div, abs_of_pos hD, div_lt_one hD, abs_lt]
  have h1 : 0 < (1 - realAfter dt a * b) - (Real.exp (a * dt) + realBefore dt a * b) := by
    rw [s1]
    exact div_pos (mul_pos_of_neg_of_neg (by linarith) hab) ha0
  have h2 : (1 + Real.exp (a * dt) + b * ((Real.exp (a * dt) * (a * dt - 2) + a * dt + 2) / (a * (a * dt)))) * (a * (a * dt)) =
      a * (a * dt) * (1 + Real.exp (a * dt)) - -b * (Real.exp (a * dt) * (a * dt - 2) + a * dt + 2) := by
    generalize Real.exp (a * dt) = f
    field_simp
    ring
  constructor
  · rintro ⟨h3, -⟩
    have h4 : 0 < (1 - realAfter dt a * b) + (Real.exp (a * dt) + realBefore dt a * b) := by linarith
    rw [s2] at h4
    have := mul_pos h4 hax
    rw [h2] at this
    linarith
  · intro h3
    refine ⟨?_, by linarith⟩
    have h4 : 0 < 1 + Real.exp (a * dt) + b * ((Real.exp (a * dt) * (a * dt - 2) + a * dt + 2) / (a * (a * dt))) := by
      by_contra hc
      have := mul_nonpos_of_nonpos_of_nonneg (not_lt.mp hc) hax.le
      rw [h2] at this
      linarith
    rw [← s2] at h4
    linarith

/-- C160: beyond the limit the wave changes its sign in every step and grows. -/
theorem c160_large {dt a b : ℝ} (hdt : 0 < dt) (ha : 0 < a) (hab : a + b < 0) (h6 : 6 ≤ a * dt)
    (hlarge : 2 * -b ≤ (-b - a) * (a * dt)) : realFactor dt a b < -1 := by
  have hx : 0 < a * dt := mul_pos ha hdt
  have hb : b < 0 := by linarith
  have hD : 0 < 1 - realAfter dt a * b := by
    have := mul_neg_of_pos_of_neg (after_pos hdt a) hb
    linarith
  have hE := Real.exp_pos (a * dt)
  unfold realFactor
  rw [div_lt_iff₀ hD]
  suffices (1 - realAfter dt a * b) + (Real.exp (a * dt) + realBefore dt a * b) < 0 by linarith
  by_cases hs : |a| < 1 / 10 ^ 5
  · unfold realAfter realBefore
    rw [if_pos hs, if_pos hs]
    have h1 := Real.add_one_le_exp (a * dt)
    have h2 : a * dt ≤ -b * dt := mul_le_mul_of_nonneg_right (by linarith) hdt.le
    obtain ⟨β, hβ⟩ : ∃ β, β = -b * dt := ⟨_, rfl⟩
    obtain ⟨f, hf⟩ : ∃ f, f = Real.exp (a * dt) := ⟨_, rfl⟩
    have e : 1 - dt / 2 * b + (Real.exp (a * dt) + dt / 2 * Real.exp (a * dt) * b) = 1 + β / 2 + f * (1 - β / 2) := by
      rw [hβ, hf]; ring
    rw [e]
    rw [← hβ] at h2
    rw [← hf] at h1
    have h3 : 7 * (β / 2 - 1) ≤ f * (β / 2 - 1) := mul_le_mul_of_nonneg_right (by linarith) (by linarith)
    linarith
  · obtain ⟨-, s2⟩ := factor_sides hdt hs b
    rw [s2]
    have hax : 0 < a * (a * dt) := mul_pos ha hx
    have h2 : (1 + Real.exp (a * dt) + b * ((Real.exp (a * dt) * (a * dt - 2) + a * dt + 2) / (a * (a * dt)))) * (a * (a * dt)) =
        Real.exp (a * dt) * (a * (a * dt) - -b * (a * dt - 2)) + (a * (a * dt) - -b * (a * dt + 2)) := by
      generalize Real.exp (a * dt) = f
      field_simp
      ring
    have h3 : Real.exp (a * dt) * (a * (a * dt) - -b * (a * dt - 2)) ≤ 0 :=
      mul_nonpos_of_nonneg_of_nonpos hE.le (by linarith)
    have h4 : a * (a * dt) < -b * (a * dt) := mul_lt_mul_of_pos_right (by linarith) hx
    by_contra hc
    have := mul_nonneg (not_lt.mp hc) hax.le
    rw [h2] at this
    linarith

/-- The numbers of the theorem. -/
example : (0 : ℝ) < 1 ∧ (1 : ℝ) + -2 < 0 ∧ (6 : ℝ) ≤ 1 * 6 ∧ (2 : ℝ) * - -2 ≤ (- -2 - 1) * (1 * 6) := by norm_num

/-- There is always such a time step. -/
theorem large_steps {a b : ℝ} (ha : 0 < a) (hab : a + b < 0) : ∃ dt0 : ℝ, 0 < dt0 ∧ ∀ dt, dt0 ≤ dt → realFactor dt a b < -1 := by
  have hd : 0 < -b - a := by linarith
  have hb : 0 < 2 * -b / (-b - a) := div_pos (by linarith) hd
  refine ⟨(6 + 2 * -b / (-b - a)) / a, div_pos (by linarith) ha, fun dt h => ?_⟩
  have h0 : 6 + 2 * -b / (-b - a) ≤ a * dt := by
    rw [div_le_iff₀ ha] at h
    linarith
  have hdt : 0 < dt := lt_of_lt_of_le (div_pos (by linarith) ha) h
  refine c160_large hdt ha hab (by linarith) ?_
  have h1 : 2 * -b / (-b - a) ≤ a * dt := by linarith
  rw [div_le_iff₀ hd] at h1
  linarith

/-- C160: a wave that decays by the linearised equation is damped with every time step exactly if the implicit part
alone does not make it grow. -/
theorem c160_every_step {a b : ℝ} (hab : a + b < 0) (hsmall : a = 0 ∨ 1 / 10 ^ 5 ≤ |a|) :
    (∀ dt, 0 < dt → |realFactor dt a b| < 1) ↔ a ≤ 0 := by
  constructor
  · intro h
    by_contra hc
    push Not at hc
    obtain ⟨dt0, h0, h1⟩ := large_steps hc hab
    have h2 := (abs_lt.mp (h dt0 h0)).1
    have h3 := h1 dt0 le_rfl
    linarith
  · intro ha dt hdt
    refine (c160_all_steps hdt ha hab ?_).2
    rcases hsmall with h | h
    · exact Or.inr (by linarith)
    · exact Or.inl h

/-- C160: the short formula of the code for small implicit rates is not as good. If the explicit part makes the wave
grow and the implicit part makes it decay more, there is a time step with which it more than doubles in every step. -/
theorem c160_shortcut {a b : ℝ} (ha : -(1 / 10 ^ 5) < a) (hb : 0 < b) (hab : a + b < 0) :
    ∃ dt : ℝ, 0 < dt ∧ 0 < 1 - realAfter dt a * b ∧ 2 < realFactor dt a b := by
  have hs : |a| < 1 / 10 ^ 5 := abs_lt.mpr ⟨ha, by linarith⟩
  obtain ⟨K, hK⟩ : ∃ K, K = Real.exp (-(2 * a / b)) := ⟨_, rfl⟩
  have hK0 : 0 < K := by rw [hK]; exact Real.exp_pos _
  refine ⟨2 * (K / (K + 1)) / b, by positivity, ?_⟩
  unfold realFactor realAfter realBefore
  rw [if_pos hs, if_pos hs]
  have e1 : 1 - 2 * (K / (K + 1)) / b / 2 * b = 1 / (K + 1) := by field_simp; ring
  have e2 : ∀ f : ℝ, f + 2 * (K / (K + 1)) / b / 2 * f * b = f * ((2 * K + 1) / (K + 1)) := by
    intro f
    field_simp
    ring
  rw [e1, e2]
  refine ⟨by positivity, ?_⟩
  have hexp : 1 / K ≤ Real.exp (a * (2 * (K / (K + 1)) / b)) := by
    rw [hK, one_div, ← Real.exp_neg, neg_neg, ← hK]
    refine Real.exp_le_exp.mpr ?_
    have h1 : K / (K + 1) ≤ 1 := (div_le_one (by positivity)).mpr (by linarith)
    have h2 : 2 * a / b ≤ 0 := div_nonpos_of_nonpos_of_nonneg (by linarith) hb.le
    have h3 : a * (2 * (K / (K + 1)) / b) = 2 * a / b * (K / (K + 1)) := by ring
    rw [h3]
    have := mul_le_mul_of_nonpos_left h1 h2
    linarith
  rw [lt_div_iff₀ (by positivity)]
  have h4 : 1 / K * ((2 * K + 1) / (K + 1)) ≤ Real.exp (a * (2 * (K / (K + 1)) / b)) * ((2 * K + 1) / (K + 1)) :=
    mul_le_mul_of_nonneg_right hexp (by positivity)
  refine lt_of_lt_of_le ?_ h4
  have h5 : 1 / K * ((2 * K + 1) / (K + 1)) - 2 * (1 / (K + 1)) = 1 / (K * (K + 1)) := by field_simp; ring
  have h6 : 0 < 1 / (K * (K + 1)) := by positivity
  linarith

/-- The numbers of the theorem. -/
example : (-(1 / 10 ^ 5) : ℝ) < -(1 / 200000) ∧ (0 : ℝ) < 1 / 400000 ∧ (-(1 / 200000) : ℝ) + 1 / 400000 < 0 := by norm_num

/-! ### The Cahn-Hilliard equation -/

theorem hilliard_powers (c : Str → ℂ) : Equation.RealPowers concNames c hilliardEquation := by
  intro p hp
  refine ⟨fun g hg => ?_, fun g hg => by rw [conc_scalars] at hg; simp at hg⟩
  have hf := (List.mem_filter.mp hg).1
  simp only [hilliard_terms, List.mem_cons, List.not_mem_nil, or_false] at hp
  rcases hp with rfl | rfl | rfl
  · have : g = ⟨"conc".toList, some ⟨['3'], none⟩⟩ := by simpa using hf
    subst this
    decide +kernel
  · have : g = ⟨"conc".toList, none⟩ := by simpa using hf
    subst this
    decide +kernel
  · have : g = ⟨"conc".toList, none⟩ := by simpa using hf
    subst this
    decide +kernel

theorem hilliard_explicit (z : ℝ) (k : Fin dims.prod) :
    linearisedRate concNames (fun _ => 0) (freqOf dims) hilliardEquation z k -
      implicitRate concNames (fun _ => 0) (freqOf dims) hilliardEquation k =
      ((-(3 * z ^ 2 * laplaceNumber dims k) : ℝ) : ℂ) := by
  rw [hilliard_linearised, hilliard_implicit]
  push_cast
  ring

theorem hilliard_implicitWave (dt z : ℝ) (k : Fin dims.prod) :
    implicitWave concNames (fun _ => 0) (freqOf dims) dt hilliardEquation z k =
      ((realFactor dt (laplaceNumber dims k - laplaceNumber dims k ^ 2) (-(3 * z ^ 2 * laplaceNumber dims k)) : ℝ) : ℂ) := by
  unfold implicitWave
  rw [hilliard_explicit, hilliard_implicit, implicitFactor_real]

theorem hilliard_regular {dt : ℝ} (hdt : 0 < dt) (z : ℝ) (k : Fin dims.prod) :
    1 - weightAfter dt (implicitRate concNames (fun _ => 0) (freqOf dims) hilliardEquation k) *
      (linearisedRate concNames (fun _ => 0) (freqOf dims) hilliardEquation z k -
        implicitRate concNames (fun _ => 0) (freqOf dims) hilliardEquation k) ≠ 0 := by
  rw [hilliard_explicit, hilliard_implicit, weightAfter_real]
  intro h0
  have h1 : (1 - realAfter dt (laplaceNumber dims k - laplaceNumber dims k ^ 2) * -(3 * z ^ 2 * laplaceNumber dims k) : ℝ) = 0 := by
    exact_mod_cast h0
  have h2 := mul_nonneg (after_pos hdt (laplaceNumber dims k - laplaceNumber dims k ^ 2)).le
    (mul_nonneg (by positivity : (0 : ℝ) ≤ 3 * z ^ 2) (laplaceNumber_nonneg k))
  linarith

/-- C160: the Cahn-Hilliard equation with the implicit stepper on grids on which no wave is longer than `2 π`. Every
uniform state is stable with every time step: real fields close enough to it that have its mean converge to it. -/
theorem c160_cahn_hilliard (h : GoodDims (intDims dims)) (hl : LayoutOk dims)
    (hq : ∀ k : Fin dims.prod, k.val ≠ 0 → 1 < laplaceNumber dims k) :
    ∃ m M, ((EqModel.empty (n := dims.prod)).addField "conc".toList).addEquation
        "dconc/dt = LAPconc^3 - LAPconc - LAP^2conc".toList = some m ∧ m.assemble (fun _ => 0) = some M ∧
      ∀ (z : ℝ) (s : Stepper dims.prod), 0 < s.dt → s.freq = freqOf dims →
      ∃ ε0 : ℝ, 0 < ε0 ∧ ∀ ε : ℝ, 0 < ε → ε ≤ ε0 → ∃ δ C q : ℝ, 0 < δ ∧ q < 1 ∧ 0 ≤ q ∧
        ∀ solve, FindsNear (m.fields.length * dims.prod) z ε solve →
        ∀ st : Store m.fields.length m.derived.length dims.prod, (∀ i, IsReal (st.fields i)) →
        (∀ i x, ‖st.fields i x - z‖ < δ) → (∀ i, ∑ x, st.fields i x = ∑ _x : Fin dims.prod, (z : ℂ)) →
        ∀ steps i x, ‖((ieStep solve M)^[steps] (s, st)).2.fields i x - z‖ ≤ C * q ^ steps := by
  obtain ⟨m, M, h1, h2, h3, h4⟩ := c160_conserved h hl concNames conc_wellNamed "conc".toList
    ((EqModel.empty (n := dims.prod)).addField "conc".toList) ⟨rfl, rfl, fun x => Iff.rfl⟩ rfl hilliardEquation
    hilliard_oneField ⟨hilliard_polynomial, fun _ _ => ⟨rfl, rfl⟩⟩ hilliard_divergence
    "dconc/dt = LAPconc^3 - LAPconc - LAP^2conc".toList (by decide) (fun _ => 0) (fun _ _ => rfl) (hilliard_powers _)
  refine ⟨m, M, h1, h3, ?_⟩
  intro z s hdt hfreq
  obtain ⟨ε0, hε0, hall⟩ := h4 z s hdt hfreq (hilliard_regular hdt z) (by
    intro k hk
    have hk1 := hq k hk
    rw [hilliard_implicitWave, Complex.norm_real, Real.norm_eq_abs]
    generalize laplaceNumber dims k = q at hk1
    have hz := sq_nonneg z
    have hb : 0 ≤ 3 * z ^ 2 * q := by positivity
    have ha : q - q ^ 2 < 0 := by nlinarith
    exact (c160_all_steps hdt ha.le (by linarith) (Or.inr (by linarith))).2)
  refine ⟨ε0, hε0, fun ε hε hle => ?_⟩
  obtain ⟨δ, C, q, hδ, hq1, hq0, hconv⟩ := hall ε hε hle
  exact ⟨δ, C, q, hδ, hq1, hq0, fun solve hsolve st hst hnear hsum steps => (hconv solve hsolve st hst hnear hsum steps).2⟩

/-- Square grids of up to six nodes are such grids. -/
theorem six_waves {N : ℕ} (h0 : 0 < N) (h6 : N ≤ 6) (k : Fin [N, N].prod) (hk : k.val ≠ 0) : 1 < laplaceNumber [N, N] k := by
  refine lt_of_lt_of_le ?_ (laplaceNumber_ge h0 k hk)
  have h1 : (0 : ℝ) < N := by exact_mod_cast h0
  have h2 : (N : ℝ) ≤ 6 := by exact_mod_cast h6
  rw [lt_div_iff₀ (by positivity)]
  nlinarith [Real.pi_gt_three]

/-- C160: on a grid with a wave longer than `2 π` (`0 < q < 1`) there is a limit on the time step. Although the wave
decays by the linearised equation (`3 z^2 + q > 1`), for all large time steps there are real fields with mean `z`, as
close to the uniform state as one likes, that go a fixed distance away from it. -/
theorem c160_cahn_hilliard_leaves (h : GoodDims (intDims dims)) (hl : LayoutOk dims) (k : Fin dims.prod)
    (hk : k.val ≠ 0) (hq : laplaceNumber dims k < 1) {z : ℝ} (hz : 1 < 3 * z ^ 2 + laplaceNumber dims k) :
    ∃ m M, ((EqModel.empty (n := dims.prod)).addField "conc".toList).addEquation
        "dconc/dt = LAPconc^3 - LAPconc - LAP^2conc".toList = some m ∧ m.assemble (fun _ => 0) = some M ∧
      ∃ dt0 : ℝ, 0 < dt0 ∧ ∀ s : Stepper dims.prod, dt0 ≤ s.dt → s.freq = freqOf dims →
      ∃ ε0 : ℝ, 0 < ε0 ∧ ∀ ε : ℝ, 0 < ε → ε ≤ ε0 → ∃ ρ : ℝ, 0 < ρ ∧
        ∀ solve, FindsNear (m.fields.length * dims.prod) z ε solve →
        ∀ δ : ℝ, 0 < δ → ∃ v : Data dims.prod, IsReal v ∧ (∀ x, ‖v x‖ < δ) ∧ ∑ x, v x = 0 ∧
        ∀ st : Store m.fields.length m.derived.length dims.prod, (∀ i, st.fields i = fun x => z + v x) →
        ∀ i, ∃ steps x, ρ ≤ ‖((ieStep solve M)^[steps] (s, st)).2.fields i x - z‖ := by
  have hpos := pos_of_goodDims h
  obtain ⟨m, M, h1, h2, h3, h4⟩ := c160_leaves h hl concNames conc_wellNamed "conc".toList
    ((EqModel.empty (n := dims.prod)).addField "conc".toList) ⟨rfl, rfl, fun x => Iff.rfl⟩ rfl hilliardEquation
    hilliard_oneField ⟨hilliard_polynomial, fun _ _ => ⟨rfl, rfl⟩⟩
    "dconc/dt = LAPconc^3 - LAPconc - LAP^2conc".toList (by decide) (fun _ => 0) (fun _ _ => rfl) (hilliard_powers _)
  refine ⟨m, M, h1, h3, ?_⟩
  have hk0 := laplaceNumber_pos h k hk
  obtain ⟨dt0, hdt0, hbig⟩ := large_steps (a := laplaceNumber dims k - laplaceNumber dims k ^ 2)
    (b := -(3 * z ^ 2 * laplaceNumber dims k)) (by nlinarith) (by nlinarith)
  refine ⟨dt0, hdt0, fun s hs hfreq => ?_⟩
  have hdt : 0 < s.dt := lt_of_lt_of_le hdt0 hs
  have horigin : ∀ k' : Fin dims.prod, k'.val = 0 →
      implicitRate concNames (fun _ => 0) (freqOf dims) hilliardEquation k' = 0 := by
    intro k' hk'
    rw [hilliard_implicit, laplace_origin h k' hk']
    simp
  have hrest : uniformRate concNames (fun _ => 0) hilliardEquation (z : ℂ) = 0 := by
    apply List.sum_eq_zero
    intro y hy
    obtain ⟨p, hp, rfl⟩ := List.mem_map.mp hy
    rw [if_neg (hilliard_divergence p hp)]
  obtain ⟨ε0, hε0, hall⟩ := h4 z hrest s hdt hfreq (fun k' hk' => Or.inr (Or.inl (horigin k' hk')))
    (hilliard_regular hdt z) ⟨k, by
      rw [hilliard_implicitWave, Complex.norm_real, Real.norm_eq_abs]
      refine lt_of_lt_of_le ?_ (neg_le_abs _)
      linarith [hbig s.dt hs]⟩
  refine ⟨ε0, hε0, fun ε hε hle => ?_⟩
  obtain ⟨ρ, hρ, hgo⟩ := hall ε hε hle
  refine ⟨ρ, hρ, fun solve hsolve δ hδ => ?_⟩
  obtain ⟨v, v1, v2, v3, v4⟩ := hgo solve hsolve δ hδ
  refine ⟨v, v1, v2, ?_, v4⟩
  have hp : 0 < dims.prod := Nat.lt_of_le_of_lt (Nat.zero_le _) k.2
  rw [← fft_zero_bin v ⟨0, hp⟩ rfl]
  by_contra hc
  have h5 := v3 ⟨0, hp⟩ hc
  rw [hilliard_implicitWave, Complex.norm_real, Real.norm_eq_abs, laplace_origin h _ rfl] at h5
  simp [realFactor] at h5

/-- There is such a wave on a grid of 9 times 9 nodes, for `z = 1/2`. -/
example : ∃ k : Fin [9, 9].prod, k.val ≠ 0 ∧ laplaceNumber [9, 9] k < 1 ∧ (1 : ℝ) < 3 * (1 / 2) ^ 2 + laplaceNumber [9, 9] k := by
  obtain ⟨k, hk⟩ := nine_wave
  obtain ⟨b1, b2⟩ := nine_bounds
  refine ⟨k, ?_, by rw [hk]; linarith, by rw [hk]; linarith⟩
  intro h0
  rw [laplace_origin ⟨by decide, by decide⟩ k h0] at hk
  rw [← hk] at b1
  norm_num at b1

/-! ### The double well -/

theorem well_linearised (c : Str → ℂ) (z : ℝ) (k : Fin dims.prod) :
    linearisedRate concNames c (freqOf dims) wellEquation z k = ((1 - 3 * z ^ 2 : ℝ) : ℂ) := by
  have g1 : signOf none = 1 := by decide
  have g2 : signOf (some '-') = -1 := by decide
  have d1 : degree concNames ([⟨none, some ⟨"conc".toList, some ⟨['3'], none⟩⟩⟩], some '-') = 3 := by decide +kernel
  have d2 : degree concNames ([⟨none, some ⟨"conc".toList, none⟩⟩], none) = 1 := by decide +kernel
  have l1 : ∀ f, (laplacians [⟨none, f⟩]).sum = 0 := by intro f; simp [laplacians]
  unfold linearisedRate
  rw [well_terms]
  simp only [coefficient, List.map_cons, List.map_nil, List.sum_cons, List.sum_nil, conc_scalars, g1, g2, d1, d2, l1,
    List.prod_nil, pow_zero]
  push_cast
  ring

theorem well_uniform {z : ℝ} (hz : z ^ 2 = 1) : uniformRate concNames (fun _ => 0) wellEquation (z : ℂ) = 0 := by
  have g1 : signOf none = 1 := by decide
  have g2 : signOf (some '-') = -1 := by decide
  have d1 : degree concNames ([⟨none, some ⟨"conc".toList, some ⟨['3'], none⟩⟩⟩], some '-') = 3 := by decide +kernel
  have d2 : degree concNames ([⟨none, some ⟨"conc".toList, none⟩⟩], none) = 1 := by decide +kernel
  have l1 : ∀ f, (laplacians [⟨none, f⟩]).sum = 0 := by intro f; simp [laplacians]
  have hz' : (z : ℂ) ^ 2 = 1 := by exact_mod_cast hz
  unfold uniformRate
  rw [well_terms]
  simp only [coefficient, List.map_cons, List.map_nil, List.sum_cons, List.sum_nil, conc_scalars, g1, g2, d1, d2, l1,
    List.prod_nil, if_true]
  push_cast
  linear_combination (-(z : ℂ)) * hz'

theorem well_implicitWave (dt : ℝ) {z : ℝ} (hz : z ^ 2 = 1) (k : Fin dims.prod) :
    implicitWave concNames (fun _ => 0) (freqOf dims) dt wellEquation z k = ((realFactor dt 1 (-3) : ℝ) : ℂ) := by
  unfold implicitWave
  rw [well_linearised, well_implicit, hz, ← implicitFactor_real]
  congr 1
  push_cast
  ring

theorem well_regular {dt : ℝ} (hdt : 0 < dt) {z : ℝ} (hz : z ^ 2 = 1) (k : Fin dims.prod) :
    1 - weightAfter dt (implicitRate concNames (fun _ => 0) (freqOf dims) wellEquation k) *
      (linearisedRate concNames (fun _ => 0) (freqOf dims) wellEquation z k -
        implicitRate concNames (fun _ => 0) (freqOf dims) wellEquation k) ≠ 0 := by
  rw [well_linearised, well_implicit, hz]
  have e := weightAfter_real dt 1
  rw [Complex.ofReal_one] at e
  rw [e]
  intro h0
  have h1 : (1 - realAfter dt 1 * (1 - 3 * 1 - 1) : ℝ) = 0 := by exact_mod_cast h0
  have := after_pos hdt 1
  linarith

/-- C160: the states of rest `1` and `-1` of `dconc/dt = conc - conc^3`, which attract by the equation, with the
implicit stepper. They attract real fields near them if `e^dt (dt - 3) + dt + 3 < 0`, which are the time steps below
about 2.58, and repel some as near as one likes if it is positive. -/
theorem c160_well (h : GoodDims (intDims dims)) (hl : LayoutOk dims) {z : ℝ} (hz : z ^ 2 = 1) :
    ∃ m M, ((EqModel.empty (n := dims.prod)).addField "conc".toList).addEquation "dconc/dt = conc - conc^3".toList = some m ∧
      m.assemble (fun _ => 0) = some M ∧
      ∀ s : Stepper dims.prod, 0 < s.dt → s.freq = freqOf dims →
      (Real.exp s.dt * (s.dt - 3) + s.dt + 3 < 0 →
        ∃ ε0 : ℝ, 0 < ε0 ∧ ∀ ε : ℝ, 0 < ε → ε ≤ ε0 → ∃ δ C q : ℝ, 0 < δ ∧ q < 1 ∧ 0 ≤ q ∧
        ∀ solve, FindsNear (m.fields.length * dims.prod) z ε solve →
        ∀ st : Store m.fields.length m.derived.length dims.prod, (∀ i, IsReal (st.fields i)) →
        (∀ i x, ‖st.fields i x - z‖ < δ) →
        ∀ steps i x, ‖((ieStep solve M)^[steps] (s, st)).2.fields i x - z‖ ≤ C * q ^ steps) ∧
      (0 < Real.exp s.dt * (s.dt - 3) + s.dt + 3 →
        ∃ ε0 : ℝ, 0 < ε0 ∧ ∀ ε : ℝ, 0 < ε → ε ≤ ε0 → ∃ ρ : ℝ, 0 < ρ ∧
        ∀ solve, FindsNear (m.fields.length * dims.prod) z ε solve →
        ∀ δ : ℝ, 0 < δ → ∃ v : Data dims.prod, IsReal v ∧ (∀ x, ‖v x‖ < δ) ∧
        ∀ st : Store m.fields.length m.derived.length dims.prod, (∀ i, st.fields i = fun x => z + v x) →
        ∀ i, ∃ steps x, ρ ≤ ‖((ieStep solve M)^[steps] (s, st)).2.fields i x - z‖) := by
  have h0 : StartsAs concNames ((EqModel.empty (n := dims.prod)).addField "conc".toList) := ⟨rfl, rfl, fun x => Iff.rfl⟩
  obtain ⟨m, M, h1, h2, h3, h4⟩ := c160_stable h hl concNames conc_wellNamed "conc".toList _ h0 rfl wellEquation
    well_oneField ⟨well_polynomial, fun _ _ => ⟨rfl, rfl⟩⟩ "dconc/dt = conc - conc^3".toList (by decide) (fun _ => 0)
    (fun _ _ => rfl) (well_powers _)
  obtain ⟨m', M', h1', h2', h3', h4'⟩ := c160_leaves h hl concNames conc_wellNamed "conc".toList _ h0 rfl wellEquation
    well_oneField ⟨well_polynomial, fun _ _ => ⟨rfl, rfl⟩⟩ "dconc/dt = conc - conc^3".toList (by decide) (fun _ => 0)
    (fun _ _ => rfl) (well_powers _)
  rw [h1] at h1'
  obtain rfl := Option.some.inj h1'
  rw [h3] at h3'
  obtain rfl := Option.some.inj h3'
  refine ⟨m, M, h1, h3, ?_⟩
  intro s hdt hfreq
  have hsmall : ∀ k : Fin dims.prod, k.val = 0 → z = 0 ∨ implicitRate concNames (fun _ => 0) (freqOf dims) wellEquation k = 0 ∨
      1 / 10 ^ 5 ≤ ‖implicitRate concNames (fun _ => 0) (freqOf dims) wellEquation k‖ := by
    intro k _
    rw [well_implicit, norm_one]
    exact Or.inr (Or.inr (by norm_num))
  have hlim := c160_limit (b := -3) hdt (by norm_num : (1 / 10 ^ 5 : ℝ) ≤ 1) (by norm_num)
  rw [one_mul, one_mul] at hlim
  constructor
  · intro hlt
    obtain ⟨ε0, hε0, hall⟩ := h4 z (well_uniform hz) s hdt hfreq hsmall (well_regular hdt hz) (fun k => by
      rw [well_implicitWave _ hz, Complex.norm_real, Real.norm_eq_abs]
      refine hlim.mpr ?_
      linarith)
    refine ⟨ε0, hε0, fun ε hε hle => ?_⟩
    obtain ⟨δ, C, q, hδ, hq1, hq0, hconv⟩ := hall ε hε hle
    exact ⟨δ, C, q, hδ, hq1, hq0, fun solve hsolve st hst hnear steps => (hconv solve hsolve st hst hnear steps).2⟩
  · intro hgt
    have hp : 0 < dims.prod := Nat.pos_of_ne_zero (by exact_mod_cast prod_ne_zero (pos_of_goodDims h))
    obtain ⟨ε0, hε0, hall⟩ := h4' z (well_uniform hz) s hdt hfreq hsmall (well_regular hdt hz) ⟨⟨0, hp⟩, by
      rw [well_implicitWave _ hz, Complex.norm_real, Real.norm_eq_abs]
      refine lt_of_lt_of_le ?_ (neg_le_abs _)
      have hD : 0 < 1 - realAfter s.dt 1 * (-3) := by
        have := after_pos hdt 1
        linarith
      suffices realFactor s.dt 1 (-3) < -1 by linarith
      unfold realFactor
      rw [div_lt_iff₀ hD]
      obtain ⟨-, s2⟩ := factor_sides hdt (pos_of_small (by norm_num : (1 / 10 ^ 5 : ℝ) ≤ 1)).2 (-3)
      rw [one_mul] at s2 ⊢
      rw [one_mul] at s2
      suffices 1 + Real.exp s.dt + -3 * ((Real.exp s.dt * (s.dt - 2) + s.dt + 2) / s.dt) < 0 by linarith
      have e : 1 + Real.exp s.dt + -3 * ((Real.exp s.dt * (s.dt - 2) + s.dt + 2) / s.dt) =
          -(2 * (Real.exp s.dt * (s.dt - 3) + s.dt + 3)) / s.dt := by
        have := hdt.ne'
        generalize Real.exp s.dt = f
        field_simp
        ring
      rw [e]
      exact div_neg_of_neg_of_pos (by linarith) hdt⟩
    refine ⟨ε0, hε0, fun ε hε hle => ?_⟩
    obtain ⟨ρ, hρ, hgo⟩ := hall ε hε hle
    refine ⟨ρ, hρ, fun solve hsolve δ hδ => ?_⟩
    obtain ⟨v, v1, v2, -, v4⟩ := hgo solve hsolve δ hδ
    exact ⟨v, v1, v2, v4⟩

/-- Both cases occur: the time steps 2 and 3. -/
example : Real.exp 2 * (2 - 3) + 2 + 3 < 0 ∧ 0 < Real.exp 3 * (3 - 3) + 3 + 3 := by
  constructor
  · have h1 : Real.exp 2 = Real.exp 1 * Real.exp 1 := by rw [← Real.exp_add]; norm_num
    have h2 := Real.exp_one_gt_d9
    rw [h1]
    nlinarith
  · norm_num

end Gopf.Props
