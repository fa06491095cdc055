import Mathlib.Analysis.SpecialFunctions.Exp
import Mathlib.Analysis.SpecialFunctions.ExpDeriv
import Mathlib.Analysis.Calculus.Deriv.MeanValue
import Mathlib.Analysis.Calculus.Deriv.Inv
import Mathlib.Analysis.Complex.ExponentialBounds
import Mathlib.Topology.Order.MonotoneConvergence
import Mathlib.Topology.Algebra.Order.LiminfLimsup

/-!
# The steps of the implicit method for `y' = y - y^3`

A step of length `dt` takes `y` to the number `z` with `z + c z^3 = e y - d y^3`, where `e = exp dt`,
`c = (e - dt - 1) / dt` and `d = e - 1 - c`.
-/

namespace Gopf.Well
open Filter Topology

/-- The weight of the value after the step in the integral of the cubes. -/
noncomputable def late (dt : ℝ) : ℝ := (Real.exp dt - dt - 1) / dt

/-- The weight of the value before the step. -/
noncomputable def early (dt : ℝ) : ℝ := Real.exp dt - 1 - late dt

/-- A step of the method. -/
def IsStep (dt y z : ℝ) : Prop := z + late dt * z ^ 3 = Real.exp dt * y - early dt * y ^ 3

/-- The square of the amplitude above which steps overshoot. -/
noncomputable def edge (dt : ℝ) : ℝ := dt * (Real.exp dt + 1) / (Real.exp dt * (dt - 2) + dt + 2)

variable {dt : ℝ} (hdt : 0 < dt)

include hdt

theorem late_pos : 0 < late dt := by
  have := Real.add_one_lt_exp hdt.ne'
  unfold late
  apply div_pos _ hdt
  linarith

theorem denominator_pos : 0 < Real.exp dt * (dt - 2) + dt + 2 := by
  have hd : ∀ t : ℝ, HasDerivAt (fun t => Real.exp t * (t - 2) + t + 2) (Real.exp t * (t - 1) + 1) t := by
    intro t
    have h1 := ((Real.hasDerivAt_exp t).mul ((hasDerivAt_id t).sub_const 2)).add (hasDerivAt_id t)
    refine (h1.add_const 2).congr_deriv ?_
    simp only [id]
    ring
  have hmono : StrictMonoOn (fun t => Real.exp t * (t - 2) + t + 2) (Set.Ici 0) := by
    apply strictMonoOn_of_deriv_pos (convex_Ici 0)
    · exact fun t _ => (hd t).continuousAt.continuousWithinAt
    · intro t ht
      rw [interior_Ici] at ht
      have ht : 0 < t := ht
      rw [(hd t).deriv]
      have h1 := Real.add_one_lt_exp (neg_ne_zero.mpr ht.ne')
      have h2 : Real.exp t * Real.exp (-t) = 1 := by rw [← Real.exp_add]; simp
      have h3 := Real.exp_pos t
      nlinarith [mul_lt_mul_of_pos_left h1 h3]
  have := hmono (Set.mem_Ici.mpr le_rfl) (Set.mem_Ici.mpr hdt.le) hdt
  simpa using this

/-- How much the weight before the step exceeds that after the step. -/
theorem gap_eq : (early dt - late dt) * dt = Real.exp dt * (dt - 2) + dt + 2 := by
  unfold early late
  field_simp
  ring

theorem gap_pos : 0 < early dt - late dt := by
  have h1 := denominator_pos hdt
  rw [← gap_eq hdt] at h1
  exact pos_of_mul_pos_left h1 hdt.le

theorem edge_eq : (early dt - late dt) * edge dt = Real.exp dt + 1 := by
  have h1 := denominator_pos hdt
  have h2 := gap_eq hdt
  have h3 : early dt - late dt = (Real.exp dt * (dt - 2) + dt + 2) / dt := by
    rw [← h2]; field_simp
  rw [h3]
  unfold edge
  field_simp

theorem edge_pos : 0 < edge dt := by
  have h1 := denominator_pos hdt
  have := Real.exp_pos dt
  unfold edge
  positivity

omit hdt in
theorem cubic_strictMono {c : ℝ} (hc : 0 < c) : StrictMono fun z : ℝ => z + c * z ^ 3 := by
  intro a b hab
  have : a ^ 3 < b ^ 3 := (Odd.strictMono_pow (by decide)) hab
  dsimp only
  nlinarith

/-- A step has one result. -/
theorem step_unique {y z z' : ℝ} (h : IsStep dt y z) (h' : IsStep dt y z') : z = z' :=
  (cubic_strictMono (late_pos hdt)).injective (h.trans h'.symm)

/-- A step has a result. -/
theorem step_exists (y : ℝ) : ∃ z, IsStep dt y z := by
  have hc := late_pos hdt
  have hcont : Continuous fun z : ℝ => z + late dt * z ^ 3 := by fun_prop
  have h1 : Tendsto (fun z : ℝ => z + late dt * z ^ 3) atTop atTop := by
    refine tendsto_atTop_mono' _ ?_ tendsto_id
    filter_upwards [eventually_ge_atTop 0] with z hz
    have : 0 ≤ late dt * z ^ 3 := by positivity
    simp only [id]
    linarith
  have h2 : Tendsto (fun z : ℝ => z + late dt * z ^ 3) atBot atBot := by
    refine tendsto_atBot_mono' _ ?_ tendsto_id
    filter_upwards [eventually_le_atBot 0] with z hz
    have : z ^ 3 ≤ 0 := Odd.pow_nonpos (by decide) hz
    simp only [id]
    nlinarith
  exact hcont.surjective h1 h2 _

omit hdt in
theorem step_neg {y z : ℝ} (h : IsStep dt y z) : IsStep dt (-y) (-z) := by
  unfold IsStep at *
  linear_combination -h

omit hdt in
/-- The state one is kept. -/
theorem step_one : IsStep dt 1 1 := by
  unfold IsStep early
  ring

/-- Outside the edge a step overshoots. -/
theorem overshoots {y z : ℝ} (h : IsStep dt y z) (hy : 0 < y) (hedge : edge dt < y ^ 2) : y < -z := by
  have hc := late_pos hdt
  have hg := gap_pos hdt
  have he := edge_eq hdt
  have h1 : Real.exp dt + 1 < (early dt - late dt) * y ^ 2 := by
    rw [← he]; exact mul_lt_mul_of_pos_left hedge hg
  have h2 := step_neg h
  unfold IsStep at h2
  apply (cubic_strictMono hc).lt_iff_lt.mp
  rw [h2]
  have h3 := mul_lt_mul_of_pos_right h1 hy
  nlinarith

/-- On the edge it turns the sign. -/
theorem turns {y z : ℝ} (h : IsStep dt y z) (hedge : y ^ 2 = edge dt) : z = -y := by
  have he := edge_eq hdt
  apply step_unique hdt h
  unfold IsStep
  rw [← hedge] at he
  linear_combination y * he

theorem overshoots_abs {y z : ℝ} (h : IsStep dt y z) (hedge : edge dt < y ^ 2) : |y| < |z| ∧ y * z < 0 := by
  have hpos := edge_pos hdt
  rcases lt_trichotomy y 0 with hy | hy | hy
  · have := overshoots hdt (step_neg h) (by linarith) (by simpa using hedge)
    rw [neg_neg] at this
    rw [abs_of_neg hy, abs_of_pos (by linarith)]
    exact ⟨this, mul_neg_of_neg_of_pos hy (by linarith)⟩
  · subst hy
    simp at hedge
    linarith
  · have := overshoots hdt h hy hedge
    rw [abs_of_pos hy, abs_of_neg (by linarith)]
    exact ⟨this, mul_neg_of_pos_of_neg hy (by linarith)⟩

/-- Outside the edge the steps grow without bound, and turn the sign every time. -/
theorem diverges {y : ℕ → ℝ} (h : ∀ n, IsStep dt (y n) (y (n + 1))) (hedge : edge dt < y 0 ^ 2) :
    Tendsto (fun n => |y n|) atTop atTop ∧ ∀ n, y n * y (n + 1) < 0 := by
  have hpos := edge_pos hdt
  have hg := gap_pos hdt
  have hall : ∀ n, edge dt < y n ^ 2 := by
    intro n
    induction n with
    | zero => exact hedge
    | succ n ih =>
      have := (overshoots_abs hdt (h n) ih).1
      have h2 := pow_lt_pow_left₀ this (abs_nonneg _) two_ne_zero
      rw [sq_abs, sq_abs] at h2
      linarith
  refine ⟨?_, fun n => (overshoots_abs hdt (h n) (hall n)).2⟩
  have hmono : Monotone fun n => |y n| := monotone_nat_of_le_succ fun n => (overshoots_abs hdt (h n) (hall n)).1.le
  rcases tendsto_atTop_of_monotone hmono with ht | ⟨L, hL⟩
  · exact ht
  exfalso
  have hstep : ∀ n, |y (n + 1)| + late dt * |y (n + 1)| ^ 3 = early dt * |y n| ^ 3 - Real.exp dt * |y n| := by
    intro n
    have h1 := (overshoots_abs hdt (h n) (hall n)).2
    have h2 := h n
    unfold IsStep at h2
    rcases lt_or_ge (y n) 0 with hy | hy
    · have hz : 0 < y (n + 1) := by nlinarith
      rw [abs_of_neg hy, abs_of_pos hz]
      linear_combination h2
    · have hz : y (n + 1) < 0 := by nlinarith
      rw [abs_of_nonneg hy, abs_of_neg hz]
      linear_combination -h2
  have hL1 : Tendsto (fun n => |y (n + 1)|) atTop (𝓝 L) := hL.comp (tendsto_add_atTop_nat 1)
  have a1 : Tendsto (fun n => |y (n + 1)| + late dt * |y (n + 1)| ^ 3) atTop (𝓝 (L + late dt * L ^ 3)) :=
    hL1.add ((hL1.pow 3).const_mul _)
  have a2 : Tendsto (fun n => early dt * |y n| ^ 3 - Real.exp dt * |y n|) atTop
      (𝓝 (early dt * L ^ 3 - Real.exp dt * L)) := ((hL.pow 3).const_mul _).sub (hL.const_mul _)
  simp only [hstep] at a1
  have e := tendsto_nhds_unique a1 a2
  have hL0 : |y 0| ≤ L := hmono.ge_of_tendsto hL 0
  have hL2 : edge dt < L ^ 2 := by
    have := pow_le_pow_left₀ (abs_nonneg (y 0)) hL0 2
    rw [sq_abs] at this
    linarith
  have hLp : 0 < L := by
    have : 0 < y 0 ^ 2 := hpos.trans hedge
    have : 0 < |y 0| := abs_pos.mpr (by intro h0; simp [h0] at this)
    linarith
  have h1 : Real.exp dt + 1 < (early dt - late dt) * L ^ 2 := by
    rw [← edge_eq hdt]; exact mul_lt_mul_of_pos_left hL2 hg
  nlinarith [mul_lt_mul_of_pos_right h1 hLp]

/-- On the edge they turn the sign for ever. -/
theorem cycles {y : ℕ → ℝ} (h : ∀ n, IsStep dt (y n) (y (n + 1))) (hedge : y 0 ^ 2 = edge dt) (n : ℕ) :
    y n = (-1) ^ n * y 0 := by
  induction n with
  | zero => simp
  | succ n ih =>
    rw [turns hdt (h n) (by rw [ih, mul_pow, ← pow_mul, mul_comm n 2, pow_mul]; simpa using hedge), ih, pow_succ]
    ring

/-- The condition under which steps do not leave the edge. -/
theorem late_enough (hdt1 : dt ≤ 1) : (Real.exp dt - 1) ^ 2 ≤ late dt * (3 * Real.exp dt - 1) := by
  have hd : ∀ t : ℝ, HasDerivAt (fun t => 3 + Real.exp (-t) - 8 / (Real.exp t + 1) - t)
      (-Real.exp (-t) + 8 * Real.exp t / (Real.exp t + 1) ^ 2 - 1) t := by
    intro t
    have hne : Real.exp t + 1 ≠ 0 := by positivity
    have h1 : HasDerivAt (fun t => Real.exp (-t)) (-Real.exp (-t)) t := by
      have := (Real.hasDerivAt_exp (-t)).comp t (hasDerivAt_neg t)
      refine this.congr_deriv ?_
      ring
    have h2 : HasDerivAt (fun t => 8 / (Real.exp t + 1)) (-(8 * Real.exp t / (Real.exp t + 1) ^ 2)) t := by
      have := ((Real.hasDerivAt_exp t).add_const 1).inv hne |>.const_mul 8
      refine (this.congr_deriv ?_).congr_of_eventuallyEq ?_
      · ring
      · exact Eventually.of_forall fun t => by simp [div_eq_mul_inv]
    refine (((h1.const_add 3).sub h2).sub (hasDerivAt_id t)).congr_deriv ?_
    ring
  have hmono : MonotoneOn (fun t => 3 + Real.exp (-t) - 8 / (Real.exp t + 1) - t) (Set.Icc 0 1) := by
    apply monotoneOn_of_deriv_nonneg (convex_Icc 0 1)
    · exact fun t _ => (hd t).continuousAt.continuousWithinAt
    · exact fun t _ => (hd t).differentiableAt.differentiableWithinAt
    · intro t ht
      rw [interior_Icc] at ht
      rw [(hd t).deriv, Real.exp_neg]
      have h1 : 1 ≤ Real.exp t := Real.one_le_exp ht.1.le
      have h3 : Real.exp t ≤ 3 := by
        have a := Real.exp_le_exp.mpr ht.2.le
        have b := Real.exp_one_lt_d9
        linarith
      set x := Real.exp t
      have hx : 0 < x := by linarith
      have : -x⁻¹ + 8 * x / (x + 1) ^ 2 - 1 = (x - 1) * (1 + 4 * x - x ^ 2) / (x * (x + 1) ^ 2) := by
        field_simp
        ring
      rw [this]
      apply div_nonneg _ (by positivity)
      apply mul_nonneg (by linarith)
      nlinarith
  have h0 := hmono (Set.mem_Icc.mpr ⟨le_rfl, zero_le_one⟩) (Set.mem_Icc.mpr ⟨hdt.le, hdt1⟩) hdt.le
  simp only [neg_zero, Real.exp_zero] at h0
  norm_num at h0
  have hE : 1 ≤ Real.exp dt := Real.one_le_exp hdt.le
  rw [Real.exp_neg] at h0
  unfold late
  set x := Real.exp dt
  have hx : 0 < x := by linarith
  have h1 : dt * (x * (x + 1)) ≤ (3 + x⁻¹ - 8 / (x + 1)) * (x * (x + 1)) :=
    mul_le_mul_of_nonneg_right h0 (by positivity)
  have h2 : (3 + x⁻¹ - 8 / (x + 1)) * (x * (x + 1)) = (x - 1) * (3 * x - 1) := by
    field_simp
    ring
  rw [h2] at h1
  rw [div_mul_eq_mul_div, le_div_iff₀ hdt]
  nlinarith

/-- Time steps up to one: inside the edge the steps stay inside. -/
theorem stays (hdt1 : dt ≤ 1) {y z : ℝ} (h : IsStep dt y z) (hedge : y ^ 2 ≤ edge dt) : z ^ 2 ≤ edge dt := by
  have hc := late_pos hdt
  have hg := gap_pos hdt
  have he := edge_eq hdt
  have hpos := edge_pos hdt
  have hE : 1 ≤ Real.exp dt := Real.one_le_exp hdt.le
  have key := late_enough hdt hdt1
  set B := Real.sqrt (edge dt) with hB
  have hB2 : B ^ 2 = edge dt := Real.sq_sqrt hpos.le
  have hB0 : 0 < B := Real.sqrt_pos.mpr hpos
  -- the bound on the right-hand side
  have hup : ∀ y : ℝ, 0 ≤ y → y ≤ B → |Real.exp dt * y - early dt * y ^ 3| ≤ B + late dt * B ^ 3 := by
    intro y hy hyB
    have hearly : 0 < early dt := by linarith
    have hB3 : early dt * B ^ 3 - Real.exp dt * B = B + late dt * B ^ 3 := by
      rw [← hB2] at he
      linear_combination B * he
    rw [abs_le]
    constructor
    · have h1 : y ^ 2 ≤ B ^ 2 := pow_le_pow_left₀ hy hyB 2
      -- y (e - d y^2) ≥ min
      rcases le_total (early dt * y ^ 2) (Real.exp dt) with h2 | h2
      · have : 0 ≤ y * (Real.exp dt - early dt * y ^ 2) := mul_nonneg hy (by linarith)
        have : 0 ≤ B + late dt * B ^ 3 := by positivity
        nlinarith
      · have h3 : y * (early dt * y ^ 2 - Real.exp dt) ≤ B * (early dt * B ^ 2 - Real.exp dt) := by
          apply mul_le_mul hyB _ (by linarith) hB0.le
          have := mul_le_mul_of_nonneg_left h1 hearly.le
          linarith
        nlinarith
    · have h1 : Real.exp dt * y ≤ Real.exp dt * B := mul_le_mul_of_nonneg_left hyB (by linarith)
      have h2 : 0 ≤ early dt * y ^ 3 := by positivity
      have h3 : Real.exp dt - 1 ≤ late dt * B ^ 2 := by
        rw [hB2]
        have h4 : (Real.exp dt - 1) * (early dt - late dt) ≤ late dt * (Real.exp dt + 1) := by
          unfold early
          nlinarith
        rw [← he] at h4
        have : (Real.exp dt - 1) * (early dt - late dt) ≤ late dt * edge dt * (early dt - late dt) := by linarith
        exact le_of_mul_le_mul_right this hg
      have h5 := mul_le_mul_of_nonneg_right h3 hB0.le
      nlinarith
  have hyB : |y| ≤ B := Real.abs_le_sqrt hedge
  have hr : |Real.exp dt * y - early dt * y ^ 3| ≤ B + late dt * B ^ 3 := by
    rcases le_total 0 y with hy | hy
    · exact hup y hy (by rwa [abs_of_nonneg hy] at hyB)
    · have := hup (-y) (by linarith) (by rwa [abs_of_nonpos hy] at hyB)
      rw [← abs_neg]
      convert this using 2
      ring
  unfold IsStep at h
  rw [← h, abs_le] at hr
  have hm := cubic_strictMono hc
  have h1 : z ≤ B := hm.le_iff_le.mp hr.2
  have h2 : -B ≤ z := hm.le_iff_le.mp (by
    refine le_trans (le_of_eq ?_) hr.1
    ring)
  rw [← hB2]
  nlinarith

/-- Time steps of six or more: a step from one half leads outside the edge. -/
theorem leaves (hdt6 : 6 ≤ dt) {z : ℝ} (h : IsStep dt (1 / 2) z) : edge dt < z ^ 2 := by
  have hc := late_pos hdt
  have hE : 25 ≤ Real.exp dt := by
    have := Real.quadratic_le_exp_of_nonneg hdt.le
    nlinarith
  have hedge : edge dt ≤ 3 / 2 := by
    unfold edge
    rw [div_le_iff₀ (denominator_pos hdt)]
    nlinarith
  have hlate : late dt ≤ Real.exp dt / 6 := by
    unfold late
    rw [div_le_div_iff₀ hdt (by norm_num)]
    nlinarith
  unfold IsStep at h
  by_contra hcon
  push Not at hcon
  have hz : z ^ 2 ≤ 3 / 2 := hcon.trans hedge
  have hz2 : z ≤ 5 / 4 := by nlinarith
  have h1 : early dt ≤ Real.exp dt := by unfold early; linarith
  have h2 : 3 / 8 * Real.exp dt ≤ z * (1 + late dt * z ^ 2) := by nlinarith
  have h3 : 1 + late dt * z ^ 2 ≤ 1 + Real.exp dt / 6 * (3 / 2) := by
    have := mul_le_mul hlate hz (by positivity) (by positivity)
    linarith
  have h4 : z * (1 + late dt * z ^ 2) ≤ 5 / 4 * (1 + Real.exp dt / 6 * (3 / 2)) := by
    refine mul_le_mul hz2 h3 (by positivity) (by norm_num)
  linarith

/-- The state one repels if the edge is below three. -/
theorem repels (hedge : edge dt < 3) {y : ℕ → ℝ} (h : ∀ n, IsStep dt (y n) (y (n + 1)))
    (hlim : Tendsto y atTop (𝓝 1)) : ∃ n, ∀ m ≥ n, y m = 1 := by
  have hc := late_pos hdt
  have hg := gap_pos hdt
  have hstr : 1 + 3 * late dt < 3 * early dt - Real.exp dt := by
    have h1 := mul_lt_mul_of_pos_left hedge hg
    rw [edge_eq hdt] at h1
    linarith
  have hstep : ∀ n, (y (n + 1) - 1) * (1 + late dt * (y (n + 1) ^ 2 + y (n + 1) + 1)) =
      -((y n - 1) * (early dt * (y n ^ 2 + y n + 1) - Real.exp dt)) := by
    intro n
    have h1 := h n
    have h2 := step_one (dt := dt)
    unfold IsStep at h1 h2
    linear_combination h1 - h2
  have hlim1 : Tendsto (fun n => y (n + 1)) atTop (𝓝 1) := hlim.comp (tendsto_add_atTop_nat 1)
  have t1 : Tendsto (fun n => 1 + late dt * (y (n + 1) ^ 2 + y (n + 1) + 1)) atTop (𝓝 (1 + 3 * late dt)) := by
    have := ((((hlim1.pow 2).add hlim1).add_const 1).const_mul (late dt)).const_add 1
    convert this using 2
    ring
  have t2 : Tendsto (fun n => early dt * (y n ^ 2 + y n + 1) - Real.exp dt) atTop (𝓝 (3 * early dt - Real.exp dt)) := by
    have := ((((hlim.pow 2).add hlim).add_const 1).const_mul (early dt)).sub_const (Real.exp dt)
    convert this using 2
    ring
  obtain ⟨q, hq1, hq2⟩ := exists_between hstr
  have ev := (t1.eventually (gt_mem_nhds hq1)).and (t2.eventually (lt_mem_nhds hq2))
  obtain ⟨n, hn⟩ := eventually_atTop.mp ev
  have hq0 : 0 < q := by linarith
  -- distances grow from n on
  have hgrow : ∀ m ≥ n, |y m - 1| ≤ |y (m + 1) - 1| := by
    intro m hm
    obtain ⟨a, b⟩ := hn m hm
    have a0 : 0 < 1 + late dt * (y (m + 1) ^ 2 + y (m + 1) + 1) := by
      have : 0 < y (m + 1) ^ 2 + y (m + 1) + 1 := by nlinarith [sq_nonneg (y (m + 1) + 1 / 2)]
      positivity
    have e := congrArg abs (hstep m)
    rw [abs_neg, abs_mul, abs_mul, abs_of_pos a0, abs_of_pos (hq0.trans b)] at e
    have h1 : |y (m + 1) - 1| * (1 + late dt * (y (m + 1) ^ 2 + y (m + 1) + 1)) ≤ |y (m + 1) - 1| * q :=
      mul_le_mul_of_nonneg_left a.le (abs_nonneg _)
    have h2 : |y m - 1| * q ≤ |y m - 1| * (early dt * (y m ^ 2 + y m + 1) - Real.exp dt) :=
      mul_le_mul_of_nonneg_left b.le (abs_nonneg _)
    have h3 : |y m - 1| * q ≤ |y (m + 1) - 1| * q := by linarith
    exact le_of_mul_le_mul_right h3 hq0
  refine ⟨n, ?_⟩
  intro m hm
  have hmon : ∀ j, |y m - 1| ≤ |y (m + j) - 1| := by
    intro j
    induction j with
    | zero => simp
    | succ j ih => exact ih.trans (hgrow (m + j) (by omega))
  have hz : Tendsto (fun j => |y (m + j) - 1|) atTop (𝓝 0) := by
    have h1 : Tendsto (fun j => y (m + j)) atTop (𝓝 1) := by
      have := hlim.comp (tendsto_add_atTop_nat m)
      refine this.congr fun j => ?_
      simp [add_comm]
    have := (h1.sub_const 1).abs
    simpa using this
  have h0 : |y m - 1| ≤ 0 := ge_of_tendsto' hz hmon
  have := abs_nonpos_iff.mp h0
  linarith

/-- For time steps of three or more the edge is below three. -/
theorem edge_lt_three (hdt3 : 3 ≤ dt) : edge dt < 3 := by
  unfold edge
  rw [div_lt_iff₀ (denominator_pos hdt)]
  have := Real.exp_pos dt
  nlinarith

end Gopf.Well
