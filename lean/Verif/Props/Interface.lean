import Verif.Model.Kks
import Verif.Model.CahnHilliardExample
import Mathlib.Analysis.SpecialFunctions.ExpDeriv
import Mathlib.Analysis.SpecialFunctions.Log.Deriv
import Mathlib.Analysis.Calculus.MeanValue
import Mathlib.Analysis.Calculus.Deriv.MeanValue
import Mathlib.MeasureTheory.Integral.IntegralEqImproper
import Mathlib.Topology.Algebra.Field

/-!
# C152: the interface between the phases in the Kim-Kim-Suzuki and Cahn-Hilliard examples
-/

namespace Gopf.Spec

/-- A smooth step from 0 to 1 around `x0`; `k/4` is its slope in the middle. -/
noncomputable def smoothStep (k x0 x : ℝ) : ℝ := (1 + Real.exp (-(k * (x - x0))))⁻¹

end Gopf.Spec

namespace Gopf.Props
open Spec Pf Filter Topology MeasureTheory

/-! ### The smooth step -/

theorem smoothStep_pos (k x0 x : ℝ) : 0 < smoothStep k x0 x := by
  unfold smoothStep
  have := Real.exp_pos (-(k * (x - x0)))
  positivity

theorem smoothStep_lt (k x0 x : ℝ) : smoothStep k x0 x < 1 := by
  unfold smoothStep
  have := Real.exp_pos (-(k * (x - x0)))
  exact inv_lt_one_of_one_lt₀ (by linarith)

theorem smoothStep_deriv (k x0 x : ℝ) :
    HasDerivAt (smoothStep k x0) (k * (smoothStep k x0 x * (1 - smoothStep k x0 x))) x := by
  have h1 : HasDerivAt (fun x => -(k * (x - x0))) (-k) x :=
    ((((hasDerivAt_id x).sub_const x0).const_mul k).neg).congr_deriv (by simp)
  have h2 := (h1.exp.const_add 1).inv (by have := Real.exp_pos (-(k * (x - x0))); positivity)
  refine h2.congr_deriv ?_
  unfold smoothStep
  have := Real.exp_pos (-(k * (x - x0)))
  generalize Real.exp (-(k * (x - x0))) = e at *
  have h3 : 1 + e ≠ 0 := by positivity
  field_simp
  ring

theorem smoothStep_deriv2 (k x0 x : ℝ) :
    HasDerivAt (fun x => k * (smoothStep k x0 x * (1 - smoothStep k x0 x)))
      (k ^ 2 * (smoothStep k x0 x * (1 - smoothStep k x0 x) * (1 - 2 * smoothStep k x0 x))) x := by
  have h := smoothStep_deriv k x0 x
  exact ((h.mul (h.const_sub 1)).const_mul k).congr_deriv (by ring)

theorem smoothStep_top {k : ℝ} (hk : 0 < k) (x0 : ℝ) : Tendsto (smoothStep k x0) atTop (𝓝 1) := by
  have h1 : Tendsto (fun x : ℝ => k * (x - x0)) atTop atTop :=
    (tendsto_atTop_add_const_right atTop (-x0) tendsto_id).const_mul_atTop hk
  have h2 := Real.tendsto_exp_neg_atTop_nhds_zero.comp h1
  have h3 := (h2.const_add 1).inv₀ (by norm_num)
  rw [add_zero, inv_one] at h3
  exact h3

theorem smoothStep_bot {k : ℝ} (hk : 0 < k) (x0 : ℝ) : Tendsto (smoothStep k x0) atBot (𝓝 0) := by
  have h1 : Tendsto (fun x : ℝ => k * (x - x0)) atBot atBot :=
    (tendsto_atBot_add_const_right atBot (-x0) tendsto_id).const_mul_atBot hk
  have h2 := Real.tendsto_exp_atTop.comp (tendsto_neg_atBot_atTop.comp h1)
  exact tendsto_inv_atTop_zero.comp (tendsto_atTop_add_const_left atBot 1 h2)

theorem smoothStep_level {k : ℝ} (hk : 0 < k) (x0 x : ℝ) {a : ℝ} (ha0 : 0 < a) (ha1 : a < 1) :
    smoothStep k x0 x = a ↔ x = x0 + Real.log (a / (1 - a)) / k := by
  have hb : 0 < 1 - a := by linarith
  unfold smoothStep
  rw [inv_eq_iff_eq_inv]
  have e1 : (1 + Real.exp (-(k * (x - x0))) = a⁻¹) ↔ Real.exp (-(k * (x - x0))) = (1 - a) / a := by
    rw [sub_div, div_self ha0.ne', one_div]
    constructor <;> intro h <;> linarith
  rw [e1]
  have e2 : (Real.exp (-(k * (x - x0))) = (1 - a) / a) ↔ -(k * (x - x0)) = Real.log ((1 - a) / a) := by
    constructor
    · intro h; rw [← h, Real.log_exp]
    · intro h; rw [h, Real.exp_log (by positivity)]
  rw [e2]
  have e3 : Real.log ((1 - a) / a) = -Real.log (a / (1 - a)) := by rw [← Real.log_inv, inv_div]
  rw [e3, neg_inj]
  constructor
  · intro h
    field_simp
    linarith
  · intro h
    rw [h]
    field_simp
    ring

/-! ### All interfaces of a double well -/

section
variable {φ φ' : ℝ → ℝ} {k : ℝ} (hk : 0 < k) (h0 : ∀ x, 0 < φ x) (h1 : ∀ x, φ x < 1) (hd : ∀ x, HasDerivAt φ (φ' x) x)
  (hd2 : ∀ x, HasDerivAt φ' (k ^ 2 * (φ x * (1 - φ x) * (1 - 2 * φ x))) x)
  (hbot : Tendsto φ atBot (𝓝 0)) (htop : Tendsto φ atTop (𝓝 1))
include h0 h1 hd hd2 htop

omit h0 h1 htop in
theorem well_integral (x y : ℝ) :
    φ' x ^ 2 - k ^ 2 * (φ x * (1 - φ x)) ^ 2 = φ' y ^ 2 - k ^ 2 * (φ y * (1 - φ y)) ^ 2 := by
  have h : ∀ x, HasDerivAt (fun x => φ' x ^ 2 - k ^ 2 * (φ x * (1 - φ x)) ^ 2) 0 x := by
    intro x
    exact (((hd2 x).pow 2).sub ((((hd x).mul ((hd x).const_sub 1)).pow 2).const_mul (k ^ 2))).congr_deriv
      (by simp; ring)
  exact is_const_of_deriv_eq_zero (fun x => (h x).differentiableAt) (fun x => (h x).deriv) x y

omit h0 h1 in
theorem well_energy_zero (x : ℝ) : φ' x ^ 2 = k ^ 2 * (φ x * (1 - φ x)) ^ 2 := by
  have hmv : ∀ n : ℕ, ∃ ξ : ℝ, (n : ℝ) < ξ ∧ φ' ξ = φ (n + 1) - φ n := by
    intro n
    obtain ⟨ξ, hξ, e⟩ := exists_hasDerivAt_eq_slope φ φ' (show (n : ℝ) < n + 1 by linarith)
      (fun x _ => (hd x).continuousAt.continuousWithinAt) (fun x _ => hd x)
    exact ⟨ξ, hξ.1, by rw [e]; simp⟩
  choose ξ hξ e using hmv
  have hξt : Tendsto ξ atTop atTop :=
    tendsto_atTop_mono (fun n => (hξ n).le) tendsto_natCast_atTop_atTop
  have ht1 : Tendsto (fun n : ℕ => φ' (ξ n)) atTop (𝓝 0) := by
    have a1 : Tendsto (fun n : ℕ => φ (n : ℝ)) atTop (𝓝 1) := htop.comp tendsto_natCast_atTop_atTop
    have a2 : Tendsto (fun n : ℕ => φ ((n : ℝ) + 1)) atTop (𝓝 1) :=
      htop.comp (tendsto_atTop_add_const_right atTop 1 tendsto_natCast_atTop_atTop)
    have := a2.sub a1
    simp only [e]
    simpa using this
  have ht2 : Tendsto (fun n : ℕ => φ (ξ n)) atTop (𝓝 1) := htop.comp hξt
  have ht3 := (ht1.pow 2).sub (((ht2.mul (ht2.const_sub 1)).pow 2).const_mul (k ^ 2))
  have hc : ∀ n, φ' (ξ n) ^ 2 - k ^ 2 * (φ (ξ n) * (1 - φ (ξ n))) ^ 2 = φ' x ^ 2 - k ^ 2 * (φ x * (1 - φ x)) ^ 2 :=
    fun n => well_integral hd hd2 _ _
  simp only [hc] at ht3
  have := tendsto_nhds_unique tendsto_const_nhds ht3
  norm_num at this
  linarith

include hk hbot in
theorem well_first_order (x : ℝ) : φ' x = k * (φ x * (1 - φ x)) := by
  have hc1 : Continuous φ := continuous_iff_continuousAt.mpr fun x => (hd x).continuousAt
  have hc2 : Continuous φ' := continuous_iff_continuousAt.mpr fun x => (hd2 x).continuousAt
  have hpos : ∀ x, 0 < k * (φ x * (1 - φ x)) := by
    intro x
    have := h0 x
    have := sub_pos.mpr (h1 x)
    positivity
  have hsq : Set.EqOn (φ' ^ 2) ((fun x => k * (φ x * (1 - φ x))) ^ 2) Set.univ := by
    intro x _
    simp only [Pi.pow_apply]
    rw [well_energy_zero hd hd2 htop x]
    ring
  rcases isPreconnected_univ.eq_or_eq_neg_of_sq_eq hc2.continuousOn
    ((hc1.mul (continuous_const.sub hc1)).const_mul k).continuousOn hsq (fun {x} _ => (hpos x).ne') with h | h
  · exact h (Set.mem_univ x)
  · exfalso
    have hanti : Antitone φ := by
      apply antitone_of_deriv_nonpos (fun x => (hd x).differentiableAt)
      intro y
      rw [(hd y).deriv, h (Set.mem_univ y)]
      exact neg_nonpos.mpr (hpos y).le
    have a1 : ∀ᶠ y in atBot, φ y < φ x := hbot.eventually_lt_const (h0 x)
    obtain ⟨y, hy1, hy2⟩ := (a1.and (eventually_le_atBot x)).exists
    exact absurd (hanti hy2) (not_le.mpr hy1)

include hk hbot in
/-- Every solution of `φ'' = k² φ (1 - φ) (1 - 2 φ)` between 0 and 1 that leads from 0 to 1 is a smooth step. -/
theorem well_unique : ∃ x0, φ = smoothStep k x0 := by
  have hfirst := well_first_order hk h0 h1 hd hd2 hbot htop
  have hlog : ∀ x, HasDerivAt (fun x => Real.log (φ x) - Real.log (1 - φ x) - k * x) 0 x := by
    intro x
    have a0 := h0 x
    have a1 := sub_pos.mpr (h1 x)
    refine ((((hd x).log a0.ne').sub (((hd x).const_sub 1).log a1.ne')).sub ((hasDerivAt_id x).const_mul k)).congr_deriv ?_
    rw [hfirst x]
    field_simp
    ring
  have hconst := fun x y => is_const_of_deriv_eq_zero (fun x => (hlog x).differentiableAt) (fun x => (hlog x).deriv) x y
  refine ⟨-(Real.log (φ 0) - Real.log (1 - φ 0)) / k, ?_⟩
  funext x
  have a0 := h0 x
  have a1 := sub_pos.mpr (h1 x)
  symm
  rw [smoothStep_level hk _ _ a0 (h1 x), Real.log_div a0.ne' a1.ne']
  have := hconst x 0
  simp only [mul_zero, sub_zero] at this
  field_simp
  linarith

end

/-! ### The Kim-Kim-Suzuki example -/

/-- The steepness of the interface. -/
theorem kks_gamma (p : Kks) : kksScalars p "gamma".toList = ((2 * p.w / p.l : ℝ) : ℂ) := by
  unfold kksScalars
  rw [if_neg (by decide), if_neg (by decide), if_pos rfl]

theorem kks_dc (p : Kks) : kksScalars p "c0minusc1".toList = ((p.c0 - p.c1 : ℝ) : ℂ) := if_pos rfl

theorem kks_mobility (p : Kks) : kksScalars p "twof0M".toList = ((2 * p.f0 * p.m : ℝ) : ℂ) := by
  unfold kksScalars
  rw [if_neg (by decide), if_pos rfl]

theorem gderiv_inside (p : Kks) {x : ℝ} (h0 : 0 < x) (h1 : x < 1) :
    kksGderiv p x = 2 * p.w * (x * (1 - x) * (1 - 2 * x)) := by
  unfold kksGderiv
  rw [if_pos ⟨h0, h1⟩]
  ring

/-- C152: on a line, the phase field that makes a smooth step with steepness `√l` together with the concentration
`c0 + H(phi) (c1 - c0)` is at rest under both equations of the program: what stands under the Laplacian in the first is the
same everywhere, and in the second reaction and diffusion cancel. -/
theorem c152_rest (p : Kks) (hl : 0 < p.l) (x0 : ℝ) :
    ∃ phi conc phi' phi'' : ℝ → ℝ, phi = smoothStep (Real.sqrt p.l) x0 ∧
      (∀ x, conc x = p.c0 + kksH (phi x) * (p.c1 - p.c0)) ∧
      (∀ x, HasDerivAt phi (phi' x) x) ∧ (∀ x, HasDerivAt phi' (phi'' x) x) ∧
      (∀ {n : ℕ} (b : Bricks n) (i : Fin n) (x : ℝ), b "phi".toList i = phi x → b "conc".toList i = conc x →
        kksScalars p "twof0M".toList * b "conc".toList i +
          kksScalars p "twof0M".toList * kksScalars p "c0minusc1".toList * kksInterpolant b i =
          ((2 * p.f0 * p.m * p.c0 : ℝ) : ℂ) ∧
        kksPhiRHS p b i + kksScalars p "gamma".toList * phi'' x = 0) := by
  refine ⟨smoothStep (Real.sqrt p.l) x0, fun x => p.c0 + kksH (smoothStep (Real.sqrt p.l) x0 x) * (p.c1 - p.c0), _, _, rfl,
    fun _ => rfl, smoothStep_deriv _ x0, smoothStep_deriv2 _ x0, ?_⟩
  intro n b i x hp hc
  have ei : kksInterpolant b i = ((kksH (smoothStep (Real.sqrt p.l) x0 x) : ℝ) : ℂ) := by
    unfold kksInterpolant
    rw [hp, Complex.ofReal_re]
  constructor
  · rw [hc, kks_mobility, kks_dc, ei]
    push_cast
    ring
  · unfold kksPhiRHS
    dsimp only
    rw [hp, hc, kks_gamma, ei, Complex.ofReal_re, Complex.ofReal_re, Complex.ofReal_re, ← Complex.ofReal_mul,
      ← Complex.ofReal_add, gderiv_inside p (smoothStep_pos _ _ _) (smoothStep_lt _ _ _), Real.sq_sqrt hl.le]
    norm_cast
    beta_reduce
    generalize smoothStep (Real.sqrt p.l) x0 x = y
    have e : 2 * p.w / p.l * (p.l * (y * (1 - y) * (1 - 2 * y))) = 2 * p.w * (y * (1 - y) * (1 - 2 * y)) := by
      field_simp
    rw [e]
    ring

/-- C152: these are the only interfaces: if reaction and diffusion of a phase field between 0 and 1 cancel on a line, with the
concentration of the phases constant, and the field leads from 0 to 1, it is a smooth step with steepness `√l`. -/
theorem c152_only (p : Kks) (hl : 0 < p.l) (hw : 0 < p.w) {phi phi' phi'' : ℝ → ℝ} (h0 : ∀ x, 0 < phi x) (h1 : ∀ x, phi x < 1)
    (hd : ∀ x, HasDerivAt phi (phi' x) x) (hd2 : ∀ x, HasDerivAt phi' (phi'' x) x)
    (hrest : ∀ x, kksPhiRHS p (fun name (_ : Fin 1) => if name = "phi".toList then (phi x : ℂ) else
      ((p.c0 + kksH (phi x) * (p.c1 - p.c0) : ℝ) : ℂ)) 0 + kksScalars p "gamma".toList * phi'' x = 0)
    (hbot : Tendsto phi atBot (𝓝 0)) (htop : Tendsto phi atTop (𝓝 1)) :
    ∃ x0, phi = smoothStep (Real.sqrt p.l) x0 := by
  refine well_unique (Real.sqrt_pos.mpr hl) h0 h1 hd ?_ hbot htop
  intro x
  refine (hd2 x).congr_deriv ?_
  have h := hrest x
  unfold kksPhiRHS kksInterpolant at h
  dsimp only at h
  rw [if_pos rfl, if_neg (by decide), kks_gamma, Complex.ofReal_re, Complex.ofReal_re, Complex.ofReal_re, ← Complex.ofReal_mul,
      ← Complex.ofReal_add, gderiv_inside p (h0 x) (h1 x)] at h
  have h := Complex.ofReal_eq_zero.mp h
  rw [Real.sq_sqrt hl.le]
  generalize phi x = y at *
  generalize phi'' x = z at *
  have e : 2 * p.w / p.l * z = 2 * p.w * (y * (1 - y) * (1 - 2 * y)) := by linarith
  have e2 : 2 * p.w * z = 2 * p.w * (p.l * (y * (1 - y) * (1 - 2 * y))) := by
    have : p.l * (2 * p.w / p.l * z) = p.l * (2 * p.w * (y * (1 - y) * (1 - 2 * y))) := by rw [e]
    have e3 : p.l * (2 * p.w / p.l * z) = 2 * p.w * z := by field_simp
    rw [e3] at this
    rw [this]
    ring
  exact mul_left_cancel₀ (by positivity) e2

/-- C152: how wide the interface is. The line through its middle with its slope rises from 0 to 1 over the distance `4/√l`;
between the levels 0.1 and 0.9 the interface takes `2 log 9 / √l`. -/
theorem c152_width (p : Kks) (hl : 0 < p.l) (x0 : ℝ) :
    smoothStep (Real.sqrt p.l) x0 x0 = 1 / 2 ∧
    HasDerivAt (smoothStep (Real.sqrt p.l) x0) (1 / (4 / Real.sqrt p.l)) x0 ∧
    (∀ x y, smoothStep (Real.sqrt p.l) x0 x = 1 / 10 → smoothStep (Real.sqrt p.l) x0 y = 9 / 10 →
      y - x = 2 * Real.log 9 / Real.sqrt p.l) := by
  have hk := Real.sqrt_pos.mpr hl
  have hmid : smoothStep (Real.sqrt p.l) x0 x0 = 1 / 2 := by
    unfold smoothStep
    norm_num
  refine ⟨hmid, ?_, ?_⟩
  · refine (smoothStep_deriv (Real.sqrt p.l) x0 x0).congr_deriv ?_
    rw [hmid]
    field_simp
    norm_num
  · intro x y hx hy
    rw [smoothStep_level hk _ _ (by norm_num) (by norm_num)] at hx hy
    rw [hx, hy]
    have e1 : (1 : ℝ) / 10 / (1 - 1 / 10) = 9⁻¹ := by norm_num
    have e2 : (9 : ℝ) / 10 / (1 - 9 / 10) = 9 := by norm_num
    rw [e1, e2, Real.log_inv]
    ring

/-- C152: the constant that the program calls the thickness of the interface is not its thickness: larger values make the
interface thinner, and only for `l = ∛16` does the distance `4/√l` equal `l`. -/
theorem c152_thickness {l l' : ℝ} (hl : 0 < l) :
    (l < l' → 4 / Real.sqrt l' < 4 / Real.sqrt l) ∧ (4 / Real.sqrt l = l ↔ l ^ 3 = 16) := by
  have hk := Real.sqrt_pos.mpr hl
  constructor
  · intro h
    have := Real.sqrt_lt_sqrt hl.le h
    exact div_lt_div_of_pos_left (by norm_num) hk this
  · have hs := Real.sq_sqrt hl.le
    rw [div_eq_iff hk.ne']
    constructor
    · intro h
      have : (l * Real.sqrt l) ^ 2 = 16 := by rw [← h]; norm_num
      rw [mul_pow, hs] at this
      linarith [this, (by ring : l ^ 2 * l = l ^ 3)]
    · intro h
      have h2 : (l * Real.sqrt l) ^ 2 = 4 ^ 2 := by
        rw [mul_pow, hs]
        linarith [(by ring : l ^ 2 * l = l ^ 3)]
      exact ((sq_eq_sq₀ (by positivity) (by norm_num)).mp h2).symm

/-- C152: the energy of the interface per area: barrier and gradient contribute `w/(3√l)` together. -/
theorem c152_energy (p : Kks) (hl : 0 < p.l) (hw : 0 < p.w) (x0 : ℝ) :
    ∫ x, (p.w * (smoothStep (Real.sqrt p.l) x0 x) ^ 2 * (1 - smoothStep (Real.sqrt p.l) x0 x) ^ 2 +
      (2 * p.w / p.l) / 2 * (deriv (smoothStep (Real.sqrt p.l) x0) x) ^ 2) = p.w / (3 * Real.sqrt p.l) := by
  have hk := Real.sqrt_pos.mpr hl
  have hsq := Real.sq_sqrt hl.le
  set k := Real.sqrt p.l with hkdef
  have e : ∀ x, p.w * (smoothStep k x0 x) ^ 2 * (1 - smoothStep k x0 x) ^ 2 +
      (2 * p.w / p.l) / 2 * (deriv (smoothStep k x0) x) ^ 2 =
      2 * p.w * (smoothStep k x0 x * (1 - smoothStep k x0 x)) ^ 2 := by
    intro x
    rw [(smoothStep_deriv k x0 x).deriv, ← hsq]
    field_simp
    ring
  simp only [e]
  have hder : ∀ x, HasDerivAt (fun x => 2 * p.w / k * (smoothStep k x0 x ^ 2 / 2 - smoothStep k x0 x ^ 3 / 3))
      (2 * p.w * (smoothStep k x0 x * (1 - smoothStep k x0 x)) ^ 2) x := by
    intro x
    have h := smoothStep_deriv k x0 x
    refine ((((h.pow 2).div_const 2).sub ((h.pow 3).div_const 3)).const_mul (2 * p.w / k)).congr_deriv ?_
    simp only [Nat.cast_ofNat, Nat.add_one_sub_one, pow_one]
    field_simp
  have htop := (((smoothStep_top hk x0).pow 2).div_const 2).sub (((smoothStep_top hk x0).pow 3).div_const 3) |>.const_mul (2 * p.w / k)
  have hbot := (((smoothStep_bot hk x0).pow 2).div_const 2).sub (((smoothStep_bot hk x0).pow 3).div_const 3) |>.const_mul (2 * p.w / k)
  have hint : Integrable fun x => 2 * p.w * (smoothStep k x0 x * (1 - smoothStep k x0 x)) ^ 2 := by
    have hcont : Continuous fun x => 2 * p.w * (smoothStep k x0 x * (1 - smoothStep k x0 x)) ^ 2 := by
      have : Continuous (smoothStep k x0) := continuous_iff_continuousAt.mpr fun x => (smoothStep_deriv k x0 x).continuousAt
      fun_prop
    refine integrable_of_intervalIntegral_norm_tendsto (l := atTop) (a := fun n : ℕ => -(n : ℝ)) (b := fun n : ℕ => (n : ℝ))
      _ (fun n => hcont.integrableOn_Ioc) (tendsto_neg_atTop_atBot.comp tendsto_natCast_atTop_atTop) tendsto_natCast_atTop_atTop
      (Tendsto.congr ?_ ((htop.comp tendsto_natCast_atTop_atTop).sub
        (hbot.comp (tendsto_neg_atTop_atBot.comp tendsto_natCast_atTop_atTop))))
    intro n
    have hn : ∀ x, ‖2 * p.w * (smoothStep k x0 x * (1 - smoothStep k x0 x)) ^ 2‖ =
        2 * p.w * (smoothStep k x0 x * (1 - smoothStep k x0 x)) ^ 2 := fun x => Real.norm_of_nonneg (by positivity)
    simp only [hn]
    rw [intervalIntegral.integral_eq_sub_of_hasDerivAt (fun x _ => hder x) (hcont.intervalIntegrable _ _)]
    rfl
  rw [integral_of_hasDerivAt_of_tendsto hder hint hbot htop]
  field_simp
  ring

/-! ### The Cahn-Hilliard example -/

/-- C152: in the Cahn-Hilliard example the step from -1 to 1 with steepness `√(2/gamma)` is at rest: what stands under the
Laplacian is zero. -/
theorem c152_cahn_hilliard {gamma : ℝ} (hg : 0 < gamma) (x0 : ℝ) :
    ∃ conc conc' conc'' : ℝ → ℝ, (∀ x, conc x = 2 * smoothStep (Real.sqrt (2 / gamma)) x0 x - 1) ∧
      (∀ x, HasDerivAt conc (conc' x) x) ∧ (∀ x, HasDerivAt conc' (conc'' x) x) ∧
      Tendsto conc atBot (𝓝 (-1)) ∧ Tendsto conc atTop (𝓝 1) ∧
      ∀ x, (conc x : ℂ) ^ 3 + cahnHilliardScalars gamma "m1".toList * conc x +
        cahnHilliardScalars gamma "m1".toList * cahnHilliardScalars gamma "gamma".toList * conc'' x = 0 := by
  have hk := Real.sqrt_pos.mpr (show 0 < 2 / gamma by positivity)
  refine ⟨fun x => 2 * smoothStep (Real.sqrt (2 / gamma)) x0 x - 1, _, _, fun _ => rfl,
    fun x => ((smoothStep_deriv _ x0 x).const_mul 2).sub_const 1, fun x => (smoothStep_deriv2 _ x0 x).const_mul 2, ?_, ?_, ?_⟩
  · have := ((smoothStep_bot hk x0).const_mul 2).sub_const 1
    simpa using this
  · have := ((smoothStep_top hk x0).const_mul 2).sub_const 1
    rw [show (2 : ℝ) * 1 - 1 = 1 by norm_num] at this
    exact this
  · intro x
    beta_reduce
    have e1 : cahnHilliardScalars gamma "m1".toList = -1 := by
      unfold cahnHilliardScalars
      rw [if_neg (by decide), if_pos rfl]
    have e2 : cahnHilliardScalars gamma "gamma".toList = (gamma : ℂ) := if_pos rfl
    rw [e1, e2, Real.sq_sqrt (by positivity)]
    generalize smoothStep (Real.sqrt (2 / gamma)) x0 x = y
    have h : (2 * y - 1) ^ 3 - (2 * y - 1) - gamma * (2 * (2 / gamma * (y * (1 - y) * (1 - 2 * y)))) = 0 := by
      field_simp
      ring
    have h2 := congrArg (fun t : ℝ => (t : ℂ)) h
    push_cast at h2 ⊢
    linear_combination h2

/-! ### Concrete cases -/

/-- The constants of the program: `4/√2` instead of 2. -/
example : 0 < kksConstants.l ∧ 0 < kksConstants.w ∧ 4 / Real.sqrt kksConstants.l ≠ kksConstants.l := by
  refine ⟨by norm_num [kksConstants], by norm_num [kksConstants], ?_⟩
  rw [ne_eq, (c152_thickness (l' := 0) (by norm_num [kksConstants])).2]
  norm_num [kksConstants]

/-- The hypotheses of `c152_only` are met by the smooth step itself. -/
example : Tendsto (smoothStep (Real.sqrt kksConstants.l) 0) atBot (𝓝 0) ∧
    Tendsto (smoothStep (Real.sqrt kksConstants.l) 0) atTop (𝓝 1) := by
  have : 0 < Real.sqrt kksConstants.l := Real.sqrt_pos.mpr (by norm_num [kksConstants])
  exact ⟨smoothStep_bot this 0, smoothStep_top this 0⟩

end Gopf.Props
