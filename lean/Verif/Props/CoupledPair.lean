import Verif.Props.PredatorPrey

/-!
# C161: two coupled equations

For two equations the multipliers are the roots of a quadratic polynomial, so that stability can be read off the rates of
the linearised equations.
-/

namespace Gopf.Props
open Spec Pf Pfutil

variable {n nf : ℕ} {dims : List ℕ}

/-! ### The specification -/

/-- How fast the right-hand side changes with the amplitude of the wave `k` in the field `f`. -/
noncomputable def waveRate (N : Names) (c : Str → ℂ) (freq : Frequency n) (eq : Equation) (z : Str → ℂ) (k : Fin n) (f : Str) : ℂ :=
  linearSeen N c freq eq z k (Pi.single f 1) (Pi.single f 1)

/-- The part of `waveRate` that is due to terms with one bare field. -/
noncomputable def bareRate (N : Names) (c : Str → ℂ) (freq : Frequency n) (eq : Equation) (z : Str → ℂ) (k : Fin n) (f : Str) : ℂ :=
  linearSeen N c freq eq z k 0 (Pi.single f 1)

/-- The rates of two equations for one wave. -/
structure PairRates where
  implicit1 : ℝ
  implicit2 : ℝ
  rate11 : ℝ
  rate12 : ℝ
  rate21 : ℝ
  rate22 : ℝ
  /-- the part of `rate21` that sees the new value of the first field -/
  bare21 : ℝ

/-- The rates that the text spells. -/
noncomputable def pairRates (N : Names) (c : Str → ℂ) (freq : Frequency n) (e1 e2 : Equation) (z : Str → ℂ) (k : Fin n) : PairRates :=
  ⟨(implicitRate N c freq e1 k).re, (implicitRate N c freq e2 k).re,
    (waveRate N c freq e1 z k e1.field).re, (waveRate N c freq e1 z k e2.field).re,
    (waveRate N c freq e2 z k e1.field).re, (waveRate N c freq e2 z k e2.field).re, (bareRate N c freq e2 z k e1.field).re⟩

/-- The sum of the two growth rates of the linearised equations. -/
def PairRates.trace (r : PairRates) : ℝ := r.rate11 + r.rate22

/-- The product of the two growth rates of the linearised equations. -/
def PairRates.det (r : PairRates) : ℝ := r.rate11 * r.rate22 - r.rate12 * r.rate21

/-- What is divided by in a step. -/
def PairRates.divisor (r : PairRates) (dt : ℝ) : ℝ := (1 - dt * r.implicit1) * (1 - dt * r.implicit2)

/-- The sum of the growth rates, as a step with the time step `dt` sees it. -/
def PairRates.drift (r : PairRates) (dt : ℝ) : ℝ :=
  (1 - dt * r.implicit1) * r.rate22 + (1 - dt * r.implicit2) * r.rate11 +
    dt * (r.rate11 * r.rate22 - r.rate12 * (r.rate21 - r.bare21))

/-- What keeps a perturbation from changing sign with growing size. -/
def PairRates.margin (r : PairRates) (dt : ℝ) : ℝ :=
  4 * r.divisor dt + 2 * dt * ((1 - dt * r.implicit1) * r.rate22 + (1 - dt * r.implicit2) * r.rate11) +
    dt ^ 2 * (r.det + 2 * r.rate12 * r.bare21)

/-! ### Quadratic polynomials -/

theorem roots_inside {A B C : ℝ} (hA : 0 < A) (h1 : 0 < A + B + C) (h2 : 0 < A - B + C) (h3 : C < A) {μ : ℂ}
    (hμ : (A : ℂ) * μ ^ 2 + B * μ + C = 0) : ‖μ‖ < 1 := by
  have hre := congrArg Complex.re hμ
  have him := congrArg Complex.im hμ
  simp only [pow_two, Complex.add_re, Complex.mul_re, Complex.ofReal_re, Complex.ofReal_im, zero_mul, sub_zero,
    Complex.zero_re, Complex.add_im, Complex.mul_im, add_zero, Complex.zero_im] at hre him
  set x := μ.re
  set y := μ.im
  have hn : ‖μ‖ ^ 2 = x ^ 2 + y ^ 2 := norm_sq_parts μ
  suffices hs : x ^ 2 + y ^ 2 < 1 by
    have h0 := norm_nonneg μ
    nlinarith
  by_cases hy : y = 0
  · rw [hy] at hre ⊢
    have hf : A * x ^ 2 + B * x + C = 0 := by linarith
    have hx1 : x < 1 := by
      by_contra hc
      push Not at hc
      have p1 : 0 < 2 * A + B := by linarith
      have p2 : 0 ≤ (x - 1) * (A * (x - 1) + (2 * A + B)) := mul_nonneg (by linarith) (by nlinarith)
      nlinarith
    have hx2 : -1 < x := by
      by_contra hc
      push Not at hc
      have p1 : 0 < 2 * A - B := by linarith
      have p2 : 0 ≤ (-1 - x) * (A * (-1 - x) + (2 * A - B)) := mul_nonneg (by linarith) (by nlinarith)
      nlinarith
    nlinarith
  · have hB : 2 * A * x + B = 0 := by
      have : y * (2 * A * x + B) = 0 := by linarith
      exact (mul_eq_zero.mp this).resolve_left hy
    have hC : A * (x ^ 2 + y ^ 2) = C := by
      have : B = -(2 * A * x) := by linarith
      rw [this] at hre
      linarith
    by_contra hc
    push Not at hc
    have := mul_le_mul_of_nonneg_left hc hA.le
    linarith

theorem root_outside {A B C : ℝ} (hA : 0 < A) (h : A + B + C < 0 ∨ A - B + C < 0 ∨ A < C) :
    ∃ μ : ℂ, (A : ℂ) * μ ^ 2 + B * μ + C = 0 ∧ 1 < ‖μ‖ := by
  have real : ∀ x : ℝ, A * x ^ 2 + B * x + C = 0 → 1 < |x| → ∃ μ : ℂ, (A : ℂ) * μ ^ 2 + B * μ + C = 0 ∧ 1 < ‖μ‖ := by
    intro x hx h1
    refine ⟨(x : ℂ), by exact_mod_cast hx, ?_⟩
    rwa [Complex.norm_real, Real.norm_eq_abs]
  rcases h with h | h | h
  · have hd : 0 < B ^ 2 - 4 * A * C := by nlinarith [sq_nonneg (2 * A + B)]
    have hs := Real.sq_sqrt hd.le
    set q := Real.sqrt (B ^ 2 - 4 * A * C) with hq
    have hlt : 2 * A + B < q := by
      rw [hq]
      apply Real.lt_sqrt_of_sq_lt
      nlinarith
    refine real ((-B + q) / (2 * A)) ?_ ?_
    · field_simp
      linarith
    · refine lt_of_lt_of_le ?_ (le_abs_self _)
      rw [lt_div_iff₀ (by linarith)]
      linarith
  · have hd : 0 < B ^ 2 - 4 * A * C := by nlinarith [sq_nonneg (2 * A - B)]
    have hs := Real.sq_sqrt hd.le
    set q := Real.sqrt (B ^ 2 - 4 * A * C) with hq
    have hlt : 2 * A - B < q := by
      rw [hq]
      apply Real.lt_sqrt_of_sq_lt
      nlinarith
    refine real ((-B - q) / (2 * A)) ?_ ?_
    · field_simp
      linarith
    · refine lt_of_lt_of_le ?_ (neg_le_abs _)
      rw [← neg_div, lt_div_iff₀ (by linarith)]
      linarith
  · obtain ⟨d, hd⟩ := IsAlgClosed.exists_pow_nat_eq ((B : ℂ) ^ 2 - 4 * A * C) (n := 2) (by norm_num)
    have hA' : (A : ℂ) ≠ 0 := Complex.ofReal_ne_zero.mpr hA.ne'
    set r1 : ℂ := (-B + d) / (2 * A) with hr1
    set r2 : ℂ := (-B - d) / (2 * A) with hr2
    have hroot : ∀ e : ℂ, e ^ 2 = (B : ℂ) ^ 2 - 4 * A * C →
        (A : ℂ) * ((-B + e) / (2 * A)) ^ 2 + B * ((-B + e) / (2 * A)) + C = 0 := by
      intro e he
      field_simp
      linear_combination he
    have hp : r1 * r2 = (C / A : ℝ) := by
      rw [hr1, hr2]
      push_cast
      field_simp
      linear_combination (-1 : ℂ) * hd
    have hn : ‖r1‖ * ‖r2‖ = C / A := by
      rw [← norm_mul, hp, Complex.norm_real, Real.norm_of_nonneg]
      exact div_nonneg (hA.le.trans h.le) hA.le
    have h1 : 1 < C / A := (one_lt_div hA).mpr h
    by_cases hc : 1 < ‖r1‖
    · exact ⟨r1, hroot d hd, hc⟩
    · refine ⟨r2, ?_, ?_⟩
      · have := hroot (-d) (by rw [neg_sq, hd])
        rwa [← sub_eq_add_neg] at this
      · push Not at hc
        by_contra hc2
        push Not at hc2
        have := mul_le_one₀ hc (norm_nonneg r2) hc2
        linarith

/-! ### Linearity -/

theorem monoSlope_linear (l : List (Fin nf × ℕ)) (ζ a b : Fin nf → ℂ) (x y : ℂ) :
    monoSlope l ζ (fun j => x * a j + y * b j) = x * monoSlope l ζ a + y * monoSlope l ζ b := by
  induction l with
  | nil => simp [monoSlope]
  | cons f l ih =>
    simp only [monoSlope, ih]
    ring

theorem prod_powers_real (l : List (Fin nf × ℕ)) {ζ : Fin nf → ℂ} (hζ : ∀ j, (ζ j).im = 0) :
    ((l.map fun g => ζ g.1 ^ g.2).prod).im = 0 := by
  have e : ∀ j, ζ j = ((ζ j).re : ℂ) := fun j => Complex.ext rfl (hζ j)
  induction l with
  | nil => simp
  | cons f l ih =>
    rw [List.map_cons, List.prod_cons, Complex.mul_im, ih, e f.1, ← Complex.ofReal_pow, Complex.ofReal_im]
    ring

theorem monoSlope_real (l : List (Fin nf × ℕ)) {ζ a : Fin nf → ℂ} (hζ : ∀ j, (ζ j).im = 0) (ha : ∀ j, (a j).im = 0) :
    (monoSlope l ζ a).im = 0 := by
  have e : ∀ j, ζ j = ((ζ j).re : ℂ) := fun j => Complex.ext rfl (hζ j)
  have e' : ∀ j, a j = ((a j).re : ℂ) := fun j => Complex.ext rfl (ha j)
  induction l with
  | nil => simp [monoSlope]
  | cons f l ih =>
    have h1 : ((f.2 : ℂ) * ζ f.1 ^ (f.2 - 1) * a f.1).im = 0 := by
      rw [e f.1, e' f.1, ← Complex.ofReal_pow, ← Complex.ofReal_natCast, ← Complex.ofReal_mul, ← Complex.ofReal_mul,
        Complex.ofReal_im]
    have h2 : (ζ f.1 ^ f.2).im = 0 := by rw [e f.1, ← Complex.ofReal_pow, Complex.ofReal_im]
    simp only [monoSlope]
    rw [Complex.add_im, Complex.mul_im, h1, prod_powers_real l hζ, Complex.mul_im, h2, ih]
    ring

section
variable {f g : Str} {fs : List Factor} (hfs : ∀ a ∈ fs, a.name ∈ [f, g]) (hnat : ∀ a ∈ fs, ∃ q : ℕ, a.power = q)
include hfs hnat

theorem productSlope_mono (z w : Str → ℂ) : productSlope fs z w =
    monoSlope (factorsAt [f, g] ⟨0, by simp⟩ fs) (fun j => z [f, g][j]) (fun j => w [f, g][j]) :=
  factors_slope _ hfs hnat z w _ _ (fun _ => rfl) (fun _ => rfl)

theorem productSlope_two (hfg : f ≠ g) (z w : Str → ℂ) :
    productSlope fs z w = w f * productSlope fs z (Pi.single f 1) + w g * productSlope fs z (Pi.single g 1) := by
  rw [productSlope_mono hfs hnat, productSlope_mono hfs hnat, productSlope_mono hfs hnat, ← monoSlope_linear]
  congr 1
  funext ⟨j, hj⟩
  match j, hj with
  | 0, _ => simp [hfg]
  | 1, _ => simp [hfg.symm]

theorem productSlope_zero (z : Str → ℂ) : productSlope fs z 0 = 0 := by
  rw [productSlope_mono hfs hnat]
  have := monoSlope_linear (factorsAt [f, g] ⟨0, by simp⟩ fs) (fun j => z [f, g][j]) (fun _ => 0) (fun _ => 0) 0 0
  simpa using this

theorem productSlope_real {z w : Str → ℂ} (hz : ∀ x ∈ [f, g], (z x).im = 0) (hw : ∀ x, (w x).im = 0) :
    (productSlope fs z w).im = 0 := by
  rw [productSlope_mono hfs hnat]
  exact monoSlope_real _ (fun j => hz _ (List.getElem_mem _)) fun j => hw _

end

theorem list_sum_real {ι : Type} (l : List ι) (F : ι → ℂ) (h : ∀ p ∈ l, (F p).im = 0) : ((l.map F).sum).im = 0 := by
  induction l with
  | nil => simp
  | cons p l ih =>
    rw [List.map_cons, List.sum_cons, Complex.add_im, h p (by simp), ih fun q hq => h q (by simp [hq]), add_zero]

section
variable {N : Names} {f g : Str} (hfields : N.fields = [f, g]) (hfn : N.functions = []) {eq : Equation}
  (hnat : ∀ p ∈ eq.terms, ∀ a ∈ factorsIn N.varying p.1, ∃ q : ℕ, a.power = q)
include hfields hfn

theorem factor_pair (l : List Item) : ∀ a ∈ factorsIn N.varying l, a.name ∈ [f, g] := by
  intro a ha
  have := (List.mem_filter.mp ha).2
  simp only [decide_eq_true_eq, Names.varying, hfn, List.append_nil] at this
  rwa [← hfields]

include hnat

theorem linearSeen_two (hfg : f ≠ g) (c : Str → ℂ) (freq : Frequency n) (z : Str → ℂ) (k : Fin n) (w v : Str → ℂ) :
    linearSeen N c freq eq z k w v =
      (waveRate N c freq eq z k f - bareRate N c freq eq z k f) * w f + bareRate N c freq eq z k f * v f +
      ((waveRate N c freq eq z k g - bareRate N c freq eq z k g) * w g + bareRate N c freq eq z k g * v g) := by
  unfold waveRate bareRate linearSeen
  generalize eq.terms = L at hnat
  induction L with
  | nil => simp
  | cons p L ih =>
    have ih := ih fun q hq => hnat q (by simp [hq])
    simp only [List.map_cons, List.sum_cons]
    rw [ih]
    have hp := hnat p (by simp)
    have hf := factor_pair hfields hfn p.1
    by_cases hb : BareField N p
    · simp only [if_pos hb]
      rw [productSlope_two hf hp hfg z v]
      ring
    · simp only [if_neg hb]
      rw [productSlope_two hf hp hfg z w, productSlope_zero hf hp]
      ring

theorem linearSeen_real {c : Str → ℂ} (hpow : Equation.RealPowers N c eq) {z : Str → ℂ} (hz : ∀ x ∈ N.fields, (z x).im = 0)
    (freq : Frequency n) (k : Fin n) {w v : Str → ℂ} (hw : ∀ x, (w x).im = 0) (hv : ∀ x, (v x).im = 0) :
    (linearSeen N c freq eq z k w v).im = 0 := by
  unfold linearSeen
  refine list_sum_real _ _ fun p hp => ?_
  have e1 : (coefficient N c p).im = 0 := coefficient_real (hpow p hp).2
  have e2 : (laplaceSymbol (freq k) ^ (laplacians p.1).sum).im = 0 := by
    unfold laplaceSymbol
    rw [← Complex.ofReal_neg, ← Complex.ofReal_pow, Complex.ofReal_im]
  have e3 : ∀ u : Str → ℂ, (∀ x, (u x).im = 0) → (productSlope (factorsIn N.varying p.1) z u).im = 0 := fun u hu =>
    productSlope_real (factor_pair hfields hfn p.1) (hnat p hp) (by rwa [← hfields]) hu
  rw [Complex.mul_im, Complex.mul_im, e1, e2]
  split_ifs
  · rw [e3 v hv]
    ring
  · rw [e3 w hw]
    ring

end

theorem implicitRate_im {N : Names} {c : Str → ℂ} {eq : Equation} (hpow : Equation.RealPowers N c eq) (freq : Frequency n)
    (k : Fin n) : (implicitRate N c freq eq k).im = 0 := by
  unfold implicitRate
  refine list_sum_real _ _ fun p hp => ?_
  have e1 : (coefficient N c p).im = 0 := coefficient_real (hpow p hp).2
  have e2 : (laplaceSymbol (freq k) ^ (laplacians p.1).sum).im = 0 := by
    unfold laplaceSymbol
    rw [← Complex.ofReal_neg, ← Complex.ofReal_pow, Complex.ofReal_im]
  split_ifs
  · rw [Complex.mul_im, e1, e2]
    ring
  · rfl

/-! ### The multipliers of two equations -/

theorem two_by_two (α β γ δ : ℂ) : (∃ x y : ℂ, (x ≠ 0 ∨ y ≠ 0) ∧ α * x = β * y ∧ δ * y = γ * x) ↔ α * δ = β * γ := by
  constructor
  · rintro ⟨x, y, hxy, h1, h2⟩
    rcases hxy with hx | hy
    · refine mul_right_cancel₀ hx ?_
      linear_combination δ * h1 + β * h2
    · refine mul_right_cancel₀ hy ?_
      linear_combination γ * h1 + α * h2
  · intro h
    by_cases h1 : α = 0 ∧ β = 0
    · by_cases h2 : δ = 0 ∧ γ = 0
      · exact ⟨1, 0, Or.inl one_ne_zero, by rw [h1.1]; ring, by rw [h2.2]; ring⟩
      · refine ⟨δ, γ, ?_, by rw [h1.1, h1.2]; ring, by ring⟩
        by_contra hc
        push Not at hc
        exact h2 hc
    · refine ⟨β, α, ?_, by ring, by linear_combination h⟩
      by_contra hc
      push Not at hc
      exact h1 ⟨hc.2, hc.1⟩

section
variable {N : Names} (hfn : N.functions = []) {e1 e2 : Equation} (hfields : N.fields = [e1.field, e2.field])
  (hnd : e1.field ≠ e2.field) (hnat : ∀ eq ∈ [e1, e2], ∀ p ∈ eq.terms, ∀ a ∈ factorsIn N.varying p.1, ∃ q : ℕ, a.power = q)
include hfn hfields hnd hnat

/-- C161: the multipliers of two equations are the roots of a quadratic polynomial. -/
theorem c161_pair_multiplier (c : Str → ℂ) (freq : Frequency n) (dt : ℝ) (z : Str → ℂ) (k : Fin n) (μ : ℂ) :
    IsMultiplier N c freq dt [e1, e2] z k μ ↔
      ((1 - dt * implicitRate N c freq e1 k) * (μ - 1) - dt * waveRate N c freq e1 z k e1.field) *
        ((1 - dt * implicitRate N c freq e2 k) * (μ - 1) - dt * waveRate N c freq e2 z k e2.field) =
      dt * waveRate N c freq e1 z k e2.field *
        (dt * (waveRate N c freq e2 z k e1.field - bareRate N c freq e2 z k e1.field + μ * bareRate N c freq e2 z k e1.field)) := by
  have n1 := hnat e1 (by simp)
  have n2 := hnat e2 (by simp)
  have i1 : N.fields.idxOf e1.field = 0 := by rw [hfields]; simp
  have i2 : N.fields.idxOf e2.field = 1 := by
    rw [hfields, List.idxOf_cons_ne _ hnd]
    simp
  rw [← two_by_two]
  unfold IsMultiplier
  constructor
  · rintro ⟨w, ⟨x, hx, hwx⟩, hw⟩
    refine ⟨w e1.field, w e2.field, ?_, ?_, ?_⟩
    · rw [hfields] at hx
      simp only [List.mem_cons, List.not_mem_nil, or_false] at hx
      rcases hx with rfl | rfl
      · exact Or.inl hwx
      · exact Or.inr hwx
    · have h0 := hw 0 (by simp)
      simp only [List.getElem_cons_zero] at h0
      rw [linearSeen_two hfields hfn n1 hnd, i1, i2] at h0
      rw [if_neg (lt_irrefl 0), if_neg (by norm_num)] at h0
      linear_combination h0
    · have h1 := hw 1 (by simp)
      simp only [List.getElem_cons_succ, List.getElem_cons_zero] at h1
      rw [linearSeen_two hfields hfn n2 hnd, i1, i2] at h1
      rw [if_pos (by norm_num), if_neg (lt_irrefl 1)] at h1
      linear_combination h1
  · rintro ⟨x, y, hxy, h0, h1⟩
    obtain ⟨w, hx, hy⟩ : ∃ w : Str → ℂ, w e1.field = x ∧ w e2.field = y :=
      ⟨fun s => if s = e1.field then x else y, if_pos rfl, if_neg hnd.symm⟩
    refine ⟨w, ?_, ?_⟩
    · rcases hxy with h | h
      · exact ⟨e1.field, by rw [hfields]; simp, by rwa [hx]⟩
      · exact ⟨e2.field, by rw [hfields]; simp, by rwa [hy]⟩
    · intro i hi
      match i, hi with
      | 0, _ =>
        simp only [List.getElem_cons_zero]
        rw [linearSeen_two hfields hfn n1 hnd, i1, i2, if_neg (lt_irrefl 0), if_neg (by norm_num), hx, hy]
        linear_combination h0
      | 1, _ =>
        simp only [List.getElem_cons_succ, List.getElem_cons_zero]
        rw [linearSeen_two hfields hfn n2 hnd, i1, i2, if_pos (by norm_num), if_neg (lt_irrefl 1), hx, hy]
        linear_combination h1

/-- With real parameters the polynomial has real coefficients. -/
theorem pair_polynomial {c : Str → ℂ} (hpow : ∀ eq ∈ [e1, e2], Equation.RealPowers N c eq) {z : Str → ℂ}
    (hz : ∀ x ∈ N.fields, (z x).im = 0) (freq : Frequency n) (dt : ℝ) (k : Fin n) (μ : ℂ) :
    IsMultiplier N c freq dt [e1, e2] z k μ ↔
      (((pairRates N c freq e1 e2 z k).divisor dt : ℝ) : ℂ) * μ ^ 2 +
      ((-2 * (pairRates N c freq e1 e2 z k).divisor dt - dt * ((1 - dt * (pairRates N c freq e1 e2 z k).implicit1) *
          (pairRates N c freq e1 e2 z k).rate22 + (1 - dt * (pairRates N c freq e1 e2 z k).implicit2) *
          (pairRates N c freq e1 e2 z k).rate11) -
        dt ^ 2 * (pairRates N c freq e1 e2 z k).rate12 * (pairRates N c freq e1 e2 z k).bare21 : ℝ) : ℂ) * μ +
      (((pairRates N c freq e1 e2 z k).divisor dt + dt * (pairRates N c freq e1 e2 z k).drift dt : ℝ) : ℂ) = 0 := by
  rw [c161_pair_multiplier hfn hfields hnd hnat]
  have one_real : ∀ s x : Str, ((Pi.single s 1 : Str → ℂ) x).im = 0 := by
    intro s x
    rw [Pi.single_apply]
    split_ifs <;> rfl
  have zero_real : ∀ x : Str, ((0 : Str → ℂ) x).im = 0 := fun _ => rfl
  have back : ∀ {x : ℂ}, x.im = 0 → x = (x.re : ℂ) := fun {x} h => Complex.ext rfl h
  have w1 : ∀ s, waveRate N c freq e1 z k s = ((waveRate N c freq e1 z k s).re : ℂ) := fun s =>
    back (linearSeen_real hfields hfn (hnat e1 (by simp)) (hpow e1 (by simp)) hz freq k (one_real s) (one_real s))
  have w2 : ∀ s, waveRate N c freq e2 z k s = ((waveRate N c freq e2 z k s).re : ℂ) := fun s =>
    back (linearSeen_real hfields hfn (hnat e2 (by simp)) (hpow e2 (by simp)) hz freq k (one_real s) (one_real s))
  have b2 : ∀ s, bareRate N c freq e2 z k s = ((bareRate N c freq e2 z k s).re : ℂ) := fun s =>
    back (linearSeen_real hfields hfn (hnat e2 (by simp)) (hpow e2 (by simp)) hz freq k zero_real (one_real s))
  have a1 := back (implicitRate_im (hpow e1 (by simp)) freq k)
  have a2 := back (implicitRate_im (hpow e2 (by simp)) freq k)
  rw [w1 e1.field, w1 e2.field, w2 e1.field, w2 e2.field, b2 e1.field, a1, a2]
  unfold PairRates.divisor PairRates.drift pairRates
  dsimp only
  generalize (waveRate N c freq e1 z k e1.field).re = j11
  generalize (waveRate N c freq e1 z k e2.field).re = j12
  generalize (waveRate N c freq e2 z k e1.field).re = j21
  generalize (waveRate N c freq e2 z k e2.field).re = j22
  generalize (bareRate N c freq e2 z k e1.field).re = b21
  generalize (implicitRate N c freq e1 k).re = p1
  generalize (implicitRate N c freq e2 k).re = p2
  push_cast
  constructor
  · intro h
    linear_combination h
  · intro h
    linear_combination h

theorem pair_inside {c : Str → ℂ} (hpow : ∀ eq ∈ [e1, e2], Equation.RealPowers N c eq) {z : Str → ℂ}
    (hz : ∀ x ∈ N.fields, (z x).im = 0) (freq : Frequency n) {dt : ℝ} (hdt : 0 < dt) (k : Fin n)
    (h0 : 0 < (pairRates N c freq e1 e2 z k).divisor dt) (h1 : 0 < (pairRates N c freq e1 e2 z k).det)
    (h2 : (pairRates N c freq e1 e2 z k).drift dt < 0) (h3 : 0 < (pairRates N c freq e1 e2 z k).margin dt) {μ : ℂ}
    (hμ : IsMultiplier N c freq dt [e1, e2] z k μ) : ‖μ‖ < 1 := by
  rw [pair_polynomial hfn hfields hnd hnat hpow hz] at hμ
  generalize pairRates N c freq e1 e2 z k = r at *
  have hd2 : 0 < dt ^ 2 := by positivity
  have p1 := mul_pos hd2 h1
  refine roots_inside h0 ?_ ?_ ?_ hμ
  · simp only [PairRates.det, PairRates.drift, PairRates.divisor] at *
    linarith
  · simp only [PairRates.margin, PairRates.det, PairRates.drift, PairRates.divisor] at *
    linarith
  · have := mul_neg_of_pos_of_neg hdt h2
    linarith

theorem pair_outside {c : Str → ℂ} (hpow : ∀ eq ∈ [e1, e2], Equation.RealPowers N c eq) {z : Str → ℂ}
    (hz : ∀ x ∈ N.fields, (z x).im = 0) (freq : Frequency n) {dt : ℝ} (hdt : 0 < dt) (k : Fin n)
    (h0 : 0 < (pairRates N c freq e1 e2 z k).divisor dt) (h1 : (pairRates N c freq e1 e2 z k).det < 0 ∨
      0 < (pairRates N c freq e1 e2 z k).drift dt ∨ (pairRates N c freq e1 e2 z k).margin dt < 0) :
    ∃ μ, IsMultiplier N c freq dt [e1, e2] z k μ ∧ 1 < ‖μ‖ := by
  simp only [pair_polynomial hfn hfields hnd hnat hpow hz]
  generalize pairRates N c freq e1 e2 z k = r at *
  have hd2 : 0 < dt ^ 2 := by positivity
  refine root_outside h0 ?_
  rcases h1 with h1 | h1 | h1
  · left
    have p1 := mul_neg_of_pos_of_neg hd2 h1
    simp only [PairRates.det, PairRates.drift, PairRates.divisor] at *
    linarith
  · right; right
    have := mul_pos hdt h1
    linarith
  · right; left
    simp only [PairRates.margin, PairRates.det, PairRates.drift, PairRates.divisor] at *
    linarith

end

/-! ### Small time steps -/

theorem pair_small (r : PairRates) : ∀ᶠ dt in nhds (0 : ℝ), 0 < r.divisor dt ∧ 0 < r.margin dt ∧
    (r.trace < 0 → r.drift dt < 0) ∧ (0 < r.trace → 0 < r.drift dt) := by
  have c1 : Continuous r.divisor := by unfold PairRates.divisor; fun_prop
  have c2 : Continuous r.margin := by unfold PairRates.margin; fun_prop
  have c3 : Continuous r.drift := by unfold PairRates.drift; fun_prop
  have v1 : r.divisor 0 = 1 := by simp [PairRates.divisor]
  have v2 : r.margin 0 = 4 := by simp [PairRates.margin, v1]
  have v3 : r.drift 0 = r.trace := by
    simp only [PairRates.drift, PairRates.trace]
    ring
  have t1 := c1.tendsto 0
  have t2 := c2.tendsto 0
  have t3 := c3.tendsto 0
  rw [v1] at t1
  rw [v2] at t2
  rw [v3] at t3
  have q1 := t1.eventually (lt_mem_nhds (show (0 : ℝ) < 1 by norm_num))
  have q2 := t2.eventually (lt_mem_nhds (show (0 : ℝ) < 4 by norm_num))
  have q3 : ∀ᶠ dt in nhds (0 : ℝ), r.trace < 0 → r.drift dt < 0 := by
    by_cases h : r.trace < 0
    · filter_upwards [t3.eventually (gt_mem_nhds h)] with dt h1 _ using h1
    · exact Filter.Eventually.of_forall fun dt h' => absurd h' h
  have q4 : ∀ᶠ dt in nhds (0 : ℝ), 0 < r.trace → 0 < r.drift dt := by
    by_cases h : 0 < r.trace
    · filter_upwards [t3.eventually (lt_mem_nhds h)] with dt h1 _ using h1
    · exact Filter.Eventually.of_forall fun dt h' => absurd h' h
  filter_upwards [q1, q2, q3, q4] with dt a1 a2 a3 a4 using ⟨a1, a2, a3, a4⟩

theorem divisor_ne {N : Names} {c : Str → ℂ} {e1 e2 : Equation} {freq : Frequency n} {z : Str → ℂ} {k : Fin n} {dt : ℝ}
    (hpow : ∀ eq ∈ [e1, e2], Equation.RealPowers N c eq)
    (h : 0 < (pairRates N c freq e1 e2 z k).divisor dt) : ∀ eq ∈ [e1, e2], 1 - dt * implicitRate N c freq eq k ≠ 0 := by
  intro eq heq
  have e : implicitRate N c freq eq k = ((implicitRate N c freq eq k).re : ℂ) :=
    Complex.ext rfl (implicitRate_im (hpow eq heq) freq k)
  rw [e]
  unfold PairRates.divisor pairRates at h
  dsimp only at h
  have : (1 : ℝ) - dt * (implicitRate N c freq eq k).re ≠ 0 := by
    simp only [List.mem_cons, List.not_mem_nil, or_false] at heq
    rcases heq with rfl | rfl
    · exact left_ne_zero_of_mul h.ne'
    · exact right_ne_zero_of_mul h.ne'
  exact_mod_cast this

section
variable (h : GoodDims (intDims dims)) (hl : LayoutOk dims) (N : Names) (hN : N.WellNamed) (hfn : N.functions = [])
  (m0 : EqModel dims.prod) (h0 : StartsAs N m0) (heq : m0.equations = []) (e1 e2 : Equation)
  (hq : ∀ eq ∈ [e1, e2], eq.Polynomial N ∧ Unregistered m0 eq)
  (hnat : ∀ eq ∈ [e1, e2], ∀ p ∈ eq.terms, ∀ g ∈ factorsIn N.varying p.1, ∃ q : ℕ, g.power = q)
  (ss : List Str) (hs : ss.map (fun s => s.filter fun c => c ≠ ' ') = [e1, e2].map Equation.text)
  (hord : [e1, e2].map Equation.field = N.fields) (c : Str → ℂ) (hc : ∀ x ∈ N.scalars, (c x).im = 0)
  (hpow : ∀ eq ∈ [e1, e2], Equation.RealPowers N c eq)
include h hN hfn h0 heq hq hnat hs hord hpow

omit h hfn h0 heq hq hnat hs hpow in
theorem pair_distinct : N.fields = [e1.field, e2.field] ∧ e1.field ≠ e2.field := by
  have e : N.fields = [e1.field, e2.field] := hord.symm
  refine ⟨e, ?_⟩
  have := hN.nodup
  simp only [Names.all, Names.varying] at this
  have h1 := (List.nodup_append.mp (List.nodup_append.mp this).1).1
  rw [e] at h1
  simpa using h1

/-- C161: two equations. If for every wave the product of the growth rates of the linearised equations is positive, the sum
that a step sees is negative, and the margin is positive, fields close enough to the state converge to it. -/
theorem c161_pair_stable : ∃ m M, ss.foldlM EqModel.addEquation m0 = some m ∧ m.fields = N.fields ∧ m.assemble c = some M ∧
      ∀ z : Str → ℂ, (∀ eq ∈ [e1, e2], uniformSystemRate N c eq z = 0) → (∀ f ∈ N.fields, (z f).im = 0) →
      ∀ s : Stepper dims.prod, s.filter = none → s.freq = freqOf dims → 0 < s.dt →
      (∀ k, 0 < (pairRates N c (freqOf dims) e1 e2 z k).divisor s.dt ∧ 0 < (pairRates N c (freqOf dims) e1 e2 z k).det ∧
        (pairRates N c (freqOf dims) e1 e2 z k).drift s.dt < 0 ∧ 0 < (pairRates N c (freqOf dims) e1 e2 z k).margin s.dt) →
      ∃ δ C q : ℝ, 0 < δ ∧ q < 1 ∧ 0 ≤ q ∧ ∀ st : Store m.fields.length m.derived.length dims.prod,
        (∀ i x, ‖st.fields i x - z m.fields[i]‖ < δ) → ∀ steps i x,
          ‖(eulerPropagate M steps (s, st)).2.fields i x - z m.fields[i]‖ ≤ C * q ^ steps := by
  obtain ⟨hf, hne⟩ := pair_distinct N hN e1 e2 hord
  obtain ⟨m, M, a1, a2, a3, a4⟩ := c161_stable h N hN hfn m0 h0 heq [e1, e2] hq hnat ss hs hord c
  refine ⟨m, M, a1, a2, a3, fun z hz hzr s hfil hfreq hdt hk => ?_⟩
  refine a4 z hz s hfil hfreq (fun eq he k => divisor_ne hpow (hk k).1 eq he) fun k μ hμ => ?_
  exact pair_inside hfn hf hne hnat hpow hzr _ hdt k (hk k).1 (hk k).2.1 (hk k).2.2.1 (hk k).2.2.2 hμ

include hl hc

/-- C161: if for some wave one of the three has the other sign, real perturbations leave the state. -/
theorem c161_pair_leaves : ∃ m M, ss.foldlM EqModel.addEquation m0 = some m ∧ m.fields = N.fields ∧ m.assemble c = some M ∧
      ∀ z : Str → ℂ, (∀ eq ∈ [e1, e2], uniformSystemRate N c eq z = 0) → (∀ f ∈ N.fields, (z f).im = 0) →
      ∀ s : Stepper dims.prod, s.filter = none → s.freq = freqOf dims → 0 < s.dt →
      (∀ k, 0 < (pairRates N c (freqOf dims) e1 e2 z k).divisor s.dt) →
      (∃ k, (pairRates N c (freqOf dims) e1 e2 z k).det < 0 ∨ 0 < (pairRates N c (freqOf dims) e1 e2 z k).drift s.dt ∨
        (pairRates N c (freqOf dims) e1 e2 z k).margin s.dt < 0) →
      ∃ ρ : ℝ, 0 < ρ ∧ ∀ δ : ℝ, 0 < δ → ∃ v : Fin m.fields.length → Data dims.prod,
        (∀ i, IsReal (v i)) ∧ (∀ i x, ‖v i x‖ < δ) ∧ ∀ st : Store m.fields.length m.derived.length dims.prod,
        (∀ i x, st.fields i x = z m.fields[i] + v i x) →
        ∃ steps i x, ρ ≤ ‖(eulerPropagate M steps (s, st)).2.fields i x - z m.fields[i]‖ := by
  obtain ⟨hf, hne⟩ := pair_distinct N hN e1 e2 hord
  obtain ⟨m, M, a1, a2, a3, a4⟩ := c161_leaves h hl N hN hfn m0 h0 heq [e1, e2] hq hnat ss hs hord c hc hpow
  refine ⟨m, M, a1, a2, a3, fun z hz hzr s hfil hfreq hdt hk ⟨k, hbad⟩ => ?_⟩
  refine a4 z hz hzr s hfil hfreq (fun eq he k => divisor_ne hpow (hk k) eq he) ⟨k, ?_⟩
  exact pair_outside hfn hf hne hnat hpow hzr _ hdt k (hk k) hbad

/-- C161: for all time steps that are small enough the simulation agrees with the linearised equations: if for every wave
both growth rates have negative real part, small perturbations die out; if for some wave one has positive real part
because the product is negative or the sum positive, some real perturbations leave. -/
theorem c161_pair_small : ∃ m M, ss.foldlM EqModel.addEquation m0 = some m ∧ m.fields = N.fields ∧ m.assemble c = some M ∧
      ∀ z : Str → ℂ, (∀ eq ∈ [e1, e2], uniformSystemRate N c eq z = 0) → (∀ f ∈ N.fields, (z f).im = 0) →
      ∃ dt0 : ℝ, 0 < dt0 ∧ ∀ s : Stepper dims.prod, s.filter = none → s.freq = freqOf dims → 0 < s.dt → s.dt < dt0 →
      ((∀ k, 0 < (pairRates N c (freqOf dims) e1 e2 z k).det ∧ (pairRates N c (freqOf dims) e1 e2 z k).trace < 0) →
        ∃ δ C q : ℝ, 0 < δ ∧ q < 1 ∧ 0 ≤ q ∧ ∀ st : Store m.fields.length m.derived.length dims.prod,
          (∀ i x, ‖st.fields i x - z m.fields[i]‖ < δ) → ∀ steps i x,
            ‖(eulerPropagate M steps (s, st)).2.fields i x - z m.fields[i]‖ ≤ C * q ^ steps) ∧
      ((∃ k, (pairRates N c (freqOf dims) e1 e2 z k).det < 0 ∨ 0 < (pairRates N c (freqOf dims) e1 e2 z k).trace) →
        ∃ ρ : ℝ, 0 < ρ ∧ ∀ δ : ℝ, 0 < δ → ∃ v : Fin m.fields.length → Data dims.prod,
          (∀ i, IsReal (v i)) ∧ (∀ i x, ‖v i x‖ < δ) ∧ ∀ st : Store m.fields.length m.derived.length dims.prod,
          (∀ i x, st.fields i x = z m.fields[i] + v i x) →
          ∃ steps i x, ρ ≤ ‖(eulerPropagate M steps (s, st)).2.fields i x - z m.fields[i]‖) := by
  obtain ⟨m, M, a1, a2, a3, a4⟩ := c161_pair_stable h N hN hfn m0 h0 heq e1 e2 hq hnat ss hs hord c hpow
  obtain ⟨m', M', b1, -, b3, b4⟩ := c161_pair_leaves h hl N hN hfn m0 h0 heq e1 e2 hq hnat ss hs hord c hc hpow
  rw [a1] at b1
  obtain rfl := Option.some.inj b1
  rw [a3] at b3
  obtain rfl := Option.some.inj b3
  refine ⟨m, M, a1, a2, a3, fun z hz hzr => ?_⟩
  have hev : ∀ᶠ dt in nhds (0 : ℝ), ∀ k : Fin dims.prod, 0 < (pairRates N c (freqOf dims) e1 e2 z k).divisor dt ∧
      0 < (pairRates N c (freqOf dims) e1 e2 z k).margin dt ∧
      ((pairRates N c (freqOf dims) e1 e2 z k).trace < 0 → (pairRates N c (freqOf dims) e1 e2 z k).drift dt < 0) ∧
      (0 < (pairRates N c (freqOf dims) e1 e2 z k).trace → 0 < (pairRates N c (freqOf dims) e1 e2 z k).drift dt) :=
    Filter.eventually_all.mpr fun k => pair_small _
  obtain ⟨dt0, hdt0, hball⟩ := Metric.eventually_nhds_iff.mp hev
  refine ⟨dt0, hdt0, fun s hfil hfreq hdt hlt => ?_⟩
  have hs' := hball (y := s.dt) (by rw [Real.dist_eq, sub_zero, abs_of_pos hdt]; exact hlt)
  constructor
  · intro hk
    exact a4 z hz hzr s hfil hfreq hdt fun k => ⟨(hs' k).1, (hk k).1, (hs' k).2.2.1 (hk k).2, (hs' k).2.1⟩
  · rintro ⟨k, hk⟩
    refine b4 z hz hzr s hfil hfreq hdt (fun k => (hs' k).1) ⟨k, ?_⟩
    rcases hk with hk | hk
    · exact Or.inl hk
    · exact Or.inr (Or.inl ((hs' k).2.2.2 hk))

end

/-- For the predator-prey equations the sum of the growth rates is zero at the state one, so this criterion says nothing; a
step sees a positive sum. For `dconc/dt = conc^2 - conc`, `deta/dt = conc - eta` at zero both growth rates are negative. -/
example (k : Fin dims.prod) :
    (pairRates pairNames (fun _ => 0) (freqOf dims) preyEquation hunterEquation (fun _ => 1) k).trace = 0 ∧
    (∀ dt, (pairRates pairNames (fun _ => 0) (freqOf dims) preyEquation hunterEquation (fun _ => 1) k).drift dt = dt) ∧
    (pairRates pairNames (fun _ => 0) (freqOf dims) squareEquation trailEquation (fun _ => 0) k).trace = -2 ∧
    (pairRates pairNames (fun _ => 0) (freqOf dims) squareEquation trailEquation (fun _ => 0) k).det = 1 := by
  have f1 : preyEquation.field = "conc".toList := rfl
  have f2 : hunterEquation.field = "eta".toList := rfl
  have f3 : squareEquation.field = "conc".toList := rfl
  have f4 : trailEquation.field = "eta".toList := rfl
  have s1 : (Pi.single "conc".toList 1 : Str → ℂ) "conc".toList = 1 := by simp
  have s2 : (Pi.single "conc".toList 1 : Str → ℂ) "eta".toList = 0 := by
    rw [Pi.single_apply, if_neg (by decide)]
  have s3 : (Pi.single "eta".toList 1 : Str → ℂ) "eta".toList = 1 := by simp
  have s4 : (Pi.single "eta".toList 1 : Str → ℂ) "conc".toList = 0 := by
    rw [Pi.single_apply, if_neg (by decide)]
  simp only [PairRates.trace, PairRates.det, PairRates.drift, pairRates, waveRate, bareRate, f1, f2, f3, f4, prey_linear,
    hunter_linear, square_linear, trail_linear, prey_implicit, hunter_implicit, pairSquare_implicit, trail_implicit,
    s1, s2, s3, s4]
  refine ⟨by norm_num, fun dt => ?_, by norm_num, by norm_num⟩
  norm_num

end Gopf.Props
