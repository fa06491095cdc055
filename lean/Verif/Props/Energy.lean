import Verif.Props.Stability
import Verif.Props.RealSession
import Mathlib.Analysis.Convex.Deriv

/-!
# C131: simulations of gradient flows lose energy
-/

namespace Gopf.Props
open Spec Pf Pfutil

variable {n : ℕ} {dims : List ℕ}

/-! ### The specification -/

/-- The equation has the form `du/dt = -(-LAP)^q mu` where `mu` is the derivative of an energy: the terms that are not
linear in the field have `q` Laplacians, the linear ones at least `q`. -/
structure Variational (q : ℕ) (N : Names) (eq : Equation) : Prop where
  bulk : ∀ p ∈ eq.terms, ¬ LinearIn eq.field N.varying p.1 → (laplacians p.1).sum = q
  gradient : ∀ p ∈ eq.terms, LinearIn eq.field N.varying p.1 → q ≤ (laplacians p.1).sum

open Classical in
/-- The energy density of the terms that are not linear: `a LAP^q u^d` stands for `-(-1)^q a u^(d+1)/(d+1)`. -/
noncomputable def bulkEnergy (q : ℕ) (N : Names) (c : Str → ℂ) (eq : Equation) (t : ℝ) : ℝ :=
  (eq.terms.map fun p : List Item × Option Char => if LinearIn eq.field N.varying p.1 then 0 else
    -((-1) ^ q * (coefficient N c p).re) * (t ^ (degree N p + 1) / (degree N p + 1))).sum

open Classical in
/-- Its derivative. -/
noncomputable def bulkForce (q : ℕ) (N : Names) (c : Str → ℂ) (eq : Equation) (t : ℝ) : ℝ :=
  (eq.terms.map fun p : List Item × Option Char => if LinearIn eq.field N.varying p.1 then 0 else
    -((-1) ^ q * (coefficient N c p).re) * t ^ degree N p).sum

open Classical in
/-- Its second derivative. -/
noncomputable def bulkCurvature (q : ℕ) (N : Names) (c : Str → ℂ) (eq : Equation) (t : ℝ) : ℝ :=
  (eq.terms.map fun p : List Item × Option Char => if LinearIn eq.field N.varying p.1 then 0 else
    -((-1) ^ q * (coefficient N c p).re) * ((degree N p : ℝ) * t ^ (degree N p - 1))).sum

open Classical in
/-- What a wave with `x = 4π²|f|²` costs: `a LAP^l u` stands for `-(-1)^l a x^(l-q)` times half the square of its
amplitude. -/
noncomputable def stiffness (q : ℕ) (N : Names) (c : Str → ℂ) (eq : Equation) (x : ℝ) : ℝ :=
  (eq.terms.map fun p : List Item × Option Char => if LinearIn eq.field N.varying p.1 then
    -((-1) ^ (laplacians p.1).sum * (coefficient N c p).re) * x ^ ((laplacians p.1).sum - q) else 0).sum

/-- The energy of a field. -/
noncomputable def energy (q : ℕ) (N : Names) (c : Str → ℂ) (eq : Equation) (u : Data dims.prod) : ℝ :=
  ∑ x, bulkEnergy q N c eq (u x).re +
    (∑ k, stiffness q N c eq (laplaceNumber dims k) * ‖fft dims u k‖ ^ 2) / (2 * (dims.prod : ℕ))

/-! ### One step -/

theorem tangent_le {W W' W'' : ℝ → ℝ} (h1 : ∀ t, HasDerivAt W (W' t) t) (h2 : ∀ t, HasDerivAt W' (W'' t) t) {lo hi K : ℝ}
    (hK : ∀ t ∈ Set.Icc lo hi, W'' t ≤ K) {a b : ℝ} (ha : a ∈ Set.Icc lo hi) (hb : b ∈ Set.Icc lo hi) :
    W b ≤ W a + W' a * (b - a) + K / 2 * (b - a) ^ 2 := by
  have g1 : ∀ t, HasDerivAt (fun t => K / 2 * t ^ 2 - W t) (K * t - W' t) t := by
    intro t
    have := ((hasDerivAt_pow 2 t).const_mul (K / 2)).sub (h1 t)
    refine this.congr_deriv ?_
    norm_num
    ring
  have g2 : ∀ t, HasDerivAt (fun t => K * t - W' t) (K - W'' t) t := by
    intro t
    have := ((hasDerivAt_id t).const_mul K).sub (h2 t)
    refine this.congr_deriv ?_
    ring
  have hconv : ConvexOn ℝ (Set.Icc lo hi) (fun t => K / 2 * t ^ 2 - W t) :=
    convexOn_of_hasDerivWithinAt2_nonneg (convex_Icc lo hi) (fun t _ => (g1 t).continuousAt.continuousWithinAt)
      (fun t _ => (g1 t).hasDerivWithinAt) (fun t _ => (g2 t).hasDerivWithinAt)
      (fun t ht => by have := hK t (interior_subset ht); linarith)
  rcases lt_trichotomy a b with hab | rfl | hab
  · have := hconv.le_slope_of_hasDerivAt ha hb hab (g1 a)
    rw [slope_def_field, le_div_iff₀ (by linarith)] at this
    nlinarith
  · simp
  · have := hconv.slope_le_of_hasDerivAt hb ha hab (g1 a)
    rw [slope_def_field, div_le_iff₀ (by linarith)] at this
    nlinarith

theorem real_parseval (h : ∀ d ∈ dims, 0 < d) (a b : Data dims.prod) :
    ∑ k, (fft dims a k * (starRingEnd ℂ) (fft dims b k)).re = (dims.prod : ℕ) * ∑ x, (a x * (starRingEnd ℂ) (b x)).re := by
  have := congrArg Complex.re (parseval h a b)
  rw [Complex.re_sum] at this
  rw [this, ← Complex.re_sum, ← Complex.ofReal_natCast, Complex.re_ofReal_mul]

theorem wave_loss {A D V U : ℂ} {s g K ε : ℝ} (hs : 0 ≤ s) (hD : D = -(s : ℂ) * A) (hV : V = U + D)
    (hlim : s * (2 * ε + K - g) ≤ 2) :
    (A * (starRingEnd ℂ) D).re - g * (V * (starRingEnd ℂ) D).re + g / 2 * (‖V‖ ^ 2 - ‖U‖ ^ 2) + (K / 2 + ε) * ‖D‖ ^ 2 ≤ 0 := by
  have e1 : (A * (starRingEnd ℂ) D).re = -s * ‖A‖ ^ 2 := by
    rw [hD, ← Complex.normSq_eq_norm_sq, Complex.normSq_apply]
    simp
    ring
  have e2 : ‖D‖ ^ 2 = s ^ 2 * ‖A‖ ^ 2 := by
    rw [hD, norm_mul, norm_neg, Complex.norm_real, Real.norm_eq_abs, mul_pow, sq_abs]
  have e3 : ‖V‖ ^ 2 - ‖U‖ ^ 2 = 2 * (V * (starRingEnd ℂ) D).re - ‖D‖ ^ 2 := by
    have : U = V - D := by rw [hV]; ring
    rw [this]
    simp only [← Complex.normSq_eq_norm_sq, Complex.normSq_apply, Complex.sub_re, Complex.sub_im, Complex.mul_re,
      Complex.conj_re, Complex.conj_im]
    ring
  rw [e3, e1, e2]
  have h1 : 0 ≤ s * ‖A‖ ^ 2 := by positivity
  nlinarith [mul_le_mul_of_nonneg_left hlim h1]

theorem field_loss (h : ∀ d ∈ dims, 0 < d) {u v : Data dims.prod} (hu : IsReal u) (hv : IsReal v) (F : Fin dims.prod → ℝ)
    {K dt ε : ℝ} (hdt : 0 ≤ dt) (mob g : Fin dims.prod → ℝ) (hmob : ∀ k, 0 ≤ mob k)
    (hstep : ∀ k, fft dims v k - fft dims u k =
      -((dt * mob k : ℝ) : ℂ) * (fft dims (fun x => (F x : ℂ)) k + g k * fft dims v k))
    (hlim : ∀ k, dt * mob k * (2 * ε + K - g k) ≤ 2) :
    ∑ x, F x * ((v x).re - (u x).re) + K / 2 * ∑ x, ((v x).re - (u x).re) ^ 2 +
        (∑ k, g k * ‖fft dims v k‖ ^ 2) / (2 * (dims.prod : ℕ)) + ε * squares (v - u) ≤
      (∑ k, g k * ‖fft dims u k‖ ^ 2) / (2 * (dims.prod : ℕ)) := by
  have hp : (0 : ℝ) < (dims.prod : ℕ) := by
    have := Nat.pos_of_ne_zero (n := dims.prod) (by exact_mod_cast prod_ne_zero h)
    exact_mod_cast this
  set w : Data dims.prod := fun x => (F x : ℂ) with hw
  have hD : ∀ k, fft dims (v - u) k = fft dims v k - fft dims u k := fun k => by
    simp only [fft, Pi.sub_apply, sub_mul, Finset.sum_sub_distrib]
  have hd : ∀ x, (v - u) x = (((v x).re - (u x).re : ℝ) : ℂ) := by
    intro x
    apply Complex.ext
    · simp
    · simp [hu x, hv x]
  have s1 : ∑ k, (fft dims w k * (starRingEnd ℂ) (fft dims (v - u) k)).re =
      (dims.prod : ℕ) * ∑ x, F x * ((v x).re - (u x).re) := by
    rw [real_parseval h]
    congr 1
    refine Finset.sum_congr rfl fun x _ => ?_
    rw [hd x, hw]
    simp
  have s2 : ∑ k, ‖fft dims (v - u) k‖ ^ 2 = (dims.prod : ℕ) * ∑ x, ((v x).re - (u x).re) ^ 2 := by
    rw [squares_parseval h]
    congr 1
    refine Finset.sum_congr rfl fun x _ => ?_
    rw [hd x, Complex.norm_real, Real.norm_eq_abs, sq_abs]
  have s3 : squares (v - u) = ∑ x, ((v x).re - (u x).re) ^ 2 := by
    refine Finset.sum_congr rfl fun x _ => ?_
    rw [hd x, Complex.norm_real, Real.norm_eq_abs, sq_abs]
  have hloss : ∑ k, ((fft dims w k * (starRingEnd ℂ) (fft dims (v - u) k)).re +
      g k / 2 * (‖fft dims v k‖ ^ 2 - ‖fft dims u k‖ ^ 2) + (K / 2 + ε) * ‖fft dims (v - u) k‖ ^ 2) ≤ 0 := by
    apply Finset.sum_nonpos
    intro k _
    have := wave_loss (A := fft dims w k + g k * fft dims v k) (D := fft dims (v - u) k) (V := fft dims v k)
      (U := fft dims u k) (mul_nonneg hdt (hmob k)) (by rw [hD k, hstep k]) (by rw [hD k]; ring) (hlim k)
    have e : ((fft dims w k + g k * fft dims v k) * (starRingEnd ℂ) (fft dims (v - u) k)).re =
        (fft dims w k * (starRingEnd ℂ) (fft dims (v - u) k)).re + g k * (fft dims v k * (starRingEnd ℂ) (fft dims (v - u) k)).re := by
      rw [add_mul, Complex.add_re, mul_assoc, Complex.re_ofReal_mul]
    rw [e] at this
    linarith
  rw [Finset.sum_add_distrib, Finset.sum_add_distrib, s1, ← Finset.mul_sum, s2] at hloss
  have e2 : ∑ k, g k / 2 * (‖fft dims v k‖ ^ 2 - ‖fft dims u k‖ ^ 2) =
      ((∑ k, g k * ‖fft dims v k‖ ^ 2) - ∑ k, g k * ‖fft dims u k‖ ^ 2) / 2 := by
    rw [← Finset.sum_sub_distrib, Finset.sum_div]
    exact Finset.sum_congr rfl fun k _ => by ring
  rw [e2] at hloss
  rw [s3]
  generalize ∑ x, ((v x).re - (u x).re) ^ 2 = Q at *
  generalize ∑ x, F x * ((v x).re - (u x).re) = L at *
  generalize (∑ k, g k * ‖fft dims v k‖ ^ 2) = G1 at *
  generalize (∑ k, g k * ‖fft dims u k‖ ^ 2) = G2 at *
  generalize ((dims.prod : ℕ) : ℝ) = P at *
  have e3 : G1 / (2 * P) = G2 / (2 * P) + (G1 - G2) / 2 / P := by field_simp; ring
  have e4 : L + (G1 - G2) / 2 / P + (K / 2 + ε) * Q ≤ 0 := by
    have : P * (L + (G1 - G2) / 2 / P + (K / 2 + ε) * Q) ≤ 0 := by
      have : P * (L + (G1 - G2) / 2 / P + (K / 2 + ε) * Q) = P * L + (G1 - G2) / 2 + (K / 2 + ε) * (P * Q) := by field_simp
      rw [this]
      linarith
    by_contra hc
    push Not at hc
    have := mul_pos hp hc
    linarith
  rw [e3]
  linarith

theorem energy_core (h : ∀ d ∈ dims, 0 < d) {u v : Data dims.prod} (hu : IsReal u) (hv : IsReal v) {W W' : ℝ → ℝ} {K dt ε : ℝ}
    (hdt : 0 ≤ dt) (mob g : Fin dims.prod → ℝ) (hmob : ∀ k, 0 ≤ mob k)
    (hW : ∀ x, W (v x).re ≤ W (u x).re + W' (u x).re * ((v x).re - (u x).re) + K / 2 * ((v x).re - (u x).re) ^ 2)
    (hstep : ∀ k, fft dims v k - fft dims u k =
      -((dt * mob k : ℝ) : ℂ) * (fft dims (fun x => (W' (u x).re : ℂ)) k + g k * fft dims v k))
    (hlim : ∀ k, dt * mob k * (2 * ε + K - g k) ≤ 2) :
    (∑ x, W (v x).re + (∑ k, g k * ‖fft dims v k‖ ^ 2) / (2 * (dims.prod : ℕ))) + ε * squares (v - u) ≤
      ∑ x, W (u x).re + (∑ k, g k * ‖fft dims u k‖ ^ 2) / (2 * (dims.prod : ℕ)) := by
  have hsum : ∑ x, W (v x).re ≤ ∑ x, W (u x).re + ∑ x, W' (u x).re * ((v x).re - (u x).re) +
      K / 2 * ∑ x, ((v x).re - (u x).re) ^ 2 := by
    rw [Finset.mul_sum, ← Finset.sum_add_distrib, ← Finset.sum_add_distrib]
    exact Finset.sum_le_sum fun x _ => hW x
  have := field_loss h hu hv (fun x => W' (u x).re) hdt mob g hmob hstep hlim
  linarith

theorem bulk_hasDerivAt (q : ℕ) (N : Names) (c : Str → ℂ) (eq : Equation) (t : ℝ) :
    HasDerivAt (bulkEnergy q N c eq) (bulkForce q N c eq t) t := by
  unfold bulkEnergy bulkForce
  induction eq.terms with
  | nil => simpa using hasDerivAt_const t (0 : ℝ)
  | cons p l ih =>
    simp only [List.map_cons, List.sum_cons]
    refine HasDerivAt.add ?_ ih
    split_ifs
    · exact hasDerivAt_const t _
    · have := ((hasDerivAt_pow (degree N p + 1) t).div_const ((degree N p : ℝ) + 1)).const_mul
        (-((-1) ^ q * (coefficient N c p).re))
      refine this.congr_deriv ?_
      have : ((degree N p : ℝ) + 1) ≠ 0 := by positivity
      simp only [Nat.add_sub_cancel]
      push_cast
      field_simp

theorem force_hasDerivAt (q : ℕ) (N : Names) (c : Str → ℂ) (eq : Equation) (t : ℝ) :
    HasDerivAt (bulkForce q N c eq) (bulkCurvature q N c eq t) t := by
  unfold bulkForce bulkCurvature
  induction eq.terms with
  | nil => simpa using hasDerivAt_const t (0 : ℝ)
  | cons p l ih =>
    simp only [List.map_cons, List.sum_cons]
    refine HasDerivAt.add ?_ ih
    split_ifs
    · exact hasDerivAt_const t _
    · exact (hasDerivAt_pow (degree N p) t).const_mul _

/-- Coefficients of the equation are real. -/
def RealCoefficients (N : Names) (c : Str → ℂ) (eq : Equation) : Prop := ∀ p ∈ eq.terms, (coefficient N c p).im = 0

theorem linear_degree {N : Names} {f : Str} {eq : Equation} (hone : OneField N f eq) (hf : eq.field = f)
    {p : List Item × Option Char} (hp : p ∈ eq.terms) (hlin : LinearIn eq.field N.varying p.1) : degree N p = 1 := by
  have hv : N.varying = [f] := by rw [Names.varying, hone.fields, hone.functions]; rfl
  obtain ⟨h1, -, h3⟩ := hlin
  rw [hf] at h1 h3
  have e : factorsIn N.varying p.1 = (occurrences f p.1).filterMap Item.fac := by
    rw [hv]
    unfold factorsIn occurrences
    generalize p.1 = l
    induction l with
    | nil => rfl
    | cons i l ih =>
      rw [List.filterMap_cons, List.filter_cons]
      cases hi : i.fac with
      | none => simpa [Item.name?, hi] using ih
      | some g =>
        by_cases hg : g.name = f
        · simpa [Item.name?, hi, hg] using ih
        · simpa [Item.name?, hi, hg] using ih
  obtain ⟨i, hi⟩ := List.length_eq_one_iff.mp h1
  have hmem : i ∈ occurrences f p.1 := by rw [hi]; simp
  have hname : i.name? = some f := by simpa using (List.mem_filter.mp hmem).2
  obtain ⟨g, hg⟩ : ∃ g, i.fac = some g := by
    cases hfac : i.fac with
    | none => simp [Item.name?, hfac] at hname
    | some g => exact ⟨g, rfl⟩
  have hfac : factorsIn N.varying p.1 = [g] := by rw [e, hi]; simp [hg]
  obtain ⟨m, hm⟩ := hone.powers p hp g (by rw [hfac]; simp)
  have h4 := h3 i hmem g hg
  rw [hm, abs_lt] at h4
  have h5 : m = 1 := by
    have a1 : (m : ℚ) < 2 := by linarith [h4.2, show (1 : ℚ) / 10 ^ 10 < 1 by norm_num]
    have a2 : (0 : ℚ) < m := by linarith [h4.1, show (1 : ℚ) / 10 ^ 10 < 1 by norm_num]
    have a1' : m < 2 := by exact_mod_cast a1
    have a2' : 0 < m := by exact_mod_cast a2
    omega
  unfold degree
  rw [hfac, List.map_singleton, List.sum_singleton, hm, h5]
  rfl

theorem implicit_stiffness {q : ℕ} {N : Names} {eq : Equation} (hv : Variational q N eq) {c : Str → ℂ}
    (hc : RealCoefficients N c eq) (k : Fin dims.prod) :
    implicitRate N c (freqOf dims) eq k = ((-(laplaceNumber dims k ^ q * stiffness q N c eq (laplaceNumber dims k)) : ℝ) : ℂ) := by
  unfold implicitRate stiffness
  have h1 := hv.gradient
  unfold RealCoefficients at hc
  generalize eq.terms = l at h1 hc
  induction l with
  | nil => simp
  | cons p l ih =>
    rw [List.map_cons, List.sum_cons, List.map_cons, List.sum_cons, ih (fun a ha => h1 a (by simp [ha])) (fun a ha => hc a (by simp [ha]))]
    split_ifs with hl
    · obtain ⟨r, e⟩ : ∃ r : ℝ, coefficient N c p = r := ⟨(coefficient N c p).re, Complex.ext (by simp) (by simp [hc p (by simp)])⟩
      rw [symbol_laplaceNumber, e, neg_pow, Complex.ofReal_re]
      have h2 := h1 p (by simp) hl
      have e2 : laplaceNumber dims k ^ (laplacians p.1).sum = laplaceNumber dims k ^ q * laplaceNumber dims k ^ ((laplacians p.1).sum - q) := by
        rw [← pow_add]; congr 1; omega
      rw [← Complex.ofReal_pow, e2]
      push_cast
      ring
    · rw [zero_add]
      congr 2
      ring

/-- The right-hand side in terms of the energy. -/
theorem rhs_energy {q : ℕ} {N : Names} {f : Str} {eq : Equation} (hone : OneField N f eq) (hf : eq.field = f)
    (hv : Variational q N eq) {c : Str → ℂ} (hc : RealCoefficients N c eq) {u : Data dims.prod} (hu : IsReal u) (k : Fin dims.prod) :
    (eq.terms.map fun p : List Item × Option Char => coefficient N c p *
        laplaceSymbol (freqOf dims k) ^ (laplacians p.1).sum * fft dims (fun x => u x ^ degree N p) k).sum =
      -((laplaceNumber dims k ^ q : ℝ) : ℂ) * fft dims (fun x => (bulkForce q N c eq (u x).re : ℂ)) k +
        implicitRate N c (freqOf dims) eq k * fft dims u k := by
  have h1 := hv.bulk
  have h2 : ∀ p ∈ eq.terms, LinearIn eq.field N.varying p.1 → degree N p = 1 := fun p hp hl => linear_degree hone hf hp hl
  unfold RealCoefficients at hc
  unfold bulkForce implicitRate
  generalize eq.terms = l at h1 h2 hc
  induction l with
  | nil => simp [fft]
  | cons p l ih =>
    simp only [List.map_cons, List.sum_cons]
    rw [ih (fun a ha => h1 a (by simp [ha])) (fun a ha => h2 a (by simp [ha])) (fun a ha => hc a (by simp [ha]))]
    simp only [Complex.ofReal_add]
    rw [fft_add]
    split_ifs with hl
    · rw [h2 p (by simp) hl]
      have : fft dims (fun _ => ((0 : ℝ) : ℂ)) k = 0 := by simp [fft]
      rw [this]
      simp only [pow_one]
      ring
    · obtain ⟨r, e⟩ : ∃ r : ℝ, coefficient N c p = r := ⟨(coefficient N c p).re, Complex.ext (by simp) (by simp [hc p (by simp)])⟩
      have hux : ∀ x, u x = ((u x).re : ℂ) := fun x => Complex.ext (by simp) (by simp [hu x])
      have e3 : fft dims (fun x => ((-((-1) ^ q * (coefficient N c p).re) * (u x).re ^ degree N p : ℝ) : ℂ)) k =
          ((-((-1) ^ q * (coefficient N c p).re) : ℝ) : ℂ) * fft dims (fun x => u x ^ degree N p) k := by
        rw [← fft_smul]
        congr 1
        funext x
        rw [hux x]
        push_cast
        simp
      rw [e3, h1 p (by simp) hl, symbol_laplaceNumber, neg_pow, e, Complex.ofReal_re]
      push_cast
      ring

/-- The step in terms of the energy. -/
theorem step_energy (h : ∀ d ∈ dims, 0 < d) {q : ℕ} {N : Names} {f : Str} {eq : Equation} (hone : OneField N f eq) (hf : eq.field = f)
    (hv : Variational q N eq) {c : Str → ℂ} (hc : RealCoefficients N c eq) {dt : ℝ} 
    (hne : ∀ k, 1 - dt * implicitRate N c (freqOf dims) eq k ≠ 0) {u : Data dims.prod} (hu : IsReal u) (k : Fin dims.prod) :
    fft dims (polynomialStep dims (stepTerms N c (freqOf dims) dt eq) u) k - fft dims u k =
      -((dt * laplaceNumber dims k ^ q : ℝ) : ℂ) * (fft dims (fun x => (bulkForce q N c eq (u x).re : ℂ)) k +
        stiffness q N c eq (laplaceNumber dims k) * fft dims (polynomialStep dims (stepTerms N c (freqOf dims) dt eq) u) k) := by
  set v := polynomialStep dims (stepTerms N c (freqOf dims) dt eq) u with hvdef
  have e1 : (fft dims v k - fft dims u k) * (1 - dt * implicitRate N c (freqOf dims) eq k) =
      dt * (eq.terms.map fun p : List Item × Option Char => coefficient N c p *
        laplaceSymbol (freqOf dims k) ^ (laplacians p.1).sum * fft dims (fun x => u x ^ degree N p) k).sum := by
    rw [hvdef, fft_polynomialStep h, add_sub_cancel_left]
    unfold stepTerms
    rw [List.map_map]
    generalize eq.terms = l
    have hne' := hne k
    induction l with
    | nil => simp
    | cons p l ih =>
      rw [List.map_cons, List.sum_cons, List.map_cons, List.sum_cons, add_mul, mul_add, ih]
      congr 1
      simp only [Function.comp_apply]
      field_simp
  have e2 := rhs_energy hone hf hv hc hu k
  rw [e2, implicit_stiffness hv hc] at e1
  push_cast at e1 ⊢
  linear_combination e1

theorem laplaceNumber_nonneg (k : Fin dims.prod) : 0 ≤ laplaceNumber dims k := by
  unfold laplaceNumber
  refine mul_nonneg (by positivity) (List.sum_nonneg ?_)
  intro a ha
  obtain ⟨b, -, rfl⟩ := List.mem_map.mp ha
  positivity

/-- Real fields stay real. -/
theorem step_real (h : GoodDims (intDims dims)) (hl : LayoutOk dims) {q : ℕ} {N : Names} {f : Str} {eq : Equation} (hone : OneField N f eq)
    (hf : eq.field = f) (hv : Variational q N eq) {c : Str → ℂ} (hc : RealCoefficients N c eq) {dt : ℝ}
    (hne : ∀ k, 1 - dt * implicitRate N c (freqOf dims) eq k ≠ 0) {u : Data dims.prod} (hu : IsReal u) :
    IsReal (polynomialStep dims (stepTerms N c (freqOf dims) dt eq) u) := by
  apply real_of_hermitian h hl
  intro b d hd
  have hx : laplaceNumber dims d = laplaceNumber dims b := by
    unfold laplaceNumber
    rw [freq_sq_conj h hd]
  have hw : Hermitian dims (fft dims (fun x => (bulkForce q N c eq (u x).re : ℂ))) :=
    hermitian_fft h hl fun x => by simp
  have e1 := step_energy (pos_of_goodDims h) hone hf hv hc hne hu d
  have e2 := congrArg (starRingEnd ℂ) (step_energy (pos_of_goodDims h) hone hf hv hc hne hu b)
  have hn := hne d
  rw [implicit_stiffness hv hc] at hn
  rw [hermitian_fft h hl hu b d hd, hw b d hd] at e1
  rw [hx] at e1 hn
  generalize fft dims (polynomialStep dims (stepTerms N c (freqOf dims) dt eq) u) b = V at *
  generalize fft dims (polynomialStep dims (stepTerms N c (freqOf dims) dt eq) u) d = V' at *
  simp only [map_sub, map_mul, map_neg, map_add, Complex.conj_ofReal] at e2
  push_cast at e1 e2 hn
  refine mul_right_cancel₀ hn ?_
  linear_combination e1 - e2

theorem field_is {N : Names} {f : Str} {eq : Equation} (hone : OneField N f eq) (hq : eq.Polynomial N) : eq.field = f := by
  have := hq.field
  rw [hone.fields] at this
  simpa using this

/-- One step, for the polynomial. -/
theorem polynomial_energy (h : GoodDims (intDims dims)) (hl : LayoutOk dims) {q : ℕ} {N : Names} {f : Str} {eq : Equation} (hone : OneField N f eq)
    (hf : eq.field = f) (hv : Variational q N eq) {c : Str → ℂ} (hc : RealCoefficients N c eq) {dt : ℝ} (hdt : 0 ≤ dt)
    (hne : ∀ k, 1 - dt * implicitRate N c (freqOf dims) eq k ≠ 0) {u v : Data dims.prod} (hu : IsReal u)
    (hv' : polynomialStep dims (stepTerms N c (freqOf dims) dt eq) u = v) {lo hi K ε : ℝ}
    (hux : ∀ x, (u x).re ∈ Set.Icc lo hi) (hvx : ∀ x, (v x).re ∈ Set.Icc lo hi)
    (hK : ∀ t ∈ Set.Icc lo hi, bulkCurvature q N c eq t ≤ K)
    (hlim : ∀ k, dt * laplaceNumber dims k ^ q * (2 * ε + K - stiffness q N c eq (laplaceNumber dims k)) ≤ 2) :
    energy q N c eq v + ε * squares (v - u) ≤ energy q N c eq u := by
  have hvr : IsReal v := hv' ▸ step_real h hl hone hf hv hc hne hu
  refine energy_core (W' := bulkForce q N c eq) (pos_of_goodDims h) hu hvr hdt (fun k => laplaceNumber dims k ^ q)
    (fun k => stiffness q N c eq (laplaceNumber dims k)) (fun k => pow_nonneg (laplaceNumber_nonneg k) q) ?_ ?_ hlim
  · intro x
    exact tangent_le (bulk_hasDerivAt q N c eq) (force_hasDerivAt q N c eq) hK (hux x) (hvx x)
  · intro k
    have := step_energy (pos_of_goodDims h) hone hf hv hc hne hu k
    rw [hv'] at this
    exact this

/-- C131: one step. For an equation `du/dt = -(-LAP)^q mu` given as text, where `mu` is the derivative of an energy
and the field is real: if the values before and after the step lie in an interval on which the curvature of the
energy density is at most `K`, and `dt x^q (2 ε + K - g(x)) ≤ 2` for the wave numbers of the grid, then the step lowers
the energy by at least `ε` times the sum of the squared changes. -/
theorem c131_step (h : GoodDims (intDims dims)) (hl : LayoutOk dims) (N : Names) (hN : N.WellNamed) (f : Str)
    (m0 : EqModel dims.prod) (h0 : StartsAs N m0) (heq : m0.equations = [])
    (eq : Equation) (hone : OneField N f eq) (hq : eq.Polynomial N ∧ Unregistered m0 eq)
    (s0 : Str) (hs : s0.filter (fun c => c ≠ ' ') = eq.text) (c : Str → ℂ) (q : ℕ) (hv : Variational q N eq)
    (hc : RealCoefficients N c eq) :
    ∃ m M, m0.addEquation s0 = some m ∧ m.fields = [f] ∧ m.assemble c = some M ∧
      ∀ s : Stepper dims.prod, s.filter = none → s.freq = freqOf dims → 0 ≤ s.dt →
        (∀ k, 1 + s.dt * laplaceNumber dims k ^ q * stiffness q N c eq (laplaceNumber dims k) ≠ 0) →
      ∀ (st : Store m.fields.length m.derived.length dims.prod) (i : Fin m.fields.length), IsReal (st.fields i) →
        IsReal ((eulerStep M (s, st)).2.fields i) ∧
        ∀ lo hi K ε : ℝ, (∀ x, (st.fields i x).re ∈ Set.Icc lo hi) →
          (∀ x, ((eulerStep M (s, st)).2.fields i x).re ∈ Set.Icc lo hi) →
          (∀ t ∈ Set.Icc lo hi, bulkCurvature q N c eq t ≤ K) →
          (∀ k, s.dt * laplaceNumber dims k ^ q * (2 * ε + K - stiffness q N c eq (laplaceNumber dims k)) ≤ 2) →
          energy q N c eq ((eulerStep M (s, st)).2.fields i) +
              ε * squares ((eulerStep M (s, st)).2.fields i - st.fields i) ≤ energy q N c eq (st.fields i) := by
  obtain ⟨m, M, h1, h2, h3, h4⟩ := text_polynomial (pos_of_goodDims h) N hN f m0 h0 heq eq hone hq s0 hs c
  refine ⟨m, M, h1, h2, h3, ?_⟩
  intro s hfil hfreq hdt hne st i hr
  have hne' : ∀ k, 1 - s.dt * implicitRate N c s.freq eq k ≠ 0 := by
    intro k h0
    rw [hfreq, implicit_stiffness hv hc] at h0
    refine hne k ?_
    have : (1 - s.dt * -(laplaceNumber dims k ^ q * stiffness q N c eq (laplaceNumber dims k)) : ℝ) = 0 := by exact_mod_cast h0
    linarith
  rw [h4 s hfil hne' st i]
  rw [hfreq] at hne' ⊢
  have hf := field_is hone hq.1
  refine ⟨step_real h hl hone hf hv hc hne' hr, ?_⟩
  intro lo hi K ε hux hvx hK hlim
  exact polynomial_energy h hl hone hf hv hc hdt hne' hr rfl hux hvx hK hlim

/-! ### All steps -/

/-- Fields of bounded energy have bounded values. -/
def Confining (dims : List ℕ) (q : ℕ) (N : Names) (c : Str → ℂ) (eq : Equation) : Prop :=
  ∀ E : ℝ, ∃ R : ℝ, ∀ u : Data dims.prod, IsReal u → energy q N c eq u ≤ E → ∀ x, |(u x).re| ≤ R

theorem fft_norm_le (u : Data dims.prod) {B : ℝ} (hB : ∀ x, ‖u x‖ ≤ B) (k : Fin dims.prod) :
    ‖fft dims u k‖ ≤ (dims.prod : ℕ) * B := by
  unfold fft
  refine (norm_sum_le _ _).trans ?_
  calc _ ≤ ∑ _x : Fin dims.prod, B := by
        refine Finset.sum_le_sum fun x _ => ?_
        rw [norm_mul, cis_norm, mul_one]
        exact hB x
    _ = _ := by simp

theorem norm_le_spectrum (h : ∀ d ∈ dims, 0 < d) (w : Data dims.prod) (x : Fin dims.prod) :
    ‖w x‖ ≤ ∑ k, ‖fft dims w k‖ := by
  have hp : (1 : ℝ) ≤ (dims.prod : ℕ) := by
    have := Nat.pos_of_ne_zero (n := dims.prod) (by exact_mod_cast prod_ne_zero h)
    exact_mod_cast this
  have h1 : ‖w x‖ ^ 2 ≤ ∑ x, ‖w x‖ ^ 2 :=
    Finset.single_le_sum (f := fun x => ‖w x‖ ^ 2) (fun _ _ => by positivity) (Finset.mem_univ x)
  have h2 := squares_parseval h w
  have h3 : ∑ k, ‖fft dims w k‖ ^ 2 ≤ (∑ k, ‖fft dims w k‖) ^ 2 :=
    Finset.sum_sq_le_sq_sum_of_nonneg fun k _ => norm_nonneg _
  have h4 : 0 ≤ ∑ x, ‖w x‖ ^ 2 := Finset.sum_nonneg fun _ _ => by positivity
  refine le_of_sq_le_sq (by nlinarith) (Finset.sum_nonneg fun _ _ => norm_nonneg _)

theorem rate_ne_zero {q : ℕ} {N : Names} {eq : Equation} (hv : Variational q N eq) {c : Str → ℂ}
    (hc : RealCoefficients N c eq) {dt : ℝ}
    (hdt : ∀ k, |dt * (laplaceNumber dims k ^ q * stiffness q N c eq (laplaceNumber dims k))| ≤ 1 / 2) (k : Fin dims.prod) :
    1 - dt * implicitRate N c (freqOf dims) eq k ≠ 0 := by
  intro h0
  rw [implicit_stiffness hv hc] at h0
  have : (1 - dt * -(laplaceNumber dims k ^ q * stiffness q N c eq (laplaceNumber dims k)) : ℝ) = 0 := by exact_mod_cast h0
  have := (abs_le.mp (hdt k)).1
  linarith

theorem small_steps (h : GoodDims (intDims dims)) (hl : LayoutOk dims) {q : ℕ} {N : Names} {f : Str} {eq : Equation} (hone : OneField N f eq)
    (hf : eq.field = f) (hv : Variational q N eq) {c : Str → ℂ} (hc : RealCoefficients N c eq) (R : ℝ) :
    ∃ dt0 : ℝ, 0 < dt0 ∧ ∀ dt, 0 < dt → dt ≤ dt0 →
      (∀ k : Fin dims.prod, |dt * (laplaceNumber dims k ^ q * stiffness q N c eq (laplaceNumber dims k))| ≤ 1 / 2) ∧
      ∀ u v : Data dims.prod, IsReal u → (∀ x, |(u x).re| ≤ R) →
        polynomialStep dims (stepTerms N c (freqOf dims) dt eq) u = v → energy q N c eq v + squares (v - u) ≤ energy q N c eq u := by
  have hpos := pos_of_goodDims h
  have cf : Continuous (bulkForce q N c eq) := continuous_iff_continuousAt.mpr fun t => (force_hasDerivAt q N c eq t).continuousAt
  have cc : Continuous (bulkCurvature q N c eq) := by
    unfold bulkCurvature
    refine continuous_list_sum _ fun p _ => ?_
    split_ifs
    · exact continuous_const
    · exact continuous_const.mul (continuous_const.mul (continuous_pow _))
  obtain ⟨B, hB⟩ := (isCompact_Icc (a := -R) (b := R)).exists_bound_of_continuousOn cf.continuousOn
  obtain ⟨K, hK⟩ := (isCompact_Icc (a := -(R + 1)) (b := R + 1)).exists_bound_of_continuousOn cc.continuousOn
  set g : Fin dims.prod → ℝ := fun k => stiffness q N c eq (laplaceNumber dims k) with hg
  set mob : Fin dims.prod → ℝ := fun k => laplaceNumber dims k ^ q with hmob
  have hm : ∀ k, 0 ≤ mob k := fun k => pow_nonneg (laplaceNumber_nonneg k) q
  set P : ℝ := ((dims.prod : ℕ) : ℝ) with hP
  have hP0 : 0 ≤ P := Nat.cast_nonneg _
  set C : ℝ := ∑ k, mob k * (P * |B| + |g k| * (P * |R|)) with hC
  set S : ℝ := ∑ k, mob k * (2 + |K| + |g k|) with hS
  have hC0 : 0 ≤ C := Finset.sum_nonneg fun k _ => mul_nonneg (hm k) (by positivity)
  have hS0 : 0 ≤ S := Finset.sum_nonneg fun k _ => mul_nonneg (hm k) (by positivity)
  refine ⟨min (1 / (2 * C + 1)) (1 / (2 * S + 1)), lt_min (by positivity) (by positivity), ?_⟩
  intro dt hdt hle
  have d1 : dt * (2 * C) ≤ 1 := by
    have := hle.trans (min_le_left _ _)
    rw [le_div_iff₀ (by positivity)] at this
    nlinarith
  have d2 : dt * (2 * S) ≤ 1 := by
    have := hle.trans (min_le_right _ _)
    rw [le_div_iff₀ (by positivity)] at this
    nlinarith
  have dS : ∀ k, dt * (mob k * (2 + |K| + |g k|)) ≤ 1 / 2 := by
    intro k
    have : mob k * (2 + |K| + |g k|) ≤ S :=
      Finset.single_le_sum (f := fun k => mob k * (2 + |K| + |g k|)) (fun k _ => mul_nonneg (hm k) (by positivity)) (Finset.mem_univ k)
    have := mul_le_mul_of_nonneg_left this hdt.le
    linarith
  have dg : ∀ k : Fin dims.prod, |dt * (mob k * g k)| ≤ 1 / 2 := by
    intro k
    rw [abs_mul, abs_mul, abs_of_pos hdt, abs_of_nonneg (hm k)]
    refine le_trans ?_ (dS k)
    refine mul_le_mul_of_nonneg_left (mul_le_mul_of_nonneg_left ?_ (hm k)) hdt.le
    linarith [abs_nonneg K]
  refine ⟨dg, ?_⟩
  intro u v hu hR hstep
  have hne := rate_ne_zero (dims := dims) hv hc dg
  have hux : ∀ x, ‖u x‖ ≤ |R| := by
    intro x
    have : u x = ((u x).re : ℂ) := Complex.ext (by simp) (by simp [hu x])
    rw [this, Complex.norm_real, Real.norm_eq_abs]
    exact (hR x).trans (le_abs_self R)
  have hwx : ∀ x, ‖(bulkForce q N c eq (u x).re : ℂ)‖ ≤ |B| := by
    intro x
    rw [Complex.norm_real]
    exact (hB _ (abs_le.mp (hR x))).trans (le_abs_self B)
  have hD : ∀ k, ‖fft dims (v - u) k‖ ≤ 2 * dt * (mob k * (P * |B| + |g k| * (P * |R|))) := by
    intro k
    have e := step_energy hpos hone hf hv hc hne hu k
    rw [hstep] at e
    have e' : fft dims (v - u) k = fft dims v k - fft dims u k := by
      simp only [fft, Pi.sub_apply, sub_mul, Finset.sum_sub_distrib]
    have e2 : fft dims (v - u) k * ((1 + dt * (mob k * g k) : ℝ) : ℂ) =
        -((dt * mob k : ℝ) : ℂ) * (fft dims (fun x => (bulkForce q N c eq (u x).re : ℂ)) k + g k * fft dims u k) := by
      rw [e']
      simp only [hmob, hg]
      push_cast at e ⊢
      linear_combination e
    have e3 := congrArg norm e2
    rw [norm_mul, norm_mul, norm_neg, Complex.norm_real, Complex.norm_real, Real.norm_eq_abs, Real.norm_eq_abs,
      abs_of_nonneg (mul_nonneg hdt.le (hm k))] at e3
    have l1 : 1 / 2 ≤ |1 + dt * (mob k * g k)| := by
      have := (abs_le.mp (dg k)).1
      exact le_trans (by linarith) (le_abs_self _)
    have l2 : ‖fft dims (fun x => (bulkForce q N c eq (u x).re : ℂ)) k + g k * fft dims u k‖ ≤ P * |B| + |g k| * (P * |R|) := by
      refine (norm_add_le _ _).trans (add_le_add (fft_norm_le _ hwx k) ?_)
      rw [norm_mul, Complex.norm_real, Real.norm_eq_abs]
      exact mul_le_mul_of_nonneg_left (fft_norm_le _ hux k) (abs_nonneg _)
    have l3 := mul_le_mul_of_nonneg_left l2 (mul_nonneg hdt.le (hm k))
    have l4 := mul_le_mul_of_nonneg_left l1 (norm_nonneg (fft dims (v - u) k))
    linarith
  have hd : ∀ x, ‖(v - u) x‖ ≤ 1 := by
    intro x
    refine (norm_le_spectrum hpos (v - u) x).trans (le_trans (Finset.sum_le_sum fun k _ => hD k) ?_)
    rw [← Finset.mul_sum]
    linarith
  have hre : ∀ x, |(v x).re - (u x).re| ≤ 1 := by
    intro x
    have := (Complex.abs_re_le_norm ((v - u) x)).trans (hd x)
    simpa using this
  have := polynomial_energy h hl hone hf hv hc hdt.le hne hu hstep (lo := -(R + 1)) (hi := R + 1) (K := |K|) (ε := 1)
    (fun x => by have := abs_le.mp (hR x); constructor <;> linarith)
    (fun x => by have h1 := abs_le.mp (hR x); have h2 := abs_le.mp (hre x); constructor <;> linarith)
    (fun t ht => ((le_abs_self _).trans (hK t ht)).trans (le_abs_self K))
    (fun k => by
      have h1 := dS k
      have h2 : dt * mob k * (2 * 1 + |K| - g k) ≤ dt * (mob k * (2 + |K| + |g k|)) := by
        rw [mul_assoc]
        refine mul_le_mul_of_nonneg_left (mul_le_mul_of_nonneg_left ?_ (hm k)) hdt.le
        linarith [neg_abs_le (g k)]
      exact (h2.trans h1).trans (by norm_num))
  linarith

theorem step_value (h : ∀ d ∈ dims, 0 < d) {N : Names} {f : Str} {eq : Equation} (hone : OneField N f eq) {c : Str → ℂ} {dt : ℝ}
    (hne : ∀ k, 1 - dt * implicitRate N c (freqOf dims) eq k ≠ 0) (U : Str → Data dims.prod) (k : Fin dims.prod) :
    (fft dims (polynomialStep dims (stepTerms N c (freqOf dims) dt eq) (U f)) k - fft dims (U f) k) *
        (1 - dt * implicitRate N c (freqOf dims) eq k) =
      dt * fft dims (Equation.value N (spectralLaplacian (fft dims)
        (fun x => divRealScalar (ifft dims x) (dims.prod : ℕ)) (freqOf dims)) c U eq) k := by
  have hv : N.varying = [f] := by rw [Names.varying, hone.fields, hone.functions]; rfl
  rw [fft_value h, fft_polynomialStep h, add_sub_cancel_left]
  unfold stepTerms
  rw [List.map_map]
  have hp := hone.powers
  generalize eq.terms = l at hp
  have hne' := hne k
  induction l with
  | nil => simp
  | cons p l ih =>
    rw [List.map_cons, List.sum_cons, List.map_cons, List.sum_cons, add_mul, mul_add, ih fun a ha => hp a (by simp [ha])]
    congr 1
    rw [productValue_power hv (hp p (by simp)) U (U f) rfl]
    simp only [Function.comp_apply]
    field_simp

theorem value_le (h : ∀ d ∈ dims, 0 < d) {q : ℕ} {N : Names} {f : Str} {eq : Equation} (hone : OneField N f eq) (hv : Variational q N eq) {c : Str → ℂ}
    (hc : RealCoefficients N c eq) {dt : ℝ} (hdt0 : 0 < dt)
    (hdt : ∀ k, |dt * (laplaceNumber dims k ^ q * stiffness q N c eq (laplaceNumber dims k))| ≤ 1 / 2)
    (U : Str → Data dims.prod) (x : Fin dims.prod) :
    ‖Equation.value N (spectralLaplacian (fft dims)
        (fun x => divRealScalar (ifft dims x) (dims.prod : ℕ)) (freqOf dims)) c U eq x‖ ^ 2 ≤
      (3 / 2 / dt) ^ 2 * squares (polynomialStep dims (stepTerms N c (freqOf dims) dt eq) (U f) - U f) := by
  have hp : (0 : ℝ) < (dims.prod : ℕ) := by
    have := Nat.pos_of_ne_zero (n := dims.prod) (by exact_mod_cast prod_ne_zero h)
    exact_mod_cast this
  set w := Equation.value N (spectralLaplacian (fft dims)
        (fun x => divRealScalar (ifft dims x) (dims.prod : ℕ)) (freqOf dims)) c U eq with hw
  have h1 : ‖w x‖ ^ 2 ≤ ∑ x, ‖w x‖ ^ 2 :=
    Finset.single_le_sum (f := fun x => ‖w x‖ ^ 2) (fun _ _ => by positivity) (Finset.mem_univ x)
  refine h1.trans (le_of_mul_le_mul_left ?_ hp)
  unfold squares
  rw [mul_left_comm, ← squares_parseval h, ← squares_parseval h, Finset.mul_sum]
  refine Finset.sum_le_sum fun k _ => ?_
  rw [← mul_pow]
  refine pow_le_pow_left₀ (norm_nonneg _) ?_ 2
  have e := step_value h hone (rate_ne_zero (dims := dims) hv hc hdt) U k
  have e' : fft dims (polynomialStep dims (stepTerms N c (freqOf dims) dt eq) (U f) - U f) k =
      fft dims (polynomialStep dims (stepTerms N c (freqOf dims) dt eq) (U f)) k - fft dims (U f) k := by
    simp only [fft, Pi.sub_apply, sub_mul, Finset.sum_sub_distrib]
  rw [← hw, ← e', implicit_stiffness hv hc] at e
  have e2 := congrArg norm e
  have e3 : (1 - (dt : ℂ) * ((-(laplaceNumber dims k ^ q * stiffness q N c eq (laplaceNumber dims k)) : ℝ) : ℂ)) =
      ((1 + dt * (laplaceNumber dims k ^ q * stiffness q N c eq (laplaceNumber dims k)) : ℝ) : ℂ) := by push_cast; ring
  rw [e3, norm_mul, norm_mul, Complex.norm_real, Complex.norm_real, Real.norm_eq_abs, Real.norm_eq_abs, abs_of_pos hdt0] at e2
  have l1 : |1 + dt * (laplaceNumber dims k ^ q * stiffness q N c eq (laplaceNumber dims k))| ≤ 3 / 2 := by
    have := abs_le.mp (hdt k)
    rw [abs_le]
    constructor <;> linarith
  have l2 := mul_le_mul_of_nonneg_left l1 (norm_nonneg (fft dims (polynomialStep dims (stepTerms N c (freqOf dims) dt eq) (U f) - U f) k))
  rw [e2] at l2
  rw [div_mul_eq_mul_div, le_div_iff₀ hdt0]
  linarith

/-- C131: all steps. If fields of bounded energy have bounded values, there is for every energy `E` a time step below which
every real field of at most this energy stays real and bounded, never gains energy, and comes to rest: the rate of
change that the equation spells tends to zero at every node. -/
theorem c131_rest (h : GoodDims (intDims dims)) (hl : LayoutOk dims) (N : Names) (hN : N.WellNamed) (f : Str)
    (m0 : EqModel dims.prod) (h0 : StartsAs N m0) (heq : m0.equations = [])
    (eq : Equation) (hone : OneField N f eq) (hq : eq.Polynomial N ∧ Unregistered m0 eq)
    (s0 : Str) (hs : s0.filter (fun c => c ≠ ' ') = eq.text) (c : Str → ℂ) (q : ℕ) (hv : Variational q N eq)
    (hc : RealCoefficients N c eq) (hconf : Confining dims q N c eq) :
    ∃ m M, m0.addEquation s0 = some m ∧ m.fields = [f] ∧ m.assemble c = some M ∧
      ∀ E : ℝ, ∃ dt0 R : ℝ, 0 < dt0 ∧ ∀ s : Stepper dims.prod, s.filter = none → s.freq = freqOf dims → 0 < s.dt → s.dt ≤ dt0 →
      ∀ (st : Store m.fields.length m.derived.length dims.prod) (i : Fin m.fields.length), IsReal (st.fields i) →
        energy q N c eq (st.fields i) ≤ E →
        (∀ steps, IsReal ((eulerPropagate M steps (s, st)).2.fields i)) ∧
        (∀ steps x, |((eulerPropagate M steps (s, st)).2.fields i x).re| ≤ R) ∧
        Antitone (fun steps => energy q N c eq ((eulerPropagate M steps (s, st)).2.fields i)) ∧
        ∀ (U : ℕ → Str → Data dims.prod), (∀ steps, U steps f = (eulerPropagate M steps (s, st)).2.fields i) →
          ∀ x, Filter.Tendsto (fun steps => Equation.value N (spectralLaplacian (fft dims)
            (fun x => divRealScalar (ifft dims x) (dims.prod : ℕ)) (freqOf dims)) c (U steps) eq x) Filter.atTop (nhds 0) := by
  obtain ⟨m, M, h1, h2, h3, h4⟩ := text_polynomial (pos_of_goodDims h) N hN f m0 h0 heq eq hone hq s0 hs c
  refine ⟨m, M, h1, h2, h3, ?_⟩
  intro E
  have hf := field_is hone hq.1
  obtain ⟨R, hR⟩ := hconf E
  obtain ⟨dt0, hpos, hsmall⟩ := small_steps h hl hone hf hv hc R
  refine ⟨dt0, R, hpos, ?_⟩
  intro s hfil hfreq hdt hle st i hr hE
  obtain ⟨hg, hen⟩ := hsmall s.dt hdt hle
  have hne := rate_ne_zero (dims := dims) hv hc hg
  set F := polynomialStep dims (stepTerms N c (freqOf dims) s.dt eq) with hF
  have hiter : ∀ steps, (eulerPropagate M steps (s, st)).2.fields i = F^[steps] (st.fields i) := by
    intro steps
    refine propagate_iterate (F := F) ?_ st steps
    intro s' hd' hf' hfil' st'
    rw [h4 s' (hfil'.trans hfil) (by rw [hd', hf', hfreq]; exact hne) st' i, hd', hf', hfreq]
  have key : ∀ steps, IsReal (F^[steps] (st.fields i)) ∧ energy q N c eq (F^[steps] (st.fields i)) ≤ E ∧
      energy q N c eq (F^[steps + 1] (st.fields i)) + squares (F^[steps + 1] (st.fields i) - F^[steps] (st.fields i)) ≤
        energy q N c eq (F^[steps] (st.fields i)) := by
    intro steps
    induction steps with
    | zero => exact ⟨hr, hE, hen _ _ hr (hR _ hr hE) rfl⟩
    | succ j ih =>
      obtain ⟨a, b, e⟩ := ih
      have a' : IsReal (F^[j + 1] (st.fields i)) := by
        rw [Function.iterate_succ_apply']
        exact step_real h hl hone hf hv hc hne a
      have hsq : 0 ≤ squares (F^[j + 1] (st.fields i) - F^[j] (st.fields i)) := Finset.sum_nonneg fun _ _ => by positivity
      have b' : energy q N c eq (F^[j + 1] (st.fields i)) ≤ E := by linarith
      refine ⟨a', b', ?_⟩
      rw [Function.iterate_succ_apply' F (j + 1)]
      exact hen _ _ a' (hR _ a' b') rfl
  have hanti : Antitone fun steps => energy q N c eq (F^[steps] (st.fields i)) := by
    refine antitone_nat_of_succ_le fun j => ?_
    have hsq : 0 ≤ squares (F^[j + 1] (st.fields i) - F^[j] (st.fields i)) := Finset.sum_nonneg fun _ _ => by positivity
    linarith [(key j).2.2]
  refine ⟨fun j => by rw [hiter]; exact (key j).1, fun j x => by rw [hiter]; exact hR _ (key j).1 (key j).2.1 x, ?_, ?_⟩
  · simpa only [hiter] using hanti
  intro U hU x
  -- the energy is bounded below on bounded fields
  have hbdd : ∃ L, ∀ j, L ≤ energy q N c eq (F^[j] (st.fields i)) := by
    have cW : Continuous (bulkEnergy q N c eq) := continuous_iff_continuousAt.mpr fun t => (bulk_hasDerivAt q N c eq t).continuousAt
    obtain ⟨B, hB⟩ := (isCompact_Icc (a := -R) (b := R)).exists_bound_of_continuousOn cW.continuousOn
    refine ⟨∑ _x : Fin dims.prod, -B + (∑ k : Fin dims.prod, -(|stiffness q N c eq (laplaceNumber dims k)| * ((dims.prod : ℕ) * |R|) ^ 2)) / (2 * (dims.prod : ℕ)), ?_⟩
    intro j
    have hb := hR _ (key j).1 (key j).2.1
    unfold energy
    refine add_le_add (Finset.sum_le_sum fun x _ => ?_) (div_le_div_of_nonneg_right (Finset.sum_le_sum fun k _ => ?_) (by positivity))
    · have := hB _ (abs_le.mp (hb x))
      rw [Real.norm_eq_abs] at this
      exact (abs_le.mp this).1
    · have hux : ∀ x, ‖F^[j] (st.fields i) x‖ ≤ |R| := by
        intro x
        have : F^[j] (st.fields i) x = ((F^[j] (st.fields i) x).re : ℂ) := Complex.ext (by simp) (by simp [(key j).1 x])
        rw [this, Complex.norm_real, Real.norm_eq_abs]
        exact (hb x).trans (le_abs_self R)
      have := pow_le_pow_left₀ (norm_nonneg _) (fft_norm_le _ hux k) 2
      have h5 := mul_le_mul_of_nonneg_left this (abs_nonneg (stiffness q N c eq (laplaceNumber dims k)))
      have h6 := mul_le_mul_of_nonneg_right (neg_abs_le (stiffness q N c eq (laplaceNumber dims k))) (sq_nonneg ‖fft dims (F^[j] (st.fields i)) k‖)
      linarith
  obtain ⟨L, hL⟩ := hbdd
  have hlim := tendsto_atTop_ciInf hanti ⟨L, by rintro _ ⟨j, rfl⟩; exact hL j⟩
  have hdiff : Filter.Tendsto (fun j => energy q N c eq (F^[j] (st.fields i)) - energy q N c eq (F^[j + 1] (st.fields i))) Filter.atTop (nhds 0) := by
    have := hlim.sub (hlim.comp (Filter.tendsto_add_atTop_nat 1))
    rwa [sub_self] at this
  have hsq : Filter.Tendsto (fun j => (3 / 2 / s.dt) ^ 2 * squares (F^[j + 1] (st.fields i) - F^[j] (st.fields i))) Filter.atTop (nhds 0) := by
    have h0 : Filter.Tendsto (fun j => squares (F^[j + 1] (st.fields i) - F^[j] (st.fields i))) Filter.atTop (nhds 0) :=
      squeeze_zero (fun j => Finset.sum_nonneg fun _ _ => by positivity) (fun j => by linarith [(key j).2.2]) hdiff
    simpa using h0.const_mul ((3 / 2 / s.dt) ^ 2)
  have hval : Filter.Tendsto (fun j => ‖Equation.value N (spectralLaplacian (fft dims)
            (fun x => divRealScalar (ifft dims x) (dims.prod : ℕ)) (freqOf dims)) c (U j) eq x‖ ^ 2) Filter.atTop (nhds 0) := by
    refine squeeze_zero (fun _ => by positivity) (fun j => ?_) hsq
    have := value_le (pos_of_goodDims h) hone hv hc hdt hg (U j) x
    rw [hU, hiter, ← hF, ← Function.iterate_succ_apply' F] at this
    exact this
  rw [tendsto_zero_iff_norm_tendsto_zero]
  have := (Real.continuous_sqrt.tendsto 0).comp hval
  simp only [Real.sqrt_zero] at this
  refine this.congr fun j => ?_
  simp only [Function.comp_apply]
  exact Real.sqrt_sq (norm_nonneg _)

/-! ### The energy is the right one -/

/-- C131: the equation is the gradient flow of the energy. Moving a real field along `(-LAP)^q φ` changes the energy at
the rate `-∑ r φ`, where `r` is the right-hand side that the equation spells. -/
theorem c131_gradient (h : ∀ d ∈ dims, 0 < d) {q : ℕ} {N : Names} {f : Str} {eq : Equation} (hone : OneField N f eq)
    (hq : eq.Polynomial N) (hv : Variational q N eq) {c : Str → ℂ} (hc : RealCoefficients N c eq) (U : Str → Data dims.prod)
    (hu : IsReal (U f)) {φ ψ : Data dims.prod} (hφ : IsReal φ)
    (hψφ : ∀ k, fft dims ψ k = (laplaceNumber dims k ^ q : ℝ) * fft dims φ k) :
    HasDerivAt (fun t : ℝ => energy q N c eq (fun x => U f x + t * ψ x))
      (-∑ x, (Equation.value N (spectralLaplacian (fft dims)
        (fun x => divRealScalar (ifft dims x) (dims.prod : ℕ)) (freqOf dims)) c U eq x).re * (φ x).re) 0 := by
  have hp : (0 : ℝ) < (dims.prod : ℕ) := by
    have := Nat.pos_of_ne_zero (n := dims.prod) (by exact_mod_cast prod_ne_zero h)
    exact_mod_cast this
  set r := Equation.value N (spectralLaplacian (fft dims)
        (fun x => divRealScalar (ifft dims x) (dims.prod : ℕ)) (freqOf dims)) c U eq with hr
  set w : Data dims.prod := fun x => (bulkForce q N c eq (U f x).re : ℂ) with hw
  set g : Fin dims.prod → ℝ := fun k => stiffness q N c eq (laplaceNumber dims k) with hg
  -- the right-hand side
  have e1 : ∀ k, fft dims r k = -((laplaceNumber dims k ^ q : ℝ) : ℂ) * (fft dims w k + g k * fft dims (U f) k) := by
    intro k
    have hva : N.varying = [f] := by rw [Names.varying, hone.fields, hone.functions]; rfl
    have hpow : (eq.terms.map fun p : List Item × Option Char => coefficient N c p * laplaceSymbol (freqOf dims k) ^ (laplacians p.1).sum *
        fft dims (productValue (factorsIn N.varying p.1) U) k) = eq.terms.map fun p : List Item × Option Char => coefficient N c p *
        laplaceSymbol (freqOf dims k) ^ (laplacians p.1).sum * fft dims (fun x => U f x ^ degree N p) k :=
      List.map_congr_left fun p hp => by rw [productValue_power hva (hone.powers p hp) U (U f) rfl]
    rw [hr, fft_value h, hpow, rhs_energy hone (field_is hone hq) hv hc hu, implicit_stiffness hv hc]
    simp only [hg, hw]
    push_cast
    ring
  have d1 : HasDerivAt (fun t : ℝ => ∑ x, bulkEnergy q N c eq (U f x + t * ψ x).re)
      (∑ x, bulkForce q N c eq (U f x).re * (ψ x).re) 0 := by
    refine HasDerivAt.fun_sum fun x _ => ?_
    have i1 : HasDerivAt (fun t : ℝ => (U f x + t * ψ x).re) (ψ x).re 0 := by
      simp only [Complex.add_re, Complex.re_ofReal_mul]
      simpa using ((hasDerivAt_id (0 : ℝ)).mul_const (ψ x).re).const_add (U f x).re
    have i2 := bulk_hasDerivAt q N c eq (U f x + ((0 : ℝ) : ℂ) * ψ x).re
    have i3 := i2.comp (0 : ℝ) i1
    refine i3.congr_deriv ?_
    simp
  have d2 : HasDerivAt (fun t : ℝ => (∑ k, g k * ‖fft dims (fun x => U f x + t * ψ x) k‖ ^ 2) / (2 * (dims.prod : ℕ)))
      ((∑ k, g k * (2 * (fft dims (U f) k * (starRingEnd ℂ) (fft dims ψ k)).re)) / (2 * (dims.prod : ℕ))) 0 := by
    refine HasDerivAt.div_const (HasDerivAt.fun_sum fun k _ => HasDerivAt.const_mul (g k) ?_) _
    have i1 : (fun t : ℝ => ‖fft dims (fun x => U f x + t * ψ x) k‖ ^ 2) = fun t : ℝ => ‖fft dims (U f) k‖ ^ 2 +
        t * (2 * (fft dims (U f) k * (starRingEnd ℂ) (fft dims ψ k)).re) + t ^ 2 * ‖fft dims ψ k‖ ^ 2 := by
      funext t
      rw [fft_add, fft_smul]
      simp only [← Complex.normSq_eq_norm_sq, Complex.normSq_apply, Complex.add_re, Complex.add_im, Complex.mul_re,
        Complex.mul_im, Complex.conj_re, Complex.conj_im, Complex.ofReal_re, Complex.ofReal_im]
      ring
    rw [i1]
    have i2 := (((hasDerivAt_id (0 : ℝ)).mul_const (2 * (fft dims (U f) k * (starRingEnd ℂ) (fft dims ψ k)).re)).const_add
      (‖fft dims (U f) k‖ ^ 2)).add ((hasDerivAt_pow 2 (0 : ℝ)).mul_const (‖fft dims ψ k‖ ^ 2))
    refine HasDerivAt.congr_deriv i2 ?_
    simp
  have d3 := d1.add d2
  refine d3.congr_deriv ?_
  have p1 : ∑ k, (fft dims w k * (starRingEnd ℂ) (fft dims ψ k)).re = (dims.prod : ℕ) * ∑ x, bulkForce q N c eq (U f x).re * (ψ x).re := by
    rw [real_parseval h]
    congr 1
    refine Finset.sum_congr rfl fun x _ => ?_
    simp [hw]
  have p2 : ∑ k, (fft dims r k * (starRingEnd ℂ) (fft dims φ k)).re = (dims.prod : ℕ) * ∑ x, (r x).re * (φ x).re := by
    rw [real_parseval h]
    congr 1
    refine Finset.sum_congr rfl fun x _ => ?_
    simp [hφ x]
  have p3 : ∑ k, (fft dims r k * (starRingEnd ℂ) (fft dims φ k)).re = -(∑ k, (fft dims w k * (starRingEnd ℂ) (fft dims ψ k)).re +
      ∑ k, g k * (fft dims (U f) k * (starRingEnd ℂ) (fft dims ψ k)).re) := by
    rw [← Finset.sum_add_distrib, ← Finset.sum_neg_distrib]
    refine Finset.sum_congr rfl fun k _ => ?_
    rw [e1 k, hψφ k, map_mul, Complex.conj_ofReal]
    simp only [Complex.mul_re, Complex.mul_im, Complex.neg_re, Complex.neg_im, Complex.add_re, Complex.add_im,
      Complex.ofReal_re, Complex.ofReal_im, Complex.conj_re, Complex.conj_im]
    ring
  rw [p1, p2] at p3
  have p4 : ∑ k, g k * (2 * (fft dims (U f) k * (starRingEnd ℂ) (fft dims ψ k)).re) =
      2 * ∑ k, g k * (fft dims (U f) k * (starRingEnd ℂ) (fft dims ψ k)).re := by
    rw [Finset.mul_sum]
    exact Finset.sum_congr rfl fun k _ => by ring
  rw [p4]
  generalize ∑ k, g k * (fft dims (U f) k * (starRingEnd ℂ) (fft dims ψ k)).re = G at *
  generalize ∑ x, bulkForce q N c eq (U f x).re * (ψ x).re = A at *
  generalize ∑ x, (r x).re * (φ x).re = Z at *
  generalize ((dims.prod : ℕ) : ℝ) = P at *
  have : A + 2 * G / (2 * P) = (P * A + G) / P := by field_simp
  rw [this, div_eq_iff hp.ne']
  linarith

/-! ### The Cahn-Hilliard equation -/

theorem hilliard_terms : hilliardEquation.terms = [([⟨some none, some ⟨"conc".toList, some ⟨['3'], none⟩⟩⟩], none),
    ([⟨some none, some ⟨"conc".toList, none⟩⟩], some '-'),
    ([⟨some (some ['2']), some ⟨"conc".toList, none⟩⟩], some '-')] := rfl

theorem conc_scalars (l : List Item) : factorsIn concNames.scalars l = [] := by simp [factorsIn, concNames]

theorem lap_one (f : Option Factor) : (laplacians [⟨some none, f⟩]).sum = 1 := by simp [laplacians, lapValue]

theorem lap_two (f : Option Factor) : (laplacians [⟨some (some ['2']), f⟩]).sum = 2 := by
  have : lapValue (some ['2']) = 2 := by decide
  simp [laplacians, this]

theorem hilliard_variational : Variational 1 concNames hilliardEquation := by
  refine ⟨?_, ?_⟩
  · intro p hp hl
    rw [hilliard_terms] at hp
    simp only [List.mem_cons, List.not_mem_nil, or_false] at hp
    rcases hp with rfl | rfl | rfl
    · exact lap_one _
    · exact absurd (conc_linearIn _) hl
    · exact absurd (conc_linearIn _) hl
  · intro p hp hl
    rw [hilliard_terms] at hp
    simp only [List.mem_cons, List.not_mem_nil, or_false] at hp
    rcases hp with rfl | rfl | rfl
    · exact absurd hl (cube_not_linearIn _)
    · exact (lap_one _).ge
    · rw [lap_two]; omega

theorem hilliard_real (c : Str → ℂ) : RealCoefficients concNames c hilliardEquation := by
  intro p _
  unfold coefficient
  rw [conc_scalars]
  simp

theorem hilliard_bulk (c : Str → ℂ) (t : ℝ) : bulkEnergy 1 concNames c hilliardEquation t = t ^ 4 / 4 ∧
    bulkCurvature 1 concNames c hilliardEquation t = 3 * t ^ 2 := by
  have g1 : signOf none = 1 := by decide
  have d1 : degree concNames ([⟨some none, some ⟨"conc".toList, some ⟨['3'], none⟩⟩⟩], none) = 3 := by decide +kernel
  unfold bulkEnergy bulkCurvature
  rw [hilliard_terms]
  simp only [List.map_cons, List.map_nil]
  rw [if_neg (by exact cube_not_linearIn _), if_pos (by exact conc_linearIn _), if_pos (by exact conc_linearIn _),
    if_neg (by exact cube_not_linearIn _), if_pos (by exact conc_linearIn _), if_pos (by exact conc_linearIn _)]
  simp only [coefficient, List.sum_cons, List.sum_nil, conc_scalars, g1, d1, List.map_nil, List.prod_nil]
  norm_num

theorem hilliard_stiffness (c : Str → ℂ) (x : ℝ) : stiffness 1 concNames c hilliardEquation x = x - 1 := by
  have g2 : signOf (some '-') = -1 := by decide
  unfold stiffness
  rw [hilliard_terms]
  simp only [List.map_cons, List.map_nil]
  rw [if_neg (by exact cube_not_linearIn _), if_pos (by exact conc_linearIn _), if_pos (by exact conc_linearIn _)]
  simp only [coefficient, List.sum_cons, List.sum_nil, conc_scalars, g2, lap_one, lap_two, List.map_nil, List.prod_nil]
  norm_num
  ring

/-- The energy that the Cahn-Hilliard equation lowers: the sum of `u^4/4 - u^2/2` over the nodes, and `4π²|f|²/2` times the
square of the amplitude of each wave. -/
noncomputable def hilliardEnergy (u : Data dims.prod) : ℝ :=
  ∑ x, ((u x).re ^ 4 / 4 - (u x).re ^ 2 / 2) + (∑ k, laplaceNumber dims k * ‖fft dims u k‖ ^ 2) / (2 * (dims.prod : ℕ))

theorem hilliard_energy (h : ∀ d ∈ dims, 0 < d) (c : Str → ℂ) {u : Data dims.prod} (hu : IsReal u) :
    energy 1 concNames c hilliardEquation u = hilliardEnergy u := by
  have hp : (0 : ℝ) < (dims.prod : ℕ) := by
    have := Nat.pos_of_ne_zero (n := dims.prod) (by exact_mod_cast prod_ne_zero h)
    exact_mod_cast this
  unfold energy hilliardEnergy
  simp only [(hilliard_bulk c _).1, hilliard_stiffness, sub_mul, one_mul, Finset.sum_sub_distrib]
  rw [squares_parseval h]
  have : ∑ x, ‖u x‖ ^ 2 = ∑ x, (u x).re ^ 2 := by
    refine Finset.sum_congr rfl fun x _ => ?_
    have : u x = ((u x).re : ℂ) := Complex.ext (by simp) (by simp [hu x])
    rw [this, Complex.norm_real, Real.norm_eq_abs, sq_abs]
    simp
  rw [this, ← Finset.sum_div, ← Finset.sum_div]
  field_simp
  ring

theorem hilliard_confining (h : ∀ d ∈ dims, 0 < d) (c : Str → ℂ) : Confining dims 1 concNames c hilliardEquation := by
  intro E
  refine ⟨Real.sqrt (2 * (E + (dims.prod : ℕ))), ?_⟩
  intro u hu hE x
  rw [hilliard_energy h c hu] at hE
  refine Real.abs_le_sqrt ?_
  have h1 : ∑ x, ((u x).re ^ 2 / 2 - 1) ≤ ∑ x, ((u x).re ^ 4 / 4 - (u x).re ^ 2 / 2) :=
    Finset.sum_le_sum fun x _ => by nlinarith [sq_nonneg ((u x).re ^ 2 / 2 - 1)]
  have h2 : (u x).re ^ 2 / 2 ≤ ∑ x, (u x).re ^ 2 / 2 :=
    Finset.single_le_sum (f := fun x => (u x).re ^ 2 / 2) (fun _ _ => by positivity) (Finset.mem_univ x)
  have h3 : 0 ≤ (∑ k, laplaceNumber dims k * ‖fft dims u k‖ ^ 2) / (2 * (dims.prod : ℕ)) :=
    div_nonneg (Finset.sum_nonneg fun k _ => mul_nonneg (laplaceNumber_nonneg k) (by positivity)) (by positivity)
  rw [Finset.sum_sub_distrib] at h1
  have h4 : ∑ _x : Fin dims.prod, (1 : ℝ) = (dims.prod : ℕ) := by simp
  rw [h4] at h1
  unfold hilliardEnergy at hE
  linarith

/-- C131: the Cahn-Hilliard equation. On every grid: a step in which the values stay between `-b` and `b`, with a time step of
at most `8/(3 b^2 + 1)^2`, does not raise the energy; and for every energy there is a time step below which all real fields
of at most this energy stay real and bounded, never gain energy, and come to rest. -/
theorem c131_cahn_hilliard (h : GoodDims (intDims dims)) (hl : LayoutOk dims) :
    ∃ m M, ((EqModel.empty (n := dims.prod)).addField "conc".toList).addEquation
        "dconc/dt = LAPconc^3 - LAPconc - LAP^2conc".toList = some m ∧ m.assemble (fun _ => 0) = some M ∧
      (∀ s : Stepper dims.prod, s.filter = none → s.freq = freqOf dims → 0 ≤ s.dt →
        ∀ (st : Store m.fields.length m.derived.length dims.prod) (i : Fin m.fields.length), IsReal (st.fields i) →
        ∀ b : ℝ, (∀ x, |(st.fields i x).re| ≤ b) → (∀ x, |((eulerStep M (s, st)).2.fields i x).re| ≤ b) →
          s.dt * (3 * b ^ 2 + 1) ^ 2 ≤ 8 → s.dt < 4 →
          hilliardEnergy ((eulerStep M (s, st)).2.fields i) ≤ hilliardEnergy (st.fields i)) ∧
      ∀ E : ℝ, ∃ dt0 R : ℝ, 0 < dt0 ∧ ∀ s : Stepper dims.prod, s.filter = none → s.freq = freqOf dims → 0 < s.dt → s.dt ≤ dt0 →
        ∀ (st : Store m.fields.length m.derived.length dims.prod) (i : Fin m.fields.length), IsReal (st.fields i) →
        hilliardEnergy (st.fields i) ≤ E →
        (∀ steps, IsReal ((eulerPropagate M steps (s, st)).2.fields i)) ∧
        (∀ steps x, |((eulerPropagate M steps (s, st)).2.fields i x).re| ≤ R) ∧
        Antitone (fun steps => hilliardEnergy ((eulerPropagate M steps (s, st)).2.fields i)) ∧
        ∀ (U : ℕ → Str → Data dims.prod), (∀ steps, U steps "conc".toList = (eulerPropagate M steps (s, st)).2.fields i) →
          ∀ x, Filter.Tendsto (fun steps => Equation.value concNames (spectralLaplacian (fft dims)
            (fun x => divRealScalar (ifft dims x) (dims.prod : ℕ)) (freqOf dims)) (fun _ => 0) (U steps) hilliardEquation x)
            Filter.atTop (nhds 0) := by
  have hpos := pos_of_goodDims h
  obtain ⟨m, M, h1, -, h3, h4⟩ := c131_step h hl concNames conc_wellNamed "conc".toList
    ((EqModel.empty (n := dims.prod)).addField "conc".toList) ⟨rfl, rfl, fun x => Iff.rfl⟩ rfl hilliardEquation
    hilliard_oneField ⟨hilliard_polynomial, fun _ _ => ⟨rfl, rfl⟩⟩
    "dconc/dt = LAPconc^3 - LAPconc - LAP^2conc".toList (by decide) (fun _ => 0) 1 hilliard_variational (hilliard_real _)
  obtain ⟨m', M', h1', -, h3', h4'⟩ := c131_rest h hl concNames conc_wellNamed "conc".toList
    ((EqModel.empty (n := dims.prod)).addField "conc".toList) ⟨rfl, rfl, fun x => Iff.rfl⟩ rfl hilliardEquation
    hilliard_oneField ⟨hilliard_polynomial, fun _ _ => ⟨rfl, rfl⟩⟩
    "dconc/dt = LAPconc^3 - LAPconc - LAP^2conc".toList (by decide) (fun _ => 0) 1 hilliard_variational (hilliard_real _)
    (hilliard_confining hpos _)
  have em : m' = m := Option.some.inj (h1'.symm.trans h1)
  subst em
  have eM : M' = M := Option.some.inj (h3'.symm.trans h3)
  subst eM
  refine ⟨m', M', h1, h3, ?_, ?_⟩
  · intro s hfil hfreq hdt st i hr b hb hb' hlim h2
    have hA : ∀ q : ℝ, s.dt * (q - q ^ 2) < 1 := by
      intro q
      have h5 : q - q ^ 2 ≤ 1 / 4 := by nlinarith [sq_nonneg (q - 1 / 2)]
      have := mul_le_mul_of_nonneg_left h5 hdt
      linarith
    obtain ⟨r1, r2⟩ := h4 s hfil hfreq hdt (fun k h0 => by
      rw [hilliard_stiffness] at h0
      have := hA (laplaceNumber dims k)
      nlinarith) st i hr
    have := r2 (-b) b (3 * b ^ 2) 0 (fun x => abs_le.mp (hb x)) (fun x => abs_le.mp (hb' x)) (fun t ht => by
        rw [(hilliard_bulk _ t).2]
        have := sq_le_sq' ht.1 ht.2
        linarith) (fun k => by
        rw [hilliard_stiffness, pow_one]
        generalize laplaceNumber dims k = q
        have h6 : q * (3 * b ^ 2 + 1) - q ^ 2 ≤ (3 * b ^ 2 + 1) ^ 2 / 4 := by
          nlinarith [sq_nonneg (q - (3 * b ^ 2 + 1) / 2)]
        have h7 := mul_le_mul_of_nonneg_left h6 hdt
        nlinarith)
    rw [hilliard_energy hpos _ r1, hilliard_energy hpos _ hr] at this
    linarith
  · intro E
    obtain ⟨dt0, R, hd, key⟩ := h4' E
    refine ⟨dt0, R, hd, ?_⟩
    intro s hfil hfreq hdt hle st i hr hE
    obtain ⟨k1, k2, k3, k4⟩ := key s hfil hfreq hdt hle st i hr (by rw [hilliard_energy hpos _ hr]; exact hE)
    refine ⟨k1, k2, ?_, k4⟩
    have : (fun steps => hilliardEnergy ((eulerPropagate M' steps (s, st)).2.fields i)) =
        fun steps => energy 1 concNames (fun _ => 0) hilliardEquation ((eulerPropagate M' steps (s, st)).2.fields i) := by
      funext j
      rw [hilliard_energy hpos _ (k1 j)]
    rw [this]
    exact k3

/-- The numbers of the last theorem: fields between -6/5 and 6/5 with a time step of 1/10, on a grid of 16 times 16 nodes. -/
example : (1 / 10 : ℝ) * (3 * (6 / 5) ^ 2 + 1) ^ 2 ≤ 8 ∧ (1 / 10 : ℝ) < 4 ∧ GoodDims (intDims [16, 16]) ∧ LayoutOk [16, 16] := by
  refine ⟨by norm_num, by norm_num, by simp [GoodDims, intDims], trivial⟩

/-- The directions of `c131_gradient` exist: every field `φ` has a `(-LAP)^q φ`. -/
example (h : ∀ d ∈ dims, 0 < d) (q : ℕ) (φ : Data dims.prod) :
    ∃ ψ : Data dims.prod, ∀ k, fft dims ψ k = (laplaceNumber dims k ^ q : ℝ) * fft dims φ k :=
  ⟨multiplier dims (fun k => ((laplaceNumber dims k ^ q : ℝ) : ℂ)) φ, fun k => fft_multiplier h _ _ k⟩

end Gopf.Props
