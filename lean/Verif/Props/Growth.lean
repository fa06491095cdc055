import Verif.Props.RealSession
import Verif.Proofs.Parseval

/-!
# C125: how the waves of a linear equation grow and decay in a simulation
-/

namespace Gopf.Props
open Spec Pf Pfutil

variable {nf nd n : ℕ} {dims : List ℕ}

/-! ### The specification -/

/-- Every term of the equation is linear in the field of the equation and has no other field or function. -/
def Equation.Linear (N : Names) (eq : Equation) : Prop := ∀ p ∈ eq.terms, LinearIn eq.field N.varying p.1

/-- The rate at which the equation makes the wave `k` grow: every term contributes its sign, its scalars and
`-4π²|f|²` for every Laplacian. -/
noncomputable def growthRate (N : Names) (c : Str → ℂ) (freq : Frequency n) (eq : Equation) (k : Fin n) : ℂ :=
  (eq.terms.map fun p : List Item × Option Char =>
    (signOf p.2 : ℂ) * ((factorsIn N.scalars p.1).map fun f => c f.name ^ ((f.power : ℚ) : ℂ)).prod *
      laplaceSymbol (freq k) ^ (laplacians p.1).sum).sum

/-- What a filter multiplies a wave of frequency `f` by. -/
noncomputable def waveGain (filter : Option (ℝ → ℝ)) (f : List ℝ) : ℝ :=
  filter.elim 1 fun F => F (Real.sqrt (f.map fun x => x ^ 2).sum * 2 / Real.pi)

/-! ### One step -/

theorem dotR_squares (f : List ℝ) : dotR f f = (f.map fun x => x ^ 2).sum := by
  unfold dotR
  induction f with
  | nil => rfl
  | cons a f ih => simp only [List.zipWith_cons_cons, List.map_cons, List.sum_cons, ih, sq]

theorem optFilter_gain (filter : Option (ℝ → ℝ)) (freq : Frequency n) (data : Data n) (k : Fin n) :
    optFilter filter freq data k = waveGain filter (freq k) * data k := by
  cases filter with
  | none => simp [optFilter, waveGain]
  | some f => simp only [optFilter, applyModalFilter, waveGain, Option.elim, dotR_squares]; ring

section
variable (h : ∀ d ∈ dims, 0 < d) {m : Model nf nd dims.prod} {i : Fin nf} {R : Data dims.prod}
include h

theorem euler_wave (s : Stepper dims.prod) (hR : ∀ st t, m.getRHS i st s.freq t = 0)
    (hD : ∀ st t, m.getDenum i st s.freq t = R) (st : Store nf nd dims.prod) (k : Fin dims.prod) :
    fft dims ((eulerStep m (s, st)).2.fields i) k =
      waveGain s.filter (s.freq k) / (1 - s.dt * R k) * fft dims (st.fields i) k := by
  obtain ⟨st', -, -, h3⟩ := eulerStep_field h m s s.getTime st i
  unfold eulerStep
  dsimp only
  rw [h3, optFilter_gain, hR, hD]
  simp only [Pi.zero_apply, mul_zero, add_zero]
  ring

theorem rk4_wave (s : Stepper dims.prod) (hR : ∀ st t, m.getRHS i st s.freq t = 0)
    (hD : ∀ st t, m.getDenum i st s.freq t = R) (st : Store nf nd dims.prod) (k : Fin dims.prod) :
    fft dims ((rk4Step m (s, st)).2.fields i) k =
      waveGain s.filter (s.freq k) / (1 - s.dt * R k) * fft dims (st.fields i) k := by
  obtain ⟨stc, e⟩ := rk4_last m s st i
  unfold rk4Step
  dsimp only
  rw [e, fft_divided h, optFilter_gain, hD, stages_zero m (fun st => by rw [hR]; rfl)]
  have : (fftDerived (fftFields (m.sync st))).fields i = fft dims (st.fields i) := by
    change fft dims ((m.sync st).fields i) = _
    rw [sync_fields]
  rw [this]
  ring

theorem euler_waves (s : Stepper dims.prod) (hR : ∀ st t, m.getRHS i st s.freq t = 0)
    (hD : ∀ st t, m.getDenum i st s.freq t = R) (st : Store nf nd dims.prod) (k : Fin dims.prod) (steps : ℕ) :
    ((eulerPropagate m steps (s, st)).1.dt = s.dt ∧ (eulerPropagate m steps (s, st)).1.freq = s.freq ∧
      (eulerPropagate m steps (s, st)).1.filter = s.filter) ∧
    fft dims ((eulerPropagate m steps (s, st)).2.fields i) k =
      (waveGain s.filter (s.freq k) / (1 - s.dt * R k)) ^ steps * fft dims (st.fields i) k := by
  induction steps with
  | zero => simp [eulerPropagate]
  | succ j ih =>
    have e : eulerPropagate m (j + 1) (s, st) = eulerStep m (eulerPropagate m j (s, st)) := by
      simp [eulerPropagate, List.range_succ]
    rw [e]
    generalize eulerPropagate m j (s, st) = p at ih
    obtain ⟨p1, p2⟩ := p
    obtain ⟨⟨a, b, c⟩, d⟩ := ih
    dsimp only at a b c d
    refine ⟨⟨a, b, c⟩, ?_⟩
    rw [euler_wave h p1 (by rw [b]; exact hR) (by rw [b]; exact hD), d, a, b, c]
    ring

theorem rk4_waves (s : Stepper dims.prod) (hR : ∀ st t, m.getRHS i st s.freq t = 0)
    (hD : ∀ st t, m.getDenum i st s.freq t = R) (st : Store nf nd dims.prod) (k : Fin dims.prod) (steps : ℕ) :
    ((rk4Propagate m steps (s, st)).1.dt = s.dt ∧ (rk4Propagate m steps (s, st)).1.freq = s.freq ∧
      (rk4Propagate m steps (s, st)).1.filter = s.filter) ∧
    fft dims ((rk4Propagate m steps (s, st)).2.fields i) k =
      (waveGain s.filter (s.freq k) / (1 - s.dt * R k)) ^ steps * fft dims (st.fields i) k := by
  induction steps with
  | zero => simp [rk4Propagate]
  | succ j ih =>
    have e : rk4Propagate m (j + 1) (s, st) = (({ (rk4Step m (rk4Propagate m j (s, st))).1 with
        currentStep := (rk4Step m (rk4Propagate m j (s, st))).1.currentStep + 1 } : Stepper dims.prod),
        (rk4Step m (rk4Propagate m j (s, st))).2) := by
      simp [rk4Propagate, List.range_succ]
    rw [e]
    generalize rk4Propagate m j (s, st) = p at ih
    obtain ⟨p1, p2⟩ := p
    obtain ⟨⟨a, b, c⟩, d⟩ := ih
    dsimp only at a b c d
    refine ⟨⟨a, b, c⟩, ?_⟩
    dsimp only
    rw [rk4_wave h p1 (by rw [b]; exact hR) (by rw [b]; exact hD), d, a, b, c]
    ring

end

/-! ### Equations given as text -/

theorem prod_map_pow (z : ℂ) (l : List ℕ) : (l.map fun q => z ^ q).prod = z ^ l.sum := by
  induction l with
  | nil => simp
  | cons a l ih => simp [ih, pow_add]

theorem linear_rate {N : Names} {c : Str → ℂ} {freq : Frequency n} {eq : Equation} (hl : Equation.Linear N eq)
    (k : Fin n) : (eq.terms.map (linearFactor N eq.field (fun y _ => c y) freq k)).sum = growthRate N c freq eq k := by
  unfold growthRate
  congr 1
  apply List.map_congr_left
  intro p hp
  rw [linearFactor, if_pos (hl p hp), prod_map_pow]

/-- C125: in a simulation of an equation that is linear in its own field, every step multiplies each wave by
`1 / (1 - dt r)` and by what the filter gives, where `r` is the growth rate of the equation for that wave. This holds
for the Euler and for the RK4 stepper, whatever the other equations are. -/
theorem c125_waves (h : ∀ d ∈ dims, 0 < d) (N : Names) (hN : N.WellNamed)
    (m0 : EqModel dims.prod) (h0 : StartsAs N m0) (heq : m0.equations = [])
    (eqs : List Equation) (hq : ∀ eq ∈ eqs, eq.Polynomial N ∧ Unregistered m0 eq)
    (hcount : N.fields.length ≤ eqs.length)
    (ss : List Str) (hs : ss.map (fun s => s.filter fun c => c ≠ ' ') = eqs.map Equation.text) (c : Str → ℂ) :
    ∃ m M, ss.foldlM EqModel.addEquation m0 = some m ∧ m.fields = N.fields ∧ m.assemble c = some M ∧
      ∀ (i : Fin m.fields.length) (eq : Equation), eqs[i.val]? = some eq → Equation.Linear N eq →
      ∀ s : Stepper dims.prod, (∀ k, 1 - s.dt * growthRate N c s.freq eq k ≠ 0) →
      ∀ (st : Store m.fields.length m.derived.length dims.prod) (steps : ℕ) (k : Fin dims.prod),
        fft dims ((eulerPropagate M steps (s, st)).2.fields i) k =
          (waveGain s.filter (s.freq k) / (1 - s.dt * growthRate N c s.freq eq k)) ^ steps *
            fft dims (st.fields i) k ∧
        fft dims ((rk4Propagate M steps (s, st)).2.fields i) k =
          (waveGain s.filter (s.freq k) / (1 - s.dt * growthRate N c s.freq eq k)) ^ steps *
            fft dims (st.fields i) k := by
  obtain ⟨m, M, h1, hg, h3, -, -, h6⟩ := text_shape N hN m0 h0 heq eqs hq hcount ss hs c
  refine ⟨m, M, h1, hg.fields, h3, ?_⟩
  intro i eq hi hlin s _ st steps k
  obtain ⟨eq', hi', ⟨ts, hmem, hR⟩, hD⟩ := h6 i
  rw [hi] at hi'
  obtain rfl := Option.some.inj hi'
  have hR' : ∀ st t, M.getRHS i st s.freq t = 0 := by
    intro st t
    funext k
    rw [hR]
    apply List.sum_eq_zero
    intro y hy
    obtain ⟨q, hq, rfl⟩ := List.mem_map.mp hy
    rw [explicitFactor, if_pos (hlin _ (hmem q hq).1), zero_mul]
  have hD' : ∀ st t, M.getDenum i st s.freq t = growthRate N c s.freq eq := by
    intro st t
    funext k
    rw [hD, linear_rate hlin]
  exact ⟨(euler_waves h s hR' hD' st k steps).2, (rk4_waves h s hR' hD' st k steps).2⟩

/-- C125: with real scalars, and powers of them that are real, the growth rates are real. -/
theorem c125_real (N : Names) (c : Str → ℂ) (freq : Frequency n) (eq : Equation)
    (hpow : ∀ p ∈ eq.terms, ∀ f ∈ factorsIn N.scalars p.1, RealPower (c f.name) f.power) (k : Fin n) :
    growthRate N c freq eq k = ((growthRate N c freq eq k).re : ℝ) := by
  have hsum : ∀ l : List ℂ, (∀ z ∈ l, z.im = 0) → l.sum.im = 0 := by
    intro l
    induction l with
    | nil => intro _; simp
    | cons a l ih => intro hz; simp [hz a (by simp), ih fun z h => hz z (by simp [h])]
  apply Complex.ext
  · simp
  · rw [Complex.ofReal_im]
    apply hsum
    intro z hz
    obtain ⟨p, hp, rfl⟩ := List.mem_map.mp hz
    have e1 := coefficient_real (c := c) (hpow p hp)
    have e2 : (laplaceSymbol (freq k) ^ (laplacians p.1).sum).im = 0 := by
      unfold laplaceSymbol
      rw [← Complex.ofReal_neg, ← Complex.ofReal_pow, Complex.ofReal_im]
    rw [Complex.mul_im, e1, e2]
    simp

/-! ### What the factor does -/

/-- C125: a wave that is there gets smaller in a step exactly if its rate is negative or the time step is more than
twice the inverse of the rate. -/
theorem c125_shrinks {dt r : ℝ} (hdt : 0 < dt) (hne : 1 - dt * r ≠ 0) {a : ℂ} (ha : a ≠ 0) :
    ‖1 / (1 - (dt : ℂ) * (r : ℂ)) * a‖ < ‖a‖ ↔ r < 0 ∨ 2 < dt * r := by
  have e : (1 - (dt : ℂ) * (r : ℂ)) = ((1 - dt * r : ℝ) : ℂ) := by push_cast; ring
  have hpos : 0 < ‖a‖ := norm_pos_iff.mpr ha
  rw [e, norm_mul, norm_div, norm_one, Complex.norm_real, Real.norm_eq_abs, div_mul_eq_mul_div, one_mul,
    div_lt_iff₀ (abs_pos.mpr hne), lt_mul_iff_one_lt_right hpos, lt_abs]
  constructor
  · rintro (h1 | h1)
    · left
      have : dt * r < 0 := by linarith
      exact (pos_iff_neg_of_mul_neg this).mp hdt
    · right; linarith
  · rintro (h1 | h1)
    · left
      have := mul_neg_of_pos_of_neg hdt h1
      linarith
    · right; linarith

/-- C125: as long as `dt r < 1`, the simulated wave is at least as large as the exact one, `exp(r t)` times the
initial one: growth is overestimated and decay underestimated. -/
theorem c125_above {dt r : ℝ} (hlt : dt * r < 1) (a : ℂ) (steps : ℕ) :
    ‖Complex.exp (r * (steps * dt : ℝ)) * a‖ ≤ ‖(1 / (1 - (dt : ℂ) * (r : ℂ))) ^ steps * a‖ := by
  have e : (1 - (dt : ℂ) * (r : ℂ)) = ((1 - dt * r : ℝ) : ℂ) := by push_cast; ring
  have e2 : Complex.exp (r * (steps * dt : ℝ)) = ((Real.exp (dt * r) ^ steps : ℝ) : ℂ) := by
    rw [← Real.exp_nat_mul, Complex.ofReal_exp]
    congr 1
    push_cast
    ring
  have hpos : 0 < 1 - dt * r := by linarith
  rw [e, e2, norm_mul, norm_mul, norm_pow, norm_div, norm_one, Complex.norm_real, Complex.norm_real, Real.norm_eq_abs,
    Real.norm_eq_abs, abs_of_pos hpos, abs_of_pos (pow_pos (Real.exp_pos _) _)]
  apply mul_le_mul_of_nonneg_right _ (norm_nonneg a)
  apply pow_le_pow_left₀ (Real.exp_pos _).le
  rw [le_div_iff₀ hpos]
  have h1 := Real.add_one_le_exp (-(dt * r))
  have h2 : Real.exp (dt * r) * Real.exp (-(dt * r)) = 1 := by rw [← Real.exp_add]; simp
  have h3 := mul_le_mul_of_nonneg_left h1 (Real.exp_pos (dt * r)).le
  rw [h2] at h3
  linarith

/-- C125: with a time step of more than twice the inverse of the rate, a wave that the equation makes grow dies out. -/
theorem c125_dies {dt r : ℝ} (hdt : 0 < dt) (hbad : r < 0 ∨ 2 < dt * r) (a : ℂ) :
    Filter.Tendsto (fun steps : ℕ => (1 / (1 - (dt : ℂ) * (r : ℂ))) ^ steps * a) Filter.atTop (nhds 0) := by
  have e : (1 - (dt : ℂ) * (r : ℂ)) = ((1 - dt * r : ℝ) : ℂ) := by push_cast; ring
  have hlt : ‖1 / (1 - (dt : ℂ) * (r : ℂ))‖ < 1 := by
    rcases hbad with h1 | h1
    · have hne : 1 - dt * r ≠ 0 := by have := mul_neg_of_pos_of_neg hdt h1; intro h0; linarith
      simpa using (c125_shrinks hdt hne (one_ne_zero (α := ℂ))).mpr (Or.inl h1)
    · have hne : 1 - dt * r ≠ 0 := by intro h0; linarith
      simpa using (c125_shrinks hdt hne (one_ne_zero (α := ℂ))).mpr (Or.inr h1)
  simpa using (tendsto_pow_atTop_nhds_zero_of_norm_lt_one hlt).mul_const a

theorem squares_parseval (h : ∀ d ∈ dims, 0 < d) (a : Data dims.prod) :
    ∑ k, ‖fft dims a k‖ ^ 2 = (dims.prod : ℝ) * ∑ x, ‖a x‖ ^ 2 := by
  have hc : ∀ z : ℂ, z * (starRingEnd ℂ) z = ((‖z‖ ^ 2 : ℝ) : ℂ) := by
    intro z
    rw [Complex.mul_conj, Complex.normSq_eq_norm_sq]
  have := parseval h a a
  simp only [hc] at this
  rw [← Complex.ofReal_sum, ← Complex.ofReal_sum, ← Complex.ofReal_natCast, ← Complex.ofReal_mul,
    Complex.ofReal_inj] at this
  exact this

/-- C125: what that means for a simulation without filter, with real growth rates and a time step that does not hit
`dt r = 1`. A wave gets smaller in a step exactly if its rate is negative or `dt r > 2`; it is at least as large as the
exact solution as long as `dt r < 1`; it dies out if its rate is negative or `dt r > 2`; and if no rate is positive,
the sum of the squares over the nodes never increases, however large the time step. -/
theorem c125_text (h : ∀ d ∈ dims, 0 < d) (N : Names) (hN : N.WellNamed)
    (m0 : EqModel dims.prod) (h0 : StartsAs N m0) (heq : m0.equations = [])
    (eqs : List Equation) (hq : ∀ eq ∈ eqs, eq.Polynomial N ∧ Unregistered m0 eq)
    (hcount : N.fields.length ≤ eqs.length)
    (ss : List Str) (hs : ss.map (fun s => s.filter fun c => c ≠ ' ') = eqs.map Equation.text) (c : Str → ℂ) :
    ∃ m M, ss.foldlM EqModel.addEquation m0 = some m ∧ m.fields = N.fields ∧ m.assemble c = some M ∧
      ∀ (i : Fin m.fields.length) (eq : Equation), eqs[i.val]? = some eq → Equation.Linear N eq →
      ∀ s : Stepper dims.prod, s.filter = none → 0 < s.dt →
      ∀ r : Fin dims.prod → ℝ, (∀ k, growthRate N c s.freq eq k = r k) → (∀ k, s.dt * r k ≠ 1) →
      ∀ (st : Store m.fields.length m.derived.length dims.prod) (prop : ℕ → Data dims.prod),
        (prop = (fun steps => (eulerPropagate M steps (s, st)).2.fields i) ∨
          prop = fun steps => (rk4Propagate M steps (s, st)).2.fields i) →
        prop 0 = st.fields i ∧
        (∀ k, fft dims (st.fields i) k ≠ 0 → ∀ steps,
          (‖fft dims (prop (steps + 1)) k‖ < ‖fft dims (prop steps) k‖ ↔ r k < 0 ∨ 2 < s.dt * r k)) ∧
        (∀ k, s.dt * r k < 1 → ∀ steps : ℕ,
          ‖Complex.exp (r k * (steps * s.dt : ℝ)) * fft dims (st.fields i) k‖ ≤ ‖fft dims (prop steps) k‖) ∧
        (∀ k, r k < 0 ∨ 2 < s.dt * r k →
          Filter.Tendsto (fun steps => fft dims (prop steps) k) Filter.atTop (nhds 0)) ∧
        ((∀ k, r k ≤ 0) → ∀ steps, ∑ x, ‖prop (steps + 1) x‖ ^ 2 ≤ ∑ x, ‖prop steps x‖ ^ 2) := by
  obtain ⟨m, M, h1, h2, h3, h4⟩ := c125_waves h N hN m0 h0 heq eqs hq hcount ss hs c
  refine ⟨m, M, h1, h2, h3, ?_⟩
  intro i eq hi hlin s hfil hdt r hr hne st prop hprop
  have hne' : ∀ k, 1 - s.dt * r k ≠ 0 := fun k h0 => hne k (by linarith)
  have hneC : ∀ k, 1 - (s.dt : ℂ) * growthRate N c s.freq eq k ≠ 0 := by
    intro k h0
    rw [hr] at h0
    exact hne' k (by exact_mod_cast h0)
  have hw : ∀ steps k, fft dims (prop steps) k = (1 / (1 - (s.dt : ℂ) * (r k : ℂ))) ^ steps * fft dims (st.fields i) k := by
    intro steps k
    obtain ⟨e1, e2⟩ := h4 i eq hi hlin s hneC st steps k
    rw [hfil, hr] at e1 e2
    rcases hprop with rfl | rfl
    · simpa [waveGain] using e1
    · simpa [waveGain] using e2
  have hw' : ∀ steps k, fft dims (prop (steps + 1)) k = 1 / (1 - (s.dt : ℂ) * (r k : ℂ)) * fft dims (prop steps) k := by
    intro steps k
    rw [hw, hw]
    ring
  have hneR : ∀ k, (1 - (s.dt : ℂ) * (r k : ℂ)) ≠ 0 := fun k => by rw [← hr]; exact hneC k
  refine ⟨?_, ?_, ?_, ?_, ?_⟩
  · rcases hprop with rfl | rfl <;> rfl
  · intro k hk steps
    rw [hw']
    refine c125_shrinks hdt (hne' k) ?_
    rw [hw]
    exact mul_ne_zero (pow_ne_zero _ (one_div_ne_zero (hneR k))) hk
  · intro k hlt steps
    rw [hw]
    exact c125_above hlt _ steps
  · intro k hbad
    simp only [hw]
    exact c125_dies hdt hbad _
  · intro hneg steps
    have hle : ∀ k, ‖fft dims (prop (steps + 1)) k‖ ^ 2 ≤ ‖fft dims (prop steps) k‖ ^ 2 := by
      intro k
      have e : (1 - (s.dt : ℂ) * (r k : ℂ)) = ((1 - s.dt * r k : ℝ) : ℂ) := by push_cast; ring
      have hge : 1 ≤ 1 - s.dt * r k := by
        have := mul_nonpos_of_nonneg_of_nonpos hdt.le (hneg k)
        linarith
      rw [hw', e, norm_mul, norm_div, norm_one, Complex.norm_real, Real.norm_eq_abs, abs_of_pos (by linarith)]
      apply pow_le_pow_left₀ (by positivity)
      apply mul_le_of_le_one_left (norm_nonneg _)
      rw [div_le_one (by linarith)]
      exact hge
    have hsum := Finset.sum_le_sum fun k (_ : k ∈ Finset.univ) => hle k
    rw [squares_parseval h, squares_parseval h] at hsum
    have hp : (0 : ℝ) < (dims.prod : ℕ) := by
      have := Nat.pos_of_ne_zero (n := dims.prod) (by exact_mod_cast prod_ne_zero h)
      exact_mod_cast this
    exact le_of_mul_le_mul_left hsum hp

/-! ### Growth that is lost -/

theorem conc_plain : Monomial concNames [⟨none, some ⟨"conc".toList, none⟩⟩] where
  readable :=
    { wf := by
        intro i hi
        obtain rfl := List.mem_singleton.mp hi
        exact ⟨by simp, by simp, by simp, by simp; decide, by simp⟩
      oneLap := by simp [laplacians]
      lapFirst := by
        intro pre i post h hl j hj
        cases pre with
        | nil => simp at hj
        | cons p pre => simp at h
      together := ⟨[], [⟨none, some ⟨"conc".toList, none⟩⟩], [], by simp, by simp, by simp,
        by simp; decide, by simp, by simp⟩ }
  once := by
    intro x _
    exact (List.length_filter_le _ _)
  kind := Or.inl ⟨by simp [factorsIn, concNames], by decide⟩
  exactOne := by
    intro f hf _
    have : f = ⟨"conc".toList, none⟩ := by
      simpa using (List.mem_filter.mp hf).1
    subst this
    decide +kernel

/-- `dconc/dt = conc`. -/
def growEquation : Equation := ⟨"conc".toList, none, [⟨none, some ⟨"conc".toList, none⟩⟩], []⟩

theorem grow_polynomial : Equation.Polynomial concNames growEquation := by
  refine ⟨by decide, by simp [growEquation], by simp [growEquation], ?_⟩
  intro p hp
  simp only [growEquation, Equation.terms, List.map_nil, List.mem_singleton] at hp
  subst hp
  exact conc_plain

theorem grow_linear : Equation.Linear concNames growEquation := by
  intro p hp
  simp only [growEquation, Equation.terms, List.map_nil, List.mem_singleton] at hp
  subst hp
  refine ⟨by decide, by decide, ?_⟩
  intro i hi f hf
  have hi' : i = ⟨none, some ⟨"conc".toList, none⟩⟩ := by simpa using (List.mem_filter.mp hi).1
  subst hi'
  have hf' : f = ⟨"conc".toList, none⟩ := by simpa using hf.symm
  subst hf'
  have p1 : Factor.power ⟨"conc".toList, none⟩ = 1 := by decide +kernel
  rw [p1]
  norm_num

theorem grow_rate (c : Str → ℂ) (freq : Frequency n) (k : Fin n) : growthRate concNames c freq growEquation k = (1 : ℝ) := by
  have s1 : ∀ l, factorsIn concNames.scalars l = [] := by intro l; simp [factorsIn, concNames]
  have g1 : signOf none = 1 := by decide
  simp [growthRate, growEquation, Equation.terms, s1, g1, laplacians]

/-- C125: the solutions of `dconc/dt = conc` grow without bound, but with a time step above 2 every simulation of it
dies out, with either stepper. -/
theorem c125_growth_lost (h : ∀ d ∈ dims, 0 < d) (dt : ℝ) (hdt : 2 < dt) :
    ∃ m M, ["dconc/dt = conc".toList].foldlM EqModel.addEquation
        ((EqModel.empty (n := dims.prod)).addField "conc".toList) = some m ∧ m.assemble (fun _ => 0) = some M ∧
      ∀ (s : Stepper dims.prod), s.dt = dt → s.filter = none →
      ∀ (st : Store m.fields.length m.derived.length dims.prod) (i : Fin m.fields.length) (k : Fin dims.prod),
        Filter.Tendsto (fun steps => fft dims ((eulerPropagate M steps (s, st)).2.fields i) k) Filter.atTop (nhds 0) ∧
        Filter.Tendsto (fun steps => fft dims ((rk4Propagate M steps (s, st)).2.fields i) k) Filter.atTop (nhds 0) := by
  obtain ⟨m, M, h1, h2, h3, h4⟩ := c125_text h concNames conc_wellNamed
    ((EqModel.empty (n := dims.prod)).addField "conc".toList) ⟨rfl, rfl, fun x => Iff.rfl⟩ rfl [growEquation]
    (by
      intro eq heq
      obtain rfl := List.mem_singleton.mp heq
      exact ⟨grow_polynomial, fun _ _ => ⟨rfl, rfl⟩⟩) (by decide) ["dconc/dt = conc".toList] (by decide) fun _ => 0
  refine ⟨m, M, h1, h3, ?_⟩
  intro s hs hfil st i k
  have hi : i.val = 0 := by
    have h5 := i.2
    have h6 : m.fields.length = 1 := by rw [h2]; rfl
    omega
  have key := h4 i growEquation (by rw [hi]; rfl) grow_linear s hfil (by rw [hs]; linarith) (fun _ => 1)
    (fun k => grow_rate _ _ k) (fun k => by rw [hs]; linarith) st
  have hbad : (1 : ℝ) < 0 ∨ 2 < s.dt * 1 := Or.inr (by rw [hs]; linarith)
  exact ⟨(key _ (Or.inl rfl)).2.2.2.1 k hbad, (key _ (Or.inr rfl)).2.2.2.1 k hbad⟩

/-- `dconc/dt = conc` is linear with rate 1 for every wave; `dconc/dt = LAPconc^2 - LAPconc` is not linear. -/
example : Equation.Linear concNames growEquation ∧ (∀ k : Fin n, growthRate concNames (fun _ => 0) (fun _ => [0, 0])
    growEquation k = (1 : ℝ)) ∧ ¬ Equation.Linear concNames spreadEquation := by
  refine ⟨grow_linear, fun k => grow_rate _ _ k, ?_⟩
  intro hl
  obtain ⟨-, -, h3⟩ := hl ([⟨some none, some ⟨"conc".toList, some ⟨['2'], none⟩⟩⟩], none) (by decide)
  have := h3 ⟨some none, some ⟨"conc".toList, some ⟨['2'], none⟩⟩⟩ (by decide) _ rfl
  have p1 : Factor.power ⟨"conc".toList, some ⟨['2'], none⟩⟩ = 2 := by decide +kernel
  rw [p1] at this
  norm_num at this

end Gopf.Props
