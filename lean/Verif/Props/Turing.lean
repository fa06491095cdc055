import Verif.Props.CoupledPair
import Verif.Props.Terms

/-!
# C163: what diffusion does to the stability of two coupled equations
-/

namespace Gopf.Props
open Spec Pf Pfutil

variable {n nf nd : ℕ} {dims : List ℕ}

/-! ### The specification -/

/-- The derivative of the terms without Laplacian with respect to the field `f`, at uniform fields `z`. -/
noncomputable def reactionRate (N : Names) (c : Str → ℂ) (eq : Equation) (z : Str → ℂ) (f : Str) : ℂ :=
  (eq.terms.map fun p : List Item × Option Char => if (laplacians p.1).sum = 0 then
    coefficient N c p * productSlope (factorsIn N.varying p.1) z (Pi.single f 1) else 0).sum

/-- The sum of the coefficients of the terms with a Laplacian. -/
noncomputable def diffusivity (N : Names) (c : Str → ℂ) (eq : Equation) : ℂ :=
  (eq.terms.map fun p : List Item × Option Char => if (laplacians p.1).sum = 0 then 0 else coefficient N c p).sum

/-- The terms with a Laplacian are multiples of the Laplacian of the field of the equation. -/
def Diffusing (N : Names) (eq : Equation) : Prop :=
  ∀ p ∈ eq.terms, (laplacians p.1).sum = 0 ∨ (laplacians p.1).sum = 1 ∧ factorsIn N.varying p.1 = [⟨eq.field, none⟩]

/-- Fields close enough to the uniform values `z` converge to them exponentially. -/
def DiesOut (M : Model nf nd dims.prod) (s : Stepper dims.prod) (z : Fin nf → ℂ) : Prop :=
  ∃ δ C q : ℝ, 0 < δ ∧ q < 1 ∧ 0 ≤ q ∧ ∀ st : Store nf nd dims.prod, (∀ i x, ‖st.fields i x - z i‖ < δ) → ∀ steps i x,
    ‖(eulerPropagate M steps (s, st)).2.fields i x - z i‖ ≤ C * q ^ steps

/-- There are real perturbations of the uniform values `z`, as small as one likes, that go a fixed distance away. -/
def GoesAway (M : Model nf nd dims.prod) (s : Stepper dims.prod) (z : Fin nf → ℂ) : Prop :=
  ∃ ρ : ℝ, 0 < ρ ∧ ∀ δ : ℝ, 0 < δ → ∃ v : Fin nf → Data dims.prod, (∀ i, IsReal (v i)) ∧ (∀ i x, ‖v i x‖ < δ) ∧
    ∀ st : Store nf nd dims.prod, (∀ i x, st.fields i x = z i + v i x) →
      ∃ steps i x, ρ ≤ ‖(eulerPropagate M steps (s, st)).2.fields i x - z i‖

/-- The derivatives of the reaction and the diffusivities. -/
structure Reaction where
  d1 : ℝ
  d2 : ℝ
  j11 : ℝ
  j12 : ℝ
  j21 : ℝ
  j22 : ℝ

/-- Those that the text spells. -/
noncomputable def reactionOf (N : Names) (c : Str → ℂ) (e1 e2 : Equation) (z : Str → ℂ) : Reaction :=
  ⟨(diffusivity N c e1).re, (diffusivity N c e2).re, (reactionRate N c e1 z e1.field).re, (reactionRate N c e1 z e2.field).re,
    (reactionRate N c e2 z e1.field).re, (reactionRate N c e2 z e2.field).re⟩

/-- Without diffusion small perturbations die out. -/
def Reaction.Settles (r : Reaction) : Prop := r.j11 + r.j22 < 0 ∧ 0 < r.j11 * r.j22 - r.j12 * r.j21

/-- The product of the growth rates of a wave of squared wave number `q`. -/
def Reaction.product (r : Reaction) (q : ℝ) : ℝ :=
  r.d1 * r.d2 * q ^ 2 - (r.d2 * r.j11 + r.d1 * r.j22) * q + (r.j11 * r.j22 - r.j12 * r.j21)

/-! ### The rates -/

theorem waveRate_split {N : Names} {eq : Equation} (hd : Diffusing N eq) (c : Str → ℂ) (freq : Frequency n) (z : Str → ℂ)
    (k : Fin n) (f : Str) : waveRate N c freq eq z k f =
      reactionRate N c eq z f + diffusivity N c eq * laplaceSymbol (freq k) * (Pi.single f 1 : Str → ℂ) eq.field := by
  unfold waveRate linearSeen reactionRate diffusivity
  unfold Diffusing at hd
  generalize eq.terms = L at hd
  induction L with
  | nil => simp
  | cons p L ih =>
    have ih := ih fun q hq => hd q (by simp [hq])
    simp only [List.map_cons, List.sum_cons]
    rw [ih]
    rcases hd p (by simp) with h0 | ⟨h1, h2⟩
    · simp only [h0, if_true, pow_zero, mul_one, ite_self]
      ring
    · simp only [h1, h2, one_ne_zero, if_false, ite_self, slope_bare, pow_one]
      ring

theorem symbol_number (k : Fin dims.prod) : laplaceSymbol (freqOf dims k) = ((-laplaceNumber dims k : ℝ) : ℂ) := by
  unfold laplaceSymbol laplaceNumber
  push_cast
  ring

theorem laplaceNumber_nonneg' (k : Fin dims.prod) : 0 ≤ laplaceNumber dims k := by
  unfold laplaceNumber
  have : 0 ≤ ((freqOf dims k).map fun x => x ^ 2).sum := List.sum_nonneg (by
    intro x hx
    obtain ⟨y, -, rfl⟩ := List.mem_map.mp hx
    exact sq_nonneg y)
  positivity

theorem pair_rates {N : Names} {e1 e2 : Equation} (h1 : Diffusing N e1) (h2 : Diffusing N e2) (hne : e1.field ≠ e2.field)
    (c : Str → ℂ) (z : Str → ℂ) (k : Fin dims.prod) :
    (pairRates N c (freqOf dims) e1 e2 z k).trace = (reactionOf N c e1 e2 z).j11 + (reactionOf N c e1 e2 z).j22 -
      ((reactionOf N c e1 e2 z).d1 + (reactionOf N c e1 e2 z).d2) * laplaceNumber dims k ∧
    (pairRates N c (freqOf dims) e1 e2 z k).det = (reactionOf N c e1 e2 z).product (laplaceNumber dims k) := by
  have s1 : ∀ x : Str, (Pi.single x 1 : Str → ℂ) x = 1 := fun x => by simp
  have s2 : (Pi.single e1.field 1 : Str → ℂ) e2.field = 0 := by simp [hne.symm]
  have s3 : (Pi.single e2.field 1 : Str → ℂ) e1.field = 0 := by simp [hne]
  have hre : ∀ D : ℂ, (D * ((-laplaceNumber dims k : ℝ) : ℂ)).re = -(D.re * laplaceNumber dims k) := by
    intro D
    rw [Complex.mul_re, Complex.ofReal_re, Complex.ofReal_im]
    ring
  simp only [PairRates.trace, PairRates.det, Reaction.product, pairRates, reactionOf, waveRate_split h1, waveRate_split h2,
    symbol_number, s1, s2, s3, mul_one, mul_zero, add_zero, Complex.add_re, hre]
  exact ⟨by ring, by ring⟩

/-! ### Diffusion -/

section
variable (h : GoodDims (intDims dims)) (hl : LayoutOk dims) (N : Names) (hN : N.WellNamed) (hfn : N.functions = [])
  (m0 : EqModel dims.prod) (h0 : StartsAs N m0) (heq : m0.equations = []) (e1 e2 : Equation)
  (hq : ∀ eq ∈ [e1, e2], eq.Polynomial N ∧ Unregistered m0 eq)
  (hnat : ∀ eq ∈ [e1, e2], ∀ p ∈ eq.terms, ∀ g ∈ factorsIn N.varying p.1, ∃ q : ℕ, g.power = q)
  (ss : List Str) (hs : ss.map (fun s => s.filter fun c => c ≠ ' ') = [e1, e2].map Equation.text)
  (hord : [e1, e2].map Equation.field = N.fields) (c : Str → ℂ) (hc : ∀ x ∈ N.scalars, (c x).im = 0)
  (hpow : ∀ eq ∈ [e1, e2], Equation.RealPowers N c eq) (hd : ∀ eq ∈ [e1, e2], Diffusing N eq)
include h hN hfn h0 heq hq hnat hs hord hpow hl hc hd

/-- C163: for all time steps that are small enough, a state at which the reaction settles stays attracting if the product of
the growth rates is positive for all waves and the diffusivities are not negative, and real perturbations leave it if the
product is negative for some wave. -/
theorem c163_waves : ∃ m M, ss.foldlM EqModel.addEquation m0 = some m ∧ m.fields = N.fields ∧ m.assemble c = some M ∧
      ∀ z : Str → ℂ, (∀ eq ∈ [e1, e2], uniformSystemRate N c eq z = 0) → (∀ f ∈ N.fields, (z f).im = 0) →
      ∃ dt0 : ℝ, 0 < dt0 ∧ ∀ s : Stepper dims.prod, s.filter = none → s.freq = freqOf dims → 0 < s.dt → s.dt < dt0 →
      ((reactionOf N c e1 e2 z).Settles → 0 ≤ (reactionOf N c e1 e2 z).d1 → 0 ≤ (reactionOf N c e1 e2 z).d2 →
        (∀ k, 0 < (reactionOf N c e1 e2 z).product (laplaceNumber dims k)) → DiesOut M s fun i => z m.fields[i]) ∧
      ((∃ k, (reactionOf N c e1 e2 z).product (laplaceNumber dims k) < 0) → GoesAway M s fun i => z m.fields[i]) := by
  obtain ⟨hf, hne⟩ := pair_distinct N hN e1 e2 hord
  obtain ⟨m, M, a1, a2, a3, a4⟩ := c161_pair_small h hl N hN hfn m0 h0 heq e1 e2 hq hnat ss hs hord c hc hpow
  refine ⟨m, M, a1, a2, a3, fun z hz hzr => ?_⟩
  obtain ⟨dt0, hdt0, hall⟩ := a4 z hz hzr
  have hr := fun k => pair_rates (dims := dims) (hd e1 (by simp)) (hd e2 (by simp)) hne c z k
  refine ⟨dt0, hdt0, fun s hfil hfreq hpos hlt => ⟨fun hset hd1 hd2 hk => ?_, ?_⟩⟩
  · refine (hall s hfil hfreq hpos hlt).1 fun k => ⟨?_, ?_⟩
    · rw [(hr k).2]
      exact hk k
    · rw [(hr k).1]
      have := mul_nonneg (add_nonneg hd1 hd2) (laplaceNumber_nonneg' k)
      have := hset.1
      linarith
  · rintro ⟨k, hk⟩
    exact (hall s hfil hfreq hpos hlt).2 ⟨k, Or.inl (by rw [(hr k).2]; exact hk)⟩

/-- C163: diffusion leaves the state attracting if `d2 j11 + d1 j22` is not positive or its square less than
`4 d1 d2` times the determinant of the reaction; in particular if the diffusivities are equal, and if no field promotes
itself. -/
theorem c163_harmless : ∃ m M, ss.foldlM EqModel.addEquation m0 = some m ∧ m.fields = N.fields ∧ m.assemble c = some M ∧
      ∀ z : Str → ℂ, (∀ eq ∈ [e1, e2], uniformSystemRate N c eq z = 0) → (∀ f ∈ N.fields, (z f).im = 0) →
      (reactionOf N c e1 e2 z).Settles → 0 ≤ (reactionOf N c e1 e2 z).d1 → 0 ≤ (reactionOf N c e1 e2 z).d2 →
      ((reactionOf N c e1 e2 z).d1 = (reactionOf N c e1 e2 z).d2 ∨
        ((reactionOf N c e1 e2 z).j11 ≤ 0 ∧ (reactionOf N c e1 e2 z).j22 ≤ 0) ∨
        ((reactionOf N c e1 e2 z).d2 * (reactionOf N c e1 e2 z).j11 + (reactionOf N c e1 e2 z).d1 * (reactionOf N c e1 e2 z).j22) ^ 2 <
          4 * ((reactionOf N c e1 e2 z).d1 * (reactionOf N c e1 e2 z).d2) *
            ((reactionOf N c e1 e2 z).j11 * (reactionOf N c e1 e2 z).j22 - (reactionOf N c e1 e2 z).j12 * (reactionOf N c e1 e2 z).j21)) →
      ∃ dt0 : ℝ, 0 < dt0 ∧ ∀ s : Stepper dims.prod, s.filter = none → s.freq = freqOf dims → 0 < s.dt → s.dt < dt0 →
        DiesOut M s fun i => z m.fields[i] := by
  obtain ⟨m, M, a1, a2, a3, a4⟩ := c163_waves h hl N hN hfn m0 h0 heq e1 e2 hq hnat ss hs hord c hc hpow hd
  refine ⟨m, M, a1, a2, a3, fun z hz hzr hset hd1 hd2 hcase => ?_⟩
  obtain ⟨dt0, hdt0, hall⟩ := a4 z hz hzr
  refine ⟨dt0, hdt0, fun s hfil hfreq hpos hlt => (hall s hfil hfreq hpos hlt).1 hset hd1 hd2 fun k => ?_⟩
  have hlam := laplaceNumber_nonneg' k
  generalize laplaceNumber dims k = q at *
  generalize reactionOf N c e1 e2 z = r at *
  obtain ⟨t1, t2⟩ := hset
  unfold Reaction.product
  have hdd := mul_nonneg hd1 hd2
  have first : r.d2 * r.j11 + r.d1 * r.j22 ≤ 0 →
      0 < r.d1 * r.d2 * q ^ 2 - (r.d2 * r.j11 + r.d1 * r.j22) * q + (r.j11 * r.j22 - r.j12 * r.j21) := by
    intro hb
    have p1 := mul_nonneg hdd (sq_nonneg q)
    have p2 := mul_nonpos_of_nonpos_of_nonneg hb hlam
    linarith
  rcases hcase with he | ⟨u1, u2⟩ | hsq
  · refine first ?_
    rw [he]
    have := mul_nonpos_of_nonneg_of_nonpos hd2 t1.le
    linarith
  · exact first (add_nonpos (mul_nonpos_of_nonneg_of_nonpos hd2 u1) (mul_nonpos_of_nonneg_of_nonpos hd1 u2))
  · generalize r.d2 * r.j11 + r.d1 * r.j22 = b at *
    generalize r.j11 * r.j22 - r.j12 * r.j21 = d at *
    generalize r.d1 * r.d2 = a at *
    have ha : 0 < a := by
      rcases hdd.lt_or_eq with ha | ha
      · exact ha
      · rw [← ha] at hsq
        have := sq_nonneg b
        linarith
    have key : 4 * a * (a * q ^ 2 - b * q + d) = (2 * a * q - b) ^ 2 + (4 * a * d - b ^ 2) := by ring
    have h1 := sq_nonneg (2 * a * q - b)
    have : 0 < 4 * a * (a * q ^ 2 - b * q + d) := by rw [key]; linarith
    exact (mul_pos_iff_of_pos_left (by linarith)).mp this

/-- C163: what the reaction alone does not settle, no diffusion settles. -/
theorem c163_reaction : ∃ m M, ss.foldlM EqModel.addEquation m0 = some m ∧ m.fields = N.fields ∧ m.assemble c = some M ∧
      ∀ z : Str → ℂ, (∀ eq ∈ [e1, e2], uniformSystemRate N c eq z = 0) → (∀ f ∈ N.fields, (z f).im = 0) →
      (0 < (reactionOf N c e1 e2 z).j11 + (reactionOf N c e1 e2 z).j22 ∨
        (reactionOf N c e1 e2 z).j11 * (reactionOf N c e1 e2 z).j22 - (reactionOf N c e1 e2 z).j12 * (reactionOf N c e1 e2 z).j21 < 0) →
      ∃ dt0 : ℝ, 0 < dt0 ∧ ∀ s : Stepper dims.prod, s.filter = none → s.freq = freqOf dims → 0 < s.dt → s.dt < dt0 →
        GoesAway M s fun i => z m.fields[i] := by
  obtain ⟨hf, hne⟩ := pair_distinct N hN e1 e2 hord
  obtain ⟨m, M, a1, a2, a3, a4⟩ := c161_pair_small h hl N hN hfn m0 h0 heq e1 e2 hq hnat ss hs hord c hc hpow
  refine ⟨m, M, a1, a2, a3, fun z hz hzr hbad => ?_⟩
  obtain ⟨dt0, hdt0, hall⟩ := a4 z hz hzr
  refine ⟨dt0, hdt0, fun s hfil hfreq hpos hlt => (hall s hfil hfreq hpos hlt).2 ?_⟩
  have hN : 0 < dims.prod := Nat.pos_of_ne_zero (by exact_mod_cast prod_ne_zero (pos_of_goodDims h))
  have hr := pair_rates (dims := dims) (hd e1 (by simp)) (hd e2 (by simp)) hne c z ⟨0, hN⟩
  have hz0 : laplaceNumber dims ⟨0, hN⟩ = 0 := by
    have hx := freqOf_zero dims ⟨0, hN⟩ rfl
    unfold laplaceNumber
    have : ((freqOf dims ⟨0, hN⟩).map fun x => x ^ 2).sum = 0 := List.sum_eq_zero (by
      intro y hy
      obtain ⟨x, hxm, rfl⟩ := List.mem_map.mp hy
      rw [hx x hxm]
      norm_num)
    rw [this, mul_zero]
  rw [hz0] at hr
  refine ⟨⟨0, hN⟩, ?_⟩
  rw [hr.1, hr.2]
  unfold Reaction.product
  rcases hbad with hb | hb
  · right
    linarith
  · left
    linarith

end

/-! ### An activator and an inhibitor -/

/-- `conc^2`. -/
def activatorSquare : List Item := [⟨none, some ⟨"conc".toList, some ⟨['2'], none⟩⟩⟩]
/-- `conc^3`. -/
def activatorCube : List Item := [⟨none, some ⟨"conc".toList, some ⟨['3'], none⟩⟩⟩]
/-- `eta^2`. -/
def inhibitorSquare : List Item := [⟨none, some ⟨"eta".toList, some ⟨['2'], none⟩⟩⟩]
/-- `LAPconc`. -/
def activatorSpread : List Item := [⟨some none, some ⟨"conc".toList, none⟩⟩]
/-- `LAPeta`. -/
def inhibitorSpread : List Item := [⟨some none, some ⟨"eta".toList, none⟩⟩]

/-- `dconc/dt=conc^2-conc*eta`. -/
def restingActivator : Equation := ⟨"conc".toList, none, activatorSquare, [('-', [preyItem, hunterItem])]⟩
/-- `dconc/dt=conc^2-conc*eta+LAPconc`. -/
def spreadingActivator : Equation :=
  ⟨"conc".toList, none, activatorSquare, [('-', [preyItem, hunterItem]), ('+', activatorSpread)]⟩
/-- `deta/dt=conc^3-eta^2+LAPeta`. -/
def spreadingInhibitor : Equation :=
  ⟨"eta".toList, none, activatorCube, [('-', inhibitorSquare), ('+', inhibitorSpread)]⟩

theorem resting_terms : restingActivator.terms = [(activatorSquare, none), ([preyItem, hunterItem], some '-')] := rfl
theorem spreadingA_terms : spreadingActivator.terms = [(activatorSquare, none), ([preyItem, hunterItem], some '-'),
  (activatorSpread, some '+')] := rfl
theorem spreadingI_terms : spreadingInhibitor.terms = [(activatorCube, none), (inhibitorSquare, some '-'),
  (inhibitorSpread, some '+')] := rfl

theorem power_monomial {x : Str} (hx : x ∈ pairNames.fields) {d : Char} (hd : d = '2' ∨ d = '3') :
    Monomial pairNames [⟨none, some ⟨x, some ⟨[d], none⟩⟩⟩] where
  readable :=
    { wf := by
        intro i hi
        obtain rfl := List.mem_singleton.mp hi
        simp only [pairNames, List.mem_cons, List.not_mem_nil, or_false] at hx
        rcases hx with rfl | rfl <;> rcases hd with rfl | rfl <;>
          exact ⟨by simp, by simp [Exponent.WellFormed], by simp, by simp; decide, by simp⟩
      oneLap := by simp [laplacians]
      lapFirst := by
        intro pre i post h hl j hj
        cases pre with
        | nil => simp at hj
        | cons p pre => simp at h
      together := ⟨[], [⟨none, some ⟨x, some ⟨[d], none⟩⟩⟩], [], by simp, by simp, by simp,
        by simpa [pairNames, Names.varying] using hx, by simp, by simp⟩ }
  once := by
    intro x _
    exact (List.length_filter_le _ _)
  kind := by
    simp only [pairNames, List.mem_cons, List.not_mem_nil, or_false] at hx
    rcases hx with rfl | rfl <;> rcases hd with rfl | rfl <;> exact Or.inl ⟨by decide, by decide⟩
  exactOne := by
    intro f hf
    have : f = ⟨x, some ⟨[d], none⟩⟩ := by
      simpa using (List.mem_filter.mp hf).1
    subst this
    have e2 : Factor.power ⟨x, some ⟨['2'], none⟩⟩ = 2 := by
      have : Factor.power ⟨"conc".toList, some ⟨['2'], none⟩⟩ = 2 := by decide +kernel
      exact this
    have e3 : Factor.power ⟨x, some ⟨['3'], none⟩⟩ = 3 := by
      have : Factor.power ⟨"conc".toList, some ⟨['3'], none⟩⟩ = 3 := by decide +kernel
      exact this
    intro h
    rcases hd with rfl | rfl
    · rw [e2] at h
      norm_num at h
    · rw [e3] at h
      norm_num at h

theorem spread_monomial : Monomial pairNames inhibitorSpread where
  readable :=
    { wf := by
        intro i hi
        obtain rfl := List.mem_singleton.mp hi
        refine ⟨by simp, by simp, by simp, by simp; decide, by
          intro f hf _
          have : f = ⟨"eta".toList, none⟩ := by simpa using hf.symm
          subst this
          exact ⟨List.mem_of_elem_eq_true (by rfl), by simp, by simp⟩⟩
      oneLap := by simp [laplacians, inhibitorSpread]
      lapFirst := by
        intro pre i post h hl j hj
        cases pre with
        | nil => simp at hj
        | cons p pre => simp [inhibitorSpread] at h
      together := ⟨[], inhibitorSpread, [], by simp, by simp [inhibitorSpread], by simp,
        by simp [inhibitorSpread]; decide, by simp [inhibitorSpread], by simp [inhibitorSpread]⟩ }
  once := by
    intro x _
    exact (List.length_filter_le _ _)
  kind := Or.inl ⟨by decide, by decide⟩
  exactOne := by
    intro f hf
    have : f = ⟨"eta".toList, none⟩ := by
      simpa [inhibitorSpread] using (List.mem_filter.mp hf).1
    subst this
    intro _; decide +kernel

theorem factors_spreadA : factorsIn pairNames.varying activatorSpread = [⟨"conc".toList, none⟩] := by decide
theorem factors_spreadI : factorsIn pairNames.varying inhibitorSpread = [⟨"eta".toList, none⟩] := by decide
theorem factors_squareA : factorsIn pairNames.varying activatorSquare = [⟨"conc".toList, some ⟨['2'], none⟩⟩] := by decide
theorem factors_cubeA : factorsIn pairNames.varying activatorCube = [⟨"conc".toList, some ⟨['3'], none⟩⟩] := by decide
theorem factors_squareI : factorsIn pairNames.varying inhibitorSquare = [⟨"eta".toList, some ⟨['2'], none⟩⟩] := by decide

theorem spread_factor : ∀ eq ∈ [restingActivator, spreadingActivator, spreadingInhibitor], ∀ p ∈ eq.terms,
    ∀ g ∈ factorsIn pairNames.varying p.1, ∃ q : ℕ, g.power = q := by
  have a1 : ∃ q : ℕ, Factor.power ⟨"conc".toList, none⟩ = q := ⟨1, by decide +kernel⟩
  have a2 : ∃ q : ℕ, Factor.power ⟨"eta".toList, none⟩ = q := ⟨1, by decide +kernel⟩
  have a3 : ∃ q : ℕ, Factor.power ⟨"conc".toList, some ⟨['2'], none⟩⟩ = q := ⟨2, by decide +kernel⟩
  have a4 : ∃ q : ℕ, Factor.power ⟨"conc".toList, some ⟨['3'], none⟩⟩ = q := ⟨3, by decide +kernel⟩
  have a5 : ∃ q : ℕ, Factor.power ⟨"eta".toList, some ⟨['2'], none⟩⟩ = q := ⟨2, by decide +kernel⟩
  have key : ∀ l ∈ [activatorSquare, [preyItem, hunterItem], activatorSpread, activatorCube, inhibitorSquare, inhibitorSpread],
      ∀ g ∈ factorsIn pairNames.varying l, ∃ q : ℕ, g.power = q := by
    intro l hl g hg
    simp only [List.mem_cons, List.not_mem_nil, or_false] at hl
    rcases hl with rfl | rfl | rfl | rfl | rfl | rfl
    · rw [factors_squareA, List.mem_singleton] at hg
      rw [hg]; exact a3
    · rw [factors_meeting, List.mem_cons, List.mem_singleton] at hg
      rcases hg with rfl | rfl
      · exact a1
      · exact a2
    · rw [factors_spreadA, List.mem_singleton] at hg
      rw [hg]; exact a1
    · rw [factors_cubeA, List.mem_singleton] at hg
      rw [hg]; exact a4
    · rw [factors_squareI, List.mem_singleton] at hg
      rw [hg]; exact a5
    · rw [factors_spreadI, List.mem_singleton] at hg
      rw [hg]; exact a2
  intro eq heq p hp
  refine key p.1 ?_
  simp only [List.mem_cons, List.not_mem_nil, or_false] at heq
  rcases heq with rfl | rfl | rfl
  · rw [resting_terms] at hp
    simp only [List.mem_cons, List.not_mem_nil, or_false] at hp
    rcases hp with rfl | rfl <;> simp
  · rw [spreadingA_terms] at hp
    simp only [List.mem_cons, List.not_mem_nil, or_false] at hp
    rcases hp with rfl | rfl | rfl <;> simp
  · rw [spreadingI_terms] at hp
    simp only [List.mem_cons, List.not_mem_nil, or_false] at hp
    rcases hp with rfl | rfl | rfl <;> simp

theorem turing_polynomial : ∀ eq ∈ [restingActivator, spreadingActivator, spreadingInhibitor],
    Equation.Polynomial pairNames eq := by
  intro eq heq
  have hc : "conc".toList ∈ pairNames.fields := by decide
  have he : "eta".toList ∈ pairNames.fields := by decide
  simp only [List.mem_cons, List.not_mem_nil, or_false] at heq
  rcases heq with rfl | rfl | rfl
  · refine ⟨by decide, by simp [restingActivator], by simp [restingActivator], ?_⟩
    rw [resting_terms]
    intro p hp
    simp only [List.mem_cons, List.not_mem_nil, or_false] at hp
    rcases hp with rfl | rfl
    · exact power_monomial hc (Or.inl rfl)
    · exact meeting_monomial
  · refine ⟨by decide, by simp [spreadingActivator], by simp [spreadingActivator], ?_⟩
    rw [spreadingA_terms]
    intro p hp
    simp only [List.mem_cons, List.not_mem_nil, or_false] at hp
    rcases hp with rfl | rfl | rfl
    · exact power_monomial hc (Or.inl rfl)
    · exact meeting_monomial
    · exact pair_laplacian
  · refine ⟨by decide, by simp [spreadingInhibitor], by simp [spreadingInhibitor], ?_⟩
    rw [spreadingI_terms]
    intro p hp
    simp only [List.mem_cons, List.not_mem_nil, or_false] at hp
    rcases hp with rfl | rfl | rfl
    · exact power_monomial hc (Or.inr rfl)
    · exact power_monomial he (Or.inl rfl)
    · exact spread_monomial

theorem spread_realPowers (c : Str → ℂ) : ∀ eq ∈ [restingActivator, spreadingActivator, spreadingInhibitor],
    Equation.RealPowers pairNames c eq := by
  intro eq heq p hp
  have hsc : ∀ l, factorsIn pairNames.scalars l = [] := by intro l; simp [factorsIn, pairNames]
  refine ⟨fun f hf => ?_, fun f hf => by simp [hsc] at hf⟩
  obtain ⟨q, hq⟩ := spread_factor eq heq p hp f (by
    have : pairNames.varying = pairNames.fields := by decide
    rw [this]; exact hf)
  rw [hq]
  rfl

theorem lap_squareA : (laplacians activatorSquare).sum = 0 := by decide
theorem lap_cubeA : (laplacians activatorCube).sum = 0 := by decide
theorem lap_squareI : (laplacians inhibitorSquare).sum = 0 := by decide
theorem lap_spreadA : (laplacians activatorSpread).sum = 1 := by decide
theorem lap_spreadI : (laplacians inhibitorSpread).sum = 1 := by decide

theorem spread_diffusing : ∀ eq ∈ [restingActivator, spreadingActivator, spreadingInhibitor], Diffusing pairNames eq := by
  intro eq heq p hp
  simp only [List.mem_cons, List.not_mem_nil, or_false] at heq
  rcases heq with rfl | rfl | rfl
  · rw [resting_terms] at hp
    simp only [List.mem_cons, List.not_mem_nil, or_false] at hp
    rcases hp with rfl | rfl
    · exact Or.inl lap_squareA
    · exact Or.inl meeting_lap
  · rw [spreadingA_terms] at hp
    simp only [List.mem_cons, List.not_mem_nil, or_false] at hp
    rcases hp with rfl | rfl | rfl
    · exact Or.inl lap_squareA
    · exact Or.inl meeting_lap
    · exact Or.inr ⟨lap_spreadA, factors_spreadA⟩
  · rw [spreadingI_terms] at hp
    simp only [List.mem_cons, List.not_mem_nil, or_false] at hp
    rcases hp with rfl | rfl | rfl
    · exact Or.inl lap_cubeA
    · exact Or.inl lap_squareI
    · exact Or.inr ⟨lap_spreadI, factors_spreadI⟩

theorem slope_cube (f : Str) (z w : Str → ℂ) : productSlope [⟨f, some ⟨['3'], none⟩⟩] z w = 3 * z f ^ 2 * w f := by
  unfold productSlope
  have p2 : Factor.power ⟨f, some ⟨['3'], none⟩⟩ = 3 := by
    have : Factor.power ⟨"conc".toList, some ⟨['3'], none⟩⟩ = 3 := by decide +kernel
    exact this
  have e : (fun t : ℂ => ([(⟨f, some ⟨['3'], none⟩⟩ : Factor)].map fun f => (z f.name + t * w f.name) ^ ((f.power : ℚ) : ℂ)).prod) =
      fun t : ℂ => (z f + t * w f) ^ 3 := by
    funext t
    simp only [List.map_cons, List.map_nil, List.prod_cons, List.prod_nil, mul_one, p2]
    norm_num
  rw [e]
  have h1 : HasDerivAt (fun t : ℂ => z f + t * w f) (w f) 0 := by
    simpa using ((hasDerivAt_id (0 : ℂ)).mul_const (w f)).const_add (z f)
  refine (h1.pow 3).deriv.trans ?_
  simp

theorem plus_coefficient (c : Str → ℂ) (l : List Item) : coefficient pairNames c (l, some '+') = 1 := by
  have hsc : factorsIn pairNames.scalars l = [] := by simp [factorsIn, pairNames]
  have g1 : signOf (some '+') = 1 := by decide
  simp [coefficient, hsc, g1]

theorem activator_reaction (c : Str → ℂ) (f : Str) :
    reactionRate pairNames c restingActivator (fun _ => 1) f =
      (Pi.single f 1 : Str → ℂ) "conc".toList - (Pi.single f 1 : Str → ℂ) "eta".toList ∧
    reactionRate pairNames c spreadingActivator (fun _ => 1) f =
      (Pi.single f 1 : Str → ℂ) "conc".toList - (Pi.single f 1 : Str → ℂ) "eta".toList ∧
    diffusivity pairNames c restingActivator = 0 ∧ diffusivity pairNames c spreadingActivator = 1 := by
  unfold reactionRate diffusivity
  rw [resting_terms, spreadingA_terms]
  simp only [List.map_cons, List.map_nil, List.sum_cons, List.sum_nil, lap_squareA, meeting_lap, lap_spreadA, if_true,
    one_ne_zero, if_false, (pair_coefficient c _).1, (pair_coefficient c _).2, plus_coefficient, factors_squareA,
    factors_meeting, slope_square, slope_pair]
  refine ⟨by ring, by ring, by ring, by ring⟩

theorem inhibitor_reaction (c : Str → ℂ) (f : Str) :
    reactionRate pairNames c spreadingInhibitor (fun _ => 1) f =
      3 * (Pi.single f 1 : Str → ℂ) "conc".toList - 2 * (Pi.single f 1 : Str → ℂ) "eta".toList ∧
    diffusivity pairNames c spreadingInhibitor = 1 := by
  unfold reactionRate diffusivity
  rw [spreadingI_terms]
  simp only [List.map_cons, List.map_nil, List.sum_cons, List.sum_nil, lap_cubeA, lap_squareI, lap_spreadI, if_true,
    one_ne_zero, if_false, (pair_coefficient c _).1, (pair_coefficient c _).2, plus_coefficient, factors_cubeA,
    factors_squareI, slope_square, slope_cube]
  refine ⟨by ring, by ring⟩

theorem spread_reactions (c : Str → ℂ) :
    reactionOf pairNames c restingActivator spreadingInhibitor (fun _ => 1) = ⟨0, 1, 1, -1, 3, -2⟩ ∧
    reactionOf pairNames c spreadingActivator spreadingInhibitor (fun _ => 1) = ⟨1, 1, 1, -1, 3, -2⟩ := by
  have f1 : restingActivator.field = "conc".toList := rfl
  have f2 : spreadingActivator.field = "conc".toList := rfl
  have f3 : spreadingInhibitor.field = "eta".toList := rfl
  have s1 : (Pi.single "conc".toList 1 : Str → ℂ) "conc".toList = 1 := by simp
  have s2 : (Pi.single "conc".toList 1 : Str → ℂ) "eta".toList = 0 := by
    rw [Pi.single_apply, if_neg (by decide)]
  have s3 : (Pi.single "eta".toList 1 : Str → ℂ) "eta".toList = 1 := by simp
  have s4 : (Pi.single "eta".toList 1 : Str → ℂ) "conc".toList = 0 := by
    rw [Pi.single_apply, if_neg (by decide)]
  unfold reactionOf
  simp only [f1, f2, f3, (activator_reaction c _).1, (activator_reaction c _).2.1, (activator_reaction c []).2.2.1,
    (activator_reaction c []).2.2.2, (inhibitor_reaction c _).1, (inhibitor_reaction c []).2, s1, s2, s3, s4]
  norm_num

theorem spread_rests (c : Str → ℂ) : ∀ eq ∈ [restingActivator, spreadingActivator, spreadingInhibitor],
    uniformSystemRate pairNames c eq (fun _ => 1) = 0 := by
  intro eq heq
  simp only [List.mem_cons, List.not_mem_nil, or_false] at heq
  rcases heq with rfl | rfl | rfl
  · simp only [uniformSystemRate, resting_terms, List.map_cons, List.map_nil, lap_squareA, meeting_lap, if_true,
      Complex.one_cpow, List.sum_cons, List.sum_nil, (pair_coefficient c _).1, (pair_coefficient c _).2]
    simp
  · simp only [uniformSystemRate, spreadingA_terms, List.map_cons, List.map_nil, lap_squareA, meeting_lap, lap_spreadA, if_true,
      one_ne_zero, if_false, Complex.one_cpow, List.sum_cons, List.sum_nil, (pair_coefficient c _).1, (pair_coefficient c _).2]
    simp
  · simp only [uniformSystemRate, spreadingI_terms, List.map_cons, List.map_nil, lap_cubeA, lap_squareI, lap_spreadI, if_true,
      one_ne_zero, if_false, Complex.one_cpow, List.sum_cons, List.sum_nil, (pair_coefficient c _).1, (pair_coefficient c _).2]
    simp

theorem phi_half {d : ℤ} (hd : 2 ≤ d) : (1 : ℚ) / 3 ≤ phi (d / 2) d := by
  have h1 : d / 2 * 2 ≤ d := by omega
  have h2 : d ≤ 3 * (d / 2) := by omega
  have hd0 : (0 : ℚ) < d := by exact_mod_cast (by omega : 0 < d)
  have h1' : ((d / 2 : ℤ) : ℚ) * 2 ≤ d := by exact_mod_cast h1
  have h2' : (d : ℚ) ≤ 3 * ((d / 2 : ℤ) : ℚ) := by exact_mod_cast h2
  have le : ((d / 2 : ℤ) : ℚ) / d ≤ 1 / 2 := by
    rw [div_le_iff₀ hd0]
    linarith
  unfold phi foldFreq
  rw [if_neg (not_lt.mpr le), le_div_iff₀ hd0]
  linarith

/-- A grid of more than one node has a wave of squared wave number above one. -/
theorem fast_wave (h : GoodDims (intDims dims)) (hn : 1 < dims.prod) : ∃ k, 1 < laplaceNumber dims k := by
  have hpos := pos_of_goodDims h
  have hbox : InBox (intDims dims) ((intDims dims).map fun d => d / 2) := by
    unfold InBox
    rw [List.forall₂_map_right_iff, List.forall₂_same]
    intro d hd
    have := h.2 d hd
    omega
  obtain ⟨n, -, h0, h1, hp⟩ := nodeIdx_spec h hbox
  have hprod : numNodes (intDims dims) = ((dims.prod : ℕ) : ℤ) := by
    unfold numNodes intDims
    clear h hn hpos hbox h1 hp
    induction dims with
    | nil => rfl
    | cons d ds ih => simp only [List.map_cons, List.prod_cons, ih]; push_cast; rfl
  have hlt : n.toNat < dims.prod := by
    rw [hprod] at h1
    omega
  refine ⟨⟨n.toNat, hlt⟩, ?_⟩
  have hf := freq_eq h h0 h1 hp
  have hbig : ∃ d ∈ dims, 2 ≤ d := by
    by_contra hc
    push Not at hc
    have : dims.prod = 1 := List.prod_eq_one (fun d hd => by
      have := hpos d hd
      have := hc d hd
      omega)
    omega
  obtain ⟨d, hd, h2⟩ := hbig
  have hmem : ((phi ((d : ℤ) / 2) d : ℚ) : ℝ) ∈ freqOf dims ⟨n.toNat, hlt⟩ := by
    unfold freqOf
    have e : ((n.toNat : ℕ) : ℤ) = n := Int.toNat_of_nonneg h0
    simp only [e]
    show _ ∈ ((freq (intDims dims) n).getD []).map _
    rw [hf, Option.getD_some]
    refine List.mem_map.mpr ⟨_, ?_, rfl⟩
    rw [List.zipWith_map_left, List.zipWith_self]
    exact List.mem_map.mpr ⟨(d : ℤ), List.mem_map.mpr ⟨d, hd, rfl⟩, rfl⟩
  have hge : (1 : ℝ) / 3 ≤ ((phi ((d : ℤ) / 2) d : ℚ) : ℝ) := by
    have := phi_half (d := (d : ℤ)) (by exact_mod_cast h2)
    have h3 : (((1 : ℚ) / 3 : ℚ) : ℝ) ≤ ((phi ((d : ℤ) / 2) d : ℚ) : ℝ) := by exact_mod_cast this
    norm_num at h3 ⊢
    exact h3
  have hsum : ((1 : ℝ) / 3) ^ 2 ≤ ((freqOf dims ⟨n.toNat, hlt⟩).map fun x => x ^ 2).sum := by
    refine le_trans (pow_le_pow_left₀ (by norm_num) hge 2) ?_
    refine List.single_le_sum ?_ _ (List.mem_map.mpr ⟨_, hmem, rfl⟩)
    intro x hx
    obtain ⟨y, -, rfl⟩ := List.mem_map.mp hx
    exact sq_nonneg y
  unfold laplaceNumber
  have hpi := Real.pi_gt_three
  have hpi2 : 9 < Real.pi ^ 2 := by nlinarith
  generalize ((freqOf dims ⟨n.toNat, hlt⟩).map fun x => x ^ 2).sum = S at *
  nlinarith

/-- C163: an instability that is due to diffusion alone. At the uniform state one the reaction conc^2 - conc*eta,
conc^3 - eta^2 settles. If only `eta` diffuses, small real perturbations leave the state on every grid of more than
one node. -/
theorem c163_turing (h : GoodDims (intDims dims)) (hl : LayoutOk dims) (hn : 1 < dims.prod) :
    ∃ (m : EqModel dims.prod) (M : Model m.fields.length m.derived.length dims.prod),
      ["dconc/dt = conc^2 - conc*eta".toList, "deta/dt = conc^3 - eta^2 + LAP eta".toList].foldlM EqModel.addEquation
        (pairModel dims.prod) = some m ∧ m.assemble (fun _ => 0) = some M ∧
      (reactionOf pairNames (fun _ => 0) restingActivator spreadingInhibitor fun _ => 1).Settles ∧
      ∃ dt0 : ℝ, 0 < dt0 ∧ ∀ s : Stepper dims.prod, s.filter = none → s.freq = freqOf dims → 0 < s.dt → s.dt < dt0 →
        GoesAway M s fun _ => 1 := by
  obtain ⟨m, M, a1, a2, a3, a4⟩ := c163_waves h hl pairNames pair_wellNamed rfl (pairModel dims.prod)
    ⟨rfl, rfl, fun x => Iff.rfl⟩ rfl restingActivator spreadingInhibitor
    (fun eq heq => ⟨turing_polynomial eq (by simp only [List.mem_cons, List.not_mem_nil, or_false] at heq ⊢; tauto),
      fun _ _ => ⟨rfl, rfl⟩⟩)
    (fun eq heq => spread_factor eq (by simp only [List.mem_cons, List.not_mem_nil, or_false] at heq ⊢; tauto))
    ["dconc/dt = conc^2 - conc*eta".toList, "deta/dt = conc^3 - eta^2 + LAP eta".toList] (by decide) (by decide) (fun _ => 0)
    (fun _ _ => rfl)
    (fun eq heq => spread_realPowers _ eq (by simp only [List.mem_cons, List.not_mem_nil, or_false] at heq ⊢; tauto))
    (fun eq heq => spread_diffusing eq (by simp only [List.mem_cons, List.not_mem_nil, or_false] at heq ⊢; tauto))
  refine ⟨m, M, a1, a3, ?_, ?_⟩
  · rw [(spread_reactions _).1]
    constructor <;> norm_num
  · obtain ⟨dt0, hdt0, hall⟩ := a4 (fun _ => 1)
      (fun eq heq => spread_rests _ eq (by simp only [List.mem_cons, List.not_mem_nil, or_false] at heq ⊢; tauto))
      (fun _ _ => by simp)
    refine ⟨dt0, hdt0, fun s hfil hfreq hpos hlt => (hall s hfil hfreq hpos hlt).2 ?_⟩
    obtain ⟨k, hk⟩ := fast_wave h hn
    refine ⟨k, ?_⟩
    rw [(spread_reactions _).1]
    unfold Reaction.product
    norm_num
    linarith

/-- C163: if both diffuse alike, the state attracts on every grid. -/
theorem c163_alike (h : GoodDims (intDims dims)) (hl : LayoutOk dims) :
    ∃ (m : EqModel dims.prod) (M : Model m.fields.length m.derived.length dims.prod),
      ["dconc/dt = conc^2 - conc*eta + LAP conc".toList, "deta/dt = conc^3 - eta^2 + LAP eta".toList].foldlM EqModel.addEquation
        (pairModel dims.prod) = some m ∧ m.assemble (fun _ => 0) = some M ∧
      ∃ dt0 : ℝ, 0 < dt0 ∧ ∀ s : Stepper dims.prod, s.filter = none → s.freq = freqOf dims → 0 < s.dt → s.dt < dt0 →
        DiesOut M s fun _ => 1 := by
  obtain ⟨m, M, a1, a2, a3, a4⟩ := c163_harmless h hl pairNames pair_wellNamed rfl (pairModel dims.prod)
    ⟨rfl, rfl, fun x => Iff.rfl⟩ rfl spreadingActivator spreadingInhibitor
    (fun eq heq => ⟨turing_polynomial eq (by simp only [List.mem_cons, List.not_mem_nil, or_false] at heq ⊢; tauto),
      fun _ _ => ⟨rfl, rfl⟩⟩)
    (fun eq heq => spread_factor eq (by simp only [List.mem_cons, List.not_mem_nil, or_false] at heq ⊢; tauto))
    ["dconc/dt = conc^2 - conc*eta + LAP conc".toList, "deta/dt = conc^3 - eta^2 + LAP eta".toList] (by decide) (by decide)
    (fun _ => 0) (fun _ _ => rfl)
    (fun eq heq => spread_realPowers _ eq (by simp only [List.mem_cons, List.not_mem_nil, or_false] at heq ⊢; tauto))
    (fun eq heq => spread_diffusing eq (by simp only [List.mem_cons, List.not_mem_nil, or_false] at heq ⊢; tauto))
  refine ⟨m, M, a1, a3, a4 (fun _ => 1)
    (fun eq heq => spread_rests _ eq (by simp only [List.mem_cons, List.not_mem_nil, or_false] at heq ⊢; tauto))
    (fun _ _ => by simp) ?_ ?_ ?_ (Or.inl ?_)⟩
  · rw [(spread_reactions _).2]
    constructor <;> norm_num
  · rw [(spread_reactions _).2]
    norm_num
  · rw [(spread_reactions _).2]
    norm_num
  · rw [(spread_reactions _).2]

/-- A grid as in `c163_turing`. -/
example : GoodDims (intDims [4, 6]) ∧ LayoutOk [4, 6] ∧ 1 < [4, 6].prod := ⟨⟨by decide, by decide⟩, trivial, by decide⟩

end Gopf.Props
