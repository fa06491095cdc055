import Verif.Props.Lorenz
import Verif.Props.RingOscillator
import Verif.Proofs.Dominance

/-!
# C168: coupled equations whose fields restrain themselves more than the others move them
-/

namespace Gopf.Props
open Spec Pf Pfutil

variable {n : ℕ} {dims : List ℕ}

/-! ### The specification -/

/-- The rate at which a field acts on itself plus the sizes of the rates at which the others act on it. -/
noncomputable def balanceOf (fields : List Str) (own : Str) (rate : Str → ℂ) : ℝ :=
  (fields.map fun f => if f = own then (rate f).re else ‖rate f‖).sum

section
variable {N : Names} {eqs : List Equation} {E : Fin N.fields.length → Equation} (hE : Ordered N eqs N.fields E)
include hE

theorem dominant_decays {c : Str → ℂ} {freq : Frequency n} {z : Str → ℂ} {k : Fin n}
    (hd : ∀ eq ∈ eqs, balanceOf N.fields eq.field (waveRate N c freq eq z k) < 0) {l : ℂ}
    (hl : IsGrowthRate N c freq eqs z k l) : l.re < 0 := by
  obtain ⟨w, hw, hlw⟩ := hl
  refine Proofs.dominant_inside (A := waveMatrix N c freq N.fields E z k) (fun i => ?_) ((nonzero_iff hE w).mp hw)
    ((growth_eigen hE c freq z w k l).mp hlw)
  have h1 := hd _ (hE.mem i)
  unfold balanceOf at h1
  rw [← Fin.sum_univ_fun_getElem] at h1
  refine lt_of_eq_of_lt (Finset.sum_congr rfl fun j _ => ?_) h1
  rw [hE.field]
  by_cases e : j = i
  · subst e
    rw [if_pos rfl]
    exact (if_pos (show N.fields[(j : ℕ)] = N.fields[j] from rfl)).symm
  · rw [if_neg e]
    exact (if_neg fun h => e (Fin.ext (hE.nodup.getElem_inj_iff.mp h))).symm

theorem own_growth {c : Str → ℂ} {freq : Frequency n} {z : Str → ℂ} {k : Fin n}
    (hp : 0 < (eqs.map fun eq => (waveRate N c freq eq z k eq.field).re).sum) :
    ∃ l, IsGrowthRate N c freq eqs z k l ∧ 0 < l.re := by
  have e : eqs = List.ofFn E := by
    apply List.ext_getElem
    · rw [List.length_ofFn, hE.length]
    · intro i h1 h2
      rw [ordered_get hE i h1, List.getElem_ofFn]
  have ht : 0 < (waveMatrix N c freq N.fields E z k).trace.re := by
    rw [Matrix.trace, Complex.re_sum]
    rw [e, List.map_ofFn, List.sum_ofFn] at hp
    refine lt_of_lt_of_eq hp (Finset.sum_congr rfl fun i _ => ?_)
    simp only [Function.comp_apply, Matrix.diag_apply, waveMatrix, hE.field]
  obtain ⟨l, a, ha, hla, hpos⟩ := Proofs.trace_outside ht
  obtain ⟨w, hw⟩ := exists_values hE a
  obtain rfl : (fun j : Fin N.fields.length => w N.fields[j]) = a := funext hw
  exact ⟨l, ⟨w, (nonzero_iff hE w).mpr ha, (growth_eigen hE c freq z w k l).mpr hla⟩, hpos⟩

end

/-- Diffusion only takes from the balance. -/
theorem balance_diffusing {N : Names} {eq : Equation} (hd : Diffusing N eq) (c : Str → ℂ) (hD : 0 ≤ (diffusivity N c eq).re)
    (z : Str → ℂ) (k : Fin dims.prod) (fields : List Str) :
    balanceOf fields eq.field (waveRate N c (freqOf dims) eq z k) ≤ balanceOf fields eq.field (reactionRate N c eq z) := by
  unfold balanceOf
  refine List.sum_le_sum fun f _ => ?_
  rw [waveRate_split hd, symbol_number]
  by_cases e : f = eq.field
  · subst e
    rw [if_pos rfl, if_pos rfl, Pi.single_eq_same, mul_one, Complex.add_re, Complex.mul_re, Complex.ofReal_re, Complex.ofReal_im]
    have := mul_nonneg hD (laplaceNumber_nonneg' k)
    linarith
  · rw [if_neg e, if_neg e, Pi.single_eq_of_ne (Ne.symm e), mul_zero, add_zero]

section
variable (h : GoodDims (intDims dims)) (hl : LayoutOk dims) (N : Names) (hN : N.WellNamed) (hfn : N.functions = [])
    (m0 : EqModel dims.prod) (h0 : StartsAs N m0) (heq : m0.equations = [])
    (eqs : List Equation) (hq : ∀ eq ∈ eqs, eq.Polynomial N ∧ Unregistered m0 eq)
    (hnat : ∀ eq ∈ eqs, ∀ p ∈ eq.terms, ∀ g ∈ factorsIn N.varying p.1, ∃ q : ℕ, g.power = q)
    (ss : List Str) (hs : ss.map (fun s => s.filter fun c => c ≠ ' ') = eqs.map Equation.text)
    (hord : eqs.map Equation.field = N.fields) (c : Str → ℂ) (hc : ∀ x ∈ N.scalars, (c x).im = 0)
    (hpow : ∀ eq ∈ eqs, Equation.RealPowers N c eq)
include h hN hfn h0 heq hq hnat hs hord

/-- C168: if for every wave every field restrains itself more than the others move it, all small perturbations die out, with
both steppers. -/
theorem c168_dominant : ∃ m M, ss.foldlM EqModel.addEquation m0 = some m ∧ m.fields = N.fields ∧ m.assemble c = some M ∧
      ∀ z : Str → ℂ, (∀ eq ∈ eqs, uniformSystemRate N c eq z = 0) →
      (∀ k, ∀ eq ∈ eqs, balanceOf N.fields eq.field (waveRate N c (freqOf dims) eq z k) < 0) →
      ∃ dt0 : ℝ, 0 < dt0 ∧ ∀ s : Stepper dims.prod, s.filter = none → s.freq = freqOf dims → 0 < s.dt → s.dt < dt0 →
        DiesOut M s (fun i => z m.fields[i]) ∧ DiesOutRungeKutta M s fun i => z m.fields[i] := by
  obtain ⟨E, hE⟩ := exists_ordered N hN hfn eqs hnat hord
  obtain ⟨m, M, a1, a2, a3, a4⟩ := c164_settles h N hN hfn m0 h0 heq _ hq hnat ss hs hord c
  obtain ⟨m', M', a1', -, a3', a4'⟩ := c165_settles h N hN hfn m0 h0 heq _ hq hnat ss hs hord c
  rw [a1] at a1'
  obtain rfl := Option.some.inj a1'
  rw [a3] at a3'
  obtain rfl := Option.some.inj a3'
  refine ⟨m, M, a1, a2, a3, fun z hz hd => ?_⟩
  have hg : ∀ k l, IsGrowthRate N c (freqOf dims) eqs z k l → l.re < 0 := fun k l hkl => dominant_decays hE (hd k) hkl
  obtain ⟨d1, b1, b2⟩ := a4 z hz hg
  obtain ⟨d2, c1, c2⟩ := a4' z hz hg
  exact ⟨min d1 d2, lt_min b1 c1, fun s s1 s2 s3 s4 => ⟨b2 s s1 s2 s3 (s4.trans_le (min_le_left _ _)),
    c2 s s1 s2 s3 (s4.trans_le (min_le_right _ _))⟩⟩

/-- C168: it suffices that the terms without Laplacian do so, whatever the diffusivities are. -/
theorem c168_diffusing : ∃ m M, ss.foldlM EqModel.addEquation m0 = some m ∧ m.fields = N.fields ∧ m.assemble c = some M ∧
      ∀ z : Str → ℂ, (∀ eq ∈ eqs, uniformSystemRate N c eq z = 0) →
      (∀ eq ∈ eqs, Diffusing N eq ∧ 0 ≤ (diffusivity N c eq).re) →
      (∀ eq ∈ eqs, balanceOf N.fields eq.field (reactionRate N c eq z) < 0) →
      ∃ dt0 : ℝ, 0 < dt0 ∧ ∀ s : Stepper dims.prod, s.filter = none → s.freq = freqOf dims → 0 < s.dt → s.dt < dt0 →
        DiesOut M s (fun i => z m.fields[i]) ∧ DiesOutRungeKutta M s fun i => z m.fields[i] := by
  obtain ⟨m, M, a1, a2, a3, a4⟩ := c168_dominant h N hN hfn m0 h0 heq eqs hq hnat ss hs hord c
  exact ⟨m, M, a1, a2, a3, fun z hz hd hb => a4 z hz fun k eq he =>
    (balance_diffusing (hd eq he).1 c (hd eq he).2 z k _).trans_lt (hb eq he)⟩

include hl hc hpow in
/-- C168: if for some wave the rates at which the fields act on themselves add up to a positive number, some real
perturbations leave, with both steppers, however the fields act on each other. -/
theorem c168_leaves : ∃ m M, ss.foldlM EqModel.addEquation m0 = some m ∧ m.fields = N.fields ∧ m.assemble c = some M ∧
      ∀ z : Str → ℂ, (∀ eq ∈ eqs, uniformSystemRate N c eq z = 0) → (∀ f ∈ N.fields, (z f).im = 0) →
      (∃ k, 0 < (eqs.map fun eq => (waveRate N c (freqOf dims) eq z k eq.field).re).sum) →
      ∃ dt0 : ℝ, 0 < dt0 ∧ ∀ s : Stepper dims.prod, s.filter = none → s.freq = freqOf dims → 0 < s.dt → s.dt < dt0 →
        GoesAway M s (fun i => z m.fields[i]) ∧ GoesAwayRungeKutta M s fun i => z m.fields[i] := by
  obtain ⟨E, hE⟩ := exists_ordered N hN hfn eqs hnat hord
  obtain ⟨m, M, a1, a2, a3, a4⟩ := c164_leaves h hl N hN hfn m0 h0 heq _ hq hnat ss hs hord c hc hpow
  obtain ⟨m', M', a1', -, a3', a4'⟩ := c165_leaves h hl N hN hfn m0 h0 heq _ hq hnat ss hs hord c hc hpow
  rw [a1] at a1'
  obtain rfl := Option.some.inj a1'
  rw [a3] at a3'
  obtain rfl := Option.some.inj a3'
  refine ⟨m, M, a1, a2, a3, fun z hz hzr ⟨k, hk⟩ => ?_⟩
  obtain ⟨l, hkl, hpos⟩ := own_growth hE hk
  obtain ⟨d1, b1, b2⟩ := a4 z hz hzr ⟨k, l, hkl, hpos⟩
  obtain ⟨d2, c1, c2⟩ := a4' z hz hzr ⟨k, l, hkl, hpos⟩
  exact ⟨min d1 d2, lt_min b1 c1, fun s s1 s2 s3 s4 => ⟨b2 s s1 s2 s3 (s4.trans_le (min_le_left _ _)),
    c2 s s1 s2 s3 (s4.trans_le (min_le_right _ _))⟩⟩

end

section
variable (h : GoodDims (intDims dims)) (hl : LayoutOk dims) (N : Names) (hN : N.WellNamed) (hfn : N.functions = [])
    (m0 : EqModel dims.prod) (h0 : StartsAs N m0) (heq : m0.equations = [])
    (eqs : List Equation) (hq : ∀ eq ∈ eqs, eq.Polynomial N ∧ Unregistered m0 eq)
    (hnat : ∀ eq ∈ eqs, ∀ p ∈ eq.terms, ∀ g ∈ factorsIn N.varying p.1, ∃ q : ℕ, g.power = q)
    (ss : List Str) (hs : ss.map (fun s => s.filter fun c => c ≠ ' ') = eqs.map Equation.text)
    (hord : eqs.map Equation.field = N.fields) (c : Str → ℂ) (hc : ∀ x ∈ N.scalars, (c x).im = 0)
    (hpow : ∀ eq ∈ eqs, Equation.RealPowers N c eq)
include h hl hN hfn h0 heq hq hnat hs hord hc hpow

/-- C168: so do some if the rates of the terms without Laplacian add up to a positive number. -/
theorem c168_reaction : ∃ m M, ss.foldlM EqModel.addEquation m0 = some m ∧ m.fields = N.fields ∧ m.assemble c = some M ∧
      ∀ z : Str → ℂ, (∀ eq ∈ eqs, uniformSystemRate N c eq z = 0) → (∀ f ∈ N.fields, (z f).im = 0) →
      0 < (eqs.map fun eq => (reactionRate N c eq z eq.field).re).sum →
      ∃ dt0 : ℝ, 0 < dt0 ∧ ∀ s : Stepper dims.prod, s.filter = none → s.freq = freqOf dims → 0 < s.dt → s.dt < dt0 →
        GoesAway M s (fun i => z m.fields[i]) ∧ GoesAwayRungeKutta M s fun i => z m.fields[i] := by
  obtain ⟨m, M, a1, a2, a3, a4⟩ := c168_leaves h hl N hN hfn m0 h0 heq eqs hq hnat ss hs hord c hc hpow
  have hpr : 0 < dims.prod := Nat.pos_of_ne_zero (by exact_mod_cast prod_ne_zero (pos_of_goodDims h))
  have hk : laplaceSymbol (freqOf dims ⟨0, hpr⟩) = 0 := by
    have hx := freqOf_zero dims ⟨0, hpr⟩ rfl
    have : ((freqOf dims ⟨0, hpr⟩).map fun x => x ^ 2).sum = 0 := List.sum_eq_zero (by
      intro y hy
      obtain ⟨x, hxm, rfl⟩ := List.mem_map.mp hy
      rw [hx x hxm]
      norm_num)
    rw [symbol_number]
    unfold laplaceNumber
    rw [this]
    simp
  refine ⟨m, M, a1, a2, a3, fun z hz hzr hp => a4 z hz hzr ⟨⟨0, hpr⟩, lt_of_lt_of_eq hp ?_⟩⟩
  congr 1
  exact List.map_congr_left fun eq _ => by rw [waveRate_still c z hk]

end

/-! ### A ring of three fields, and the Lorenz equations -/

theorem pick_sum {l : List Str} (hn : l.Nodup) {x : Str} (hx : x ∈ l) {a : ℝ} : (l.map fun f => if f = x then a else 0).sum = a := by
  induction l with
  | nil => simp at hx
  | cons y l ih =>
    obtain ⟨h1, h2⟩ := List.nodup_cons.mp hn
    rw [List.map_cons, List.sum_cons]
    by_cases e : y = x
    · subst e
      rw [if_pos rfl, List.sum_eq_zero, add_zero]
      intro b hb
      obtain ⟨f, hf, rfl⟩ := List.mem_map.mp hb
      exact if_neg fun e : f = y => h1 (e ▸ hf)
    · rw [if_neg e, zero_add, ih h2 ((List.mem_cons.mp hx).resolve_left (Ne.symm e))]

theorem ring_balance {x y : Str} (hx : x ∈ ringNames.fields) (hy : y ∈ ringNames.fields) (hxy : x ≠ y) (g : ℝ) (z : Str → ℂ) :
    balanceOf ringNames.fields (ringEquation x y).field (reactionRate ringNames (fun _ => (g : ℂ)) (ringEquation x y) z) =
      |g| - 1 := by
  have hnd : ringNames.fields.Nodup := by decide +kernel
  have e : ∀ f, reactionRate ringNames (fun _ => (g : ℂ)) (ringEquation x y) z f =
      (-1) * (Pi.single f 1 : Str → ℂ) x + (-(g : ℂ)) * (Pi.single f 1 : Str → ℂ) y := by
    intro f
    unfold reactionRate
    rw [ring_terms]
    obtain ⟨c1, c2, c3⟩ := ring_coefficients hx hy (g : ℂ)
    simp only [List.map_cons, List.map_nil, List.sum_cons, List.sum_nil, (ring_laps x hx).1, (ring_laps x hx).2.1,
      (ring_laps y hy).2.2, c2, c3, (ring_varying x hx).2.1, (ring_varying y hy).2.2, slope_bare]
    simp
  have e2 : (fun f => if f = (ringEquation x y).field then
      (reactionRate ringNames (fun _ => (g : ℂ)) (ringEquation x y) z f).re else
      ‖reactionRate ringNames (fun _ => (g : ℂ)) (ringEquation x y) z f‖) = fun f => (if f = x then (-1 : ℝ) else 0) + if f = y then |g| else 0 := by
    funext f
    rw [e]
    show (if f = x then _ else _) = _
    by_cases h1 : f = x
    · subst h1
      rw [if_pos rfl, if_pos rfl, if_neg hxy, Pi.single_eq_same, Pi.single_eq_of_ne (Ne.symm hxy)]
      simp
    · rw [if_neg h1, if_neg h1, Pi.single_eq_of_ne (Ne.symm h1)]
      by_cases h2 : f = y
      · subst h2
        rw [if_pos rfl, Pi.single_eq_same]
        simp
      · rw [if_neg h2, Pi.single_eq_of_ne (Ne.symm h2)]
        simp
  unfold balanceOf
  rw [e2, List.sum_map_add, pick_sum hnd hx, pick_sum hnd hy]
  ring

/-- C168: the ring settles while the fields act on each other more weakly than they decay, whatever the sign. -/
theorem c168_ring (h : GoodDims (intDims dims)) {g : ℝ} (hg : |g| < 1) :
    ∃ (m : EqModel dims.prod) (M : Model m.fields.length m.derived.length dims.prod),
      ["dconc/dt = LAP conc - conc - gain*phi".toList, "deta/dt = LAP eta - eta - gain*conc".toList,
        "dphi/dt = LAP phi - phi - gain*eta".toList].foldlM EqModel.addEquation (ringModel dims.prod) = some m ∧
      m.assemble (fun _ => (g : ℂ)) = some M ∧
      ∃ dt0 : ℝ, 0 < dt0 ∧ ∀ s : Stepper dims.prod, s.filter = none → s.freq = freqOf dims → 0 < s.dt → s.dt < dt0 →
        DiesOut M s (fun _ => 0) ∧ DiesOutRungeKutta M s fun _ => 0 := by
  obtain ⟨m, M, a1, a2, a3, a4⟩ := c168_diffusing h ringNames ring_wellNamed rfl (ringModel dims.prod) ring_starts rfl ringEquations
    (ring_all fun x y hx hy => ⟨ring_polynomial hx hy, fun _ _ => ⟨rfl, rfl⟩⟩) (ring_all fun x y hx hy => ring_whole hx hy)
    ringTexts ring_texts rfl (fun _ => (g : ℂ))
  refine ⟨m, M, a1, a3, a4 (fun _ => 0) (ring_all fun x y hx hy => ring_rests hx hy _)
    (ring_all fun x y hx hy => ⟨ring_diffusing hx hy, by rw [ring_diffusivity hx hy]; norm_num⟩) fun eq he => ?_⟩
  have h1 : "conc".toList ∈ ringNames.fields := by decide
  have h2 : "eta".toList ∈ ringNames.fields := by decide
  have h3 : "phi".toList ∈ ringNames.fields := by decide
  simp only [ringEquations, List.mem_cons, List.not_mem_nil, or_false] at he
  rcases he with rfl | rfl | rfl
  · rw [ring_balance h1 h3 (by decide)]
    linarith
  · rw [ring_balance h2 h1 (by decide)]
    linarith
  · rw [ring_balance h3 h2 (by decide)]
    linarith

/-- C168: if the three decay rates of the Lorenz equations add up to a negative number, the fluid does not stay at rest,
whatever the Rayleigh number. -/
theorem c168_lorenz (h : GoodDims (intDims dims)) (hl : LayoutOk dims) {c : Str → ℂ} {σ ρ β : ℝ} (c1 : c "prandtl".toList = σ)
    (c2 : c "rayleigh".toList = ρ) (c3 : c "shape".toList = β) (hneg : σ + 1 + β < 0) :
    ∃ (m : EqModel dims.prod) (M : Model m.fields.length m.derived.length dims.prod),
      ["dconc/dt = LAP conc + prandtl*eta - prandtl*conc".toList, "deta/dt = LAP eta + rayleigh*conc - eta - conc*phi".toList,
        "dphi/dt = LAP phi + conc*eta - shape*phi".toList].foldlM EqModel.addEquation (lorenzModel dims.prod) = some m ∧
      m.assemble c = some M ∧
      ∃ dt0 : ℝ, 0 < dt0 ∧ ∀ s : Stepper dims.prod, s.filter = none → s.freq = freqOf dims → 0 < s.dt → s.dt < dt0 →
        GoesAway M s (fun _ => 0) ∧ GoesAwayRungeKutta M s fun _ => 0 := by
  obtain ⟨m, M, a1, a2, a3, a4⟩ := c168_reaction h hl lorenzNames lorenz_wellNamed rfl (lorenzModel dims.prod) lorenz_starts rfl
    [lorenzEquation 0, lorenzEquation 1, lorenzEquation 2] (fun eq he => ⟨lorenz_polynomial eq he, fun _ _ => ⟨rfl, rfl⟩⟩)
    lorenz_whole lorenzTexts lorenz_texts rfl c (lorenz_real c1 c2 c3) (lorenz_realPowers c1 c2 c3)
  refine ⟨m, M, a1, a3, a4 (fun _ => 0) (lorenz_rests c1 c2 c3 (by simp) (by simp) (by simp)) (fun _ _ => rfl) ?_⟩
  have hj := lorenz_jacobian c1 c2 c3 (z := fun _ => 0) (x := 0) (y := 0) (u := 0) (by simp) (by simp) (by simp)
  have e : (([lorenzEquation 0, lorenzEquation 1, lorenzEquation 2]).map fun eq =>
      (reactionRate lorenzNames c eq (fun _ => 0) eq.field).re).sum = -(σ + 1 + β) := by
    simp only [List.map_cons, List.map_nil, List.sum_cons, List.sum_nil, hj, Complex.ofReal_re]
    rw [← lorenz_trace σ ρ β 0 0 0, Matrix.trace_fin_three]
    ring
  rw [e]
  linarith

/-- A grid and numbers as in the theorems. -/
example : GoodDims (intDims [4, 6]) ∧ LayoutOk [4, 6] ∧ |(-1 / 2 : ℝ)| < 1 ∧ ((-10 : ℝ) + 1 + 8 / 3 < 0) :=
  ⟨⟨by decide, by decide⟩, trivial, by norm_num [abs_lt], by norm_num⟩

/-- Every wave of the ring meets the hypothesis of `c168_dominant`. -/
example (k : Fin dims.prod) : balanceOf ringNames.fields (ringEquation "conc".toList "phi".toList).field
    (waveRate ringNames (fun _ => ((1 / 2 : ℝ) : ℂ)) (freqOf dims) (ringEquation "conc".toList "phi".toList) (fun _ => 0) k) < 0 := by
  have h1 : "conc".toList ∈ ringNames.fields := by decide
  have h3 : "phi".toList ∈ ringNames.fields := by decide
  refine (balance_diffusing (ring_diffusing h1 h3) _ (by rw [ring_diffusivity h1 h3]; norm_num) _ k _).trans_lt ?_
  rw [ring_balance h1 h3 (by decide)]
  norm_num [abs_lt]

end Gopf.Props
