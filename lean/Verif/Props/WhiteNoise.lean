import Verif.Props.Stability
import Verif.Model.WhiteNoise
import Mathlib.Probability.HasLawExists
import Mathlib.Probability.Distributions.Gaussian.Real

/-!
# C127: fluctuations of a field driven by white noise
-/

namespace Gopf.Props
open Spec Pf Pfutil

variable {nf nd n : ℕ} {dims : List ℕ}

/-! ### The specification -/

/-- An equation for the only field `f`, linear in it, with noise `g`: every term is linear in the field, or it is the
noise with scalars and Laplacians. -/
structure NoisyLinear (N : Names) (f g : Str) (eq : Equation) : Prop where
  fields : N.fields = [f]
  functions : N.functions = [g]
  terms : ∀ p ∈ eq.terms, LinearIn eq.field N.varying p.1 ∨ factorsIn N.varying p.1 = [⟨g, none⟩]

open scoped Classical in
/-- What the equation multiplies the wave `k` of the noise by: the terms that are not linear in the field contribute
their sign, their scalars and `-4π²|f|²` for every Laplacian. -/
noncomputable def noiseRate (N : Names) (c : Str → ℂ) (freq : Frequency n) (eq : Equation) (k : Fin n) : ℂ :=
  (eq.terms.map fun p : List Item × Option Char => if LinearIn eq.field N.varying p.1 then 0 else
    coefficient N c p * laplaceSymbol (freq k) ^ (laplacians p.1).sum).sum

/-! ### One step -/

theorem linear_productValue {N : Names} {field : Str} {items : List Item} (hm : Monomial N items)
    (hf : field ∈ N.fields) (hl : LinearIn field N.varying items) (u : Str → Data n) :
    productValue (factorsIn N.varying items) u = u field := by
  have hfv : field ∈ N.varying := by simp [Names.varying, hf]
  obtain ⟨e, he⟩ := linear_factors hfv hl
  rw [he]
  apply productValue_one
  have hmem : (⟨field, e⟩ : Factor) ∈ factorsIn N.varying items := by rw [he]; simp
  have hmem' : (⟨field, e⟩ : Factor) ∈ factorsIn N.fields items := by
    unfold factorsIn at hmem ⊢
    rw [List.mem_filter] at hmem ⊢
    exact ⟨hmem.1, by simpa using hf⟩
  refine hm.exactOne _ hmem' ?_
  unfold factorsIn at hmem
  obtain ⟨i, hi, hif⟩ := List.mem_filterMap.mp (List.mem_filter.mp hmem).1
  exact hl.2.2 i (by simp [occurrences, hi, Item.name?, hif]) _ (by rw [hif]; rfl)

theorem spectrum_split {N : Names} {f g : Str} {eq : Equation} (hlin : NoisyLinear N f g eq) (hp : eq.Polynomial N)
    (F : Data n → Data n) (c : Str → ℂ) (u : Str → Data n) (hu : ∀ x ∈ N.scalars, u x = fun _ => c x)
    (freq : Frequency n) (k : Fin n) : (eq.terms.map (termSpectrum N F u freq k)).sum =
      implicitRate N c freq eq k * F (u eq.field) k + noiseRate N c freq eq k * F (u g) k := by
  unfold implicitRate noiseRate
  have hterms := hp.monomials
  have hl := hlin.terms
  generalize eq.terms = l at hterms hl
  induction l with
  | nil => simp
  | cons p l ih =>
    have ih := ih (fun q hq => hterms q (by simp [hq])) fun q hq => hl q (by simp [hq])
    rw [List.map_cons, List.sum_cons, ih, List.map_cons, List.map_cons, List.sum_cons, List.sum_cons]
    have e0 : ((factorsIn N.scalars p.1).map fun f => u f.name k ^ ((f.power : ℚ) : ℂ)) =
        (factorsIn N.scalars p.1).map fun f => c f.name ^ ((f.power : ℚ) : ℂ) := by
      apply List.map_congr_left
      intro x hx
      have : x.name ∈ N.scalars := by
        unfold factorsIn at hx
        simpa using (List.mem_filter.mp hx).2
      rw [hu _ this]
    by_cases hc : LinearIn eq.field N.varying p.1
    · rw [if_pos hc, if_pos hc, termSpectrum, linear_productValue (hterms p (by simp)) hp.field hc, prod_map_pow, e0,
        coefficient]
      ring
    · rw [if_neg hc, if_neg hc, termSpectrum, (hl p (by simp)).resolve_left hc, productValue_single, prod_map_pow, e0,
        coefficient]
      ring

theorem drawn_reads (M : Model nf nd n) (d : Fin nd) (η : Data n) (i : Fin nf) (hi : ReadsNoEarlierField M i) :
    ReadsNoEarlierField (M.drawn d η) i := hi

theorem noise_step (h : ∀ d ∈ dims, 0 < d) (N : Names) (hN : N.WellNamed) (f g : Str) (m0 : EqModel dims.prod)
    (h0 : StartsAs N m0) (heq : m0.equations = []) (hder : m0.derived = [(g, .function fun b => b g)])
    (eq : Equation) (hlin : NoisyLinear N f g eq) (hq : eq.Polynomial N ∧ Unregistered m0 eq)
    (s0 : Str) (hs : s0.filter (fun c => c ≠ ' ') = eq.text) (c : Str → ℂ) :
    ∃ m M, m0.addEquation s0 = some m ∧ m.fields = [f] ∧ m.assemble c = some M ∧
      ∀ d : Fin m.derived.length, (m.derived[d]).1 = g → ∀ (s : Stepper dims.prod), s.filter = none →
      ∀ (η : Data dims.prod) (st : Store m.fields.length m.derived.length dims.prod) (i : Fin m.fields.length)
        (k : Fin dims.prod), 1 - s.dt * implicitRate N c s.freq eq k ≠ 0 →
        fft dims ((eulerStep (M.drawn d η) (s, st)).2.fields i) k =
          (fft dims (st.fields i) k + s.dt * noiseRate N c s.freq eq k * fft dims η k) /
            (1 - s.dt * implicitRate N c s.freq eq k) := by
  have hs' : [s0].map (fun s => s.filter fun c => c ≠ ' ') = [eq].map Equation.text := by simpa using hs
  have hq' : ∀ e ∈ [eq], e.Polynomial N ∧ Unregistered m0 e := by
    intro e he; obtain rfl := List.mem_singleton.mp he; exact hq
  obtain ⟨m, hadd, hg, -, ⟨l, hl, -⟩, -⟩ := add_all hN [eq] [s0] m0 (grown_start hN h0) hq' hs'
  obtain ⟨m', Rs, hadd', hinit, hall⟩ := c19_spectrum N hN m0 h0 heq [eq] hq' [s0] hs'
  rw [hadd] at hadd'
  obtain rfl := Option.some.inj hadd'
  have hRlen : m.fields.length ≤ Rs.length := by rw [← hall.length_eq, hg.fields, hlin.fields]; simp
  have hadd1 : m0.addEquation s0 = some m := by simpa [List.foldlM_cons, List.foldlM_nil] using hadd
  refine ⟨m, _, hadd1, hg.fields.trans hlin.fields, by rw [EqModel.assemble, hinit]; simp only [dif_pos hRlen]; rfl, ?_⟩
  intro d hd s hfil η st i k hne
  have hlen : m.fields.length = 1 := by rw [hg.fields, hlin.fields]; rfl
  have hi0 : i.val = 0 := by have := i.2; omega
  have hget : ∀ j : Fin m.fields.length, m.fields[j] = f := by
    intro j
    have : m.fields[j] ∈ m.fields := List.getElem_mem j.2
    generalize m.fields[j] = a at this
    rw [hg.fields, hlin.fields] at this
    simpa using this
  have hij : ∀ j : Fin m.fields.length, j = i := fun j => Fin.ext (by have := j.2; omega)
  have hfield : eq.field = f := by
    have := hq.1.field
    rw [hlin.fields] at this
    simpa using this
  have hv : N.varying = [f, g] := by rw [Names.varying, hlin.fields, hlin.functions]; rfl
  have hnd := hN.nodup
  rw [Names.all, hv, List.nodup_append] at hnd
  have hfg : f ≠ g := by have := hnd.1; simp at this; exact this
  have hfs : f ∉ N.scalars := fun hm => hnd.2.2 f (by simp) f hm rfl
  have hgs : g ∉ N.scalars := fun hm => hnd.2.2 g (by simp) g hm rfl
  let u : Str → Data dims.prod := fun x => if x = f then st.fields i else if x = g then η else fun _ => c x
  have huf : u f = st.fields i := by simp [u]
  have hug : u g = η := by simp [u, hfg.symm]
  have hus : ∀ x ∈ N.scalars, u x = fun _ => c x := by
    intro x hx
    have h1 : x ≠ f := fun e => hfs (e ▸ hx)
    have h2 : x ≠ g := fun e => hgs (e ▸ hx)
    simp [u, h1, h2]
  have hu : ∀ j : Fin m.fields.length, u m.fields[j] = st.fields j := fun j => by rw [hget, huf, hij j]
  set M : Model m.fields.length m.derived.length dims.prod :=
    { calcs := fun d st => (m.derived[d]).2.eval (m.brick c st)
      terms := fun i => (Rs[i]'(i.2.trans_le hRlen)).terms.map fun f st => f (m.brick c st)
      denum := fun i => (Rs[i]'(i.2.trans_le hRlen)).denum.map fun f st => f (m.brick c st)
      sources := fun _ => []
      modifiers := [] } with hM
  -- the derived fields other than the noise are products of fields
  have hreads : ∀ e : Fin m.derived.length, e ≠ d → ReadsFields N (m.derived[e]).2 := by
    intro e hed
    rcases hg.derived _ (List.getElem_mem e.2) with h | ⟨fs, _, h2, _, h4⟩
    · exfalso
      apply hed
      rw [hder] at h
      have h1 : (m.derived[e]).1 = g := by rw [show m.derived[e] = (g, _) from List.mem_singleton.mp h]
      have hk := hg.keys
      have e1 := (List.Nodup.getElem_inj_iff hk (i := e.val) (j := d.val) (hi := by simp) (hj := by simp)).mp (by
        rw [List.getElem_map, List.getElem_map]
        exact h1.trans hd.symm)
      exact Fin.ext e1
    · intro u u' hf _
      change (m.derived[e.val]).2.eval u = (m.derived[e.val]).2.eval u'
      rw [h4, h4]
      funext i
      unfold productValue
      congr 1
      apply List.map_congr_left
      intro f hf'
      rw [hf f.name (h2 f hf').1]
  have hFO : FieldsOnly (M.drawn d η) := by
    intro e st st' hst
    by_cases hed : e = d
    · subst hed
      simp [Model.drawn]
    · simp only [Model.drawn, Function.update_of_ne hed]
      refine hreads e hed _ _ ?_ ?_
      · intro x hx
        rw [← hg.fields] at hx
        obtain ⟨j, hj, rfl⟩ := List.getElem_of_mem hx
        exact (brick_field hN hg ⟨j, hj⟩ c st).trans
          ((congrFun hst ⟨j, hj⟩).trans (brick_field hN hg ⟨j, hj⟩ c st').symm)
      · intro x hx
        rw [brick_scalar hN hg hx, brick_scalar hN hg hx]
  have hstep := c22_euler h (M.drawn d η) hFO i (drawn_reads M d η i (c97_first M i hi0)) s hfil st k
  dsimp only at hstep
  set before : Store m.fields.length m.derived.length dims.prod :=
    ⟨fun j => fft dims (st.fields j), fun e => fft dims ((M.drawn d η).calcs e st)⟩ with hbefore
  obtain ⟨hb1, hb2⟩ := brick_congr hN hg hu hus
  have hnoise : m.derived[d] = (g, .function fun b => b g) := by
    have hqm : ((g, .function fun b => b g) : Str × Calc dims.prod) ∈ m.derived := by rw [hl, hder]; simp
    exact (List.inj_on_of_nodup_map hg.keys hqm (List.getElem_mem d.2) hd.symm).symm
  have hcalc : ∀ e : Fin m.derived.length, (M.drawn d η).calcs e st = (m.derived[e]).2.eval u := by
    intro e
    by_cases hed : e = d
    · subst hed
      rw [hnoise]
      simp only [Model.drawn, Function.update_self]
      exact hug.symm
    · simp only [Model.drawn, Function.update_of_ne hed]
      exact hreads e hed _ _ hb1 hb2
  have htr : Transformed N m (fft dims) u (m.brick c before) := by
    refine ⟨?_, ?_, ?_, ?_⟩
    · intro x hx
      rw [← hg.fields] at hx
      obtain ⟨j, hj, rfl⟩ := List.getElem_of_mem hx
      exact (brick_field hN hg ⟨j, hj⟩ c before).trans (congrArg (fft dims) (hu ⟨j, hj⟩).symm)
    · intro x hx
      rw [brick_scalar hN hg hx, hus x hx]
    · intro p hp
      obtain ⟨e, he, rfl⟩ := List.getElem_of_mem hp
      exact (brick_derived hN hg ⟨e, he⟩ c before).trans (congrArg (fft dims) (hcalc ⟨e, he⟩))
    · intro p hp hpf
      rw [hlin.functions] at hpf
      have hpg : p.1 = g := by simpa using hpf
      have : p = m.derived[d] := List.inj_on_of_nodup_map hg.keys hp (List.getElem_mem d.2) (hpg.trans hd.symm)
      rw [this, hnoise]
      rfl
  have hlt : i.val < [eq].length := by simp [hi0]
  obtain ⟨hsum, hden⟩ := (List.forall₂_iff_get.mp hall).2 i.val hlt (i.2.trans_le hRlen) (fft dims) u _ htr s.freq
    (s.currentStep * s.dt) k
  have hgete : [eq].get ⟨i.val, hlt⟩ = eq := by simp
  rw [hgete] at hsum hden
  have hR : (M.drawn d η).getRHS i before s.freq (s.currentStep * s.dt) k =
      ((Rs[i.val]'(i.2.trans_le hRlen)).terms.map fun f => f (m.brick c before) s.freq (s.currentStep * s.dt) k).sum := by
    rw [c21_rhs]
    simp [hM, Model.drawn, Function.comp_def]
  have hD : (M.drawn d η).getDenum i before s.freq (s.currentStep * s.dt) k =
      ((Rs[i.val]'(i.2.trans_le hRlen)).denum.map fun f => f (m.brick c before) s.freq (s.currentStep * s.dt) k).sum := by
    rw [c21_denum]
    simp [hM, Model.drawn, Function.comp_def]
  rw [implicit_eq N c u hus] at hden
  simp only [List.get_eq_getElem] at hden hsum
  rw [hden] at hsum hD
  rw [hstep, hR, hD]
  have hrhs : ((Rs[i.val]'(i.2.trans_le hRlen)).terms.map fun f =>
      f (m.brick c before) s.freq (s.currentStep * s.dt) k).sum = noiseRate N c s.freq eq k * fft dims η k := by
    have e := spectrum_split hlin hq.1 (fft dims) c u hus s.freq k
    rw [hug] at e
    have e2 := hsum.trans e
    rw [add_comm] at e2
    exact add_left_cancel e2
  rw [hrhs]
  ring

/-! ### Many steps -/

/-- What one step multiplies the wave `k` of the field by. -/
noncomputable def keepFactor (N : Names) (c : Str → ℂ) (freq : Frequency n) (dt : ℝ) (eq : Equation) (k : Fin n) : ℂ :=
  1 / (1 - dt * implicitRate N c freq eq k)

/-- What one step multiplies the wave `k` of the noise by. -/
noncomputable def gainFactor (N : Names) (c : Str → ℂ) (freq : Frequency n) (dt : ℝ) (eq : Equation) (k : Fin n) : ℂ :=
  dt * noiseRate N c freq eq k / (1 - dt * implicitRate N c freq eq k)

theorem noisy_solution (M : Model nf nd dims.prod) (d : Fin nd) (i : Fin nf) (k : Fin dims.prod) (A B : ℂ)
    (s : Stepper dims.prod) (η : ℕ → Data dims.prod)
    (hstep : ∀ s' : Stepper dims.prod, s'.dt = s.dt → s'.freq = s.freq → s'.filter = s.filter → ∀ w st,
      fft dims ((eulerStep (M.drawn d w) (s', st)).2.fields i) k = A * fft dims (st.fields i) k + B * fft dims w k)
    (st : Store nf nd dims.prod) (steps : ℕ) :
    ((noisyPropagate M d η steps (s, st)).1.dt = s.dt ∧ (noisyPropagate M d η steps (s, st)).1.freq = s.freq ∧
      (noisyPropagate M d η steps (s, st)).1.filter = s.filter) ∧
    fft dims ((noisyPropagate M d η steps (s, st)).2.fields i) k =
      A ^ steps * fft dims (st.fields i) k + ∑ j ∈ Finset.range steps, B * A ^ (steps - 1 - j) * fft dims (η j) k := by
  induction steps with
  | zero => simp [noisyPropagate]
  | succ N ih =>
    have e : noisyPropagate M d η (N + 1) (s, st) =
        eulerStep (M.drawn d (η N)) (noisyPropagate M d η N (s, st)) := by
      simp [noisyPropagate, List.range_succ]
    rw [e]
    generalize noisyPropagate M d η N (s, st) = p at ih
    obtain ⟨p1, p2⟩ := p
    obtain ⟨⟨a, b, c⟩, hd⟩ := ih
    dsimp only at a b c hd
    refine ⟨⟨a, b, c⟩, ?_⟩
    rw [hstep p1 a b c, hd, Finset.sum_range_succ]
    have : ∑ j ∈ Finset.range N, B * A ^ (N + 1 - 1 - j) * fft dims (η j) k =
        A * ∑ j ∈ Finset.range N, B * A ^ (N - 1 - j) * fft dims (η j) k := by
      rw [Finset.mul_sum]
      apply Finset.sum_congr rfl
      intro j hj
      have hj := Finset.mem_range.mp hj
      have e : N + 1 - 1 - j = (N - 1 - j) + 1 := by omega
      rw [e, pow_succ]
      ring
    rw [this]
    have e0 : N + 1 - 1 - N = 0 := by omega
    rw [e0]
    ring

/-- C127: a simulation of a linear equation with noise: the wave `k` after some steps is what is left of the initial
wave plus what is left of the noise of all steps so far. -/
theorem c127_solution (h : ∀ d ∈ dims, 0 < d) (N : Names) (hN : N.WellNamed) (f g : Str) (m0 : EqModel dims.prod)
    (h0 : StartsAs N m0) (heq : m0.equations = []) (hder : m0.derived = [(g, .function fun b => b g)])
    (eq : Equation) (hlin : NoisyLinear N f g eq) (hq : eq.Polynomial N ∧ Unregistered m0 eq)
    (s0 : Str) (hs : s0.filter (fun c => c ≠ ' ') = eq.text) (c : Str → ℂ) :
    ∃ m M, m0.addEquation s0 = some m ∧ m.fields = [f] ∧ m.assemble c = some M ∧
      ∀ d : Fin m.derived.length, (m.derived[d]).1 = g → ∀ (s : Stepper dims.prod), s.filter = none →
      ∀ k, 1 - s.dt * implicitRate N c s.freq eq k ≠ 0 →
      ∀ (η : ℕ → Data dims.prod) (st : Store m.fields.length m.derived.length dims.prod) (i : Fin m.fields.length)
        (steps : ℕ),
        fft dims ((noisyPropagate M d η steps (s, st)).2.fields i) k =
          keepFactor N c s.freq s.dt eq k ^ steps * fft dims (st.fields i) k +
          ∑ j ∈ Finset.range steps, gainFactor N c s.freq s.dt eq k * keepFactor N c s.freq s.dt eq k ^ (steps - 1 - j) *
            fft dims (η j) k := by
  obtain ⟨m, M, h1, h2, h3, h4⟩ := noise_step h N hN f g m0 h0 heq hder eq hlin hq s0 hs c
  refine ⟨m, M, h1, h2, h3, ?_⟩
  intro d hd s hfil k hne η st i steps
  refine (noisy_solution M d i k _ _ s η ?_ st steps).2
  intro s' e1 e2 e3 w st
  rw [h4 d hd s' (e3.trans hfil) w st i k (by rw [e1, e2]; exact hne), e1, e2]
  unfold keepFactor gainFactor
  field_simp

/-! ### Statistics -/

section
open MeasureTheory ProbabilityTheory

variable {Ω : Type} [MeasurableSpace Ω] {P : Measure Ω} [IsProbabilityMeasure P] {ι : Type}

/-- Independent standard normal numbers, as `rand.NormFloat64` promises. -/
structure NormalDraws (P : Measure Ω) (ξ : ι → Ω → ℝ) : Prop where
  law : ∀ a, HasLaw (ξ a) (gaussianReal 0 1) P
  indep : iIndepFun ξ P

omit [IsProbabilityMeasure P] in
theorem draws_memLp {ξ : ι → Ω → ℝ} (hξ : NormalDraws P ξ) (a : ι) : MemLp (ξ a) 2 P := by
  have h := memLp_id_gaussianReal (μ := 0) (v := 1) 2
  rw [← (hξ.law a).map_eq] at h
  exact (memLp_map_measure_iff h.1 (hξ.law a).aemeasurable).mp h

omit [IsProbabilityMeasure P] in
theorem draws_mean {ξ : ι → Ω → ℝ} (hξ : NormalDraws P ξ) (a : ι) : ∫ ω, ξ a ω ∂P = 0 := by
  rw [(hξ.law a).integral_eq, integral_id_gaussianReal]

theorem draws_square {ξ : ι → Ω → ℝ} (hξ : NormalDraws P ξ) (a : ι) : ∫ ω, ξ a ω * ξ a ω ∂P = 1 := by
  have h1 := (hξ.law a).variance_eq
  rw [variance_id_gaussianReal, variance_eq_sub (draws_memLp hξ a), draws_mean hξ] at h1
  simpa [sq] using h1

theorem draws_product {ξ : ι → Ω → ℝ} (hξ : NormalDraws P ξ) [DecidableEq ι] (a b : ι) :
    ∫ ω, ξ a ω * ξ b ω ∂P = if a = b then 1 else 0 := by
  split_ifs with hab
  · subst hab
    exact draws_square hξ a
  · rw [(hξ.indep.indepFun hab).integral_fun_mul_eq_mul_integral (draws_memLp hξ a).1 (draws_memLp hξ b).1,
      draws_mean hξ, zero_mul]

theorem draws_combination {ξ : ι → Ω → ℝ} (hξ : NormalDraws P ξ) (T : Finset ι) (w : ι → ℂ) :
    ∫ ω, ∑ a ∈ T, w a * (ξ a ω : ℂ) ∂P = 0 ∧ ∫ ω, ‖∑ a ∈ T, w a * (ξ a ω : ℂ)‖ ^ 2 ∂P = ∑ a ∈ T, ‖w a‖ ^ 2 := by
  classical
  have hint : ∀ a, Integrable (fun ω => (ξ a ω : ℂ)) P := fun a => ((draws_memLp hξ a).integrable (by norm_num)).ofReal
  have hprod : ∀ a b, Integrable (fun ω => ξ a ω * ξ b ω) P := fun a b =>
    (draws_memLp hξ a).integrable_mul (draws_memLp hξ b)
  constructor
  · rw [integral_finsetSum _ fun a _ => (hint a).const_mul _]
    apply Finset.sum_eq_zero
    intro a _
    rw [integral_const_mul, integral_complex_ofReal, draws_mean hξ]
    simp
  · have e : ∀ ω, ‖∑ a ∈ T, w a * (ξ a ω : ℂ)‖ ^ 2 =
        ∑ a ∈ T, ∑ b ∈ T, (w a * (starRingEnd ℂ) (w b)).re * (ξ a ω * ξ b ω) := by
      intro ω
      have e1 : ((‖∑ a ∈ T, w a * (ξ a ω : ℂ)‖ ^ 2 : ℝ) : ℂ) =
          ∑ a ∈ T, ∑ b ∈ T, (w a * (starRingEnd ℂ) (w b)) * ((ξ a ω * ξ b ω : ℝ) : ℂ) := by
        rw [← Complex.normSq_eq_norm_sq, ← Complex.mul_conj, map_sum, Finset.sum_mul_sum]
        apply Finset.sum_congr rfl
        intro a _
        apply Finset.sum_congr rfl
        intro b _
        rw [map_mul, Complex.conj_ofReal]
        push_cast
        ring
      have e2 := congrArg Complex.re e1
      rw [Complex.ofReal_re, Complex.re_sum] at e2
      rw [e2]
      apply Finset.sum_congr rfl
      intro a _
      rw [Complex.re_sum]
      apply Finset.sum_congr rfl
      intro b _
      rw [Complex.re_mul_ofReal]
    simp only [e]
    rw [integral_finsetSum _ fun a _ => integrable_finsetSum _ fun b _ => (hprod a b).const_mul _]
    apply Finset.sum_congr rfl
    intro a ha
    rw [integral_finsetSum _ fun b _ => (hprod a b).const_mul _]
    simp only [integral_const_mul, draws_product hξ]
    rw [Finset.sum_eq_single_of_mem a ha]
    · rw [if_pos rfl, mul_one, Complex.mul_conj, Complex.ofReal_re, Complex.normSq_eq_norm_sq]
    · intro b _ hb
      rw [if_neg hb.symm, mul_zero]

/-- The noise of all steps: the step `j` gives the node `x` the number `WhiteNoise.Generate` makes of the draw
`(j, x)`. -/
noncomputable def noiseOf (strength : ℝ) (ξ : ℕ × Fin n → Ω → ℝ) (ω : Ω) (j : ℕ) : Data n :=
  fun x => whiteNoise strength (ξ (j, x) ω)

theorem noise_weights (S : ℝ) (ξ : ℕ × Fin dims.prod → Ω → ℝ) (ω : Ω) (A B : ℂ) (k : Fin dims.prod) (steps : ℕ) :
    ∑ j ∈ Finset.range steps, B * A ^ (steps - 1 - j) * fft dims (noiseOf S ξ ω j) k =
      ∑ a ∈ Finset.range steps ×ˢ (Finset.univ : Finset (Fin dims.prod)),
        (B * A ^ (steps - 1 - a.1) * (Real.sqrt (2 * S) : ℂ) * cis (-phase dims k a.2)) * (ξ a ω : ℂ) := by
  rw [Finset.sum_product]
  apply Finset.sum_congr rfl
  intro j _
  unfold fft
  rw [Finset.mul_sum]
  apply Finset.sum_congr rfl
  intro x _
  unfold noiseOf whiteNoise
  rw [Complex.ofReal_mul]
  ring

theorem weights_square {S : ℝ} (hS : 0 ≤ S) (A B : ℂ) (k : Fin dims.prod) (steps : ℕ) :
    ∑ a ∈ Finset.range steps ×ˢ (Finset.univ : Finset (Fin dims.prod)),
        ‖B * A ^ (steps - 1 - a.1) * (Real.sqrt (2 * S) : ℂ) * cis (-phase dims k a.2)‖ ^ 2 =
      2 * S * (dims.prod : ℕ) * ‖B‖ ^ 2 * ∑ j ∈ Finset.range steps, (‖A‖ ^ 2) ^ j := by
  rw [Finset.sum_product]
  have e : ∀ j ∈ Finset.range steps, ∑ x : Fin dims.prod,
      ‖B * A ^ (steps - 1 - j) * (Real.sqrt (2 * S) : ℂ) * cis (-phase dims k x)‖ ^ 2 =
      2 * S * (dims.prod : ℕ) * ‖B‖ ^ 2 * (‖A‖ ^ 2) ^ (steps - 1 - j) := by
    intro j _
    have e1 : ∀ x : Fin dims.prod, ‖B * A ^ (steps - 1 - j) * (Real.sqrt (2 * S) : ℂ) * cis (-phase dims k x)‖ ^ 2 =
        2 * S * ‖B‖ ^ 2 * (‖A‖ ^ 2) ^ (steps - 1 - j) := by
      intro x
      rw [norm_mul, norm_mul, norm_mul, cis_norm, norm_pow, Complex.norm_real, Real.norm_eq_abs, mul_one, mul_pow, mul_pow,
        sq_abs, Real.sq_sqrt (by linarith), ← pow_mul, ← pow_mul, mul_comm _ 2]
      ring
    rw [Finset.sum_congr rfl fun x _ => e1 x, Finset.sum_const, Finset.card_univ, Fintype.card_fin, nsmul_eq_mul]
    ring
  rw [Finset.sum_congr rfl e, ← Finset.mul_sum, Finset.sum_range_reflect (fun j => (‖A‖ ^ 2) ^ j)]

/-- C127: the mean and the fluctuations of every wave, after any number of steps. -/
theorem c127_fluctuations (h : ∀ d ∈ dims, 0 < d) (N : Names) (hN : N.WellNamed) (f g : Str) (m0 : EqModel dims.prod)
    (h0 : StartsAs N m0) (heq : m0.equations = []) (hder : m0.derived = [(g, .function fun b => b g)])
    (eq : Equation) (hlin : NoisyLinear N f g eq) (hq : eq.Polynomial N ∧ Unregistered m0 eq)
    (s0 : Str) (hs : s0.filter (fun c => c ≠ ' ') = eq.text) (c : Str → ℂ) :
    ∃ m M, m0.addEquation s0 = some m ∧ m.fields = [f] ∧ m.assemble c = some M ∧
      ∀ d : Fin m.derived.length, (m.derived[d]).1 = g → ∀ (s : Stepper dims.prod), s.filter = none →
      ∀ k, 1 - s.dt * implicitRate N c s.freq eq k ≠ 0 → ∀ S : ℝ, 0 ≤ S →
      ∀ ξ : ℕ × Fin dims.prod → Ω → ℝ, NormalDraws P ξ →
      ∀ (st : Store m.fields.length m.derived.length dims.prod) (i : Fin m.fields.length) (steps : ℕ),
        ∫ ω, fft dims ((noisyPropagate M d (noiseOf S ξ ω) steps (s, st)).2.fields i) k ∂P =
          keepFactor N c s.freq s.dt eq k ^ steps * fft dims (st.fields i) k ∧
        ∫ ω, ‖fft dims ((noisyPropagate M d (noiseOf S ξ ω) steps (s, st)).2.fields i) k -
            keepFactor N c s.freq s.dt eq k ^ steps * fft dims (st.fields i) k‖ ^ 2 ∂P =
          2 * S * (dims.prod : ℕ) * ‖gainFactor N c s.freq s.dt eq k‖ ^ 2 *
            ∑ j ∈ Finset.range steps, (‖keepFactor N c s.freq s.dt eq k‖ ^ 2) ^ j := by
  obtain ⟨m, M, h1, h2, h3, h4⟩ := c127_solution h N hN f g m0 h0 heq hder eq hlin hq s0 hs c
  refine ⟨m, M, h1, h2, h3, ?_⟩
  intro d hd s hfil k hne S hS ξ hξ st i steps
  obtain ⟨e1, e2⟩ := draws_combination hξ (Finset.range steps ×ˢ Finset.univ) fun a =>
    gainFactor N c s.freq s.dt eq k * keepFactor N c s.freq s.dt eq k ^ (steps - 1 - a.1) * (Real.sqrt (2 * S) : ℂ) *
      cis (-phase dims k a.2)
  have hsol : ∀ ω, fft dims ((noisyPropagate M d (noiseOf S ξ ω) steps (s, st)).2.fields i) k = _ := fun ω =>
    (h4 d hd s hfil k hne (noiseOf S ξ ω) st i steps).trans (by rw [noise_weights])
  have hdiff : ∀ ω, fft dims ((noisyPropagate M d (noiseOf S ξ ω) steps (s, st)).2.fields i) k -
      keepFactor N c s.freq s.dt eq k ^ steps * fft dims (st.fields i) k = _ := fun ω => by
    rw [hsol ω, add_sub_cancel_left]
  simp only [hdiff]
  simp only [hsol]
  refine ⟨?_, e2.trans (weights_square hS _ _ k steps)⟩
  rw [integral_add (integrable_const _), e1, add_zero, integral_const]
  · simp
  · exact integrable_finsetSum _ fun a _ =>
      (((draws_memLp hξ a).integrable (by norm_num)).ofReal (𝕜 := ℂ)).const_mul _

/-! ### How the fluctuations depend on the time step -/

theorem factors_real {N : Names} {c : Str → ℂ} {freq : Frequency n} {dt a : ℝ} {eq : Equation} {k : Fin n}
    (ha : implicitRate N c freq eq k = a) (hlt : 0 < 1 - dt * a) :
    ‖keepFactor N c freq dt eq k‖ ^ 2 = 1 / (1 - dt * a) ^ 2 ∧
      ‖gainFactor N c freq dt eq k‖ ^ 2 = dt ^ 2 * ‖noiseRate N c freq eq k‖ ^ 2 / (1 - dt * a) ^ 2 := by
  have e : (1 - (dt : ℂ) * (a : ℂ)) = ((1 - dt * a : ℝ) : ℂ) := by push_cast; ring
  unfold keepFactor gainFactor
  rw [ha, e]
  constructor
  · rw [norm_div, norm_one, Complex.norm_real, Real.norm_eq_abs, div_pow, one_pow, sq_abs]
  · rw [norm_div, norm_mul, Complex.norm_real, Complex.norm_real, Real.norm_eq_abs, Real.norm_eq_abs, div_pow, mul_pow,
      sq_abs, sq_abs]

/-- The sum in the fluctuations of a wave that decays at the rate `-a`. -/
theorem fluctuation_value {dt a : ℝ} (hdt : 0 < dt) (ha : a < 0) (V : ℝ) (steps : ℕ) :
    2 * V * (dt ^ 2 / (1 - dt * a) ^ 2) * ∑ j ∈ Finset.range steps, (1 / (1 - dt * a) ^ 2) ^ j =
      dt / (1 - dt * a / 2) * (V / -a) * (1 - (1 / (1 - dt * a) ^ 2) ^ steps) := by
  have hp : dt * a < 0 := mul_neg_of_pos_of_neg hdt ha
  have h1 : 1 - dt * a ≠ 0 := by intro h; linarith
  have h2 : 1 - dt * a / 2 ≠ 0 := by intro h; linarith
  have h3 : 1 / (1 - dt * a) ^ 2 ≠ 1 := by
    intro h
    rw [div_eq_one_iff_eq (pow_ne_zero 2 h1)] at h
    nlinarith
  have h4 : 1 / (1 - dt * a) ^ 2 - 1 ≠ 0 := sub_ne_zero.mpr h3
  rw [geom_sum_eq h3]
  generalize (1 / (1 - dt * a) ^ 2) ^ steps = q
  have e : 1 / (1 - dt * a) ^ 2 - 1 = (2 * dt * a) * (1 - dt * a / 2) / (1 - dt * a) ^ 2 := by
    field_simp
    ring
  rw [e]
  have ha' : a ≠ 0 := ha.ne
  have hd' : dt ≠ 0 := hdt.ne'
  field_simp
  ring

/-- C127: the fluctuations of a wave that decays at the rate `-a` settle at `dt / (1 - dt a / 2)` times
`n S |b|² / (-a)`. The last number is what noise with the documented correlation function gives; so what the
simulation gives is proportional to the time step, to first order. -/
theorem c127_stationary (h : ∀ d ∈ dims, 0 < d) (N : Names) (hN : N.WellNamed) (f g : Str) (m0 : EqModel dims.prod)
    (h0 : StartsAs N m0) (heq : m0.equations = []) (hder : m0.derived = [(g, .function fun b => b g)])
    (eq : Equation) (hlin : NoisyLinear N f g eq) (hq : eq.Polynomial N ∧ Unregistered m0 eq)
    (s0 : Str) (hs : s0.filter (fun c => c ≠ ' ') = eq.text) (c : Str → ℂ) :
    ∃ m M, m0.addEquation s0 = some m ∧ m.fields = [f] ∧ m.assemble c = some M ∧
      ∀ d : Fin m.derived.length, (m.derived[d]).1 = g → ∀ (s : Stepper dims.prod), s.filter = none → 0 < s.dt →
      ∀ k, ∀ a : ℝ, a < 0 → implicitRate N c s.freq eq k = a → ∀ S : ℝ, 0 ≤ S →
      ∀ ξ : ℕ × Fin dims.prod → Ω → ℝ, NormalDraws P ξ →
      ∀ (st : Store m.fields.length m.derived.length dims.prod) (i : Fin m.fields.length),
        Filter.Tendsto (fun steps => ∫ ω, ‖fft dims ((noisyPropagate M d (noiseOf S ξ ω) steps (s, st)).2.fields i) k -
            ∫ ω', fft dims ((noisyPropagate M d (noiseOf S ξ ω') steps (s, st)).2.fields i) k ∂P‖ ^ 2 ∂P) Filter.atTop
          (nhds (s.dt / (1 - s.dt * a / 2) * ((dims.prod : ℕ) * S * ‖noiseRate N c s.freq eq k‖ ^ 2 / -a))) := by
  obtain ⟨m, M, h1, h2, h3, h4⟩ := c127_fluctuations (P := P) h N hN f g m0 h0 heq hder eq hlin hq s0 hs c
  refine ⟨m, M, h1, h2, h3, ?_⟩
  intro d hd s hfil hdt k a ha hr S hS ξ hξ st i
  have hp : s.dt * a < 0 := mul_neg_of_pos_of_neg hdt ha
  have hlt : 0 < 1 - s.dt * a := by linarith
  have hne : 1 - s.dt * implicitRate N c s.freq eq k ≠ 0 := by
    rw [hr]
    intro h0
    exact hlt.ne' (by exact_mod_cast h0)
  have hval : ∀ steps, ∫ ω, ‖fft dims ((noisyPropagate M d (noiseOf S ξ ω) steps (s, st)).2.fields i) k -
      ∫ ω', fft dims ((noisyPropagate M d (noiseOf S ξ ω') steps (s, st)).2.fields i) k ∂P‖ ^ 2 ∂P =
      s.dt / (1 - s.dt * a / 2) * ((dims.prod : ℕ) * S * ‖noiseRate N c s.freq eq k‖ ^ 2 / -a) *
        (1 - (1 / (1 - s.dt * a) ^ 2) ^ steps) := by
    intro steps
    obtain ⟨e1, e2⟩ := h4 d hd s hfil k hne S hS ξ hξ st i steps
    rw [e1, e2, ← fluctuation_value hdt ha, (factors_real hr hlt).1, (factors_real hr hlt).2]
    ring
  simp only [hval]
  have hq : Filter.Tendsto (fun steps : ℕ => (1 / (1 - s.dt * a) ^ 2) ^ steps) Filter.atTop (nhds 0) := by
    apply tendsto_pow_atTop_nhds_zero_of_lt_one (by positivity)
    rw [div_lt_one (by positivity)]
    nlinarith
  have := (hq.const_sub 1).const_mul
    (s.dt / (1 - s.dt * a / 2) * ((dims.prod : ℕ) * S * ‖noiseRate N c s.freq eq k‖ ^ 2 / -a))
  simpa using this

/-- C127: what remains of the noise at a given time if the time step is refined. For a wave that does not grow by
itself, the fluctuations at the time `T`, simulated in `steps` steps, vanish as the number of steps grows, although
noise with the documented correlation function does not depend on the steps. -/
theorem c127_vanishes (h : ∀ d ∈ dims, 0 < d) (N : Names) (hN : N.WellNamed) (f g : Str) (m0 : EqModel dims.prod)
    (h0 : StartsAs N m0) (heq : m0.equations = []) (hder : m0.derived = [(g, .function fun b => b g)])
    (eq : Equation) (hlin : NoisyLinear N f g eq) (hq : eq.Polynomial N ∧ Unregistered m0 eq)
    (s0 : Str) (hs : s0.filter (fun c => c ≠ ' ') = eq.text) (c : Str → ℂ) :
    ∃ m M, m0.addEquation s0 = some m ∧ m.fields = [f] ∧ m.assemble c = some M ∧
      ∀ d : Fin m.derived.length, (m.derived[d]).1 = g → ∀ (freq : Frequency dims.prod) (T : ℝ), 0 < T →
      ∀ s : ℕ → Stepper dims.prod, (∀ steps : ℕ, (s steps).dt = T / steps ∧ (s steps).filter = none ∧ (s steps).freq = freq) →
      ∀ k, ∀ a : ℝ, a ≤ 0 → implicitRate N c freq eq k = a → ∀ S : ℝ, 0 ≤ S →
      ∀ ξ : ℕ × Fin dims.prod → Ω → ℝ, NormalDraws P ξ →
      ∀ (st : Store m.fields.length m.derived.length dims.prod) (i : Fin m.fields.length),
        Filter.Tendsto (fun steps =>
          ∫ ω, ‖fft dims ((noisyPropagate M d (noiseOf S ξ ω) steps (s steps, st)).2.fields i) k -
            ∫ ω', fft dims ((noisyPropagate M d (noiseOf S ξ ω') steps (s steps, st)).2.fields i) k ∂P‖ ^ 2 ∂P)
          Filter.atTop (nhds 0) := by
  obtain ⟨m, M, h1, h2, h3, h4⟩ := c127_fluctuations (P := P) h N hN f g m0 h0 heq hder eq hlin hq s0 hs c
  refine ⟨m, M, h1, h2, h3, ?_⟩
  intro d hd freq T hT s hsn k a ha hr S hS ξ hξ st i
  have hlim : Filter.Tendsto (fun steps : ℕ => (2 * S * (dims.prod : ℕ) * ‖noiseRate N c freq eq k‖ ^ 2 * T ^ 2) / steps)
      Filter.atTop (nhds 0) := tendsto_const_div_atTop_nhds_zero_nat _
  refine squeeze_zero' (Filter.Eventually.of_forall fun steps => integral_nonneg fun ω => by positivity) ?_ hlim
  filter_upwards [Filter.eventually_ge_atTop 1] with steps hsteps
  obtain ⟨edt, efil, efreq⟩ := hsn steps
  have hpos : (0 : ℝ) < steps := by exact_mod_cast hsteps
  have hdt : 0 < (s steps).dt := by rw [edt]; positivity
  have hp : (s steps).dt * a ≤ 0 := mul_nonpos_of_nonneg_of_nonpos hdt.le ha
  have hge : 1 ≤ 1 - (s steps).dt * a := by linarith
  have hlt : 0 < 1 - (s steps).dt * a := by linarith
  have hr' : implicitRate N c (s steps).freq eq k = a := by rw [efreq]; exact hr
  have hne : 1 - (s steps).dt * implicitRate N c (s steps).freq eq k ≠ 0 := by
    rw [hr']
    intro h0
    exact hlt.ne' (by exact_mod_cast h0)
  obtain ⟨e1, e2⟩ := h4 d hd (s steps) efil k hne S hS ξ hξ st i steps
  rw [e1, e2, (factors_real hr' hlt).1, (factors_real hr' hlt).2, efreq]
  have hb : ∑ j ∈ Finset.range steps, (1 / (1 - (s steps).dt * a) ^ 2) ^ j ≤ (steps : ℝ) := by
    have : ∀ j ∈ Finset.range steps, (1 / (1 - (s steps).dt * a) ^ 2) ^ j ≤ 1 := by
      intro j _
      apply pow_le_one₀ (by positivity)
      rw [div_le_one (by positivity)]
      exact one_le_pow₀ hge
    refine (Finset.sum_le_sum this).trans ?_
    simp
  have hg : (s steps).dt ^ 2 * ‖noiseRate N c freq eq k‖ ^ 2 / (1 - (s steps).dt * a) ^ 2 ≤
      (s steps).dt ^ 2 * ‖noiseRate N c freq eq k‖ ^ 2 := by
    apply div_le_self (by positivity)
    exact one_le_pow₀ hge
  calc 2 * S * (dims.prod : ℕ) * ((s steps).dt ^ 2 * ‖noiseRate N c freq eq k‖ ^ 2 / (1 - (s steps).dt * a) ^ 2) *
        ∑ j ∈ Finset.range steps, (1 / (1 - (s steps).dt * a) ^ 2) ^ j
      ≤ 2 * S * (dims.prod : ℕ) * ((s steps).dt ^ 2 * ‖noiseRate N c freq eq k‖ ^ 2) * steps := by
        apply mul_le_mul (mul_le_mul_of_nonneg_left hg (by positivity)) hb
        · exact Finset.sum_nonneg fun j _ => by positivity
        · positivity
    _ = 2 * S * (dims.prod : ℕ) * ‖noiseRate N c freq eq k‖ ^ 2 * T ^ 2 / steps := by
        rw [edt]
        field_simp

/-- C127: if the strength is divided by the time step, the fluctuations at the time `T` converge to those of noise with
the documented correlation function, `n S |b|² (1 - exp(2 a T)) / (-a)`, as the time step is refined. -/
theorem c127_corrected (h : ∀ d ∈ dims, 0 < d) (N : Names) (hN : N.WellNamed) (f g : Str) (m0 : EqModel dims.prod)
    (h0 : StartsAs N m0) (heq : m0.equations = []) (hder : m0.derived = [(g, .function fun b => b g)])
    (eq : Equation) (hlin : NoisyLinear N f g eq) (hq : eq.Polynomial N ∧ Unregistered m0 eq)
    (s0 : Str) (hs : s0.filter (fun c => c ≠ ' ') = eq.text) (c : Str → ℂ) :
    ∃ m M, m0.addEquation s0 = some m ∧ m.fields = [f] ∧ m.assemble c = some M ∧
      ∀ d : Fin m.derived.length, (m.derived[d]).1 = g → ∀ (freq : Frequency dims.prod) (T : ℝ), 0 < T →
      ∀ s : ℕ → Stepper dims.prod, (∀ steps : ℕ, (s steps).dt = T / steps ∧ (s steps).filter = none ∧ (s steps).freq = freq) →
      ∀ k, ∀ a : ℝ, a < 0 → implicitRate N c freq eq k = a → ∀ S : ℝ, 0 ≤ S →
      ∀ ξ : ℕ × Fin dims.prod → Ω → ℝ, NormalDraws P ξ →
      ∀ (st : Store m.fields.length m.derived.length dims.prod) (i : Fin m.fields.length),
        Filter.Tendsto (fun steps =>
          ∫ ω, ‖fft dims ((noisyPropagate M d (noiseOf (S / (s steps).dt) ξ ω) steps (s steps, st)).2.fields i) k -
            ∫ ω', fft dims ((noisyPropagate M d (noiseOf (S / (s steps).dt) ξ ω') steps (s steps, st)).2.fields i) k ∂P‖ ^ 2 ∂P)
          Filter.atTop
          (nhds ((dims.prod : ℕ) * S * ‖noiseRate N c freq eq k‖ ^ 2 / -a * (1 - Real.exp (2 * a * T)))) := by
  obtain ⟨m, M, h1, h2, h3, h4⟩ := c127_fluctuations (P := P) h N hN f g m0 h0 heq hder eq hlin hq s0 hs c
  refine ⟨m, M, h1, h2, h3, ?_⟩
  intro d hd freq T hT s hsn k a ha hr S hS ξ hξ st i
  have hval : ∀ᶠ steps : ℕ in Filter.atTop,
      1 / (1 - T * a / 2 / steps) * ((dims.prod : ℕ) * S * ‖noiseRate N c freq eq k‖ ^ 2 / -a) *
        (1 - 1 / ((1 + (-(T * a)) / steps) ^ steps) ^ 2) =
      ∫ ω, ‖fft dims ((noisyPropagate M d (noiseOf (S / (s steps).dt) ξ ω) steps (s steps, st)).2.fields i) k -
        ∫ ω', fft dims ((noisyPropagate M d (noiseOf (S / (s steps).dt) ξ ω') steps (s steps, st)).2.fields i) k ∂P‖ ^ 2 ∂P := by
    filter_upwards [Filter.eventually_ge_atTop 1] with steps hsteps
    obtain ⟨edt, efil, efreq⟩ := hsn steps
    have hpos : (0 : ℝ) < steps := by exact_mod_cast hsteps
    have hdt : 0 < (s steps).dt := by rw [edt]; positivity
    have hp : (s steps).dt * a < 0 := mul_neg_of_pos_of_neg hdt ha
    have hlt : 0 < 1 - (s steps).dt * a := by linarith
    have hr' : implicitRate N c (s steps).freq eq k = a := by rw [efreq]; exact hr
    have hne : 1 - (s steps).dt * implicitRate N c (s steps).freq eq k ≠ 0 := by
      rw [hr']
      intro h0
      exact hlt.ne' (by exact_mod_cast h0)
    obtain ⟨e1, e2⟩ := h4 d hd (s steps) efil k hne (S / (s steps).dt) (by positivity) ξ hξ st i steps
    rw [e1, e2, (factors_real hr' hlt).1, (factors_real hr' hlt).2, efreq]
    have e3 := fluctuation_value hdt ha ((dims.prod : ℕ) * (S / (s steps).dt) * ‖noiseRate N c freq eq k‖ ^ 2) steps
    have e4 : 2 * (S / (s steps).dt) * (dims.prod : ℕ) *
        ((s steps).dt ^ 2 * ‖noiseRate N c freq eq k‖ ^ 2 / (1 - (s steps).dt * a) ^ 2) =
        2 * ((dims.prod : ℕ) * (S / (s steps).dt) * ‖noiseRate N c freq eq k‖ ^ 2) *
          ((s steps).dt ^ 2 / (1 - (s steps).dt * a) ^ 2) := by ring
    rw [e4, e3]
    have e5 : 1 + (-(T * a)) / steps = 1 - (s steps).dt * a := by rw [edt]; ring
    have e6 : 1 - T * a / 2 / steps = 1 - (s steps).dt * a / 2 := by rw [edt]; ring
    have e7 : (1 / (1 - (s steps).dt * a) ^ 2) ^ steps = 1 / ((1 - (s steps).dt * a) ^ steps) ^ 2 := by
      rw [div_pow, one_pow, ← pow_mul, ← pow_mul, mul_comm 2 steps]
    rw [e5, e6, e7]
    have : (s steps).dt ≠ 0 := hdt.ne'
    field_simp
  refine Filter.Tendsto.congr' hval ?_
  have t1 : Filter.Tendsto (fun steps : ℕ => 1 / (1 - T * a / 2 / (steps : ℝ))) Filter.atTop (nhds (1 / (1 - 0))) :=
    (tendsto_const_nhds).div ((tendsto_const_div_atTop_nhds_zero_nat (T * a / 2)).const_sub 1) (by norm_num)
  have t2 : Filter.Tendsto (fun steps : ℕ => 1 - 1 / ((1 + (-(T * a)) / (steps : ℝ)) ^ steps) ^ 2) Filter.atTop
      (nhds (1 - 1 / (Real.exp (-(T * a))) ^ 2)) :=
    ((tendsto_const_nhds).div ((Real.tendsto_one_add_div_pow_exp (-(T * a))).pow 2) (by positivity)).const_sub 1
  have := (t1.mul_const ((dims.prod : ℕ) * S * ‖noiseRate N c freq eq k‖ ^ 2 / -a)).mul t2
  have e : 1 / (Real.exp (-(T * a))) ^ 2 = Real.exp (2 * a * T) := by
    rw [← Real.exp_nat_mul, one_div, ← Real.exp_neg]
    congr 1
    push_cast
    ring
  rw [e] at this
  simpa using this

/-- C127: the equation with nothing but noise, `implicitRate = 0` and `noiseRate = 1`: the field is the sum of the
noise of all steps times the time step, so different nodes are not correlated, and the mean square displacement of a
node is `2 S dt` times the time (`2 S` times the time for the documented correlation function). -/
theorem c127_walk (h : ∀ d ∈ dims, 0 < d) (N : Names) (hN : N.WellNamed) (f g : Str) (m0 : EqModel dims.prod)
    (h0 : StartsAs N m0) (heq : m0.equations = []) (hder : m0.derived = [(g, .function fun b => b g)])
    (eq : Equation) (hlin : NoisyLinear N f g eq) (hq : eq.Polynomial N ∧ Unregistered m0 eq)
    (s0 : Str) (hs : s0.filter (fun c => c ≠ ' ') = eq.text) (c : Str → ℂ) :
    ∃ m M, m0.addEquation s0 = some m ∧ m.fields = [f] ∧ m.assemble c = some M ∧
      ∀ d : Fin m.derived.length, (m.derived[d]).1 = g → ∀ (s : Stepper dims.prod), s.filter = none →
      (∀ k, implicitRate N c s.freq eq k = 0) → (∀ k, noiseRate N c s.freq eq k = 1) →
      ∀ (st : Store m.fields.length m.derived.length dims.prod) (i : Fin m.fields.length) (steps : ℕ),
        (∀ η x, (noisyPropagate M d η steps (s, st)).2.fields i x =
          st.fields i x + ∑ j ∈ Finset.range steps, s.dt * η j x) ∧
        ∀ S : ℝ, 0 ≤ S → ∀ ξ : ℕ × Fin dims.prod → Ω → ℝ, NormalDraws P ξ → ∀ x y,
          ∫ ω, (((noisyPropagate M d (noiseOf S ξ ω) steps (s, st)).2.fields i x - st.fields i x) *
            ((noisyPropagate M d (noiseOf S ξ ω) steps (s, st)).2.fields i y - st.fields i y)).re ∂P =
          if x = y then 2 * S * s.dt * (steps * s.dt) else 0 := by
  obtain ⟨m, M, h1, h2, h3, h4⟩ := c127_solution h N hN f g m0 h0 heq hder eq hlin hq s0 hs c
  refine ⟨m, M, h1, h2, h3, ?_⟩
  intro d hd s hfil hr hb st i steps
  have hpath : ∀ η x, (noisyPropagate M d η steps (s, st)).2.fields i x =
      st.fields i x + ∑ j ∈ Finset.range steps, s.dt * η j x := by
    intro η x
    have : (noisyPropagate M d η steps (s, st)).2.fields i =
        fun x => st.fields i x + ∑ j ∈ Finset.range steps, s.dt * η j x := by
      apply fft_injective h
      funext k
      rw [h4 d hd s hfil k (by rw [hr]; simp) η st i steps]
      have e1 : keepFactor N c s.freq s.dt eq k = 1 := by simp [keepFactor, hr]
      have e2 : gainFactor N c s.freq s.dt eq k = s.dt := by simp [gainFactor, hr, hb]
      rw [e1, e2]
      simp only [one_pow, one_mul, mul_one]
      unfold fft
      simp only [Finset.mul_sum, add_mul, Finset.sum_add_distrib, Finset.sum_mul]
      congr 1
      rw [Finset.sum_comm]
      apply Finset.sum_congr rfl
      intro x _
      apply Finset.sum_congr rfl
      intro j _
      ring
    rw [this]
  refine ⟨hpath, ?_⟩
  intro S hS ξ hξ x y
  have e : ∀ ω, (((noisyPropagate M d (noiseOf S ξ ω) steps (s, st)).2.fields i x - st.fields i x) *
      ((noisyPropagate M d (noiseOf S ξ ω) steps (s, st)).2.fields i y - st.fields i y)).re =
      ∑ j ∈ Finset.range steps, ∑ l ∈ Finset.range steps, (2 * S * s.dt ^ 2) * (ξ (j, x) ω * ξ (l, y) ω) := by
    intro ω
    rw [hpath, hpath, add_sub_cancel_left, add_sub_cancel_left]
    have e1 : ∀ z : Fin dims.prod, ∑ j ∈ Finset.range steps, (s.dt : ℂ) * noiseOf S ξ ω j z =
        ((∑ j ∈ Finset.range steps, s.dt * (ξ (j, z) ω * Real.sqrt (2 * S)) : ℝ) : ℂ) := by
      intro z
      rw [Complex.ofReal_sum]
      apply Finset.sum_congr rfl
      intro j _
      rw [noiseOf, whiteNoise]
      push_cast
      ring
    rw [e1, e1, ← Complex.ofReal_mul, Complex.ofReal_re, Finset.sum_mul_sum]
    apply Finset.sum_congr rfl
    intro j _
    apply Finset.sum_congr rfl
    intro l _
    have e2 : Real.sqrt (2 * S) * Real.sqrt (2 * S) = 2 * S := Real.mul_self_sqrt (by linarith)
    linear_combination (s.dt ^ 2 * ξ (j, x) ω * ξ (l, y) ω) * e2
  simp only [e]
  have hprod : ∀ a b, Integrable (fun ω => ξ a ω * ξ b ω) P := fun a b =>
    (draws_memLp hξ a).integrable_mul (draws_memLp hξ b)
  rw [integral_finsetSum _ fun j _ => integrable_finsetSum _ fun l _ => (hprod _ _).const_mul _]
  have e3 : ∀ j ∈ Finset.range steps, ∫ ω, ∑ l ∈ Finset.range steps, (2 * S * s.dt ^ 2) * (ξ (j, x) ω * ξ (l, y) ω) ∂P =
      if x = y then 2 * S * s.dt ^ 2 else 0 := by
    intro j hj
    rw [integral_finsetSum _ fun l _ => (hprod _ _).const_mul _]
    simp only [integral_const_mul, draws_product hξ, Prod.mk.injEq]
    rw [Finset.sum_eq_single_of_mem j hj]
    · split_ifs <;> simp_all
    · intro l _ hl
      rw [if_neg (fun h => hl h.1.symm), mul_zero]
  rw [Finset.sum_congr rfl e3, Finset.sum_const, Finset.card_range, nsmul_eq_mul]
  split_ifs
  · ring
  · simp

end

/-! ### A concrete equation -/

/-- A field `conc` and a function `noise`. -/
def noisyNames : Names := ⟨["conc".toList], ["noise".toList], []⟩

theorem noisy_wellNamed : noisyNames.WellNamed where
  ident := by
    have : ∀ x ∈ noisyNames.all, (∀ c ∈ x, c.isAlphanum = true ∨ c = '_') ∧ ∃ c ∈ x.head?, c.isAlpha = true := by
      decide
    intro x hx
    obtain ⟨h1, c, hc, h2⟩ := this x hx
    cases x with
    | nil => simp at hc
    | cons y x =>
      simp only [List.head?_cons, Option.mem_some_iff] at hc
      subst hc
      exact ⟨⟨y, x, rfl, h2⟩, h1⟩
  nodup := by decide
  noLap := by decide
  long := by decide
  sepLap := by decide
  sepVarying := by decide
  sepScalar := by decide

theorem noisy_term (l : Option (Option (List Char))) (hl : l = none ∨ l = some none) (x : Str)
    (hx : x = "conc".toList ∨ x = "noise".toList) : Monomial noisyNames [⟨l, some ⟨x, none⟩⟩] where
  readable :=
    { wf := by
        intro i hi
        obtain rfl := List.mem_singleton.mp hi
        refine ⟨by simp, by simp, ?_, ?_, ?_⟩
        · rcases hl with rfl | rfl <;> simp
        · intro f hf
          obtain rfl : (⟨x, none⟩ : Factor) = f := by simpa using hf
          rcases hx with rfl | rfl
          · exact List.mem_of_elem_eq_true (by rfl)
          · exact List.mem_of_elem_eq_true (by rfl)
        · intro f hf _
          obtain rfl : (⟨x, none⟩ : Factor) = f := by simpa using hf
          rcases hx with rfl | rfl
          · exact ⟨List.mem_of_elem_eq_true (by rfl), by simp, by simp⟩
          · exact ⟨List.mem_of_elem_eq_true (by rfl), by simp, by simp⟩
      oneLap := by rcases hl with rfl | rfl <;> simp [laplacians]
      lapFirst := by
        intro pre i post h hl j hj
        cases pre with
        | nil => simp at hj
        | cons p pre => simp at h
      together := ⟨[], [⟨l, some ⟨x, none⟩⟩], [], by simp, by simp, by simp,
        by rcases hx with rfl | rfl <;> simp <;> decide, by simp, by simp⟩ }
  once := by
    intro x _
    exact (List.length_filter_le _ _)
  kind := by
    rcases hx with rfl | rfl
    · left
      refine ⟨?_, ?_⟩
      · have : "conc".toList ∉ noisyNames.functions := by decide
        simpa [factorsIn] using this
      · have : "conc".toList ∈ noisyNames.fields := by decide
        simpa [factorsIn] using this
    · right
      refine ⟨"noise".toList, by decide, ?_⟩
      have : "noise".toList ∈ noisyNames.varying := by decide
      simpa [factorsIn] using this
  exactOne := by
    intro f hf _
    obtain rfl : f = ⟨x, none⟩ := by simpa using (List.mem_filter.mp hf).1
    simp [Factor.power]

/-- `dconc/dt = LAPconc + noise`. -/
def noisyEquation : Equation := ⟨"conc".toList, none, [⟨some none, some ⟨"conc".toList, none⟩⟩],
  [('+', [⟨none, some ⟨"noise".toList, none⟩⟩])]⟩

/-- The conditions of the theorems hold for `dconc/dt = LAPconc + noise`. -/
theorem noisy_conditions : noisyNames.WellNamed ∧
    StartsAs noisyNames (((EqModel.empty (n := n)).addField "conc".toList).registerNoise "noise".toList) ∧
    (((EqModel.empty (n := n)).addField "conc".toList).registerNoise "noise".toList).derived =
      [("noise".toList, .function fun b => b "noise".toList)] ∧
    NoisyLinear noisyNames "conc".toList "noise".toList noisyEquation ∧
    Equation.Polynomial noisyNames noisyEquation ∧
    Unregistered (((EqModel.empty (n := n)).addField "conc".toList).registerNoise "noise".toList) noisyEquation ∧
    "dconc/dt = LAPconc + noise".toList.filter (fun c => c ≠ ' ') = noisyEquation.text := by
  refine ⟨noisy_wellNamed, ⟨rfl, rfl, fun x => Iff.rfl⟩, rfl, ⟨rfl, rfl, ?_⟩, ⟨by decide, by simp [noisyEquation], by simp [noisyEquation], ?_⟩,
    fun _ _ => ⟨rfl, rfl⟩, by decide⟩
  · intro p hp
    simp only [noisyEquation, Equation.terms, List.map_cons, List.map_nil, List.mem_cons, List.not_mem_nil, or_false] at hp
    rcases hp with rfl | rfl
    · left
      refine ⟨by simp [occurrences, Item.name?, noisyEquation], ?_, ?_⟩
      · intro g hg hne
        have hg' : g = "conc".toList ∨ g = "noise".toList := by simpa [noisyNames, Names.varying] using hg
        rcases hg' with rfl | rfl
        · exact absurd rfl hne
        · simp [occurrences, Item.name?]
      · intro i hi f hf
        have hi' : i = ⟨some none, some ⟨"conc".toList, none⟩⟩ := by simpa using (List.mem_filter.mp hi).1
        subst hi'
        have hf' : f = ⟨"conc".toList, none⟩ := by simpa using hf.symm
        subst hf'
        rw [hilliard_power1]
        norm_num
    · right
      have : "noise".toList ∈ noisyNames.varying := by decide
      simpa [factorsIn] using this
  · intro p hp
    simp only [noisyEquation, Equation.terms, List.map_cons, List.map_nil, List.mem_cons, List.not_mem_nil, or_false] at hp
    rcases hp with rfl | rfl
    · exact noisy_term _ (Or.inr rfl) _ (Or.inl rfl)
    · exact noisy_term _ (Or.inl rfl) _ (Or.inr rfl)

/-- Its rates: every wave except the uniform one decays, and the noise acts on all of them alike. -/
theorem noisy_rates (c : Str → ℂ) (k : Fin dims.prod) :
    implicitRate noisyNames c (freqOf dims) noisyEquation k = ((-laplaceNumber dims k : ℝ) : ℂ) ∧
      noiseRate noisyNames c (freqOf dims) noisyEquation k = 1 := by
  have s1 : ∀ l, factorsIn noisyNames.scalars l = [] := by intro l; simp [factorsIn, noisyNames]
  have g1 : signOf none = 1 := by decide
  have g2 : signOf (some '+') = 1 := by decide
  have l1 : ∀ f, (laplacians [⟨some none, f⟩]).sum = 1 := by intro f; simp [laplacians, lapValue]
  have l2 : ∀ f, (laplacians [⟨none, f⟩]).sum = 0 := by intro f; simp [laplacians]
  have i1 : LinearIn noisyEquation.field noisyNames.varying [⟨some none, some ⟨"conc".toList, none⟩⟩] := by
    refine ((noisy_conditions (n := 0)).2.2.2.1.terms _ List.mem_cons_self).resolve_right ?_
    intro h
    have hm : (⟨"noise".toList, none⟩ : Factor) ∈ factorsIn noisyNames.varying noisyEquation.head := by rw [h]; simp
    have := (List.mem_filter.mp hm).1
    simp [noisyEquation] at this
  have i2 : ¬ LinearIn noisyEquation.field noisyNames.varying [⟨none, some ⟨"noise".toList, none⟩⟩] := by
    rintro ⟨h, -⟩
    simp [occurrences, Item.name?, noisyEquation] at h
  unfold implicitRate noiseRate
  rw [show noisyEquation.terms = [([⟨some none, some ⟨"conc".toList, none⟩⟩], none),
    ([⟨none, some ⟨"noise".toList, none⟩⟩], some '+')] from rfl]
  rw [List.map_cons, List.map_cons, List.map_nil, List.map_cons, List.map_cons, List.map_nil]
  rw [if_pos (by exact i1), if_neg (by exact i2), if_pos (by exact i1), if_neg (by exact i2)]
  simp only [coefficient, List.sum_cons, List.sum_nil, s1, g1, g2, l1, l2, List.map_nil, List.prod_nil, symbol_laplaceNumber]
  push_cast
  constructor <;> ring

/-- There are such random numbers. -/
example : ∃ (Ω : Type) (_ : MeasurableSpace Ω) (P : MeasureTheory.Measure Ω) (ξ : ℕ × Fin n → Ω → ℝ),
    MeasureTheory.IsProbabilityMeasure P ∧ NormalDraws P ξ := by
  obtain ⟨Ω, _, P, ξ, -, h2, h3, h4⟩ := ProbabilityTheory.exists_iid (ℕ × Fin n) (ProbabilityTheory.gaussianReal 0 1)
  exact ⟨Ω, _, P, ξ, h4, h2, h3⟩

end Gopf.Props
