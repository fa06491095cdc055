import Verif.Model.Kpz
import Verif.Props.Nucleation
import Verif.Props.WhiteNoise
import Verif.Props.SquaredGradient
import Verif.Props.Diffusion

/-!
# C145: the Kardar-Parisi-Zhang example
-/

namespace Gopf.Props
open Spec Pf Pfutil
open scoped BigOperators Topology
open Filter

variable {n nf nd : ℕ} {dims : List ℕ}

/-! ### The specification -/

/-- The squared slope of a surface: the sum of the squares of the derivatives that the gradient calculator gives (C70, C71). -/
noncomputable def squaredSlope (dims : List ℕ) (u : Data dims.prod) : Data dims.prod := fun x =>
  ∑ d ∈ Finset.range dims.length, gradCalculate dims d false u x ^ 2

/-! ### A step with noise of an equation with registered terms -/

theorem noise_mixed_step (h : ∀ d ∈ dims, 0 < d) (N : Names) (hN : N.WellNamed) (f g : Str) (m0 : EqModel dims.prod)
    (h0 : StartsAs N m0) (heq : m0.equations = []) (hder : m0.derived = [(g, .function fun b => b g)])
    (hfields : N.fields = [f]) (hfunctions : N.functions = [g]) (E I : Str → BTerm dims.prod)
    (eq : MixedEquation) (hq : MixedEquation.Good N m0 E I eq)
    (s0 : Str) (hs : s0.filter (fun c => c ≠ ' ') = eq.text) (c : Str → ℂ) :
    ∃ m M, m0.addEquation s0 = some m ∧ m.fields = [f] ∧ m.assemble c = some M ∧ (∃ d : Fin m.derived.length, (m.derived[d]).1 = g) ∧
      ∀ d : Fin m.derived.length, (m.derived[d]).1 = g → ∀ (s : Stepper dims.prod), s.filter = none →
      ∀ (η : Data dims.prod) (st : Store m.fields.length m.derived.length dims.prod) (i : Fin m.fields.length),
      ∃ u : Str → Data dims.prod, u f = st.fields i ∧ u g = η ∧
      ∃ b : Bricks dims.prod, b f = fft dims (st.fields i) ∧ ∀ k : Fin dims.prod,
        1 - s.dt * (eq.terms.map (summandFactor N I eq.field u b s.freq s.getTime k)).sum ≠ 0 →
        fft dims ((eulerStep (M.drawn d η) (s, st)).2.fields i) k *
            (1 - s.dt * (eq.terms.map (summandFactor N I eq.field u b s.freq s.getTime k)).sum) =
          fft dims (st.fields i) k + s.dt * ((eq.terms.map (summandSpectrum N E I eq.field (fft dims) u b s.freq s.getTime k)).sum -
            (eq.terms.map (summandFactor N I eq.field u b s.freq s.getTime k)).sum * fft dims (st.fields i) k) := by
  have hs' : [s0].map (fun s => s.filter fun c => c ≠ ' ') = [eq].map MixedEquation.text := by simpa using hs
  have hq' : ∀ e ∈ [eq], MixedEquation.Good N m0 E I e := by
    intro e he; obtain rfl := List.mem_singleton.mp he; exact hq
  obtain ⟨m, hadd, hg, -, ⟨l, hl⟩, -⟩ := add_mixed hN [eq] [s0] m0 (grown_start hN h0) hq' hs'
  obtain ⟨m', Rs, hadd', hinit, hall⟩ := c128_spectrum N hN m0 h0 E I heq [eq] hq' [s0] hs'
  rw [hadd] at hadd'
  obtain rfl := Option.some.inj hadd'
  have hRlen : m.fields.length ≤ Rs.length := by rw [← hall.length_eq, hg.fields, hfields]; simp
  have hadd1 : m0.addEquation s0 = some m := by simpa [List.foldlM_cons, List.foldlM_nil] using hadd
  refine ⟨m, _, hadd1, hg.fields.trans hfields, by rw [EqModel.assemble, hinit]; simp only [dif_pos hRlen]; rfl, ?_, ?_⟩
  · have hmem : ((g, .function fun b => b g) : Str × Calc dims.prod) ∈ m.derived := by rw [hl, hder]; simp
    obtain ⟨e, he, hge⟩ := List.getElem_of_mem hmem
    exact ⟨⟨e, he⟩, by
      show (m.derived[e]).1 = g
      rw [hge]⟩
  intro d hd s hfil η st i
  have hlen : m.fields.length = 1 := by rw [hg.fields, hfields]; rfl
  have hi0 : i.val = 0 := by have := i.2; omega
  have hget : ∀ j : Fin m.fields.length, m.fields[j] = f := by
    intro j
    have : m.fields[j] ∈ m.fields := List.getElem_mem j.2
    generalize m.fields[j] = a at this
    rw [hg.fields, hfields] at this
    simpa using this
  have hij : ∀ j : Fin m.fields.length, j = i := fun j => Fin.ext (by have := j.2; omega)
  have hfield : eq.field = f := by
    have := hq.field
    rw [hfields] at this
    simpa using this
  have hv : N.varying = [f, g] := by rw [Names.varying, hfields, hfunctions]; rfl
  have hnd := hN.nodup
  rw [Names.all, hv, List.nodup_append] at hnd
  have hfg : f ≠ g := by have := hnd.1; simp at this; exact this
  have hfs : f ∉ N.scalars := fun hm => hnd.2.2 f (by simp) f hm rfl
  have hgs : g ∉ N.scalars := fun hm => hnd.2.2 g (by simp) g hm rfl
  let u : Str → Data dims.prod := fun x => if x = f then st.fields i else if x = g then η else fun _ => c x
  have huf : u f = st.fields i := by simp [u]
  have hug : u g = η := by simp [u, hfg.symm]
  have hus : ∀ x ∈ N.scalars, u x = fun _ => c x := by
    intro x hx
    have h1 : x ≠ f := fun e => hfs (e ▸ hx)
    have h2 : x ≠ g := fun e => hgs (e ▸ hx)
    simp [u, h1, h2]
  have hu : ∀ j : Fin m.fields.length, u m.fields[j] = st.fields j := fun j => by rw [hget, huf, hij j]
  set M : Model m.fields.length m.derived.length dims.prod :=
    { calcs := fun d st => (m.derived[d]).2.eval (m.brick c st)
      terms := fun i => (Rs[i]'(i.2.trans_le hRlen)).terms.map fun f st => f (m.brick c st)
      denum := fun i => (Rs[i]'(i.2.trans_le hRlen)).denum.map fun f st => f (m.brick c st)
      sources := fun _ => []
      modifiers := [] } with hM
  -- the derived fields other than the noise are products of fields
  have hreads : ∀ e : Fin m.derived.length, e ≠ d → ReadsFields N (m.derived[e]).2 := by
    intro e hed
    rcases hg.derived _ (List.getElem_mem e.2) with h | ⟨fs, _, h2, _, h4⟩
    · exfalso
      apply hed
      rw [hder] at h
      have h1 : (m.derived[e]).1 = g := by rw [show m.derived[e] = (g, _) from List.mem_singleton.mp h]
      have hk := hg.keys
      have e1 := (List.Nodup.getElem_inj_iff hk (i := e.val) (j := d.val) (hi := by simp) (hj := by simp)).mp (by
        rw [List.getElem_map, List.getElem_map]
        exact h1.trans hd.symm)
      exact Fin.ext e1
    · intro u u' hf _
      change (m.derived[e.val]).2.eval u = (m.derived[e.val]).2.eval u'
      rw [h4, h4]
      funext i
      unfold productValue
      congr 1
      apply List.map_congr_left
      intro f hf'
      rw [hf f.name (h2 f hf').1]
  have hFO : FieldsOnly (M.drawn d η) := by
    intro e st st' hst
    by_cases hed : e = d
    · subst hed
      simp [Model.drawn]
    · simp only [Model.drawn, Function.update_of_ne hed]
      refine hreads e hed _ _ ?_ ?_
      · intro x hx
        rw [← hg.fields] at hx
        obtain ⟨j, hj, rfl⟩ := List.getElem_of_mem hx
        exact (brick_field hN hg ⟨j, hj⟩ c st).trans
          ((congrFun hst ⟨j, hj⟩).trans (brick_field hN hg ⟨j, hj⟩ c st').symm)
      · intro x hx
        rw [brick_scalar hN hg hx, brick_scalar hN hg hx]
  set before : Store m.fields.length m.derived.length dims.prod :=
    ⟨fun j => fft dims (st.fields j), fun e => fft dims ((M.drawn d η).calcs e st)⟩ with hbefore
  obtain ⟨hb1, hb2⟩ := brick_congr hN hg hu hus
  have hnoise : m.derived[d] = (g, .function fun b => b g) := by
    have hqm : ((g, .function fun b => b g) : Str × Calc dims.prod) ∈ m.derived := by rw [hl, hder]; simp
    exact (List.inj_on_of_nodup_map hg.keys hqm (List.getElem_mem d.2) hd.symm).symm
  have hcalc : ∀ e : Fin m.derived.length, (M.drawn d η).calcs e st = (m.derived[e]).2.eval u := by
    intro e
    by_cases hed : e = d
    · subst hed
      rw [hnoise]
      simp only [Model.drawn, Function.update_self]
      exact hug.symm
    · simp only [Model.drawn, Function.update_of_ne hed]
      exact hreads e hed _ _ hb1 hb2
  have htr : Transformed N m (fft dims) u (m.brick c before) := by
    refine ⟨?_, ?_, ?_, ?_⟩
    · intro x hx
      rw [← hg.fields] at hx
      obtain ⟨j, hj, rfl⟩ := List.getElem_of_mem hx
      exact (brick_field hN hg ⟨j, hj⟩ c before).trans (congrArg (fft dims) (hu ⟨j, hj⟩).symm)
    · intro x hx
      rw [brick_scalar hN hg hx, hus x hx]
    · intro p hp
      obtain ⟨e, he, rfl⟩ := List.getElem_of_mem hp
      exact (brick_derived hN hg ⟨e, he⟩ c before).trans (congrArg (fft dims) (hcalc ⟨e, he⟩))
    · intro p hp hpf
      rw [hfunctions] at hpf
      have hpg : p.1 = g := by simpa using hpf
      have : p = m.derived[d] := List.inj_on_of_nodup_map hg.keys hp (List.getElem_mem d.2) (hpg.trans hd.symm)
      rw [this, hnoise]
      rfl
  refine ⟨u, huf, hug, m.brick c before, ?_, ?_⟩
  · have := brick_field hN hg i c before
    rw [hget] at this
    exact this
  intro k hne
  have hstep := c22_euler h (M.drawn d η) hFO i (drawn_reads M d η i (c97_first M i hi0)) s hfil st k
  dsimp only at hstep
  have hlt : i.val < [eq].length := by simp [hi0]
  obtain ⟨hsum, hden⟩ := (List.forall₂_iff_get.mp hall).2 i.val hlt (i.2.trans_le hRlen) (fft dims) u _ htr s.freq
    (s.currentStep * s.dt) k
  have hgete : [eq].get ⟨i.val, hlt⟩ = eq := by simp
  rw [hgete] at hsum hden
  have hR : (M.drawn d η).getRHS i before s.freq (s.currentStep * s.dt) k =
      ((Rs[i.val]'(i.2.trans_le hRlen)).terms.map fun f => f (m.brick c before) s.freq (s.currentStep * s.dt) k).sum := by
    rw [c21_rhs]
    simp [hM, Model.drawn, Function.comp_def]
  have hD : (M.drawn d η).getDenum i before s.freq (s.currentStep * s.dt) k =
      ((Rs[i.val]'(i.2.trans_le hRlen)).denum.map fun f => f (m.brick c before) s.freq (s.currentStep * s.dt) k).sum := by
    rw [c21_denum]
    simp [hM, Model.drawn, Function.comp_def]
  simp only [List.get_eq_getElem] at hden hsum
  rw [hfield, huf] at hsum
  rw [← hR, ← hD] at hsum
  rw [← hD] at hden
  have ht : s.getTime = s.currentStep * s.dt := rfl
  rw [ht, hfield] at hne ⊢
  rw [hfield] at hden
  rw [← hden] at hne ⊢
  rw [← hsum, hstep, div_mul_cancel₀ _ hne]
  ring

/-! ### The equation of the example -/

/-- The names of the example. -/
def kpzNames : Names := ⟨["height".toList], ["WHITE_NOISE".toList], []⟩

theorem kpz_wellNamed : kpzNames.WellNamed where
  ident := by
    have : ∀ x ∈ kpzNames.all, (∀ c ∈ x, c.isAlphanum = true ∨ c = '_') ∧ ∃ c ∈ x.head?, c.isAlpha = true := by
      decide +kernel
    intro x hx
    obtain ⟨h1, c, hc, h2⟩ := this x hx
    cases x with
    | nil => simp at hc
    | cons y x =>
      simp only [List.head?_cons, Option.mem_some_iff] at hc
      subst hc
      exact ⟨⟨y, x, rfl, h2⟩, h1⟩
  nodup := by decide +kernel
  noLap := by decide +kernel
  long := by decide +kernel
  sepLap := by decide +kernel
  sepVarying := by decide +kernel
  sepScalar := by decide +kernel

/-- `LAP height`. -/
def heightItems : List Item := [⟨some none, some ⟨"height".toList, none⟩⟩]

/-- `WHITE_NOISE`. -/
def noiseItems : List Item := [⟨none, some ⟨"WHITE_NOISE".toList, none⟩⟩]

/-- The equation of the example, spelled. -/
def kpzSpelled : MixedEquation :=
  ⟨"height".toList, none, .product heightItems, [('+', .registered [] "GRAD_SQ".toList), ('+', .product noiseItems)]⟩

theorem kpz_text : kpzEquation.filter (fun c => c ≠ ' ') = kpzSpelled.text := by
  decide +kernel

theorem kpz_term (l : Option (Option (List Char))) (hl : l = none ∨ l = some none) (x : Str)
    (hx : x = "height".toList ∨ x = "WHITE_NOISE".toList) : Monomial kpzNames [⟨l, some ⟨x, none⟩⟩] where
  readable :=
    { wf := by
        intro i hi
        obtain rfl := List.mem_singleton.mp hi
        refine ⟨by simp, by simp, ?_, ?_, ?_⟩
        · rcases hl with rfl | rfl <;> simp
        · intro f hf
          obtain rfl : (⟨x, none⟩ : Factor) = f := by simpa using hf
          rcases hx with rfl | rfl
          · exact List.mem_of_elem_eq_true (by rfl)
          · exact List.mem_of_elem_eq_true (by rfl)
        · intro f hf _
          obtain rfl : (⟨x, none⟩ : Factor) = f := by simpa using hf
          rcases hx with rfl | rfl
          · exact ⟨List.mem_of_elem_eq_true (by rfl), by simp, by simp⟩
          · exact ⟨List.mem_of_elem_eq_true (by rfl), by simp, by simp⟩
      oneLap := by rcases hl with rfl | rfl <;> simp [laplacians]
      lapFirst := by
        intro pre i post h hl j hj
        cases pre with
        | nil => simp at hj
        | cons p pre => simp at h
      together := ⟨[], [⟨l, some ⟨x, none⟩⟩], [], by simp, by simp, by simp,
        by rcases hx with rfl | rfl <;> simp <;> decide, by simp, by simp⟩ }
  once := by
    intro x _
    exact (List.length_filter_le _ _)
  kind := by
    rcases hx with rfl | rfl
    · left
      refine ⟨?_, ?_⟩
      · have : "height".toList ∉ kpzNames.functions := by decide
        simpa [factorsIn] using this
      · have : "height".toList ∈ kpzNames.fields := by decide
        simpa [factorsIn] using this
    · right
      refine ⟨"WHITE_NOISE".toList, by decide, ?_⟩
      have : "WHITE_NOISE".toList ∈ kpzNames.varying := by decide
      simpa [factorsIn] using this
  exactOne := by
    intro f hf _
    obtain rfl : f = ⟨x, none⟩ := by simpa using (List.mem_filter.mp hf).1
    simp [Factor.power]

/-- The squared gradient as the model calls it. -/
noncomputable def kpzTerm (dims : List ℕ) (lamb : ℝ) : BTerm dims.prod := fun b freq t =>
  squaredGradient dims lamb (b "height".toList) freq t

/-- The model of the example before the equation is added. -/
noncomputable def kpzPlain (dims : List ℕ) (lamb : ℝ) : EqModel dims.prod :=
  { (EqModel.empty.addField "height".toList).registerNoise "WHITE_NOISE".toList with
    explicitTerms := [("GRAD_SQ".toList, kpzTerm dims lamb)] }

theorem kpz_registered (dims : List ℕ) (lamb : ℝ) : kpzModel dims lamb = some (kpzPlain dims lamb) := by
  unfold kpzModel EqModel.registerExplicit
  rw [(c98_accepted "GRAD_SQ".toList).mpr (by decide)]
  rfl

theorem height_read : removeKnownPrefixes (productText heightItems) = "height".toList := by
  refine (read_operators "height".toList ((c98_accepted _).mpr (by decide)) (by decide) ["LAP".toList] ?_).2
  intro p hp
  obtain rfl := List.mem_singleton.mp hp
  exact List.mem_map.mpr ⟨"LAP", by decide, rfl⟩

theorem noise_read : removeKnownPrefixes (productText noiseItems) = "WHITE_NOISE".toList :=
  (read_operators "WHITE_NOISE".toList ((c98_accepted _).mpr (by decide)) (by decide) [] (by simp)).2

theorem kpz_terms : kpzSpelled.terms = [(Summand.product heightItems, none), (Summand.registered [] "GRAD_SQ".toList, some '+'),
    (Summand.product noiseItems, some '+')] := rfl

theorem kpz_good (dims : List ℕ) (lamb : ℝ) :
    MixedEquation.Good kpzNames (kpzPlain dims lamb) (fun _ => kpzTerm dims lamb) (fun _ _ _ _ _ => 0) kpzSpelled where
  field := by decide
  lead := by simp [kpzSpelled]
  signs := by simp [kpzSpelled]
  terms := by
    intro p hp
    rw [kpz_terms] at hp
    simp only [List.mem_cons, List.not_mem_nil, or_false] at hp
    rcases hp with rfl | rfl | rfl
    · refine ⟨kpz_term _ (Or.inr rfl) _ (Or.inl rfl), rfl, ?_⟩
      rw [height_read]
      rfl
    · exact ⟨⟨by simp, (c98_accepted _).mpr (by decide), by decide, ⟨by decide, by decide⟩, by decide, Or.inl rfl⟩,
        .explicit rfl rfl⟩
    · refine ⟨kpz_term _ (Or.inl rfl) _ (Or.inr rfl), rfl, ?_⟩
      rw [noise_read]
      rfl

theorem height_linear : LinearIn "height".toList kpzNames.varying heightItems := by
  refine ⟨by decide +kernel, by decide +kernel, ?_⟩
  intro i hi f hf
  have hi' : i = ⟨some none, some ⟨"height".toList, none⟩⟩ := by simpa [heightItems] using (List.mem_filter.mp hi).1
  subst hi'
  have hf' : f = ⟨"height".toList, none⟩ := by simpa using hf.symm
  subst hf'
  have p1 : Factor.power ⟨"height".toList, none⟩ = 1 := by decide +kernel
  rw [p1]
  norm_num

/-- A step of the example: diffusion is treated implicitly, the squared slope and the noise explicitly. -/
theorem kpz_model (h : ∀ d ∈ dims, 0 < d) (lamb : ℝ) (c : Str → ℂ) :
    ∃ m0 m M, kpzModel dims lamb = some m0 ∧ m0.addEquation kpzEquation = some m ∧ m.fields = ["height".toList] ∧
      m.assemble c = some M ∧ (∃ d : Fin m.derived.length, (m.derived[d]).1 = "WHITE_NOISE".toList) ∧
      ∀ d : Fin m.derived.length, (m.derived[d]).1 = "WHITE_NOISE".toList → ∀ (s : Stepper dims.prod), s.filter = none →
      s.freq = freqOf dims → 0 < s.dt →
      ∀ (η : Data dims.prod) (st : Store m.fields.length m.derived.length dims.prod) (i : Fin m.fields.length) (k : Fin dims.prod),
        fft dims ((eulerStep (M.drawn d η) (s, st)).2.fields i) k * ((1 + s.dt * laplaceNumber dims k : ℝ) : ℂ) =
          fft dims (fun x => st.fields i x + (s.dt : ℂ) * ((lamb : ℂ) * squaredSlope dims (st.fields i) x + η x)) k := by
  obtain ⟨m, M, h1, h2, h3, h4, h5⟩ := noise_mixed_step h kpzNames kpz_wellNamed "height".toList "WHITE_NOISE".toList
    (kpzPlain dims lamb) ⟨rfl, rfl, fun x => Iff.rfl⟩ rfl rfl rfl rfl (fun _ => kpzTerm dims lamb) (fun _ _ _ _ _ => 0)
    kpzSpelled (kpz_good dims lamb) kpzEquation kpz_text c
  refine ⟨_, m, M, kpz_registered dims lamb, h1, h2, h3, h4, ?_⟩
  intro d hd s hfil hfreq hdt η st i k
  obtain ⟨u, u1, u2, b, b1, e⟩ := h5 d hd s hfil η st i
  have s1 : ∀ l, factorsIn kpzNames.scalars l = [] := by intro l; simp [factorsIn, kpzNames]
  have v1 : factorsIn kpzNames.varying heightItems = [⟨"height".toList, none⟩] := by decide +kernel
  have v2 : factorsIn kpzNames.varying noiseItems = [⟨"WHITE_NOISE".toList, none⟩] := by decide +kernel
  have l1 : laplacians heightItems = [1] := by decide +kernel
  have l2 : laplacians noiseItems = [] := by decide +kernel
  have i2 : ¬ LinearIn "height".toList kpzNames.varying noiseItems := by
    rintro ⟨h, -⟩
    exact absurd h (by decide +kernel)
  have g1 : signOf none = 1 := by decide
  have g2 : signOf (some '+') = 1 := by decide
  have g3 : delimSign (some '+') = 1 := if_neg (by decide)
  have pv : ∀ x : Str, productValue [⟨x, none⟩] u = u x := by
    intro x
    funext y
    unfold productValue
    simp [Factor.power]
  have hfield : kpzSpelled.field = "height".toList := rfl
  have hfac : (kpzSpelled.terms.map (summandFactor kpzNames (fun _ _ _ _ _ => 0) kpzSpelled.field u b s.freq s.getTime k)).sum =
      laplaceSymbol (s.freq k) := by
    rw [kpz_terms, hfield]
    simp only [List.map_cons, List.map_nil, List.sum_cons, List.sum_nil, summandFactor, linearFactor, if_pos height_linear, if_neg i2,
      s1, l1, g1, List.prod_nil, mul_zero, add_zero, mul_one, List.prod_cons, pow_one]
    simp
  have hspec : (kpzSpelled.terms.map (summandSpectrum kpzNames (fun _ => kpzTerm dims lamb) (fun _ _ _ _ _ => 0) kpzSpelled.field
      (fft dims) u b s.freq s.getTime k)).sum = laplaceSymbol (s.freq k) * fft dims (st.fields i) k +
        squaredGradient dims lamb (fft dims (st.fields i)) s.freq s.getTime k + fft dims η k := by
    rw [kpz_terms, hfield]
    simp only [List.map_cons, List.map_nil, List.sum_cons, List.sum_nil, summandSpectrum, termSpectrum, s1, v1, v2, l1, l2, g1, g2, g3,
      List.prod_nil, List.prod_cons, mul_one, pow_one, pv, zero_mul, add_zero]
    rw [u1, u2]
    unfold kpzTerm
    rw [b1]
    push_cast
    ring
  have e := e k
  rw [hfac, hspec, hfreq, symbol_laplaceNumber] at e
  have hden : (1 : ℂ) - s.dt * -(laplaceNumber dims k : ℂ) = ((1 + s.dt * laplaceNumber dims k : ℝ) : ℂ) := by
    push_cast
    ring
  rw [hden] at e
  have hpos : 0 < 1 + s.dt * laplaceNumber dims k := by
    have := mul_nonneg hdt.le (laplaceNumber_nonneg k)
    linarith
  rw [e (by exact_mod_cast hpos.ne'), c102_value]
  have e1 : fft dims (fun x => st.fields i x + (s.dt : ℂ) * ((lamb : ℂ) * squaredSlope dims (st.fields i) x + η x)) k =
      fft dims (st.fields i) k + s.dt * (fft dims (fun x => (lamb : ℂ) * squaredSlope dims (st.fields i) x) k + fft dims η k) := by
    have a1 := fft_add (st.fields i) (fun x => (s.dt : ℂ) * ((lamb : ℂ) * squaredSlope dims (st.fields i) x + η x)) k
    have a2 := fft_smul (s.dt : ℂ) (fun x => (lamb : ℂ) * squaredSlope dims (st.fields i) x + η x) k
    have a3 := fft_add (fun x => (lamb : ℂ) * squaredSlope dims (st.fields i) x) η k
    rw [a1, a2, a3]
  rw [e1]
  unfold squaredSlope
  ring

end Gopf.Props
