import Verif.Proofs.EquationBuild

/-!
# C19: equation text means the differential equation it spells
-/

namespace Gopf.Props
open Spec Pf

variable {n : ℕ}

/-- What a term of an equation stands for in Fourier space: sign, scalars with powers, transform of the
product of the fields and functions with powers, symbol of the Laplacian with its power. -/
noncomputable def termSpectrum (N : Names) (F : Data n → Data n) (u : Str → Data n) (freq : Frequency n)
    (k : Fin n) (p : List Item × Option Char) : ℂ :=
  (signOf p.2 : ℂ) * ((factorsIn N.scalars p.1).map fun f => u f.name k ^ ((f.power : ℚ) : ℂ)).prod *
    F (productValue (factorsIn N.varying p.1) u) k * ((laplacians p.1).map fun q => laplaceSymbol (freq k) ^ q).prod

open scoped Classical in
/-- The factor in front of the field, for a term that is linear in it; 0 for other terms. -/
noncomputable def linearFactor (N : Names) (field : Str) (u : Str → Data n) (freq : Frequency n) (k : Fin n)
    (p : List Item × Option Char) : ℂ :=
  if LinearIn field N.varying p.1 then
    (signOf p.2 : ℂ) * ((factorsIn N.scalars p.1).map fun f => u f.name k ^ ((f.power : ℚ) : ℂ)).prod *
      ((laplacians p.1).map fun q => laplaceSymbol (freq k) ^ q).prod
  else 0

/-- The bricks while the right-hand sides are evaluated: fields and derived fields are transformed,
scalars are not. `u` are the values in real space; for a function it is what the function returns. -/
structure Transformed (N : Names) (m : EqModel n) (F : Data n → Data n) (u : Str → Data n) (b : Bricks n) : Prop where
  fields : ∀ x ∈ N.fields, b x = F (u x)
  scalars : ∀ x ∈ N.scalars, b x = u x
  derived : ∀ p ∈ m.derived, b p.1 = F (p.2.eval u)
  functions : ∀ p ∈ m.derived, p.1 ∈ N.functions → u p.1 = p.2.eval u

theorem productValue_single (g : Str) (u : Str → Data n) : productValue [⟨g, none⟩] u = u g := by
  funext i
  simp [productValue, Factor.power]

theorem productValue_one (g : Str) (e : Option Exponent) (he : Factor.power ⟨g, e⟩ = 1) (u : Str → Data n) :
    productValue [⟨g, e⟩] u = u g := by
  funext i
  simp [productValue, he]

/-- The canonical text determines the value. -/
theorem canonical_value {N : Names} (hN : N.WellNamed) {D : Str} {fs gs : List Factor} (hfne : fs ≠ [])
    (hgne : gs ≠ []) (hf : ∀ f ∈ fs, f.name ∈ N.varying ∧ ∀ e ∈ f.exp, e.WellFormed)
    (hg : ∀ f ∈ gs, f.name ∈ N.varying ∧ ∀ e ∈ f.exp, e.WellFormed) (h1 : CanonicalProduct D fs)
    (h2 : CanonicalProduct D gs) (u : Str → Data n) : productValue fs u = productValue gs u := by
  obtain ⟨d1, e1, v1⟩ := c18_product (n := n) N hN fs hfne hf D h1
  obtain ⟨d2, e2, v2⟩ := c18_product (n := n) N hN gs hgne hg D h2
  rw [e1] at e2
  cases e2
  rw [← v1, ← v2]

/-- The brick of a known product contains the transform of the product. -/
theorem brick_value {N : Names} (hN : N.WellNamed) {m0 m : EqModel n} (h0 : StartsAs N m0) (hg : Grown N m0 m)
    {F : Data n → Data n} {u : Str → Data n} {b : Bricks n} (hb : Transformed N m F u b) {fs : List Factor}
    (hne : fs ≠ []) (hw : ∀ f ∈ fs, f.name ∈ N.varying ∧ ∀ e ∈ f.exp, e.WellFormed) {D : Str}
    (hD : CanonicalProduct D fs) (hk : D ∈ m.allFieldNames) : b D = F (productValue fs u) := by
  have single : ∀ g ∈ N.varying, CanonicalProduct g fs → productValue fs u = u g := by
    intro g hg' hc
    rw [← productValue_single g u]
    exact canonical_value hN hne (by simp) hw (by simp [hg']) hc (canonical_single g) u
  rw [EqModel.allFieldNames, List.mem_append] at hk
  rcases hk with hk | hk
  · have hk := (hg.rep.fields D).mp hk
    rw [hb.fields D hk, single D (by simp [Names.varying, hk]) hD]
  · obtain ⟨p, hp, rfl⟩ := List.mem_map.mp hk
    rw [hb.derived p hp]
    rcases hg.derived p hp with h | ⟨gs, g1, g2, g3, g4⟩
    · have hfun : p.1 ∈ N.functions := by rw [← h0.functions]; exact List.mem_map_of_mem h
      rw [single p.1 (by simp [Names.varying, hfun]) hD, ← hb.functions p hp hfun]
    · rw [g4, canonical_value hN hne g1 hw (fun f hf => ⟨by simp [Names.varying, (g2 f hf).1], (g2 f hf).2⟩) hD g3 u]

theorem linear_known {N : Names} (hN : N.WellNamed) {m : EqModel n} (hm : Represents N m) {field : Str}
    {items : List Item} (hw : ∀ i ∈ items, i.WellFormed N) :
    LinearIn field m.allFieldNames items ↔ LinearIn field N.varying items := by
  refine and_congr Iff.rfl (and_congr ⟨?_, ?_⟩ Iff.rfl)
  · intro h g hg
    refine h g ?_
    rw [EqModel.allFieldNames, List.mem_append]
    rcases List.mem_append.mp hg with hg | hg
    · exact Or.inl ((hm.fields g).mpr hg)
    · exact Or.inr (hm.functions g hg)
  · intro h g hg hne
    rw [EqModel.allFieldNames, List.mem_append] at hg
    rcases hg with hg | hg
    · exact h g (by simp [Names.varying, (hm.fields g).mp hg]) hne
    · rcases hm.derived g hg with hg | hg
      · exact h g (by simp [Names.varying, hg]) hne
      · exact occurrences_product hN hg items hw

/-- A product that is linear in a field consists of that field. -/
theorem linear_factors {N : Names} {field : Str} (hf : field ∈ N.varying) {items : List Item}
    (h : LinearIn field N.varying items) : ∃ e, factorsIn N.varying items = [⟨field, e⟩] := by
  obtain ⟨h1, h2, -⟩ := h
  have e1 : factorsIn N.varying items = (items.filterMap Item.fac).filter fun f => decide (f.name = field) := by
    unfold factorsIn
    apply List.filter_congr
    intro f hf'
    obtain ⟨i, hi, hif⟩ := List.mem_filterMap.mp hf'
    rw [decide_eq_decide]
    constructor
    · intro hv
      by_contra hne
      have : i ∈ occurrences f.name items := by simp [occurrences, hi, Item.name?, hif]
      rw [h2 f.name hv hne] at this
      simp at this
    · intro h; rw [h]; exact hf
  rw [e1, filter_single]
  obtain ⟨i, hi⟩ := List.length_eq_one_iff.mp h1
  have himem : i ∈ occurrences field items := by rw [hi]; simp
  obtain ⟨_, hn⟩ : i ∈ items ∧ i.name? = some field := by simpa [occurrences] using himem
  obtain ⟨e, he, -⟩ := text_of_name hn
  exact ⟨e, by rw [hi]; simp [he]⟩

/-- One term: it is added to one of the two lists, and contributes what it stands for. -/
theorem buildTerm_spec {N : Names} (hN : N.WellNamed) {m0 m : EqModel n} (h0 : StartsAs N m0)
    (hg : Grown N m0 m) {field : Str} (hf : field ∈ N.fields) {p : List Item × Option Char}
    (hm : Monomial N p.1) (hu : m0.isUserDefinedTerm (removeKnownPrefixes (productText p.1)) = false)
    (hk : Known N field m p.1) (rhs : BuiltRHS n) :
    ∃ T D, buildTerm m field rhs (pairText p) = some ⟨rhs.terms ++ T, rhs.denum ++ D⟩ ∧
      ∀ (F : Data n → Data n) (u : Str → Data n) (b : Bricks n), Transformed N m F u b →
      ∀ (freq : Frequency n) (t : ℝ) (k : Fin n),
        (T.map fun f => f b freq t k).sum + (D.map fun f => f b freq t k).sum * b field k =
          termSpectrum N F u freq k p ∧
        (D.map fun f => f b freq t k).sum = linearFactor N field u freq k p := by
  have hw := hm.readable.wf
  have hfv : field ∈ N.varying := by simp [Names.varying, hf]
  obtain ⟨l1, l2, l3⟩ : m.implicitTerms.lookup (removeKnownPrefixes (productText p.1)) = none ∧
      m.explicitTerms.lookup (removeKnownPrefixes (productText p.1)) = none ∧
      m.mixedTerms.lookup (removeKnownPrefixes (productText p.1)) = none := by
    rw [hg.user.1, hg.user.2.1, hg.user.2.2]
    simpa [EqModel.isUserDefinedTerm, and_assoc] using hu
  have hscal : ∀ (F : Data n → Data n) (u : Str → Data n) (b : Bricks n), Transformed N m F u b → ∀ k : Fin n,
      ((factorsIn N.scalars p.1).map fun f => b f.name k ^ ((f.power : ℚ) : ℂ)) =
      (factorsIn N.scalars p.1).map fun f => u f.name k ^ ((f.power : ℚ) : ℂ) := by
    intro F u b hb k
    apply List.map_congr_left
    intro f hf'
    rw [hb.scalars f.name (factorsIn_wf hw f hf').1]
  have hvne : factorsIn N.varying p.1 ≠ [] := by
    rcases hm.kind with ⟨h, h'⟩ | ⟨g, _, h⟩
    · rwa [factorsIn_varying h]
    · rw [h]; simp
  obtain ⟨bl, hbl, hlin⟩ := isBilinear_spec hN hfv m.allFieldNames (fun k hk' => by
    rw [EqModel.allFieldNames, List.mem_append] at hk'
    rcases hk' with hk' | hk'
    · exact Or.inl (by simp [Names.varying, (hg.rep.fields k).mp hk'])
    · rcases hg.rep.derived k hk' with h | h
      · exact Or.inl (by simp [Names.varying, h])
      · exact Or.inr h) p.1 hw
  rw [linear_known hN hg.rep hw] at hlin
  cases bl with
  | true =>
    have hl := hlin.mp rfl
    obtain ⟨e, he⟩ := linear_factors hfv hl
    have hpow : Factor.power ⟨field, e⟩ = 1 := by
      have hmem : (⟨field, e⟩ : Factor) ∈ factorsIn N.varying p.1 := by rw [he]; simp
      have hmem' : (⟨field, e⟩ : Factor) ∈ factorsIn N.fields p.1 := by
        simp only [factorsIn, List.mem_filter, decide_eq_true_eq] at hmem ⊢
        exact ⟨hmem.1, hf⟩
      refine hm.exactOne _ hmem' ?_
      obtain ⟨i, hi, hif⟩ := List.mem_filterMap.mp (List.mem_filter.mp hmem).1
      exact hl.2.2 i (by simp [occurrences, hi, Item.name?, hif]) _ hif
    obtain ⟨c, hc, hcv⟩ := c18_factor N hN m hg.rep field hf p.1 hm.readable hl (by
      rw [he]; simpa using hpow) p.2
    refine ⟨[], [c.eval], ?_, ?_⟩
    · simp only [buildTerm, pairText, l1, l2, l3, hbl, hc]
      simp
    · intro F u b hb freq t k
      simp only [List.map_nil, List.sum_nil, List.map_cons, List.sum_cons, add_zero, zero_add, hcv]
      rw [hscal F u b hb, hb.fields field hf, termSpectrum, he, productValue_one field e hpow, linearFactor,
        if_pos hl]
      exact ⟨by ring, rfl⟩
  | false =>
    have hnl : ¬ LinearIn field N.varying p.1 := fun h => by simpa using hlin.mpr h
    obtain ⟨D, hD, hDk⟩ := hk.resolve_left hnl
    obtain ⟨c, hc, hcv⟩ := c18_meaning N hN m hg.rep p.1 (by
      intro h; rw [h] at hvne; exact hvne (by simp [factorsIn])) hm.readable D hD (Or.inr hDk) p.2
    refine ⟨[c.eval], [], ?_, ?_⟩
    · simp only [buildTerm, pairText, l1, l2, l3, hbl, hc]
      simp
    · intro F u b hb freq t k
      simp only [List.map_nil, List.sum_nil, List.map_cons, List.sum_cons, add_zero, zero_mul, hcv]
      rw [hscal F u b hb, if_neg hvne, brick_value hN h0 hg hb hvne (factorsIn_wf hw) hD hDk, termSpectrum, linearFactor,
        if_neg hnl]
      exact ⟨rfl, rfl⟩

/-- All terms of an equation. -/
theorem buildTerms_spec {N : Names} (hN : N.WellNamed) {m0 m : EqModel n} (h0 : StartsAs N m0)
    (hg : Grown N m0 m) {field : Str} (hf : field ∈ N.fields) : ∀ (L : List (List Item × Option Char)),
    (∀ p ∈ L, Monomial N p.1 ∧ m0.isUserDefinedTerm (removeKnownPrefixes (productText p.1)) = false ∧
      Known N field m p.1) → ∀ rhs : BuiltRHS n,
    ∃ T D, (L.map pairText).foldlM (buildTerm m field) rhs = some ⟨rhs.terms ++ T, rhs.denum ++ D⟩ ∧
      ∀ (F : Data n → Data n) (u : Str → Data n) (b : Bricks n), Transformed N m F u b →
      ∀ (freq : Frequency n) (t : ℝ) (k : Fin n),
        (T.map fun f => f b freq t k).sum + (D.map fun f => f b freq t k).sum * b field k =
          (L.map (termSpectrum N F u freq k)).sum ∧
        (D.map fun f => f b freq t k).sum = (L.map (linearFactor N field u freq k)).sum
  | [], _, rhs => ⟨[], [], by simp, by simp⟩
  | p :: L, h, rhs => by
    obtain ⟨h1, h2, h3⟩ := h p (by simp)
    obtain ⟨T1, D1, e1, v1⟩ := buildTerm_spec hN h0 hg hf h1 h2 h3 rhs
    obtain ⟨T2, D2, e2, v2⟩ := buildTerms_spec hN h0 hg hf L (fun q hq => h q (by simp [hq]))
      ⟨rhs.terms ++ T1, rhs.denum ++ D1⟩
    refine ⟨T1 ++ T2, D1 ++ D2, ?_, ?_⟩
    · rw [List.map_cons, List.foldlM_cons, e1]
      simpa [List.append_assoc] using e2
    · intro F u b hb freq t k
      obtain ⟨a1, a1'⟩ := v1 F u b hb freq t k
      obtain ⟨a2, a2'⟩ := v2 F u b hb freq t k
      rw [List.map_cons, List.sum_cons, ← a1, ← a2, List.map_cons, List.sum_cons, ← a1', ← a2']
      simp only [List.map_append, List.sum_append]
      exact ⟨by ring, trivial⟩

/-- C19: after the equations have been added to a model with well-named fields, functions and scalars,
the right-hand sides are built, one for each equation, and the explicit part plus the implicit part times
the field is, in every bin, the sum of what the terms of the equation stand for. The implicit part is
the sum of the factors of the terms that are linear in the field. `ss` are the texts of the equations,
possibly with blanks. -/
theorem c19_spectrum (N : Names) (hN : N.WellNamed) (m0 : EqModel n) (h0 : StartsAs N m0)
    (heq : m0.equations = []) (eqs : List Equation) (hq : ∀ eq ∈ eqs, eq.Polynomial N ∧ Unregistered m0 eq)
    (ss : List Str) (hs : ss.map (fun s => s.filter fun c => c ≠ ' ') = eqs.map Equation.text) :
    ∃ m Rs, ss.foldlM EqModel.addEquation m0 = some m ∧ m.initRHS = some Rs ∧
      List.Forall₂ (fun eq (R : BuiltRHS n) =>
        ∀ (F : Data n → Data n) (u : Str → Data n) (b : Bricks n), Transformed N m F u b →
        ∀ (freq : Frequency n) (t : ℝ) (k : Fin n),
          (R.terms.map fun f => f b freq t k).sum + (R.denum.map fun f => f b freq t k).sum * F (u eq.field) k =
            (eq.terms.map (termSpectrum N F u freq k)).sum ∧
          (R.denum.map fun f => f b freq t k).sum = (eq.terms.map (linearFactor N eq.field u freq k)).sum) eqs Rs := by
  obtain ⟨m, h1, hg, h3, -, h5⟩ := add_all hN eqs ss m0 (grown_start hN h0) hq hs
  rw [heq, List.nil_append] at h3
  suffices h : ∀ l : List Equation, (∀ eq ∈ l, eq ∈ eqs) → ∃ Rs, (l.map Equation.text).mapM (fun s => build s m) = some Rs ∧
      List.Forall₂ (fun eq (R : BuiltRHS n) =>
        ∀ (F : Data n → Data n) (u : Str → Data n) (b : Bricks n), Transformed N m F u b →
        ∀ (freq : Frequency n) (t : ℝ) (k : Fin n),
          (R.terms.map fun f => f b freq t k).sum + (R.denum.map fun f => f b freq t k).sum * F (u eq.field) k =
            (eq.terms.map (termSpectrum N F u freq k)).sum ∧
          (R.denum.map fun f => f b freq t k).sum = (eq.terms.map (linearFactor N eq.field u freq k)).sum) l Rs by
    obtain ⟨Rs, e1, e2⟩ := h eqs fun _ h => h
    exact ⟨m, Rs, h1, by rw [EqModel.initRHS, h3]; exact e1, e2⟩
  intro l
  induction l with
  | nil => exact fun _ => ⟨[], by simp, List.Forall₂.nil⟩
  | cons eq l ih =>
    intro hl
    obtain ⟨Rs, e1, e2⟩ := ih fun q hq' => hl q (by simp [hq'])
    have hmem := hl eq (by simp)
    obtain ⟨hp, hu⟩ := hq eq hmem
    obtain ⟨s1, s2, L, hL, s3⟩ := split_equation hN hp
    obtain ⟨T, D, b1, b2⟩ := buildTerms_spec hN h0 hg hp.field L (fun p hp' =>
      ⟨hp.monomials p (hL.subset hp'), (hu p (hL.subset hp')).2, h5 eq hmem p (hL.subset hp')⟩) ⟨[], []⟩
    have hb : build eq.text m = some ⟨T, D⟩ := by
      unfold build
      rw [s1]
      simp only [s2, s3]
      simpa using b1
    refine ⟨⟨T, D⟩ :: Rs, ?_, List.Forall₂.cons ?_ e2⟩
    · rw [List.map_cons, List.mapM_cons, hb, e1]
      rfl
    · intro F u b hb freq t k
      obtain ⟨c1, c2⟩ := b2 F u b hb freq t k
      rw [← hb.fields eq.field hp.field, c1, c2]
      exact ⟨(hL.map _).sum_eq, (hL.map _).sum_eq⟩

/-- The Laplacian of periodic data, defined by its symbol: `F` is the transform and `G` its inverse. -/
noncomputable def spectralLaplacian (F G : Data n → Data n) (freq : Frequency n) (x : Data n) : Data n :=
  G fun k => laplaceSymbol (freq k) * F x k

/-- The right-hand side an equation spells, in real space. `c` are the values of the scalars. -/
noncomputable def Equation.value (N : Names) (lap : Data n → Data n) (c : Str → ℂ) (u : Str → Data n) (eq : Equation) :
    Data n :=
  (eq.terms.map fun p : List Item × Option Char =>
    ((signOf p.2 : ℂ) * ((factorsIn N.scalars p.1).map fun f => c f.name ^ ((f.power : ℚ) : ℂ)).prod) •
      lap^[(laplacians p.1).sum] (productValue (factorsIn N.varying p.1) u)).sum

theorem spectralLaplacian_iterate (F G : Data n → Data n) (hG : ∀ x, F (G x) = x) (freq : Frequency n) (p : ℕ)
    (x : Data n) (k : Fin n) :
    F ((spectralLaplacian F G freq)^[p] x) k = laplaceSymbol (freq k) ^ p * F x k := by
  induction p with
  | zero => simp
  | succ p ih =>
    rw [Function.iterate_succ_apply', spectralLaplacian, hG]
    rw [ih, pow_succ]
    ring

/-- C19: the explicit part plus the implicit part times the field is the transform of the right-hand
side that the equation spells, for every linear transform `F` with an inverse `G`. -/
theorem c19_equation (N : Names) (hN : N.WellNamed) (m0 : EqModel n) (h0 : StartsAs N m0)
    (heq : m0.equations = []) (eqs : List Equation) (hq : ∀ eq ∈ eqs, eq.Polynomial N ∧ Unregistered m0 eq)
    (ss : List Str) (hs : ss.map (fun s => s.filter fun c => c ≠ ' ') = eqs.map Equation.text) :
    ∃ m Rs, ss.foldlM EqModel.addEquation m0 = some m ∧ m.initRHS = some Rs ∧
      List.Forall₂ (fun eq (R : BuiltRHS n) =>
        ∀ (F G : Data n → Data n) (_ : IsLinearMap ℂ F) (_ : ∀ x, F (G x) = x) (c : Str → ℂ) (u : Str → Data n)
          (_ : ∀ x ∈ N.scalars, u x = fun _ => c x) (b : Bricks n), Transformed N m F u b →
        ∀ (freq : Frequency n) (t : ℝ) (k : Fin n),
          (R.terms.map fun f => f b freq t k).sum + (R.denum.map fun f => f b freq t k).sum * F (u eq.field) k =
            F (Equation.value N (spectralLaplacian F G freq) c u eq) k) eqs Rs := by
  obtain ⟨m, Rs, h1, h2, h3⟩ := c19_spectrum N hN m0 h0 heq eqs hq ss hs
  refine ⟨m, Rs, h1, h2, h3.imp ?_⟩
  intro eq R h F G hF hG c u hc b hb freq t k
  rw [(h F u b hb freq t k).1, Equation.value]
  generalize eq.terms = l
  induction l with
  | nil => simp [hF.map_zero]
  | cons p l ih =>
    rw [List.map_cons, List.sum_cons, List.map_cons, List.sum_cons, hF.map_add, Pi.add_apply, ← ih, hF.map_smul,
      Pi.smul_apply, spectralLaplacian_iterate F G hG, termSpectrum, smul_eq_mul]
    have e1 : ((factorsIn N.scalars p.1).map fun f => u f.name k ^ ((f.power : ℚ) : ℂ)) =
        (factorsIn N.scalars p.1).map fun f => c f.name ^ ((f.power : ℚ) : ℂ) := by
      apply List.map_congr_left
      intro f hf
      have : f.name ∈ N.scalars := by
        simp only [factorsIn, List.mem_filter, decide_eq_true_eq] at hf; exact hf.2
      rw [hc f.name this]
    have e2 : ∀ q : List ℕ, (q.map fun i => laplaceSymbol (freq k) ^ i).prod = laplaceSymbol (freq k) ^ q.sum := by
      intro q
      induction q with
      | nil => simp
      | cons a q ih => rw [List.map_cons, List.prod_cons, List.sum_cons, pow_add, ih]
    rw [e1, e2]
    ring

/-! ### The conditions are met -/

/-- A model with the names `demoNames`, made by the functions of the interface. -/
noncomputable def demoStart : EqModel 4 :=
  ((((EqModel.empty.addField "conc".toList).addField "eta".toList).registerFunction "FUNC".toList
    fun b i => b "conc".toList i + 1).addScalar "gamma".toList).addScalar "m1".toList

/-- `dconc/dt=gamma*LAPconc^3*eta-conc`. -/
def demoEquation : Equation := ⟨"conc".toList, none, demoTermItems, [('-', [⟨none, some ⟨"conc".toList, none⟩⟩])]⟩

theorem demo_starts : StartsAs demoNames demoStart := ⟨rfl, rfl, by
  intro x
  show x ∈ demoStart.brickNames ↔ x ∈ demoNames.all
  exact Iff.rfl⟩

theorem demo_monomial : Monomial demoNames demoTermItems where
  readable := demoTerm_readable
  once := by decide
  kind := Or.inl (by decide)
  exactOne := by
    have : factorsIn demoNames.fields demoTermItems =
      [⟨"conc".toList, some ⟨['3'], none⟩⟩, ⟨"eta".toList, none⟩] := by decide
    rw [this]
    intro f hf h
    simp only [List.mem_cons, List.not_mem_nil, or_false] at hf
    rcases hf with rfl | rfl
    · exfalso
      have e : Factor.power ⟨"conc".toList, some ⟨['3'], none⟩⟩ = 3 := by
        simp [Factor.power, Exponent.value, fracValue]; decide
      rw [e] at h
      norm_num at h
    · rfl

theorem demo_single : Monomial demoNames [⟨none, some ⟨"conc".toList, none⟩⟩] where
  readable :=
    { wf := by
        intro i hi
        obtain rfl := List.mem_singleton.mp hi
        exact ⟨by simp, by simp, by simp, by simp; decide, by simp⟩
      oneLap := by decide
      lapFirst := by
        intro pre i post h hl j hj
        cases pre with
        | nil => simp at hj
        | cons p pre => simp at h
      together := ⟨[], [⟨none, some ⟨"conc".toList, none⟩⟩], [], by simp, by simp, by simp, by simp; decide, by simp,
        by simp⟩ }
  once := by decide
  kind := Or.inl (by decide)
  exactOne := by
    have : factorsIn demoNames.fields [⟨none, some ⟨"conc".toList, none⟩⟩] = [⟨"conc".toList, none⟩] := by decide
    rw [this]
    intro f hf _
    obtain rfl := List.mem_singleton.mp hf
    rfl

/-- The hypotheses of `c19_equation` hold for a model with an equation written with blanks. -/
example : demoNames.WellNamed ∧ StartsAs demoNames demoStart ∧ demoStart.equations = [] ∧
    demoEquation.Polynomial demoNames ∧ Unregistered demoStart demoEquation ∧
    ["dconc/dt = gamma*LAP conc^3*eta - conc".toList].map (fun s => s.filter fun c => c ≠ ' ') =
      [demoEquation].map Equation.text := by
  refine ⟨demo_wellNamed, demo_starts, rfl, ⟨by decide, by simp [demoEquation], by simp [demoEquation], ?_⟩, ?_,
    by decide⟩
  · intro p hp
    simp only [Equation.terms, demoEquation, List.map_cons, List.map_nil, List.mem_cons, List.not_mem_nil,
      or_false] at hp
    rcases hp with rfl | rfl
    · exact demo_monomial
    · exact demo_single
  · intro p _
    exact ⟨rfl, rfl⟩

/-! ### Where it fails -/

/-- C19: a constant term (scalars only) is added to every bin of the spectrum instead of the zero bin
only. -/
theorem c19_constant (N : Names) (hN : N.WellNamed) (m : EqModel n) (hm : Represents N m) (items : List Item)
    (hne : items ≠ []) (hr : Readable N items) (hv : factorsIn N.varying items = []) (hl : laplacians items = [])
    (delim : Option Char) :
    ∃ c, concreteTerm (productText items) delim m = some c ∧
      ∀ (b : Bricks n) (s : Str → ℂ), (∀ x ∈ N.scalars, b x = fun _ => s x) →
      ∀ (freq : Frequency n) (t : ℝ) (k : Fin n), c.eval b freq t k =
        (signOf delim : ℂ) * ((factorsIn N.scalars items).map fun f => s f.name ^ ((f.power : ℚ) : ℂ)).prod := by
  obtain ⟨c, hc, hcv⟩ := c18_meaning N hN m hm items hne hr [] (by rw [hv]; exact ⟨[], by simp, by simp, rfl⟩)
    (Or.inl hv) delim
  refine ⟨c, hc, ?_⟩
  intro b s hs freq t k
  rw [hcv, hv, hl]
  have e1 : ((factorsIn N.scalars items).map fun f => b f.name k ^ ((f.power : ℚ) : ℂ)) =
      (factorsIn N.scalars items).map fun f => s f.name ^ ((f.power : ℚ) : ℂ) := by
    apply List.map_congr_left
    intro f hf
    have : f.name ∈ N.scalars := by
      simp only [factorsIn, List.mem_filter, decide_eq_true_eq] at hf; exact hf.2
    rw [hs f.name this]
  rw [e1]
  simp

/-- What is read from the term `FUNC*conc` in a model with the function `FUNC`. -/
def readingFunction : Option (Str × List Str) :=
  ((((EqModel.empty (n := 1)).addField "conc".toList).registerFunction "FUNC".toList fun _ _ => 0).addEquation
    "dconc/dt=FUNC*conc".toList).bind fun m => (concreteTerm "FUNC*conc".toList none m).map fun c =>
      (c.field, c.scalars.map Prod.fst)

/-- C19: a function multiplied by a field is lost: the term is evaluated as 1. -/
theorem c19_function_times_field : readingFunction = some ([], []) := by decide +kernel

end Gopf.Props
