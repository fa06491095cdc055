import Verif.Props.Growth
import Verif.Props.Energy

/-!
# C132: what coupled equations see of each other during a step
-/

namespace Gopf.Props
open Spec Pf Pfutil

variable {n : ℕ} {dims : List ℕ}

/-! ### The specification -/

/-- The fields and functions of the term are one field, written without exponent. -/
def BareField (N : Names) (p : List Item × Option Char) : Prop := ∃ f ∈ N.fields, factorsIn N.varying p.1 = [⟨f, none⟩]

open Classical in
/-- The right-hand side that the equation spells, at two sets of values: terms with one bare field are taken at `v`, all
others at `u`. -/
noncomputable def Equation.seen (N : Names) (lap : Data n → Data n) (c : Str → ℂ) (u v : Str → Data n) (eq : Equation) : Data n :=
  (eq.terms.map fun p : List Item × Option Char =>
    ((signOf p.2 : ℂ) * ((factorsIn N.scalars p.1).map fun f => c f.name ^ ((f.power : ℚ) : ℂ)).prod) •
      lap^[(laplacians p.1).sum] (productValue (factorsIn N.varying p.1) (if BareField N p then v else u))).sum

theorem seen_same (N : Names) (lap : Data n → Data n) (c : Str → ℂ) (u : Str → Data n) (eq : Equation) :
    Equation.seen N lap c u u eq = Equation.value N lap c u eq := by
  unfold Equation.seen Equation.value
  simp only [ite_self]

theorem seen_congr {N : Names} (lap : Data n → Data n) (c : Str → ℂ) (u : Str → Data n) {v w : Str → Data n}
    (hvw : ∀ f ∈ N.fields, v f = w f) (eq : Equation) : Equation.seen N lap c u v eq = Equation.seen N lap c u w eq := by
  unfold Equation.seen
  congr 1
  apply List.map_congr_left
  intro p _
  split_ifs with hb
  · obtain ⟨f, hf, e⟩ := hb
    rw [e, productValue_single, productValue_single, hvw f hf]
  · rfl

/-! ### What is built from a term -/

theorem canonical_field {N : Names} (hN : N.WellNamed) {D : Str} {fs : List Factor} (hne : fs ≠ [])
    (hw : ∀ f ∈ fs, f.name ∈ N.varying ∧ ∀ e ∈ f.exp, e.WellFormed) (hD : CanonicalProduct D fs) (hf : D ∈ N.all) :
    fs = [⟨D, none⟩] := by
  by_contra hc
  obtain ⟨ts, hts, h2, hDt⟩ := hD
  obtain ⟨gs, hgs, rfl⟩ := perm_map_exists _ _ _ hts
  refine productName_notMem hN (s := D) ⟨gs, hDt, ?_, fun f hf' => hw f (hgs.subset hf'), ?_⟩ hf
  · rintro rfl; exact hne hgs.symm.eq_nil
  · rintro x rfl
    have : D = x := by rw [hDt]; simp [Factor.text, Spec.powerText, List.intercalate]
    subst this
    exact hc (List.perm_singleton.mp hgs.symm)

/-- The bricks at the moment an equation is evaluated. -/
structure SeenBricks (N : Names) (m : EqModel n) (F : Data n → Data n) (u v : Str → Data n) (b : Bricks n) : Prop where
  fields : ∀ x ∈ N.fields, b x = F (v x)
  scalars : ∀ x ∈ N.scalars, b x = u x
  derived : ∀ p ∈ m.derived, b p.1 = F (p.2.eval u)
  functions : ∀ p ∈ m.derived, p.1 ∈ N.functions → u p.1 = p.2.eval u

open Classical in
/-- What a term contributes. -/
noncomputable def seenSpectrum (N : Names) (F : Data n → Data n) (u v : Str → Data n) (freq : Frequency n)
    (k : Fin n) (p : List Item × Option Char) : ℂ :=
  (signOf p.2 : ℂ) * ((factorsIn N.scalars p.1).map fun f => u f.name k ^ ((f.power : ℚ) : ℂ)).prod *
    F (productValue (factorsIn N.varying p.1) (if BareField N p then v else u)) k *
      ((laplacians p.1).map fun q => laplaceSymbol (freq k) ^ q).prod

theorem brick_seen {N : Names} (hN : N.WellNamed) {m0 m : EqModel n} (h0 : StartsAs N m0) (hg : Grown N m0 m)
    {F : Data n → Data n} {u v : Str → Data n} {b : Bricks n} (hb : SeenBricks N m F u v b) {p : List Item × Option Char}
    (hne : factorsIn N.varying p.1 ≠ [])
    (hw : ∀ f ∈ factorsIn N.varying p.1, f.name ∈ N.varying ∧ ∀ e ∈ f.exp, e.WellFormed) {D : Str}
    (hD : CanonicalProduct D (factorsIn N.varying p.1)) (hk : D ∈ m.allFieldNames) [Decidable (BareField N p)] :
    b D = F (productValue (factorsIn N.varying p.1) (if BareField N p then v else u)) := by
  rw [EqModel.allFieldNames, List.mem_append] at hk
  rcases hk with hk | hk
  · have hk := (hg.rep.fields D).mp hk
    have e := canonical_field hN hne hw hD (by simp [Names.all, Names.varying, hk])
    rw [if_pos ⟨D, hk, e⟩, e, productValue_single, hb.fields D hk]
  · obtain ⟨q, hq, rfl⟩ := List.mem_map.mp hk
    have hnb : ¬ BareField N p := by
      rintro ⟨f, hf, e⟩
      obtain ⟨ts, hts, -, hDt⟩ := hD
      rw [e] at hts
      have : ts = [f] := by
        have := List.perm_singleton.mp (hts.trans (by simp [Factor.text, Spec.powerText] : List.Perm _ [f]))
        exact this
      subst this
      have hq1 : q.1 = f := by rw [hDt]; simp [List.intercalate]
      exact derived_notField hN hg hq (by rw [hq1, hg.fields]; exact hf)
    rw [if_neg hnb, hb.derived q hq]
    rcases hg.derived q hq with h | ⟨gs, g1, g2, g3, g4⟩
    · have hfun : q.1 ∈ N.functions := by rw [← h0.functions]; exact List.mem_map_of_mem h
      rw [canonical_field hN hne hw hD (by simp [Names.all, Names.varying, hfun]), productValue_single, ← hb.functions q hq hfun]
    · rw [g4, canonical_value hN hne g1 hw (fun f hf => ⟨by simp [Names.varying, (g2 f hf).1], (g2 f hf).2⟩) hD g3 u]

open Classical in
/-- One term. -/
theorem buildTerm_seen {N : Names} (hN : N.WellNamed) {m0 m : EqModel n} (h0 : StartsAs N m0)
    (hg : Grown N m0 m) {field : Str} (hf : field ∈ N.fields) {p : List Item × Option Char}
    (hm : Monomial N p.1) (hu : m0.isUserDefinedTerm (removeKnownPrefixes (productText p.1)) = false)
    (hk : Known N field m p.1) (rhs : BuiltRHS n) :
    ∃ T D, buildTerm m field rhs (pairText p) = some ⟨rhs.terms ++ T, rhs.denum ++ D⟩ ∧
      ∀ (F : Data n → Data n) (u v : Str → Data n) (b : Bricks n), SeenBricks N m F u v b → v field = u field →
      ∀ (freq : Frequency n) (t : ℝ) (k : Fin n),
        (T.map fun f => f b freq t k).sum + (D.map fun f => f b freq t k).sum * b field k =
          seenSpectrum N F u v freq k p ∧
        (D.map fun f => f b freq t k).sum = linearFactor N field u freq k p := by
  have hw := hm.readable.wf
  have hfv : field ∈ N.varying := by simp [Names.varying, hf]
  obtain ⟨l1, l2, l3⟩ : m.implicitTerms.lookup (removeKnownPrefixes (productText p.1)) = none ∧
      m.explicitTerms.lookup (removeKnownPrefixes (productText p.1)) = none ∧
      m.mixedTerms.lookup (removeKnownPrefixes (productText p.1)) = none := by
    rw [hg.user.1, hg.user.2.1, hg.user.2.2]
    simpa [EqModel.isUserDefinedTerm, and_assoc] using hu
  have hscal : ∀ (F : Data n → Data n) (u v : Str → Data n) (b : Bricks n), SeenBricks N m F u v b → ∀ k : Fin n,
      ((factorsIn N.scalars p.1).map fun f => b f.name k ^ ((f.power : ℚ) : ℂ)) =
      (factorsIn N.scalars p.1).map fun f => u f.name k ^ ((f.power : ℚ) : ℂ) := by
    intro F u v b hb k
    apply List.map_congr_left
    intro f hf'
    rw [hb.scalars f.name (factorsIn_wf hw f hf').1]
  have hvne : factorsIn N.varying p.1 ≠ [] := by
    rcases hm.kind with ⟨h, h'⟩ | ⟨g, _, h⟩
    · rwa [factorsIn_varying h]
    · rw [h]; simp
  obtain ⟨bl, hbl, hlin⟩ := isBilinear_spec hN hfv m.allFieldNames (fun k hk' => by
    rw [EqModel.allFieldNames, List.mem_append] at hk'
    rcases hk' with hk' | hk'
    · exact Or.inl (by simp [Names.varying, (hg.rep.fields k).mp hk'])
    · rcases hg.rep.derived k hk' with h | h
      · exact Or.inl (by simp [Names.varying, h])
      · exact Or.inr h) p.1 hw
  rw [linear_known hN hg.rep hw] at hlin
  cases bl with
  | true =>
    have hl := hlin.mp rfl
    obtain ⟨e, he⟩ := linear_factors hfv hl
    have hpow : Factor.power ⟨field, e⟩ = 1 := by
      have hmem : (⟨field, e⟩ : Factor) ∈ factorsIn N.varying p.1 := by rw [he]; simp
      have hmem' : (⟨field, e⟩ : Factor) ∈ factorsIn N.fields p.1 := by
        simp only [factorsIn, List.mem_filter, decide_eq_true_eq] at hmem ⊢
        exact ⟨hmem.1, hf⟩
      refine hm.exactOne _ hmem' ?_
      obtain ⟨i, hi, hif⟩ := List.mem_filterMap.mp (List.mem_filter.mp hmem).1
      exact hl.2.2 i (by simp [occurrences, hi, Item.name?, hif]) _ hif
    obtain ⟨c, hc, hcv⟩ := c18_factor N hN m hg.rep field hf p.1 hm.readable hl (by
      rw [he]; simpa using hpow) p.2
    refine ⟨[], [c.eval], ?_, ?_⟩
    · simp only [buildTerm, pairText, l1, l2, l3, hbl, hc]
      simp
    · intro F u v b hb hvu freq t k
      simp only [List.map_nil, List.sum_nil, List.map_cons, List.sum_cons, add_zero, zero_add, hcv]
      have hval : productValue (factorsIn N.varying p.1) (if BareField N p then v else u) = v field := by
        rw [he, productValue_one field e hpow]
        split_ifs
        · rfl
        · exact hvu.symm
      rw [hscal F u v b hb, hb.fields field hf, seenSpectrum, hval, linearFactor, if_pos hl]
      exact ⟨by ring, rfl⟩
  | false =>
    have hnl : ¬ LinearIn field N.varying p.1 := fun h => by simpa using hlin.mpr h
    obtain ⟨D, hD, hDk⟩ := hk.resolve_left hnl
    obtain ⟨c, hc, hcv⟩ := c18_meaning N hN m hg.rep p.1 (by
      intro h; rw [h] at hvne; exact hvne (by simp [factorsIn])) hm.readable D hD (Or.inr hDk) p.2
    refine ⟨[c.eval], [], ?_, ?_⟩
    · simp only [buildTerm, pairText, l1, l2, l3, hbl, hc]
      simp
    · intro F u v b hb hvu freq t k
      simp only [List.map_nil, List.sum_nil, List.map_cons, List.sum_cons, add_zero, zero_mul, hcv]
      rw [hscal F u v b hb, if_neg hvne, brick_seen hN h0 hg hb hvne (factorsIn_wf hw) hD hDk, seenSpectrum, linearFactor,
        if_neg hnl]
      exact ⟨rfl, rfl⟩

/-- All terms of an equation. -/
theorem buildTerms_seen {N : Names} (hN : N.WellNamed) {m0 m : EqModel n} (h0 : StartsAs N m0)
    (hg : Grown N m0 m) {field : Str} (hf : field ∈ N.fields) : ∀ (L : List (List Item × Option Char)),
    (∀ p ∈ L, Monomial N p.1 ∧ m0.isUserDefinedTerm (removeKnownPrefixes (productText p.1)) = false ∧
      Known N field m p.1) → ∀ rhs : BuiltRHS n,
    ∃ T D, (L.map pairText).foldlM (buildTerm m field) rhs = some ⟨rhs.terms ++ T, rhs.denum ++ D⟩ ∧
      ∀ (F : Data n → Data n) (u v : Str → Data n) (b : Bricks n), SeenBricks N m F u v b → v field = u field →
      ∀ (freq : Frequency n) (t : ℝ) (k : Fin n),
        (T.map fun f => f b freq t k).sum + (D.map fun f => f b freq t k).sum * b field k =
          (L.map (seenSpectrum N F u v freq k)).sum ∧
        (D.map fun f => f b freq t k).sum = (L.map (linearFactor N field u freq k)).sum
  | [], _, rhs => ⟨[], [], by simp, by simp⟩
  | p :: L, h, rhs => by
    obtain ⟨h1, h2, h3⟩ := h p (by simp)
    obtain ⟨T1, D1, e1, v1⟩ := buildTerm_seen hN h0 hg hf h1 h2 h3 rhs
    obtain ⟨T2, D2, e2, v2⟩ := buildTerms_seen hN h0 hg hf L (fun q hq => h q (by simp [hq]))
      ⟨rhs.terms ++ T1, rhs.denum ++ D1⟩
    refine ⟨T1 ++ T2, D1 ++ D2, ?_, ?_⟩
    · rw [List.map_cons, List.foldlM_cons, e1]
      simpa [List.append_assoc] using e2
    · intro F u v b hb hvu freq t k
      obtain ⟨a1, a1'⟩ := v1 F u v b hb hvu freq t k
      obtain ⟨a2, a2'⟩ := v2 F u v b hb hvu freq t k
      rw [List.map_cons, List.sum_cons, ← a1, ← a2, List.map_cons, List.sum_cons, ← a1', ← a2']
      simp only [List.map_append, List.sum_append]
      exact ⟨by ring, trivial⟩

theorem initRHS_seen (N : Names) (hN : N.WellNamed) (m0 : EqModel n) (h0 : StartsAs N m0)
    (heq : m0.equations = []) (eqs : List Equation) (hq : ∀ eq ∈ eqs, eq.Polynomial N ∧ Unregistered m0 eq)
    (ss : List Str) (hs : ss.map (fun s => s.filter fun c => c ≠ ' ') = eqs.map Equation.text) :
    ∃ m Rs, ss.foldlM EqModel.addEquation m0 = some m ∧ m.initRHS = some Rs ∧
      List.Forall₂ (fun eq (R : BuiltRHS n) =>
        ∀ (F : Data n → Data n) (u v : Str → Data n) (b : Bricks n), SeenBricks N m F u v b → v eq.field = u eq.field →
        ∀ (freq : Frequency n) (t : ℝ) (k : Fin n),
          (R.terms.map fun f => f b freq t k).sum + (R.denum.map fun f => f b freq t k).sum * F (u eq.field) k =
            (eq.terms.map (seenSpectrum N F u v freq k)).sum ∧
          (R.denum.map fun f => f b freq t k).sum = (eq.terms.map (linearFactor N eq.field u freq k)).sum) eqs Rs := by
  obtain ⟨m, h1, hg, h3, -, h5⟩ := add_all hN eqs ss m0 (grown_start hN h0) hq hs
  rw [heq, List.nil_append] at h3
  suffices h : ∀ l : List Equation, (∀ eq ∈ l, eq ∈ eqs) → ∃ Rs, (l.map Equation.text).mapM (fun s => build s m) = some Rs ∧
      List.Forall₂ (fun eq (R : BuiltRHS n) =>
        ∀ (F : Data n → Data n) (u v : Str → Data n) (b : Bricks n), SeenBricks N m F u v b → v eq.field = u eq.field →
        ∀ (freq : Frequency n) (t : ℝ) (k : Fin n),
          (R.terms.map fun f => f b freq t k).sum + (R.denum.map fun f => f b freq t k).sum * F (u eq.field) k =
            (eq.terms.map (seenSpectrum N F u v freq k)).sum ∧
          (R.denum.map fun f => f b freq t k).sum = (eq.terms.map (linearFactor N eq.field u freq k)).sum) l Rs by
    obtain ⟨Rs, e1, e2⟩ := h eqs fun _ h => h
    exact ⟨m, Rs, h1, by rw [EqModel.initRHS, h3]; exact e1, e2⟩
  intro l
  induction l with
  | nil => exact fun _ => ⟨[], by simp, List.Forall₂.nil⟩
  | cons eq l ih =>
    intro hl
    obtain ⟨Rs, e1, e2⟩ := ih fun q hq' => hl q (by simp [hq'])
    have hmem := hl eq (by simp)
    obtain ⟨hp, hu⟩ := hq eq hmem
    obtain ⟨s1, s2, L, hL, s3⟩ := split_equation hN hp
    obtain ⟨T, D, b1, b2⟩ := buildTerms_seen hN h0 hg hp.field L (fun p hp' =>
      ⟨hp.monomials p (hL.subset hp'), (hu p (hL.subset hp')).2, h5 eq hmem p (hL.subset hp')⟩) ⟨[], []⟩
    have hb : build eq.text m = some ⟨T, D⟩ := by
      unfold build
      rw [s1]
      simp only [s2, s3]
      simpa using b1
    refine ⟨⟨T, D⟩ :: Rs, ?_, List.Forall₂.cons ?_ e2⟩
    · rw [List.map_cons, List.mapM_cons, hb, e1]
      rfl
    · intro F u v b hb hvu freq t k
      obtain ⟨c1, c2⟩ := b2 F u v b hb hvu freq t k
      rw [← hvu, ← hb.fields eq.field hp.field, c1, c2]
      exact ⟨(hL.map _).sum_eq, (hL.map _).sum_eq⟩

theorem fft_seen (h : ∀ d ∈ dims, 0 < d) (N : Names) (c : Str → ℂ) (u v : Str → Data dims.prod)
    (hc : ∀ x ∈ N.scalars, u x = fun _ => c x) (freq : Frequency dims.prod) (eq : Equation) (k : Fin dims.prod) :
    fft dims (Equation.seen N (spectralLaplacian (fft dims)
      (fun x => divRealScalar (ifft dims x) (dims.prod : ℕ)) freq) c u v eq) k =
      (eq.terms.map (seenSpectrum N (fft dims) u v freq k)).sum := by
  have hG : ∀ x, fft dims (divRealScalar (ifft dims x) (dims.prod : ℕ)) = x := by
    intro x
    have e : divRealScalar (ifft dims x) (dims.prod : ℕ) = fun j => ifft dims x j / (dims.prod : ℂ) := by
      funext j; simp only [divRealScalar, Complex.ofReal_natCast]
    rw [e]; exact fft_surjective h x
  unfold Equation.seen
  rw [fft_list_sum, List.map_map]
  congr 1
  apply List.map_congr_left
  intro p _
  simp only [Function.comp_apply]
  have e0 : ∀ (z : ℂ) (w : Data dims.prod), fft dims (z • w) k = z * fft dims w k := fun z w => fft_smul z w k
  rw [e0, spectralLaplacian_iterate (fft dims) _ hG, seenSpectrum]
  have e1 : ((factorsIn N.scalars p.1).map fun f => u f.name k ^ ((f.power : ℚ) : ℂ)) =
      (factorsIn N.scalars p.1).map fun f => c f.name ^ ((f.power : ℚ) : ℂ) := by
    apply List.map_congr_left
    intro f hf
    have : f.name ∈ N.scalars := by
      simp only [factorsIn, List.mem_filter, decide_eq_true_eq] at hf; exact hf.2
    rw [hc f.name this]
  rw [e1, prod_map_pow]
  ring

/-! ### One step -/

/-- C132: an Euler step advances every equation with the values before the step, except in terms that contain one bare
field: these are taken at the values after the step if the field belongs to an earlier equation. -/
theorem c132_step (h : ∀ d ∈ dims, 0 < d) (N : Names) (hN : N.WellNamed) (m0 : EqModel dims.prod)
    (h0 : StartsAs N m0) (heq : m0.equations = []) (hfun : ∀ p ∈ m0.derived, ReadsFields N p.2)
    (eqs : List Equation) (hq : ∀ eq ∈ eqs, eq.Polynomial N ∧ Unregistered m0 eq)
    (ss : List Str) (hs : ss.map (fun s => s.filter fun c => c ≠ ' ') = eqs.map Equation.text)
    (hlen : N.fields.length ≤ eqs.length) (c : Str → ℂ) :
    ∃ m M, ss.foldlM EqModel.addEquation m0 = some m ∧ m.fields = N.fields ∧ m.assemble c = some M ∧
      ∀ (i : Fin m.fields.length) (eq : Equation), eqs[i.val]? = some eq → eq.field = m.fields[i] →
      ∀ (s : Stepper dims.prod) (st : Store m.fields.length m.derived.length dims.prod) (u v : Str → Data dims.prod),
      (∀ j : Fin m.fields.length, u m.fields[j] = st.fields j) → (∀ x ∈ N.scalars, u x = fun _ => c x) →
      (∀ p ∈ m0.derived, u p.1 = p.2.eval u) →
      (∀ j : Fin m.fields.length, v m.fields[j] = if j < i then (eulerStep M (s, st)).2.fields j else st.fields j) →
      ∀ k, 1 - s.dt * (eq.terms.map (linearFactor N eq.field u s.freq k)).sum ≠ 0 →
        fft dims ((eulerStep M (s, st)).2.fields i) k * (1 - s.dt * (eq.terms.map (linearFactor N eq.field u s.freq k)).sum) =
        waveGain s.filter (s.freq k) * (fft dims (st.fields i) k * (1 - s.dt * (eq.terms.map (linearFactor N eq.field u s.freq k)).sum) +
          s.dt * fft dims (Equation.seen N (spectralLaplacian (fft dims)
          (fun x => divRealScalar (ifft dims x) (dims.prod : ℕ)) s.freq) c u v eq) k) := by
  obtain ⟨m, hadd, hg, -, ⟨l, hl, -⟩, -⟩ := add_all hN eqs ss m0 (grown_start hN h0) hq hs
  obtain ⟨m', Rs, hadd', hinit, hall⟩ := initRHS_seen N hN m0 h0 heq eqs hq ss hs
  rw [hadd] at hadd'
  obtain rfl := Option.some.inj hadd'
  have hRlen : m.fields.length ≤ Rs.length := by rw [← hall.length_eq, hg.fields]; exact hlen
  refine ⟨m, _, hadd, hg.fields, by rw [EqModel.assemble, hinit]; simp only [dif_pos hRlen]; rfl, ?_⟩
  intro i eq hi hfield s st u v hu hc hf hv k hne
  set M : Model m.fields.length m.derived.length dims.prod :=
    { calcs := fun d st => (m.derived[d]).2.eval (m.brick c st)
      terms := fun i => (Rs[i]'(i.2.trans_le hRlen)).terms.map fun f st => f (m.brick c st)
      denum := fun i => (Rs[i]'(i.2.trans_le hRlen)).denum.map fun f st => f (m.brick c st)
      sources := fun _ => []
      modifiers := [] } with hM
  have hFO : FieldsOnly M := by
    intro d st st' hst
    refine calc_reads hg hfun (List.getElem_mem d.2) _ _ ?_ ?_
    · intro x hx
      rw [← hg.fields] at hx
      obtain ⟨j, hj, rfl⟩ := List.getElem_of_mem hx
      exact (brick_field hN hg ⟨j, hj⟩ c st).trans
        ((congrFun hst ⟨j, hj⟩).trans (brick_field hN hg ⟨j, hj⟩ c st').symm)
    · intro x hx
      rw [brick_scalar hN hg hx, brick_scalar hN hg hx]
  obtain ⟨st', t1, t2, t3⟩ := eulerStep_store h M s s.getTime st i
  obtain ⟨hb1, hb2⟩ := brick_congr hN hg hu hc
  have hcalc : ∀ d : Fin m.derived.length, M.calcs d st = (m.derived[d]).2.eval u := fun d =>
    calc_reads hg hfun (List.getElem_mem d.2) _ _ hb1 hb2
  have hder : ∀ d, st'.derived d = fft dims ((m.derived[d]).2.eval u) := by
    intro d
    rw [t1]
    unfold spectral
    rw [sync_eq hFO]
    exact congrArg (fft dims) (hcalc d)
  have htr : SeenBricks N m (fft dims) u v (m.brick c st') := by
    refine ⟨?_, ?_, ?_, ?_⟩
    · intro x hx
      rw [← hg.fields] at hx
      obtain ⟨j, hj, rfl⟩ := List.getElem_of_mem hx
      refine (brick_field hN hg ⟨j, hj⟩ c st').trans ?_
      have e := hv ⟨j, hj⟩
      simp only [Fin.getElem_fin] at e
      rw [t2, e]
      split_ifs <;> rfl
    · intro x hx
      rw [brick_scalar hN hg hx, hc x hx]
    · intro p hp
      obtain ⟨d, hd, rfl⟩ := List.getElem_of_mem hp
      exact (brick_derived hN hg ⟨d, hd⟩ c st').trans (hder ⟨d, hd⟩)
    · intro p hp hpf
      rw [← h0.functions] at hpf
      obtain ⟨q, hq', hqp⟩ := List.mem_map.mp hpf
      have hqm : q ∈ m.derived := by rw [hl]; simp [hq']
      have : q = p := List.inj_on_of_nodup_map hg.keys hqm hp hqp
      rw [← this]
      exact hf q hq'
  have hlt : i.val < eqs.length := (List.getElem?_eq_some_iff.mp hi).1
  have hget : eqs[i.val] = eq := (List.getElem?_eq_some_iff.mp hi).2
  have hvu : v eq.field = u eq.field := by
    rw [hfield, hv i, if_neg (lt_irrefl i), hu i]
  obtain ⟨hsum, hden⟩ := (List.forall₂_iff_get.mp hall).2 i.val hlt (i.2.trans_le hRlen) (fft dims) u v _ htr
    (by simpa only [List.get_eq_getElem, hget] using hvu) s.freq s.getTime k
  simp only [List.get_eq_getElem, hget] at hden hsum
  have hR : M.getRHS i st' s.freq s.getTime k =
      ((Rs[i.val]'(i.2.trans_le hRlen)).terms.map fun f => f (m.brick c st') s.freq s.getTime k).sum := by
    rw [c21_rhs]
    simp [hM, Function.comp_def]
  have hD : M.getDenum i st' s.freq s.getTime k =
      ((Rs[i.val]'(i.2.trans_le hRlen)).denum.map fun f => f (m.brick c st') s.freq s.getTime k).sum := by
    rw [c21_denum]
    simp [hM, Function.comp_def]
  have hstep : fft dims ((eulerStep M (s, st)).2.fields i) k = _ := congrFun t3 k
  rw [optFilter_gain, hD, hR, hden] at hstep
  rw [hden] at hsum
  rw [fft_seen h N c u v hc, ← hsum, hstep, hfield, hu i]
  rw [hfield] at hne
  field_simp
  ring

/-! ### States at rest -/

theorem fft_null (k : Fin dims.prod) : fft dims (0 : Data dims.prod) k = 0 := by
  have e := fft_smul (dims := dims) (0 : ℂ) (0 : Data dims.prod) k
  rw [zero_mul] at e
  rw [← e]
  congr 1
  funext j
  simp

/-- The data at the place of a name. -/
noncomputable def placed (fields : List Str) (f : Fin fields.length → Data n) (x : Str) : Data n :=
  if hx : fields.idxOf x < fields.length then f ⟨_, hx⟩ else 0

theorem placed_get {fields : List Str} (hnd : fields.Nodup) (f : Fin fields.length → Data n) (j : Fin fields.length) :
    placed fields f fields[j] = f j := by
  have hidx : fields.idxOf fields[j] = j.val := hnd.idxOf_getElem j.val j.2
  unfold placed
  rw [dif_pos (by rw [hidx]; exact j.2)]
  congr 1
  exact Fin.ext hidx

/-- C132: although the equations are advanced one after the other, a state is left as it is by an Euler step exactly if
the right-hand sides of all equations vanish there. -/
theorem c132_rest (h : ∀ d ∈ dims, 0 < d) (N : Names) (hN : N.WellNamed) (m0 : EqModel dims.prod)
    (h0 : StartsAs N m0) (heq : m0.equations = []) (hfun : ∀ p ∈ m0.derived, ReadsFields N p.2)
    (eqs : List Equation) (hq : ∀ eq ∈ eqs, eq.Polynomial N ∧ Unregistered m0 eq)
    (ss : List Str) (hs : ss.map (fun s => s.filter fun c => c ≠ ' ') = eqs.map Equation.text)
    (hord : eqs.map Equation.field = N.fields) (c : Str → ℂ) :
    ∃ m M, ss.foldlM EqModel.addEquation m0 = some m ∧ m.fields = N.fields ∧ m.assemble c = some M ∧
      ∀ (s : Stepper dims.prod), s.dt ≠ 0 → s.filter = none →
      ∀ (st : Store m.fields.length m.derived.length dims.prod) (u : Str → Data dims.prod),
      (∀ j : Fin m.fields.length, u m.fields[j] = st.fields j) → (∀ x ∈ N.scalars, u x = fun _ => c x) →
      (∀ p ∈ m0.derived, u p.1 = p.2.eval u) →
      (∀ eq ∈ eqs, ∀ k, 1 - s.dt * (eq.terms.map (linearFactor N eq.field u s.freq k)).sum ≠ 0) →
      ((eulerStep M (s, st)).2.fields = st.fields ↔
        ∀ eq ∈ eqs, Equation.value N (spectralLaplacian (fft dims)
          (fun x => divRealScalar (ifft dims x) (dims.prod : ℕ)) s.freq) c u eq = 0) := by
  obtain ⟨m, M, h1, h2, h3, h4⟩ := c132_step h N hN m0 h0 heq hfun eqs hq ss hs
    (by rw [← hord, List.length_map]) c
  refine ⟨m, M, h1, h2, h3, ?_⟩
  intro s hdt hfil st u hu hc hf hne
  have hnd : m.fields.Nodup := by
    rw [h2]
    have := hN.nodup
    simp only [Names.all, Names.varying] at this
    exact (List.nodup_append.mp (List.nodup_append.mp this).1).1
  have hlen : eqs.length = m.fields.length := by rw [h2, ← hord, List.length_map]
  have hfield : ∀ i : Fin m.fields.length, (eqs[i.val]'(by rw [hlen]; exact i.2)).field = m.fields[i] := by
    intro i
    simp only [Fin.getElem_fin, h2, ← hord, List.getElem_map]
  have hzero : ∀ w : Data dims.prod, fft dims w = 0 → w = 0 := by
    intro w hw
    apply fft_injective h
    rw [hw]
    funext k
    exact (fft_null k).symm
  -- one equation, when the earlier ones have not moved their fields
  have one : ∀ i : Fin m.fields.length, (∀ j < i, (eulerStep M (s, st)).2.fields j = st.fields j) →
      ((eulerStep M (s, st)).2.fields i = st.fields i ↔
        Equation.value N (spectralLaplacian (fft dims)
          (fun x => divRealScalar (ifft dims x) (dims.prod : ℕ)) s.freq) c u (eqs[i.val]'(by rw [hlen]; exact i.2)) = 0) := by
    intro i hi
    have hmem : eqs[i.val]'(by rw [hlen]; exact i.2) ∈ eqs := List.getElem_mem _
    have key := h4 i (eqs[i.val]'(by rw [hlen]; exact i.2)) (List.getElem?_eq_getElem _) (hfield i) s st u u hu hc hf (by
      intro j
      rw [hu j]
      split_ifs with hj
      · rw [hi j hj]
      · rfl)
    simp only [hfil, waveGain, Option.elim, Complex.ofReal_one, one_mul, seen_same] at key
    have hne' := hne _ hmem
    generalize (eqs[i.val]'(by rw [hlen]; exact i.2)) = eq at key hne' ⊢
    constructor
    · intro e
      apply hzero
      funext k
      have := key k (hne' k)
      rw [e] at this
      have e2 : (s.dt : ℂ) * fft dims (Equation.value N (spectralLaplacian (fft dims)
          (fun x => divRealScalar (ifft dims x) (dims.prod : ℕ)) s.freq) c u eq) k = 0 := by
        linear_combination -this
      rcases mul_eq_zero.mp e2 with e3 | e3
      · exact absurd (Complex.ofReal_eq_zero.mp e3) hdt
      · exact e3
    · intro e
      apply fft_injective h
      funext k
      have := key k (hne' k)
      rw [e] at this
      have e0 : fft dims (0 : Data dims.prod) k = 0 := fft_null k
      rw [e0, mul_zero, add_zero] at this
      exact mul_right_cancel₀ (hne' k) this
  constructor
  · intro e eq hmem
    obtain ⟨i, hi, rfl⟩ := List.getElem_of_mem hmem
    exact (one ⟨i, by rw [← hlen]; exact hi⟩ fun j _ => congrFun e j).mp (congrFun e _)
  · intro e
    funext ⟨i, hi⟩
    induction i using Nat.strong_induction_on with
    | _ i ih =>
      exact (one ⟨i, hi⟩ fun j hj => ih j.val hj j.2).mpr (e _ (List.getElem_mem _))

/-! ### The wave equation as two equations -/

/-- `dconc/dt = eta`. -/
def positionEquation : Equation := ⟨"conc".toList, none, [⟨none, some ⟨"eta".toList, none⟩⟩], []⟩

/-- `deta/dt = LAPconc`. -/
def velocityEquation : Equation := ⟨"eta".toList, none, [⟨some none, some ⟨"conc".toList, none⟩⟩], []⟩

theorem pair_laplacian : Monomial pairNames [⟨some none, some ⟨"conc".toList, none⟩⟩] where
  readable :=
    { wf := by
        intro i hi
        obtain rfl := List.mem_singleton.mp hi
        refine ⟨by simp, by simp, by simp, by simp; decide, by
          intro f hf _
          have : f = ⟨"conc".toList, none⟩ := by simpa using hf.symm
          subst this
          exact ⟨List.mem_of_elem_eq_true (by rfl), by simp, by simp⟩⟩
      oneLap := by simp [laplacians]
      lapFirst := by
        intro pre i post h hl j hj
        cases pre with
        | nil => simp at hj
        | cons p pre => simp at h
      together := ⟨[], [⟨some none, some ⟨"conc".toList, none⟩⟩], [], by simp, by simp, by simp,
        by simp; decide, by simp, by simp⟩ }
  once := by
    intro x _
    exact (List.length_filter_le _ _)
  kind := Or.inl ⟨by simp [factorsIn, pairNames], by simp [factorsIn, pairNames]⟩
  exactOne := by
    intro f hf
    have : f = ⟨"conc".toList, none⟩ := by
      simpa using (List.mem_filter.mp hf).1
    subst this
    intro _; decide +kernel

theorem position_polynomial : Equation.Polynomial pairNames positionEquation :=
  ⟨by decide, by simp [positionEquation], by simp [positionEquation], by
    intro p hp
    simp only [positionEquation, Equation.terms, List.map_nil, List.mem_singleton] at hp
    subst hp
    exact pair_monomial (by decide)⟩

theorem velocity_polynomial : Equation.Polynomial pairNames velocityEquation :=
  ⟨by decide, by simp [velocityEquation], by simp [velocityEquation], by
    intro p hp
    simp only [velocityEquation, Equation.terms, List.map_nil, List.mem_singleton] at hp
    subst hp
    exact pair_laplacian⟩

theorem position_linear (u : Str → Data n) (freq : Frequency n) (k : Fin n) :
    (positionEquation.terms.map (linearFactor pairNames positionEquation.field u freq k)).sum = 0 := by
  simp only [positionEquation, Equation.terms, List.map_cons, List.map_nil, List.sum_cons, List.sum_nil, add_zero, linearFactor]
  rw [if_neg]
  rintro ⟨h1, -⟩
  exact absurd h1 (by decide)

theorem velocity_linear (u : Str → Data n) (freq : Frequency n) (k : Fin n) :
    (velocityEquation.terms.map (linearFactor pairNames velocityEquation.field u freq k)).sum = 0 := by
  simp only [velocityEquation, Equation.terms, List.map_cons, List.map_nil, List.sum_cons, List.sum_nil, add_zero, linearFactor]
  rw [if_neg]
  rintro ⟨h1, -⟩
  exact absurd h1 (by decide)

theorem position_seen (lap : Data n → Data n) (c : Str → ℂ) (u v : Str → Data n) :
    Equation.seen pairNames lap c u v positionEquation = v "eta".toList := by
  have e1 : factorsIn pairNames.scalars [⟨none, some ⟨"eta".toList, none⟩⟩] = [] := by decide
  have e2 : factorsIn pairNames.varying [⟨none, some ⟨"eta".toList, none⟩⟩] = [⟨"eta".toList, none⟩] := by decide
  have e3 : laplacians [⟨none, some ⟨"eta".toList, none⟩⟩] = [] := by decide
  have hb : BareField pairNames ([⟨none, some ⟨"eta".toList, none⟩⟩], none) := ⟨"eta".toList, by decide, e2⟩
  simp only [Equation.seen, positionEquation, Equation.terms, List.map_nil, List.map_cons, e1, e2, e3, productValue_single,
    if_pos hb]
  simp [signOf]

theorem velocity_seen (lap : Data n → Data n) (c : Str → ℂ) (u v : Str → Data n) :
    Equation.seen pairNames lap c u v velocityEquation = lap (v "conc".toList) := by
  have e1 : factorsIn pairNames.scalars [⟨some none, some ⟨"conc".toList, none⟩⟩] = [] := by decide
  have e2 : factorsIn pairNames.varying [⟨some none, some ⟨"conc".toList, none⟩⟩] = [⟨"conc".toList, none⟩] := by decide
  have e3 : (laplacians [⟨some none, some ⟨"conc".toList, none⟩⟩]).sum = 1 := by decide
  have hb : BareField pairNames ([⟨some none, some ⟨"conc".toList, none⟩⟩], none) := ⟨"conc".toList, by decide, e2⟩
  simp only [Equation.seen, velocityEquation, Equation.terms, List.map_nil, List.map_cons, e1, e2, e3, productValue_single,
    if_pos hb, Function.iterate_one]
  simp [signOf]

/-- The model with the fields `conc` and `eta`, and no equations yet. -/
def pairModel (n : ℕ) : EqModel n := ((EqModel.empty (n := n)).addField "conc".toList).addField "eta".toList

/-- C132: simulated with two equations, every wave of the wave equation follows
`u⁺ = u + dt v`, `v⁺ = v - dt x u⁺`, where `x` is `4π²|f|²`: the second equation sees the new position. -/
theorem c132_wave (h : ∀ d ∈ dims, 0 < d) (c : Str → ℂ) :
    ∃ (m : EqModel dims.prod) (M : Model m.fields.length m.derived.length dims.prod) (i j : Fin m.fields.length),
      ["dconc/dt = eta".toList, "deta/dt = LAPconc".toList].foldlM EqModel.addEquation (pairModel dims.prod) = some m ∧
      m.assemble c = some M ∧ m.fields[i] = "conc".toList ∧ m.fields[j] = "eta".toList ∧
      ∀ (s : Stepper dims.prod), s.freq = freqOf dims → s.filter = none → ∀ st k (steps : ℕ),
        fft dims ((eulerPropagate M (steps + 1) (s, st)).2.fields i) k =
          fft dims ((eulerPropagate M steps (s, st)).2.fields i) k +
            s.dt * fft dims ((eulerPropagate M steps (s, st)).2.fields j) k ∧
        fft dims ((eulerPropagate M (steps + 1) (s, st)).2.fields j) k =
          fft dims ((eulerPropagate M steps (s, st)).2.fields j) k -
            s.dt * laplaceNumber dims k * fft dims ((eulerPropagate M (steps + 1) (s, st)).2.fields i) k := by
  obtain ⟨m, M, h1, h2, h3, h4⟩ := c132_step h pairNames pair_wellNamed (pairModel dims.prod)
    ⟨rfl, rfl, fun x => Iff.rfl⟩ rfl (by intro p hp; simp [pairModel, EqModel.empty, EqModel.addField] at hp)
    [positionEquation, velocityEquation]
    (by
      intro eq heq
      simp only [List.mem_cons, List.not_mem_nil, or_false] at heq
      rcases heq with rfl | rfl
      · exact ⟨position_polynomial, fun _ _ => ⟨rfl, rfl⟩⟩
      · exact ⟨velocity_polynomial, fun _ _ => ⟨rfl, rfl⟩⟩)
    ["dconc/dt = eta".toList, "deta/dt = LAPconc".toList] (by decide) (by decide) c
  have hnd : m.fields.Nodup := by rw [h2]; decide
  have l0 : 0 < m.fields.length := by rw [h2]; decide
  have l1 : 1 < m.fields.length := by rw [h2]; decide
  have f0 : m.fields[(⟨0, l0⟩ : Fin m.fields.length)] = "conc".toList := by simp only [Fin.getElem_fin, h2]; rfl
  have f1 : m.fields[(⟨1, l1⟩ : Fin m.fields.length)] = "eta".toList := by simp only [Fin.getElem_fin, h2]; rfl
  refine ⟨m, M, ⟨0, l0⟩, ⟨1, l1⟩, h1, h3, f0, f1, ?_⟩
  have hG : ∀ x, fft dims (divRealScalar (ifft dims x) (dims.prod : ℕ)) = x := by
    intro x
    have e : divRealScalar (ifft dims x) (dims.prod : ℕ) = fun j => ifft dims x j / (dims.prod : ℂ) := by
      funext j; simp only [divRealScalar, Complex.ofReal_natCast]
    rw [e]; exact fft_surjective h x
  have step : ∀ (s : Stepper dims.prod), s.freq = freqOf dims → s.filter = none → ∀ st k,
      fft dims ((eulerStep M (s, st)).2.fields ⟨0, l0⟩) k =
          fft dims (st.fields ⟨0, l0⟩) k + s.dt * fft dims (st.fields ⟨1, l1⟩) k ∧
      fft dims ((eulerStep M (s, st)).2.fields ⟨1, l1⟩) k = fft dims (st.fields ⟨1, l1⟩) k -
            s.dt * laplaceNumber dims k * fft dims ((eulerStep M (s, st)).2.fields ⟨0, l0⟩) k := by
    intro s hfreq hfil st k
    have a0 := h4 ⟨0, l0⟩ positionEquation rfl f0.symm s st (placed m.fields st.fields)
      (placed m.fields fun j => if j < ⟨0, l0⟩ then (eulerStep M (s, st)).2.fields j else st.fields j)
      (placed_get hnd _) (by simp [pairNames]) (by intro p hp; simp [pairModel, EqModel.empty, EqModel.addField] at hp)
      (placed_get hnd _) k
    have a1 := h4 ⟨1, l1⟩ velocityEquation rfl f1.symm s st (placed m.fields st.fields)
      (placed m.fields fun j => if j < ⟨1, l1⟩ then (eulerStep M (s, st)).2.fields j else st.fields j)
      (placed_get hnd _) (by simp [pairNames]) (by intro p hp; simp [pairModel, EqModel.empty, EqModel.addField] at hp)
      (placed_get hnd _) k
    rw [position_linear, position_seen, ← f1, placed_get hnd] at a0
    rw [velocity_linear, velocity_seen, ← f0, placed_get hnd] at a1
    simp only [mul_zero, sub_zero, ne_eq, one_ne_zero, not_false_eq_true, mul_one, forall_const, hfil, waveGain,
      Option.elim, Complex.ofReal_one, one_mul] at a0 a1
    rw [if_neg (by simp [Fin.lt_def])] at a0
    rw [if_pos (by simp [Fin.lt_def])] at a1
    refine ⟨a0, ?_⟩
    have := spectralLaplacian_iterate (fft dims) (fun x => divRealScalar (ifft dims x) (dims.prod : ℕ)) hG s.freq 1
      ((eulerStep M (s, st)).2.fields ⟨0, l0⟩) k
    rw [Function.iterate_one] at this
    rw [a1, this, hfreq, symbol_laplaceNumber]
    ring
  intro s hfreq hfil st k steps
  have keep : (eulerPropagate M steps (s, st)).1.dt = s.dt ∧ (eulerPropagate M steps (s, st)).1.freq = s.freq ∧
      (eulerPropagate M steps (s, st)).1.filter = s.filter := by
    induction steps with
    | zero => simp [eulerPropagate]
    | succ j ih =>
      have e : eulerPropagate M (j + 1) (s, st) = eulerStep M (eulerPropagate M j (s, st)) := by
        simp [eulerPropagate, List.range_succ]
      rw [e]
      generalize eulerPropagate M j (s, st) = p at ih
      obtain ⟨p1, p2⟩ := p
      exact ih
  have e : eulerPropagate M (steps + 1) (s, st) = eulerStep M (eulerPropagate M steps (s, st)) := by
    simp [eulerPropagate, List.range_succ]
  rw [e]
  generalize eulerPropagate M steps (s, st) = p at keep
  obtain ⟨p1, p2⟩ := p
  obtain ⟨q1, q2, q3⟩ := keep
  dsimp only at q1 q2 q3
  have := step p1 (q2.trans hfreq) (q3.trans hfil) p2 k
  rw [q1] at this
  exact this

/-- What is kept along the steps. -/
noncomputable def keptEnergy (dt x : ℝ) (u v : ℂ) : ℝ :=
  ‖v‖ ^ 2 + x * ‖u‖ ^ 2 + dt * x * (u.re * v.re + u.im * v.im)

theorem norm_sq_parts (z : ℂ) : ‖z‖ ^ 2 = z.re ^ 2 + z.im ^ 2 := by
  rw [← Complex.normSq_eq_norm_sq, Complex.normSq_apply]; ring

theorem keptEnergy_step (dt x : ℝ) {u v u' v' : ℂ} (hu : u' = u + dt * v) (hv : v' = v - dt * x * u') :
    keptEnergy dt x u' v' = keptEnergy dt x u v := by
  have r1 : u'.re = u.re + dt * v.re := by rw [hu]; simp
  have r2 : u'.im = u.im + dt * v.im := by rw [hu]; simp
  have r3 : v'.re = v.re - dt * x * u'.re := by rw [hv, ← Complex.ofReal_mul]; simp
  have r4 : v'.im = v.im - dt * x * u'.im := by rw [hv, ← Complex.ofReal_mul]; simp
  simp only [keptEnergy, norm_sq_parts, r1, r2, r3, r4]
  ring

theorem kept_bounds {dt x : ℝ} (hdt : 0 ≤ dt) (hx : 0 ≤ x) (u v : ℂ) :
    (1 - dt * Real.sqrt x / 2) * (‖v‖ ^ 2 + x * ‖u‖ ^ 2) ≤ keptEnergy dt x u v ∧
    keptEnergy dt x u v ≤ (1 + dt * Real.sqrt x / 2) * (‖v‖ ^ 2 + x * ‖u‖ ^ 2) := by
  have hq := Real.sq_sqrt hx
  have hs := Real.sqrt_nonneg x
  set r := Real.sqrt x
  have p : 0 ≤ dt * r := mul_nonneg hdt hs
  have e1 : 0 ≤ dt * r * ((v.re - r * u.re) ^ 2 + (v.im - r * u.im) ^ 2) := mul_nonneg p (by positivity)
  have e2 : 0 ≤ dt * r * ((v.re + r * u.re) ^ 2 + (v.im + r * u.im) ^ 2) := mul_nonneg p (by positivity)
  rw [keptEnergy, norm_sq_parts, norm_sq_parts, ← hq]
  constructor <;> linarith [e1, e2]

/-- C132: each wave keeps `|v|² + x|u|² + dt x Re(u v̄)` for ever. -/
theorem c132_energy {dt x : ℝ} {u v : ℕ → ℂ} (hu : ∀ n, u (n + 1) = u n + dt * v n)
    (hv : ∀ n, v (n + 1) = v n - dt * x * u (n + 1)) (n : ℕ) :
    keptEnergy dt x (u n) (v n) = keptEnergy dt x (u 0) (v 0) := by
  induction n with
  | zero => rfl
  | succ n ih => rw [keptEnergy_step dt x (hu n) (hv n), ih]

/-- C132: so its energy stays within a fixed factor if `dt √x < 2`. -/
theorem c132_bounded {dt x : ℝ} (hdt : 0 ≤ dt) (hx : 0 ≤ x) (hlim : dt * Real.sqrt x < 2) {u v : ℕ → ℂ}
    (hu : ∀ n, u (n + 1) = u n + dt * v n) (hv : ∀ n, v (n + 1) = v n - dt * x * u (n + 1)) (n : ℕ) :
    ‖v n‖ ^ 2 + x * ‖u n‖ ^ 2 ≤ (2 + dt * Real.sqrt x) / (2 - dt * Real.sqrt x) * (‖v 0‖ ^ 2 + x * ‖u 0‖ ^ 2) := by
  have b1 := (kept_bounds hdt hx (u n) (v n)).1
  have b2 := (kept_bounds hdt hx (u 0) (v 0)).2
  rw [c132_energy hu hv n] at b1
  have hpos : 0 < 2 - dt * Real.sqrt x := by linarith
  rw [div_mul_eq_mul_div, le_div_iff₀ hpos]
  linarith

/-- C132: it grows without bound from some starts if `dt² x > 4`. -/
theorem c132_unstable {dt x : ℝ} (hlim : 4 < dt ^ 2 * x) :
    ∃ q : ℝ, q < -1 ∧ ∀ u v : ℕ → ℂ, (∀ n, u (n + 1) = u n + dt * v n) →
      (∀ n, v (n + 1) = v n - dt * x * u (n + 1)) → dt * v 0 = (q - 1) * u 0 → ∀ n, u n = q ^ n * u 0 := by
  set T := dt ^ 2 * x with hT
  have hd : 0 < T * (T - 4) := mul_pos (by linarith) (by linarith)
  have hsq := Real.sq_sqrt hd.le
  have hs := Real.sqrt_pos.mpr hd
  set D := Real.sqrt (T * (T - 4))
  refine ⟨(2 - T - D) / 2, by linarith, ?_⟩
  set q := (2 - T - D) / 2 with hq
  have hroot : q ^ 2 = (2 - T) * q - 1 := by
    rw [hq]
    linear_combination (1 / 4) * hsq
  have hrootc : (q : ℂ) ^ 2 = (2 - (dt : ℂ) ^ 2 * x) * q - 1 := by
    have := congrArg (fun z : ℝ => (z : ℂ)) hroot
    simp only [hT] at this
    push_cast at this
    exact this
  intro u v hu hv h0 n
  have key : u n = q ^ n * u 0 ∧ dt * v n = (q - 1) * u n := by
    induction n with
    | zero => exact ⟨by simp, h0⟩
    | succ n ih =>
      obtain ⟨i1, i2⟩ := ih
      have e1 : u (n + 1) = q * u n := by rw [hu, i2]; ring
      refine ⟨by rw [e1, i1, pow_succ]; ring, ?_⟩
      rw [hv, e1]
      linear_combination i2 - u n * hrootc
  exact key.1

/-- C132: advancing both equations from the old values would multiply the energy of the wave by `1 + dt² x` in every step,
for every time step. -/
theorem c132_simultaneous (dt x : ℝ) (u v : ℂ) :
    ‖v - dt * x * u‖ ^ 2 + x * ‖u + dt * v‖ ^ 2 = (1 + dt ^ 2 * x) * (‖v‖ ^ 2 + x * ‖u‖ ^ 2) := by
  have r1 : (u + dt * v).re = u.re + dt * v.re := by simp
  have r2 : (u + dt * v).im = u.im + dt * v.im := by simp
  have r3 : (v - dt * x * u).re = v.re - dt * x * u.re := by rw [← Complex.ofReal_mul]; simp
  have r4 : (v - dt * x * u).im = v.im - dt * x * u.im := by rw [← Complex.ofReal_mul]; simp
  simp only [norm_sq_parts, r1, r2, r3, r4]
  ring

theorem laplaceNumber_le (h : GoodDims (intDims dims)) (k : Fin dims.prod) :
    laplaceNumber dims k ≤ Real.pi ^ 2 * dims.length := by
  unfold laplaceNumber
  rw [freqOf_coord h, List.map_ofFn, List.sum_ofFn]
  have hle : ∑ j : Fin dims.length, ((fun x : ℝ => x ^ 2) ∘ fun j : Fin dims.length =>
      ((phi (coord dims k.val j.val) (dims[j] : ℤ) : ℚ) : ℝ)) j ≤ ∑ _j : Fin dims.length, (1 / 4 : ℝ) := by
    apply Finset.sum_le_sum
    intro j _
    simp only [Function.comp_apply]
    have hr := coord_range h k j
    obtain ⟨a, b⟩ := phi_range hr.1 hr.2
    have a' : -(1 / 2 : ℝ) < ((phi (coord dims k.val j.val) (dims[j] : ℤ) : ℚ) : ℝ) := by
      have : ((-(1 / 2) : ℚ) : ℝ) < _ := Rat.cast_lt.mpr a
      simpa using this
    have b' : ((phi (coord dims k.val j.val) (dims[j] : ℤ) : ℚ) : ℝ) ≤ 1 / 2 := by
      have : _ ≤ ((1 / 2 : ℚ) : ℝ) := Rat.cast_le.mpr b
      simpa using this
    nlinarith
  simp only [Finset.sum_const, Finset.card_univ, Fintype.card_fin, nsmul_eq_mul] at hle
  have hpi : 0 ≤ 4 * Real.pi ^ 2 := by positivity
  calc _ ≤ 4 * Real.pi ^ 2 * ((dims.length : ℝ) * (1 / 4)) := mul_le_mul_of_nonneg_left hle hpi
    _ = _ := by ring

/-- C132: a time step below `2 / (π √D)` is small enough for all waves of a grid with `D` dimensions. -/
theorem c132_time_step (h : GoodDims (intDims dims)) {dt : ℝ} (hdt : 0 ≤ dt)
    (hlim : dt * (Real.pi * Real.sqrt dims.length) < 2) (k : Fin dims.prod) :
    dt * Real.sqrt (laplaceNumber dims k) < 2 := by
  have e : Real.sqrt (laplaceNumber dims k) ≤ Real.pi * Real.sqrt dims.length := by
    rw [← Real.sqrt_sq Real.pi_pos.le, ← Real.sqrt_mul (by positivity)]
    exact Real.sqrt_le_sqrt (laplaceNumber_le h k)
  exact lt_of_le_of_lt (mul_le_mul_of_nonneg_left e hdt) hlim

/-- C132: with such a time step the waves of the simulated wave equation stay bounded for ever. -/
theorem c132_wave_bounded (h : GoodDims (intDims dims)) (c : Str → ℂ) :
    ∃ (m : EqModel dims.prod) (M : Model m.fields.length m.derived.length dims.prod) (i j : Fin m.fields.length),
      ["dconc/dt = eta".toList, "deta/dt = LAPconc".toList].foldlM EqModel.addEquation (pairModel dims.prod) = some m ∧
      m.assemble c = some M ∧ m.fields[i] = "conc".toList ∧ m.fields[j] = "eta".toList ∧
      ∀ (s : Stepper dims.prod), s.freq = freqOf dims → s.filter = none → 0 ≤ s.dt →
      s.dt * (Real.pi * Real.sqrt dims.length) < 2 → ∀ st k (steps : ℕ),
        ‖fft dims ((eulerPropagate M steps (s, st)).2.fields j) k‖ ^ 2 +
          laplaceNumber dims k * ‖fft dims ((eulerPropagate M steps (s, st)).2.fields i) k‖ ^ 2 ≤
        (2 + s.dt * Real.sqrt (laplaceNumber dims k)) / (2 - s.dt * Real.sqrt (laplaceNumber dims k)) *
          (‖fft dims (st.fields j) k‖ ^ 2 + laplaceNumber dims k * ‖fft dims (st.fields i) k‖ ^ 2) := by
  obtain ⟨m, M, i, j, h1, h2, h3, h4, h5⟩ := c132_wave (pos_of_goodDims h) c
  refine ⟨m, M, i, j, h1, h2, h3, h4, ?_⟩
  intro s hfreq hfil hdt hlim st k steps
  exact c132_bounded hdt (laplaceNumber_nonneg k) (c132_time_step h hdt hlim k)
    (u := fun n => fft dims ((eulerPropagate M n (s, st)).2.fields i) k)
    (v := fun n => fft dims ((eulerPropagate M n (s, st)).2.fields j) k)
    (fun n => (h5 s hfreq hfil st k n).1) (fun n => (h5 s hfreq hfil st k n).2) steps

/-- C132: with a time step that is too large for a wave, there are real starts from which that wave grows without bound. -/
theorem c132_wave_unstable (h : ∀ d ∈ dims, 0 < d) (c : Str → ℂ) :
    ∃ (m : EqModel dims.prod) (M : Model m.fields.length m.derived.length dims.prod) (i j : Fin m.fields.length),
      ["dconc/dt = eta".toList, "deta/dt = LAPconc".toList].foldlM EqModel.addEquation (pairModel dims.prod) = some m ∧
      m.assemble c = some M ∧ m.fields[i] = "conc".toList ∧ m.fields[j] = "eta".toList ∧
      ∀ (s : Stepper dims.prod), s.freq = freqOf dims → s.filter = none →
      ∀ k, 4 < s.dt ^ 2 * laplaceNumber dims k → ∃ st, (∀ l x, (Store.fields st l x).im = 0) ∧
        Filter.Tendsto (fun steps => ‖fft dims ((eulerPropagate M steps (s, st)).2.fields i) k‖) Filter.atTop Filter.atTop := by
  obtain ⟨m, M, i, j, h1, h2, h3, h4, h5⟩ := c132_wave h c
  refine ⟨m, M, i, j, h1, h2, h3, h4, ?_⟩
  intro s hfreq hfil k hlim
  obtain ⟨q, hq, hgrow⟩ := c132_unstable hlim
  have hij : j ≠ i := by
    rintro rfl
    rw [h3] at h4
    exact absurd h4 (by decide)
  have hdt : (s.dt : ℂ) ≠ 0 := by
    intro e
    rw [Complex.ofReal_eq_zero.mp e] at hlim
    norm_num at hlim
  let A : Data dims.prod := fun x => if x = k then 1 else 0
  let B : Data dims.prod := fun x => ((q - 1) / s.dt : ℂ) * A x
  have hA : ‖fft dims A k‖ = 1 := by
    have : fft dims A k = cis (-phase dims k k) := by
      unfold fft
      rw [Finset.sum_eq_single k]
      · simp [A]
      · intro x _ hx; simp [A, hx]
      · simp
    rw [this, cis_norm]
  have hB : fft dims B k = (q - 1) / s.dt * fft dims A k := fft_smul (dims := dims) ((q - 1) / s.dt : ℂ) A k
  refine ⟨⟨fun l => if l = i then A else B, fun _ => 0⟩, ?_, ?_⟩
  · have hAr : ∀ x, (A x).im = 0 := by intro x; by_cases hx : x = k <;> simp [A, hx]
    have hBr : ∀ x, (B x).im = 0 := by
      intro x
      have e : ((q - 1) / s.dt : ℂ) = (((q - 1) / s.dt : ℝ) : ℂ) := by push_cast; rfl
      simp only [B, e, Complex.mul_im, hAr, Complex.ofReal_im, mul_zero, zero_mul, add_zero]
    intro l x
    dsimp only
    split_ifs
    · exact hAr x
    · exact hBr x
  set st : Store m.fields.length m.derived.length dims.prod := ⟨fun l => if l = i then A else B, fun _ => 0⟩ with hst
  have s0 : fft dims ((eulerPropagate M 0 (s, st)).2.fields i) k = fft dims A k := by
    simp only [eulerPropagate, hst]
    simp
  have t0 : fft dims ((eulerPropagate M 0 (s, st)).2.fields j) k = (q - 1) / s.dt * fft dims A k := by
    simp only [eulerPropagate, hst]
    simpa [hij] using hB
  have := hgrow (fun n => fft dims ((eulerPropagate M n (s, st)).2.fields i) k)
    (fun n => fft dims ((eulerPropagate M n (s, st)).2.fields j) k)
    (fun n => (h5 s hfreq hfil st k n).1) (fun n => (h5 s hfreq hfil st k n).2)
    (by rw [s0, t0]; field_simp)
  have e : (fun steps => ‖fft dims ((eulerPropagate M steps (s, st)).2.fields i) k‖) = fun steps => |q| ^ steps := by
    funext steps
    rw [this steps, s0, norm_mul, hA, mul_one, norm_pow, Complex.norm_real, Real.norm_eq_abs]
  rw [e]
  exact tendsto_pow_atTop_atTop_of_one_lt (by rw [abs_of_neg (by linarith)]; linarith)

/-! ### The hypotheses can be met -/

/-- The wave equation, written as two equations, meets what `c132_step` and `c132_rest` ask of names, texts and order. -/
example : pairNames.WellNamed ∧ StartsAs pairNames (pairModel 4) ∧ (pairModel 4).equations = [] ∧
    Equation.Polynomial pairNames positionEquation ∧ Equation.Polynomial pairNames velocityEquation ∧
    ["dconc/dt = eta".toList, "deta/dt = LAPconc".toList].map (fun s => s.filter fun c => c ≠ ' ') =
      [positionEquation, velocityEquation].map Equation.text ∧
    [positionEquation, velocityEquation].map Equation.field = pairNames.fields :=
  ⟨pair_wellNamed, ⟨rfl, rfl, fun x => Iff.rfl⟩, rfl, position_polynomial, velocity_polynomial, by decide, by decide⟩

/-- `LAPconc` has one bare field, `conc^3` and `conc*eta` have not: they are taken at the old values. -/
example : BareField pairNames ([⟨some none, some ⟨"conc".toList, none⟩⟩], none) ∧
    ¬ BareField pairNames ([⟨none, some ⟨"conc".toList, some ⟨['3'], none⟩⟩⟩], none) ∧
    ¬ BareField pairNames ([⟨none, some ⟨"conc".toList, none⟩⟩, ⟨none, some ⟨"eta".toList, none⟩⟩], none) := by
  refine ⟨⟨"conc".toList, by decide, by decide⟩, ?_, ?_⟩
  · rintro ⟨f, hf, e⟩
    have e' : factorsIn pairNames.varying [⟨none, some ⟨"conc".toList, some ⟨['3'], none⟩⟩⟩] =
        [⟨"conc".toList, some ⟨['3'], none⟩⟩] := by decide
    rw [e'] at e
    simp at e
  · rintro ⟨f, hf, e⟩
    have e' : (factorsIn pairNames.varying [⟨none, some ⟨"conc".toList, none⟩⟩, ⟨none, some ⟨"eta".toList, none⟩⟩]).length = 2 := by
      decide
    rw [e] at e'
    simp at e'

/-- A time step of `0.1` is fine for all waves of a `16 × 16` grid. -/
example : GoodDims (intDims [16, 16]) ∧ (1 / 10 : ℝ) * (Real.pi * Real.sqrt 2) < 2 := by
  refine ⟨⟨by decide, by decide⟩, ?_⟩
  have h1 := Real.pi_le_four
  have h2 : Real.sqrt 2 ≤ 2 := by
    rw [Real.sqrt_le_left (by norm_num)]; norm_num
  have h3 := Real.pi_pos
  have h4 := Real.sqrt_nonneg 2
  have : Real.pi * Real.sqrt 2 ≤ 4 * 2 := mul_le_mul h1 h2 h4 (by norm_num)
  linarith

end Gopf.Props
