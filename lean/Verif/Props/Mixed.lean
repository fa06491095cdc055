import Verif.Spec.Mixed
import Verif.Props.Assemble
import Verif.Props.Register
import Verif.Props.Conserved
import Verif.Props.Stability

/-!
# C128: equations that consist of products and of registered terms
-/

namespace Gopf.Props
open Spec Pf Pfutil

variable {n : ℕ} {dims : List ℕ}

/-! ### The specification -/

/-- How a name was registered: `E` is the part that is added to the right-hand side, `I` the factor the field is
multiplied by. A name registered several times counts as implicit, then as explicit, then as mixed. -/
inductive RegisteredAs (m : EqModel n) (name : Str) : BTerm n → BTerm n → Prop
  | implicit {f} (h : m.implicitTerms.lookup name = some f) : RegisteredAs m name (fun _ _ _ _ => 0) f
  | explicit {f} (h1 : m.implicitTerms.lookup name = none) (h : m.explicitTerms.lookup name = some f) :
      RegisteredAs m name f fun _ _ _ _ => 0
  | mixed {f} (h1 : m.implicitTerms.lookup name = none) (h2 : m.explicitTerms.lookup name = none)
      (h : m.mixedTerms.lookup name = some f) : RegisteredAs m name f.2 f.1

/-- A registered term as it may be written: operators in front of a valid name. With operators, the text contains no
name of a field. -/
structure Callable (N : Names) (ops : List Str) (name : Str) : Prop where
  operators : ∀ p ∈ ops, IsOperator p
  valid : checkName name = some ()
  caret : name.head? ≠ some '^'
  isTerm : IsTerm ['+', '-'] (ops.flatten ++ name)
  noEq : '=' ∉ ops.flatten ++ name
  apart : ops = [] ∨ ∀ f ∈ N.fields, ¬ f <:+: ops.flatten ++ name

/-- A term that can be read: a product of which no part was registered, or a registered term. -/
def Sensible (N : Names) (m : EqModel n) (E I : Str → BTerm n) : Summand → Prop
  | .product items => Monomial N items ∧ m.isUserDefinedTerm (productText items) = false ∧
      m.isUserDefinedTerm (removeKnownPrefixes (productText items)) = false
  | .registered ops name => Callable N ops name ∧ RegisteredAs m name (E name) (I name)

/-- An equation of which all terms can be read. -/
structure MixedEquation.Good (N : Names) (m : EqModel n) (E I : Str → BTerm n) (eq : MixedEquation) : Prop where
  field : eq.field ∈ N.fields
  lead : ∀ c ∈ eq.lead, c = '+' ∨ c = '-'
  signs : ∀ p ∈ eq.tail, p.1 = '+' ∨ p.1 = '-'
  terms : ∀ p ∈ eq.terms, Sensible N m E I p.1

/-- What a term stands for in Fourier space. -/
noncomputable def summandSpectrum (N : Names) (E I : Str → BTerm n) (field : Str) (F : Data n → Data n) (u : Str → Data n)
    (b : Bricks n) (freq : Frequency n) (t : ℝ) (k : Fin n) : Summand × Option Char → ℂ
  | (.product items, d) => termSpectrum N F u freq k (items, d)
  | (.registered ops name, d) => delimSign d * (ops.map fun p => prefixSymbol p (freq k)).prod *
      (E name b freq t k + I name b freq t k * F (u field) k)

/-- The factor in front of the field that is treated implicitly. -/
noncomputable def summandFactor (N : Names) (I : Str → BTerm n) (field : Str) (u : Str → Data n)
    (b : Bricks n) (freq : Frequency n) (t : ℝ) (k : Fin n) : Summand × Option Char → ℂ
  | (.product items, d) => linearFactor N field u freq k (items, d)
  | (.registered ops name, d) => delimSign d * (ops.map fun p => prefixSymbol p (freq k)).prod * I name b freq t k

/-! ### Reading the text -/

/-- The pairs of text and sign the parser works with. -/
def mixedText (p : Summand × Option Char) : SubDelim := ⟨p.1.text, p.2⟩

theorem sensible_text {N : Names} (hN : N.WellNamed) {m : EqModel n} {E I : Str → BTerm n} {s : Summand}
    (h : Sensible N m E I s) : IsTerm ['+', '-'] s.text ∧ '=' ∉ s.text := by
  cases s with
  | product items =>
    exact ⟨product_isTerm hN h.1, product_free hN h.1.readable.wf (by decide) (by decide)⟩
  | registered ops name => exact ⟨h.1.isTerm, h.1.noEq⟩

theorem split_mixed {N : Names} (hN : N.WellNamed) {m : EqModel n} {E I : Str → BTerm n} {eq : MixedEquation}
    (hq : MixedEquation.Good N m E I eq) :
    goSplit '=' eq.text = ['d' :: (eq.field ++ ['/', 'd', 't']), eq.sum.render] ∧
    fieldNameFromLeibniz ('d' :: (eq.field ++ ['/', 'd', 't'])) = some eq.field ∧
    ∃ L : List (Summand × Option Char), L.Perm eq.terms ∧
      splitOnMany eq.sum.render ['+', '-'] = some (L.map mixedText) := by
  obtain ⟨h, a, c, t, hs⟩ := shape hN (g := eq.field) (by simp [Names.varying, hq.field])
  have hhead := sensible_text hN (hq.terms (eq.head, eq.lead) (by simp [MixedEquation.terms]))
  have htail : ∀ q ∈ eq.tail, IsTerm ['+', '-'] q.2.text ∧ '=' ∉ q.2.text := fun q hq' =>
    sensible_text hN (hq.terms (q.2, some q.1) (by
      simp only [MixedEquation.terms, List.mem_cons, List.mem_map]; exact Or.inr ⟨q, hq', rfl⟩))
  have hsign : ∀ c : Char, c = '+' ∨ c = '-' → c ≠ '=' := by rintro c (rfl | rfl) <;> decide
  refine ⟨?_, leibniz hs.ne, ?_⟩
  · have e1 : eq.text = ('d' :: (eq.field ++ ['/', 'd', 't'])) ++ '=' :: eq.sum.render := by
      simp [MixedEquation.text]
    rw [e1]
    apply goSplit_two
    · intro hc
      simp only [List.mem_cons, List.mem_append, List.not_mem_nil, or_false] at hc
      rcases hc with hc | hc | hc | hc | hc
      · exact absurd hc (by decide)
      · exact hs.notMem (by decide) (by decide) |>.2 hc
      all_goals exact absurd hc (by decide)
    · intro hc
      simp only [SignedSum.render, MixedEquation.sum, List.mem_append] at hc
      rcases hc with (hc | hc) | hc
      · exact hsign _ (hq.lead '=' (by simpa using hc)) rfl
      · exact hhead.2 hc
      · obtain ⟨p, hp, h⟩ := mem_renderTail hc
        obtain ⟨q, hq', rfl⟩ := List.mem_map.mp hp
        rcases h with h | h
        · exact hsign _ (hq.signs q hq') h.symm
        · exact (htail q hq').2 h
  · have hwf : eq.sum.WellFormed ['+', '-'] := by
      refine ⟨fun c hc => by simpa using hq.lead c hc, hhead.1, ?_⟩
      intro p hp
      obtain ⟨q, hq', rfl⟩ := List.mem_map.mp hp
      exact ⟨by simpa using hq.signs q hq', (htail q hq').1⟩
    obtain ⟨res, hres, hperm⟩ := c13_split _ _ hwf
    have ht : eq.sum.terms = eq.terms.map fun p => (p.1.text, p.2) := by
      simp [SignedSum.terms, MixedEquation.sum, MixedEquation.terms]
    rw [ht] at hperm
    obtain ⟨L, hL, hLe⟩ := perm_map_exists _ _ _ hperm
    refine ⟨L, hL, ?_⟩
    rw [hres]
    congr 1
    have hinj : ∀ (r : List SubDelim) (L : List (Summand × Option Char)),
        (r.map fun x => (x.sub, x.delim)) = L.map (fun p => (p.1.text, p.2)) → r = L.map mixedText := by
      intro r
      induction r with
      | nil => intro L h; cases L <;> simp_all
      | cons x r ih =>
        intro L h
        cases L with
        | nil => simp at h
        | cons p L =>
          simp only [List.map_cons, List.cons.injEq, Prod.mk.injEq] at h
          rw [List.map_cons, ih L h.2, mixedText, ← h.1.1, ← h.1.2]
    exact hinj res L hLe

/-! ### Adding the equations -/

/-- No derived field is made for a registered term. -/
theorem update_registered {N : Names} (hN : N.WellNamed) {m0 m : EqModel n} (hg : Grown N m0 m) {field : Str}
    {ops : List Str} {name : Str} (hc : Callable N ops name) {e i : BTerm n} (hr : RegisteredAs m0 name e i) :
    EqModel.updateOne field m (ops.flatten ++ name) = some m := by
  by_cases hu : m.isUserDefinedTerm (ops.flatten ++ name) = true
  · simp [EqModel.updateOne, hu]
  rcases hc.apart with rfl | hap
  · exfalso
    apply hu
    rw [List.flatten_nil, List.nil_append, EqModel.isUserDefinedTerm, hg.user.1, hg.user.2.1, hg.user.2.2]
    cases hr with
    | implicit h => simp [h]
    | explicit h1 h => simp [h]
    | mixed h1 h2 h => simp [h]
  · have hs0 : sortFactors [] = [] := by decide
    have hcomp : ∀ f ∈ N.fields, compileText f = some (lits f) ∧ f ≠ [] := by
      intro f hf
      obtain ⟨h, a, c, t, hs⟩ := shape hN (g := f) (by simp [Names.varying, hf])
      exact ⟨compileText_ident hs.identG, hs.ne⟩
    have hloop : ∀ l : List Str, (∀ f ∈ l, f ∈ N.fields) →
        nonLinearLoop (ops.flatten ++ name) field N.fields l [] = some [] := by
      intro l
      induction l with
      | nil => intro _; rfl
      | cons f l ih =>
        intro hl
        have hf := hl f (by simp)
        obtain ⟨h1, h2⟩ := hcomp f hf
        have hb : (if f = field then isBilinear (ops.flatten ++ name) field N.fields else some false) = some false := by
          split_ifs with he
          · subst he
            have hz := cnt_zero (hap f hf)
            unfold cnt at hz
            unfold isBilinear
            rw [h1]
            simp only
            rw [if_pos (by rw [hz]; simp)]
          · rfl
        have hfind : findString (lits f ++ [.star fun c => c ≠ '*']) (ops.flatten ++ name) = [] := by
          unfold findString
          rw [findFrom_lits_none _ (hap f hf)]
        rw [nonLinearLoop, hb]
        simp only [h1, hfind, ne_eq, not_true_eq_false, if_false]
        exact ih fun g hg' => hl g (by simp [hg'])
    have hloop := hloop N.fields fun _ h => h
    have hu' : m.isUserDefinedTerm (ops.flatten ++ name) = false := by simpa using hu
    simp [EqModel.updateOne, hu', getNonLinearFieldExpressions, hg.fields, hloop, hs0]

/-- What holds of a term after the equation was added. -/
def Seen (N : Names) (field : Str) (m : EqModel n) : Summand → Prop
  | .product items => Known N field m items
  | .registered _ _ => True

theorem seen_mono {N : Names} {m m' : EqModel n} {field : Str} {s : Summand} (hf : m'.fields = m.fields)
    (hd : ∃ l, m'.derived = m.derived ++ l) (h : Seen N field m s) : Seen N field m' s := by
  cases s with
  | product items => exact known_mono hf hd h
  | registered ops name => trivial

theorem update_mixed {N : Names} (hN : N.WellNamed) {m0 : EqModel n} {E I : Str → BTerm n} {field : Str}
    (hf : field ∈ N.fields) : ∀ (L : List (Summand × Option Char)) (m : EqModel n), Grown N m0 m →
    (∀ p ∈ L, Sensible N m0 E I p.1) →
    ∃ m', (L.map fun p => p.1.text).foldlM (EqModel.updateOne field) m = some m' ∧ Grown N m0 m' ∧
      m'.equations = m.equations ∧ (∃ l, m'.derived = m.derived ++ l) ∧ ∀ p ∈ L, Seen N field m' p.1
  | [], m, hg, _ => ⟨m, rfl, hg, rfl, ⟨[], by simp⟩, by simp⟩
  | p :: L, m, hg, h => by
    obtain ⟨m1, h1, h2, h3, ⟨l1, h4⟩, h5⟩ : ∃ m', EqModel.updateOne field m p.1.text = some m' ∧ Grown N m0 m' ∧
        m'.equations = m.equations ∧ (∃ l, m'.derived = m.derived ++ l) ∧ Seen N field m' p.1 := by
      have hp := h p (by simp)
      generalize p.1 = s at hp ⊢
      cases s with
      | product items =>
        obtain ⟨m1, h1, h2, h3, ⟨l1, h4, -⟩, h5⟩ := updateOne_spec hN hg hf hp.1 hp.2.1
        exact ⟨m1, h1, h2, h3, ⟨l1, h4⟩, h5⟩
      | registered ops name => exact ⟨m, update_registered hN hg hp.1 hp.2, hg, rfl, ⟨[], by simp⟩, trivial⟩
    obtain ⟨m2, k1, k2, k3, ⟨l2, k4⟩, k5⟩ := update_mixed hN hf L m1 h2 fun q hq => h q (by simp [hq])
    refine ⟨m2, ?_, k2, by rw [k3, h3], ⟨l1 ++ l2, by rw [k4, h4, List.append_assoc]⟩, ?_⟩
    · rw [List.map_cons, List.foldlM_cons, h1]
      exact k1
    · intro q hq
      rcases List.mem_cons.mp hq with rfl | hq
      · exact seen_mono (by rw [k2.fields, h2.fields]) ⟨l2, k4⟩ h5
      · exact k5 q hq

theorem add_mixed {N : Names} (hN : N.WellNamed) {m0 : EqModel n} {E I : Str → BTerm n} :
    ∀ (eqs : List MixedEquation) (ss : List Str) (m : EqModel n), Grown N m0 m →
    (∀ eq ∈ eqs, MixedEquation.Good N m0 E I eq) →
    ss.map (fun s => s.filter fun c => c ≠ ' ') = eqs.map MixedEquation.text →
    ∃ m', ss.foldlM EqModel.addEquation m = some m' ∧ Grown N m0 m' ∧
      m'.equations = m.equations ++ eqs.map MixedEquation.text ∧ (∃ l, m'.derived = m.derived ++ l) ∧
      ∀ eq ∈ eqs, ∀ p ∈ eq.terms, Seen N eq.field m' p.1
  | [], ss, m, hg, _, hs => by
    have : ss = [] := List.map_eq_nil_iff.mp hs
    subst this
    exact ⟨m, rfl, hg, by simp, ⟨[], by simp⟩, by simp⟩
  | eq :: eqs, ss, m, hg, h, hs => by
    cases ss with
    | nil => simp at hs
    | cons s ss =>
      simp only [List.map_cons, List.cons.injEq] at hs
      have hq := h eq (by simp)
      obtain ⟨m1, h1, h2, h3, ⟨l1, h4⟩, h5⟩ : ∃ m', m.addEquation s = some m' ∧ Grown N m0 m' ∧
          m'.equations = m.equations ++ [eq.text] ∧ (∃ l, m'.derived = m.derived ++ l) ∧
          ∀ p ∈ eq.terms, Seen N eq.field m' p.1 := by
        obtain ⟨h1, h2, L, hL, h3⟩ := split_mixed hN hq
        have hg' : Grown N m0 { m with equations := m.equations ++ [eq.text] } :=
          ⟨⟨hg.rep.fields, hg.rep.derived, hg.rep.functions, hg.rep.bricks⟩, hg.fields, hg.keys, hg.derived, hg.user⟩
        obtain ⟨m', k1, k2, k3, k4, k5⟩ := update_mixed hN hq.field L _ hg' fun p hp => hq.terms p (hL.subset hp)
        refine ⟨m', ?_, k2, k3, k4, fun p hp => k5 p (hL.symm.subset hp)⟩
        rw [EqModel.addEquation]
        simp only [hs.1, EqModel.updateDerivedFields, h1, h2, h3]
        have : (L.map mixedText).map SubDelim.sub = L.map fun p => p.1.text := by simp [mixedText]
        simpa [this] using k1
      obtain ⟨m2, k1, k2, k3, ⟨l2, k4⟩, k5⟩ := add_mixed hN eqs ss m1 h2 (fun q hq => h q (by simp [hq])) hs.2
      refine ⟨m2, ?_, k2, by rw [k3, h3]; simp, ⟨l1 ++ l2, by rw [k4, h4, List.append_assoc]⟩, ?_⟩
      · rw [List.foldlM_cons, h1]
        exact k1
      · intro q hq
        rcases List.mem_cons.mp hq with rfl | hq
        · exact fun p hp => seen_mono (by rw [k2.fields, h2.fields]) ⟨l2, k4⟩ (h5 p hp)
        · exact k5 q hq

/-! ### Building the right-hand sides -/

theorem build_registered {N : Names} {m0 m : EqModel n} (hg : Grown N m0 m) {ops : List Str} {name : Str}
    (hc : Callable N ops name) {e i : BTerm n} (hr : RegisteredAs m0 name e i) (field : Str) (d : Option Char)
    (rhs : BuiltRHS n) :
    ∃ T D, buildTerm m field rhs ⟨ops.flatten ++ name, d⟩ = some ⟨rhs.terms ++ T, rhs.denum ++ D⟩ ∧
      ∀ b freq t k,
        (T.map fun f => f b freq t k).sum =
          delimSign d * (ops.map fun p => prefixSymbol p (freq k)).prod * e b freq t k ∧
        (D.map fun f => f b freq t k).sum =
          delimSign d * (ops.map fun p => prefixSymbol p (freq k)).prod * i b freq t k := by
  obtain ⟨h1, h2⟩ := read_operators name hc.valid hc.caret ops hc.operators
  unfold buildTerm
  simp only [h1, h2, hg.user.1, hg.user.2.1, hg.user.2.2]
  cases hr with
  | implicit h =>
    refine ⟨[], [fun b => constructFunc (i b) (ops ++ [d.toList])], by simp [h], fun b freq t k => ⟨by simp, ?_⟩⟩
    simp only [List.map_cons, List.map_nil, List.sum_cons, List.sum_nil, add_zero]
    exact built_meaning _ _ _ _ _ _
  | explicit h' h =>
    refine ⟨[fun b => constructFunc (e b) (ops ++ [d.toList])], [], by simp [h', h], fun b freq t k => ⟨?_, by simp⟩⟩
    simp only [List.map_cons, List.map_nil, List.sum_cons, List.sum_nil, add_zero]
    exact built_meaning _ _ _ _ _ _
  | @mixed f h' h'' h =>
    refine ⟨[fun b => constructFunc (f.2 b) (ops ++ [d.toList])], [fun b => constructFunc (f.1 b) (ops ++ [d.toList])],
      by simp [h', h'', h], fun b freq t k => ⟨?_, ?_⟩⟩
    · simp only [List.map_cons, List.map_nil, List.sum_cons, List.sum_nil, add_zero]
      exact built_meaning _ _ _ _ _ _
    · simp only [List.map_cons, List.map_nil, List.sum_cons, List.sum_nil, add_zero]
      exact built_meaning _ _ _ _ _ _

theorem build_mixed {N : Names} (hN : N.WellNamed) {m0 m : EqModel n} (h0 : StartsAs N m0) {E I : Str → BTerm n}
    (hg : Grown N m0 m) {field : Str} (hf : field ∈ N.fields) : ∀ (L : List (Summand × Option Char)),
    (∀ p ∈ L, Sensible N m0 E I p.1 ∧ Seen N field m p.1) → ∀ rhs : BuiltRHS n,
    ∃ T D, (L.map mixedText).foldlM (buildTerm m field) rhs = some ⟨rhs.terms ++ T, rhs.denum ++ D⟩ ∧
      ∀ (F : Data n → Data n) (u : Str → Data n) (b : Bricks n), Transformed N m F u b →
      ∀ (freq : Frequency n) (t : ℝ) (k : Fin n),
        (T.map fun f => f b freq t k).sum + (D.map fun f => f b freq t k).sum * b field k =
          (L.map (summandSpectrum N E I field F u b freq t k)).sum ∧
        (D.map fun f => f b freq t k).sum = (L.map (summandFactor N I field u b freq t k)).sum
  | [], _, rhs => ⟨[], [], by simp, by simp⟩
  | (s, d) :: L, h, rhs => by
    obtain ⟨T1, D1, e1, v1⟩ : ∃ T D, buildTerm m field rhs (mixedText (s, d)) = some ⟨rhs.terms ++ T, rhs.denum ++ D⟩ ∧
        ∀ (F : Data n → Data n) (u : Str → Data n) (b : Bricks n), Transformed N m F u b →
        ∀ (freq : Frequency n) (t : ℝ) (k : Fin n),
          (T.map fun f => f b freq t k).sum + (D.map fun f => f b freq t k).sum * b field k =
            summandSpectrum N E I field F u b freq t k (s, d) ∧
          (D.map fun f => f b freq t k).sum = summandFactor N I field u b freq t k (s, d) := by
      obtain ⟨h1, h2⟩ := h (s, d) (by simp)
      cases s with
      | product items => exact buildTerm_spec hN h0 hg hf (p := (items, d)) h1.1 h1.2.2 h2 rhs
      | registered ops name =>
        obtain ⟨T, D, e, v⟩ := build_registered hg h1.1 h1.2 field d rhs
        refine ⟨T, D, e, fun F u b hb freq t k => ?_⟩
        rw [(v b freq t k).1, (v b freq t k).2, hb.fields field hf]
        simp only [summandSpectrum, summandFactor]
        exact ⟨by ring, trivial⟩
    obtain ⟨T2, D2, e2, v2⟩ := build_mixed hN h0 hg hf L (fun q hq => h q (by simp [hq]))
      ⟨rhs.terms ++ T1, rhs.denum ++ D1⟩
    refine ⟨T1 ++ T2, D1 ++ D2, ?_, ?_⟩
    · rw [List.map_cons, List.foldlM_cons, e1]
      simpa [List.append_assoc] using e2
    · intro F u b hb freq t k
      obtain ⟨a1, a1'⟩ := v1 F u b hb freq t k
      obtain ⟨a2, a2'⟩ := v2 F u b hb freq t k
      rw [List.map_cons, List.sum_cons, ← a1, ← a2, List.map_cons, List.sum_cons, ← a1', ← a2']
      simp only [List.map_append, List.sum_append]
      exact ⟨by ring, trivial⟩

/-- C128: equations may mix products, implicit, explicit and mixed registered terms in any order. All equations are
accepted, and in every bin the explicit part plus the implicit part times the field is the sum of what the terms stand
for, with the signs as written; the implicit part is the sum of the factors of the products that are linear in the
field and of the implicit parts of the registered terms. -/
theorem c128_spectrum (N : Names) (hN : N.WellNamed) (m0 : EqModel n) (h0 : StartsAs N m0) (E I : Str → BTerm n)
    (heq : m0.equations = []) (eqs : List MixedEquation) (hq : ∀ eq ∈ eqs, MixedEquation.Good N m0 E I eq)
    (ss : List Str) (hs : ss.map (fun s => s.filter fun c => c ≠ ' ') = eqs.map MixedEquation.text) :
    ∃ m Rs, ss.foldlM EqModel.addEquation m0 = some m ∧ m.initRHS = some Rs ∧
      List.Forall₂ (fun (eq : MixedEquation) (R : BuiltRHS n) =>
        ∀ (F : Data n → Data n) (u : Str → Data n) (b : Bricks n), Transformed N m F u b →
        ∀ (freq : Frequency n) (t : ℝ) (k : Fin n),
          (R.terms.map fun f => f b freq t k).sum + (R.denum.map fun f => f b freq t k).sum * F (u eq.field) k =
            (eq.terms.map (summandSpectrum N E I eq.field F u b freq t k)).sum ∧
          (R.denum.map fun f => f b freq t k).sum =
            (eq.terms.map (summandFactor N I eq.field u b freq t k)).sum) eqs Rs := by
  obtain ⟨m, h1, hg, h3, -, h5⟩ := add_mixed hN eqs ss m0 (grown_start hN h0) hq hs
  rw [heq, List.nil_append] at h3
  suffices h : ∀ l : List MixedEquation, (∀ eq ∈ l, eq ∈ eqs) →
      ∃ Rs, (l.map MixedEquation.text).mapM (fun s => build s m) = some Rs ∧
      List.Forall₂ (fun (eq : MixedEquation) (R : BuiltRHS n) =>
        ∀ (F : Data n → Data n) (u : Str → Data n) (b : Bricks n), Transformed N m F u b →
        ∀ (freq : Frequency n) (t : ℝ) (k : Fin n),
          (R.terms.map fun f => f b freq t k).sum + (R.denum.map fun f => f b freq t k).sum * F (u eq.field) k =
            (eq.terms.map (summandSpectrum N E I eq.field F u b freq t k)).sum ∧
          (R.denum.map fun f => f b freq t k).sum =
            (eq.terms.map (summandFactor N I eq.field u b freq t k)).sum) l Rs by
    obtain ⟨Rs, e1, e2⟩ := h eqs fun _ h => h
    exact ⟨m, Rs, h1, by rw [EqModel.initRHS, h3]; exact e1, e2⟩
  intro l
  induction l with
  | nil => exact fun _ => ⟨[], by simp, List.Forall₂.nil⟩
  | cons eq l ih =>
    intro hl
    obtain ⟨Rs, e1, e2⟩ := ih fun q hq' => hl q (by simp [hq'])
    have hmem := hl eq (by simp)
    have hp := hq eq hmem
    obtain ⟨s1, s2, L, hL, s3⟩ := split_mixed hN hp
    obtain ⟨T, D, b1, b2⟩ := build_mixed hN h0 hg hp.field L (fun p hp' =>
      ⟨hp.terms p (hL.subset hp'), h5 eq hmem p (hL.subset hp')⟩) ⟨[], []⟩
    have hb : build eq.text m = some ⟨T, D⟩ := by
      unfold build
      rw [s1]
      simp only [s2, s3]
      simpa using b1
    refine ⟨⟨T, D⟩ :: Rs, ?_, List.Forall₂.cons ?_ e2⟩
    · rw [List.map_cons, List.mapM_cons, hb, e1]; rfl
    · intro F u b hbr freq t k
      obtain ⟨a1, a2⟩ := b2 F u b hbr freq t k
      rw [← (hL.map _).sum_eq, ← (hL.map _).sum_eq, ← a1, ← a2, hbr.fields _ hp.field]
      exact ⟨rfl, rfl⟩

/-! ### A time step -/

/-- C128: an Euler step without filter: `(1 - dt A)` times the new spectrum is the old spectrum plus `dt` times the sum
of what the terms of the equation at position `i` stand for, without the implicit part. `A` is the sum of the factors
of linear products and implicit terms; registered terms see the transformed fields, derived fields and scalars before
the step. -/
theorem c128_step (h : ∀ d ∈ dims, 0 < d) (N : Names) (hN : N.WellNamed) (m0 : EqModel dims.prod)
    (h0 : StartsAs N m0) (heq : m0.equations = []) (hfun : ∀ p ∈ m0.derived, ReadsFields N p.2)
    (E I : Str → BTerm dims.prod)
    (eqs : List MixedEquation) (hq : ∀ eq ∈ eqs, MixedEquation.Good N m0 E I eq)
    (ss : List Str) (hs : ss.map (fun s => s.filter fun c => c ≠ ' ') = eqs.map MixedEquation.text)
    (hlen : N.fields.length ≤ eqs.length) (c : Str → ℂ) :
    ∃ m M, ss.foldlM EqModel.addEquation m0 = some m ∧ m.fields = N.fields ∧ m.assemble c = some M ∧
      ∀ (i : Fin m.fields.length) (eq : MixedEquation), eqs[i.val]? = some eq →
      ReadsNoEarlierField M i → ∀ (s : Stepper dims.prod), s.filter = none →
      ∀ (st : Store m.fields.length m.derived.length dims.prod) (u : Str → Data dims.prod),
      (∀ j : Fin m.fields.length, u m.fields[j] = st.fields j) → (∀ x ∈ N.scalars, u x = fun _ => c x) →
      (∀ p ∈ m0.derived, u p.1 = p.2.eval u) →
      ∃ b : Bricks dims.prod, (∀ x ∈ N.fields, b x = fft dims (u x)) ∧ (∀ x ∈ N.scalars, b x = fun _ => c x) ∧
      (∀ p ∈ m.derived, b p.1 = fft dims (p.2.eval u)) ∧
      ∀ k, 1 - s.dt * (eq.terms.map (summandFactor N I eq.field u b s.freq s.getTime k)).sum ≠ 0 →
        (1 - s.dt * (eq.terms.map (summandFactor N I eq.field u b s.freq s.getTime k)).sum) *
          fft dims ((eulerStep M (s, st)).2.fields i) k =
        fft dims (st.fields i) k + s.dt *
          ((eq.terms.map (summandSpectrum N E I eq.field (fft dims) u b s.freq s.getTime k)).sum -
          (eq.terms.map (summandFactor N I eq.field u b s.freq s.getTime k)).sum * fft dims (u eq.field) k) := by
  obtain ⟨m, hadd, hg, -, ⟨l, hl⟩, -⟩ := add_mixed hN eqs ss m0 (grown_start hN h0) hq hs
  obtain ⟨m', Rs, hadd', hinit, hall⟩ := c128_spectrum N hN m0 h0 E I heq eqs hq ss hs
  rw [hadd] at hadd'
  obtain rfl := Option.some.inj hadd'
  have hRlen : m.fields.length ≤ Rs.length := by rw [← hall.length_eq, hg.fields]; exact hlen
  refine ⟨m, _, hadd, hg.fields, by rw [EqModel.assemble, hinit]; simp only [dif_pos hRlen]; rfl, ?_⟩
  intro i eq hi hread s hfil st u hu hc hf
  set M : Model m.fields.length m.derived.length dims.prod :=
    { calcs := fun d st => (m.derived[d]).2.eval (m.brick c st)
      terms := fun i => (Rs[i]'(i.2.trans_le hRlen)).terms.map fun f st => f (m.brick c st)
      denum := fun i => (Rs[i]'(i.2.trans_le hRlen)).denum.map fun f st => f (m.brick c st)
      sources := fun _ => []
      modifiers := [] } with hM
  have hFO : FieldsOnly M := by
    intro d st st' hst
    refine calc_reads hg hfun (List.getElem_mem d.2) _ _ ?_ ?_
    · intro x hx
      rw [← hg.fields] at hx
      obtain ⟨j, hj, rfl⟩ := List.getElem_of_mem hx
      exact (brick_field hN hg ⟨j, hj⟩ c st).trans
        ((congrFun hst ⟨j, hj⟩).trans (brick_field hN hg ⟨j, hj⟩ c st').symm)
    · intro x hx
      rw [brick_scalar hN hg hx, brick_scalar hN hg hx]
  have hstep := c22_euler h M hFO i hread s hfil st
  dsimp only at hstep
  set before : Store m.fields.length m.derived.length dims.prod :=
    ⟨fun j => fft dims (st.fields j), fun d => fft dims (M.calcs d st)⟩ with hbefore
  obtain ⟨hb1, hb2⟩ := brick_congr hN hg hu hc
  have hcalc : ∀ d : Fin m.derived.length, M.calcs d st = (m.derived[d]).2.eval u := fun d =>
    calc_reads hg hfun (List.getElem_mem d.2) _ _ hb1 hb2
  have htr : Transformed N m (fft dims) u (m.brick c before) := by
    refine ⟨?_, ?_, ?_, ?_⟩
    · intro x hx
      rw [← hg.fields] at hx
      obtain ⟨j, hj, rfl⟩ := List.getElem_of_mem hx
      exact (brick_field hN hg ⟨j, hj⟩ c before).trans (congrArg (fft dims) (hu ⟨j, hj⟩).symm)
    · intro x hx
      rw [brick_scalar hN hg hx, hc x hx]
    · intro p hp
      obtain ⟨d, hd, rfl⟩ := List.getElem_of_mem hp
      exact (brick_derived hN hg ⟨d, hd⟩ c before).trans (congrArg (fft dims) (hcalc ⟨d, hd⟩))
    · intro p hp hpf
      rw [← h0.functions] at hpf
      obtain ⟨q, hq', hqp⟩ := List.mem_map.mp hpf
      have hqm : q ∈ m.derived := by rw [hl]; simp [hq']
      have : q = p := List.inj_on_of_nodup_map hg.keys hqm hp hqp
      rw [← this]
      exact hf q hq'
  refine ⟨m.brick c before, htr.fields, fun x hx => by rw [htr.scalars x hx, hc x hx], htr.derived, ?_⟩
  intro k hne
  have hlt : i.val < eqs.length := (List.getElem?_eq_some_iff.mp hi).1
  have hget : eqs[i.val] = eq := (List.getElem?_eq_some_iff.mp hi).2
  obtain ⟨hsum, hden⟩ := (List.forall₂_iff_get.mp hall).2 i.val hlt (i.2.trans_le hRlen) (fft dims) u _ htr s.freq
    s.getTime k
  simp only [List.get_eq_getElem, hget] at hden hsum
  have hR : M.getRHS i before s.freq (s.currentStep * s.dt) k =
      ((Rs[i.val]'(i.2.trans_le hRlen)).terms.map fun f => f (m.brick c before) s.freq s.getTime k).sum := by
    rw [c21_rhs]
    simp [hM, Function.comp_def, Stepper.getTime]
  have hD : M.getDenum i before s.freq (s.currentStep * s.dt) k =
      ((Rs[i.val]'(i.2.trans_le hRlen)).denum.map fun f => f (m.brick c before) s.freq s.getTime k).sum := by
    rw [c21_denum]
    simp [hM, Function.comp_def, Stepper.getTime]
  have hst := hstep k
  rw [hD, hR, hden] at hst
  rw [hden] at hsum
  rw [hst, ← hsum]
  field_simp
  ring

/-! ### Conservation -/

/-- A term without a uniform part: a product with a Laplacian, or a registered term that has none at frequency zero,
perhaps because of a Laplacian in front of it. -/
def SpreadsOnly (freq : Frequency n) (E I : Str → BTerm n) : Summand → Prop
  | .product items => (laplacians items).sum ≠ 0
  | .registered ops name => (∃ p ∈ ops, p = "LAP".toList ∨ p = "LAP^2".toList ∨ p = "LAP^4".toList) ∨
      ∀ b t (k : Fin n), k.val = 0 → E name b freq t k = 0 ∧ I name b freq t k = 0

theorem operators_zero {f : List ℝ} (hf : laplaceSymbol f = 0) {ops : List Str}
    (h : ∃ p ∈ ops, p = "LAP".toList ∨ p = "LAP^2".toList ∨ p = "LAP^4".toList) :
    (ops.map fun p => prefixSymbol p f).prod = 0 := by
  obtain ⟨p, hp, h⟩ := h
  apply List.prod_eq_zero
  refine List.mem_map.mpr ⟨p, hp, ?_⟩
  rcases h with rfl | rfl | rfl
  · rw [prefixSymbol, if_neg (by decide), if_pos rfl, hf]
  · rw [prefixSymbol, if_neg (by decide), if_neg (by decide), if_pos rfl, hf]
    simp
  · rw [prefixSymbol, if_neg (by decide), if_neg (by decide), if_neg (by decide), if_pos rfl, hf]
    simp

theorem build_spreads {N : Names} (hN : N.WellNamed) {m0 m : EqModel n} {E I : Str → BTerm n}
    (hg : Grown N m0 m) {field : Str} (hf : field ∈ N.fields) {freq : Frequency n}
    (hz : ∀ k : Fin n, k.val = 0 → laplaceSymbol (freq k) = 0) : ∀ (L : List (Summand × Option Char)),
    (∀ p ∈ L, Sensible N m0 E I p.1 ∧ Seen N field m p.1 ∧ SpreadsOnly freq E I p.1) → ∀ rhs : BuiltRHS n,
    ∃ T D, (L.map mixedText).foldlM (buildTerm m field) rhs = some ⟨rhs.terms ++ T, rhs.denum ++ D⟩ ∧
      ∀ (b : Bricks n) (t : ℝ) (k : Fin n), k.val = 0 →
        (T.map fun f => f b freq t k).sum = 0 ∧ (D.map fun f => f b freq t k).sum = 0
  | [], _, rhs => ⟨[], [], by simp, by simp⟩
  | (s, d) :: L, h, rhs => by
    obtain ⟨T1, D1, e1, v1⟩ : ∃ T D, buildTerm m field rhs (mixedText (s, d)) = some ⟨rhs.terms ++ T, rhs.denum ++ D⟩ ∧
        ∀ (b : Bricks n) (t : ℝ) (k : Fin n), k.val = 0 →
          (T.map fun f => f b freq t k).sum = 0 ∧ (D.map fun f => f b freq t k).sum = 0 := by
      obtain ⟨h1, h2, h3⟩ := h (s, d) (by simp)
      cases s with
      | product items =>
        obtain ⟨T, D, e, ⟨x, -, v⟩, w⟩ := buildTerm_shape hN hg hf (p := (items, d)) h1.1 h1.2.2 h2 rhs
        refine ⟨T, D, e, fun b t k hk => ?_⟩
        have h3 : (laplacians items).sum ≠ 0 := h3
        rw [v, w]
        unfold explicitFactor linearFactor
        rw [hz k hk, zero_pow_prod, if_neg h3]
        constructor <;> split_ifs <;> simp
      | registered ops name =>
        obtain ⟨T, D, e, v⟩ := build_registered hg h1.1 h1.2 field d rhs
        refine ⟨T, D, e, fun b t k hk => ?_⟩
        rw [(v b freq t k).1, (v b freq t k).2]
        rcases h3 with h3 | h3
        · rw [operators_zero (hz k hk) h3]
          simp
        · rw [(h3 b t k hk).1, (h3 b t k hk).2]
          simp
    obtain ⟨T2, D2, e2, v2⟩ := build_spreads hN hg hf hz L (fun q hq => h q (by simp [hq]))
      ⟨rhs.terms ++ T1, rhs.denum ++ D1⟩
    refine ⟨T1 ++ T2, D1 ++ D2, ?_, ?_⟩
    · rw [List.map_cons, List.foldlM_cons, e1]
      simpa [List.append_assoc] using e2
    · intro b t k hk
      simp only [List.map_append, List.sum_append, (v1 b t k hk).1, (v1 b t k hk).2, (v2 b t k hk).1, (v2 b t k hk).2,
        add_zero, and_self]

private theorem mapM_results {α β : Type} (f : α → Option β) : ∀ (l : List α) (l' : List β), l.mapM f = some l' →
    List.Forall₂ (fun a b => f a = some b) l l'
  | [], l', h => by
    simp only [List.mapM_nil] at h
    obtain rfl := Option.some.inj h
    exact .nil
  | a :: l, l', h => by
    rw [List.mapM_cons] at h
    simp only [Option.bind_eq_bind, Option.bind_eq_some_iff] at h
    obtain ⟨b, hb, bs, hbs, e⟩ := h
    obtain rfl := Option.some.inj e
    exact .cons hb (mapM_results f l bs hbs)

/-- C128: if every term of an equation is a product with a Laplacian or a registered term without a uniform part, the
sum of its field over the nodes is the same after any session in which the filters are one at frequency zero. -/
theorem c128_conserved (h : GoodDims (intDims dims)) (N : Names) (hN : N.WellNamed)
    (m0 : EqModel dims.prod) (h0 : StartsAs N m0) (heq : m0.equations = []) (E I : Str → BTerm dims.prod)
    (eqs : List MixedEquation) (hq : ∀ eq ∈ eqs, MixedEquation.Good N m0 E I eq)
    (hcount : N.fields.length ≤ eqs.length)
    (ss : List Str) (hs : ss.map (fun s => s.filter fun c => c ≠ ' ') = eqs.map MixedEquation.text) (c : Str → ℂ) :
    ∃ m M, ss.foldlM EqModel.addEquation m0 = some m ∧ m.fields = N.fields ∧ m.assemble c = some M ∧
      ∀ (i : Fin m.fields.length) (eq : MixedEquation), eqs[i.val]? = some eq →
      (∀ p ∈ eq.terms, SpreadsOnly (freqOf dims) E I p.1) →
      ∀ (bricks : Str → Option (BrickRef m.fields.length m.derived.length)) (dt : ℝ)
        (fields : Fin m.fields.length → List ℂ) (derived : Fin m.derived.length → Data dims.prod)
        (s r : SolverState m.fields.length m.derived.length dims),
      newSolver dims dt fields derived = some s → ∀ calls : List SolverCall,
      (∀ f, SolverCall.setFilter f ∈ calls → f 0 = 1) → s.session M bricks calls = some r →
        ∑ x, r.store.fields i x = ∑ x, s.store.fields i x := by
  obtain ⟨m, hadd, hg, hme, -, hseen⟩ := add_mixed hN eqs ss m0 (grown_start hN h0) hq hs
  obtain ⟨m', Rs, hadd', hinit, hall⟩ := c128_spectrum N hN m0 h0 E I heq eqs hq ss hs
  rw [hadd] at hadd'
  obtain rfl := Option.some.inj hadd'
  have hRlen : m.fields.length ≤ Rs.length := by rw [← hall.length_eq, hg.fields]; exact hcount
  refine ⟨m, _, hadd, hg.fields, by rw [EqModel.assemble, hinit]; simp only [dif_pos hRlen]; rfl, ?_⟩
  intro i eq hi hdiv bricks dt fields derived s r hnew calls hf hr
  refine c116_session _ h i ?_ bricks dt fields derived s r hnew calls hf hr
  intro st t k hk
  have hlt : i.val < eqs.length := (List.getElem?_eq_some_iff.mp hi).1
  have hget : eqs[i.val] = eq := (List.getElem?_eq_some_iff.mp hi).2
  have hmem : eq ∈ eqs := hget ▸ List.getElem_mem hlt
  have hp := hq eq hmem
  obtain ⟨s1, s2, L, hL, s3⟩ := split_mixed hN hp
  obtain ⟨T, D, b1, b2⟩ := build_spreads hN hg hp.field (freq := freqOf dims) (fun k hk => symbol_origin h k hk) L
    (fun p hp' => ⟨hp.terms p (hL.subset hp'), hseen eq hmem p (hL.subset hp'), hdiv p (hL.subset hp')⟩) ⟨[], []⟩
  have hb : build eq.text m = some ⟨T, D⟩ := by
    unfold build
    rw [s1]
    simp only [s2, s3]
    simpa using b1
  have hRi : Rs[i.val]'(i.2.trans_le hRlen) = ⟨T, D⟩ := by
    rw [EqModel.initRHS, hme, heq, List.nil_append] at hinit
    have h2 := (List.forall₂_iff_get.mp (mapM_results _ _ _ hinit)).2 i.val (by simpa using hlt) (i.2.trans_le hRlen)
    simp only [List.get_eq_getElem, List.getElem_map, hget] at h2
    rw [hb] at h2
    exact (Option.some.inj h2).symm
  rw [c21_rhs, c21_denum]
  have := b2 (m.brick c st) t k hk
  simp only [Fin.getElem_fin, hRi, List.map_map, Function.comp_def, this.2]
  simpa using this.1

/-! ### Operators in front of names that contain the name of a field -/

/-- The model with the fields `conc` and `eta` in which `conc_chem` is registered as an explicit term. -/
def chemModel : EqModel 1 :=
  { ((EqModel.empty (n := 1)).addField "conc".toList).addField "eta".toList with
    explicitTerms := [("conc_chem".toList, fun _ _ _ _ => 0)] }

/-- The derived fields after the equation was added, with the factors of the product they are computed from. -/
def chemDerived (equation : String) : Option (List (Str × List (Str × ℚ))) :=
  (chemModel.addEquation equation.toList).map fun m => m.derived.map fun p => (p.1, match p.2 with
    | .product factors => factors
    | .function _ => [])

/-- C128: the condition on operators cannot be dropped. With the fields `conc` and `eta` and the registered term
`conc_chem`, the equation `deta/dt=LAPconc_chem` adds a derived field that is to be computed from a field `conc_chem`,
which does not exist; without the Laplacian no derived field is added. -/
theorem c128_operator_in_front :
    chemDerived "deta/dt=LAPconc_chem" = some [("conc_chem".toList, [("conc_chem".toList, 1)])] ∧
    "conc_chem".toList ∉ chemModel.fields ∧ chemDerived "deta/dt=conc_chem" = some [] := by
  refine ⟨?_, by decide, ?_⟩ <;> decide +kernel

/-! ### The conditions are met -/

/-- `dconc/dt=LAPCHEM-LAPconc`. -/
def chemEquation : MixedEquation :=
  ⟨"conc".toList, none, .registered ["LAP".toList] "CHEM".toList,
    [('-', .product [⟨some none, some ⟨"conc".toList, none⟩⟩])]⟩

/-- One field `conc` and one explicit term `CHEM`. -/
def withChem (f : BTerm n) : EqModel n :=
  { (EqModel.empty (n := n)).addField "conc".toList with explicitTerms := [("CHEM".toList, f)] }

theorem chem_text : removeKnownPrefixes (productText [⟨some none, some ⟨"conc".toList, none⟩⟩]) = "conc".toList := by
  refine (read_operators "conc".toList ((c98_accepted _).mpr (by decide)) (by decide) ["LAP".toList] ?_).2
  intro p hp
  obtain rfl := List.mem_singleton.mp hp
  exact List.mem_map.mpr ⟨"LAP", by decide, rfl⟩

theorem chem_unregistered (f : BTerm n) : (withChem f).isUserDefinedTerm
    (removeKnownPrefixes (productText [⟨some none, some ⟨"conc".toList, none⟩⟩])) = false := by
  rw [chem_text]
  rfl

theorem chem_good (f : BTerm n) :
    MixedEquation.Good concNames (withChem f) (fun _ => f) (fun _ _ _ _ _ => 0) chemEquation where
  field := by decide
  lead := by simp [chemEquation]
  signs := by simp [chemEquation]
  terms := by
    intro p hp
    have hp : p ∈ [(Summand.registered ["LAP".toList] "CHEM".toList, none),
      (Summand.product [⟨some none, some ⟨"conc".toList, none⟩⟩], some '-')] := hp
    simp only [List.mem_cons, List.not_mem_nil, or_false] at hp
    rcases hp with rfl | rfl
    · refine ⟨⟨?_, (c98_accepted _).mpr (by decide), by decide, ⟨by decide, by decide⟩, by decide, Or.inr ?_⟩,
        .explicit rfl rfl⟩
      · intro p hp
        obtain rfl := List.mem_singleton.mp hp
        exact List.mem_map.mpr ⟨"LAP", by decide, rfl⟩
      · intro x hx
        obtain rfl := List.mem_singleton.mp hx
        decide
    · exact ⟨conc_term _ (Or.inl rfl) _ (Or.inl rfl), rfl, chem_unregistered f⟩

example (f : BTerm [4, 4].prod) :
    ((EqModel.empty (n := [4, 4].prod)).addField "conc".toList).registerExplicit "CHEM".toList f = some (withChem f) ∧
    concNames.WellNamed ∧ StartsAs concNames (withChem f) ∧ (withChem f).equations = [] ∧
    MixedEquation.Good concNames (withChem f) (fun _ => f) (fun _ _ _ _ _ => 0) chemEquation ∧
    ["dconc/dt = LAP CHEM - LAP conc".toList].map (fun s => s.filter fun c => c ≠ ' ') =
      [chemEquation].map MixedEquation.text ∧
    (∀ p ∈ chemEquation.terms, SpreadsOnly (freqOf [4, 4]) (fun _ => f) (fun _ _ _ _ _ => 0) p.1) := by
  refine ⟨?_, conc_wellNamed, ⟨rfl, rfl, fun x => Iff.rfl⟩, rfl, chem_good f, by decide, ?_⟩
  · unfold EqModel.registerExplicit
    rw [(c98_accepted "CHEM".toList).mpr (by decide)]
    rfl
  · intro p hp
    have hp : p ∈ [(Summand.registered ["LAP".toList] "CHEM".toList, none),
      (Summand.product [⟨some none, some ⟨"conc".toList, none⟩⟩], some '-')] := hp
    simp only [List.mem_cons, List.not_mem_nil, or_false] at hp
    rcases hp with rfl | rfl
    · exact Or.inl ⟨_, List.mem_singleton.mpr rfl, Or.inl rfl⟩
    · show (laplacians _).sum ≠ 0
      decide

end Gopf.Props
