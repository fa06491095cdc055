import Verif.Proofs.Equation

/-!
# Facts about adding all equations and building the right-hand sides
-/

namespace Gopf.Pf
open Spec Props

theorem goSplit_two {c : Char} {a b : Str} (ha : c ∉ a) (hb : c ∉ b) : goSplit c (a ++ c :: b) = [a, b] := by
  obtain ⟨h, t, h1, h2⟩ := goSplit_append ha (c :: b)
  rw [h2]
  simp only [goSplit, if_true, goSplit_none hb, List.cons.injEq] at h1
  obtain ⟨rfl, rfl⟩ := h1
  simp

theorem leibniz {field : Str} (h : field ≠ []) :
    fieldNameFromLeibniz ('d' :: (field ++ ['/', 'd', 't'])) = some field := by
  have hl := List.length_pos_iff.mpr h
  have e1 : ('d' :: (field ++ ['/', 'd', 't'])).length - 3 = ('d' :: field).length := by simp
  have e2 : 'd' :: (field ++ ['/', 'd', 't']) = ('d' :: field) ++ ['/', 'd', 't'] := rfl
  unfold fieldNameFromLeibniz
  rw [if_neg (by simp only [List.length_cons, List.length_append, List.length_nil]; omega), if_neg, e1, e2, List.take_left' rfl]
  · rfl
  · rw [e1, e2, List.drop_left' rfl]
    simp

variable {N : Names} (hN : N.WellNamed)

include hN in
theorem item_chars {i : Item} (hi : i.WellFormed N) {c : Char} (hc : c ∈ i.text) :
    IdentChar c ∨ c = '^' ∨ c = '.' := by
  obtain ⟨lap, fac⟩ := i
  rw [Item.text, List.mem_append] at hc
  have digit : ∀ {d : Char}, d.isDigit = true → IdentChar d := fun h => Or.inl (by simp [Char.isAlphanum, h])
  rcases hc with hc | hc
  · cases lap with
    | none => simp [lapText] at hc
    | some k =>
      have lap3 : ∀ x ∈ ['L', 'A', 'P'], IdentChar x := by
        intro x hx
        simp only [List.mem_cons, List.not_mem_nil, or_false] at hx
        rcases hx with rfl | rfl | rfl <;> exact Or.inl (by decide)
      cases k with
      | none => exact Or.inl (lap3 c hc)
      | some k =>
        simp only [lapText, List.mem_append, List.mem_cons, List.not_mem_nil, or_false] at hc
        rcases hc with (h | h | h | h) | hc
        · exact Or.inl (lap3 c (by simp [h]))
        · exact Or.inl (lap3 c (by simp [h]))
        · exact Or.inl (lap3 c (by simp [h]))
        · exact Or.inr (Or.inl h)
        · exact Or.inl (digit ((hi.lapPow k rfl).2 c hc))
  · cases fac with
    | none => simp [facText] at hc
    | some f =>
      rw [facText, Factor.text, List.mem_append] at hc
      rcases hc with hc | hc
      · exact Or.inl ((hN.ident f.name (hi.known f rfl)).2 c hc)
      · rcases power_chars (hi.exp f rfl) hc with h | h | h
        · exact Or.inr (Or.inl h)
        · exact Or.inl (digit h)
        · exact Or.inr (Or.inr h)

theorem mem_intercalate {c : Char} : ∀ {ss : List Str}, c ∈ List.intercalate ['*'] ss → c = '*' ∨ ∃ s ∈ ss, c ∈ s
  | [], h => by simp [List.intercalate] at h
  | [s], h => Or.inr ⟨s, by simp, by simpa [List.intercalate] using h⟩
  | s :: t :: ss, h => by
    rw [intercalate_cons, tailText, ← intercalate_cons, List.mem_append, List.mem_cons] at h
    rcases h with h | h | h
    · exact Or.inr ⟨s, by simp, h⟩
    · exact Or.inl h
    · rcases mem_intercalate h with h | ⟨x, hx, h⟩
      · exact Or.inl h
      · exact Or.inr ⟨x, by simp [hx], h⟩

include hN in
theorem product_free {items : List Item} (hw : ∀ i ∈ items, i.WellFormed N) {c : Char}
    (h1 : c.isAlphanum = false) (h2 : c ∉ ['_', '^', '.', '*']) : c ∉ productText items := by
  intro hc
  rcases mem_intercalate hc with rfl | ⟨s, hs, hc⟩
  · simp at h2
  · obtain ⟨i, hi, rfl⟩ := List.mem_map.mp hs
    rcases item_chars hN (hw i hi) hc with (h | h) | h | h
    · simp [h1] at h
    · simp [h] at h2
    · simp [h] at h2
    · simp [h] at h2

include hN in
theorem product_isTerm {items : List Item} (hm : Monomial N items) : IsTerm ['+', '-'] (productText items) := by
  have hw := hm.readable.wf
  refine ⟨?_, ?_⟩
  · have : factorsIn N.varying items ≠ [] := by
      rcases hm.kind with ⟨h, h'⟩ | ⟨g, _, h⟩
      · rwa [factorsIn_varying h]
      · rw [h]; simp
    obtain ⟨f, hf⟩ := List.exists_mem_of_ne_nil _ this
    simp only [factorsIn, List.mem_filter, decide_eq_true_eq] at hf
    obtain ⟨i, hi, hif⟩ := List.mem_filterMap.mp hf.1
    obtain ⟨h, a, c, t, hs⟩ := shape hN hf.2
    obtain ⟨pre, post, rfl⟩ := List.append_of_mem hi
    rw [productText, List.map_append, List.map_cons, intercalate_split]
    obtain ⟨e, he, ht⟩ := text_of_name (i := i) (g := f.name) (by simp [Item.name?, hif])
    rw [ht]
    simp [hs.ne]
  · intro c hc hcs
    rcases List.mem_cons.mp hcs with rfl | hcs
    · exact product_free hN hw (by decide) (by decide) hc
    · rw [List.mem_singleton] at hcs
      subst hcs
      exact product_free hN hw (by decide) (by decide) hc

theorem mem_renderTail {c : Char} : ∀ {l : List (Char × Str)}, c ∈ renderTail l →
    ∃ p ∈ l, c = p.1 ∨ c ∈ p.2
  | [], h => by simp [renderTail] at h
  | (d, t) :: l, h => by
    rw [renderTail, List.mem_cons, List.mem_append] at h
    rcases h with h | h | h
    · exact ⟨(d, t), by simp, Or.inl h⟩
    · exact ⟨(d, t), by simp, Or.inr h⟩
    · obtain ⟨p, hp, h⟩ := mem_renderTail h
      exact ⟨p, by simp [hp], h⟩

include hN in
theorem render_free {eq : Equation} (hq : eq.Polynomial N) : '=' ∉ eq.sum.render := by
  have hsign : ∀ c : Char, c = '+' ∨ c = '-' → c ≠ '=' := by rintro c (rfl | rfl) <;> decide
  have hmon : ∀ p ∈ eq.terms, '=' ∉ productText p.1 := fun p hp =>
    product_free hN (hq.monomials p hp).readable.wf (by decide) (by decide)
  intro hc
  simp only [SignedSum.render, Equation.sum, List.mem_append] at hc
  rcases hc with (hc | hc) | hc
  · exact hsign _ (hq.lead '=' (by simpa using hc)) rfl
  · exact hmon (eq.head, eq.lead) (by simp [Equation.terms]) hc
  · obtain ⟨p, hp, h⟩ := mem_renderTail hc
    obtain ⟨q, hq', rfl⟩ := List.mem_map.mp hp
    rcases h with h | h
    · exact hsign _ (hq.signs q hq') h.symm
    · exact hmon (q.2, some q.1) (by simp only [Equation.terms, List.mem_cons, List.mem_map]; exact Or.inr ⟨q, hq', rfl⟩) h

/-- The pairs of text and sign the parser works with. -/
def pairText (p : List Item × Option Char) : SubDelim := ⟨productText p.1, p.2⟩

include hN in
theorem split_equation {eq : Equation} (hq : eq.Polynomial N) :
    goSplit '=' eq.text = ['d' :: (eq.field ++ ['/', 'd', 't']), eq.sum.render] ∧
    fieldNameFromLeibniz ('d' :: (eq.field ++ ['/', 'd', 't'])) = some eq.field ∧
    ∃ L : List (List Item × Option Char), L.Perm eq.terms ∧
      splitOnMany eq.sum.render ['+', '-'] = some (L.map pairText) := by
  obtain ⟨h, a, c, t, hs⟩ := shape hN (g := eq.field) (by simp [Names.varying, hq.field])
  refine ⟨?_, leibniz hs.ne, ?_⟩
  · have e1 : eq.text = ('d' :: (eq.field ++ ['/', 'd', 't'])) ++ '=' :: eq.sum.render := by
      simp [Equation.text]
    rw [e1]
    apply goSplit_two _ (render_free hN hq)
    intro hc
    simp only [List.mem_cons, List.mem_append, List.not_mem_nil, or_false] at hc
    rcases hc with hc | hc | hc | hc | hc
    · exact absurd hc (by decide)
    · exact hs.notMem (by decide) (by decide) |>.2 hc
    all_goals exact absurd hc (by decide)
  · have hwf : eq.sum.WellFormed ['+', '-'] := by
      refine ⟨?_, product_isTerm hN (hq.monomials (eq.head, eq.lead) (by simp [Equation.terms])), ?_⟩
      · intro c hc
        have := hq.lead c hc
        simpa using this
      · intro p hp
        obtain ⟨q, hq', rfl⟩ := List.mem_map.mp hp
        refine ⟨by simpa using hq.signs q hq', product_isTerm hN (hq.monomials (q.2, some q.1) ?_)⟩
        simp only [Equation.terms, List.mem_cons, List.mem_map]; exact Or.inr ⟨q, hq', rfl⟩
    obtain ⟨res, hres, hperm⟩ := c13_split _ _ hwf
    have ht : eq.sum.terms = eq.terms.map fun p => (productText p.1, p.2) := by
      simp [SignedSum.terms, Equation.sum, Equation.terms]
    rw [ht] at hperm
    obtain ⟨L, hL, hLe⟩ := perm_map_exists _ _ _ hperm
    refine ⟨L, hL, ?_⟩
    rw [hres]
    congr 1
    have hinj : ∀ (r : List SubDelim) (L : List (List Item × Option Char)),
        (r.map fun x => (x.sub, x.delim)) = L.map (fun p => (productText p.1, p.2)) → r = L.map pairText := by
      intro r
      induction r with
      | nil => intro L h; cases L <;> simp_all
      | cons x r ih =>
        intro L h
        cases L with
        | nil => simp at h
        | cons p L =>
          simp only [List.map_cons, List.cons.injEq, Prod.mk.injEq] at h
          rw [List.map_cons, ih L h.2, pairText, ← h.1.1, ← h.1.2]
    exact hinj res L hLe

/-! ### Adding equations -/

variable {n : ℕ}

/-- No term of the equation was registered by the user. -/
def Unregistered (m : EqModel n) (eq : Equation) : Prop :=
  ∀ p ∈ eq.terms, m.isUserDefinedTerm (productText p.1) = false ∧
    m.isUserDefinedTerm (removeKnownPrefixes (productText p.1)) = false

theorem known_mono {m m' : EqModel n} {field : Str} {items : List Item} (hf : m'.fields = m.fields)
    (hd : ∃ l, m'.derived = m.derived ++ l) (h : Known N field m items) : Known N field m' items := by
  rcases h with h | ⟨D, h1, h2⟩
  · exact Or.inl h
  · refine Or.inr ⟨D, h1, ?_⟩
    obtain ⟨l, hl⟩ := hd
    simp only [EqModel.allFieldNames, hf, hl, List.map_append, List.mem_append] at h2 ⊢
    tauto

include hN in
theorem update_terms {m0 : EqModel n} {field : Str} (hf : field ∈ N.fields) :
    ∀ (L : List (List Item × Option Char)) (m : EqModel n), Grown N m0 m →
    (∀ p ∈ L, Monomial N p.1 ∧ m0.isUserDefinedTerm (productText p.1) = false) →
    ∃ m', (L.map fun p => productText p.1).foldlM (EqModel.updateOne field) m = some m' ∧ Grown N m0 m' ∧
      m'.equations = m.equations ∧ (∃ l, m'.derived = m.derived ++ l ∧
        ∀ q ∈ l, ∃ p ∈ L, ∀ u : Bricks n, q.2.eval u = productValue (factorsIn N.fields p.1) u) ∧
      ∀ p ∈ L, Known N field m' p.1
  | [], m, hg, _ => ⟨m, rfl, hg, rfl, ⟨[], by simp, by simp⟩, by simp⟩
  | p :: L, m, hg, h => by
    obtain ⟨hm, hu⟩ := h p (by simp)
    obtain ⟨m1, h1, h2, h3, ⟨l1, h4, h4'⟩, h5⟩ := updateOne_spec hN hg hf hm hu
    obtain ⟨m2, k1, k2, k3, ⟨l2, k4, k4'⟩, k5⟩ := update_terms hf L m1 h2 fun q hq => h q (by simp [hq])
    refine ⟨m2, ?_, k2, by rw [k3, h3], ⟨l1 ++ l2, by rw [k4, h4, List.append_assoc], by
      intro q hq
      rcases List.mem_append.mp hq with hq | hq
      · exact ⟨p, by simp, h4' q hq⟩
      · obtain ⟨p', hp', hv⟩ := k4' q hq
        exact ⟨p', by simp [hp'], hv⟩⟩, ?_⟩
    · rw [List.map_cons, List.foldlM_cons, h1]
      exact k1
    · intro q hq
      rcases List.mem_cons.mp hq with rfl | hq
      · exact known_mono (by rw [k2.fields, h2.fields]) ⟨l2, k4⟩ h5
      · exact k5 q hq

include hN in
theorem add_spec {m0 m : EqModel n} (hg : Grown N m0 m) {eq : Equation} (hq : eq.Polynomial N)
    (hu : Unregistered m0 eq) {s : Str} (hs : (s.filter fun c => c ≠ ' ') = eq.text) :
    ∃ m', m.addEquation s = some m' ∧ Grown N m0 m' ∧ m'.equations = m.equations ++ [eq.text] ∧
      (∃ l, m'.derived = m.derived ++ l ∧
        ∀ q ∈ l, ∃ p ∈ eq.terms, ∀ u : Bricks n, q.2.eval u = productValue (factorsIn N.fields p.1) u) ∧
      ∀ p ∈ eq.terms, Known N eq.field m' p.1 := by
  obtain ⟨h1, h2, L, hL, h3⟩ := split_equation hN hq
  have hg' : Grown N m0 { m with equations := m.equations ++ [eq.text] } :=
    ⟨⟨hg.rep.fields, hg.rep.derived, hg.rep.functions, hg.rep.bricks⟩, hg.fields, hg.keys, hg.derived, hg.user⟩
  obtain ⟨m', k1, k2, k3, ⟨l, k4, k4'⟩, k5⟩ := update_terms hN hq.field L _ hg' fun p hp =>
    ⟨hq.monomials p (hL.subset hp), (hu p (hL.subset hp)).1⟩
  refine ⟨m', ?_, k2, k3, ⟨l, k4, fun q hq => by
    obtain ⟨p, hp, hv⟩ := k4' q hq
    exact ⟨p, hL.subset hp, hv⟩⟩, fun p hp => k5 p (hL.symm.subset hp)⟩
  rw [EqModel.addEquation]
  simp only [hs, EqModel.updateDerivedFields, h1, h2, h3]
  have : (L.map pairText).map SubDelim.sub = L.map fun p => productText p.1 := by simp [pairText]
  simpa [this] using k1

include hN in
theorem add_all {m0 : EqModel n} : ∀ (eqs : List Equation) (ss : List Str) (m : EqModel n), Grown N m0 m →
    (∀ eq ∈ eqs, eq.Polynomial N ∧ Unregistered m0 eq) →
    ss.map (fun s => s.filter fun c => c ≠ ' ') = eqs.map Equation.text →
    ∃ m', ss.foldlM EqModel.addEquation m = some m' ∧ Grown N m0 m' ∧
      m'.equations = m.equations ++ eqs.map Equation.text ∧ (∃ l, m'.derived = m.derived ++ l ∧
        ∀ q ∈ l, ∃ eq ∈ eqs, ∃ p ∈ eq.terms, ∀ u : Bricks n,
          q.2.eval u = productValue (factorsIn N.fields p.1) u) ∧
      ∀ eq ∈ eqs, ∀ p ∈ eq.terms, Known N eq.field m' p.1
  | [], ss, m, hg, _, hs => by
    have : ss = [] := List.map_eq_nil_iff.mp hs
    subst this
    exact ⟨m, rfl, hg, by simp, ⟨[], by simp, by simp⟩, by simp⟩
  | eq :: eqs, ss, m, hg, h, hs => by
    cases ss with
    | nil => simp at hs
    | cons s ss =>
      simp only [List.map_cons, List.cons.injEq] at hs
      obtain ⟨hq, hu⟩ := h eq (by simp)
      obtain ⟨m1, h1, h2, h3, ⟨l1, h4, h4'⟩, h5⟩ := add_spec hN hg hq hu hs.1
      obtain ⟨m2, k1, k2, k3, ⟨l2, k4, k4'⟩, k5⟩ := add_all eqs ss m1 h2 (fun q hq => h q (by simp [hq])) hs.2
      refine ⟨m2, ?_, k2, by rw [k3, h3]; simp, ⟨l1 ++ l2, by rw [k4, h4, List.append_assoc], by
        intro q hq'
        rcases List.mem_append.mp hq' with hq' | hq'
        · exact ⟨eq, by simp, h4' q hq'⟩
        · obtain ⟨e, he, hv⟩ := k4' q hq'
          exact ⟨e, by simp [he], hv⟩⟩, ?_⟩
      · rw [List.foldlM_cons, h1]
        exact k1
      · intro q hq
        rcases List.mem_cons.mp hq with rfl | hq
        · exact fun p hp => known_mono (by rw [k2.fields, h2.fields]) ⟨l2, k4⟩ (h5 p hp)
        · exact k5 q hq

end Gopf.Pf
