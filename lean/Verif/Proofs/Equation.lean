import Verif.Props.Concrete

/-!
# Facts about `AddEquation` and `Build` on polynomial equations
-/

namespace Gopf.Pf
open Spec Props

/-- A permutation of an image is the image of a permutation. -/
theorem perm_map_exists {α β : Type} (f : α → β) : ∀ (ts : List β) (fs : List α), ts.Perm (fs.map f) →
    ∃ gs : List α, gs.Perm fs ∧ ts = gs.map f
  | [], fs, h => ⟨[], by simp [List.map_eq_nil_iff.mp h.symm.eq_nil], rfl⟩
  | t :: ts, fs, h => by
    have hmem : t ∈ fs.map f := h.subset (by simp)
    obtain ⟨x, hx, hxt⟩ := List.mem_map.mp hmem
    obtain ⟨a, b, rfl⟩ := List.append_of_mem hx
    have hperm : (t :: ts).Perm (t :: ((a ++ b).map f)) := by
      refine h.trans ?_
      rw [← hxt, ← List.map_cons]
      exact List.perm_middle.map _
    obtain ⟨gs, h1, h2⟩ := perm_map_exists f ts (a ++ b) ((List.perm_cons t).mp hperm)
    exact ⟨x :: gs, (h1.cons x).trans List.perm_middle.symm, by rw [h2, List.map_cons, hxt]⟩

theorem filter_or_perm {α : Type} (p q : α → Bool) : ∀ l : List α, (∀ x ∈ l, ¬ (p x = true ∧ q x = true)) →
    (l.filter fun x => p x || q x).Perm (l.filter p ++ l.filter q)
  | [], _ => by simp
  | x :: l, h => by
    have ih := filter_or_perm p q l fun y hy => h y (by simp [hy])
    have hx := h x (by simp)
    by_cases hp : p x = true
    · have hq : q x = false := by
        by_contra hq; exact hx ⟨hp, by simpa using hq⟩
      simp only [List.filter_cons, hp, hq, Bool.true_or, if_true, List.cons_append, Bool.false_eq_true, if_false]
      exact ih.cons x
    · have hp : p x = false := by simpa using hp
      by_cases hq : q x = true
      · simp only [List.filter_cons, hp, hq, Bool.or_true, if_true, Bool.false_eq_true, if_false]
        exact (ih.cons x).trans List.perm_middle.symm
      · have hq : q x = false := by simpa using hq
        simpa only [List.filter_cons, hp, hq, Bool.or_false, Bool.false_eq_true, if_false] using ih

theorem filter_single (items : List Item) (g : Str) :
    (items.filterMap Item.fac).filter (fun f => decide (f.name = g)) =
      (occurrences g items).filterMap Item.fac := by
  unfold occurrences
  induction items with
  | nil => rfl
  | cons i items ih =>
    obtain ⟨lap, fac⟩ := i
    cases fac with
    | none => simpa [Item.name?, List.filter_cons] using ih
    | some f =>
      by_cases hf : f.name = g
      · simpa [Item.name?, List.filter_cons, hf] using ih
      · simpa [Item.name?, List.filter_cons, hf] using ih

/-- The factors grouped by name. -/
theorem factorsIn_group (items : List Item) : ∀ names : List Str, names.Nodup →
    (factorsIn names items).Perm (names.flatMap fun g => (occurrences g items).filterMap Item.fac)
  | [], _ => by simp [factorsIn]
  | g :: names, h => by
    have ih := factorsIn_group items names (List.nodup_cons.mp h).2
    have hg := (List.nodup_cons.mp h).1
    rw [List.flatMap_cons]
    have h1 := filter_or_perm (fun f : Factor => decide (f.name = g)) (fun f => decide (f.name ∈ names))
      (items.filterMap Item.fac) (by
        rintro f _ ⟨h1, h2⟩
        simp only [decide_eq_true_eq] at h1 h2
        exact hg (h1 ▸ h2))
    have h2 := filter_single items g
    rw [h2] at h1
    refine List.Perm.trans ?_ (h1.trans (List.Perm.append_left _ ih))
    apply List.Perm.of_eq
    unfold factorsIn
    congr 1
    funext f
    simp

theorem headText_drop : ∀ (ss : List Str), ss ≠ [] →
    headText ss = List.intercalate ['*'] ss ++ ['*']
  | [], h => absurd rfl h
  | [s], _ => by simp [headText, List.intercalate]
  | s :: u :: ss, _ => by
    have ih := headText_drop (u :: ss) (by simp)
    rw [headText, ih, intercalate_cons, intercalate_cons, tailText]
    simp

variable {N : Names} (hN : N.WellNamed)
include hN

/-- The text `GetNonLinearFieldExpressions` appends for one field. -/
theorem find_occurrence {f : Str} (hf : f ∈ N.varying) {items : List Item}
    (hw : ∀ i ∈ items, i.WellFormed N) (honce : (occurrences f items).length ≤ 1) :
    ∃ r, compileText f = some r ∧ findString (r ++ [.star fun c => decide (c ≠ '*')]) (productText items) =
      (((occurrences f items).filterMap Item.fac).map Factor.text).flatten := by
  obtain ⟨h, a, c, t, hs⟩ := shape hN hf
  refine ⟨lits f, compileText_ident hs.identG, ?_⟩
  by_cases hocc : occurrences f items = []
  · rw [hocc]
    have hcnt := cnt_product hN hf items hw
    have hnot : ¬ f <:+: productText items := by
      have hfree : ∀ i ∈ items, i.name? ≠ some f := by
        intro i hi hn
        have : i ∈ occurrences f items := by simp [occurrences, hi, hn]
        rw [hocc] at this; simp at this
      apply infix_join hs.ne (hs.notMem (by decide) (by decide)).2
      intro s hs'
      obtain ⟨i, hi, rfl⟩ := List.mem_map.mp hs'
      intro hin
      exact item_free hN hf hs (hw i hi) (hfree i hi) (hs.prefix.isInfix.trans hin)
    unfold findString
    rw [findFrom_lits_none _ hnot]
    simp
  · obtain ⟨i, hi⟩ : ∃ i, occurrences f items = [i] := by
      apply List.length_eq_one_iff.mp
      have := List.length_pos_iff.mpr hocc
      omega
    have himem : i ∈ occurrences f items := by rw [hi]; simp
    obtain ⟨him, hn⟩ : i ∈ items ∧ i.name? = some f := by simpa [occurrences] using himem
    obtain ⟨pre, post, rfl⟩ := List.append_of_mem him
    obtain ⟨e, he, -⟩ := text_of_name hn
    have hpre : ∀ j ∈ pre, j.WellFormed N ∧ j.name? ≠ some f := by
      intro j hj
      refine ⟨hw j (by simp [hj]), fun hjn => ?_⟩
      have h1 : 0 < (occurrences f pre).length := by
        have : j ∈ occurrences f pre := by simp [occurrences, hj, hjn]
        exact List.length_pos_of_mem this
      have h2 : (occurrences f (pre ++ i :: post)).length =
          (occurrences f pre).length + (1 + (occurrences f post).length) := by
        simp only [occurrences, List.filter_append, List.length_append]
        rw [List.filter_cons, if_pos (by simpa using hn), List.length_cons]
        omega
      omega
    have hiw := hw i (by simp)
    have hstarp : '*' ∉ Spec.powerText e := by
      intro hm
      rcases power_chars (hiw.exp _ he) hm with h1 | h1 | h1 <;> exact absurd h1 (by decide)
    have := find_field_factor hN hf (post := post) hpre hiw he (p := fun c => decide (c ≠ '*')) hs
      (lits [c] ++ [.star fun c => decide (c ≠ '*')]) (by
        intro x hx
        have : x ≠ '*' := by
          rintro rfl
          rcases List.mem_append.mp hx with h1 | h1
          · exact (hs.notMem (by decide) (by decide)).2 h1
          · exact hstarp h1
        simpa using this) (by simp) (Or.inl rfl)
    rw [hi]
    have hl : lits f ++ [.star fun c => decide (c ≠ '*')] =
        lits h ++ (lits [c] ++ [.star fun c => decide (c ≠ '*')]) := by
      conv_lhs => rw [hs.eq]
      simp [lits]
    rw [hl, this]
    simp [he, Factor.text]

omit hN in
/-- The texts of the factors whose names are in a list, grouped by name. -/
def groupTexts (items : List Item) (fs : List Str) : List Str :=
  fs.flatMap fun g => ((occurrences g items).filterMap Item.fac).map Factor.text

omit hN in
theorem headText_append (a b : List Str) : headText (a ++ b) = headText a ++ headText b := by
  induction a with
  | nil => rfl
  | cons x a ih => simp [headText, ih]

theorem occ_text {f : Str} (hf : f ∈ N.varying) (items : List Item)
    (honce : (occurrences f items).length ≤ 1) (expr : Str) :
    (if (((occurrences f items).filterMap Item.fac).map Factor.text).flatten ≠ [] then
      expr ++ (((occurrences f items).filterMap Item.fac).map Factor.text).flatten ++ ['*'] else expr) =
    expr ++ headText (((occurrences f items).filterMap Item.fac).map Factor.text) := by
  by_cases hocc : occurrences f items = []
  · simp [hocc, headText]
  · obtain ⟨i, hi⟩ : ∃ i, occurrences f items = [i] := by
      apply List.length_eq_one_iff.mp
      have := List.length_pos_iff.mpr hocc
      omega
    have himem : i ∈ occurrences f items := by rw [hi]; simp
    obtain ⟨_, hn⟩ : i ∈ items ∧ i.name? = some f := by simpa [occurrences] using himem
    obtain ⟨e, he, -⟩ := text_of_name hn
    obtain ⟨h, a, c, t, hs⟩ := shape hN hf
    rw [hi]
    simp [he, headText, Factor.text, hs.ne]

/-- The loop of `GetNonLinearFieldExpressions` when the term is not linear in the field. -/
theorem nonLinearLoop_false {field : Str} {items : List Item} {fieldNames : List Str}
    (hw : ∀ i ∈ items, i.WellFormed N) (hb : isBilinear (productText items) field fieldNames = some false) :
    ∀ (fs : List Str) (expr : Str), (∀ f ∈ fs, f ∈ N.varying ∧ (occurrences f items).length ≤ 1) →
    nonLinearLoop (productText items) field fieldNames fs expr = some (expr ++ headText (groupTexts items fs))
  | [], expr, _ => by simp [nonLinearLoop, groupTexts, headText]
  | f :: fs, expr, h => by
    obtain ⟨hf, honce⟩ := h f (by simp)
    have ih := fun expr => nonLinearLoop_false hw hb fs expr fun g hg => h g (by simp [hg])
    obtain ⟨r, hr, hfind⟩ := find_occurrence hN hf hw honce
    rw [nonLinearLoop]
    have hite : (if f = field then isBilinear (productText items) field fieldNames else some false) = some false := by
      by_cases hff : f = field
      · rw [if_pos hff, hb]
      · rw [if_neg hff]
    simp only [hite, hr, hfind, ih, occ_text hN hf items honce]
    simp [groupTexts, headText_append]

/-- The loop of `GetNonLinearFieldExpressions` when the term is linear in the field. -/
theorem nonLinearLoop_true {field : Str} {items : List Item} {fieldNames : List Str}
    (hw : ∀ i ∈ items, i.WellFormed N) (hb : isBilinear (productText items) field fieldNames = some true) :
    ∀ (fs : List Str) (expr : Str), (∀ f ∈ fs, f ∈ N.varying ∧ (f ≠ field → occurrences f items = [])) →
    nonLinearLoop (productText items) field fieldNames fs expr = some expr
  | [], expr, _ => by simp [nonLinearLoop]
  | f :: fs, expr, h => by
    obtain ⟨hf, hno⟩ := h f (by simp)
    have ih := fun expr => nonLinearLoop_true hw hb fs expr fun g hg => h g (by simp [hg])
    rw [nonLinearLoop]
    by_cases hff : f = field
    · simp only [if_pos hff, hb, ih]
    · have h0 := hno hff
      obtain ⟨r, hr, hfind⟩ := find_occurrence hN hf hw (by rw [h0]; simp)
      simp only [if_neg hff, hr, hfind, h0, ih]
      simp

/-! ### The names a model knows -/

/-- The model before equations are added: the names of fields, functions and scalars. -/
structure StartsAs {n : ℕ} (N : Names) (m : EqModel n) : Prop where
  fields : m.fields = N.fields
  functions : m.derived.map Prod.fst = N.functions
  bricks : ∀ x, x ∈ m.brickNames ↔ x ∈ N.all

/-- What holds while equations are added to the model `m0`. -/
structure Grown {n : ℕ} (N : Names) (m0 m : EqModel n) : Prop where
  rep : Represents N m
  fields : m.fields = N.fields
  keys : (m.derived.map Prod.fst).Nodup
  derived : ∀ p ∈ m.derived, p ∈ m0.derived ∨ ∃ fs : List Factor, fs ≠ [] ∧
    (∀ f ∈ fs, f.name ∈ N.fields ∧ ∀ e ∈ f.exp, e.WellFormed) ∧ CanonicalProduct p.1 fs ∧
    ∀ u : Bricks n, p.2.eval u = productValue fs u
  user : m.implicitTerms = m0.implicitTerms ∧ m.explicitTerms = m0.explicitTerms ∧ m.mixedTerms = m0.mixedTerms

theorem grown_start {n : ℕ} {m : EqModel n} (h : StartsAs N m) : Grown N m m where
  rep := ⟨by simp [h.fields], by rw [h.functions]; intro x hx; exact Or.inl hx, by rw [h.functions]; simp, by
    intro x
    rw [h.bricks, h.functions]
    simp only [Names.all, Names.varying, List.mem_append]
    tauto⟩
  fields := h.fields
  keys := by
    rw [h.functions]
    exact (List.nodup_append.mp (List.nodup_append.mp hN.nodup).1).2.1
  derived := fun p hp => Or.inl hp
  user := ⟨rfl, rfl, rfl⟩

/-- The term is treated implicitly, or its field product is known. -/
def Known {n : ℕ} (N : Names) (field : Str) (m : EqModel n) (items : List Item) : Prop :=
  LinearIn field N.varying items ∨
    ∃ D, CanonicalProduct D (factorsIn N.varying items) ∧ D ∈ m.allFieldNames

omit hN in
theorem factorsIn_varying {items : List Item} (h : factorsIn N.functions items = []) :
    factorsIn N.varying items = factorsIn N.fields items := by
  unfold factorsIn at *
  apply List.filter_congr
  intro f hf
  have := List.filter_eq_nil_iff.mp h f hf
  simp only [Names.varying, List.mem_append, decide_eq_true_eq] at this ⊢
  simp [this]

omit hN in
theorem occurrences_functions {items : List Item} {g : Str} (hg : g ∈ N.functions)
    (h : factorsIn N.functions items = []) : occurrences g items = [] := by
  rw [occurrences, List.filter_eq_nil_iff]
  intro i hi hn
  obtain ⟨e, he, -⟩ := text_of_name (by simpa using hn)
  have := List.filter_eq_nil_iff.mp h ⟨g, e⟩ (List.mem_filterMap.mpr ⟨i, hi, he⟩)
  simp [hg] at this

omit hN in
theorem occurrences_of_factorsIn {items : List Item} {g : Str} {names : List Str} (hg : g ∈ names)
    (h : ∀ f ∈ factorsIn names items, f.name ≠ g) : occurrences g items = [] := by
  rw [occurrences, List.filter_eq_nil_iff]
  intro i hi hn
  obtain ⟨e, he, -⟩ := text_of_name (by simpa using hn)
  refine h ⟨g, e⟩ ?_ rfl
  simp only [factorsIn, List.mem_filter, decide_eq_true_eq]
  exact ⟨List.mem_filterMap.mpr ⟨i, hi, he⟩, hg⟩

omit hN in
theorem canonical_single (g : Str) : CanonicalProduct g [⟨g, none⟩] :=
  ⟨[g], by simp [Factor.text, Spec.powerText], by simp, by simp [List.intercalate]⟩

omit hN in
theorem factorsIn_wf {names : List Str} {items : List Item} (hw : ∀ i ∈ items, i.WellFormed N) :
    ∀ f ∈ factorsIn names items, f.name ∈ names ∧ ∀ e ∈ f.exp, e.WellFormed := by
  intro f hf
  simp only [factorsIn, List.mem_filter, decide_eq_true_eq] at hf
  obtain ⟨i, hi, hif⟩ := List.mem_filterMap.mp hf.1
  exact ⟨hf.2, (hw i hi).exp f hif⟩

theorem fields_nodup : N.fields.Nodup :=
  (List.nodup_append.mp (List.nodup_append.mp hN.nodup).1).1

theorem fields_functions {x : Str} (h : x ∈ N.fields) : x ∉ N.functions := fun h' =>
  (List.nodup_append.mp (List.nodup_append.mp hN.nodup).1).2.2 x h x h' rfl

omit hN in
theorem groupTexts_perm {items : List Item} {names : List Str} (h : names.Nodup) :
    (groupTexts items names).Perm ((factorsIn names items).map Factor.text) := by
  have := ((factorsIn_group items names h).map Factor.text).symm
  rwa [List.map_flatMap] at this

/-- The sorted text of the fields of a product is its canonical name. -/
theorem sortFactors_group {items : List Item} (hw : ∀ i ∈ items, i.WellFormed N)
    (hne : factorsIn N.fields items ≠ []) :
    CanonicalProduct (sortFactors (List.intercalate ['*'] (groupTexts items N.fields)))
      (factorsIn N.fields items) := by
  have hp := groupTexts_perm (items := items) (fields_nodup hN)
  have hstar : ∀ t ∈ groupTexts items N.fields, '*' ∉ t := by
    intro t ht
    obtain ⟨f, hf, rfl⟩ := List.mem_map.mp (hp.subset ht)
    obtain ⟨h1, h2⟩ := factorsIn_wf hw f hf
    exact factor_noStar hN (by simp [Names.varying, h1]) h2
  have hne' : groupTexts items N.fields ≠ [] := by
    intro h0; rw [h0] at hp
    exact hne (List.map_eq_nil_iff.mp hp.symm.eq_nil)
  refine ⟨sortStrings (groupTexts items N.fields), (List.perm_insertionSort _ _).trans hp,
    List.pairwise_insertionSort _ _, ?_⟩
  have := goSplit_join _ hne' hstar
  unfold joinStar at this
  rw [sortFactors, this, joinStar]

theorem expr_text {items : List Item} (hw : ∀ i ∈ items, i.WellFormed N)
    (hne : factorsIn N.fields items ≠ []) :
    (if (headText (groupTexts items N.fields)).length > 1 then
      (headText (groupTexts items N.fields)).take ((headText (groupTexts items N.fields)).length - 1)
      else headText (groupTexts items N.fields)) = List.intercalate ['*'] (groupTexts items N.fields) := by
  have hp := groupTexts_perm (items := items) (fields_nodup hN)
  have hne' : groupTexts items N.fields ≠ [] := by
    intro h0; rw [h0] at hp
    exact hne (List.map_eq_nil_iff.mp hp.symm.eq_nil)
  have hpos : List.intercalate ['*'] (groupTexts items N.fields) ≠ [] := by
    cases hg : groupTexts items N.fields with
    | nil => exact absurd hg hne'
    | cons t ts =>
      rw [intercalate_cons]
      have : t ∈ groupTexts items N.fields := by rw [hg]; simp
      obtain ⟨f, hf, rfl⟩ := List.mem_map.mp (hp.subset this)
      obtain ⟨h1, h2⟩ := factorsIn_wf hw f hf
      obtain ⟨h, a, c, t, hs⟩ := shape hN (g := f.name) (by simp [Names.varying, h1])
      simp [Factor.text, hs.ne]
  have := List.length_pos_iff.mpr hpos
  rw [headText_drop _ hne', if_pos (by simp; omega)]
  simp

theorem updateOne_spec {n : ℕ} {m0 m : EqModel n} (hg : Grown N m0 m) {field : Str} (hf : field ∈ N.fields)
    {items : List Item} (hm : Monomial N items) (hu : m0.isUserDefinedTerm (productText items) = false) :
    ∃ m', EqModel.updateOne field m (productText items) = some m' ∧ Grown N m0 m' ∧
      m'.equations = m.equations ∧ (∃ l, m'.derived = m.derived ++ l ∧
        ∀ q ∈ l, ∀ u : Bricks n, q.2.eval u = productValue (factorsIn N.fields items) u) ∧
      Known N field m' items := by
  have hw := hm.readable.wf
  have hu' : m.isUserDefinedTerm (productText items) = false := by
    rw [EqModel.isUserDefinedTerm, hg.user.1, hg.user.2.1, hg.user.2.2]; exact hu
  obtain ⟨b, hb, hlin⟩ := isBilinear_spec hN (field := field) (by simp [Names.varying, hf]) N.fields
    (fun k hk => Or.inl (by simp [Names.varying, hk])) items hw
  have hs0 : sortFactors [] = [] := by decide
  have same : ∀ (_ : nonLinearLoop (productText items) field N.fields N.fields [] = some []),
      EqModel.updateOne field m (productText items) = some m := by
    intro h
    simp [EqModel.updateOne, hu', getNonLinearFieldExpressions, hg.fields, h, hs0]
  have hfv : ∀ f ∈ N.fields, f ∈ N.varying ∧ (occurrences f items).length ≤ 1 := fun f hf' =>
    ⟨by simp [Names.varying, hf'], hm.once f hf'⟩
  rcases hm.kind with ⟨hno, hsome⟩ | ⟨g, hgf, hfac⟩
  · cases b with
    | true =>
      obtain ⟨h1, h2, h3⟩ := hlin.mp rfl
      refine ⟨m, same ?_, hg, rfl, ⟨[], by simp, by simp⟩, Or.inl ⟨h1, ?_, h3⟩⟩
      · exact nonLinearLoop_true hN hw hb N.fields [] fun f hf' =>
          ⟨by simp [Names.varying, hf'], fun hne => h2 f hf' hne⟩
      · intro x hx hne
        rcases List.mem_append.mp hx with hx | hx
        · exact h2 x hx hne
        · exact occurrences_functions hx hno
    | false =>
      have hloop := nonLinearLoop_false hN hw hb N.fields [] hfv
      rw [List.nil_append] at hloop
      have hcan := sortFactors_group hN hw hsome
      have htext := expr_text hN hw hsome
      generalize hD : sortFactors (List.intercalate ['*'] (groupTexts items N.fields)) = D at hcan
      have hexpr : getNonLinearFieldExpressions (productText items) field m.fields =
          some (List.intercalate ['*'] (groupTexts items N.fields)) := by
        rw [getNonLinearFieldExpressions, hg.fields, hloop, Option.map_some, htext]
      have hcan' : CanonicalProduct D (factorsIn N.varying items) := by rwa [factorsIn_varying hno]
      have hfw := factorsIn_wf (names := N.varying) hw
      have hne : factorsIn N.varying items ≠ [] := by rwa [factorsIn_varying hno]
      obtain ⟨d, hd, hdv⟩ := c18_product (n := n) N hN _ hne hfw D hcan'
      by_cases hk : m.isFieldName D = true
      · refine ⟨m, ?_, hg, rfl, ⟨[], by simp, by simp⟩, Or.inr ⟨D, hcan', ?_⟩⟩
        · simp [EqModel.updateOne, hu', hexpr, hD, hk]
        · simpa [EqModel.isFieldName, EqModel.allFieldNames] using hk
      · have hk : m.isFieldName D = false := by simpa using hk
        have hDne : D ≠ [] := by
          rintro rfl
          obtain ⟨ts, hts, -, hD0⟩ := hcan'
          cases ts with
          | nil => exact hne (List.map_eq_nil_iff.mp hts.symm.eq_nil)
          | cons t ts =>
            rw [intercalate_cons] at hD0
            obtain ⟨f, hf', hft⟩ := List.mem_map.mp (hts.subset (List.mem_cons_self))
            obtain ⟨h, a, c, t', hs⟩ := shape hN (hfw f hf').1
            have : t = [] := (List.append_eq_nil_iff.mp hD0.symm).1
            rw [this] at hft
            exact hs.ne (List.append_eq_nil_iff.mp hft).1
        have hprod : IsProductName N D := by
          obtain ⟨ts, hts, -, hDt⟩ := hcan'
          obtain ⟨gs, hgs, rfl⟩ := perm_map_exists _ _ _ hts
          refine ⟨gs, hDt, ?_, fun f hf' => hfw f (hgs.subset hf'), ?_⟩
          · rintro rfl; exact hne hgs.symm.eq_nil
          · rintro x rfl
            have hx := (factorsIn_wf (names := N.fields) hw ⟨x, none⟩ (by
              rw [← factorsIn_varying hno]; exact hgs.subset (by simp))).1
            have : D = x := by rw [hDt]; simp [Factor.text, Spec.powerText, List.intercalate]
            rw [this, EqModel.isFieldName, hg.fields] at hk
            simp [hx] at hk
        refine ⟨{ m with derived := m.derived ++ [(D, .product d)], brickNames := m.brickNames ++ [D] }, ?_, ?_, rfl,
          ⟨_, rfl, by
            intro q hq u
            rw [List.mem_singleton] at hq
            rw [hq, ← factorsIn_varying hno]
            exact hdv u⟩, Or.inr ⟨D, hcan', by simp [EqModel.allFieldNames]⟩⟩
        · simp [EqModel.updateOne, hu', hexpr, hD, hk, hDne, hd]
        · refine ⟨⟨hg.rep.fields, ?_, ?_, ?_⟩, hg.fields, ?_, ?_, hg.user⟩
          · intro x hx
            simp only [List.map_append, List.map_cons, List.map_nil, List.mem_append, List.mem_singleton] at hx
            rcases hx with hx | rfl
            · exact hg.rep.derived x hx
            · exact Or.inr hprod
          · intro x hx
            have := hg.rep.functions x hx
            rw [List.map_append, List.mem_append]
            exact Or.inl this
          · intro x
            have := hg.rep.bricks x
            simp only [List.map_append, List.map_cons, List.map_nil, List.mem_append, List.mem_singleton, this]
            tauto
          · rw [List.map_append, List.nodup_append]
            refine ⟨hg.keys, by simp, ?_⟩
            rintro x hx y hy rfl
            simp only [List.map_cons, List.map_nil, List.mem_singleton] at hy
            subst hy
            simp only [EqModel.isFieldName, Bool.or_eq_false_iff, List.contains_eq_mem, decide_eq_false_iff_not] at hk
            exact hk.2 hx
          · intro p hp
            rcases List.mem_append.mp hp with hp | hp
            · exact hg.derived p hp
            · rw [List.mem_singleton] at hp
              subst hp
              exact Or.inr ⟨_, hne, by rw [factorsIn_varying hno]; exact factorsIn_wf hw, hcan', hdv⟩
  · have hnof : ∀ f ∈ N.fields, occurrences f items = [] := by
      intro f hf'
      apply occurrences_of_factorsIn (names := N.varying) (by simp [Names.varying, hf'])
      rw [hfac]
      simp only [List.mem_singleton, forall_eq]
      rintro rfl
      exact fields_functions hN hf' hgf
    have hbf : b = false := by
      by_contra hb'
      have := (hlin.mp (by simpa using hb')).1
      rw [hnof field hf] at this
      simp at this
    subst hbf
    have hloop := nonLinearLoop_false hN hw hb N.fields [] hfv
    have hempty : groupTexts items N.fields = [] := by
      rw [groupTexts, List.flatMap_eq_nil_iff]
      intro f hf'
      simp [hnof f hf']
    rw [hempty] at hloop
    refine ⟨m, same hloop, hg, rfl, ⟨[], by simp, by simp⟩, Or.inr ⟨g, ?_, ?_⟩⟩
    · rw [hfac]; exact canonical_single g
    · rw [EqModel.allFieldNames, List.mem_append]
      exact Or.inr (hg.rep.functions g hgf)

end Gopf.Pf
