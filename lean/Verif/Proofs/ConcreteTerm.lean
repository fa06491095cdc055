import Verif.Proofs.Concrete

/-!
# The term built by `ConcreteTerm`
-/

namespace Gopf.Pf
open Spec Props

theorem truncQ_nat (k : ℕ) : truncQ ((k : ℕ) : ℚ) = k := by
  unfold truncQ
  rw [if_pos (by positivity)]
  simp

theorem scalarOf_eq (N : Names) (items : List Item) :
    items.filterMap (scalarOf N) = factorsIn N.scalars items := by
  unfold factorsIn
  induction items with
  | nil => rfl
  | cons i items ih =>
    obtain ⟨lap, fac⟩ := i
    cases fac with
    | none =>
      rw [List.filterMap_cons_none (by rfl), ih, List.filterMap_cons_none (by rfl)]
    | some f =>
      rw [List.filterMap_cons_some (f := Item.fac) (b := f) (by rfl), List.filter_cons]
      by_cases hf : f.name ∈ N.scalars
      · rw [List.filterMap_cons_some (b := f) (by simp [scalarOf, hf]), ih]
        simp [hf]
      · rw [List.filterMap_cons_none (by simp [scalarOf, hf]), ih]
        simp [hf]

variable {N : Names} (hN : N.WellNamed) {n : ℕ} {m : EqModel n} (hm : Represents N m)
include hN

theorem split_product {items : List Item} (hne : items ≠ []) (hg : ∀ i ∈ items, Good N i) :
    goSplit '*' (productText items) = items.map Item.text := by
  apply goSplit_join
  · simpa using hne
  · intro s hs
    obtain ⟨i, hi, rfl⟩ := List.mem_map.mp hs
    exact Good.noStar hN (hg i hi)

include hm

/-- What `ConcreteTerm` captures. -/
theorem concreteTerm_good {items : List Item} (hne : items ≠ []) (hg : ∀ i ∈ items, Good N i)
    (hone : (laplacians items).length ≤ 1)
    (hfirst : ∀ pre i post, items = pre ++ i :: post → i.lap ≠ none →
      ∀ j ∈ pre, ∀ f ∈ j.fac, ¬ ['L', 'A'] <:+: f.name) (delim : Option Char) :
    concreteTerm (productText items) delim m = some ⟨signOf delim,
      (factorsIn N.scalars items).map fun f => (f.name, f.power),
      getFieldName (joinStar (sortStrings (items.map Item.text))) m.allFieldNames,
      (laplacians items).head?.map fun k : ℕ => (k : ℤ)⟩ := by
  have hloop := concreteLoop_spec hN hm items [] hg
  rw [← split_product hN hne hg, ← findAll_patFactor, List.nil_append, scalarOf_eq] at hloop
  unfold concreteTerm
  simp only [hloop, Option.bind_eq_bind, Option.bind_some, sortFactors, split_product hN hne hg]
  have hc := contains_lap hN items hg
  by_cases hlap : ∃ i ∈ items, i.lap ≠ none
  · rw [if_pos (hc.mpr hlap)]
    obtain ⟨i, hi, hl⟩ := hlap
    obtain ⟨pre, post, rfl⟩ := List.append_of_mem hi
    obtain ⟨k, hk⟩ := Option.ne_none_iff_exists'.mp hl
    have hlaps : laplacians (pre ++ i :: post) = laplacians pre ++ lapValue k :: laplacians post := by
      simp only [laplacians, List.filterMap_append]
      rw [List.filterMap_cons_some (b := lapValue k) (by simp [hk])]
    rw [hlaps] at hone
    have hpre0 : laplacians pre = [] := by
      rw [← List.length_eq_zero_iff]
      simp only [List.length_append, List.length_cons] at hone
      omega
    have hpre : ∀ j ∈ pre, j.lap = none ∧ ∀ f ∈ j.fac, ¬ ['L', 'A'] <:+: f.name := by
      intro j hj
      refine ⟨?_, hfirst pre i post rfl hl j hj⟩
      have := (List.filterMap_eq_nil_iff.mp hpre0) j hj
      simpa using this
    rw [getPower_lap hN pre post i hg hpre hk]
    simp only [Option.bind_some, truncQ_nat, hlaps, hpre0, List.nil_append, List.head?_cons,
      Option.map_some, signOf]
    rfl
  · have hc' : contains "LAP".toList (productText items) = false := by
      rw [← hc] at hlap; simpa using hlap
    rw [hc']
    have hl0 : laplacians items = [] := by
      rw [laplacians, List.filterMap_eq_nil_iff]
      intro i hi
      have : i.lap = none := by
        by_contra h; exact hlap ⟨i, hi, h⟩
      simp [this]
    simp only [Bool.false_eq_true, if_false, hl0, List.head?_nil, Option.map_none, signOf]
    rfl

omit hm hN in
/-- The value of the closures. -/
theorem concrete_eval (sign : ℤ) (fs : List Factor) (field : Str) (laps : List ℕ) (hl : laps.length ≤ 1)
    (b : Bricks n) (freq : Frequency n) (t : ℝ) (k : Fin n) :
    (Concrete.eval ⟨sign, fs.map fun f => (f.name, f.power), field, laps.head?.map fun k : ℕ => (k : ℤ)⟩)
      b freq t k = (sign : ℂ) * (fs.map fun f => b f.name k ^ ((f.power : ℚ) : ℂ)).prod *
        (if field = [] then 1 else b field k) * (laps.map fun p => laplaceSymbol (freq k) ^ p).prod := by
  have hfold : ∀ (fs : List Factor) (z : ℂ), (fs.map fun f => (f.name, f.power)).foldl
      (fun acc s => acc * cpow (b s.1 k) s.2) z = z * (fs.map fun f => b f.name k ^ ((f.power : ℚ) : ℂ)).prod := by
    intro fs
    induction fs with
    | nil => intro z; simp
    | cons f fs ih =>
      intro z
      rw [List.map_cons, List.foldl_cons, ih, List.map_cons, List.prod_cons, cpow, mul_assoc]
  have hd : ∀ z : ℂ, (if field ≠ [] then z * b field k else z) = z * (if field = [] then 1 else b field k) := by
    intro z; by_cases h : field = [] <;> simp [h]
  cases laps with
  | nil =>
    simp only [Concrete.eval, List.head?_nil, Option.map_none, hfold, hd, List.map_nil, List.prod_nil, mul_one]
  | cons p laps =>
    have : laps = [] := by
      rw [← List.length_eq_zero_iff]; simp only [List.length_cons] at hl; omega
    subst this
    simp only [Concrete.eval, List.head?_cons, Option.map_some, lapEval, hfold, hd, lapFactor_eq,
      List.map_cons, List.map_nil, List.prod_cons, List.prod_nil, mul_one]

omit hm hN in
theorem sort_unique {l l' : List Str} (hp : l'.Perm l) (hs : l'.Pairwise (· ≤ ·)) : sortStrings l = l' :=
  ((List.perm_insertionSort _ l).trans hp.symm).eq_of_pairwise' (List.pairwise_insertionSort _ _) hs

omit hm hN in
theorem factorsIn_perm (names : List Str) {a b : List Item} (h : a.Perm b) :
    (factorsIn names a).Perm (factorsIn names b) := (h.filterMap _).filter _

omit hm hN in
theorem factorsIn_append (names : List Str) (a b : List Item) :
    factorsIn names (a ++ b) = factorsIn names a ++ factorsIn names b := by
  simp [factorsIn]

omit hm hN in
theorem factorsIn_nil (names : List Str) (a : List Item) (h : ∀ i ∈ a, ∀ f ∈ i.fac, f.name ∉ names) :
    factorsIn names a = [] := by
  rw [factorsIn, List.filter_eq_nil_iff]
  intro f hf
  obtain ⟨i, hi, hif⟩ := List.mem_filterMap.mp hf
  simpa using h i hi f hif

omit hm hN in
theorem factorsIn_text (names : List Str) : ∀ (V : List Item), (∀ i ∈ V, ∃ f ∈ i.fac, f.name ∈ names) →
    (factorsIn names V).map Factor.text = V.map fun i => facText i.fac
  | [], _ => rfl
  | i :: V, h => by
    obtain ⟨f, hf, hn⟩ := h i (by simp)
    have ih := factorsIn_text names V fun j hj => h j (by simp [hj])
    rw [Option.mem_def] at hf
    have : factorsIn names (i :: V) = f :: factorsIn names V := by
      simp only [factorsIn]
      rw [List.filterMap_cons_some (b := f) hf, List.filter_cons, if_pos (by simpa using hn)]
    rw [this, List.map_cons, List.map_cons, ih, hf, facText]

omit hm hN in
theorem represents_known (hm : Represents N m) : ∀ f ∈ m.allFieldNames, ProductOf N f := by
  intro f hf
  simp only [EqModel.allFieldNames, List.mem_append] at hf
  rcases hf with hf | hf
  · exact productOf_of_varying (by simp [Names.varying, (hm.fields f).mp hf])
  · rcases hm.derived f hf with h | h
    · exact productOf_of_varying (by simp [Names.varying, h])
    · exact productOf_of_productName h

/-- The field the parser finds in a readable product. -/
theorem getFieldName_readable {items : List Item} (hr : Readable N items) {D : Str}
    (hD : CanonicalProduct D (factorsIn N.varying items))
    (hk : factorsIn N.varying items = [] ∨ D ∈ m.allFieldNames) :
    getFieldName (joinStar (sortStrings (items.map Item.text))) m.allFieldNames =
      if factorsIn N.varying items = [] then [] else D := by
  obtain ⟨pre, V, post, hperm, hsort, hother, hV, htail, hVs⟩ := hr.together
  have hknown := represents_known hm
  have hwf : ∀ i ∈ pre ++ (V ++ post), i.WellFormed N := fun i hi => hr.wf i (hperm.subset hi)
  have hfree : ∀ i ∈ pre ++ post, ∀ g ∈ N.varying, ¬ g.dropLast <:+: i.text := by
    intro i hi g hg
    obtain ⟨h, a, c, t, hs⟩ := shape hN hg
    rw [hs.drop]
    refine item_free hN hg hs (hwf i ?_) ?_
    · simp only [List.mem_append] at hi ⊢; tauto
    · intro hn
      obtain ⟨e, he, _⟩ := text_of_name hn
      exact hother i hi _ he hg
  rw [sort_unique (hperm.map Item.text) hsort]
  have hfac : (factorsIn N.varying items).Perm (factorsIn N.varying V) := by
    refine (factorsIn_perm _ hperm).symm.trans ?_
    rw [factorsIn_append, factorsIn_append, factorsIn_nil _ pre fun i hi => hother i (by simp [hi]),
      factorsIn_nil _ post fun i hi => hother i (by simp [hi])]
    simp
  have hstarg : ∀ g ∈ N.varying, g.dropLast ≠ [] ∧ '*' ∉ g.dropLast := by
    intro g hg
    obtain ⟨h, a, c, t, hs⟩ := shape hN hg
    rw [hs.drop]
    exact ⟨hs.hne, (hs.notMem (by decide) (by decide)).1⟩
  cases V with
  | nil =>
    have : factorsIn N.varying items = [] := by
      have : (factorsIn N.varying ([] : List Item)) = [] := rfl
      rw [this] at hfac; exact hfac.eq_nil
    rw [if_pos this]
    apply getFieldName_none hknown
    intro g hg
    apply infix_join (hstarg g hg).1 (hstarg g hg).2
    intro s hs
    obtain ⟨i, hi, rfl⟩ := List.mem_map.mp hs
    exact hfree i (by simpa using hi) g hg
  | cons v vs =>
    have hne : factorsIn N.varying items ≠ [] := by
      intro e
      rw [e] at hfac
      have h1 := factorsIn_text N.varying (v :: vs) hV
      rw [hfac.symm.eq_nil] at h1
      simp at h1
    rw [if_neg hne]
    have hDk : D ∈ m.allFieldNames := hk.resolve_left hne
    -- the canonical product is the block
    have hDeq : D = facText v.fac ++ tailText (vs.map Item.text) := by
      obtain ⟨ts, hts, htss, rfl⟩ := hD
      have e1 : ((v :: vs).map fun i => facText i.fac).Perm ts := by
        rw [← factorsIn_text N.varying (v :: vs) hV]
        exact ((hfac.map _).symm).trans hts.symm
      have e2 : ts = (v :: vs).map fun i => facText i.fac := e1.symm.eq_of_pairwise' htss hVs
      rw [e2, List.map_cons, intercalate_cons]
      congr 2
      apply List.map_congr_left
      intro i hi
      have := htail i (by simpa using hi)
      simp [Item.text, this, lapText]
    have hT : joinStar ((pre ++ (v :: vs ++ post)).map Item.text) =
        (headText (pre.map Item.text) ++ lapText v.lap) ++ (D ++ tailText (post.map Item.text)) := by
      have etail : ∀ a b : List Str, tailText (a ++ b) = tailText a ++ tailText b := by
        intro a b
        induction a with
        | nil => rfl
        | cons x a ih => simp [tailText, ih]
      rw [joinStar, List.map_append, List.cons_append, List.map_cons, intercalate_split, List.map_append,
        etail, hDeq, Item.text]
      simp
    rw [hT]
    have hvwf := hwf v (by simp)
    apply getFieldName_block hN hknown hDk
    · intro g hg
      obtain ⟨h, a, c, t, hs⟩ := shape hN hg
      have hstar := hstarg g hg
      apply noStart_append
      · exact noStart_headText hstar.1 hstar.2 _ (by
          intro s hs'
          obtain ⟨i, hi, rfl⟩ := List.mem_map.mp hs'
          exact hfree i (by simp [hi]) g hg) _
      · rw [hs.drop]
        by_cases hname : v.name? = some g
        · exact noStart_lap hN hg hs hvwf hname _
        · have hnf := item_free hN hg hs hvwf hname
          rw [hDeq]
          have hrest : tailText (vs.map Item.text) ++ tailText (post.map Item.text) = [] ∨
              ∃ r, tailText (vs.map Item.text) ++ tailText (post.map Item.text) = '*' :: r := by
            rcases tailText_head (vs.map Item.text) with h1 | ⟨r, h1⟩
            · rw [h1, List.nil_append]; exact tailText_head _
            · rw [h1]; exact Or.inr ⟨_, rfl⟩
          rw [hs.drop] at hstar
          have := noStart_before hstar.1 hstar.2 hnf hrest
          intro B hB hsuf hp
          refine this (B ++ facText v.fac) (by simp [hB]) ?_ ?_
          · obtain ⟨w, hw⟩ := hsuf
            exact ⟨w, by rw [Item.text, ← hw, List.append_assoc]⟩
          · simpa using hp
    · intro g hg
      apply not_infix_tailText (hstarg g hg).1 (hstarg g hg).2
      intro s hs'
      obtain ⟨i, hi, rfl⟩ := List.mem_map.mp hs'
      exact hfree i (by simp [hi]) g hg
    · exact tailText_head _
    · intro g hg
      have : headText (pre.map Item.text) ++ lapText v.lap ++ tailText (post.map Item.text) =
          List.intercalate ['*'] (pre.map Item.text ++ lapText v.lap :: post.map Item.text) := by
        rw [intercalate_split, List.append_assoc]
      rw [this]
      apply infix_join (hstarg g hg).1 (hstarg g hg).2
      intro s hs'
      simp only [List.mem_append, List.mem_cons] at hs'
      rcases hs' with h1 | rfl | h1
      · obtain ⟨i, hi, rfl⟩ := List.mem_map.mp h1
        exact hfree i (by simp [hi]) g hg
      · obtain ⟨h, a, c, t, hs⟩ := shape hN hg
        rw [hs.drop]
        by_cases hl : v.lap = none
        · rw [hl]; simpa [lapText] using hs.hne
        · have := item_free hN hg hs (i := ⟨v.lap, none⟩) ⟨Or.inl hl, by simp, hvwf.lapPow, by simp, by simp⟩
            (by simp [Item.name?])
          simpa [Item.text, facText] using this
      · obtain ⟨i, hi, rfl⟩ := List.mem_map.mp h1
        exact hfree i (by simp [hi]) g hg

/-! ### Terms linear in the field -/

omit hN hm in
/-- What is left of an item after its field has been removed. -/
def leftover (i : Item) : Item := ⟨i.lap, i.fac.map fun f => ⟨[], f.exp⟩⟩

omit hm in
theorem removeAll_field {g : Str} (hg : g ∈ N.varying) {pre post : List Item} {i : Item}
    (hother : ∀ j ∈ pre ++ post, j.WellFormed N ∧ j.name? ≠ some g) (hi : i.WellFormed N)
    (hn : i.name? = some g) :
    removeAll g (productText (pre ++ i :: post)) = productText (pre ++ leftover i :: post) := by
  obtain ⟨h, a, c, t, hs⟩ := shape hN hg
  obtain ⟨e, he, ht⟩ := text_of_name hn
  have hstar : '*' ∉ g := (hs.notMem (by decide) (by decide)).2
  have hfree : ∀ j ∈ pre ++ post, ¬ g <:+: j.text := fun j hj hin =>
    item_free hN hg hs (hother j hj).1 (hother j hj).2 (hs.prefix.isInfix.trans hin)
  have hl : Item.text (leftover i) = lapText i.lap ++ Spec.powerText e := by
    simp [Item.text, leftover, he, facText, Factor.text]
  rw [productText, productText, List.map_append, List.map_cons, List.map_append, List.map_cons,
    intercalate_split, intercalate_split, hl, ht]
  have h1 : NoStart g (headText (pre.map Item.text)) (lapText i.lap ++ (g ++ Spec.powerText e) ++
      tailText (post.map Item.text)) := by
    apply noStart_headText hs.ne hstar
    intro s hs'
    obtain ⟨j, hj, rfl⟩ := List.mem_map.mp hs'
    exact hfree j (by simp [hj])
  rw [removeAll_skip h1, List.append_assoc, removeAll_skip (noStart_mono hs.prefix
    (noStart_lap hN hg hs hi hn _)), List.append_assoc, removeAll_match hs.ne, List.append_assoc]
  congr 2
  apply removeAll_none
  intro hin
  have hag : ∃ t', g = a :: t' := ⟨t ++ [c], by rw [hs.eq, hs.head]; rfl⟩
  obtain ⟨t', hgt⟩ := hag
  have hpow : a ∉ Spec.powerText e := alpha_not_power hs.alpha (hi.exp _ he)
  rw [hgt] at hin
  have h2 := infix_head hpow hin
  rw [← hgt] at h2
  refine not_infix_tailText hs.ne hstar _ ?_ h2
  intro s hs'
  obtain ⟨j, hj, rfl⟩ := List.mem_map.mp hs'
  exact hfree j (by simp [hj])

/-- The term built from a product that is linear in a field, after the field has been removed. -/
theorem concreteTerm_linear {field : Str} (hf : field ∈ N.varying) {items : List Item}
    (hwf : ∀ i ∈ items, i.WellFormed N) (hone : (laplacians items).length ≤ 1)
    (hfirst : ∀ pre i post, items = pre ++ i :: post → i.lap ≠ none →
      ∀ j ∈ pre, ∀ f ∈ j.fac, ¬ ['L', 'A'] <:+: f.name)
    (hlin : LinearIn field N.varying items) (hpow : ∀ f ∈ factorsIn N.varying items, f.power = 1)
    (delim : Option Char) :
    concreteTerm (removeAll field (productText items)) delim m = some ⟨signOf delim,
      (factorsIn N.scalars items).map fun f => (f.name, f.power), [],
      (laplacians items).head?.map fun k : ℕ => (k : ℤ)⟩ := by
  obtain ⟨hcount, hothers, -⟩ := hlin
  obtain ⟨i, hocc⟩ := List.length_eq_one_iff.mp hcount
  have himem : i ∈ occurrences field items := by rw [hocc]; simp
  obtain ⟨hi, hn⟩ : i ∈ items ∧ i.name? = some field := by
    simpa [occurrences] using himem
  obtain ⟨pre, post, rfl⟩ := List.append_of_mem hi
  have hother : ∀ j ∈ pre ++ post, j.WellFormed N ∧ j.name? ≠ some field := by
    intro j hj
    refine ⟨hwf j (by simp only [List.mem_append, List.mem_cons] at hj ⊢; tauto), fun hjn => ?_⟩
    have hlen : (occurrences field (pre ++ i :: post)).length =
        (occurrences field pre).length + (1 + (occurrences field post).length) := by
      simp only [occurrences, List.filter_append, List.length_append]
      rw [List.filter_cons, if_pos (by simpa using hn), List.length_cons]
      omega
    have hpos : 0 < (occurrences field pre).length + (occurrences field post).length := by
      rcases List.mem_append.mp hj with h | h
      · have : j ∈ occurrences field pre := by simp [occurrences, h, hjn]
        have := List.length_pos_of_mem this
        omega
      · have : j ∈ occurrences field post := by simp [occurrences, h, hjn]
        have := List.length_pos_of_mem this
        omega
    omega
  obtain ⟨e, he, -⟩ := text_of_name hn
  have hi' := hwf i (by simp)
  rw [removeAll_field hN hf hother hi' hn]
  have hnov : ∀ j ∈ pre ++ post, ∀ g ∈ N.varying, j.name? ≠ some g := by
    intro j hj g hg hjn
    by_cases hgf : g = field
    · exact (hother j hj).2 (hgf ▸ hjn)
    · have := hothers g hg hgf
      have hmem : j ∈ occurrences g (pre ++ i :: post) := by
        have hj' : j ∈ pre ++ i :: post := by
          simp only [List.mem_append, List.mem_cons] at hj ⊢; tauto
        simp only [occurrences, List.mem_filter, decide_eq_true_eq]
        exact ⟨hj', hjn⟩
      rw [this] at hmem; simp at hmem
  have hp1 : Factor.power ⟨[], e⟩ = 1 := by
    have := hpow ⟨field, e⟩ (by
      simp only [factorsIn, List.mem_filter, List.mem_filterMap, decide_eq_true_eq]
      exact ⟨⟨i, by simp, he⟩, hf⟩)
    exact this
  have hgood : ∀ j ∈ pre ++ leftover i :: post, Good N j := by
    intro j hj
    simp only [List.mem_append, List.mem_cons] at hj
    rcases hj with h | rfl | h
    · exact good_of_wf (hwf j (by simp [h]))
    · refine ⟨?_, hi'.lapPow, ?_, ?_⟩
      · intro f hf' x hx
        simp only [leftover, he, Option.map_some, Option.mem_some_iff] at hf'
        subst hf'
        exact hi'.exp _ he x hx
      · intro f hf'
        simp only [leftover, he, Option.map_some, Option.mem_some_iff] at hf'
        subst hf'
        exact Or.inr ⟨rfl, hp1⟩
      · intro f hf' _
        simp only [leftover, he, Option.map_some, Option.mem_some_iff] at hf'
        subst hf'
        exact Or.inl rfl
    · exact good_of_wf (hwf j (by simp [h]))
  have hlaps : laplacians (pre ++ leftover i :: post) = laplacians (pre ++ i :: post) := by
    simp only [laplacians, List.filterMap_append, List.filterMap_cons, leftover]
  have hdis : ∀ y ∈ N.varying, y ∉ N.scalars := fun y hy hy' =>
    (List.nodup_append.mp hN.nodup).2.2 y hy y hy' rfl
  have hnempty : ([] : Str) ∉ N.scalars := by
    intro hm'
    obtain ⟨⟨c, t, h1, _⟩, _⟩ := hN.ident [] (by simp [Names.all, hm'])
    simp at h1
  have hscal : factorsIn N.scalars (pre ++ leftover i :: post) = factorsIn N.scalars (pre ++ i :: post) := by
    have e1 : factorsIn N.scalars (leftover i :: post) = factorsIn N.scalars post := by
      simp [factorsIn, leftover, he, hnempty]
    have e2 : factorsIn N.scalars (i :: post) = factorsIn N.scalars post := by
      simp [factorsIn, he, hdis field hf]
    rw [factorsIn_append, factorsIn_append, e1, e2]
  have hfield : getFieldName (joinStar (sortStrings ((pre ++ leftover i :: post).map Item.text)))
      m.allFieldNames = [] := by
    apply getFieldName_none (represents_known hm)
    intro g hg
    obtain ⟨h, a, c, t, hs⟩ := shape hN hg
    rw [hs.drop]
    apply infix_join hs.hne (hs.notMem (by decide) (by decide)).1
    intro s hs'
    have hs' := (List.perm_insertionSort _ _).subset hs'
    obtain ⟨j, hj, rfl⟩ := List.mem_map.mp hs'
    simp only [List.mem_append, List.mem_cons] at hj
    rcases hj with h1 | rfl | h1
    · exact item_free hN hg hs (hwf j (by simp [h1])) (hnov j (by simp [h1]) g hg)
    · intro hin
      have e1 : Item.text (leftover i) = lapText i.lap ++ Spec.powerText e := by
        simp [Item.text, leftover, he, facText, Factor.text]
      rw [e1] at hin
      have hin := infix_factor hs.head hs.alpha hs.identH _ (hi'.exp _ he) hin
      by_cases hl : i.lap = none
      · rw [hl] at hin; exact hs.hne (by simpa [lapText] using hin)
      · have := item_free hN hg hs (i := ⟨i.lap, none⟩) ⟨Or.inl hl, by simp, hi'.lapPow, by simp, by simp⟩
          (by simp [Item.name?])
        exact this (by simpa [Item.text, facText] using hin)
    · exact item_free hN hg hs (hwf j (by simp [h1])) (hnov j (by simp [h1]) g hg)
  have := concreteTerm_good hN hm (items := pre ++ leftover i :: post) (by simp) hgood
    (by rw [hlaps]; exact hone) ?_ delim
  · rw [this, hscal, hlaps, hfield]
  · intro pre' j post' heq hl k hk f hf'
    by_cases hki : f.name = []
    · rw [hki]; simp
    · rcases List.append_eq_append_iff.mp heq with ⟨w, h1, h2⟩ | ⟨w, h1, h2⟩
      · -- the item with the Laplacian is the leftover or stands after it
        cases w with
        | nil =>
          simp only [List.nil_append, List.cons.injEq] at h2
          simp only [List.append_nil] at h1
          obtain ⟨rfl, rfl⟩ := h2
          subst h1
          exact hfirst pre' i post rfl hl k hk f hf'
        | cons x w =>
          simp only [List.cons_append, List.cons.injEq] at h2
          obtain ⟨rfl, h2⟩ := h2
          rw [h1] at hk
          simp only [List.mem_append, List.mem_cons] at hk
          refine hfirst (pre ++ i :: w) j post' (by rw [h2]; simp) hl k ?_ f hf'
          rcases hk with hk | rfl | hk
          · simp [hk]
          · exfalso
            simp only [leftover, he, Option.map_some, Option.mem_some_iff] at hf'
            exact hki (by rw [← hf'])
          · simp [hk]
      · cases w with
        | nil =>
          simp only [List.nil_append, List.cons.injEq] at h2
          obtain ⟨rfl, rfl⟩ := h2
          simp only [List.append_nil] at h1
          subst h1
          exact hfirst pre i post' rfl hl k hk f hf'
        | cons x w =>
          simp only [List.cons_append, List.cons.injEq] at h2
          obtain ⟨rfl, h2⟩ := h2
          exact hfirst pre' j (w ++ i :: post) (by rw [h1]; simp) hl k hk f hf'

end Gopf.Pf
