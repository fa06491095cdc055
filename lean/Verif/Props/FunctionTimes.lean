import Verif.Props.Assemble
import Verif.Proofs.Stepper

/-!
# C19: products of a function and a field
-/

namespace Gopf.Pf
open Spec

/-- A prefix without `*` of a text that is followed by `*` or nothing. -/
private theorem prefix_before {u S B : Str} (hu : '*' ∉ u) (hB : B = [] ∨ ∃ r, B = '*' :: r) (h : u <+: S ++ B) :
    u <+: S := by
  rcases List.prefix_or_prefix_of_prefix h (List.prefix_append S B) with h1 | ⟨Z, hZ⟩
  · exact h1
  rw [← hZ] at h
  have hZB : Z <+: B := (List.prefix_append_right_inj S).mp h
  rcases hB with rfl | ⟨r, rfl⟩
  · rw [List.prefix_nil.mp hZB, List.append_nil] at hZ
    rw [hZ]
  · cases Z with
    | nil => rw [List.append_nil] at hZ; rw [hZ]
    | cons z Z =>
      exfalso
      have hz := List.cons_prefix_cons.mp hZB
      apply hu
      rw [← hZ, hz.1]
      simp

/-- Removing a product leaves a segment alone in which none of its factors occurs. -/
private theorem keeps (ds : List Str) (hne : ds ≠ []) (hd : ∀ t ∈ ds, '*' ∉ t) (X B : Str)
    (hB : B = [] ∨ ∃ r, B = '*' :: r) (hX : ∀ t ∈ ds, ¬ t <:+: X) :
    ∀ k (A : Str), A.length ≤ k → (A = [] ∨ ∃ A0, A = A0 ++ ['*']) →
      X <:+: removeAll (List.intercalate ['*'] ds) (A ++ (X ++ B)) := by
  have hstart : NoStart (List.intercalate ['*'] ds) X B := by
    intro S _ hS hp
    obtain ⟨t, ts, rfl⟩ := List.exists_cons_of_ne_nil hne
    rw [intercalate_cons] at hp
    have h1 := prefix_before (hd t (by simp)) hB ((List.prefix_append _ _).trans hp)
    exact hX t (by simp) (h1.isInfix.trans hS.isInfix)
  intro k
  induction k with
  | zero =>
    intro A hA _
    rw [List.length_eq_zero_iff.mp (Nat.le_zero.mp hA), List.nil_append, removeAll_skip hstart]
    exact (List.prefix_append _ _).isInfix
  | succ k ih =>
    intro A hA hend
    cases A with
    | nil =>
      rw [List.nil_append, removeAll_skip hstart]
      exact (List.prefix_append _ _).isInfix
    | cons a A =>
      obtain ⟨A0, hA0⟩ : ∃ A0, a :: A = A0 ++ ['*'] := hend.resolve_left (by simp)
      have hsuf : ∀ C, C <:+ a :: A → C = [] ∨ ∃ C0, C = C0 ++ ['*'] := by
        intro C hC
        by_cases hC0 : C = []
        · exact Or.inl hC0
        · refine Or.inr ⟨C.dropLast, ?_⟩
          obtain ⟨E, hE⟩ := hC
          have h1 : (E ++ C).getLast (by simp [hC0]) = '*' := by
            simp only [hE, hA0, List.getLast_append_singleton]
          rw [List.getLast_append_of_ne_nil _ hC0] at h1
          conv_lhs => rw [← List.dropLast_append_getLast hC0]
          rw [h1]
      by_cases hp : List.intercalate ['*'] ds <+: (a :: A) ++ (X ++ B)
      · by_cases hd0 : List.intercalate ['*'] ds = []
        · exfalso
          obtain ⟨t, ts, rfl⟩ := List.exists_cons_of_ne_nil hne
          rw [intercalate_cons, List.append_eq_nil_iff] at hd0
          exact hX t (by simp) (by rw [hd0.1]; exact List.nil_infix)
        rcases List.prefix_or_prefix_of_prefix hp (List.prefix_append (a :: A) (X ++ B)) with h1 | ⟨Z, hZ⟩
        · obtain ⟨C, hC⟩ := h1
          rw [← hC, List.append_assoc, removeAll_match hd0]
          refine ih C ?_ (hsuf C ⟨_, hC⟩)
          have := congrArg List.length hC
          have h0 := List.length_pos_iff.mpr hd0
          rw [List.length_append] at this
          omega
        · exfalso
          rw [← hZ] at hp
          have hZB : Z <+: X ++ B := (List.prefix_append_right_inj (a :: A)).mp hp
          obtain ⟨u, hu, hup⟩ := join_cut ds hd A0 Z (by rw [← hZ, hA0]; simp)
          have h1 := prefix_before (hd u hu) hB (hup.trans hZB)
          exact hX u hu h1.isInfix
      · rw [List.cons_append, removeAll.eq_def, dif_neg (by
          rintro ⟨h1, -⟩
          exact hp (List.isPrefixOf_iff_prefix.mp h1))]
        refine (ih A (by simpa using hA) (hsuf A (List.suffix_cons a A))).trans ?_
        exact (List.suffix_cons _ _).isInfix

private theorem headText_end : ∀ ss : List Str, headText ss = [] ∨ ∃ A0, headText ss = A0 ++ ['*']
  | [] => Or.inl rfl
  | s :: ss => by
    refine Or.inr ?_
    rcases headText_end ss with h | ⟨A0, h⟩
    · exact ⟨s, by simp [headText, h]⟩
    · exact ⟨s ++ '*' :: A0, by simp [headText, h]⟩

/-- A name that occurs in a product of items is left after a product without this name has been removed. -/
private theorem name_left {N : Names} (hN : N.WellNamed) {items : List Item} (hw : ∀ i ∈ items, i.WellFormed N)
    {x : Str} (hi : ∃ i ∈ items, i.name? = some x) {fs : List Factor} (hfs : fs ≠ [])
    (hf : ∀ f ∈ fs, f.name ∈ N.varying ∧ ∀ e ∈ f.exp, e.WellFormed) (hx : ∀ f ∈ fs, f.name ≠ x) :
    x <:+: removeAll (List.intercalate ['*'] (fs.map Factor.text)) (joinStar (items.map Item.text)) := by
  obtain ⟨i, hi, hn⟩ := hi
  obtain ⟨pre, post, rfl⟩ := List.append_of_mem hi
  obtain ⟨e, -, ht⟩ := text_of_name hn
  have hxi : x <:+: i.text := by
    rw [ht]
    exact ⟨lapText i.lap, Spec.powerText e, by simp⟩
  refine hxi.trans ?_
  rw [joinStar, List.map_append, List.map_cons, intercalate_split]
  refine keeps (fs.map Factor.text) (by simpa using hfs) ?_ i.text _ (tailText_head _) ?_ _ _ le_rfl (headText_end _)
  · intro t ht
    obtain ⟨f, hf', rfl⟩ := List.mem_map.mp ht
    exact factor_noStar hN (hf f hf').1 (hf f hf').2
  · intro t ht hin
    obtain ⟨f, hf', rfl⟩ := List.mem_map.mp ht
    obtain ⟨h, a, c, t', hs⟩ := shape hN (hf f hf').1
    refine item_free hN (hf f hf').1 hs (hw i hi) ?_ ((hs.prefix.trans (List.prefix_append _ _)).isInfix.trans hin)
    rw [hn]
    intro h
    exact hx f hf' (Option.some.inj h).symm

/-- If each known product lacks one of the names in the items, no field is found. -/
private theorem getFieldName_lost {N : Names} (hN : N.WellNamed) {n : ℕ} {m : EqModel n} (hm : Represents N m)
    {items : List Item} (hw : ∀ i ∈ items, i.WellFormed N)
    (hlack : ∀ d ∈ m.allFieldNames, ∃ fs : List Factor, d = List.intercalate ['*'] (fs.map Factor.text) ∧ fs ≠ [] ∧
      (∀ f ∈ fs, f.name ∈ N.varying ∧ ∀ e ∈ f.exp, e.WellFormed) ∧
      ∃ x ∈ N.varying, (∃ i ∈ items, i.name? = some x) ∧ ∀ f ∈ fs, f.name ≠ x) :
    getFieldName (joinStar (items.map Item.text)) m.allFieldNames = [] := by
  unfold getFieldName
  refine fold_nothing (fun f field => contains f (joinStar (items.map Item.text)) &&
    onlyField (joinStar (items.map Item.text)) f m.allFieldNames && decide (f.length > field.length)) _ ?_
  intro d hd acc
  obtain ⟨fs, rfl, h1, h2, x, hx, h3, h4⟩ := hlack d hd
  have hk : x ∈ m.allFieldNames := by
    rw [EqModel.allFieldNames, List.mem_append]
    rw [Names.varying, List.mem_append] at hx
    exact hx.imp (hm.fields x).mpr (hm.functions x)
  have hleft := (contains_iff _ _).mpr (name_left hN hw h3 h1 h2 h4)
  have : onlyField (joinStar (items.map Item.text)) (List.intercalate ['*'] (fs.map Factor.text)) m.allFieldNames =
      false := by
    unfold onlyField
    rw [← Bool.not_eq_true, List.all_eq_true]
    intro hall
    have := hall x hk
    rw [hleft] at this
    simp at this
  rw [this]
  simp

end Gopf.Pf

namespace Gopf.Props
open Spec Pf Pfutil

variable {n : ℕ}

/-- C19: a product of a function and a field, or of two functions, is lost: whatever they are, and whatever else the
product contains, the term is evaluated as if all of them were one in every bin of the spectrum. Only the scalars and
the Laplacian are left. The term is an explicit one, also if it is written like a term linear in the field. -/
theorem c19_function_lost (N : Names) (hN : N.WellNamed) (m : EqModel n) (hm : Represents N m)
    (hder : ∀ x ∈ m.derived.map Prod.fst, x ∈ N.functions ∨ ProductOf ⟨N.fields, [], []⟩ x)
    (items : List Item) (hw : ∀ i ∈ items, i.WellFormed N) (hone : (laplacians items).length ≤ 1)
    (hfirst : ∀ pre i post, items = pre ++ i :: post → i.lap ≠ none →
      ∀ j ∈ pre, ∀ f ∈ j.fac, ¬ ['L', 'A'] <:+: f.name)
    (g f : Str) (hg : g ∈ N.functions) (hf : f ∈ N.varying) (hne : g ≠ f) (hig : ∃ i ∈ items, i.name? = some g)
    (hif : ∃ i ∈ items, i.name? = some f) (delim : Option Char) :
    ∃ c : Concrete, (∀ (b : Bricks n) (freq : Frequency n) (t : ℝ) (k : Fin n), c.eval b freq t k =
        (signOf delim : ℂ) * ((factorsIn N.scalars items).map fun f => b f.name k ^ ((f.power : ℚ) : ℂ)).prod *
          ((laplacians items).map fun p => laplaceSymbol (freq k) ^ p).prod) ∧
      ∀ field ∈ N.fields, m.isUserDefinedTerm (removeKnownPrefixes (productText items)) = false →
      ∀ rhs, buildTerm m field rhs ⟨productText items, delim⟩ = some ⟨rhs.terms ++ [c.eval], rhs.denum⟩ := by
  have hgv : g ∈ N.varying := by simp [Names.varying, hg]
  have hitems : items ≠ [] := by
    obtain ⟨i, hi, -⟩ := hig
    exact List.ne_nil_of_mem hi
  have hgf : g ∉ N.fields := by
    intro h
    have := hN.nodup
    rw [Names.all, Names.varying, List.nodup_append, List.nodup_append] at this
    exact this.1.2.2 g h g hg rfl
  have hfield : getFieldName (joinStar (sortStrings (items.map Item.text))) m.allFieldNames = [] := by
    have hperm := List.perm_insertionSort (fun a b : Item => a.text ≤ b.text) items
    have hsort : sortStrings (items.map Item.text) =
        (items.insertionSort fun a b : Item => a.text ≤ b.text).map Item.text := by
      refine sort_unique (hperm.map _) ?_
      rw [List.pairwise_map]
      have : Std.Total (fun a b : Item => a.text ≤ b.text) := ⟨fun a b =>
        Std.Total.total (r := ((· ≤ ·) : Str → Str → Prop)) a.text b.text⟩
      have : IsTrans Item (fun a b : Item => a.text ≤ b.text) := ⟨fun a b c =>
        IsTrans.trans (r := ((· ≤ ·) : Str → Str → Prop)) a.text b.text c.text⟩
      exact List.pairwise_insertionSort _ items
    rw [hsort]
    have hocc : ∀ x, (∃ i ∈ items, i.name? = some x) →
        ∃ i ∈ items.insertionSort (fun a b : Item => a.text ≤ b.text), i.name? = some x := by
      rintro x ⟨i, hi, hx⟩
      exact ⟨i, hperm.symm.subset hi, hx⟩
    refine getFieldName_lost hN hm (fun i hi => hw i (hperm.subset hi)) ?_
    intro d hd
    have hone : ∀ x ∈ N.varying, d = x → ∃ fs : List Factor, d = List.intercalate ['*'] (fs.map Factor.text) ∧
        fs ≠ [] ∧ (∀ f ∈ fs, f.name ∈ N.varying ∧ ∀ e ∈ f.exp, e.WellFormed) ∧ ∃ y ∈ N.varying,
          (∃ i ∈ items.insertionSort (fun a b : Item => a.text ≤ b.text), i.name? = some y) ∧
            ∀ f ∈ fs, f.name ≠ y := by
      rintro x hx rfl
      refine ⟨[⟨d, none⟩], by simp [Factor.text, Spec.powerText, List.intercalate], by simp, by simp [hx], ?_⟩
      by_cases h : d = g
      · exact ⟨f, hf, hocc f hif, by simpa [h] using hne⟩
      · exact ⟨g, hgv, hocc g hig, by simpa using h⟩
    rw [EqModel.allFieldNames, List.mem_append] at hd
    rcases hd with hd | hd
    · exact hone d (by simp [Names.varying, (hm.fields d).mp hd]) rfl
    · rcases hder d hd with h | ⟨fs, h1, h2, h3⟩
      · exact hone d (by simp [Names.varying, h]) rfl
      · have h4 : ∀ f ∈ fs, f.name ∈ N.fields := fun f hf => by simpa [Names.varying] using (h3 f hf).1
        refine ⟨fs, h1, h2, fun f hf => ⟨by simp [Names.varying, h4 f hf], (h3 f hf).2⟩, g, hgv, hocc g hig, ?_⟩
        rintro f hf rfl
        exact hgf (h4 f hf)
  have hc := concreteTerm_good hN hm hitems (fun i hi => good_of_wf (hw i hi)) hone hfirst delim
  rw [hfield] at hc
  refine ⟨⟨signOf delim, (factorsIn N.scalars items).map fun f => (f.name, f.power), [],
    (laplacians items).head?.map fun k : ℕ => (k : ℤ)⟩, fun b freq t k => ?_, fun field hfl hu rhs => ?_⟩
  · rw [concrete_eval _ _ _ _ hone]
    simp
  · have hfv : field ∈ N.varying := by simp [Names.varying, hfl]
    obtain ⟨l1, l2, l3⟩ : m.implicitTerms.lookup (removeKnownPrefixes (productText items)) = none ∧
        m.explicitTerms.lookup (removeKnownPrefixes (productText items)) = none ∧
        m.mixedTerms.lookup (removeKnownPrefixes (productText items)) = none := by
      simpa [EqModel.isUserDefinedTerm, and_assoc] using hu
    obtain ⟨bl, hbl, hlin⟩ := isBilinear_spec hN hfv m.allFieldNames (fun k hk' => by
      rw [EqModel.allFieldNames, List.mem_append] at hk'
      rcases hk' with hk' | hk'
      · exact Or.inl (by simp [Names.varying, (hm.fields k).mp hk'])
      · rcases hm.derived k hk' with h | h
        · exact Or.inl (by simp [Names.varying, h])
        · exact Or.inr h) items hw
    have hbl' : bl = false := by
      rw [← Bool.not_eq_true]
      intro h
      obtain ⟨-, h2, -⟩ := hlin.mp h
      obtain ⟨i, hi, hn⟩ := hig
      have := h2 g (by
        rw [EqModel.allFieldNames, List.mem_append]
        exact Or.inr (hm.functions g hg)) (by
        rintro rfl
        exact hgf hfl)
      have hmem : i ∈ occurrences g items := by simp [occurrences, hi, hn]
      rw [this] at hmem
      simp at hmem
    rw [hbl'] at hbl
    simp only [buildTerm, l1, l2, l3, hbl, hc]
    rfl

/-- The condition on the derived fields holds after equations that can be read have been added. -/
theorem grown_products {N : Names} {m0 m : EqModel n} (h0 : StartsAs N m0) (hg : Grown N m0 m) :
    ∀ x ∈ m.derived.map Prod.fst, x ∈ N.functions ∨ ProductOf ⟨N.fields, [], []⟩ x := by
  intro x hx
  obtain ⟨p, hp, rfl⟩ := List.mem_map.mp hx
  rcases hg.derived p hp with h | ⟨fs, h1, h2, ⟨ts, h3, h4, h5⟩, -⟩
  · left
    rw [← h0.functions]
    exact List.mem_map_of_mem h
  · right
    have key : ∀ ts : List Str, (∀ t ∈ ts, t ∈ fs.map Factor.text) →
        ∃ gs : List Factor, gs.map Factor.text = ts ∧ ∀ g ∈ gs, g ∈ fs := by
      intro ts
      induction ts with
      | nil => exact fun _ => ⟨[], rfl, by simp⟩
      | cons t ts ih =>
        intro h
        obtain ⟨gs, e, hgs⟩ := ih fun t ht => h t (by simp [ht])
        obtain ⟨g, hg', rfl⟩ := List.mem_map.mp (h t (by simp))
        exact ⟨g :: gs, by rw [List.map_cons, e], by simpa [hg'] using hgs⟩
    obtain ⟨gs, rfl, hgs⟩ := key ts fun t ht => h3.subset ht
    refine ⟨gs, h5, ?_, fun g hg' => ⟨?_, (h2 g (hgs g hg')).2⟩⟩
    · rintro rfl
      exact h1 (by simpa using h3.length_eq.symm)
    · simpa [Names.varying] using (h2 g (hgs g hg')).1

/-- `gamma*LAP FUNC*conc^2`, written without the blank. -/
def lostItems : List Item := [⟨none, some ⟨"gamma".toList, none⟩⟩, ⟨some none, some ⟨"FUNC".toList, none⟩⟩,
  ⟨none, some ⟨"conc".toList, some ⟨['2'], none⟩⟩⟩]

/-- The hypotheses of `c19_function_lost` hold for the term `gamma*LAPFUNC*conc^2`. -/
example : productText lostItems = "gamma*LAPFUNC*conc^2".toList ∧ demoNames.WellNamed ∧
    Represents demoNames demoStart ∧ (demoStart.derived.map Prod.fst = demoNames.functions) ∧
    (∀ i ∈ lostItems, i.WellFormed demoNames) ∧ (laplacians lostItems).length ≤ 1 ∧
    (∀ pre i post, lostItems = pre ++ i :: post → i.lap ≠ none →
      ∀ j ∈ pre, ∀ f ∈ j.fac, ¬ ['L', 'A'] <:+: f.name) ∧
    "FUNC".toList ∈ demoNames.functions ∧ "conc".toList ∈ demoNames.varying ∧
    (∃ i ∈ lostItems, i.name? = some "FUNC".toList) ∧ ∃ i ∈ lostItems, i.name? = some "conc".toList := by
  refine ⟨by decide, demo_wellNamed, (grown_start demo_wellNamed demo_starts).rep, rfl, ?_, by decide, ?_, by decide, by decide,
    by decide, by decide⟩
  · intro i hi
    simp only [lostItems, List.mem_cons, List.not_mem_nil, or_false] at hi
    rcases hi with rfl | rfl | rfl
    · exact ⟨by simp, by simp, by simp, by simp; decide, by simp⟩
    · exact ⟨by simp, by simp, by simp, by simp; decide, by simp; decide⟩
    · exact ⟨by simp, by simp [Exponent.WellFormed], by simp, by simp; decide, by simp⟩
  · intro pre i post h hl j hj f hf
    match pre, h, hj with
    | [], _, hj => simp at hj
    | [a], h, hj =>
      simp only [lostItems, List.cons_append, List.nil_append, List.cons.injEq] at h
      obtain rfl := List.mem_singleton.mp hj
      rw [← h.1] at hf
      obtain rfl := Option.mem_some_iff.mp hf
      decide
    | a :: c :: pre, h, _ =>
      exfalso
      simp only [lostItems, List.cons_append, List.cons.injEq] at h
      have h' := h.2.2
      cases pre with
      | nil =>
        simp only [List.nil_append, List.cons.injEq] at h'
        exact hl (by rw [← h'.1])
      | cons d pre => simp at h'

/-! ### What such a simulation does -/

variable {dims : List ℕ}

/-- The product of a function and a field. -/
def functionTimes (g field : Str) : List Item := [⟨none, some ⟨g, none⟩⟩, ⟨none, some ⟨field, none⟩⟩]

/-- The text of the equation. -/
def lostEquation (g field : Str) : Str := 'd' :: (field ++ ['/', 'd', 't']) ++ '=' :: (g ++ '*' :: field)

theorem functionTimes_text (g field : Str) : productText (functionTimes g field) = g ++ '*' :: field := by
  simp [productText, functionTimes, List.intercalate, Item.text, lapText, facText, Factor.text, Spec.powerText]

theorem functionTimes_wf {N : Names} {g field : Str} (hg : g ∈ N.functions) (hf : field ∈ N.fields) :
    ∀ i ∈ functionTimes g field, i.WellFormed N := by
  intro i hi
  simp only [functionTimes, List.mem_cons, List.not_mem_nil, or_false] at hi
  rcases hi with rfl | rfl
  · exact ⟨by simp, by simp, by simp, by simp [Names.all, Names.varying, hg], by simp⟩
  · exact ⟨by simp, by simp, by simp, by simp [Names.all, Names.varying, hf], by simp⟩

/-- If the right-hand side is one in every bin, each step adds the time step at the first node. -/
private theorem flood {nf nd : ℕ} (h : ∀ d ∈ dims, 0 < d) (M : Model nf nd dims.prod) (s : Stepper dims.prod)
    (hfil : s.filter = none) (i : Fin nf) (hR : ∀ st freq t k, M.getRHS i st freq t k = 1)
    (hD : ∀ st freq t k, M.getDenum i st freq t k = 0) (st : Store nf nd dims.prod) (steps : ℕ) (x : Fin dims.prod) :
    (eulerPropagate M steps (s, st)).2.fields i x =
      st.fields i x + if x.val = 0 then (steps : ℂ) * (s.dt : ℂ) else 0 := by
  have key : ((eulerPropagate M steps (s, st)).1.dt = s.dt ∧ (eulerPropagate M steps (s, st)).1.filter = none) ∧
      ∀ k, fft dims ((eulerPropagate M steps (s, st)).2.fields i) k = fft dims (st.fields i) k + steps * s.dt := by
    induction steps with
    | zero => simp [eulerPropagate, hfil]
    | succ j ih =>
      have e : eulerPropagate M (j + 1) (s, st) = eulerStep M (eulerPropagate M j (s, st)) := by
        simp [eulerPropagate, List.range_succ]
      rw [e]
      generalize eulerPropagate M j (s, st) = p at ih
      obtain ⟨p1, p2⟩ := p
      obtain ⟨⟨h1, h2⟩, h3⟩ := ih
      dsimp only at h1 h2 h3
      refine ⟨⟨h1, h2⟩, fun k => ?_⟩
      obtain ⟨st', -, -, hstep⟩ := eulerStep_field h M p1 p1.getTime p2 i
      have := congrFun hstep k
      rw [h2] at this
      simp only [optFilter, hR, hD, h1, h3] at this
      refine Eq.trans this ?_
      push_cast
      ring
  have hx0 : 0 < dims.prod := by
    have := x.2
    omega
  have hd : (eulerPropagate M steps (s, st)).2.fields i = fun y => st.fields i y +
      (steps * s.dt : ℂ) * (Pi.single (⟨0, hx0⟩ : Fin dims.prod) 1 : Fin dims.prod → ℂ) y := by
    apply fft_injective h
    funext k
    rw [key.2 k, fft_add, fft_smul, fft_single, phase_symm, phase_zero_left, neg_zero, cis_zero, mul_one]
  rw [hd]
  dsimp only
  congr 1
  by_cases hx : x.val = 0
  · rw [if_pos hx, show x = ⟨0, hx0⟩ from Fin.ext hx, Pi.single_eq_same, mul_one]
  · rw [if_neg hx, Pi.single_eq_of_ne (fun e => hx (by rw [e])), mul_zero]

/-- C19: what a simulation of `df/dt = g*f` does, `g` being a function and `f` the only field: each Euler step adds
the time step to the value at the first node. All other nodes keep their values, whatever the function is. -/
theorem c19_function_simulated (h : ∀ d ∈ dims, 0 < d) (N : Names) (hN : N.WellNamed) (field g : Str)
    (hfield : N.fields = [field]) (hg : g ∈ N.functions) (m0 : EqModel dims.prod) (h0 : StartsAs N m0)
    (heq : m0.equations = []) (hu : m0.isUserDefinedTerm (g ++ '*' :: field) = false)
    (hu' : m0.isUserDefinedTerm (removeKnownPrefixes (g ++ '*' :: field)) = false) (text : Str)
    (ht : (text.filter fun c => c ≠ ' ') = lostEquation g field) (c : Str → ℂ) :
    ∃ m M, m0.addEquation text = some m ∧ m.fields = [field] ∧ m.assemble c = some M ∧
      ∀ (s : Stepper dims.prod), s.filter = none →
      ∀ (st : Store m.fields.length m.derived.length dims.prod) (steps : ℕ) (i : Fin m.fields.length)
        (x : Fin dims.prod), (eulerPropagate M steps (s, st)).2.fields i x =
          st.fields i x + if x.val = 0 then (steps : ℂ) * (s.dt : ℂ) else 0 := by
  have hfm : field ∈ N.fields := by rw [hfield]; simp
  have hfv : field ∈ N.varying := by simp [Names.varying, hfm]
  have hgv : g ∈ N.varying := by simp [Names.varying, hg]
  have hne : g ≠ field := by
    rintro rfl
    exact fields_functions hN hfm hg
  have hw := functionTimes_wf hg hfm
  have htext := functionTimes_text g field
  obtain ⟨_, _, _, _, hs⟩ := shape hN hfv
  obtain ⟨_, _, _, _, hs'⟩ := shape hN hgv
  set eq : Str := lostEquation g field with heqd
  have hsplit : goSplit '=' eq = ['d' :: (field ++ ['/', 'd', 't']), g ++ '*' :: field] := by
    rw [heqd, lostEquation]
    apply goSplit_two
    · intro hc
      simp only [List.mem_cons, List.mem_append, List.not_mem_nil, or_false] at hc
      rcases hc with hc | hc | hc | hc | hc
      · exact absurd hc (by decide)
      · exact hs.notMem (by decide) (by decide) |>.2 hc
      all_goals exact absurd hc (by decide)
    · rw [← htext]
      exact product_free hN hw (by decide) (by decide)
  have hleib := leibniz hs.ne
  have hmany : splitOnMany (g ++ '*' :: field) ['+', '-'] = some [⟨g ++ '*' :: field, none⟩] := by
    have hterm : IsTerm ['+', '-'] (g ++ '*' :: field) := by
      refine ⟨by simp, ?_⟩
      intro c hc hcs
      rw [← htext] at hc
      rcases List.mem_cons.mp hcs with rfl | hcs
      · exact product_free hN hw (by decide) (by decide) hc
      · rw [List.mem_singleton] at hcs
        subst hcs
        exact product_free hN hw (by decide) (by decide) hc
    obtain ⟨res, hres, hperm⟩ := c13_split ['+', '-'] ⟨none, g ++ '*' :: field, []⟩ ⟨by simp, hterm, by simp⟩
    have e : (SignedSum.render ⟨none, g ++ '*' :: field, []⟩) = g ++ '*' :: field := by
      simp [SignedSum.render, renderTail]
    rw [e] at hres
    rw [hres]
    obtain ⟨⟨xs, xd⟩, hx, hx1, hx2⟩ : ∃ a, res = [a] ∧ a.sub = g ++ '*' :: field ∧ a.delim = none := by
      simpa [SignedSum.terms] using hperm
    simp only at hx1 hx2
    rw [hx, hx1, hx2]
  obtain ⟨b, hb, hlin⟩ := isBilinear_spec hN hfv N.fields (fun k hk => Or.inl (by simp [Names.varying, hk]))
    (functionTimes g field) hw
  have hbt : b = true := hlin.mpr (by
    have ho : occurrences field (functionTimes g field) = [⟨none, some ⟨field, none⟩⟩] := by
      simp [occurrences, functionTimes, Item.name?, hne]
    refine ⟨by rw [ho]; rfl, fun x hx hxf => ?_, fun i hi f hf => ?_⟩
    · rw [hfield, List.mem_singleton] at hx
      exact absurd hx hxf
    · rw [ho, List.mem_singleton] at hi
      subst hi
      obtain rfl := Option.mem_some_iff.mp hf
      simp [Factor.power])
  rw [hbt] at hb
  set m : EqModel dims.prod := { m0 with equations := m0.equations ++ [eq] } with hm
  have hmf : m.fields = N.fields := h0.fields
  have hrep : Represents N m := by
    have := (grown_start hN h0).rep
    exact ⟨this.fields, this.derived, this.functions, this.bricks⟩
  have hs0 : sortFactors [] = [] := by decide
  have hloop := nonLinearLoop_true hN hw hb N.fields [] (fun f hf => by
    rw [hfield, List.mem_singleton] at hf
    subst hf
    exact ⟨hfv, fun h => absurd rfl h⟩)
  have hone : EqModel.updateOne field m (g ++ '*' :: field) = some m := by
    have hum : m.isUserDefinedTerm (g ++ '*' :: field) = false := hu
    rw [htext] at hloop
    simp [EqModel.updateOne, hum, getNonLinearFieldExpressions, hmf, hloop, hs0]
  have hadd : m0.addEquation text = some m := by
    rw [EqModel.addEquation]
    simp only [ht, EqModel.updateDerivedFields, hsplit, hleib, hmany]
    simpa using hone
  obtain ⟨cc, hval, hbuild⟩ := c19_function_lost N hN m hrep (fun x hx => Or.inl (by
      rw [← h0.functions]; exact hx)) (functionTimes g field) hw (by simp [laplacians, functionTimes])
    (by
      intro pre i post he hl
      exfalso
      have : i ∈ functionTimes g field := by rw [he]; simp
      simp only [functionTimes, List.mem_cons, List.not_mem_nil, or_false] at this
      rcases this with rfl | rfl <;> simp at hl)
    g field hg hfv hne ⟨⟨none, some ⟨g, none⟩⟩, by simp [functionTimes], rfl⟩
    ⟨⟨none, some ⟨field, none⟩⟩, by simp [functionTimes], rfl⟩ none
  have hinit : m.initRHS = some [⟨[cc.eval], []⟩] := by
    have hbd : build eq m = some ⟨[cc.eval], []⟩ := by
      have := hbuild field hfm (by rw [htext]; exact hu') ⟨[], []⟩
      rw [htext] at this
      unfold build
      rw [hsplit]
      simp only [hleib, hmany]
      simpa using this
    have hme : m.equations = [eq] := by rw [hm]; simp [heq]
    rw [EqModel.initRHS, hme, List.mapM_cons, hbd]
    rfl
  have hlen : m.fields.length ≤ ([⟨[cc.eval], []⟩] : List (BuiltRHS dims.prod)).length := by
    rw [hmf, hfield]; simp
  refine ⟨m, _, hadd, hmf.trans hfield, by rw [EqModel.assemble, hinit]; simp only [dif_pos hlen]; rfl, ?_⟩
  intro s hfil st steps i x
  have hi0 : i.val = 0 := by
    have h1 : m.fields.length = 1 := by rw [hmf, hfield]; rfl
    have := i.2
    omega
  have hns : ∀ y ∈ N.varying, y ∉ N.scalars := fun y hy hy' => (List.nodup_append.mp hN.nodup).2.2 y hy y hy' rfl
  refine flood h _ s hfil i ?_ ?_ st steps x
  · intro st freq t k
    rw [c21_rhs]
    simp [hi0, hval, factorsIn, functionTimes, laplacians, signOf, hns g hgv, hns field hfv]
  · intro st freq t k
    rw [c21_denum]
    simp [hi0]

/-- A model with the field `conc` and the function `FUNC`, whatever it computes. -/
def oneFunction (f : Bricks n → Data n) : EqModel n :=
  ((EqModel.empty (n := n)).addField "conc".toList).registerFunction "FUNC".toList f

/-- The hypotheses of `c19_function_simulated` hold for `dconc/dt = FUNC*conc` and every function. -/
example (f : Bricks n → Data n) : ∃ N : Names, N.WellNamed ∧ N.fields = ["conc".toList] ∧ "FUNC".toList ∈ N.functions ∧
    StartsAs N (oneFunction f) ∧ (oneFunction f).equations = [] ∧
    (∀ t, (oneFunction f).isUserDefinedTerm t = false) ∧
    ("dconc/dt = FUNC*conc".toList.filter fun c => c ≠ ' ') = lostEquation "FUNC".toList "conc".toList := by
  have hv : ∀ x ∈ ["conc".toList] ++ ["FUNC".toList], x ∈ demoNames.varying := by decide
  have ha : ∀ x ∈ ["conc".toList, "FUNC".toList], x ∈ demoNames.all := by decide
  refine ⟨⟨["conc".toList], ["FUNC".toList], []⟩, ?_, rfl, by decide, ⟨rfl, rfl, ?_⟩, rfl, fun t => rfl, by decide⟩
  · have := demo_wellNamed
    exact ⟨fun x hx => this.ident x (ha x hx), by decide, fun x hx => this.noLap x (ha x hx),
      fun x hx => this.long x (hv x hx), fun x hx => this.sepLap x (hv x hx),
      fun x hx y hy => this.sepVarying x (hv x hx) y (hv y hy), by simp⟩
  · intro x
    exact Iff.rfl

end Gopf.Props
