import Verif.Proofs.Bilinear
import Verif.Spec.Monomial
import Verif.Props.Text
import Verif.Props.Prefix

/-!
# Facts about `ConcreteTerm` on products
-/

namespace Gopf.Pf
open Spec

/-- The names known to a model are those of `N` and products of its fields. -/
structure Represents {n : ℕ} (N : Names) (m : EqModel n) : Prop where
  fields : ∀ x, x ∈ m.fields ↔ x ∈ N.fields
  derived : ∀ x ∈ m.derived.map Prod.fst, x ∈ N.functions ∨ IsProductName N x
  functions : ∀ x ∈ N.functions, x ∈ m.derived.map Prod.fst
  bricks : ∀ x, x ∈ m.brickNames ↔ x ∈ N.all ∨ x ∈ m.derived.map Prod.fst

/-- A well-formed item, or what is left of one after its field has been removed. -/
structure Good (N : Names) (i : Item) : Prop where
  exp : ∀ f ∈ i.fac, ∀ e ∈ f.exp, e.WellFormed
  lapPow : ∀ k, i.lap = some (some k) → k ≠ [] ∧ ∀ c ∈ k, c.isDigit
  known : ∀ f ∈ i.fac, f.name ∈ N.all ∨ (f.name = [] ∧ f.power = 1)
  attached : ∀ f ∈ i.fac, i.lap ≠ none → f.name = [] ∨ (f.name ∈ N.varying ∧ f.name.head? ≠ some 'P')

theorem good_of_wf {N : Names} {i : Item} (h : i.WellFormed N) : Good N i :=
  ⟨h.exp, h.lapPow, fun f hf => Or.inl (h.known f hf), fun f hf hl =>
    Or.inr ⟨(h.attached f hf hl).1, (h.attached f hf hl).2.2⟩⟩

variable {N : Names} (hN : N.WellNamed)
include hN

omit hN in
theorem digits_not {k : Str} (hk : ∀ c ∈ k, c.isDigit) {d : Char} (hd : d.isDigit = false) : d ∉ k :=
  fun hm => by have := hk d hm; simp [hd] at this

theorem Good.noStar {i : Item} (h : Good N i) : '*' ∉ i.text := by
  obtain ⟨lap, fac⟩ := i
  have hl : '*' ∉ lapText lap := by
    cases lap with
    | none => simp [lapText]
    | some k =>
      cases k with
      | none => simp [lapText]
      | some k =>
        have := digits_not (h.lapPow k rfl).2 (d := '*') (by decide)
        simp [lapText, this]
  have hf : '*' ∉ facText fac := by
    cases fac with
    | none => simp [facText]
    | some f =>
      have hn : '*' ∉ f.name := by
        rcases h.known f rfl with h1 | h1
        · exact not_mem_ident (hN.ident _ h1).2 (by decide) (by decide)
        · simp [h1.1]
      have hp : '*' ∉ Spec.powerText f.exp := by
        intro hm
        rcases power_chars (h.exp f rfl) hm with h1 | h1 | h1
        · exact absurd h1 (by decide)
        · exact absurd h1 (by decide)
        · exact absurd h1 (by decide)
      simp [facText, Factor.text, hn, hp]
  simp [Item.text, hl, hf]

omit hN in
/-- The name the parser reads in an item. -/
def readName (i : Item) : Str :=
  match i.lap with
  | none => (i.fac.map Factor.name).getD []
  | some none => ['L', 'A', 'P'] ++ (i.fac.map Factor.name).getD []
  | some (some _) => ['L', 'A', 'P']

omit hN in
theorem head_power {e : Option Exponent} : ∀ c ∈ (Spec.powerText e).head?, c = '^' := by
  cases e <;> simp [Spec.powerText]

theorem readName_spec {i : Item} (h : Good N i) : findString patName i.text = readName i := by
  rw [findString_patName]
  obtain ⟨lap, fac⟩ := i
  have hname : ∀ f, fac = some f → ∀ c ∈ f.name, (decide (c ≠ '^')) = true := by
    intro f hf c hc
    rcases h.known f hf with h1 | h1
    · have := ident_ne ((hN.ident _ h1).2 c hc) (d := '^') (by decide) (by decide)
      simpa using this
    · simp [h1.1] at hc
  have hfac : ∀ f : Factor, fac = some f → ∀ A : Str, (∀ c ∈ A, (decide (c ≠ '^')) = true) →
      (A ++ f.text).takeWhile (fun c => decide (c ≠ '^')) = A ++ f.name := by
    intro f hf A hA
    rw [Factor.text, ← List.append_assoc]
    apply takeWhile_append_stop
    · intro c hc
      rcases List.mem_append.mp hc with h1 | h1
      · exact hA c h1
      · exact hname f hf c h1
    · intro c hc
      simp [head_power c hc]
  cases lap with
  | none =>
    cases fac with
    | none => simp [Item.text, lapText, facText, readName]
    | some f => simpa [Item.text, lapText, facText, readName] using hfac f rfl [] (by simp)
  | some k =>
    cases k with
    | none =>
      cases fac with
      | none => simp [Item.text, lapText, facText, readName]
      | some f => simpa [Item.text, lapText, facText, readName] using hfac f rfl ['L', 'A', 'P'] (by simp)
    | some k =>
      simp [Item.text, lapText, readName]

/-- Names that start with the reserved word are unknown. -/
theorem not_known_lap (x : Str) : ['L', 'A', 'P'] ++ x ∉ N.all := fun h =>
  hN.noLap _ h (List.prefix_append _ _).isInfix

/-- The scalar in an item, if there is one. -/
def scalarOf (N : Names) (i : Item) : Option Factor := i.fac.filter fun f => f.name ∈ N.scalars

variable {n : ℕ} {m : EqModel n} (hm : Represents N m)
include hm

theorem isScalar_iff (x : Str) : (!m.isFieldName x && m.isBrickName x) = true ↔ x ∈ N.scalars := by
  have hdis : ∀ y ∈ N.varying, y ∉ N.scalars := fun y hy hy' =>
    (List.nodup_append.mp hN.nodup).2.2 y hy y hy' rfl
  simp only [EqModel.isFieldName, EqModel.isBrickName, Bool.and_eq_true, Bool.not_eq_true',
    Bool.or_eq_false_iff, List.contains_eq_mem, decide_eq_false_iff_not, decide_eq_true_eq, hm.fields,
    hm.bricks]
  constructor
  · rintro ⟨⟨h1, h2⟩, h3⟩
    rcases h3 with h3 | h3
    · simp only [Names.all, Names.varying, List.mem_append] at h3
      rcases h3 with (h3 | h3) | h3
      · exact absurd h3 h1
      · exact absurd (hm.functions x h3) h2
      · exact h3
    · exact absurd h3 h2
  · intro h
    refine ⟨⟨fun h1 => hdis x (by simp [Names.varying, h1]) h, fun h1 => ?_⟩,
      Or.inl (by simp [Names.all, h])⟩
    rcases hm.derived x h1 with h2 | ⟨fs, hfs, hne, hw, hsingle⟩
    · exact hdis x (by simp [Names.varying, h2]) h
    · cases fs with
      | nil => exact hne rfl
      | cons f fs =>
        have hf := (hw f (by simp)).1
        have hs := hN.sepScalar f.name hf x h
        apply hs
        refine (List.dropLast_prefix _).isInfix.trans ?_
        rw [hfs, List.map_cons, intercalate_cons, Factor.text, List.append_assoc]
        exact (List.prefix_append _ _).isInfix

theorem validName_spec {i : Item} (h : Good N i) (hs : readName i ∉ N.scalars) :
    m.validName (readName i) = some true := by
  have hb : ∀ x ∈ N.varying, m.isBrickName x = true := by
    intro x hx
    simp only [EqModel.isBrickName, List.contains_eq_mem, decide_eq_true_eq, hm.bricks]
    exact Or.inl (by simp [Names.all, hx])
  have hspace : ∀ x ∈ N.all, x.filter (fun c => decide (c ≠ ' ')) = x := by
    intro x hx
    rw [List.filter_eq_self]
    intro c hc
    have := ident_ne ((hN.ident x hx).2 c hc) (d := ' ') (by decide) (by decide)
    simpa using this
  have hvarying : ∀ x ∈ N.varying, m.validName x = some true := by
    intro x hx
    have hall : x ∈ N.all := by simp [Names.all, hx]
    have h3 := hN.long x hx
    have hnl := hN.noLap x hall
    have h1 : x ≠ [] := by rintro rfl; simp at h3
    have h2 : x ≠ ['L', 'A', 'P'] := by rintro rfl; exact hnl List.infix_rfl
    have h4 : x.take 3 ≠ ['L', 'A', 'P'] := fun e => hnl (by rw [← e]; exact (List.take_prefix _ _).isInfix)
    have e : "LAP".toList = ['L', 'A', 'P'] := rfl
    simp only [EqModel.validName, hspace x hall, e, h1, h2, or_false, if_false, if_neg h4,
      if_neg (by omega : ¬ x.length < 3), hb x hx, Bool.true_or]
  have hlap : ∀ x ∈ N.varying, m.validName (['L', 'A', 'P'] ++ x) = some true := by
    intro x hx
    have hall : x ∈ N.all := by simp [Names.all, hx]
    have h3 := hN.long x hx
    have e : "LAP".toList = ['L', 'A', 'P'] := rfl
    have hsp : (['L', 'A', 'P'] ++ x).filter (fun c => decide (c ≠ ' ')) = ['L', 'A', 'P'] ++ x := by
      rw [List.filter_append, hspace x hall]; rfl
    have h1 : ['L', 'A', 'P'] ++ x ≠ [] := by simp
    have h2 : ['L', 'A', 'P'] ++ x ≠ ['L', 'A', 'P'] := by
      intro e; have := congrArg List.length e
      simp only [List.length_append, List.length_cons, List.length_nil] at this; omega
    have h4 : ¬ (['L', 'A', 'P'] ++ x).length < 3 := by simp
    have h5 : (['L', 'A', 'P'] ++ x).take 3 = ['L', 'A', 'P'] := rfl
    have h6 : (['L', 'A', 'P'] ++ x).drop 3 = x := rfl
    simp only [EqModel.validName, hsp, e, h1, h2, or_false, if_false, if_neg h4, if_pos h5, h6,
      hb x hx, Bool.true_or]
  have hempty : m.validName [] = some true := rfl
  have hl0 : m.validName ['L', 'A', 'P'] = some true := rfl
  obtain ⟨lap, fac⟩ := i
  cases lap with
  | none =>
    cases fac with
    | none => exact hempty
    | some f =>
      rcases h.known f rfl with h1 | h1
      · simp only [Names.all, List.mem_append] at h1
        rcases h1 with h1 | h1
        · exact hvarying _ h1
        · exact absurd h1 hs
      · simpa [readName, h1.1] using hempty
  | some k =>
    cases k with
    | none =>
      cases fac with
      | none => exact hl0
      | some f =>
        rcases h.attached f rfl (by simp) with h1 | h1
        · simpa [readName, h1] using hl0
        · exact hlap _ h1.1
    | some k => exact hl0

/-- The loop over the factors collects the scalars with their powers. -/
theorem concreteLoop_spec : ∀ (items : List Item) (acc : List (Str × ℚ)), (∀ i ∈ items, Good N i) →
    concreteLoop m (items.map Item.text) acc =
      some (acc ++ (items.filterMap (scalarOf N)).map fun f => (f.name, f.power))
  | [], acc, _ => by simp [concreteLoop]
  | i :: items, acc, h => by
    have ih := fun acc => concreteLoop_spec items acc fun j hj => h j (by simp [hj])
    have hi := h i (by simp)
    rw [List.map_cons, concreteLoop]
    simp only [readName_spec hN hi]
    by_cases hs : readName i ∈ N.scalars
    · rw [if_pos ((isScalar_iff hN hm _).mpr hs)]
      obtain ⟨lap, fac⟩ := i
      have hnone : lap = none := by
        cases lap with
        | none => rfl
        | some k =>
          exfalso
          have : ∃ x, readName ⟨some k, fac⟩ = ['L', 'A', 'P'] ++ x := by
            cases k with
            | none => exact ⟨_, rfl⟩
            | some k => exact ⟨[], rfl⟩
          obtain ⟨x, hx⟩ := this
          rw [hx] at hs
          exact not_known_lap hN x (List.mem_append.mpr (Or.inr hs))
      subst hnone
      have hnempty : ([] : Str) ∉ N.scalars := by
        intro hm'
        obtain ⟨⟨c, t, h1, _⟩, _⟩ := hN.ident [] (by simp [Names.all, hm'])
        simp at h1
      cases fac with
      | none => exact absurd hs (by simpa [readName] using hnempty)
      | some f =>
        have hs' : f.name ∈ N.scalars := by simpa [readName] using hs
        have hid := (hN.ident f.name (by simp [Names.all, hs'])).2
        have hp := getPower_spec (A := f.name) (not_mem_ident hid (by decide) (by decide)) f.exp
          (hi.exp f rfl) [] (by simp [Stops]) (by simp)
        have ht : Item.text ⟨none, some f⟩ = f.name ++ Spec.powerText f.exp ++ [] := by
          simp [Item.text, lapText, facText, Factor.text]
        rw [ht, hp]
        simp only [ih]
        have he : scalarOf N ⟨none, some f⟩ = some f := by simp [scalarOf, hs']
        rw [List.filterMap_cons_some he]
        simp [readName]
    · have hs1 : (!m.isFieldName (readName i) && m.isBrickName (readName i)) = false := by
        rw [← Bool.not_eq_true, isScalar_iff hN hm]; exact hs
      rw [hs1, validName_spec hN hm hi hs]
      have he : scalarOf N i = none := by
        obtain ⟨lap, fac⟩ := i
        cases fac with
        | none => rfl
        | some f =>
          simp only [scalarOf, Option.filter_eq_none_iff, Option.some.injEq, forall_eq', decide_eq_true_eq]
          intro hf
          cases lap with
          | none => exact hs (by simpa [readName] using hf)
          | some k =>
            rcases hi.attached f rfl (by simp) with h1 | h1
            · obtain ⟨⟨c, t, h2, _⟩, _⟩ := hN.ident f.name (by simp [Names.all, hf])
              rw [h1] at h2; simp at h2
            · exact (List.nodup_append.mp hN.nodup).2.2 _ h1.1 _ hf rfl
      rw [List.filterMap_cons_none he]
      simp [ih]

omit hm
/-! ### The Laplacian -/

omit hN in
theorem infix_join {h : Str} (hne : h ≠ []) (hstar : '*' ∉ h) {ss : List Str}
    (hs : ∀ s ∈ ss, ¬ h <:+: s) : ¬ h <:+: List.intercalate ['*'] ss := by
  cases ss with
  | nil => simpa [List.intercalate] using hne
  | cons s ss =>
    rw [intercalate_cons]
    intro hin
    cases ss with
    | nil => exact hs s (by simp) (by simpa [tailText] using hin)
    | cons t ss =>
      rcases infix_stop hstar (B := t ++ tailText ss) (by simpa [tailText] using hin) with h1 | h1
      · exact hs s (by simp) h1
      · refine not_infix_tailText hne hstar (t :: ss) (fun x hx => hs x (by simp [hx])) ?_
        exact h1.trans (List.suffix_cons _ _).isInfix

omit hN in
/-- A text of two or more letters that starts with a letter is found in an item without Laplacian only
in the name. -/
theorem infix_plain {h : Str} {a : Char} {t : Str} (hh : h = a :: t) (ha : a.isAlpha = true)
    (hi : ∀ x ∈ h, IdentChar x) {i : Item} (hg : Good N i) (hl : i.lap = none)
    (hin : h <:+: i.text) : ∃ f ∈ i.fac, h <:+: f.name := by
  obtain ⟨lap, fac⟩ := i
  simp only at hl
  subst hl
  cases fac with
  | none => simp [Item.text, lapText, facText, hh] at hin
  | some f =>
    refine ⟨f, rfl, infix_factor hh ha hi f.name (hg.exp f rfl) ?_⟩
    simpa [Item.text, lapText, facText, Factor.text] using hin

/-- The reserved word occurs exactly in the products with a Laplacian. -/
theorem contains_lap (items : List Item) (hg : ∀ i ∈ items, Good N i) :
    contains "LAP".toList (productText items) = true ↔ ∃ i ∈ items, i.lap ≠ none := by
  rw [contains_iff, show "LAP".toList = ['L', 'A', 'P'] from rfl]
  constructor
  · intro hin
    by_contra hno
    push Not at hno
    refine infix_join (by simp) (by decide) ?_ hin
    intro s hs hin'
    obtain ⟨i, hi, rfl⟩ := List.mem_map.mp hs
    obtain ⟨f, hf, hf2⟩ := infix_plain (h := ['L', 'A', 'P']) rfl (by decide)
      (by unfold IdentChar; decide) (hg i hi) (hno i hi) hin'
    rcases (hg i hi).known f hf with h1 | h1
    · exact hN.noLap _ h1 hf2
    · simp [h1.1] at hf2
  · rintro ⟨i, hi, hl⟩
    obtain ⟨pre, post, rfl⟩ := List.append_of_mem hi
    rw [productText, List.map_append, List.map_cons, intercalate_split]
    have : ['L', 'A', 'P'] <+: i.text := by
      obtain ⟨lap, fac⟩ := i
      cases lap with
      | none => exact absurd rfl hl
      | some k => cases k <;> exact ⟨_, by simp only [Item.text, lapText, List.append_assoc]; rfl⟩
    exact (this.isInfix.trans (List.prefix_append _ _).isInfix).trans (List.suffix_append _ _).isInfix

omit hN in
/-- The power read after a Laplacian without power is 1. -/
theorem getPower_run : ∀ (ss : List Str) (A : Str), '^' ∉ A →
    (∀ s ∈ ss, (∃ c t, s = c :: t ∧ c.isAlpha = true) ∨
      ∃ e : Option Exponent, s = Spec.powerText e ∧ (∀ x ∈ e, x.WellFormed ∧ x.value = 1)) →
    getPower (A ++ (tailText ss).takeWhile fun c => !c.isAlpha) = some 1
  | [], A, hA, _ => by
    simp [tailText, getPower, powerText_none hA]
  | s :: ss, A, hA, h => by
    have hA' : '^' ∉ A ++ ['*'] := by simp [hA]
    have ih := getPower_run ss (A ++ ['*']) hA' fun x hx => h x (by simp [hx])
    rw [tailText, List.takeWhile_cons_of_pos (by simp)]
    rcases h s (by simp) with ⟨c, t, rfl, hc⟩ | ⟨e, rfl, he⟩
    · rw [List.cons_append, List.takeWhile_cons_of_neg (by simp [hc])]
      simp [getPower, powerText_none hA']
    · cases e with
      | none => simpa [Spec.powerText] using ih
      | some e =>
        obtain ⟨hw, hv⟩ := he e rfl
        have hdig : ∀ c ∈ Spec.powerText (some e), (!c.isAlpha) = true := by
          intro c hc
          by_contra hcon
          have hca : c.isAlpha = true := by simpa using hcon
          exact alpha_not_power hca (e := some e) (by simpa using hw) hc
        rw [List.takeWhile_append_of_pos hdig]
        have hst : Stops ((tailText ss).takeWhile fun c => !c.isAlpha) := by
          intro c hc
          cases ss with
          | nil => simp [tailText] at hc
          | cons s ss =>
            rw [tailText, List.takeWhile_cons_of_pos (by simp)] at hc
            simp only [List.head?_cons, Option.mem_some_iff] at hc
            subst hc; decide
        have := powerText_spec hA' e hw _ hst
        simp only [List.append_assoc, List.cons_append, List.nil_append] at this
        simp only [Spec.powerText, List.cons_append, getPower, this,
          parseFloat_exponent e hw, hv]

/-- What is used about the segments of a product. -/
theorem segment_head {i : Item} (hg : Good N i) : (∃ c t, i.text = c :: t ∧ c.isAlpha = true) ∨
    ∃ e : Option Exponent, i.text = Spec.powerText e ∧ (∀ x ∈ e, x.WellFormed ∧ x.value = 1) := by
  obtain ⟨lap, fac⟩ := i
  cases lap with
  | some k => left; cases k <;> exact ⟨'L', _, rfl, by decide⟩
  | none =>
    cases fac with
    | none => right; exact ⟨none, by simp [Item.text, lapText, facText, Spec.powerText], by simp⟩
    | some f =>
      rcases hg.known f rfl with h1 | ⟨h1, h2⟩
      · obtain ⟨⟨c, t, h3, hc⟩, _⟩ := hN.ident _ h1
        left
        refine ⟨c, t ++ Spec.powerText f.exp, ?_, hc⟩
        simp [Item.text, lapText, facText, Factor.text, h3]
      · right
        refine ⟨f.exp, by simp [Item.text, lapText, facText, Factor.text, h1], ?_⟩
        intro x hx
        refine ⟨hg.exp f rfl x hx, ?_⟩
        rw [Option.mem_def] at hx
        rw [Factor.power, hx] at h2
        exact h2

omit hN in
theorem patLap_eq : patLap = lits ['L', 'A'] ++ [.star fun c => c = 'P', .star fun c => !c.isAlpha] := rfl

/-- The power of the Laplacian is read correctly. -/
theorem getPower_lap (pre post : List Item) (i : Item) (hg : ∀ j ∈ pre ++ i :: post, Good N j)
    (hpre : ∀ j ∈ pre, j.lap = none ∧ ∀ f ∈ j.fac, ¬ ['L', 'A'] <:+: f.name) {k : Option (List Char)}
    (hk : i.lap = some k) :
    getPower (findString patLap (productText (pre ++ i :: post))) = some ((lapValue k : ℕ) : ℚ) := by
  have hi := hg i (by simp)
  rw [productText, List.map_append, List.map_cons, intercalate_split]
  have hskip : NoStart ['L', 'A'] (headText (pre.map Item.text)) (i.text ++ tailText (post.map Item.text)) := by
    apply noStart_headText (by simp) (by decide)
    intro s hs hin
    obtain ⟨j, hj, rfl⟩ := List.mem_map.mp hs
    obtain ⟨f, hf, hf2⟩ := infix_plain (h := ['L', 'A']) rfl (by decide)
      (by unfold IdentChar; decide) (hg j (by simp [hj])) (hpre j hj).1 hin
    exact (hpre j hj).2 f hf hf2
  obtain ⟨lap, fac⟩ := i
  simp only at hk
  subst hk
  set R := tailText (post.map Item.text) with hR
  have hRhead : ∀ c ∈ R.head?, c = '*' := by
    intro c hc
    rcases tailText_head (post.map Item.text) with h0 | ⟨r, h0⟩
    · rw [hR, h0] at hc; simp at hc
    · rw [hR, h0] at hc; simpa using hc.symm
  -- the text after `LAP`
  obtain ⟨X, hX, hXP, hpow⟩ : ∃ X, Item.text ⟨some k, fac⟩ ++ R = ['L', 'A'] ++ ('P' :: X) ∧
      (∀ c ∈ X.head?, decide (c = 'P') = false) ∧
      getPower (['L', 'A', 'P'] ++ X.takeWhile fun c => !c.isAlpha) = some ((lapValue k : ℕ) : ℚ) := by
    have hrun : ∀ A : Str, '^' ∉ A → getPower (A ++ R.takeWhile fun c => !c.isAlpha) = some 1 := by
      intro A hA
      apply getPower_run _ _ hA
      intro s hs
      obtain ⟨j, hj, rfl⟩ := List.mem_map.mp hs
      exact segment_head hN (hg j (by simp [hj]))
    have hstops : ∀ Z : Str, (∀ c ∈ Z.head?, c = '*' ∨ c = '^') → Stops (Z.takeWhile fun c => !c.isAlpha) := by
      intro Z hZ c hc
      cases Z with
      | nil => simp at hc
      | cons z Z =>
        have h0 := hZ z (by simp)
        have hz : (!z.isAlpha) = true := by rcases h0 with rfl | rfl <;> decide
        rw [List.takeWhile_cons_of_pos (p := fun c : Char => !c.isAlpha) hz] at hc
        simp only [List.head?_cons, Option.mem_some_iff] at hc
        subst hc
        rcases h0 with rfl | rfl <;> decide
    cases k with
    | none =>
      cases fac with
      | none =>
        refine ⟨R, by simp [Item.text, lapText, facText], ?_, ?_⟩
        · intro c hc; rw [hRhead c hc]; decide
        · simpa [lapValue] using hrun ['L', 'A', 'P'] (by decide)
      | some f =>
        rcases hi.known f rfl with h1 | ⟨h1, h2⟩
        · obtain ⟨⟨c, t, h3, hc⟩, _⟩ := hN.ident _ h1
          refine ⟨c :: (t ++ Spec.powerText f.exp ++ R), ?_, ?_, ?_⟩
          · simp [Item.text, lapText, facText, Factor.text, h3]
          · rcases hi.attached f rfl (by simp) with h4 | h4
            · rw [h4] at h3; simp at h3
            · have := h4.2
              rw [h3] at this
              simp only [List.head?_cons, ne_eq, Option.some.injEq] at this
              simpa using this
          · rw [List.takeWhile_cons_of_neg (by simp [hc]), List.append_nil, getPower,
              powerText_none (by decide)]
            simp [lapValue]
        · -- what is left of a field with power one
          have hrun2 := getPower_run (Item.text ⟨none, some f⟩ :: post.map Item.text) ['L', 'A', 'P']
            (by decide) (by
              intro s hs
              rcases List.mem_cons.mp hs with rfl | hs
              · exact segment_head hN ⟨hi.exp, by simp, hi.known, by simp⟩
              · obtain ⟨j, hj, rfl⟩ := List.mem_map.mp hs
                exact segment_head hN (hg j (by simp [hj])))
          refine ⟨Spec.powerText f.exp ++ R, ?_, ?_, ?_⟩
          · simp [Item.text, lapText, facText, Factor.text, h1]
          · intro c hc
            cases he : f.exp with
            | none => rw [he] at hc; rw [hRhead c (by simpa [Spec.powerText] using hc)]; decide
            | some e =>
              rw [he] at hc
              simp only [Spec.powerText, List.cons_append, List.head?_cons, Option.mem_some_iff] at hc
              subst hc; decide
          · cases he : f.exp with
            | none => simpa [Spec.powerText, lapValue] using hrun ['L', 'A', 'P'] (by decide)
            | some e =>
              have hw := hi.exp f rfl e he
              have hv : e.value = 1 := by rw [Factor.power, he] at h2; exact h2
              have hdig : ∀ c ∈ Spec.powerText (some e), (!c.isAlpha) = true := by
                intro c hc
                by_contra hcon
                have hca : c.isAlpha = true := by simpa using hcon
                exact alpha_not_power hca (e := some e) (by simpa using hw) hc
              rw [List.takeWhile_append_of_pos hdig]
              have := powerText_spec (A := ['L', 'A', 'P']) (by decide) e hw _
                (hstops R fun c hc => Or.inl (hRhead c hc))
              simp only [Spec.powerText, List.cons_append] at this ⊢
              simp only [getPower, this, parseFloat_exponent e hw, hv, lapValue, Nat.cast_one]
    | some k =>
      obtain ⟨hk1, hk2⟩ := hi.lapPow k rfl
      have hw : Exponent.WellFormed ⟨k, none⟩ := ⟨hk1, hk2, by simp⟩
      have hdig : ∀ c ∈ '^' :: k, (!c.isAlpha) = true := by
        intro c hc
        rcases List.mem_cons.mp hc with rfl | hc
        · decide
        · by_contra hcon
          have hca : c.isAlpha = true := by simpa using hcon
          have := alpha_not_digit hca
          simp [hk2 c hc] at this
      refine ⟨'^' :: k ++ (facText fac ++ R), ?_, ?_, ?_⟩
      · simp [Item.text, lapText]
      · intro c hc
        simp only [List.cons_append, List.head?_cons, Option.mem_some_iff] at hc
        subst hc; decide
      · rw [List.takeWhile_append_of_pos hdig]
        have hst : Stops ((facText fac ++ R).takeWhile fun c => !c.isAlpha) := by
          cases fac with
          | none => exact hstops _ fun c hc => Or.inl (hRhead c (by simpa [facText] using hc))
          | some f =>
            rcases hi.known f rfl with h1 | ⟨h1, h2⟩
            · obtain ⟨⟨c, t, h3, hc⟩, _⟩ := hN.ident _ h1
              simp only [facText, Factor.text, h3, List.cons_append]
              rw [List.takeWhile_cons_of_neg (by simp [hc])]
              simp [Stops]
            · apply hstops
              intro c hc
              cases he : f.exp with
              | none =>
                simp only [facText, Factor.text, h1, he, Spec.powerText, List.nil_append] at hc
                exact Or.inl (hRhead c hc)
              | some e =>
                simp only [facText, Factor.text, h1, he, Spec.powerText, List.nil_append,
                  List.cons_append, List.head?_cons, Option.mem_some_iff] at hc
                exact Or.inr hc.symm
        have := powerText_spec (A := ['L', 'A', 'P']) (by decide) ⟨k, none⟩ hw _ hst
        have ht : Exponent.text ⟨k, none⟩ = k := by simp [Exponent.text, fracText]
        have hv : Exponent.value ⟨k, none⟩ = (lapValue (some k) : ℕ) := by
          simp [Exponent.value, fracValue, lapValue]
        rw [ht] at this
        have hpf := parseFloat_exponent ⟨k, none⟩ hw
        rw [ht, hv] at hpf
        simp only [List.cons_append] at this ⊢
        simp only [getPower, this, hpf]
  have hfind : findString patLap (headText (pre.map Item.text) ++ (Item.text ⟨some k, fac⟩ ++ R)) =
      ['L', 'A', 'P'] ++ X.takeWhile fun c => !c.isAlpha := by
    have hmatch : ∀ st, matchHere patLap st (['L', 'A'] ++ ('P' :: X)) = some (X.dropWhile fun c => !c.isAlpha) := by
      intro st
      obtain ⟨st', h1⟩ : ∃ st', matchHere patLap st (['L', 'A'] ++ ('P' :: X)) =
          matchHere [.star fun c => decide (c = 'P'), .star fun c => !c.isAlpha] st' ('P' :: X) := by
        rw [patLap_eq]
        exact ⟨_, matchHere_lits_append _ _ _ _⟩
      have h2 : ('P' :: X).dropWhile (fun c => decide (c = 'P')) = X := by
        have := dropWhile_append_stop (p := fun c => decide (c = 'P')) (A := ['P']) (r := X) (by simp) hXP
        simpa using this
      rw [h1, matchHere_star_total _ (total_star _ total_nil) _ _ false, h2,
        matchHere_star_total _ total_nil _ _ false, matchHere_nil]
    unfold findString
    rw [hX] at hskip ⊢
    rw [patLap_eq, findFrom_lits_skip _ hskip, ← patLap_eq, findFrom_match (hmatch _)]
    simp only [Option.map_some]
    have hl : (X.takeWhile fun c => !c.isAlpha).length + (X.dropWhile fun c => !c.isAlpha).length = X.length := by
      rw [← List.length_append, List.takeWhile_append_dropWhile]
    have e : (['L', 'A'] ++ ('P' :: X)) = (['L', 'A', 'P'] ++ X.takeWhile fun c => !c.isAlpha) ++
        X.dropWhile fun c => !c.isAlpha := by
      simp [List.takeWhile_append_dropWhile]
    have e2 : (['L', 'A'] ++ ('P' :: X)).length - (X.dropWhile fun c => !c.isAlpha).length =
        (['L', 'A', 'P'] ++ X.takeWhile fun c => !c.isAlpha).length := by
      simp only [List.length_append, List.length_cons, List.length_nil]; omega
    rw [e2, e, List.take_left]
  rw [hfind, hpow]

/-! ### The field -/

omit hN in
/-- A product of fields and functions. -/
def ProductOf (N : Names) (s : Str) : Prop :=
  ∃ fs : List Factor, s = List.intercalate ['*'] (fs.map Factor.text) ∧ fs ≠ [] ∧
    ∀ f ∈ fs, f.name ∈ N.varying ∧ ∀ e ∈ f.exp, e.WellFormed

omit hN in
theorem productOf_of_varying {g : Str} (hg : g ∈ N.varying) : ProductOf N g :=
  ⟨[⟨g, none⟩], by simp [Factor.text, Spec.powerText, List.intercalate], by simp, by simp [hg]⟩

omit hN in
theorem productOf_of_productName {s : Str} (h : IsProductName N s) : ProductOf N s := by
  obtain ⟨fs, h1, h2, h3, _⟩ := h
  exact ⟨fs, h1, h2, h3⟩

omit hN in
theorem productOf_start {s : Str} (h : ProductOf N s) : ∃ g ∈ N.varying, g.dropLast <+: s := by
  obtain ⟨fs, h1, h2, h3⟩ := h
  cases fs with
  | nil => exact absurd rfl h2
  | cons f fs =>
    refine ⟨f.name, (h3 f (by simp)).1, ?_⟩
    rw [h1, List.map_cons, intercalate_cons, Factor.text, List.append_assoc]
    exact (List.dropLast_prefix _).trans (List.prefix_append _ _)

omit hN in
/-- Cutting a joined text at a `*`. -/
theorem join_cut : ∀ (ts : List Str), (∀ t ∈ ts, '*' ∉ t) → ∀ Y Z : Str,
    List.intercalate ['*'] ts = Y ++ '*' :: Z → ∃ t ∈ ts, t <+: Z
  | [], _, Y, Z, h => by simp [List.intercalate] at h
  | [t], ht, Y, Z, h => by
    exfalso
    have : '*' ∈ t := by
      have e : List.intercalate ['*'] [t] = t := by simp [List.intercalate]
      rw [← e, h]; simp
    exact ht t (by simp) this
  | t :: u :: ts, ht, Y, Z, h => by
    rw [intercalate_cons, tailText, ← intercalate_cons] at h
    have htY : '*' ∉ t := ht t (by simp)
    rcases List.append_eq_append_iff.mp h with ⟨a, h1, h2⟩ | ⟨a, h1, h2⟩
    · cases a with
      | nil =>
        simp only [List.nil_append, List.cons.injEq, true_and] at h2
        refine ⟨u, by simp, ?_⟩
        rw [← h2, intercalate_cons]; exact List.prefix_append _ _
      | cons c a =>
        simp only [List.cons_append, List.cons.injEq] at h2
        obtain ⟨t', ht', hp⟩ := join_cut (u :: ts) (fun x hx => ht x (by simp [hx])) a Z h2.2
        exact ⟨t', by simp [List.mem_cons.mp ht'], hp⟩
    · cases a with
      | nil =>
        simp only [List.nil_append, List.cons.injEq, true_and] at h2
        refine ⟨u, by simp, ?_⟩
        rw [h2, intercalate_cons]; exact List.prefix_append _ _
      | cons c a =>
        exfalso
        simp only [List.cons_append, List.cons.injEq] at h2
        apply htY
        rw [h1, ← h2.1]; simp

omit hN in
theorem infix_noStart {f P R : Str} (h : NoStart f P R) (hin : f <:+: P ++ R) : f <:+: R := by
  obtain ⟨S, hp, hs⟩ := List.infix_iff_prefix_suffix.mp hin
  rcases suffix_append_cases hs with h1 | ⟨D, rfl, hD⟩
  · exact hp.isInfix.trans h1.isInfix
  · by_cases hD0 : D = []
    · subst hD0; exact (by simpa using hp : f <+: R).isInfix
    · exact absurd hp (h D hD0 hD)

theorem factor_noStar {f : Factor} (h1 : f.name ∈ N.varying) (h2 : ∀ e ∈ f.exp, e.WellFormed) : '*' ∉ f.text := by
  have := Good.noStar (i := ⟨none, some f⟩) hN ⟨by simpa using h2, by simp,
    by simpa using Or.inl (by simp [Names.all, h1]), by simp⟩
  simpa [Item.text, lapText, facText] using this

/-- Whatever product is found in the text is found in the block of fields. -/
theorem infix_block {P D Q f : Str} (hf : ProductOf N f)
    (hP : ∀ g ∈ N.varying, NoStart g.dropLast P (D ++ Q)) (hQ : ∀ g ∈ N.varying, ¬ g.dropLast <:+: Q)
    (hQ0 : Q = [] ∨ ∃ r, Q = '*' :: r) (hin : f <:+: P ++ (D ++ Q)) : f <:+: D := by
  obtain ⟨g, hg, hgf⟩ := productOf_start hf
  obtain ⟨h, a, c, t, hs⟩ := shape hN hg
  have h1 := infix_noStart (noStart_mono hgf (hP g hg)) hin
  obtain ⟨S, hp, hsuf⟩ := List.infix_iff_prefix_suffix.mp h1
  rcases suffix_append_cases hsuf with h2 | ⟨Y, rfl, hY⟩
  · exact absurd ((hgf.trans hp).isInfix.trans h2.isInfix) (hQ g hg)
  rcases List.prefix_or_prefix_of_prefix hp (List.prefix_append Y Q) with h3 | ⟨Z, hZ⟩
  · exact h3.isInfix.trans hY.isInfix
  have hZQ : Z <+: Q := by rw [← hZ] at hp; exact (List.prefix_append_right_inj Y).mp hp
  have hZ := hZ.symm
  rcases hQ0 with rfl | ⟨r, rfl⟩
  · rw [List.prefix_nil.mp hZQ, List.append_nil] at hZ
    rw [hZ]; exact hY.isInfix
  · cases Z with
    | nil => rw [List.append_nil] at hZ; rw [hZ]; exact hY.isInfix
    | cons z Z =>
      exfalso
      have hz := List.cons_prefix_cons.mp hZQ
      obtain ⟨fs, e1, e2, e3⟩ := hf
      rw [hz.1] at hZ
      obtain ⟨u, hu, hup⟩ := join_cut (fs.map Factor.text) (by
        intro x hx
        obtain ⟨f', hf', rfl⟩ := List.mem_map.mp hx
        exact factor_noStar hN (e3 f' hf').1 (e3 f' hf').2) Y Z (e1.symm.trans hZ)
      obtain ⟨f', hf', rfl⟩ := List.mem_map.mp hu
      apply hQ f'.name (e3 f' hf').1
      have k1 : f'.name.dropLast <+: f'.text := (List.dropLast_prefix _).trans (List.prefix_append _ _)
      exact ((k1.trans hup).trans hz.2).isInfix.trans (List.suffix_cons _ _).isInfix

omit hN in
theorem fold_longest (ok : Str → Bool) (D : Str) (hD : ok D = true) : ∀ (known : List Str) (acc : Str),
    (∀ f ∈ known, ok f = true → f <:+: D) → (acc = D ∨ (acc.length < D.length ∧ D ∈ known)) →
    known.foldl (fun field f => if ok f && decide (f.length > field.length) then f else field) acc = D
  | [], acc, _, h => by simpa using h
  | f :: known, acc, hk, h => by
    have ih := fun acc => fold_longest ok D hD known acc fun x hx => hk x (by simp [hx])
    rw [List.foldl_cons]
    by_cases hf : (ok f && decide (f.length > acc.length)) = true
    · rw [if_pos hf]
      simp only [Bool.and_eq_true, decide_eq_true_eq] at hf
      have hin := hk f (by simp) hf.1
      by_cases hfD : f = D
      · exact ih f (Or.inl hfD)
      · apply ih
        right
        refine ⟨lt_of_le_of_ne hin.length_le fun e => hfD (hin.eq_of_length e), ?_⟩
        rcases h with h | h
        · exfalso
          have := hin.length_le
          rw [h] at hf; omega
        · rcases List.mem_cons.mp h.2 with h2 | h2
          · exact absurd h2.symm hfD
          · exact h2
    · rw [if_neg hf]
      apply ih
      rcases h with h | h
      · exact Or.inl h
      · right
        refine ⟨h.1, ?_⟩
        rcases List.mem_cons.mp h.2 with h2 | h2
        · exfalso
          apply hf
          rw [← h2]
          simp [hD, h.1]
        · exact h2

omit hN in
theorem not_infix_known {known : List Str} (hk : ∀ f ∈ known, ProductOf N f) {T : Str}
    (hT : ∀ g ∈ N.varying, ¬ g.dropLast <:+: T) : ∀ f ∈ known, ¬ f <:+: T := by
  intro f hf hin
  obtain ⟨g, hg, hgf⟩ := productOf_start (hk f hf)
  exact hT g hg (hgf.isInfix.trans hin)

/-- `GetFieldName` finds the block of fields. -/
theorem getFieldName_block {known : List Str} (hk : ∀ f ∈ known, ProductOf N f) {P D Q : Str} (hD : D ∈ known)
    (hP : ∀ g ∈ N.varying, NoStart g.dropLast P (D ++ Q)) (hQ : ∀ g ∈ N.varying, ¬ g.dropLast <:+: Q)
    (hQ0 : Q = [] ∨ ∃ r, Q = '*' :: r) (hPQ : ∀ g ∈ N.varying, ¬ g.dropLast <:+: P ++ Q) :
    getFieldName (P ++ (D ++ Q)) known = D := by
  obtain ⟨g, hg, hgD⟩ := productOf_start (hk D hD)
  obtain ⟨h, a, c, t, hs⟩ := shape hN hg
  have hne : D ≠ [] := by
    rintro rfl
    rw [hs.drop] at hgD
    exact hs.hne (by simpa using hgD)
  have hrem : removeAll D (P ++ (D ++ Q)) = P ++ Q := by
    rw [removeAll_skip (noStart_mono hgD (hP g hg)), removeAll_match hne, removeAll_none]
    intro hin
    exact hQ g hg (hgD.isInfix.trans hin)
  unfold getFieldName
  refine fold_longest (fun f => contains f (P ++ (D ++ Q)) && onlyField (P ++ (D ++ Q)) f known) D ?_
    known [] ?_ (Or.inr ⟨by simpa using List.length_pos_iff.mpr hne, hD⟩)
  · simp only [Bool.and_eq_true, contains_iff, onlyField, List.all_eq_true, Bool.not_eq_true', hrem]
    refine ⟨((List.prefix_append _ _).isInfix.trans (List.suffix_append _ _).isInfix), ?_⟩
    intro f hf
    have := not_infix_known hk hPQ f hf
    rw [← contains_iff] at this
    simpa using this
  · intro f hf hok
    simp only [Bool.and_eq_true, contains_iff] at hok
    exact infix_block hN (hk f hf) hP hQ hQ0 hok.1

omit hN in
theorem fold_nothing (ok : Str → Str → Bool) : ∀ (known : List Str), (∀ f ∈ known, ∀ x, ok f x = false) →
    known.foldl (fun field f => if ok f field then f else field) ([] : Str) = []
  | [], _ => rfl
  | f :: known, h => by
    rw [List.foldl_cons, h f (by simp)]
    exact fold_nothing ok known fun x hx => h x (by simp [hx])

omit hN in
/-- Without fields, `GetFieldName` finds nothing. -/
theorem getFieldName_none {known : List Str} (hk : ∀ f ∈ known, ProductOf N f) {T : Str}
    (hT : ∀ g ∈ N.varying, ¬ g.dropLast <:+: T) : getFieldName T known = [] := by
  have h := not_infix_known hk hT
  unfold getFieldName
  refine fold_nothing (fun f field => contains f T && onlyField T f known && decide (f.length > field.length))
    known ?_
  intro f hf x
  have hc : contains f T = false := by
    have := h f hf
    rw [← contains_iff] at this
    simpa using this
  simp [hc]

end Gopf.Pf
