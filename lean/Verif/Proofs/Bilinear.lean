import Verif.Proofs.ParserItems

/-!
# Occurrences of names in products and the classification of terms
-/

namespace Gopf.Pf
open Spec

/-- Segments each preceded by `*`. -/
def tailText : List Str → Str
  | [] => []
  | s :: ss => '*' :: (s ++ tailText ss)

/-- Segments each followed by `*`. -/
def headText : List Str → Str
  | [] => []
  | s :: ss => s ++ '*' :: headText ss

theorem intercalate_cons (s : Str) : ∀ ss : List Str, List.intercalate ['*'] (s :: ss) = s ++ tailText ss
  | [] => by simp [List.intercalate, tailText]
  | x :: ss => by
    have := intercalate_cons x ss
    simp only [List.intercalate] at this ⊢
    rw [List.intersperse_cons_cons, List.flatten_cons, List.flatten_cons, this]
    simp [tailText]

theorem intercalate_split (x : Str) (post : List Str) : ∀ pre : List Str,
    List.intercalate ['*'] (pre ++ x :: post) = headText pre ++ (x ++ tailText post)
  | [] => by rw [List.nil_append, intercalate_cons]; rfl
  | p :: pre => by
    have ih := intercalate_split x post pre
    rw [List.cons_append, intercalate_cons]
    cases pre with
    | nil => simp [tailText, headText]
    | cons q pre =>
      rw [List.cons_append, intercalate_cons] at ih
      simp only [List.cons_append, tailText, headText] at ih ⊢
      rw [ih]; simp

theorem tailText_head (ss : List Str) : tailText ss = [] ∨ ∃ r, tailText ss = '*' :: r := by
  cases ss with
  | nil => exact Or.inl rfl
  | cons s ss => exact Or.inr ⟨_, rfl⟩

theorem noStart_headText {h : Str} (hne : h ≠ []) (hstar : '*' ∉ h) : ∀ (ss : List Str)
    (_ : ∀ s ∈ ss, ¬ h <:+: s) (r : Str), NoStart h (headText ss) r
  | [], _, r => noStart_nil _ _
  | s :: ss, hs, r => by
    have ih := noStart_headText hne hstar ss (fun x hx => hs x (by simp [hx])) r
    have : headText (s :: ss) = (s ++ ['*']) ++ headText ss := by simp [headText]
    rw [this]
    exact noStart_append (noStart_stop hne hstar (hs s (by simp))) ih

theorem not_infix_tailText {h : Str} (hne : h ≠ []) (hstar : '*' ∉ h) : ∀ (ss : List Str)
    (_ : ∀ s ∈ ss, ¬ h <:+: s), ¬ h <:+: tailText ss
  | [], _ => by simpa [tailText] using hne
  | s :: ss, hs => by
    intro hin
    have : tailText (s :: ss) = [] ++ '*' :: (s ++ tailText ss) := rfl
    rw [this] at hin
    rcases infix_stop hstar hin with h1 | h1
    · exact hne (by simpa using h1)
    rcases tailText_head ss with h2 | ⟨r, h2⟩
    · rw [h2, List.append_nil] at h1
      exact hs s (by simp) h1
    · rw [h2] at h1
      rcases infix_stop hstar h1 with h3 | h3
      · exact hs s (by simp) h3
      · refine not_infix_tailText hne hstar ss (fun x hx => hs x (by simp [hx])) ?_
        rw [h2]
        exact h3.trans (List.suffix_cons _ _).isInfix

theorem productText_cons (i : Item) (is : List Item) :
    productText (i :: is) = i.text ++ tailText (is.map Item.text) := by
  rw [productText, List.map_cons, intercalate_cons]

/-- The text of an item that names `g`. -/
theorem text_of_name {i : Item} {g : Str} (h : i.name? = some g) :
    ∃ e, i.fac = some ⟨g, e⟩ ∧ i.text = lapText i.lap ++ (g ++ Spec.powerText e) := by
  obtain ⟨lap, fac⟩ := i
  obtain ⟨f, rfl, hf⟩ : ∃ f, fac = some f ∧ f.name = g := by
    simpa [Item.name?, Option.map_eq_some_iff] using h
  refine ⟨f.exp, ?_, ?_⟩
  · simp [← hf]
  · simp [Item.text, facText, Factor.text, hf]

section
variable {N : Names} (hN : N.WellNamed)
include hN

theorem cnt_item {g : Str} (hg : g ∈ N.varying) {i : Item} (hi : i.WellFormed N) (items : List Item)
    (h0 : cnt g (tailText (items.map Item.text)) = (occurrences g items).length) :
    cnt g (i.text ++ tailText (items.map Item.text)) = (occurrences g (i :: items)).length := by
  obtain ⟨h, a, c, t, hs⟩ := shape hN hg
  have hgs : '*' ∉ g := (hs.notMem (by decide) (by decide)).2
  by_cases hn : i.name? = some g
  · obtain ⟨e, he, ht⟩ := text_of_name hn
    rw [ht, List.append_assoc, List.append_assoc,
      cnt_skip hs.ne (noStart_mono hs.prefix (noStart_lap hN hg hs hi hn _)), cnt_match hs.ne]
    have hp : NoStart g (Spec.powerText e) (tailText (items.map Item.text)) := by
      rw [hs.eq, hs.head]
      exact noStart_head (alpha_not_power hs.alpha fun x hx => hi.exp _ he x hx)
    rw [cnt_skip hs.ne hp, h0]
    simp [occurrences, hn]
  · have hf : ¬ g <:+: i.text := fun hin => item_free hN hg hs hi hn (hs.prefix.isInfix.trans hin)
    rw [cnt_skip hs.ne (noStart_before hs.ne hgs hf (tailText_head _)), h0]
    simp [occurrences, hn]

theorem cnt_tail {g : Str} (hg : g ∈ N.varying) : ∀ (items : List Item), (∀ i ∈ items, i.WellFormed N) →
    cnt g (tailText (items.map Item.text)) = (occurrences g items).length
  | [], _ => by
    obtain ⟨h, a, c, t, hs⟩ := shape hN hg
    simp [tailText, cnt_nil hs.ne, occurrences]
  | j :: items, hw => by
    obtain ⟨h, a, c, t, hs⟩ := shape hN hg
    have e : tailText ((j :: items).map Item.text) =
        ['*'] ++ (j.text ++ tailText (items.map Item.text)) := rfl
    have hst : NoStart g ['*'] (j.text ++ tailText (items.map Item.text)) := by
      rw [hs.eq, hs.head]
      exact noStart_head (by simpa using alpha_ne_star hs.alpha)
    rw [e, cnt_skip hs.ne hst]
    exact cnt_item hN hg (hw j (by simp)) items (cnt_tail hg items fun i hi => hw i (by simp [hi]))

/-- The number of matches of a name is the number of items that name it. -/
theorem cnt_product {g : Str} (hg : g ∈ N.varying) (items : List Item) (hw : ∀ i ∈ items, i.WellFormed N) :
    cnt g (productText items) = (occurrences g items).length := by
  cases items with
  | nil =>
    obtain ⟨h, a, c, t, hs⟩ := shape hN hg
    simp [productText, List.intercalate, cnt_nil hs.ne, occurrences]
  | cons i items =>
    rw [productText_cons]
    exact cnt_item hN hg (hw i (by simp)) items (cnt_tail hN hg items fun j hj => hw j (by simp [hj]))

/-! ### Patterns made from the names of derived fields -/

/-- The pattern of a product of fields exists and begins with the shortened first name. -/
theorem compile_product : ∀ (fs : List Factor), fs ≠ [] →
    (∀ f ∈ fs, f.name ∈ N.varying ∧ ∀ e ∈ f.exp, e.WellFormed) →
    ∃ as, compileText (List.intercalate ['*'] (fs.map Factor.text)) = some as ∧
      ∀ f, fs.head? = some f → ∃ as', as = lits f.name.dropLast ++ as'
  | [], h, _ => absurd rfl h
  | f :: fs, _, hw => by
    obtain ⟨hf, he⟩ := hw f (by simp)
    obtain ⟨h, a, c, t, hs⟩ := shape hN hf
    obtain ⟨name, exp⟩ := f
    simp only at hf he hs
    have hrest : ∃ as, compileText (tailText (fs.map Factor.text)).tail = some as := by
      cases fs with
      | nil => exact ⟨[], by simp [tailText, compileText]⟩
      | cons f2 fs =>
        obtain ⟨as, h1, _⟩ := compile_product (f2 :: fs) (by simp) fun f hf => hw f (by simp [hf])
        rw [List.map_cons, intercalate_cons] at h1
        exact ⟨as, by simpa [tailText] using h1⟩
    obtain ⟨as, has⟩ := hrest
    rw [List.map_cons, intercalate_cons]
    have hl : ∀ x, lits name ++ x = lits h ++ (lits [c] ++ x) := by
      intro x; rw [hs.eq]; simp [lits]
    have hdrop : name.dropLast = h := hs.drop
    cases exp with
    | none =>
      simp only [Factor.text, Spec.powerText, List.append_nil]
      rcases tailText_head (fs.map Factor.text) with h2 | ⟨r, h2⟩
      · rw [h2, List.append_nil, compileText_ident hs.identG]
        refine ⟨_, rfl, ?_⟩
        rintro f hf
        simp only [List.head?_cons, Option.some.injEq] at hf
        subst hf
        refine ⟨lits [c], ?_⟩
        rw [hdrop]
        simpa using hl []
      · rw [h2] at has ⊢
        rw [hs.eq, compileText_ident_star hs.identH (hs.identG c (by rw [hs.eq]; simp))]
        simp only [List.tail_cons] at has
        rw [has]
        refine ⟨_, rfl, ?_⟩
        rintro f hf
        simp only [List.head?_cons, Option.some.injEq] at hf
        subst hf
        exact ⟨_, by rw [← hs.eq, hdrop]⟩
    | some e =>
      obtain ⟨e1, e2, e3⟩ := he e rfl
      have hcls : ∀ x ∈ e.text, (charClass x).isSome := by
        intro x hx
        rcases power_chars (e := some e) he (c := x) (by simp [Spec.powerText, hx]) with h | h | h
        · subst h
          simp only [Exponent.text, List.mem_append] at hx
          rcases hx with hx | hx
          · have := e2 _ hx; exact absurd this (by decide)
          · cases hf : e.frac with
            | none => rw [hf] at hx; simp [fracText] at hx
            | some f =>
              rw [hf] at hx
              simp only [fracText, List.mem_cons] at hx
              rcases hx with hx | hx
              · exact absurd hx (by decide)
              · have := e3 f hf _ hx; exact absurd this (by decide)
        · unfold charClass
          split_ifs with h1 h2 <;> simp_all [Char.isAlphanum]
        · subst h; decide
      have hne : e.text ≠ [] := by simp [Exponent.text, e1]
      have hhead : ∀ r, (e.text ++ r).head? ≠ some '*' := by
        intro r hh
        cases hx : e.text with
        | nil => exact hne hx
        | cons x y =>
          rw [hx] at hh hcls
          simp only [List.cons_append, List.head?_cons, Option.some.injEq] at hh
          subst hh
          have := hcls '*' (by simp)
          simp [charClass_star] at this
      have hlist : Factor.text ⟨name, some e⟩ ++ tailText (fs.map Factor.text) =
          name ++ '^' :: (e.text ++ tailText (fs.map Factor.text)) := by
        simp [Factor.text, Spec.powerText]
      rw [hlist, compileText_ident_hat hs.identG _ (hhead _)]
      have hsome : ∃ as, compileText (e.text ++ tailText (fs.map Factor.text)) = some as := by
        rcases tailText_head (fs.map Factor.text) with h2 | ⟨r, h2⟩
        · rw [h2, compileText_cls e.text hcls [] (by simp)]
          exact ⟨_, by simp [compileText]; rfl⟩
        · rw [h2] at has ⊢
          simp only [List.tail_cons] at has
          obtain ⟨B, d, hB⟩ : ∃ B d, e.text = B ++ [d] :=
            ⟨_, _, (List.dropLast_append_getLast hne).symm⟩
          rw [hB] at hcls ⊢
          obtain ⟨p, hp⟩ := Option.isSome_iff_exists.mp (hcls d (by simp))
          rw [List.append_assoc, List.singleton_append, compileText_cls B (fun x hx => hcls x (by simp [hx])) _ (by
            intro hh
            simp only [List.head?_cons, Option.some.injEq] at hh
            subst hh
            simp [charClass_star] at hp), compileText_star hp, has]
          exact ⟨_, rfl⟩
      obtain ⟨as2, h3⟩ := hsome
      rw [h3]
      refine ⟨_, rfl, ?_⟩
      rintro f hf
      simp only [List.head?_cons, Option.some.injEq] at hf
      subst hf
      exact ⟨_, by rw [hdrop]; exact hl _⟩

/-- The text does not begin with a letter, digit or underscore. -/
def NonIdentHead (r : Str) : Prop := ∀ x ∈ r.head?, ¬ IdentChar x

omit hN in
theorem nonIdentHead_power {e : Option Exponent} (ss : List Str) :
    NonIdentHead (Spec.powerText e ++ tailText ss) := by
  intro x hx hid
  cases e with
  | some e =>
    simp only [Spec.powerText, List.cons_append, List.head?_cons, Option.mem_some_iff] at hx
    subst hx
    exact ident_ne hid (d := '^') (by decide) (by decide) rfl
  | none =>
    simp only [Spec.powerText, List.nil_append] at hx
    rcases tailText_head ss with h | ⟨r, h⟩
    · rw [h] at hx; simp at hx
    · rw [h] at hx
      simp only [List.head?_cons, Option.mem_some_iff] at hx
      subst hx
      exact ident_ne hid (d := '*') (by decide) (by decide) rfl

omit hN in
theorem prefix_of_nonIdent {h D X : Str} (hi : ∀ x ∈ h, IdentChar x) (hX : NonIdentHead X)
    (hp : h <+: D ++ X) : h <+: D := by
  cases X with
  | nil => simpa using hp
  | cons x X => exact prefix_of_stop (fun hm => hX x (by simp) (hi x hm)) hp

/-- Wherever a shortened name occurs, at most its last letter follows. -/
def Isolated (h : Str) (c : Char) (S : Str) : Prop :=
  h <+: S → ∃ b r, S = h ++ (b ++ r) ∧ (b = [] ∨ b = [c]) ∧ NonIdentHead r

theorem isolated_item {g h : Str} {a c : Char} {t : Str} (hg : g ∈ N.varying) (hs : Shape g h a c t)
    {i : Item} (hi : i.WellFormed N) (ss : List Str)
    (h0 : ∀ S, S <:+ tailText ss → Isolated h c S) :
    ∀ S, S <:+ i.text ++ tailText ss → Isolated h c S := by
  intro S hS
  rcases suffix_append_cases hS with h1 | ⟨D, rfl, hD⟩
  · exact h0 S h1
  by_cases hD0 : D = []
  · subst hD0; exact h0 _ (by simp)
  have hhs : '*' ∉ h := (hs.notMem (by decide) (by decide)).1
  by_cases hn : i.name? = some g
  · obtain ⟨e, he, ht⟩ := text_of_name hn
    have hwe : ∀ x ∈ e, x.WellFormed := fun x hx => hi.exp _ he x hx
    rw [ht] at hD
    intro hp
    have hg0 : ∀ D', D' = [] → D' ++ (g ++ Spec.powerText e) ++ tailText ss =
        h ++ ([c] ++ (Spec.powerText e ++ tailText ss)) := by
      rintro D' rfl; rw [hs.eq]; simp
    rcases suffix_append_cases hD with h1 | ⟨D', rfl, hD'⟩
    · rcases suffix_append_cases h1 with h2 | ⟨D'', rfl, hD''⟩
      · exfalso
        cases D with
        | nil => exact hD0 rfl
        | cons d D =>
          rw [hs.head, List.cons_append] at hp
          have := (List.cons_prefix_cons.mp hp).1
          subst this
          exact alpha_not_power hs.alpha hwe (h2.subset (by simp))
      · rw [List.append_assoc] at hp ⊢
        have hp' := prefix_of_nonIdent hs.identH (nonIdentHead_power ss) hp
        have hl1 := hp'.length_le
        have hl2 := hD''.length_le
        have hl3 : g.length = h.length + 1 := by rw [hs.eq]; simp
        by_cases hlen : D''.length = g.length
        · have : D'' = g := hD''.eq_of_length hlen
          refine ⟨[c], Spec.powerText e ++ tailText ss, ?_, Or.inr rfl, nonIdentHead_power ss⟩
          rw [this, hs.eq]; simp
        · have : h = D'' := hp'.eq_of_length (by omega)
          exact ⟨[], Spec.powerText e ++ tailText ss, by rw [← this]; rfl, Or.inl rfl, nonIdentHead_power ss⟩
    · by_cases hD'0 : D' = []
      · exact ⟨[c], Spec.powerText e ++ tailText ss, hg0 D' hD'0, Or.inr rfl, nonIdentHead_power ss⟩
      · exfalso
        have := noStart_lap hN hg hs hi hn ((g ++ Spec.powerText e) ++ tailText ss) D' hD'0 hD'
        exact this (by simpa using hp)
  · intro hp
    exact absurd hp (noStart_before hs.hne hhs (item_free hN hg hs hi hn) (tailText_head ss) D hD0 hD)

theorem isolated_tail {g h : Str} {a c : Char} {t : Str} (hg : g ∈ N.varying) (hs : Shape g h a c t) :
    ∀ (items : List Item), (∀ i ∈ items, i.WellFormed N) →
    ∀ S, S <:+ tailText (items.map Item.text) → Isolated h c S
  | [], _ => by
    intro S hS hp
    simp only [List.map_nil, tailText, List.suffix_nil] at hS
    subst hS
    exact absurd (by simpa using hp) hs.hne
  | i :: items, hw => by
    intro S hS hp
    rcases List.suffix_cons_iff.mp hS with rfl | h1
    · rw [hs.head] at hp
      exact absurd (List.cons_prefix_cons.mp hp).1 (alpha_ne_star hs.alpha)
    · exact isolated_item hN hg hs (hw i (by simp)) _
        (isolated_tail hg hs items fun j hj => hw j (by simp [hj])) S h1 hp

theorem isolated_product {g h : Str} {a c : Char} {t : Str} (hg : g ∈ N.varying) (hs : Shape g h a c t)
    (items : List Item) (hw : ∀ i ∈ items, i.WellFormed N) :
    ∀ S, S <:+ productText items → Isolated h c S := by
  cases items with
  | nil =>
    intro S hS hp
    simp only [productText, List.map_nil, List.intercalate, List.intersperse_nil, List.flatten_nil,
      List.suffix_nil] at hS
    subst hS
    exact absurd (by simpa using hp) hs.hne
  | cons i items =>
    rw [productText_cons]
    exact isolated_item hN hg hs (hw i (by simp)) _
      (isolated_tail hN hg hs items fun j hj => hw j (by simp [hj]))

/-- The name of a derived field, used as a pattern, never matches in the text of a product. -/
theorem product_never {s : Str} (hs : IsProductName N s) : ∃ r, compileText s = some r ∧
    ∀ items : List Item, (∀ i ∈ items, i.WellFormed N) → findAll r (productText items) = [] := by
  obtain ⟨fs, rfl, hne, hw, hsingle⟩ := hs
  obtain ⟨as, has, _⟩ := compile_product hN fs hne hw
  refine ⟨as, has, ?_⟩
  intro items hitems
  have hnone : ∀ B, B <:+ productText items → ∀ st, matchHere as st B = none := by
    cases fs with
    | nil => exact absurd rfl hne
    | cons f fs =>
      obtain ⟨hf, he⟩ := hw f (by simp)
      obtain ⟨h, a, c, t, hs⟩ := shape hN hf
      obtain ⟨name, exp⟩ := f
      simp only at hf he hs
      rw [List.map_cons, intercalate_cons] at has
      cases exp with
      | some e =>
        have hlist : Factor.text ⟨name, some e⟩ ++ tailText (fs.map Factor.text) =
            name ++ '^' :: (e.text ++ tailText (fs.map Factor.text)) := by
          simp [Factor.text, Spec.powerText]
        have hh : (e.text ++ tailText (fs.map Factor.text)).head? ≠ some '*' := by
          obtain ⟨e1, e2, _⟩ := he e rfl
          intro hx
          cases hi : e.int with
          | nil => exact e1 hi
          | cons d ds =>
            rw [hi] at e2
            simp only [Exponent.text, hi, List.cons_append, List.head?_cons, Option.some.injEq] at hx
            have := e2 d (by simp)
            rw [hx] at this
            exact absurd this (by decide)
        rw [hlist, compileText_ident_hat hs.identG _ hh, Option.map_eq_some_iff] at has
        obtain ⟨as2, _, rfl⟩ := has
        intro B _ st
        by_cases hp : name <+: B
        · obtain ⟨r, rfl⟩ := hp
          rw [matchHere_lits_append]
          have : name.isEmpty = false := by
            cases hn : name with
            | nil => exact absurd hn hs.ne
            | cons x y => rfl
          simp [matchHere, this]
        · exact matchHere_lits_none _ _ _ _ hp
      | none =>
        cases fs with
        | nil => exact absurd rfl (hsingle name)
        | cons f2 fs =>
          obtain ⟨hf2, _⟩ := hw f2 (by simp)
          obtain ⟨h2, a2, c2, t2, hs2⟩ := shape hN hf2
          obtain ⟨as2, has2, hh2⟩ := compile_product hN (f2 :: fs) (by simp) fun f hf => hw f (by simp [hf])
          obtain ⟨as3, has3⟩ := hh2 f2 rfl
          rw [hs2.drop, hs2.head] at has3
          rw [List.map_cons, intercalate_cons] at has2
          have hlist : Factor.text ⟨name, none⟩ ++ tailText ((f2 :: fs).map Factor.text) =
              h ++ [c] ++ '*' :: (f2.text ++ tailText (fs.map Factor.text)) := by
            rw [← hs.eq]; simp [Factor.text, Spec.powerText, tailText]
          rw [hlist, compileText_ident_star hs.identH (hs.identG c (by rw [hs.eq]; simp)), has2,
            Option.map_some, Option.some.injEq] at has
          subst has
          -- after the shortened name there is at most one identifier character left
          have hno : ∀ (st : Bool) (b r : Str), (b = [] ∨ b = [c]) → NonIdentHead r →
              matchHere as2 st (b ++ r) = none := by
            intro st b r hb hr
            rw [has3]
            apply matchHere_lits_none
            have hne2 := hs2.two
            have hid2 := hs2.identH
            rw [hs2.head] at hid2
            intro hp
            cases t2 with
            | nil => exact hne2 rfl
            | cons b2 t2 =>
              rcases hb with rfl | rfl
              · have := prefix_of_nonIdent (D := []) hid2 hr hp
                simp at this
              · have := prefix_of_nonIdent (D := [c]) hid2 hr hp
                have := this.length_le
                simp at this
          intro B hB st
          by_cases hp : h <+: B
          · obtain ⟨b, r, rfl, hb, hr⟩ := isolated_product hN hf hs items hitems B hB hp
            rw [matchHere_lits_append]
            have hr0 : ∀ st, matchHere (.star (fun x => decide (x = c)) :: as2) st r = none := by
              intro st
              cases r with
              | nil =>
                have := hno st [] [] (Or.inl rfl) hr
                simpa [matchHere] using this
              | cons x r =>
                have hx : x ≠ c := by
                  rintro rfl
                  exact hr x (by simp) (hs.identG x (by rw [hs.eq]; simp))
                have := hno st [] (x :: r) (Or.inl rfl) hr
                simpa [matchHere, hx] using this
            rcases hb with rfl | rfl
            · exact hr0 _
            · have h1 := hr0 false
              have h2 := hno (st && h.isEmpty) [c] r (Or.inr rfl) hr
              simp only [List.singleton_append] at h2 ⊢
              rw [matchHere]
              simp [h1, h2]
          · exact matchHere_lits_none _ _ _ _ hp
  unfold findAll
  rw [findAllLoop.eq_def, findFrom_none hnone]

/-! ### The classification -/

theorem occurrences_product {s : Str} (hs : IsProductName N s) (items : List Item)
    (hw : ∀ i ∈ items, i.WellFormed N) : occurrences s items = [] := by
  rw [occurrences, List.filter_eq_nil_iff]
  intro i hi hn
  have hn : i.name? = some s := by simpa using hn
  obtain ⟨e, he, _⟩ := text_of_name hn
  have hid := (hN.ident s ((hw i hi).known _ he)).2
  obtain ⟨fs, rfl, hne, hf, hsingle⟩ := hs
  cases fs with
  | nil => exact hne rfl
  | cons f fs =>
    rw [List.map_cons, intercalate_cons] at hid
    obtain ⟨name, exp⟩ := f
    cases exp with
    | some e =>
      exact ident_ne (hid '^' (by simp [Factor.text, Spec.powerText])) (d := '^') (by decide) (by decide) rfl
    | none =>
      cases fs with
      | nil => exact hsingle name rfl
      | cons f2 fs =>
        exact ident_ne (hid '*' (by simp [tailText])) (d := '*') (by decide) (by decide) rfl

theorem noOtherField_spec {field : Str} (items : List Item) (hw : ∀ i ∈ items, i.WellFormed N) :
    ∀ (known : List Str), (∀ k ∈ known, k ∈ N.varying ∨ IsProductName N k) →
    ∃ b, noOtherField (productText items) field known = some b ∧
      (b = true ↔ ∀ g ∈ known, g ≠ field → occurrences g items = [])
  | [], _ => ⟨true, rfl, by simp⟩
  | k :: known, hk => by
    obtain ⟨b, hb, hiff⟩ := noOtherField_spec (field := field) items hw known fun x hx => hk x (by simp [hx])
    by_cases hkf : k = field
    · exact ⟨b, by simp [noOtherField, hkf, hb], by simp [hiff, hkf]⟩
    · rcases hk k (by simp) with h | h
      · obtain ⟨h', a, c, t, hs⟩ := shape hN h
        have hc := cnt_product hN h items hw
        have hcomp := compileText_ident hs.identG
        by_cases h0 : occurrences k items = []
        · refine ⟨b, ?_, ?_⟩
          · rw [h0] at hc
            simp only [cnt, List.length_nil] at hc
            simp [noOtherField, hkf, hcomp, hc, hb]
          · simp [hiff, h0]
        · refine ⟨false, ?_, ?_⟩
          · have : 0 < (occurrences k items).length := List.length_pos_iff.mpr h0
            rw [← hc] at this
            simp only [cnt] at this
            simp [noOtherField, hkf, hcomp, this]
          · simp [h0, hkf]
      · obtain ⟨r, hr, hnone⟩ := product_never hN h
        refine ⟨b, ?_, ?_⟩
        · simp [noOtherField, hkf, hr, hnone items hw, hb]
        · simp [hiff, occurrences_product hN h items hw]

/-- The text from the name of the field to the end of its factor. -/
theorem find_field_factor {g : Str} (hg : g ∈ N.varying) {pre post : List Item} {i : Item}
    (hpre : ∀ j ∈ pre, j.WellFormed N ∧ j.name? ≠ some g) (hi : i.WellFormed N) {e : Option Exponent}
    (hfac : i.fac = some ⟨g, e⟩) {p : Char → Bool} {h : Str} {a c : Char} {t : Str} (hs : Shape g h a c t)
    (tl : Pattern) (hp : ∀ x ∈ g ++ Spec.powerText e, p x = true) (hstar : p '*' = false)
    (htl : tl = lits [c] ++ [.star p] ∨ tl = [.star (fun x => decide (x = c)), .star p]) :
    findString (lits h ++ tl) (productText (pre ++ i :: post)) = g ++ Spec.powerText e := by
  have hn : i.name? = some g := by simp [Item.name?, hfac]
  have ht : i.text = lapText i.lap ++ (g ++ Spec.powerText e) := by
    simp [Item.text, hfac, facText, Factor.text]
  have hhs : '*' ∉ h := (hs.notMem (by decide) (by decide)).1
  have htext : productText (pre ++ i :: post) = (headText (pre.map Item.text) ++ lapText i.lap) ++
      (h ++ (c :: (Spec.powerText e ++ tailText (post.map Item.text)))) := by
    rw [productText, List.map_append, List.map_cons, intercalate_split, ht]
    conv_lhs => rw [hs.eq]
    simp
  have hno : NoStart h (headText (pre.map Item.text) ++ lapText i.lap)
      (h ++ (c :: (Spec.powerText e ++ tailText (post.map Item.text)))) := by
    refine noStart_append (noStart_headText hs.hne hhs _ ?_ _) (noStart_lap hN hg hs hi hn _)
    intro s hs'
    obtain ⟨j, hj, rfl⟩ := List.mem_map.mp hs'
    exact item_free hN hg hs (hpre j hj).1 (hpre j hj).2
  have hdrop : (Spec.powerText e ++ tailText (post.map Item.text)).dropWhile p = tailText (post.map Item.text) := by
    apply dropWhile_append_stop
    · intro x hx; exact hp x (by simp [hx])
    · intro x hx
      rcases tailText_head (post.map Item.text) with h2 | ⟨r, h2⟩
      · rw [h2] at hx; simp at hx
      · rw [h2] at hx
        simp only [List.head?_cons, Option.mem_some_iff] at hx
        rw [← hx]; exact hstar
  have hmatch : ∀ st, matchHere tl st (c :: (Spec.powerText e ++ tailText (post.map Item.text))) =
      some (tailText (post.map Item.text)) := by
    intro st
    rcases htl with rfl | rfl
    · rw [show c :: (Spec.powerText e ++ tailText (post.map Item.text)) =
        [c] ++ (Spec.powerText e ++ tailText (post.map Item.text)) from rfl, matchHere_lits_append,
        matchHere_star_end, hdrop]
    · rw [matchHere_star_total _ (total_star p total_nil) _ _ false, matchHere_star_end]
      have hnc : ∀ x ∈ (Spec.powerText e ++ tailText (post.map Item.text)).head?, decide (x = c) = false := by
        intro x hx
        rw [decide_eq_false_iff_not]
        rintro rfl
        exact nonIdentHead_power _ x hx (hs.identG x (by rw [hs.eq]; simp))
      rw [show c :: (Spec.powerText e ++ tailText (post.map Item.text)) =
        [c] ++ (Spec.powerText e ++ tailText (post.map Item.text)) from rfl,
        dropWhile_append_stop (by simp) hnc, hdrop]
  unfold findString
  rw [htext, findFrom_lits_skip tl hno]
  have hm : ∀ st, matchHere (lits h ++ tl) st (h ++ (c :: (Spec.powerText e ++ tailText (post.map Item.text)))) =
      some (tailText (post.map Item.text)) := by
    intro st; rw [matchHere_lits_append]; exact hmatch _
  rw [findFrom_match (hm _)]
  simp only [Option.map_some]
  have hlen : (h ++ (c :: (Spec.powerText e ++ tailText (post.map Item.text)))).length -
      (tailText (post.map Item.text)).length = (g ++ Spec.powerText e).length := by
    rw [hs.eq]; simp; omega
  rw [hlen, hs.eq]
  rw [show h ++ (c :: (Spec.powerText e ++ tailText (post.map Item.text))) =
    (h ++ [c] ++ Spec.powerText e) ++ tailText (post.map Item.text) by simp]
  rw [List.take_left']
  rfl

theorem isBilinear_spec {field : Str} (hf : field ∈ N.varying) (known : List Str)
    (hk : ∀ k ∈ known, k ∈ N.varying ∨ IsProductName N k) (items : List Item)
    (hw : ∀ i ∈ items, i.WellFormed N) :
    ∃ b, isBilinear (productText items) field known = some b ∧ (b = true ↔ LinearIn field known items) := by
  obtain ⟨h, a, c, t, hs⟩ := shape hN hf
  have hcnt := cnt_product hN hf items hw
  have hcomp := compileText_ident hs.identG
  obtain ⟨b, hb, hiff⟩ := noOtherField_spec (field := field) hN items hw known hk
  unfold isBilinear
  rw [hcomp]
  simp only
  by_cases h1 : (occurrences field items).length = 1
  · rw [if_neg (by
      have e : (findAll (lits field) (productText items)).length = 1 := by rw [← h1, ← hcnt]; rfl
      simp [e])]
    rw [hb]
    cases b with
    | false =>
      refine ⟨false, rfl, ?_⟩
      simp only [Bool.false_eq_true, false_iff] at hiff ⊢
      rintro ⟨_, h2, _⟩
      exact hiff h2
    | true =>
      simp only [true_iff] at hiff
      obtain ⟨i, hocc⟩ := List.length_eq_one_iff.mp h1
      have hi : i ∈ items ∧ i.name? = some field := by
        have : i ∈ occurrences field items := by rw [hocc]; simp
        simpa [occurrences] using this
      obtain ⟨e, he, _⟩ := text_of_name hi.2
      have hwe : ∀ x ∈ e, x.WellFormed := fun x hx => (hw i hi.1).exp _ he x hx
      -- the first (and only) item that names the field
      obtain ⟨pre, post, rfl, hpre⟩ : ∃ pre post, items = pre ++ i :: post ∧
          ∀ j ∈ pre, j.name? ≠ some field := by
        obtain ⟨pre, post, h1⟩ := List.append_of_mem hi.1
        refine ⟨pre, post, h1, ?_⟩
        intro j hj hjn
        rw [h1] at hocc
        have h2 := congrArg List.length hocc
        simp only [occurrences, List.filter_append, List.filter_cons, hi.2, decide_true, if_true,
          List.length_append, List.length_cons, List.length_nil] at h2
        have : 0 < (pre.filter fun i => decide (i.name? = some field)).length := by
          apply List.length_pos_of_mem (a := j)
          simp [hj, hjn]
        omega
      have hstar : compileText (field ++ ['*']) =
          some (lits h ++ [.star fun x => decide (x = c)]) := by
        have := compileText_ident_star hs.identH (hs.identG c (by rw [hs.eq]; simp)) []
        rw [← hs.eq] at this
        rw [this]; simp [compileText]
      rw [hstar]
      have hfind := find_field_factor hN hf (pre := pre) (post := post)
        (fun j hj => ⟨hw j (by simp [hj]), hpre j hj⟩) (hw i (by simp)) he hs
        [.star (fun x => decide (x = c)), .star fun c => c ≠ '/' && c ≠ '*']
        (p := fun c => c ≠ '/' && c ≠ '*') (by
          intro x hx
          rcases List.mem_append.mp hx with hx | hx
          · have := hs.identG x hx
            have h1 : x ≠ '/' := ident_ne this (by decide) (by decide)
            have h2 : x ≠ '*' := ident_ne this (by decide) (by decide)
            simp [h1, h2]
          · rcases power_chars hwe hx with rfl | h | rfl
            · decide
            · have h1 : x ≠ '/' := digit_ne h (by decide)
              have h2 : x ≠ '*' := digit_ne h (by decide)
              simp [h1, h2]
            · decide) (by decide) (Or.inr rfl)
      simp only [List.append_assoc, List.singleton_append]
      rw [hfind]
      have hhat : '^' ∉ field := (hs.notMem (by decide) (by decide)).2
      have hlin : LinearIn field known (pre ++ i :: post) ↔
          |Factor.power ⟨field, e⟩ - 1| < 1 / 10 ^ 10 := by
        unfold LinearIn
        rw [hocc]
        simp [he]
        exact fun _ => hiff
      rw [hlin]
      cases e with
      | none =>
        have : powerText (field ++ Spec.powerText none) = none := by
          rw [Spec.powerText, List.append_nil]; exact powerText_none hhat
        rw [this]
        exact ⟨true, rfl, by simp [Factor.power]⟩
      | some e =>
        have := powerText_spec hhat e (hwe e rfl) [] (by simp [Stops])
        rw [List.append_nil] at this
        rw [Spec.powerText, this]
        simp only [parseFloat_exponent e (hwe e rfl)]
        exact ⟨_, rfl, by simp [Factor.power]⟩
  · refine ⟨false, ?_, ?_⟩
    · rw [if_pos]
      intro e
      apply h1
      rw [← hcnt]; exact e
    · simp [LinearIn, h1]

end

end Gopf.Pf
