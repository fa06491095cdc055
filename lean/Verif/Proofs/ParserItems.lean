import Verif.Proofs.ParserBase

/-!
# Where names occur in the text of a product
-/

namespace Gopf.Pf
open Spec

/-! ### Characters -/

theorem ident_ne {c d : Char} (h : IdentChar c) (hd : d.isAlphanum = false) (hd2 : d ≠ '_') : c ≠ d := by
  rintro rfl
  rcases h with h | h
  · simp [h] at hd
  · exact hd2 h

theorem not_mem_ident {g : Str} {d : Char} (h : ∀ c ∈ g, IdentChar c) (hd : d.isAlphanum = false) (hd2 : d ≠ '_') :
    d ∉ g := fun hm => ident_ne (h d hm) hd hd2 rfl

theorem alpha_not_digit {c : Char} (h : c.isAlpha = true) : c.isDigit = false := by
  simp only [Char.isAlpha, Char.isUpper, Char.isLower, Char.isDigit, Bool.or_eq_true, Bool.and_eq_true,
    decide_eq_true_eq, UInt32.le_iff_toNat_le, Bool.and_eq_false_imp, decide_eq_false_iff_not,
    ge_iff_le] at h ⊢
  have e1 : ('0' : Char).val.toNat = 48 := rfl
  have e2 : ('9' : Char).val.toNat = 57 := rfl
  have e3 : ('A' : Char).val.toNat = 65 := rfl
  have e4 : ('a' : Char).val.toNat = 97 := rfl
  intro h1 h2
  omega

theorem alpha_ne_hat {c : Char} (h : c.isAlpha = true) : c ≠ '^' := by rintro rfl; exact absurd h (by decide)
theorem alpha_ne_dot {c : Char} (h : c.isAlpha = true) : c ≠ '.' := by rintro rfl; exact absurd h (by decide)
theorem alpha_ne_star {c : Char} (h : c.isAlpha = true) : c ≠ '*' := by rintro rfl; exact absurd h (by decide)

/-- A letter does not occur in a power. -/
theorem alpha_not_power {c : Char} (h : c.isAlpha = true) {e : Option Exponent} (he : ∀ x ∈ e, x.WellFormed) :
    c ∉ Spec.powerText e := by
  have hd := alpha_not_digit h
  cases e with
  | none => simp [Spec.powerText]
  | some e =>
    obtain ⟨h1, h2, h3⟩ := he e rfl
    intro hm
    simp only [Spec.powerText, Exponent.text, List.mem_cons, List.mem_append] at hm
    rcases hm with hm | hm | hm
    · exact alpha_ne_hat h hm
    · have := h2 c hm; simp [hd] at this
    · cases hf : e.frac with
      | none => rw [hf] at hm; simp [fracText] at hm
      | some f =>
        rw [hf] at hm
        simp only [fracText, List.mem_cons] at hm
        rcases hm with hm | hm
        · exact alpha_ne_dot h hm
        · have := h3 f hf c hm; simp [hd] at this

theorem power_chars {e : Option Exponent} (he : ∀ x ∈ e, x.WellFormed) {c : Char} (hc : c ∈ Spec.powerText e) :
    c = '^' ∨ c.isDigit = true ∨ c = '.' := by
  cases e with
  | none => simp [Spec.powerText] at hc
  | some e =>
    obtain ⟨h1, h2, h3⟩ := he e rfl
    simp only [Spec.powerText, Exponent.text, List.mem_cons, List.mem_append] at hc
    rcases hc with hm | hm | hm
    · exact Or.inl hm
    · exact Or.inr (Or.inl (h2 c hm))
    · cases hf : e.frac with
      | none => rw [hf] at hm; simp [fracText] at hm
      | some f =>
        rw [hf] at hm
        simp only [fracText, List.mem_cons] at hm
        rcases hm with hm | hm
        · exact Or.inr (Or.inr hm)
        · exact Or.inr (Or.inl (h3 f hf c hm))

/-! ### Splitting occurrences -/

theorem infix_stop {c : Char} {h A B : Str} (hc : c ∉ h) (hi : h <:+: A ++ c :: B) : h <:+: A ∨ h <:+: B := by
  obtain ⟨S, hp, hs⟩ := List.infix_iff_prefix_suffix.mp hi
  rcases suffix_append_cases hs with h1 | ⟨D, rfl, hD⟩
  · rcases List.suffix_cons_iff.mp h1 with rfl | h2
    · cases h with
      | nil => exact Or.inl List.nil_infix
      | cons x h =>
        have := List.cons_prefix_cons.mp hp
        exact absurd (by simp [this.1]) hc
    · exact Or.inr (hp.isInfix.trans h2.isInfix)
  · exact Or.inl ((prefix_of_stop hc hp).isInfix.trans hD.isInfix)

theorem infix_head {a : Char} {h A B : Str} (ha : a ∉ A) (hi : a :: h <:+: A ++ B) : a :: h <:+: B := by
  obtain ⟨S, hp, hs⟩ := List.infix_iff_prefix_suffix.mp hi
  rcases suffix_append_cases hs with h1 | ⟨D, rfl, hD⟩
  · exact hp.isInfix.trans h1.isInfix
  · cases D with
    | nil => exact (by simpa using hp : a :: h <+: B).isInfix
    | cons d D =>
      have := List.cons_prefix_cons.mp (by simpa using hp)
      exact absurd (hD.subset (by simp [this.1])) ha

theorem not_infix_head {a : Char} {h A : Str} (ha : a ∉ A) : ¬ a :: h <:+: A := by
  intro hi
  exact ha (hi.subset (by simp))

theorem noStart_mono {h g A s : Str} (hp : h <+: g) (hn : NoStart h A s) : NoStart g A s :=
  fun B h1 h2 h3 => hn B h1 h2 (hp.trans h3)

theorem noStart_before {c : Char} {g A r : Str} (hg : g ≠ []) (hc : c ∉ g) (h : ¬ g <:+: A)
    (hr : r = [] ∨ ∃ r', r = c :: r') : NoStart g A r := by
  rcases hr with rfl | ⟨r', rfl⟩
  · exact noStart_end h
  · have := noStart_stop (s := r') hg hc h
    intro B h1 h2 h3
    exact this (B ++ [c]) (by simp) (by obtain ⟨t, ht⟩ := h2; exact ⟨t, by rw [← ht]; simp⟩) (by simpa using h3)

/-! ### Names in items -/

/-- What is used about the name of a field or function. -/
structure Shape (g h : Str) (a c : Char) (t : Str) : Prop where
  eq : g = h ++ [c]
  drop : g.dropLast = h
  head : h = a :: t
  alpha : a.isAlpha = true
  two : t ≠ []
  identG : ∀ x ∈ g, IdentChar x
  identH : ∀ x ∈ h, IdentChar x

theorem shape {N : Names} (hN : N.WellNamed) {g : Str} (hg : g ∈ N.varying) :
    ∃ h a c t, Shape g h a c t := by
  have hall : g ∈ N.all := by simp [Names.all, hg]
  obtain ⟨⟨a, t, h1, ha⟩, hid⟩ := hN.ident g hall
  have h3 := hN.long g hg
  have hne : g ≠ [] := by rintro rfl; simp at h3
  have hcat : g = g.dropLast ++ [g.getLast hne] := (List.dropLast_append_getLast hne).symm
  refine ⟨g.dropLast, a, g.getLast hne, t.dropLast, hcat, rfl, ?_, ha, ?_, hid, ?_⟩
  · subst h1
    cases t with
    | nil => simp at h3
    | cons b t => rfl
  · subst h1
    intro h
    have := congrArg List.length h
    simp only [List.length_dropLast, List.length_nil, List.length_cons] at this h3
    omega
  · intro x hx
    exact hid x (List.dropLast_subset g hx)

theorem Shape.ne {g h : Str} {a c : Char} {t : Str} (s : Shape g h a c t) : g ≠ [] := by
  rw [s.eq]; simp

theorem Shape.hne {g h : Str} {a c : Char} {t : Str} (s : Shape g h a c t) : h ≠ [] := by
  rw [s.head]; simp

theorem Shape.prefix {g h : Str} {a c : Char} {t : Str} (s : Shape g h a c t) : h <+: g := by
  rw [s.eq]; exact List.prefix_append _ _

theorem Shape.notMem {g h : Str} {a c : Char} {t : Str} (s : Shape g h a c t) {d : Char}
    (hd : d.isAlphanum = false) (hd2 : d ≠ '_') : d ∉ h ∧ d ∉ g :=
  ⟨not_mem_ident s.identH hd hd2, not_mem_ident s.identG hd hd2⟩

/-- A shortened name does not occur in a power or in a name followed by a power, unless it occurs in
the name. -/
theorem infix_factor {h : Str} {a : Char} {t : Str} (hh : h = a :: t) (ha : a.isAlpha = true)
    (hi : ∀ x ∈ h, IdentChar x) (name : Str) {e : Option Exponent} (he : ∀ x ∈ e, x.WellFormed)
    (hin : h <:+: name ++ Spec.powerText e) : h <:+: name := by
  cases e with
  | none => simpa [Spec.powerText] using hin
  | some e =>
    have hp := alpha_not_power ha he
    rcases infix_stop (not_mem_ident hi (by decide) (by decide)) hin with h1 | h1
    · exact h1
    · rw [hh] at h1
      have : a ∉ e.text := fun hm => hp (by simp [Spec.powerText, hm])
      exact absurd h1 (not_infix_head this)

theorem item_free {N : Names} (hN : N.WellNamed) {g h : Str} {a c : Char} {t : Str} (hg : g ∈ N.varying)
    (hs : Shape g h a c t) {i : Item} (hi : i.WellFormed N) (hne : i.name? ≠ some g) : ¬ h <:+: i.text := by
  intro hin
  obtain ⟨lap, fac⟩ := i
  have hstar : '^' ∉ h := (hs.notMem (by decide) (by decide)).1
  have hvar : ∀ f, f ∈ N.varying → f ≠ g → ¬ h <:+: ['L', 'A', 'P'] ++ f := by
    intro f hf hfg
    have := hN.sepVarying g hg f hf (Ne.symm hfg)
    rwa [hs.drop] at this
  have hlap : ¬ h <:+: ['L', 'A', 'P'] := by have := hN.sepLap g hg; rwa [hs.drop] at this
  have hname : ∀ f : Factor, fac = some f → ¬ h <:+: f.name := by
    intro f hf hin'
    subst hf
    have hfg : f.name ≠ g := fun e => hne (by simp [Item.name?, e])
    have hk := hi.known f rfl
    simp only [Names.all, List.mem_append] at hk
    rcases hk with hk | hk
    · exact hvar f.name hk hfg (hin'.trans (List.suffix_append _ _).isInfix)
    · have := hN.sepScalar g hg f.name hk
      rw [hs.drop] at this
      exact this hin'
  have hfac : ∀ f : Factor, fac = some f → ¬ h <:+: f.text := by
    intro f hf hin
    exact hname f hf (infix_factor hs.head hs.alpha hs.identH f.name (hi.exp f hf) hin)
  cases lap with
  | none =>
    cases fac with
    | none => simp [Item.text, lapText, facText] at hin; exact hs.hne hin
    | some f => exact hfac f rfl (by simpa [Item.text, lapText, facText] using hin)
  | some k =>
    cases k with
    | none =>
      cases fac with
      | none => exact hlap (by simpa [Item.text, lapText, facText] using hin)
      | some f =>
        have hat := hi.attached f rfl (by simp)
        have hfg : f.name ≠ g := fun e => hne (by simp [Item.name?, e])
        refine hvar f.name hat.1 hfg ?_
        apply infix_factor hs.head hs.alpha hs.identH _ (hi.exp f rfl)
        simpa [Item.text, lapText, facText, Factor.text] using hin
    | some k =>
      have hk := hi.lapPow k rfl
      have hak : a ∉ k := fun hm => by have := hk.2 a hm; simp [alpha_not_digit hs.alpha] at this
      have hin' : h <:+: ['L', 'A', 'P'] ++ '^' :: (k ++ facText fac) := by
        simpa [Item.text, lapText] using hin
      rcases infix_stop hstar hin' with h1 | h1
      · exact hlap h1
      · rw [hs.head] at h1
        have h2 := infix_head hak h1
        rw [← hs.head] at h2
        cases fac with
        | none => simp [facText] at h2; exact hs.hne h2
        | some f => exact hfac f rfl h2

/-- In its own item a name is found only after the attached Laplacian. -/
theorem noStart_lap {N : Names} (hN : N.WellNamed) {g h : Str} {a c : Char} {t : Str} (hg : g ∈ N.varying)
    (hs : Shape g h a c t) {i : Item} (hi : i.WellFormed N) (hname : i.name? = some g) (r : Str) :
    NoStart h (lapText i.lap) r := by
  obtain ⟨lap, fac⟩ := i
  obtain ⟨f, rfl, hf⟩ : ∃ f, fac = some f ∧ f.name = g := by
    simpa [Item.name?, Option.map_eq_some_iff] using hname
  have hhat : '^' ∉ h := (hs.notMem (by decide) (by decide)).1
  have hlap : ¬ h <:+: ['L', 'A', 'P'] := by have := hN.sepLap g hg; rwa [hs.drop] at this
  have hno : ¬ ['L', 'A', 'P'] <:+: g := hN.noLap g (by simp [Names.all, hg])
  have key : ∀ r, (∃ k, lap = some k) → NoStart h ['L', 'A', 'P'] r := by
    rintro r ⟨k, rfl⟩
    have hat := hi.attached f rfl (by simp)
    rw [hf, hs.eq, hs.head] at hat
    simp only [List.cons_append, List.head?_cons, ne_eq, Option.some.injEq] at hat
    intro B h1 h2 h3
    have hB : B = ['L', 'A', 'P'] ∨ B = ['A', 'P'] ∨ B = ['P'] := by
      rcases List.suffix_cons_iff.mp h2 with rfl | h2
      · exact Or.inl rfl
      rcases List.suffix_cons_iff.mp h2 with rfl | h2
      · exact Or.inr (Or.inl rfl)
      rcases List.suffix_cons_iff.mp h2 with rfl | h2
      · exact Or.inr (Or.inr rfl)
      · exact absurd (List.suffix_nil.mp h2) h1
    rcases hB with rfl | rfl | rfl
    · rcases List.prefix_or_prefix_of_prefix h3 (List.prefix_append _ _) with h4 | h4
      · exact hlap h4.isInfix
      · exact hno (h4.isInfix.trans hs.prefix.isInfix)
    · rw [hs.head] at h3
      exact hat.2.1 (List.cons_prefix_cons.mp (by simpa using h3)).1
    · rw [hs.head] at h3
      exact hat.2.2 (List.cons_prefix_cons.mp (by simpa using h3)).1
  cases lap with
  | none => exact noStart_nil _ _
  | some k =>
    cases k with
    | none => exact key r ⟨_, rfl⟩
    | some k =>
      have hk := hi.lapPow k rfl
      have hak : a ∉ '^' :: k := by
        intro hm
        rcases List.mem_cons.mp hm with hm | hm
        · exact alpha_ne_hat hs.alpha hm
        · have := hk.2 a hm; simp [alpha_not_digit hs.alpha] at this
      have e : lapText (some (some k)) = ['L', 'A', 'P'] ++ ('^' :: k) := by simp [lapText]
      rw [e]
      refine noStart_append (key _ ⟨_, rfl⟩) ?_
      rw [hs.head]
      exact noStart_head hak

end Gopf.Pf
