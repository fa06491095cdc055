import Verif.Model.Regex
import Verif.Model.Parser
import Verif.Proofs.Text

/-!
# Facts about the pattern matcher
-/

namespace Gopf.Pf

/-- The pattern that matches exactly the text `g`. -/
def lits (g : Str) : Pattern := g.map fun c => .one fun x => x = c

theorem matchHere_nil (st : Bool) (s : Str) : matchHere [] st s = some s := by simp [matchHere]

theorem matchHere_lits_append (tl : Pattern) : ∀ (g : Str) (st : Bool) (r : Str),
    matchHere (lits g ++ tl) st (g ++ r) = matchHere tl (st && g.isEmpty) r
  | [], st, r => by simp [lits]
  | c :: g, st, r => by
    have ih := matchHere_lits_append tl g false r
    simp only [lits, List.map_cons, List.cons_append, matchHere, decide_true, if_true] at ih ⊢
    rw [ih]; simp

theorem matchHere_lits_none (tl : Pattern) : ∀ (g : Str) (st : Bool) (s : Str), ¬ g <+: s →
    matchHere (lits g ++ tl) st s = none
  | [], st, s, h => absurd List.nil_prefix h
  | c :: g, st, [], h => by simp [lits, matchHere]
  | c :: g, st, x :: s, h => by
    simp only [lits, List.map_cons, List.cons_append, matchHere]
    by_cases hx : x = c
    · subst hx
      have : ¬ g <+: s := fun h' => h (by simpa using h')
      simpa [lits] using matchHere_lits_none tl g false s this
    · simp [hx]

theorem matchHere_star_end (p : Char → Bool) : ∀ (s : Str) (st : Bool),
    matchHere [.star p] st s = some (s.dropWhile p)
  | [], st => by simp [matchHere]
  | x :: s, st => by
    have ih := matchHere_star_end p s false
    by_cases hx : p x = true
    · simp [matchHere, hx, ih]
    · simp [matchHere, hx]

/-- A pattern that matches everywhere, whatever the position is. -/
def Total (as : Pattern) : Prop := ∀ st s, ∃ r, matchHere as st s = some r ∧ ∀ st', matchHere as st' s = some r

theorem total_nil : Total [] := fun st s => ⟨s, by simp [matchHere]⟩

theorem matchHere_star_total (p : Char → Bool) {as : Pattern} (h : Total as) : ∀ (s : Str) (st st' : Bool),
    matchHere (.star p :: as) st s = matchHere as st' (s.dropWhile p)
  | [], st, st' => by
    obtain ⟨r, h1, h2⟩ := h st []
    simp [matchHere, h1, h2]
  | x :: s, st, st' => by
    by_cases hx : p x = true
    · have ih := matchHere_star_total p h s false st'
      obtain ⟨r, h1, h2⟩ := h st' (s.dropWhile p)
      rw [h1] at ih
      simp [matchHere, hx, ih, h1]
    · obtain ⟨r, h1, h2⟩ := h st (x :: s)
      simp [matchHere, hx, h1, h2]

theorem total_star (p : Char → Bool) {as : Pattern} (h : Total as) : Total (.star p :: as) := by
  intro st s
  obtain ⟨r, h1, h2⟩ := h false (s.dropWhile p)
  exact ⟨r, by rw [matchHere_star_total p h s st false, h1],
    fun st' => by rw [matchHere_star_total p h s st' false, h1]⟩

theorem suffix_append_cases {C A B : Str} (h : C <:+ A ++ B) : C <:+ B ∨ ∃ D, C = D ++ B ∧ D <:+ A := by
  obtain ⟨t, ht⟩ := h
  rcases List.append_eq_append_iff.mp ht with ⟨u, h1, h2⟩ | ⟨u, h1, h2⟩
  · exact Or.inr ⟨u, h2, ⟨t, h1.symm⟩⟩
  · exact Or.inl ⟨u, h2.symm⟩

/-- `g` does not start anywhere inside `A` in the text `A ++ s`. -/
def NoStart (g A s : Str) : Prop := ∀ B, B ≠ [] → B <:+ A → ¬ g <+: B ++ s

theorem noStart_nil (g s : Str) : NoStart g [] s := fun _ h1 h2 => absurd (List.suffix_nil.mp h2) h1

theorem noStart_append {g A B s : Str} (h1 : NoStart g A (B ++ s)) (h2 : NoStart g B s) :
    NoStart g (A ++ B) s := by
  intro C hC hs
  rcases suffix_append_cases hs with h | ⟨D, rfl, hD⟩
  · exact h2 C hC h
  · rw [List.append_assoc]
    by_cases hD0 : D = []
    · subst hD0
      exact h2 B (by simpa using hC) (List.suffix_refl _)
    · exact h1 D hD0 hD

theorem noStart_head {c : Char} {g A s : Str} (h : c ∉ A) : NoStart (c :: g) A s := by
  intro B hB hs hp
  cases B with
  | nil => exact hB rfl
  | cons b B =>
    have : c = b := by
      have := List.cons_prefix_cons.mp (by simpa using hp); exact this.1
    subst this
    exact h (hs.subset (by simp))

/-- A text without `c` that is a prefix of `B ++ c :: s` is a prefix of `B`. -/
theorem prefix_of_stop {c : Char} : ∀ {g B s : Str}, c ∉ g → g <+: B ++ c :: s → g <+: B
  | [], B, s, _, _ => List.nil_prefix
  | x :: g, [], s, h1, h2 => by
    have := List.cons_prefix_cons.mp (by simpa using h2)
    exact absurd this.1.symm (by intro h; exact h1 (by simp [h]))
  | x :: g, b :: B, s, h1, h2 => by
    have h3 := List.cons_prefix_cons.mp (by simpa using h2)
    exact List.cons_prefix_cons.mpr ⟨h3.1, prefix_of_stop (fun h => h1 (by simp [h])) h3.2⟩

theorem noStart_stop {c : Char} {g A s : Str} (hg : g ≠ []) (hc : c ∉ g) (h : ¬ g <:+: A) :
    NoStart g (A ++ [c]) s := by
  intro B hB hs hp
  rcases suffix_append_cases hs with h1 | ⟨D, rfl, hD⟩
  · have : B = [c] := by
      obtain ⟨t, ht⟩ := h1
      cases t with
      | nil => simpa using ht
      | cons a t => cases t <;> cases B <;> simp_all
    subst this
    cases g with
    | nil => exact hg rfl
    | cons x g =>
      have := List.cons_prefix_cons.mp (by simpa using hp)
      exact hc (by simp [this.1])
  · have := prefix_of_stop (B := D) hc (by simpa using hp)
    exact h (this.isInfix.trans hD.isInfix)

theorem noStart_end {g A : Str} (h : ¬ g <:+: A) : NoStart g A [] := by
  intro B hB hs hp
  exact h ((List.IsPrefix.isInfix (by simpa using hp)).trans hs.isInfix)

/-- Skipping text in which a pattern does not match. -/
theorem findFrom_skip {as : Pattern} {s : Str} : ∀ (A : Str) (st : Bool),
    (∀ B, B ≠ [] → B <:+ A → ∀ st, matchHere as st (B ++ s) = none) →
    findFrom as st (A ++ s) = (findFrom as (st && A.isEmpty) s).map fun r => (A ++ r.1, r.2)
  | [], st, _ => by
    simp only [List.nil_append, List.isEmpty_nil, Bool.and_true]
    cases findFrom as st s <;> simp
  | x :: A, st, h => by
    have ih := findFrom_skip A false fun B h1 h2 => h B h1 (h2.trans (List.suffix_cons x A))
    have h0 := h (x :: A) (by simp) (List.suffix_refl _) st
    rw [findFrom.eq_def, h0]
    simp only [List.cons_append, ih, Option.map_map, List.isEmpty_cons, Bool.and_false,
      Bool.false_and]
    congr 1

theorem findFrom_match {as : Pattern} {st : Bool} {s rest : Str} (h : matchHere as st s = some rest) :
    findFrom as st s = some ([], s.take (s.length - rest.length), rest) := by
  rw [findFrom.eq_def, h]

theorem findFrom_none {as : Pattern} {s : Str} {st : Bool}
    (h : ∀ B, B <:+ s → ∀ st, matchHere as st B = none) : findFrom as st s = none := by
  have := findFrom_skip (as := as) (s := []) s st fun B _ hs st => by simpa using h B hs st
  rw [List.append_nil] at this
  rw [this, findFrom.eq_def, h [] (List.nil_suffix)]
  rfl

theorem findFrom_lits_skip {g : Str} (tl : Pattern) {A s : Str} (h : NoStart g A s) (st : Bool) :
    findFrom (lits g ++ tl) st (A ++ s) =
      (findFrom (lits g ++ tl) (st && A.isEmpty) s).map fun r => (A ++ r.1, r.2) :=
  findFrom_skip A st fun B h1 h2 st => matchHere_lits_none tl g st _ (h B h1 h2)

theorem findFrom_lits_none {g : Str} (tl : Pattern) {A : Str} (h : ¬ g <:+: A) (st : Bool) :
    findFrom (lits g ++ tl) st A = none :=
  findFrom_none fun B hs st => matchHere_lits_none tl g st B fun hp => h (hp.isInfix.trans hs.isInfix)

/-- Number of matches of a literal text. -/
def cnt (g s : Str) : ℕ := (findAll (lits g) s).length

theorem findFrom_lits_some {g : Str} (hg : g ≠ []) : ∀ (s : Str) (st : Bool) r,
    findFrom (lits g) st s = some r → r.2.1 ≠ [] ∧ r.2.2.length < s.length := by
  intro s
  induction s with
  | nil =>
    intro st r h
    have : ¬ g <+: [] := by simpa using hg
    have := matchHere_lits_none [] g st [] this
    simp only [List.append_nil] at this
    simp [findFrom, this] at h
  | cons x s ih =>
    intro st r h
    by_cases hp : g <+: x :: s
    · obtain ⟨t, ht⟩ := hp
      have e := matchHere_lits_append [] g st t
      simp only [List.append_nil, ht, matchHere_nil] at e
      rw [findFrom_match e] at h
      obtain rfl := Option.some.inj h
      rw [← ht]
      cases g with
      | nil => exact absurd rfl hg
      | cons c g => exact ⟨by simp; omega, by simp⟩
    · have := matchHere_lits_none [] g st _ hp
      simp only [List.append_nil] at this
      rw [findFrom.eq_def, this] at h
      simp only [Option.map_eq_some_iff] at h
      obtain ⟨r', h1, rfl⟩ := h
      have := ih false r' h1
      exact ⟨this.1, by simp; omega⟩

theorem findAllLoop_lits {g : Str} (hg : g ≠ []) (s : Str) (st am st' am' : Bool) :
    findAllLoop (lits g) st am s = findAllLoop (lits g) st' am' s := by
  have key : ∀ (s : Str) (st st' : Bool), findFrom (lits g) st s = findFrom (lits g) st' s := by
    intro s
    induction s with
    | nil =>
      intro st st'
      have : ¬ g <+: [] := by simpa using hg
      have := fun st => matchHere_lits_none [] g st [] this
      simp only [List.append_nil] at this
      simp [findFrom, this]
    | cons x s ih =>
      intro st st'
      by_cases hp : g <+: x :: s
      · obtain ⟨r, hr⟩ := hp
        have e := fun st => matchHere_lits_append [] g st r
        simp only [List.append_nil, hr, matchHere_nil] at e
        rw [findFrom_match (e st), findFrom_match (e st')]
      · have := fun st => matchHere_lits_none [] g st _ hp
        simp only [List.append_nil] at this
        rw [findFrom.eq_def, this, findFrom.eq_def, this]
  rw [findAllLoop.eq_def, findAllLoop.eq_def (s := s), key s st st']
  cases h : findFrom (lits g) st' s with
  | none => rfl
  | some r =>
    obtain ⟨pre, m, rest⟩ := r
    have hm : m ≠ [] := (findFrom_lits_some hg s st' _ h).1
    have : pre.length + m.length ≠ 0 := by
      have := List.length_pos_iff.mpr hm; omega
    simp only [if_neg this]

theorem cnt_skip {g A s : Str} (hg : g ≠ []) (h : NoStart g A s) : cnt g (A ++ s) = cnt g s := by
  have hs := findFrom_lits_skip [] h true
  simp only [List.append_nil] at hs
  have hst : cnt g s = (findAllLoop (lits g) (true && A.isEmpty) false s).length := by
    unfold cnt findAll; rw [findAllLoop_lits hg]
  rw [hst]
  unfold cnt findAll
  rw [findAllLoop.eq_def, findAllLoop.eq_def (s := s), hs]
  cases hf : findFrom (lits g) (true && A.isEmpty) s with
  | none => simp
  | some r =>
    obtain ⟨pre, m, rest⟩ := r
    obtain ⟨hm, hr⟩ := findFrom_lits_some hg s _ _ hf
    simp only at hm hr
    have hm' := List.length_pos_iff.mpr hm
    have h1 : (A ++ pre).length + m.length ≠ 0 := by omega
    have h2 : pre.length + m.length ≠ 0 := by omega
    have h3 : rest.length < (A ++ s).length := by simp; omega
    simp only [Option.map_some, if_neg h1, if_neg h2, dif_pos h3, dif_pos hr]

theorem cnt_match {g s : Str} (hg : g ≠ []) : cnt g (g ++ s) = cnt g s + 1 := by
  have e := matchHere_lits_append [] g true s
  simp only [List.append_nil, matchHere_nil] at e
  have hlen : 0 < g.length := List.length_pos_iff.mpr hg
  unfold cnt findAll
  rw [findAllLoop.eq_def, findFrom_match e]
  have h1 : ([] : Str).length + (List.take ((g ++ s).length - s.length) (g ++ s)).length ≠ 0 := by
    simp; omega
  have h2 : s.length < (g ++ s).length := by simp; omega
  simp only [if_neg h1, dif_pos h2, List.length_cons]
  rw [findAllLoop_lits hg s false true true false]

theorem cnt_zero {g s : Str} (h : ¬ g <:+: s) : cnt g s = 0 := by
  have := findFrom_lits_none [] h true
  simp only [List.append_nil] at this
  unfold cnt findAll
  rw [findAllLoop.eq_def, this]; rfl

theorem cnt_nil {g : Str} (hg : g ≠ []) : cnt g [] = 0 := cnt_zero (by simpa using hg)

theorem findFrom_star (p : Char → Bool) (st : Bool) (s : Str) :
    findFrom [.star p] st s = some ([], s.takeWhile p, s.dropWhile p) := by
  rw [findFrom_match (matchHere_star_end p s st)]
  have h := List.takeWhile_append_dropWhile (p := p) (l := s)
  have hl : s.length = (s.takeWhile p).length + (s.dropWhile p).length := by
    rw [← List.length_append, h]
  have : s.take (s.length - (s.dropWhile p).length) = s.takeWhile p := by
    have e : s.length - (s.dropWhile p).length = (s.takeWhile p).length := by omega
    rw [e]
    exact (List.prefix_iff_eq_take.mp (List.takeWhile_prefix p)).symm
  rw [this]

theorem goSplit_eq_cons (c : Char) (s : Str) : goSplit c s = s.takeWhile (fun x => x ≠ c) ::
    (match s.dropWhile (fun x => x ≠ c) with
      | [] => []
      | _ :: r => goSplit c r) := by
  induction s with
  | nil => simp [goSplit]
  | cons x s ih =>
    simp only [goSplit]
    by_cases h : x = c
    · simp [h]
    · rw [if_neg h, ih]
      simp [h]

/-- The factors found by the regular expression are the pieces between the asterisks. -/
theorem findAll_patFactor (s : Str) : findAll patFactor s = goSplit '*' s := by
  have main : ∀ (k : ℕ) (s : Str), s.length ≤ k → ∀ st : Bool,
      findAllLoop patFactor st false s = goSplit '*' s ∧
      (∀ r, s = '*' :: r → findAllLoop patFactor st true s = goSplit '*' r) ∧
      (s = [] → findAllLoop patFactor st true s = []) := by
    intro k
    induction k with
    | zero =>
      intro s hs st
      have : s = [] := List.length_eq_zero_iff.mp (by omega)
      subst this
      refine ⟨?_, by simp, fun _ => ?_⟩ <;>
        (rw [findAllLoop.eq_def]; simp [patFactor, findFrom_star, goSplit])
    | succ k ih =>
      intro s hs st
      refine ⟨?_, ?_, ?_⟩
      · rw [findAllLoop.eq_def]
        simp only [patFactor, findFrom_star]
        have hd := List.takeWhile_append_dropWhile (p := fun c : Char => decide (c ≠ '*')) (l := s)
        cases s with
        | nil => simp [goSplit]
        | cons x s =>
          by_cases hx : x = '*'
          · subst hx
            have := (ih s (by simp at hs; omega) false).1
            simp only [patFactor] at this
            simpa [goSplit] using this
          · have hlen : ([] : Str).length + ((x :: s).takeWhile fun c : Char => decide (c ≠ '*')).length ≠ 0 := by
              simp [hx]
            rw [if_neg hlen]
            have h2 : ((x :: s).dropWhile fun c : Char => decide (c ≠ '*')).length < (x :: s).length := by
              simp only [ne_eq, hx, not_false_eq_true, decide_true, List.dropWhile_cons_of_pos, List.length_cons]
              have := (List.dropWhile_suffix (l := s) (fun c : Char => decide (c ≠ '*'))).length_le
              simp only [ne_eq] at this
              omega
            rw [dif_pos h2]
            rw [goSplit_eq_cons]
            congr 1
            have := ih _ (show ((x :: s).dropWhile fun c : Char => decide (c ≠ '*')).length ≤ k by
              simp only [List.length_cons] at hs h2 ⊢; omega) false
            simp only [patFactor] at this
            cases hw : (x :: s).dropWhile fun c : Char => decide (c ≠ '*') with
            | nil => rw [hw] at this; exact this.2.2 rfl
            | cons y r =>
              have hy : y = '*' := by
                have := List.head_dropWhile_not (fun c : Char => decide (c ≠ '*')) (l := x :: s) (by rw [hw]; simp)
                simp only [hw, List.head_cons] at this
                simpa using this
              subst hy
              rw [hw] at this
              exact this.2.1 r rfl
      · rintro r rfl
        rw [findAllLoop.eq_def]
        have := (ih r (by simp at hs; omega) false).1
        simp only [patFactor] at this
        simpa [patFactor, findFrom_star] using this
      · rintro rfl
        rw [findAllLoop.eq_def]; simp [patFactor, findFrom_star]
  exact (main s.length s le_rfl true).1

theorem findString_patName (s : Str) : findString patName s = s.takeWhile fun c => c ≠ '^' := by
  have h : matchHere patName true s = matchHere [.star fun c : Char => decide (c ≠ '^')] true s := by
    simp [patName, matchHere]
  have hm := findFrom_star (fun c : Char => decide (c ≠ '^')) true s
  rw [findFrom_match (matchHere_star_end _ s true)] at hm
  unfold findString
  rw [findFrom_match (h.trans (matchHere_star_end _ s true))]
  simp only [Option.some.injEq, Prod.mk.injEq, true_and] at hm
  exact hm.1

theorem contains_iff (g : Str) : ∀ s : Str, contains g s = true ↔ g <:+: s
  | [] => by simp [contains]
  | x :: s => by
    rw [contains, Bool.or_eq_true, contains_iff g s, List.isPrefixOf_iff_prefix, List.infix_cons_iff]

theorem removeAll_match {g : Str} (hg : g ≠ []) (s : Str) : removeAll g (g ++ s) = removeAll g s := by
  rw [removeAll.eq_def, dif_pos ⟨by simp, hg⟩]
  simp

theorem removeAll_skip {g s : Str} : ∀ {A : Str}, NoStart g A s → removeAll g (A ++ s) = A ++ removeAll g s
  | [], _ => rfl
  | x :: A, h => by
    have h0 := h (x :: A) (by simp) (List.suffix_refl _)
    have ih := removeAll_skip (A := A) fun B h1 h2 => h B h1 (h2.trans (List.suffix_cons x A))
    rw [removeAll.eq_def, dif_neg (by simpa using fun h => absurd (by simpa using h) h0)]
    simp only [List.cons_append, ih]

theorem removeAll_none {g s : Str} (h : ¬ g <:+: s) : removeAll g s = s := by
  have := removeAll_skip (noStart_end h)
  rw [List.append_nil] at this
  rw [this, removeAll.eq_def]
  simp

end Gopf.Pf
