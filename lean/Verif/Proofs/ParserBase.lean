import Verif.Proofs.Regex
import Verif.Spec.Equation

/-!
# Names, powers and items under the patterns of the parser
-/

namespace Gopf.Pf
open Spec

/-! ### Compiling names -/

/-- The pattern of a text of characters with a class. -/
def clss (A : Str) : Pattern := A.map fun c => .one ((charClass c).getD fun _ => false)

theorem charClass_ident {c : Char} (h : IdentChar c) : charClass c = some (fun x => decide (x = c)) := by
  unfold charClass
  have h1 : c ≠ '.' := by
    rintro rfl
    rcases h with h | h
    · exact absurd h (by decide)
    · exact absurd h (by decide)
  rw [if_neg h1, if_pos]
  rcases h with h | h <;> simp [h]

theorem clss_ident {g : Str} (h : ∀ c ∈ g, IdentChar c) : clss g = lits g := by
  unfold clss lits
  apply List.map_congr_left
  intro c hc
  rw [charClass_ident (h c hc)]; rfl

theorem charClass_star : charClass '*' = none := by decide
theorem charClass_hat : charClass '^' = none := by decide

theorem compileText_cls : ∀ (A : Str) (_ : ∀ c ∈ A, (charClass c).isSome) (r : Str) (_ : r.head? ≠ some '*'),
    compileText (A ++ r) = (compileText r).map fun as => clss A ++ as
  | [], _, r, _ => by simp [clss]
  | c :: A, hA, r, hr => by
    have ih := compileText_cls A (fun c hc => hA c (by simp [hc])) r hr
    obtain ⟨p, hp⟩ := Option.isSome_iff_exists.mp (hA c (by simp))
    have hc1 : c ≠ '^' := by rintro rfl; simp [charClass_hat] at hp
    have hh : ∀ r', A ++ r ≠ '*' :: r' := by
      intro r' h
      cases A with
      | nil => exact hr (by simp_all)
      | cons a A =>
        have := hA a (by simp)
        simp only [List.cons_append, List.cons.injEq] at h
        rw [h.1, charClass_star] at this
        simp at this
    have : compileText (c :: (A ++ r)) = match charClass c, compileText (A ++ r) with
        | some p, some as => some (.one p :: as)
        | _, _ => none := by
      rw [compileText.eq_def]
      split
      · rename_i h; simp at h
      · rename_i h
        simp only [List.cons.injEq] at h
        exact absurd h.2 (hh _)
      · rename_i h
        simp only [List.cons.injEq] at h
        exact absurd h.1 hc1
      · rename_i h
        simp only [List.cons.injEq] at h
        obtain ⟨rfl, rfl⟩ := h
        rfl
    rw [List.cons_append, this, ih, hp]
    cases compileText r <;> simp [clss, hp]

theorem compileText_star {c : Char} {p : Char → Bool} (hc : charClass c = some p) (r : Str) :
    compileText (c :: '*' :: r) = (compileText r).map fun as => .star p :: as := by
  rw [compileText.eq_def]
  simp only [hc]
  cases compileText r <;> rfl

theorem compileText_hat (r : Str) (hr : r.head? ≠ some '*') :
    compileText ('^' :: r) = (compileText r).map fun as => .bol :: as := by
  rw [compileText.eq_def]
  split
  · rename_i h; simp at h
  · rename_i h
    simp only [List.cons.injEq] at h
    obtain ⟨h1, rfl⟩ := h
    simp at hr
  · rename_i h
    simp only [List.cons.injEq] at h
    obtain ⟨_, rfl⟩ := h
    rfl
  · rename_i h h2
    simp only [List.cons.injEq] at h2
    exact absurd h2.1.symm h

theorem compileText_ident {g : Str} (h : ∀ c ∈ g, IdentChar c) : compileText g = some (lits g) := by
  have := compileText_cls g (fun c hc => by rw [charClass_ident (h c hc)]; rfl) [] (by simp)
  rw [List.append_nil] at this
  rw [this, clss_ident h]; simp [compileText]

theorem compileText_ident_star {h : Str} {c : Char} (hh : ∀ c ∈ h, IdentChar c) (hc : IdentChar c)
    (r : Str) : compileText (h ++ [c] ++ '*' :: r) =
      (compileText r).map fun as => lits h ++ .star (fun x => x = c) :: as := by
  have hc' := charClass_ident hc
  have := compileText_cls h (fun c hc => by rw [charClass_ident (hh c hc)]; rfl) (c :: '*' :: r) (by
    rintro h
    simp only [List.head?_cons, Option.some.injEq] at h
    subst h
    rw [charClass_star] at hc'; simp at hc')
  rw [List.append_assoc, List.singleton_append, this, compileText_star hc', clss_ident hh]
  cases compileText r <;> simp

theorem compileText_ident_hat {g : Str} (hg : ∀ c ∈ g, IdentChar c) (r : Str) (hr : r.head? ≠ some '*') :
    compileText (g ++ '^' :: r) = (compileText r).map fun as => lits g ++ .bol :: as := by
  have := compileText_cls g (fun c hc => by rw [charClass_ident (hg c hc)]; rfl) ('^' :: r) (by simp)
  rw [this, compileText_hat r hr, clss_ident hg]
  cases compileText r <;> simp

/-! ### Powers -/

theorem digit_ne {c d : Char} (h : c.isDigit = true) (hd : d.isDigit = false) : c ≠ d := by
  rintro rfl; simp [h] at hd

theorem total_opt (p : Char → Bool) {as : Pattern} (h : Total as) : Total (.opt p :: as) := by
  intro st s
  cases s with
  | nil =>
    obtain ⟨r, h1, h2⟩ := h st []
    exact ⟨r, by simp [matchHere, h1], fun st' => by simp [matchHere, h2]⟩
  | cons x xs =>
    by_cases hx : p x = true
    · obtain ⟨r, h1, h2⟩ := h false xs
      exact ⟨r, by simp [matchHere, hx, h1], fun st' => by simp [matchHere, hx, h2]⟩
    · obtain ⟨r, h1, h2⟩ := h st (x :: xs)
      exact ⟨r, by simp [matchHere, hx, h1], fun st' => by simp [matchHere, hx, h2]⟩

theorem dropWhile_append_stop {p : Char → Bool} : ∀ {A r : Str}, (∀ c ∈ A, p c = true) →
    (∀ c ∈ r.head?, p c = false) → (A ++ r).dropWhile p = r
  | [], [], _, _ => rfl
  | [], x :: r, _, h => by simp [h x (by simp)]
  | a :: A, r, hA, h => by
    rw [List.cons_append, List.dropWhile_cons_of_pos (hA a (by simp))]
    exact dropWhile_append_stop (fun c hc => hA c (by simp [hc])) h

theorem takeWhile_append_stop {p : Char → Bool} : ∀ {A r : Str}, (∀ c ∈ A, p c = true) →
    (∀ c ∈ r.head?, p c = false) → (A ++ r).takeWhile p = A
  | [], [], _, _ => rfl
  | [], x :: r, _, h => by simp [h x (by simp)]
  | a :: A, r, hA, h => by
    rw [List.cons_append, List.takeWhile_cons_of_pos (hA a (by simp)),
      takeWhile_append_stop (fun c hc => hA c (by simp [hc])) h]

/-- What may follow a power in a text. -/
def Stops (r : Str) : Prop := ∀ c ∈ r.head?, c.isDigit = false ∧ c ≠ '.'

theorem matchHere_power (e : Exponent) (he : e.WellFormed) (r : Str) (hr : Stops r) (st : Bool) :
    matchHere patPower st ('^' :: (e.text ++ r)) = some r := by
  obtain ⟨int, frac⟩ := e
  obtain ⟨h1, h2, h3⟩ := he
  simp only at h1 h2 h3
  cases int with
  | nil => exact absurd rfl h1
  | cons d int =>
    have hd := h2 d (by simp)
    have hd' : d ≠ '-' := digit_ne hd (by decide)
    have hT1 : Total [.star isDigitB] := total_star _ total_nil
    have hT2 : Total [.opt fun c : Char => decide (c = '.'), .star isDigitB] := total_opt _ hT1
    have hint : ∀ c ∈ int, isDigitB c = true := fun c hc => h2 c (by simp [hc])
    have hlast : ∀ (st : Bool), matchHere [.star isDigitB, .opt fun c : Char => decide (c = '.'), .star isDigitB]
        st (int ++ (fracText frac ++ r)) = some r := by
      intro st
      cases frac with
      | none =>
        rw [fracText, List.nil_append, matchHere_star_total _ hT2 _ _ false,
          dropWhile_append_stop hint (fun c hc => (hr c hc).1)]
        cases r with
        | nil => simp [matchHere]
        | cons x r =>
          have := hr x (by simp)
          have hx : isDigitB x = false := this.1
          simp [matchHere, this.2, hx]
      | some f =>
        rw [matchHere_star_total _ hT2 _ _ false, dropWhile_append_stop hint (by
          intro c hc
          simp only [fracText, List.cons_append, List.head?_cons, Option.mem_some_iff] at hc
          subst hc; decide)]
        have hf : ∀ c ∈ f, isDigitB c = true := h3 f rfl
        simp only [fracText, List.cons_append, matchHere, decide_true, if_true]
        rw [matchHere_star_end, dropWhile_append_stop hf (fun c hc => (hr c hc).1)]
    have hdB : isDigitB d = true := hd
    simp only [patPower, Exponent.text, List.append_assoc, List.cons_append, matchHere, decide_true, if_true,
      hd', decide_false, Bool.false_eq_true, if_false, hdB]
    exact hlast false

theorem powerText_spec {A : Str} (hA : '^' ∉ A) (e : Exponent) (he : e.WellFormed) (r : Str) (hr : Stops r) :
    powerText (A ++ '^' :: (e.text ++ r)) = some e.text := by
  unfold powerText
  have hp : patPower = lits ['^'] ++ patPower.tail := rfl
  rw [hp, findFrom_lits_skip _ (noStart_head hA), ← hp, findFrom_match (matchHere_power e he r hr _)]
  have : ('^' :: (e.text ++ r)).length - r.length = ('^' :: e.text).length := by simp; omega
  rw [this]
  simp

theorem powerText_none {A : Str} (hA : '^' ∉ A) : powerText A = none := by
  unfold powerText
  have hp : patPower = lits ['^'] ++ patPower.tail := rfl
  rw [hp, findFrom_lits_none]
  · rfl
  · rintro ⟨s, t, h⟩
    exact hA (by rw [← h]; simp)

theorem parseFloat_exponent (e : Exponent) (he : e.WellFormed) : parseFloat e.text = some e.value := by
  obtain ⟨int, frac⟩ := e
  obtain ⟨h1, h2, h3⟩ := he
  simp only at h1 h2 h3
  have hu : parseUnsigned (Exponent.text ⟨int, frac⟩) = some (Exponent.value ⟨int, frac⟩) := by
    have hs : ∀ c ∈ (fracText frac).head?, c.isDigit = false := by
      cases frac with
      | none => simp [fracText]
      | some f => simp [fracText]
    unfold parseUnsigned Exponent.text Exponent.value
    simp only
    rw [takeWhile_append_stop h2 hs, dropWhile_append_stop h2 hs]
    cases frac with
    | none => simp [h1, fracText, fracValue]
    | some f =>
      have : f.all Char.isDigit = true := List.all_eq_true.mpr (h3 f rfl)
      simp [this, h1, fracText, fracValue]
  cases int with
  | nil => exact absurd rfl h1
  | cons d int =>
    have hd := h2 d (by simp)
    have e1 : d ≠ '-' := digit_ne hd (by decide)
    have e2 : d ≠ '+' := digit_ne hd (by decide)
    rw [← hu]
    unfold parseFloat Exponent.text
    simp only [List.cons_append]
    split
    · rename_i h; simp only [List.cons.injEq] at h; exact absurd h.1 e1
    · rename_i h; simp only [List.cons.injEq] at h; exact absurd h.1 e2
    · rfl

/-- The power of a text `name^power`. -/
theorem getPower_spec {A : Str} (hA : '^' ∉ A) (e : Option Exponent) (he : ∀ x ∈ e, x.WellFormed) (r : Str)
    (hr : Stops r) (hr2 : '^' ∉ r) : getPower (A ++ Spec.powerText e ++ r) =
      some (Factor.power ⟨A, e⟩) := by
  unfold getPower Factor.power
  cases e with
  | none =>
    rw [powerText_none]
    simp [Spec.powerText, hA, hr2]
  | some e =>
    have : A ++ Spec.powerText (some e) ++ r = A ++ '^' :: (e.text ++ r) := by simp [Spec.powerText]
    rw [this, powerText_spec hA e (he e rfl) r hr]
    exact parseFloat_exponent e (he e rfl)

end Gopf.Pf
