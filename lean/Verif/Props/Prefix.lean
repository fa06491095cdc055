import Verif.Model.Prefix
import Mathlib.Tactic.Ring

/-!
# C15: operator prefixes
-/

namespace Gopf.Props
open Pf

private theorem loops (str : Str) : ∀ (m : ℕ) (ps : List Str), ps.length ≤ m →
    (∀ s' : Str, s'.length < str.length → ∀ ps', (getPrefixesLoop ps' s').flatten ++
      recursiveRemove ps' s' = s') →
    (getPrefixesLoop ps str).flatten ++ recursiveRemove ps str = str := by
  intro m
  induction m with
  | zero =>
    intro ps h _
    obtain rfl : ps = [] := List.length_eq_zero_iff.mp (by omega)
    rw [getPrefixesLoop, recursiveRemove]; simp
  | succ m ih =>
    intro ps h hrec
    cases ps with
    | nil => rw [getPrefixesLoop, recursiveRemove]; simp
    | cons p ps =>
      rw [getPrefixesLoop, recursiveRemove]
      split_ifs with hc
      · obtain ⟨h1, h2⟩ := hc
        have h3 := List.isPrefixOf_iff_prefix.mp h1
        have h4 : 0 < p.length := List.length_pos_iff.mpr h2
        have h5 := h3.length_le
        rw [List.flatten_cons, List.append_assoc, hrec _ (by rw [List.length_drop]; omega)]
        exact List.prefix_iff_eq_append.mp h3
      · exact ih ps (by simpa using h) hrec

private theorem lossless : ∀ (k : ℕ) (str : Str), str.length ≤ k → ∀ ps : List Str,
    (getPrefixesLoop ps str).flatten ++ recursiveRemove ps str = str := by
  intro k
  induction k with
  | zero =>
    intro str h ps
    exact loops str ps.length ps le_rfl (fun s' hs' => by omega)
  | succ k ih =>
    intro str h ps
    exact loops str ps.length ps le_rfl (fun s' hs' ps' => ih s' (by omega) ps')

/-- C15: the recognised prefixes followed by the remaining name are the text. -/
theorem c15_lossless (str : Str) :
    (getKnownPrefixes str).flatten ++ removeKnownPrefixes str = str :=
  lossless str.length str le_rfl knownPrefixes

private theorem known (str : Str) : ∀ (k : ℕ) (str : Str), str.length ≤ k → ∀ ps : List Str,
    (∀ p ∈ ps, p ∈ knownPrefixes) → ∀ p ∈ getPrefixesLoop ps str, p ∈ knownPrefixes := by
  intro k
  induction k with
  | zero =>
    intro str h ps hps
    obtain rfl : str = [] := List.length_eq_zero_iff.mp (by omega)
    induction ps with
    | nil => rw [getPrefixesLoop]; simp
    | cons p ps ihp =>
      rw [getPrefixesLoop]
      split_ifs with hc
      · obtain ⟨h1, h2⟩ := hc
        have := (List.isPrefixOf_iff_prefix.mp h1).length_le
        exact absurd (List.length_eq_zero_iff.mp (by simpa using this)) h2
      · exact ihp (fun p hp => hps p (by simp [hp]))
  | succ k ih =>
    intro str h ps hps
    induction ps with
    | nil => rw [getPrefixesLoop]; simp
    | cons p ps ihp =>
      rw [getPrefixesLoop]
      split_ifs with hc
      · obtain ⟨h1, h2⟩ := hc
        have h5 := (List.isPrefixOf_iff_prefix.mp h1).length_le
        have h4 : 0 < p.length := List.length_pos_iff.mpr h2
        intro q hq
        rcases List.mem_cons.mp hq with rfl | hq
        · exact hps q (by simp)
        · exact ih (str.drop p.length) (by rw [List.length_drop]; omega) knownPrefixes
            (fun p hp => hp) q hq
      · exact ihp (fun p hp => hps p (by simp [hp]))

/-- The five operator prefixes. -/
def operatorPrefixes : List String := ["-", "LAP^4", "LAP^2", "LAP", "*"]

/-- C15: only operator prefixes are recognised, and the remaining name starts with none of them. -/
theorem c15_complete (str : Str) :
    (∀ p ∈ getKnownPrefixes str, p ∈ operatorPrefixes.map String.toList) ∧
      ∀ p ∈ operatorPrefixes, ¬ p.toList <+: removeKnownPrefixes str := by
  have hk : knownPrefixes = operatorPrefixes.map String.toList := rfl
  constructor
  · rw [← hk]
    exact known str str.length str le_rfl knownPrefixes (fun p hp => hp)
  · have key : ∀ (k : ℕ) (str : Str), str.length ≤ k → ∀ (ps qs : List Str),
        (∀ p ∈ knownPrefixes, p ∈ qs ∨ p ∈ ps) → (∀ p ∈ qs, ¬ p <+: str) →
        ∀ p ∈ knownPrefixes, ¬ p <+: recursiveRemove ps str := by
      have hne : ∀ p ∈ knownPrefixes, p ≠ [] := by decide
      intro k
      induction k with
      | zero =>
        intro str h ps qs hcov hqs
        obtain rfl : str = [] := List.length_eq_zero_iff.mp (by omega)
        induction ps generalizing qs with
        | nil =>
          rw [recursiveRemove]
          intro p hp
          rcases hcov p hp with h | h
          · exact hqs p h
          · simp at h
        | cons p ps ihp =>
          rw [recursiveRemove]
          split_ifs with hc
          · obtain ⟨h1, h2⟩ := hc
            have := (List.isPrefixOf_iff_prefix.mp h1).length_le
            exact absurd (List.length_eq_zero_iff.mp (by simpa using this)) h2
          · intro q hq hpre
            have : q = [] := by
              have := ihp knownPrefixes (fun p hp => Or.inl hp) (fun p hp hpre =>
                hne p hp (List.prefix_nil.mp hpre)) q hq hpre
              exact this.elim
            exact hne q hq this
      | succ k ih =>
        intro str h ps qs hcov hqs
        induction ps generalizing qs with
        | nil =>
          rw [recursiveRemove]
          intro p hp
          rcases hcov p hp with h | h
          · exact hqs p h
          · simp at h
        | cons p ps ihp =>
          rw [recursiveRemove]
          split_ifs with hc
          · obtain ⟨h1, h2⟩ := hc
            have h5 := (List.isPrefixOf_iff_prefix.mp h1).length_le
            have h4 : 0 < p.length := List.length_pos_iff.mpr h2
            exact ih (str.drop p.length) (by rw [List.length_drop]; omega) knownPrefixes []
              (fun p hp => Or.inr hp) (by simp)
          · by_cases hp0 : p = []
            · refine ihp qs ?_ hqs
              intro q hq
              rcases hcov q hq with h | h
              · exact Or.inl h
              · rcases List.mem_cons.mp h with rfl | h
                · exact absurd hp0 (hne _ hq)
                · exact Or.inr h
            · have hnp : ¬ p <+: str := fun hpre =>
                hc ⟨List.isPrefixOf_iff_prefix.mpr hpre, hp0⟩
              refine ihp (p :: qs) ?_ ?_
              · intro q hq
                rcases hcov q hq with h | h
                · exact Or.inl (by simp [h])
                · rcases List.mem_cons.mp h with rfl | h
                  · exact Or.inl (by simp)
                  · exact Or.inr h
              · intro q hq
                rcases List.mem_cons.mp hq with rfl | hq
                · exact hnp
                · exact hqs q hq
    intro p hp
    exact key str.length str le_rfl knownPrefixes [] (fun p hp => Or.inr hp) (by simp) p.toList
      (by rw [hk]; exact List.mem_map_of_mem hp)

example : getKnownPrefixes "-LAP^2*LAP*TERM".toList =
    ["-".toList, "LAP^2".toList, "*".toList, "LAP".toList, "*".toList] ∧
    removeKnownPrefixes "-LAP^2*LAP*TERM".toList = "TERM".toList := by
  have h := c15_lossless "-LAP^2*LAP*TERM".toList
  constructor
  · simp [getKnownPrefixes, getPrefixesLoop, knownPrefixes]
  · simp [removeKnownPrefixes, recursiveRemove, knownPrefixes]

/-- Fourier symbol of the Laplacian at a frequency. -/
noncomputable def laplaceSymbol (f : List ℝ) : ℂ := -(4 * Real.pi ^ 2 * (f.map fun x => x ^ 2).sum : ℝ)

/-- What a prefix means as a multiplier: a minus sign or a power of the Laplacian; anything else
(`*`, `+`, an absent sign) means nothing. -/
noncomputable def prefixSymbol (p : Str) (f : List ℝ) : ℂ :=
  if p = "-".toList then -1
  else if p = "LAP".toList then laplaceSymbol f
  else if p = "LAP^2".toList then laplaceSymbol f ^ 2
  else if p = "LAP^4".toList then laplaceSymbol f ^ 4
  else 1

theorem lapFactor_eq (f : List ℝ) (k : ℕ) : lapFactor (k : ℤ) f = laplaceSymbol f ^ k := by
  have hs : 0 ≤ (f.map fun x => x ^ 2).sum := by
    apply List.sum_nonneg
    intro y hy
    obtain ⟨x, -, rfl⟩ := List.mem_map.mp hy
    positivity
  unfold lapFactor laplaceSymbol norm2
  rw [mul_pow, Real.sq_sqrt hs, zpow_natCast]
  push_cast
  congr 1
  ring

/-- C15: wrapping a term multiplies it by the product of the meanings of the prefixes. -/
theorem c15_meaning {n : ℕ} (prefixes : List Str) (term : Term n) (freq : Frequency n) (t : ℝ)
    (i : Fin n) :
    constructFunc term prefixes freq t i =
      (prefixes.map fun p => prefixSymbol p (freq i)).prod * term freq t i := by
  induction prefixes generalizing term with
  | nil => simp [constructFunc]
  | cons p ps ih =>
    rw [constructFunc, ih, List.map_cons, List.prod_cons]
    have h1 := lapFactor_eq (freq i) 1
    have h2 := lapFactor_eq (freq i) 2
    have h4 := lapFactor_eq (freq i) 4
    norm_num at h1 h2 h4
    by_cases e1 : p = "-".toList
    · subst e1; simp [prefixSymbol, flipSign]
    · by_cases e4 : p = "LAP^4".toList
      · subst e4; simp [prefixSymbol, lapEval, h4]; ring
      · by_cases e2 : p = "LAP^2".toList
        · subst e2; simp [prefixSymbol, lapEval, h2]; ring
        · by_cases e3 : p = "LAP".toList
          · subst e3; simp [prefixSymbol, lapEval, h1]; ring
          · simp only [e1, e2, e3, e4, if_false, prefixSymbol, one_mul]

end Gopf.Props
