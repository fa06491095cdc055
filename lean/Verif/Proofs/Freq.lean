import Verif.Model.Freq
import Verif.Proofs.Index
import Mathlib.Tactic.FieldSimp
import Mathlib.Tactic.Positivity
import Mathlib.Tactic.NormNum
import Mathlib.Algebra.Order.Field.Basic
import Mathlib.Tactic.LinearCombination

namespace Gopf.Pfutil
open Spec

/-- Position of the conjugate node. -/
def conjPos (dims p : List Int) : List Int := List.zipWith (fun x d => (d - x) % d) p dims

/-- Frequency of one coordinate. -/
def phi (x d : Int) : ℚ := foldFreq ((x : ℚ) / d)

theorem freq_eq {dims : List Int} (h : GoodDims dims) {i : Int} (hi : 0 ≤ i)
    (hi' : i < numNodes dims) {p : List Int} (hp : pos dims i = some p) :
    freq dims i = some (List.zipWith phi p dims) := by
  rcases goodDims_cases h with ⟨d0, d1, rfl, p0, p1⟩ | ⟨d0, d1, d2, rfl, p0, p1, p2⟩
  · simp only [pos, pos2_eq p1 hi, Option.some.injEq] at hp
    subst hp
    simp only [numNodes, List.prod_cons, List.prod_nil, mul_one] at hi'
    have h1 : i / d1 % d0 = i / d1 := Int.emod_eq_of_lt (Int.ediv_nonneg hi p1.le)
      (Int.ediv_lt_of_lt_mul p1 hi')
    simp [freq, thirdFreq, col, row, goMod_pos hi p1, goDiv_pos hi p1, goMod_pos (Int.ediv_nonneg hi p1.le) p0,
      h1, phi]
  · simp only [pos, pos3_eq p0 p1 hi, Option.some.injEq] at hp
    subst hp
    simp [freq, thirdFreq, col, row, depth, goMod_pos hi p1, goDiv_pos hi p1,
      goMod_pos (Int.ediv_nonneg hi p1.le) p0, goDiv_pos hi (mul_pos p0 p1), phi]

theorem conjugateNode_eq {dims : List Int} (h : GoodDims dims) {i : Int} (hi : 0 ≤ i)
    (hi' : i < numNodes dims) {p : List Int} (hp : pos dims i = some p) :
    conjugateNode dims i = nodeIdx dims (conjPos dims p) := by
  obtain ⟨p', hp', hb, -⟩ := pos_spec h hi hi'
  rw [hp] at hp'
  obtain rfl : p = p' := by simpa using hp'
  rcases goodDims_cases h with ⟨d0, d1, rfl, p0, p1⟩ | ⟨d0, d1, d2, rfl, p0, p1, p2⟩
  · simp only [pos, pos2_eq p1 hi, Option.some.injEq] at hp
    subst hp
    obtain ⟨a, b, hab, ha, ha', hb, hb'⟩ := inBox2 hb
    obtain ⟨rfl, rfl⟩ : i / d1 = a ∧ i % d1 = b := by simpa using hab
    have h1 : i / d1 % d0 = i / d1 := Int.emod_eq_of_lt ha ha'
    simp [conjugateNode, conjDepth, col, row, goMod_pos hi p1, goDiv_pos hi p1, goMod_pos ha p0, h1,
      goMod_pos (by omega : 0 ≤ d0 - i / d1) p0, goMod_pos (by omega : 0 ≤ d1 - i % d1) p1,
      nodeIdx, nodeIdx2, conjPos]
  · simp only [pos, pos3_eq p0 p1 hi, Option.some.injEq] at hp
    subst hp
    obtain ⟨a, b, c, hab, ha, ha', hb, hb', hc, hc'⟩ := inBox3 hb
    simp only [List.cons.injEq, and_true] at hab
    obtain ⟨ea, eb, ec⟩ := hab
    have q0 : 0 ≤ i / d1 := Int.ediv_nonneg hi p1.le
    simp [conjugateNode, conjDepth, col, row, depth, goMod_pos hi p1, goDiv_pos hi p1, goMod_pos q0 p0,
      goDiv_pos hi (mul_pos p0 p1), ea, eb, ec,
      goMod_pos (by omega : 0 ≤ d0 - a) p0, goMod_pos (by omega : 0 ≤ d1 - b) p1,
      goMod_pos (by omega : 0 ≤ d2 - c) p2, nodeIdx, nodeIdx3, conjPos]

/-- One coordinate of the conjugate position. -/
theorem conj1 {x d : Int} (h0 : 0 ≤ x) (h1 : x < d) :
    (x = 0 ∧ (d - x) % d = 0) ∨ (0 < x ∧ (d - x) % d = d - x) := by
  rcases h0.lt_or_eq with h | rfl
  · right; exact ⟨h, Int.emod_eq_of_lt (by omega) (by omega)⟩
  · left; simp

theorem conjPos_inBox : ∀ {dims p : List Int}, InBox dims p → InBox dims (conjPos dims p)
  | [], [], _ => .nil
  | d :: ds, x :: p, h => by
    cases h with
    | cons h1 h2 =>
      refine .cons ?_ (conjPos_inBox h2)
      show 0 ≤ (d - x) % d ∧ (d - x) % d < d
      rcases conj1 h1.1 h1.2 with ⟨a, b⟩ | ⟨a, b⟩ <;> omega

theorem conjPos_conjPos : ∀ {dims p : List Int}, InBox dims p → conjPos dims (conjPos dims p) = p
  | [], [], _ => rfl
  | d :: ds, x :: p, h => by
    cases h with
    | cons h1 h2 =>
      have ih := conjPos_conjPos h2
      simp only [conjPos, List.zipWith_cons_cons, List.cons.injEq] at ih ⊢
      refine ⟨?_, ih⟩
      rcases conj1 h1.1 h1.2 with ⟨a, b⟩ | ⟨a, b⟩
      · rw [b, a]; simp
      · rw [b, Int.emod_eq_of_lt (by omega) (by omega)]; omega

theorem conjugateNode_spec {dims : List Int} (h : GoodDims dims) {i : Int} (hi : 0 ≤ i)
    (hi' : i < numNodes dims) :
    ∃ p j, pos dims i = some p ∧ InBox dims p ∧ conjugateNode dims i = some j ∧ 0 ≤ j ∧
      j < numNodes dims ∧ pos dims j = some (conjPos dims p) ∧ conjugateNode dims j = some i := by
  obtain ⟨p, hp, hb, hn⟩ := pos_spec h hi hi'
  obtain ⟨j, hj, j0, j1, hpj⟩ := nodeIdx_spec h (conjPos_inBox hb)
  refine ⟨p, j, hp, hb, by rw [conjugateNode_eq h hi hi' hp, hj], j0, j1, hpj, ?_⟩
  rw [conjugateNode_eq h j0 j1 hpj, conjPos_conjPos hb, hn]

theorem phi_range {x d : Int} (h0 : 0 ≤ x) (h1 : x < d) : -(1/2) < phi x d ∧ phi x d ≤ 1/2 := by
  have hd : (0:ℚ) < d := by exact_mod_cast lt_of_le_of_lt h0 h1
  have hx : (0:ℚ) ≤ x := by exact_mod_cast h0
  have hxd : (x:ℚ) / d < 1 := by rw [div_lt_one hd]; exact_mod_cast h1
  have h2 : (0:ℚ) ≤ (x:ℚ) / d := by positivity
  unfold phi foldFreq
  split_ifs with h <;> constructor <;> linarith

theorem phi_int (x d : Int) : ∃ k : Int, phi x d = (x:ℚ) / d + k := by
  unfold phi foldFreq
  split_ifs
  · exact ⟨-1, by push_cast; ring⟩
  · exact ⟨0, by simp⟩

theorem phi_zero (d : Int) : phi 0 d = 0 := by simp [phi, foldFreq]

theorem phi_half {x d : Int} (hd : 0 < d) (h : 2 * x = d) : phi x d = 1/2 := by
  have : (x:ℚ) / d = 1/2 := by
    have : (d:ℚ) = 2 * x := by exact_mod_cast h.symm
    have hx : (x:ℚ) ≠ 0 := by have : 0 < x := by omega
                              exact_mod_cast this.ne'
    rw [this]; field_simp
  simp [phi, foldFreq, this]

/-- Below half: the frequency is `x/d`, at least `1/d` and at most `1/2 - 1/(2d)`. -/
theorem phi_low {x d : Int} (h0 : 0 < x) (h : 2 * x < d) :
    1 / (d:ℚ) ≤ phi x d ∧ phi x d ≤ 1/2 - 1/(2*d) := by
  have hd : (0:ℚ) < d := by exact_mod_cast (by omega : 0 < d)
  have h1 : (1:ℚ) ≤ x := by exact_mod_cast h0
  have h2 : 2 * (x:ℚ) + 1 ≤ d := by exact_mod_cast h
  have e : (x:ℚ)/d ≤ 1/2 - 1/(2*d) := by
    rw [div_le_iff₀ hd]; field_simp; linarith
  have : (0:ℚ) < 1/(2*d) := by positivity
  have hphi : phi x d = x / d := by unfold phi foldFreq; rw [if_neg]; linarith
  rw [hphi]
  exact ⟨by gcongr, e⟩

theorem phi_high {x d : Int} (h0 : d < 2 * x) (h : x < d) : phi x d = -phi (d - x) d := by
  have hd : (0:ℚ) < d := by exact_mod_cast (by omega : 0 < d)
  have h1 : (d:ℚ) < 2 * x := by exact_mod_cast h0
  have h3 : (x:ℚ) < d := by exact_mod_cast h
  have e1 : (x:ℚ)/d > 1/2 := by rw [gt_iff_lt, lt_div_iff₀ hd]; linarith
  have e3 : (((d - x : Int) : ℚ))/d = 1 - x/d := by push_cast; field_simp
  unfold phi foldFreq
  rw [e3, if_pos e1, if_neg (by linarith)]; ring

/-- The frequency of the conjugate coordinate is the negated frequency, except at one half. -/
theorem phi_conj {x d : Int} (h0 : 0 ≤ x) (h1 : x < d) :
    phi ((d - x) % d) d = -phi x d ∨ (2 * x = d ∧ phi ((d - x) % d) d = -phi x d + 1) := by
  rcases conj1 h0 h1 with ⟨rfl, b⟩ | ⟨a, b⟩
  · left; rw [b, phi_zero]; simp
  · rw [b]
    rcases lt_trichotomy (2 * x) d with h | h | h
    · left
      rw [phi_high (by omega) (by omega)]
      congr 2; omega
    · right
      refine ⟨h, ?_⟩
      rw [phi_half (by omega) h, phi_half (by omega) (by omega)]; norm_num
    · left
      rw [phi_high h h1]; simp

end Gopf.Pfutil

namespace Gopf.Pf
open Pfutil Spec

/-- Classification of one coordinate by the tolerances. -/
theorem comp_class {x d : Int} (h0 : 0 ≤ x) (h1 : x < d) (hd : d ≤ 10 ^ 9) :
    ((|phi x d| < freqTol ∨ |phi x d| > 1/2 - freqTol) ↔ (d - x) % d = x) ∧
    ((d - x) % d = x → phi x d > -freqTol) ∧
    ((d - x) % d ≠ x → (phi x d > -freqTol ↔ ¬ phi ((d - x) % d) d > -freqTol)) := by
  have hdq : (0:ℚ) < d := by exact_mod_cast lt_of_le_of_lt h0 h1
  have hdq' : (d:ℚ) ≤ 10 ^ 9 := by exact_mod_cast hd
  have t1 : freqTol < 1 / (d:ℚ) := by
    unfold freqTol
    rw [lt_div_iff₀ hdq]
    linarith
  have t2 : freqTol < 1 / (2 * (d:ℚ)) := by
    unfold freqTol
    rw [lt_div_iff₀ (by positivity)]
    linarith
  have t0 : (0:ℚ) < freqTol := by unfold freqTol; norm_num
  have t3 : freqTol < 1/4 := by unfold freqTol; norm_num
  rcases conj1 h0 h1 with ⟨rfl, b⟩ | ⟨a, b⟩
  · rw [b, phi_zero]
    refine ⟨by simp [t0], by simp [t0], by simp⟩
  · rw [b]
    rcases lt_trichotomy (2 * x) d with h | h | h
    · have hne : d - x ≠ x := by omega
      obtain ⟨l1, l2⟩ := phi_low a h
      have hp : 0 < phi x d := lt_of_lt_of_le (by positivity) l1
      refine ⟨?_, fun e => absurd e hne, fun _ => ?_⟩
      · rw [abs_of_pos hp]
        constructor
        · rintro (h | h) <;> linarith
        · intro e; exact absurd e hne
      · rw [phi_high (x := d - x) (by omega) (by omega)]
        have : d - (d - x) = x := by omega
        rw [this]
        constructor
        · intro _; linarith
        · intro _; linarith
    · have e : d - x = x := by omega
      rw [e, phi_half (by omega) h]
      refine ⟨?_, fun _ => by linarith, by simp⟩
      simp only [iff_true]
      right
      norm_num [abs_of_pos]
      linarith
    · have hne : d - x ≠ x := by omega
      obtain ⟨l1, l2⟩ := phi_low (x := d - x) (d := d) (by omega) (by omega)
      have hp : 0 < phi (d - x) d := lt_of_lt_of_le (by positivity) l1
      rw [phi_high h h1]
      refine ⟨?_, fun e => absurd e hne, fun _ => ?_⟩
      · rw [abs_neg, abs_of_pos hp]
        constructor
        · rintro (h | h) <;> linarith
        · intro e; exact absurd e hne
      · constructor
        · intro _; linarith
        · intro _; linarith

/-- Recursion of `includeFreq` on a frequency and on the conjugate frequency. -/
theorem includeFreq_pair (f g : List ℚ) (self : Nat → Prop) (n : Nat) (hf : f.length = n) (hg : g.length = n)
    (h : ∀ s (hs : s < n),
      ((|f[s]| < freqTol ∨ |f[s]| > 1/2 - freqTol) ↔ self s) ∧
      ((|g[s]| < freqTol ∨ |g[s]| > 1/2 - freqTol) ↔ self s) ∧
      (self s → f[s] > -freqTol) ∧ (self s → g[s] > -freqTol) ∧
      (¬ self s → (f[s] > -freqTol ↔ ¬ g[s] > -freqTol))) :
    ∀ s, s < n → ∃ a b, includeFreq f s = some a ∧ includeFreq g s = some b ∧
      (a = true ∨ b = true) ∧ (a = true → b = true → ∀ t ≤ s, self t) ∧
      ((∀ t ≤ s, self t) → a = true ∧ b = true)
  | 0, hs => by
    obtain ⟨-, -, h3, h4, h5⟩ := h 0 hs
    refine ⟨decide (f[0] > -freqTol), decide (g[0] > -freqTol), ?_, ?_, ?_, ?_, ?_⟩
    · simp [includeFreq, List.getElem?_eq_getElem (hf.symm ▸ hs : 0 < f.length)]
    · simp [includeFreq, List.getElem?_eq_getElem (hg.symm ▸ hs : 0 < g.length)]
    · by_cases hself : self 0
      · left; simpa using h3 hself
      · by_cases hg0 : g[0] > -freqTol
        · right; simpa using hg0
        · left; simpa using (h5 hself).mpr hg0
    · intro ha hb t ht
      obtain rfl : t = 0 := by omega
      by_contra hself
      exact ((h5 hself).mp (by simpa using ha)) (by simpa using hb)
    · intro hall
      exact ⟨by simpa using h3 (hall 0 le_rfl), by simpa using h4 (hall 0 le_rfl)⟩
  | s + 1, hs => by
    obtain ⟨h1, h2, h3, h4, h5⟩ := h (s + 1) hs
    have ef : f[s + 1]? = some f[s + 1] := List.getElem?_eq_getElem _
    have eg : g[s + 1]? = some g[s + 1] := List.getElem?_eq_getElem _
    by_cases hself : self (s + 1)
    · obtain ⟨a, b, ha, hb, hor, hand, hall⟩ := includeFreq_pair f g self n hf hg h s (by omega)
      refine ⟨a, b, ?_, ?_, hor, ?_, ?_⟩
      · simp only [includeFreq, ef, Option.bind_eq_bind, Option.bind_some]
        rw [if_pos (h1.mpr hself)]; exact ha
      · simp only [includeFreq, eg, Option.bind_eq_bind, Option.bind_some]
        rw [if_pos (h2.mpr hself)]; exact hb
      · intro ea eb t ht
        rcases Nat.lt_or_ge s t with hlt | hge
        · obtain rfl : t = s + 1 := by omega
          exact hself
        · exact hand ea eb t hge
      · intro h'; exact hall fun t ht => h' t (by omega)
    · refine ⟨decide (f[s+1] > -freqTol), decide (g[s+1] > -freqTol), ?_, ?_, ?_, ?_, ?_⟩
      · simp only [includeFreq, ef, Option.bind_eq_bind, Option.bind_some]
        rw [if_neg (fun c => hself (h1.mp c))]; rfl
      · simp only [includeFreq, eg, Option.bind_eq_bind, Option.bind_some]
        rw [if_neg (fun c => hself (h2.mp c))]; rfl
      · by_cases hg0 : g[s+1] > -freqTol
        · right; simpa using hg0
        · left; simpa using (h5 hself).mpr hg0
      · intro ha hb
        exact absurd (by simpa using hb) ((h5 hself).mp (by simpa using ha))
      · intro h'; exact absurd (h' (s + 1) le_rfl) hself

/-- The loop finds the first accepted index at or after `i`. -/
theorem iterLoop_spec (fr : Nat → Option (List ℚ)) (test : List ℚ → Option Bool) (acc : Nat → Bool)
    (start : Nat) : ∀ (n i : Nat), (∀ j, i ≤ j → j < i + n → (fr j).bind test = some (acc j)) →
    iterLoop fr test start n i =
      some (match ((List.range' i n).filter acc) with
        | [] => (-1, start)
        | j :: _ => ((j : Int), j + 1))
  | 0, i, _ => by simp [iterLoop]
  | n + 1, i, h => by
    have hi := h i le_rfl (by omega)
    obtain ⟨f, hf, ht⟩ := Option.bind_eq_some_iff.mp hi
    have ih := iterLoop_spec fr test acc start n (i + 1) (fun j h1 h2 => h j (by omega) (by omega))
    simp only [iterLoop, hf, ht, Option.bind_eq_bind, Option.bind_some, List.range'_succ]
    cases ha : acc i with
    | true => simp [ha]
    | false => simp [ha, ih]

theorem iterCalls_spec (fr : Nat → Option (List ℚ)) (test : List ℚ → Option Bool) (acc : Nat → Bool)
    (fin : Nat) (h : ∀ j, j < fin → (fr j).bind test = some (acc j)) :
    ∀ (k next : Nat), iterCalls fr test fin k next =
      some ((((List.range' next (fin - next)).filter acc).map Int.ofNat ++
        List.replicate k (-1)).take k)
  | 0, next => by simp [iterCalls]
  | k + 1, next => by
    have hl := iterLoop_spec fr test acc next (fin - next) next (fun j _ h2 => h j (by omega))
    simp only [iterCalls, iterNext, hl, Option.bind_eq_bind, Option.bind_some]
    cases hfil : (List.range' next (fin - next)).filter acc with
    | nil =>
      simp only []
      rw [iterCalls_spec fr test acc fin h k next, hfil]
      simp [List.replicate_succ]
    | cons j l =>
      simp only []
      rw [iterCalls_spec fr test acc fin h k (j + 1)]
      -- the accepted indices after `j` are the tail
      have htail : (List.range' (j + 1) (fin - (j + 1))).filter acc = l := by
        have hj : j ∈ (List.range' next (fin - next)).filter acc := by rw [hfil]; simp
        rw [List.mem_filter, List.mem_range'_1] at hj
        obtain ⟨⟨hj1, hj2⟩, hja⟩ := hj
        have hsplit : List.range' next (fin - next) =
            List.range' next (j - next) ++ j :: List.range' (j + 1) (fin - (j + 1)) := by
          rw [show fin - next = (j - next) + (1 + (fin - (j + 1))) by omega, ← List.range'_append_1,
            ← List.range'_append_1]
          rw [show next + (j - next) = j by omega]
          simp
        rw [hsplit, List.filter_append, List.filter_cons_of_pos (by simpa using hja)] at hfil
        have hnil : (List.range' next (j - next)).filter acc = [] := by
          cases hc : (List.range' next (j - next)).filter acc with
          | nil => rfl
          | cons a as =>
            rw [hc] at hfil
            simp only [List.cons_append, List.cons.injEq] at hfil
            have : a ∈ (List.range' next (j - next)).filter acc := by rw [hc]; simp
            rw [List.mem_filter, List.mem_range'_1] at this
            omega
        rw [hnil] at hfil
        simpa using hfil
      rw [htail]
      simp [List.take_append, List.take_replicate, List.replicate_succ']

end Gopf.Pf
