import Verif.Model.Filter
import Mathlib.Analysis.SpecialFunctions.Gamma.Beta
import Mathlib.MeasureTheory.Integral.IntervalIntegral.TrapezoidalRule
import Mathlib.Tactic.Linarith
import Mathlib.Tactic.FieldSimp
import Mathlib.Tactic.Positivity
import Mathlib.Tactic.NormNum
import Mathlib.Tactic.Ring

/-!
# C75: the Vandeven filter
-/

namespace Gopf.Props
open Pf Pfutil

/-- The integrand of the filter. -/
private noncomputable def bump (m : ℕ) (x : ℝ) : ℝ := (x * (1 - x)) ^ m

private noncomputable def pref (m : ℕ) : ℝ :=
  Real.Gamma ((2 * (m + 1) : ℕ) : ℝ) / (Real.Gamma ((m + 1 : ℕ) : ℝ) * Real.Gamma ((m + 1 : ℕ) : ℝ))

private theorem pref_pos (m : ℕ) : 0 < pref m := by
  unfold pref
  have h1 : 0 < Real.Gamma ((2 * (m + 1) : ℕ) : ℝ) := Real.Gamma_pos_of_pos (by positivity)
  have h2 : 0 < Real.Gamma ((m + 1 : ℕ) : ℝ) := Real.Gamma_pos_of_pos (by positivity)
  positivity

private theorem entry_succ (m i : ℕ) : vandevenEntry (m + 1) (i + 1) = vandevenEntry (m + 1) i -
    pref m / 2 * (bump m ((i : ℝ) / 999) + bump m (((i + 1 : ℕ) : ℝ) / 999)) / 999 := by
  rw [vandevenEntry]
  simp only [Nat.add_sub_cancel]
  have e1 : ((i + 1 : ℕ) : ℝ) * (1 / 999) = ((i + 1 : ℕ) : ℝ) / 999 := by ring
  have e2 : ((i + 1 : ℕ) : ℝ) / 999 - 1 / 999 = (i : ℝ) / 999 := by push_cast; ring
  rw [e1, e2]
  unfold bump pref
  ring

private theorem bump_nonneg (m : ℕ) {x : ℝ} (h0 : 0 ≤ x) (h1 : x ≤ 1) : 0 ≤ bump m x :=
  pow_nonneg (mul_nonneg h0 (by linarith)) m

private theorem node_range {i : ℕ} (h : i ≤ 999) : (0 : ℝ) ≤ (i : ℝ) / 999 ∧ (i : ℝ) / 999 ≤ 1 := by
  have : (i : ℝ) ≤ 999 := by exact_mod_cast h
  constructor
  · positivity
  · rw [div_le_one (by norm_num)]; exact this

private theorem entry_le (m : ℕ) {i : ℕ} (h : i < 999) :
    vandevenEntry (m + 1) (i + 1) ≤ vandevenEntry (m + 1) i := by
  rw [entry_succ]
  have h1 := bump_nonneg m (node_range h.le).1 (node_range h.le).2
  have h2 := bump_nonneg m (node_range (Nat.succ_le_of_lt h)).1 (node_range (Nat.succ_le_of_lt h)).2
  have h3 := pref_pos m
  have : 0 ≤ pref m / 2 * (bump m ((i : ℝ) / 999) + bump m (((i + 1 : ℕ) : ℝ) / 999)) / 999 := by
    positivity
  linarith

private theorem entry_antitone (m : ℕ) {i j : ℕ} (hij : i ≤ j) (hj : j ≤ 999) :
    vandevenEntry (m + 1) j ≤ vandevenEntry (m + 1) i := by
  induction j with
  | zero => obtain rfl : i = 0 := by omega
            exact le_rfl
  | succ j ih =>
    rcases Nat.lt_or_ge i (j + 1) with h | h
    · exact (entry_le m (by omega)).trans (ih (by omega) (by omega))
    · obtain rfl : i = j + 1 := by omega
      exact le_rfl

private theorem bump_symm (m : ℕ) (x : ℝ) : bump m (1 - x) = bump m x := by
  unfold bump; congr 1; ring

private theorem entry_symm (m : ℕ) : ∀ i : ℕ, i ≤ 999 →
    vandevenEntry (m + 1) i + vandevenEntry (m + 1) (999 - i) = 1 + vandevenEntry (m + 1) 999 := by
  intro i
  induction i with
  | zero => intro _; rfl
  | succ i ih =>
    intro h
    have ih := ih (by omega)
    obtain ⟨j, hj⟩ : ∃ j, 999 - i = j + 1 := ⟨998 - i, by omega⟩
    have hj' : 999 - (i + 1) = j := by omega
    rw [hj, entry_succ] at ih
    rw [hj', entry_succ]
    have e : ((i : ℝ) + j + 1) = 999 := by
      have : i + j + 1 = 999 := by omega
      exact_mod_cast this
    have e1 : (j : ℝ) / 999 = 1 - ((i + 1 : ℕ) : ℝ) / 999 := by
      push_cast; field_simp; linarith
    have e2 : ((j + 1 : ℕ) : ℝ) / 999 = 1 - (i : ℝ) / 999 := by
      push_cast; field_simp; linarith
    rw [e1, e2, bump_symm, bump_symm] at ih
    linarith

/-! ## The evaluation -/

private theorem table_get (m : ℕ) {i : ℕ} (h : i < 1000) :
    (newVandeven (m + 1))[i]? = some (vandevenEntry (m + 1) i) := by
  simp [newVandeven, h]

private theorem table_length (m : ℕ) : (newVandeven (m + 1)).length = 1000 := by
  simp [newVandeven]

private theorem eval_inside (m : ℕ) {x : ℝ} {i : ℕ} (hi : i < 999) (h1 : (i : ℝ) ≤ x * 999)
    (h2 : x * 999 < i + 1) :
    vandevenEval (newVandeven (m + 1)) x = some (vandevenEntry (m + 1) i + (x - i / 999) *
      (vandevenEntry (m + 1) (i + 1) - vandevenEntry (m + 1) i) * 999) := by
  have ht : truncInt (x * 999) = (i : ℤ) := by
    unfold truncInt
    rw [if_pos ((Nat.cast_nonneg i).trans h1)]
    rw [Int.floor_eq_iff]
    exact ⟨by exact_mod_cast h1, by exact_mod_cast h2⟩
  unfold vandevenEval
  rw [table_length]
  norm_num
  rw [ht, if_neg (by omega), if_neg (by omega)]
  simp only [Int.toNat_natCast]
  rw [table_get m (by omega), table_get m (by omega)]
  simp only [Option.bind_some, Option.some.injEq, Int.cast_natCast]
  ring

private theorem eval_beyond (m : ℕ) {x : ℝ} (hx : 1 ≤ x) :
    vandevenEval (newVandeven (m + 1)) x = some (vandevenEntry (m + 1) 999) := by
  have ht : 999 ≤ truncInt (x * 999) := by
    unfold truncInt
    rw [if_pos (by linarith)]
    rw [Int.le_floor]
    push_cast; linarith
  unfold vandevenEval
  rw [table_length]
  norm_num
  rw [if_pos ht]
  exact table_get m (by norm_num)

/-- Every point of `[0, 1)` lies between two nodes. -/
private theorem node_of {x : ℝ} (h0 : 0 ≤ x) (h1 : x < 1) :
    ∃ i : ℕ, i < 999 ∧ (i : ℝ) ≤ x * 999 ∧ x * 999 < i + 1 := by
  refine ⟨⌊x * 999⌋₊, ?_, Nat.floor_le (by linarith), Nat.lt_floor_add_one _⟩
  rw [Nat.floor_lt (by linarith)]
  push_cast; linarith

/-- The value at a node. -/
private theorem eval_node (m : ℕ) {i : ℕ} (h : i ≤ 999) :
    vandevenEval (newVandeven (m + 1)) ((i : ℝ) / 999) = some (vandevenEntry (m + 1) i) := by
  rcases Nat.lt_or_ge i 999 with h' | h'
  · rw [eval_inside m h' (by field_simp; exact le_rfl) (by field_simp; linarith)]
    simp
  · obtain rfl : i = 999 := by omega
    exact eval_beyond m (by norm_num)

/-- C75: the filter leaves the zero frequency alone. -/
theorem c75_start (order : ℕ) (ho : 0 < order) : vandevenEval (newVandeven order) 0 = some 1 := by
  obtain ⟨m, rfl⟩ : ∃ m, order = m + 1 := ⟨order - 1, by omega⟩
  have := eval_node m (i := 0) (by norm_num)
  simpa [vandevenEntry] using this

/-- C75: the filter is evaluated at every non-negative argument. -/
theorem c75_total (order : ℕ) (ho : 0 < order) (x : ℝ) (hx : 0 ≤ x) :
    ∃ v, vandevenEval (newVandeven order) x = some v := by
  obtain ⟨m, rfl⟩ : ∃ m, order = m + 1 := ⟨order - 1, by omega⟩
  rcases lt_or_ge x 1 with h | h
  · obtain ⟨i, hi, h1, h2⟩ := node_of hx h
    exact ⟨_, eval_inside m hi h1 h2⟩
  · exact ⟨_, eval_beyond m h⟩

/-- C75: beyond the cutoff the filter keeps its last value. -/
theorem c75_tail (order : ℕ) (ho : 0 < order) (x : ℝ) (hx : 1 ≤ x) :
    vandevenEval (newVandeven order) x = vandevenEval (newVandeven order) 1 := by
  obtain ⟨m, rfl⟩ : ∃ m, order = m + 1 := ⟨order - 1, by omega⟩
  rw [eval_beyond m hx, eval_beyond m le_rfl]

private theorem inside_bounds (m : ℕ) {x : ℝ} {i : ℕ} (hi : i < 999) (h1 : (i : ℝ) ≤ x * 999)
    (h2 : x * 999 < i + 1) {v : ℝ} (hv : vandevenEval (newVandeven (m + 1)) x = some v) :
    vandevenEntry (m + 1) (i + 1) ≤ v ∧ v ≤ vandevenEntry (m + 1) i := by
  rw [eval_inside m hi h1 h2, Option.some.injEq] at hv
  subst hv
  have h := entry_le m hi
  have ha : 0 ≤ (x - i / 999) * 999 := by field_simp; linarith
  have hb : (x - i / 999) * 999 ≤ 1 := by field_simp; linarith
  constructor
  · nlinarith
  · nlinarith

/-- C75: the filter never increases with the frequency. -/
theorem c75_antitone (order : ℕ) (ho : 0 < order) (x y : ℝ) (hx : 0 ≤ x) (hxy : x ≤ y) (a b : ℝ)
    (ha : vandevenEval (newVandeven order) x = some a)
    (hb : vandevenEval (newVandeven order) y = some b) : b ≤ a := by
  obtain ⟨m, rfl⟩ : ∃ m, order = m + 1 := ⟨order - 1, by omega⟩
  rcases lt_or_ge x 1 with h | h
  · obtain ⟨i, hi, h1, h2⟩ := node_of hx h
    have hai := inside_bounds m hi h1 h2 ha
    rcases lt_or_ge y 1 with h' | h'
    · obtain ⟨j, hj, h3, h4⟩ := node_of (hx.trans hxy) h'
      have hbj := inside_bounds m hj h3 h4 hb
      have hij : i ≤ j := by
        have : (i : ℝ) < j + 1 := by linarith
        have : i < j + 1 := by exact_mod_cast this
        omega
      rcases Nat.lt_or_ge i j with hlt | hge
      · exact hbj.2.trans ((entry_antitone m (Nat.succ_le_of_lt hlt) hj.le).trans hai.1)
      · obtain rfl : i = j := by omega
        rw [eval_inside m hi h1 h2, Option.some.injEq] at ha
        rw [eval_inside m hj h3 h4, Option.some.injEq] at hb
        subst ha hb
        have := entry_le m hi
        nlinarith
    · rw [eval_beyond m h', Option.some.injEq] at hb
      subst hb
      exact (entry_antitone m (Nat.succ_le_of_lt hi) le_rfl).trans hai.1
  · rw [eval_beyond m h, Option.some.injEq] at ha
    rw [eval_beyond m (h.trans hxy), Option.some.injEq] at hb
    rw [← ha, ← hb]

/-- C75: the filter is symmetric about the middle of its range. -/
theorem c75_symmetry (order : ℕ) (ho : 0 < order) (x : ℝ) (hx : 0 ≤ x) (hx1 : x ≤ 1) (a b c : ℝ)
    (ha : vandevenEval (newVandeven order) x = some a)
    (hb : vandevenEval (newVandeven order) (1 - x) = some b)
    (hc : vandevenEval (newVandeven order) 1 = some c) : a + b = 1 + c := by
  obtain ⟨m, rfl⟩ : ∃ m, order = m + 1 := ⟨order - 1, by omega⟩
  rw [eval_beyond m le_rfl, Option.some.injEq] at hc
  subst hc
  -- at a node
  have hnode : ∀ i : ℕ, i ≤ 999 → x * 999 = i → a + b = 1 + vandevenEntry (m + 1) 999 := by
    intro i hi he
    have e1 : x = (i : ℝ) / 999 := by field_simp; linarith
    have e2 : 1 - x = ((999 - i : ℕ) : ℝ) / 999 := by
      rw [Nat.cast_sub hi]; push_cast; field_simp; linarith
    rw [e1, eval_node m hi, Option.some.injEq] at ha
    rw [e2, eval_node m (by omega), Option.some.injEq] at hb
    rw [← ha, ← hb]
    exact entry_symm m i hi
  rcases eq_or_lt_of_le hx1 with h1 | h1
  · exact hnode 999 le_rfl (by rw [h1]; norm_num)
  obtain ⟨i, hi, h2, h3⟩ := node_of hx h1
  rcases eq_or_lt_of_le h2 with h4 | h4
  · exact hnode i hi.le h4.symm
  obtain ⟨j, hj⟩ : ∃ j, i + j + 1 = 999 := ⟨998 - i, by omega⟩
  have hjr : (i : ℝ) + j + 1 = 999 := by exact_mod_cast hj
  rw [eval_inside m hi h2 h3, Option.some.injEq] at ha
  rw [eval_inside m (i := j) (by omega) (by linarith) (by linarith), Option.some.injEq] at hb
  have s1 := entry_symm m i (by omega)
  have s2 := entry_symm m (i + 1) (by omega)
  rw [show 999 - i = j + 1 by omega] at s1
  rw [show 999 - (i + 1) = j by omega] at s2
  rw [← ha, ← hb]
  have e3 : (j : ℝ) = 998 - i := by linarith
  rw [e3]
  have e4 : vandevenEntry (m + 1) (j + 1) - vandevenEntry (m + 1) j =
      vandevenEntry (m + 1) (i + 1) - vandevenEntry (m + 1) i := by linarith
  rw [e4]
  have e5 : vandevenEntry (m + 1) j = 1 + vandevenEntry (m + 1) 999 - vandevenEntry (m + 1) (i + 1) := by
    linarith
  rw [e5]
  field_simp
  ring

/-- C75: the filter of order one falls off linearly. -/
theorem c75_order_one (x : ℝ) (hx : 0 ≤ x) :
    vandevenEval (newVandeven 1) x = some (if x ≤ 1 then 1 - x else 0) := by
  have hp : pref 0 = 1 := by
    unfold pref
    norm_num
  have he : ∀ i : ℕ, vandevenEntry 1 i = 1 - i / 999 := by
    intro i
    induction i with
    | zero => simp [vandevenEntry]
    | succ i ih =>
      rw [show (1 : ℕ) = 0 + 1 from rfl, entry_succ, hp]
      rw [show (0 + 1 : ℕ) = 1 from rfl, ih]
      simp only [bump, pow_zero]
      push_cast
      ring
  rcases lt_or_ge x 1 with h | h
  · obtain ⟨i, hi, h1, h2⟩ := node_of hx h
    rw [show (1 : ℕ) = 0 + 1 from rfl, eval_inside 0 hi h1 h2, if_pos h.le]
    rw [show (0 + 1 : ℕ) = 1 from rfl, he, he]
    congr 1
    push_cast
    field_simp
    ring
  · rw [show (1 : ℕ) = 0 + 1 from rfl, eval_beyond 0 h]
    rw [show (0 + 1 : ℕ) = 1 from rfl, he]
    congr 1
    split_ifs with h'
    · obtain rfl : x = 1 := le_antisymm h' h
      norm_num
    · norm_num

/-- C75: at most one cell below zero the evaluation panics. -/
theorem c75_negative (order : ℕ) (ho : 0 < order) (x : ℝ) (hx : x ≤ -(1 / 999)) :
    vandevenEval (newVandeven order) x = none := by
  obtain ⟨m, rfl⟩ : ∃ m, order = m + 1 := ⟨order - 1, by omega⟩
  have ht : truncInt (x * 999) < 0 := by
    unfold truncInt
    rw [if_neg (by linarith)]
    have : ⌈x * 999⌉ ≤ -1 := by rw [Int.ceil_le]; push_cast; linarith
    omega
  unfold vandevenEval
  rw [table_length]
  norm_num
  rw [if_neg (by omega), if_pos ht]

/-! ## Comparison with the filter of Vandeven's paper -/

open intervalIntegral in
/-- The exact filter: one minus the normalised integral of `(t (1 - t))^(order - 1)`. -/
noncomputable def exactFilter (order : ℕ) (x : ℝ) : ℝ :=
  1 - (∫ t in (0 : ℝ)..x, (t * (1 - t)) ^ (order - 1)) / ∫ t in (0 : ℝ)..1, (t * (1 - t)) ^ (order - 1)

/-- The exact filter goes from one to zero. -/
theorem exactFilter_ends (order : ℕ) : exactFilter order 0 = 1 ∧
    ((∫ t in (0 : ℝ)..1, (t * (1 - t)) ^ (order - 1)) ≠ 0 → exactFilter order 1 = 0) := by
  constructor
  · simp [exactFilter]
  · intro h; simp [exactFilter, h]

private theorem bump_integral (m : ℕ) : (∫ t in (0 : ℝ)..1, bump m t) = 1 / pref m := by
  have hp : (0 : ℝ) < ((m + 1 : ℕ) : ℝ) := by positivity
  have hb := Complex.Gamma_mul_Gamma_eq_betaIntegral (s := ((m + 1 : ℕ) : ℂ)) (t := ((m + 1 : ℕ) : ℂ))
    (by simpa using hp) (by simpa using hp)
  have hbeta : Complex.betaIntegral ((m + 1 : ℕ) : ℂ) ((m + 1 : ℕ) : ℂ) =
      ((∫ t in (0 : ℝ)..1, bump m t : ℝ) : ℂ) := by
    unfold Complex.betaIntegral
    rw [← intervalIntegral.integral_ofReal]
    refine intervalIntegral.integral_congr fun t _ => ?_
    have e : (((m + 1 : ℕ) : ℂ) - 1) = (m : ℂ) := by push_cast; ring
    simp only [e, Complex.cpow_natCast, bump]
    push_cast
    rw [mul_pow]
  have hG : ∀ k : ℕ, Complex.Gamma (k : ℂ) = ((Real.Gamma (k : ℝ) : ℝ) : ℂ) := by
    intro k
    rw [← Complex.Gamma_ofReal]; simp
  have h2 : ((m + 1 : ℕ) : ℂ) + ((m + 1 : ℕ) : ℂ) = ((2 * (m + 1) : ℕ) : ℂ) := by push_cast; ring
  rw [hbeta, h2, hG, hG] at hb
  have hb' : Real.Gamma ((m + 1 : ℕ) : ℝ) * Real.Gamma ((m + 1 : ℕ) : ℝ) =
      Real.Gamma ((2 * (m + 1) : ℕ) : ℝ) * ∫ t in (0 : ℝ)..1, bump m t := by exact_mod_cast hb
  have h3 : 0 < Real.Gamma ((2 * (m + 1) : ℕ) : ℝ) := Real.Gamma_pos_of_pos (by positivity)
  have h4 : 0 < Real.Gamma ((m + 1 : ℕ) : ℝ) := Real.Gamma_pos_of_pos hp
  unfold pref
  rw [one_div_div, hb']
  field_simp

private theorem entry_trapezoid (m : ℕ) : ∀ i : ℕ, 0 < i → vandevenEntry (m + 1) i =
    1 - pref m * trapezoidal_integral (bump m) i 0 ((i : ℝ) / 999) := by
  have key : ∀ i : ℕ, vandevenEntry (m + 1) i = 1 - pref m * ∑ k ∈ Finset.range i,
      (bump m ((k : ℝ) / 999) + bump m (((k + 1 : ℕ) : ℝ) / 999)) / 2 / 999 := by
    intro i
    induction i with
    | zero => simp [vandevenEntry]
    | succ i ih => rw [entry_succ, ih, Finset.sum_range_succ]; ring
  intro i hi
  rw [key]
  congr 2
  have := sum_trapezoidal_integral_adjacent_intervals (f := bump m) (N := i) (a := 0) (h := 1 / 999) hi
  rw [show (0 : ℝ) + i * (1 / 999) = i / 999 by ring] at this
  rw [← this]
  refine Finset.sum_congr rfl fun k _ => ?_
  unfold trapezoidal_integral
  rw [show (0 : ℝ) + k * (1 / 999) = k / 999 by ring,
    show (0 : ℝ) + (k + 1) * (1 / 999) = ((k + 1 : ℕ) : ℝ) / 999 by push_cast; ring]
  simp
  ring

private theorem bump_second (m : ℕ) {x : ℝ} (h0 : 0 ≤ x) (h1 : x ≤ 1) :
    |iteratedDeriv 2 (bump m) x| ≤ m * (m + 1) := by
  have hu : ∀ x : ℝ, HasDerivAt (fun x : ℝ => x * (1 - x)) (1 - 2 * x) x := by
    intro x
    refine ((hasDerivAt_id x).mul ((hasDerivAt_id x).const_sub 1)).congr_deriv ?_
    simp; ring
  have hd : deriv (bump m) = fun x => (m : ℝ) * (x * (1 - x)) ^ (m - 1) * (1 - 2 * x) := by
    funext x
    exact ((hu x).pow m).deriv
  have hdd : deriv (deriv (bump m)) x = (m : ℝ) * (((m - 1 : ℕ) : ℝ) * (x * (1 - x)) ^ (m - 1 - 1) *
      (1 - 2 * x)) * (1 - 2 * x) + (m : ℝ) * (x * (1 - x)) ^ (m - 1) * (-2) := by
    rw [hd]
    have hl : HasDerivAt (fun x : ℝ => 1 - 2 * x) (-2) x := by
      simpa using ((hasDerivAt_id x).const_mul 2).const_sub 1
    exact ((((hu x).pow (m - 1)).const_mul (m : ℝ)).mul hl).deriv
  rw [iteratedDeriv_succ, iteratedDeriv_one, hdd]
  have hx0 : 0 ≤ x * (1 - x) := mul_nonneg h0 (by linarith)
  have hx1 : x * (1 - x) ≤ 1 := by nlinarith
  have hw : |1 - 2 * x| ≤ 1 := abs_le.mpr ⟨by linarith, by linarith⟩
  have hp : ∀ k, |(x * (1 - x)) ^ k| ≤ 1 := by
    intro k
    rw [abs_of_nonneg (pow_nonneg hx0 k)]
    exact pow_le_one₀ hx0 hx1
  rcases Nat.eq_zero_or_pos m with rfl | hm
  · simp
  have hm1 : (((m - 1 : ℕ) : ℝ)) = m - 1 := by rw [Nat.cast_sub hm]; simp
  have hmr : (1 : ℝ) ≤ m := by exact_mod_cast hm
  refine (abs_add_le _ _).trans ?_
  have b1 : |(m : ℝ) * (((m - 1 : ℕ) : ℝ) * (x * (1 - x)) ^ (m - 1 - 1) * (1 - 2 * x)) * (1 - 2 * x)| ≤
      m * (m - 1) := by
    rw [abs_mul, abs_mul, abs_mul, abs_mul, Nat.abs_cast, Nat.abs_cast, hm1]
    have c1 := hp (m - 1 - 1)
    have c2 : |(x * (1 - x)) ^ (m - 1 - 1)| * |1 - 2 * x| * |1 - 2 * x| ≤ 1 := by
      have := abs_nonneg (1 - 2 * x)
      have := abs_nonneg ((x * (1 - x)) ^ (m - 1 - 1))
      calc |(x * (1 - x)) ^ (m - 1 - 1)| * |1 - 2 * x| * |1 - 2 * x| ≤ 1 * 1 * 1 := by gcongr
        _ = 1 := by norm_num
    have c3 : (0 : ℝ) ≤ m * (m - 1) := by nlinarith
    calc _ = (m : ℝ) * (m - 1) * (|(x * (1 - x)) ^ (m - 1 - 1)| * |1 - 2 * x| * |1 - 2 * x|) := by ring
      _ ≤ (m : ℝ) * (m - 1) * 1 := mul_le_mul_of_nonneg_left c2 c3
      _ = _ := by ring
  have b2 : |(m : ℝ) * (x * (1 - x)) ^ (m - 1) * (-2)| ≤ 2 * m := by
    rw [abs_mul, abs_mul, Nat.abs_cast]
    have := hp (m - 1)
    have e : |(-2 : ℝ)| = 2 := by norm_num
    rw [e]
    nlinarith
  nlinarith

/-- C75: at its 1000 nodes the table deviates from the exact filter by no more than
`(2p-1)! / ((p-1)!)² · p (p-1) / (12 · 999²)`. -/
theorem c75_close (order : ℕ) (ho : 0 < order) (i : ℕ) (hi : i ≤ 999) (v : ℝ)
    (hv : vandevenEval (newVandeven order) ((i : ℝ) / 999) = some v) :
    |v - exactFilter order ((i : ℝ) / 999)| ≤
      ((2 * order - 1).factorial : ℝ) / ((order - 1).factorial : ℝ) ^ 2 * (order * (order - 1)) /
        (12 * 999 ^ 2) := by
  obtain ⟨m, rfl⟩ : ∃ m, order = m + 1 := ⟨order - 1, by omega⟩
  rw [eval_node m hi, Option.some.injEq] at hv
  subst hv
  have hpref : ((2 * (m + 1) - 1).factorial : ℝ) / ((m + 1 - 1).factorial : ℝ) ^ 2 = pref m := by
    unfold pref
    rw [show 2 * (m + 1) = (2 * m + 1) + 1 by ring, Nat.add_sub_cancel, Nat.add_sub_cancel]
    push_cast
    have h1 := Real.Gamma_nat_eq_factorial (2 * m + 1)
    have h2 := Real.Gamma_nat_eq_factorial m
    push_cast at h1 h2
    rw [h1, h2, sq]
  rw [hpref]
  have hpp := pref_pos m
  rcases Nat.eq_zero_or_pos i with rfl | hi0
  · simp [vandevenEntry, exactFilter]
    positivity
  have hex : exactFilter (m + 1) ((i : ℝ) / 999) = 1 - pref m * ∫ t in (0 : ℝ)..((i : ℝ) / 999), bump m t := by
    unfold exactFilter
    have e := bump_integral m
    unfold bump at e ⊢
    rw [Nat.add_sub_cancel, e]
    field_simp
  rw [entry_trapezoid m i hi0, hex]
  have herr : |trapezoidal_error (bump m) i 0 ((i : ℝ) / 999)| ≤
      |(i : ℝ) / 999 - 0| ^ 3 * (m * (m + 1)) / (12 * (i : ℝ) ^ 2) := by
    have hc : ContDiff ℝ 2 (bump m) := by
      unfold bump
      fun_prop
    refine trapezoidal_error_le_of_c2 hc.contDiffOn (fun x => ?_) hi0
    have hlt : (0 : ℝ) < (i : ℝ) / 999 := by positivity
    rw [Set.uIcc_of_lt hlt]
    by_cases hx : x ∈ Set.Icc (0 : ℝ) ((i : ℝ) / 999)
    · rw [iteratedDerivWithin_eq_iteratedDeriv (uniqueDiffOn_Icc hlt) hc.contDiffAt hx]
      exact bump_second m hx.1 (hx.2.trans (node_range hi).2)
    · have : iteratedDerivWithin 2 (bump m) (Set.Icc (0 : ℝ) ((i : ℝ) / 999)) x = 0 := by
        rw [iteratedDerivWithin_succ]
        exact derivWithin_zero_of_notMem_closure (by rwa [isClosed_Icc.closure_eq])
      rw [this, abs_zero]
      positivity
  have hdiff : 1 - pref m * trapezoidal_integral (bump m) i 0 ((i : ℝ) / 999) -
      (1 - pref m * ∫ t in (0 : ℝ)..((i : ℝ) / 999), bump m t) =
      -(pref m * trapezoidal_error (bump m) i 0 ((i : ℝ) / 999)) := by
    unfold trapezoidal_error; ring
  rw [hdiff, abs_neg, abs_mul, abs_of_pos hpp]
  have hir : (0 : ℝ) < i := by exact_mod_cast hi0
  have hir' : (i : ℝ) ≤ 999 := by exact_mod_cast hi
  have hfin : |(i : ℝ) / 999 - 0| ^ 3 * (m * (m + 1)) / (12 * (i : ℝ) ^ 2) ≤
      (m * (m + 1)) / (12 * 999 ^ 2) := by
    rw [sub_zero, abs_of_pos (by positivity)]
    have : ((i : ℝ) / 999) ^ 3 * (m * (m + 1)) / (12 * (i : ℝ) ^ 2) =
        (m * (m + 1)) / (12 * 999 ^ 2) * ((i : ℝ) / 999) := by
      field_simp
    rw [this]
    refine mul_le_of_le_one_right (by positivity) (node_range hi).2
  calc pref m * |trapezoidal_error (bump m) i 0 ((i : ℝ) / 999)|
      ≤ pref m * ((m * (m + 1)) / (12 * 999 ^ 2)) :=
        mul_le_mul_of_nonneg_left (herr.trans hfin) hpp.le
    _ = pref m * (((m + 1 : ℕ) : ℝ) * (((m + 1 : ℕ) : ℝ) - 1)) / (12 * 999 ^ 2) := by
        push_cast; ring

/-- For order two the value at the cutoff is `1e-6`, within the bound. -/
example : ∃ v, vandevenEval (newVandeven 2) ((999 : ℕ) / 999 : ℝ) = some v ∧
    |v - exactFilter 2 ((999 : ℕ) / 999 : ℝ)| ≤ 1 / 999 ^ 2 := by
  obtain ⟨v, hv⟩ := c75_total 2 (by norm_num) ((999 : ℕ) / 999 : ℝ) (by norm_num)
  refine ⟨v, hv, (c75_close 2 (by norm_num) 999 le_rfl v hv).trans (le_of_eq ?_)⟩
  norm_num [Nat.factorial]

end Gopf.Props
