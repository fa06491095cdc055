import Verif.Model.Index
import Verif.Spec.Box
import Mathlib.Tactic.Ring
import Mathlib.Tactic.Linarith

namespace Gopf.Pfutil
open Spec

theorem goodDims_cases {dims : List Int} (h : GoodDims dims) :
    (∃ d0 d1, dims = [d0, d1] ∧ 0 < d0 ∧ 0 < d1) ∨
    (∃ d0 d1 d2, dims = [d0, d1, d2] ∧ 0 < d0 ∧ 0 < d1 ∧ 0 < d2) := by
  obtain ⟨hl, hp⟩ := h
  rcases hl with hl | hl
  · left
    match dims, hl with
    | [d0, d1], _ => exact ⟨d0, d1, rfl, hp _ (by simp), hp _ (by simp)⟩
  · right
    match dims, hl with
    | [d0, d1, d2], _ => exact ⟨d0, d1, d2, rfl, hp _ (by simp), hp _ (by simp), hp _ (by simp)⟩

theorem inBox2 {d0 d1 : Int} {p : List Int} (h : InBox [d0, d1] p) :
    ∃ a b, p = [a, b] ∧ 0 ≤ a ∧ a < d0 ∧ 0 ≤ b ∧ b < d1 := by
  unfold InBox at h
  cases h with
  | cons h1 h =>
    cases h with
    | cons h2 h => cases h with
      | nil => exact ⟨_, _, rfl, h1.1, h1.2, h2.1, h2.2⟩

theorem inBox3 {d0 d1 d2 : Int} {p : List Int} (h : InBox [d0, d1, d2] p) :
    ∃ a b c, p = [a, b, c] ∧ 0 ≤ a ∧ a < d0 ∧ 0 ≤ b ∧ b < d1 ∧ 0 ≤ c ∧ c < d2 := by
  unfold InBox at h
  cases h with
  | cons h1 h =>
    cases h with
    | cons h2 h => cases h with
      | cons h3 h => cases h with
        | nil => exact ⟨_, _, _, rfl, h1.1, h1.2, h2.1, h2.2, h3.1, h3.2⟩

theorem goDiv_pos {a b : Int} (ha : 0 ≤ a) (hb : 0 < b) : goDiv a b = some (a / b) := by
  simp [goDiv, hb.ne', Int.tdiv_eq_ediv_of_nonneg ha]

theorem goMod_pos {a b : Int} (ha : 0 ≤ a) (hb : 0 < b) : goMod a b = some (a % b) := by
  simp [goMod, hb.ne', Int.tmod_eq_emod_of_nonneg ha]

theorem pos2_eq {d1 n : Int} (h1 : 0 < d1) (hn : 0 ≤ n) : pos2 d1 n = some [n / d1, n % d1] := by
  simp [pos2, goDiv_pos hn h1, goMod_pos hn h1]

theorem pos3_eq {d0 d1 n : Int} (h0 : 0 < d0) (h1 : 0 < d1) (hn : 0 ≤ n) :
    pos3 d0 d1 n = some [n / d1 % d0, n % d1, n / (d0 * d1)] := by
  simp [pos3, goDiv_pos hn h1, goMod_pos hn h1, goDiv_pos hn (mul_pos h0 h1),
    goMod_pos (Int.ediv_nonneg hn h1.le) h0]

theorem ediv_lt_of_lt_mul' {n a b : Int} (hb : 0 < b) (h : n < a * b) : n / b < a :=
  Int.ediv_lt_of_lt_mul hb h

theorem pos_spec {dims : List Int} (h : GoodDims dims) {n : Int} (h0 : 0 ≤ n)
    (hn : n < numNodes dims) :
    ∃ p, pos dims n = some p ∧ InBox dims p ∧ nodeIdx dims p = some n := by
  rcases goodDims_cases h with ⟨d0, d1, rfl, p0, p1⟩ | ⟨d0, d1, d2, rfl, p0, p1, p2⟩
  · simp only [numNodes, List.prod_cons, List.prod_nil, mul_one] at hn
    refine ⟨_, pos2_eq p1 h0, ?_, ?_⟩
    · refine .cons ⟨Int.ediv_nonneg h0 p1.le, Int.ediv_lt_of_lt_mul p1 hn⟩
        (.cons ⟨Int.emod_nonneg _ p1.ne', Int.emod_lt_of_pos _ p1⟩ .nil)
    · simp only [nodeIdx, nodeIdx2, Option.some.injEq]
      rw [mul_comm]; exact Int.mul_ediv_add_emod n d1
  · simp only [numNodes, List.prod_cons, List.prod_nil, mul_one] at hn
    refine ⟨_, pos3_eq p0 p1 h0, ?_, ?_⟩
    · refine .cons ⟨Int.emod_nonneg _ p0.ne', Int.emod_lt_of_pos _ p0⟩
        (.cons ⟨Int.emod_nonneg _ p1.ne', Int.emod_lt_of_pos _ p1⟩
        (.cons ⟨Int.ediv_nonneg h0 (mul_pos p0 p1).le,
          Int.ediv_lt_of_lt_mul (mul_pos p0 p1) (by linarith [mul_comm d2 (d0*d1), mul_assoc d0 d1 d2])⟩ .nil))
    · simp only [nodeIdx, nodeIdx3, Option.some.injEq]
      have e1 : n / (d0 * d1) = n / d1 / d0 := by
        rw [mul_comm, Int.ediv_ediv_of_nonneg p1.le]
      rw [e1]
      have a1 := Int.mul_ediv_add_emod n d1
      have a2 := Int.mul_ediv_add_emod (n / d1) d0
      calc n / d1 / d0 * d0 * d1 + n / d1 % d0 * d1 + n % d1
          = d1 * (d0 * (n / d1 / d0) + n / d1 % d0) + n % d1 := by ring
        _ = n := by rw [a2, a1]

theorem nodeIdx_spec {dims : List Int} (h : GoodDims dims) {p : List Int} (hp : InBox dims p) :
    ∃ n, nodeIdx dims p = some n ∧ 0 ≤ n ∧ n < numNodes dims ∧ pos dims n = some p := by
  rcases goodDims_cases h with ⟨d0, d1, rfl, p0, p1⟩ | ⟨d0, d1, d2, rfl, p0, p1, p2⟩
  · obtain ⟨a, b, rfl, ha, ha', hb, hb'⟩ := inBox2 hp
    have hn : 0 ≤ a * d1 + b := by positivity
    refine ⟨_, rfl, hn, ?_, ?_⟩
    · simp only [numNodes, List.prod_cons, List.prod_nil, mul_one, nodeIdx2]
      nlinarith
    · simp only [pos, nodeIdx2]
      rw [pos2_eq p1 hn]
      have e1 : (a * d1 + b) / d1 = a := by
        rw [add_comm, Int.add_mul_ediv_right _ _ p1.ne', Int.ediv_eq_zero_of_lt hb hb']; simp
      have e2 : (a * d1 + b) % d1 = b := by
        rw [add_comm, Int.add_mul_emod_self_right, Int.emod_eq_of_lt hb hb']
      rw [e1, e2]
  · obtain ⟨a, b, c, rfl, ha, ha', hb, hb', hc, hc'⟩ := inBox3 hp
    have hn : 0 ≤ c * d0 * d1 + a * d1 + b := by positivity
    have e1 : (c * d0 * d1 + a * d1 + b) / d1 = c * d0 + a := by
      have : c * d0 * d1 + a * d1 + b = b + (c * d0 + a) * d1 := by ring
      rw [this, Int.add_mul_ediv_right _ _ p1.ne', Int.ediv_eq_zero_of_lt hb hb']; simp
    have e2 : (c * d0 * d1 + a * d1 + b) % d1 = b := by
      have : c * d0 * d1 + a * d1 + b = b + (c * d0 + a) * d1 := by ring
      rw [this, Int.add_mul_emod_self_right, Int.emod_eq_of_lt hb hb']
    have e3 : (c * d0 + a) % d0 = a := by
      rw [add_comm, Int.add_mul_emod_self_right, Int.emod_eq_of_lt ha ha']
    have e4 : (c * d0 * d1 + a * d1 + b) / (d0 * d1) = c := by
      rw [mul_comm d0 d1, ← Int.ediv_ediv_of_nonneg p1.le, e1, add_comm,
        Int.add_mul_ediv_right _ _ p0.ne', Int.ediv_eq_zero_of_lt ha ha']; simp
    refine ⟨_, rfl, hn, ?_, ?_⟩
    · simp only [numNodes, List.prod_cons, List.prod_nil, mul_one, nodeIdx3]
      have h1 : a * d1 + b < d0 * d1 := by nlinarith
      have h2 : (c + 1) * (d0 * d1) ≤ d2 * (d0 * d1) :=
        mul_le_mul_of_nonneg_right (by omega) (mul_pos p0 p1).le
      nlinarith
    · simp only [pos, nodeIdx3]
      rw [pos3_eq p0 p1 hn, e1, e2, e3, e4]

theorem wrap1_spec {p d : Int} (hd : 0 < d) :
    ∃ r, wrap1 p d = some r ∧ 0 ≤ r ∧ r < d ∧ ∃ k, r = p + k * d := by
  unfold wrap1
  by_cases hp : p < 0
  · have hq : 0 ≤ p + ((-p) / d + 1) * d := by
      have := Int.mul_ediv_add_emod (-p) d
      have := Int.emod_lt_of_pos (-p) hd
      nlinarith
    simp only [hp, if_true, goDiv_pos (by omega : 0 ≤ -p) hd]
    refine ⟨(p + ((-p) / d + 1) * d) % d, by
      show goMod (p + ((-p) / d + 1) * d) d = _
      exact goMod_pos hq hd, Int.emod_nonneg _ hd.ne', Int.emod_lt_of_pos _ hd, ?_⟩
    refine ⟨((-p) / d + 1) - (p + ((-p) / d + 1) * d) / d, ?_⟩
    have := Int.mul_ediv_add_emod (p + ((-p) / d + 1) * d) d
    linarith [mul_comm d ((p + ((-p) / d + 1) * d) / d), sub_mul ((-p) / d + 1) ((p + ((-p) / d + 1) * d) / d) d]
  · simp only [hp, if_false]
    refine ⟨_, by simpa using goMod_pos (not_lt.mp hp) hd, Int.emod_nonneg _ hd.ne', Int.emod_lt_of_pos _ hd,
      -(p / d), ?_⟩
    have := Int.mul_ediv_add_emod p d
    linarith [mul_comm d (p / d), neg_mul (p / d) d]

theorem wrap1_eq_emod {p d : Int} (hd : 0 < d) : wrap1 p d = some (p % d) := by
  obtain ⟨r, h, h0, h1, k, hk⟩ := wrap1_spec (p := p) hd
  rw [h, hk, ← Int.add_mul_emod_self_right p k d, ← hk, Int.emod_eq_of_lt h0 h1]

theorem wrap_eq_emod : ∀ {p ds : List Int}, p.length = ds.length → (∀ d ∈ ds, 0 < d) →
    wrap p ds = some (List.zipWith (fun a d => a % d) p ds)
  | [], [], _, _ => rfl
  | p :: ps, d :: ds, hl, hd => by
    simp only [wrap, wrap1_eq_emod (hd d (by simp)),
      wrap_eq_emod (p := ps) (ds := ds) (by simpa using hl) (fun x hx => hd x (by simp [hx]))]
    rfl

theorem prodInt_eq (l : List Int) : prodInt l = l.prod := by
  unfold prodInt
  rw [List.prod_eq_foldl]

theorem numNodes_nonneg {dims : List Int} (h : GoodDims dims) : 0 < numNodes dims := by
  rcases goodDims_cases h with ⟨d0, d1, rfl, p0, p1⟩ | ⟨d0, d1, d2, rfl, p0, p1, p2⟩ <;>
  · simp [numNodes]; positivity

end Gopf.Pfutil
