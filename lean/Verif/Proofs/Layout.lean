import Verif.Proofs.Dft
import Verif.Spec.Wave

namespace Gopf.Pfutil
open Spec

theorem wave_eq (f : List ℚ) (p : List Int) : wave f p = cis (dot f p) := rfl

/-- The sides as Go integers. -/
def intDims (dims : List ℕ) : List Int := dims.map Int.ofNat

/-- Phase in the library's own storage order. -/
def codePhase : List ℕ → ℕ → ℕ → ℚ
  | [d0, d1], b, i => phase [d0, d1] b i
  | [d0, d1, d2], b, i => phase [d2, d0, d1] b i
  | _, _, _ => 0

theorem goodDims_nat {dims : List ℕ} (h : GoodDims (intDims dims)) :
    (∃ d0 d1, dims = [d0, d1] ∧ 0 < d0 ∧ 0 < d1) ∨
      ∃ d0 d1 d2, dims = [d0, d1, d2] ∧ 0 < d0 ∧ 0 < d1 ∧ 0 < d2 := by
  obtain ⟨hl, hp⟩ := h
  simp only [intDims, List.length_map] at hl
  rcases hl with hl | hl
  · obtain ⟨a, b, rfl⟩ := List.length_eq_two.mp hl
    left; refine ⟨a, b, rfl, ?_, ?_⟩
    · have := hp (a : Int) (by simp [intDims]); exact_mod_cast this
    · have := hp (b : Int) (by simp [intDims]); exact_mod_cast this
  · obtain ⟨a, b, c, rfl⟩ := List.length_eq_three.mp hl
    right; refine ⟨a, b, c, rfl, ?_, ?_, ?_⟩
    · have := hp (a : Int) (by simp [intDims]); exact_mod_cast this
    · have := hp (b : Int) (by simp [intDims]); exact_mod_cast this
    · have := hp (c : Int) (by simp [intDims]); exact_mod_cast this

theorem numNodes_intDims (dims : List ℕ) : numNodes (intDims dims) = (dims.prod : Int) := by
  induction dims with
  | nil => rfl
  | cons d ds ih =>
    simp only [numNodes, intDims, List.map_cons, List.prod_cons] at ih ⊢
    rw [ih]; simp

theorem dot_codePhase {dims : List ℕ} (h : GoodDims (intDims dims)) {b i : ℕ} (hb : b < dims.prod)
    (hi : i < dims.prod) {f : List ℚ} {p : List Int} (hf : freq (intDims dims) b = some f)
    (hp : pos (intDims dims) i = some p) : ∃ m : ℤ, dot f p = codePhase dims b i + m := by
  have hbN : (b : Int) < numNodes (intDims dims) := by rw [numNodes_intDims]; exact_mod_cast hb
  obtain ⟨q, hq, -, -⟩ := pos_spec h (by omega : (0:Int) ≤ b) hbN
  rw [freq_eq h (by omega) hbN hq, Option.some.injEq] at hf
  subst hf
  rcases goodDims_nat h with ⟨d0, d1, rfl, p0, p1⟩ | ⟨d0, d1, d2, rfl, p0, p1, p2⟩
  · simp only [intDims, List.map_cons, List.map_nil, pos] at hq hp
    rw [pos2_eq (by simpa using p1) (by omega), Option.some.injEq] at hq hp
    subst hq hp
    simp only [List.prod_cons, List.prod_nil, mul_one] at hb hi
    have hb' : b / d1 < d0 := Nat.div_lt_of_lt_mul (by rwa [mul_comm])
    have hi' : i / d1 < d0 := Nat.div_lt_of_lt_mul (by rwa [mul_comm])
    obtain ⟨m, hm⟩ := phi_int ((b : Int) / d1) d0
    obtain ⟨n, hn⟩ := phi_int ((b : Int) % d1) d1
    refine ⟨m * ((i : Int) / d1) + n * ((i : Int) % d1), ?_⟩
    simp only [intDims, dot, List.map_cons, List.map_nil, List.zipWith_cons_cons,
      List.zipWith_nil_left, List.sum_cons, List.sum_nil, codePhase, phase, rowMajor, phaseSum,
      List.prod_cons, List.prod_nil, mul_one, Nat.div_one, Nat.mod_eq_of_lt hb', Nat.mod_eq_of_lt hi',
      Nat.mod_mod, Int.ofNat_eq_natCast] at hm hn ⊢
    rw [hm, hn, ← Int.natCast_div, ← Int.natCast_mod, ← Int.natCast_div, ← Int.natCast_mod]
    generalize b / d1 = B
    generalize i / d1 = C
    generalize b % d1 = D
    generalize i % d1 = E
    push_cast
    ring
  · simp only [intDims, List.map_cons, List.map_nil, pos] at hq hp
    rw [pos3_eq (by simpa using p0) (by simpa using p1) (by omega), Option.some.injEq] at hq hp
    subst hq hp
    simp only [List.prod_cons, List.prod_nil, mul_one] at hb hi
    have hb' : b / (d0 * d1) < d2 := Nat.div_lt_of_lt_mul (by linarith)
    have hi' : i / (d0 * d1) < d2 := Nat.div_lt_of_lt_mul (by linarith)
    obtain ⟨m, hm⟩ := phi_int ((b : Int) / d1 % d0) d0
    obtain ⟨n, hn⟩ := phi_int ((b : Int) % d1) d1
    obtain ⟨l, hl⟩ := phi_int ((b : Int) / (d0 * d1)) d2
    refine ⟨m * ((i : Int) / d1 % d0) + n * ((i : Int) % d1) + l * ((i : Int) / (d0 * d1)), ?_⟩
    have e1 : ∀ z : ℕ, z % (d0 * d1) / d1 % d0 = z / d1 % d0 := by
      intro z
      rw [mul_comm d0 d1, Nat.mod_mul_right_div_self, Nat.mod_mod]
    have e2 : ∀ z : ℕ, z % (d0 * d1) % d1 = z % d1 := fun z =>
      Nat.mod_mod_of_dvd z (Dvd.intro_left d0 rfl)
    simp only [intDims, dot, List.map_cons, List.map_nil, List.zipWith_cons_cons,
      List.zipWith_nil_left, List.sum_cons, List.sum_nil, codePhase, phase, rowMajor, phaseSum,
      List.prod_cons, List.prod_nil, mul_one, Nat.div_one, Nat.mod_eq_of_lt hb', Nat.mod_eq_of_lt hi',
      Nat.mod_mod, Int.ofNat_eq_natCast, e1, e2] at hm hn hl ⊢
    rw [hm, hn, hl]
    simp only [← Int.natCast_div, ← Int.natCast_mod, ← Int.natCast_mul]
    generalize b / d1 % d0 = B
    generalize i / d1 % d0 = C
    generalize b % d1 = D
    generalize i % d1 = E
    generalize b / (d0 * d1) = F
    generalize i / (d0 * d1) = G
    push_cast
    ring

theorem inv_congr {a b : ℕ} (ha : 2 ≤ a) (hb : 2 ≤ b) (h : cis (-(1 / (a:ℚ))) = cis (-(1 / (b:ℚ)))) :
    a = b := by
  have h2 : cis (-(1 / (a:ℚ)) + 1 / (b:ℚ)) = 1 := by
    rw [cis_add, h, cis_neg_mul]
  obtain ⟨m, hm⟩ := (cis_eq_one_iff _).mp h2
  have ha' : (2:ℚ) ≤ a := by exact_mod_cast ha
  have hb' : (2:ℚ) ≤ b := by exact_mod_cast hb
  have a1 : 1 / (a:ℚ) ≤ 1/2 := by gcongr
  have b1 : 1 / (b:ℚ) ≤ 1/2 := by gcongr
  have a0 : 0 < 1 / (a:ℚ) := by positivity
  have b0 : 0 < 1 / (b:ℚ) := by positivity
  have m1 : (m:ℚ) < 1 := by linarith
  have m2 : (-1:ℚ) < m := by linarith
  have : m = 0 := by
    have h1 : m < 1 := by exact_mod_cast m1
    have h2 : -1 < m := by exact_mod_cast m2
    omega
  rw [this] at hm
  have e : 1 / (a:ℚ) = 1 / (b:ℚ) := by push_cast at hm; linarith
  have : (a:ℚ) = b := by
    have := congrArg (fun z => 1 / z) e
    simpa using this
  exact_mod_cast this

/-- The two storage orders give the same kernel exactly for the layouts of `LayoutOk`. -/
theorem phase_codePhase {dims : List ℕ} (h : LayoutOk dims) (hpos : ∀ d ∈ dims, 0 < d) {b i : ℕ}
    (hb : b < dims.prod) (hi : i < dims.prod) : phase dims b i = codePhase dims b i := by
  match dims, h with
  | [_, _], _ => rfl
  | [d0, d1, d2], h =>
    simp only [List.prod_cons, List.prod_nil, mul_one] at hb hi
    rcases h with rfl | ⟨rfl, rfl⟩ | ⟨rfl, rfl⟩ | ⟨rfl, rfl⟩ | ⟨rfl, rfl⟩
    · simp only [mul_one] at hb hi
      simp [codePhase, phase, rowMajor, phaseSum, Nat.mod_one, Nat.mod_eq_of_lt hb,
        Nat.mod_eq_of_lt hi]
    · simp only [one_mul] at hb hi
      simp [codePhase, phase, rowMajor, phaseSum, Nat.mod_one, Nat.mod_eq_of_lt hb,
        Nat.mod_eq_of_lt hi]
    · simp only [one_mul] at hb hi
      simp [codePhase, phase, rowMajor, phaseSum, Nat.mod_one, Nat.mod_eq_of_lt hb,
        Nat.mod_eq_of_lt hi]
    · simp only [one_mul] at hb hi
      simp [codePhase, phase, rowMajor, phaseSum, Nat.mod_one]
    · rfl

theorem layout_of_phase {d0 d1 d2 : ℕ} (p0 : 0 < d0) (p1 : 0 < d1) (p2 : 0 < d2)
    (h : ∀ b i, b < [d0, d1, d2].prod → i < [d0, d1, d2].prod →
      cis (-phase [d0, d1, d2] b i) = cis (-codePhase [d0, d1, d2] b i)) :
    LayoutOk [d0, d1, d2] := by
  simp only [List.prod_cons, List.prod_nil, mul_one] at h
  show d2 = 1 ∨ (d0 = 1 ∧ d1 = 1) ∨ (d0 = 1 ∧ d1 = d2) ∨ (d1 = 1 ∧ d0 = d2) ∨ (d0 = d1 ∧ d1 = d2)
  by_cases e2 : d2 = 1
  · exact Or.inl e2
  have g2 : 2 ≤ d2 := by omega
  have hN : 1 < d0 * (d1 * d2) := by
    calc 1 < d2 := by omega
      _ ≤ d1 * d2 := Nat.le_mul_of_pos_left _ p1
      _ ≤ d0 * (d1 * d2) := Nat.le_mul_of_pos_left _ p0
  have h11 := h 1 1 hN hN
  have l1 : phase [d0, d1, d2] 1 1 = 1 / d2 := by
    have u1 : 1 / (d1 * d2) = 0 := Nat.div_eq_of_lt (by nlinarith)
    have u2 : 1 % (d1 * d2) = 1 := Nat.mod_eq_of_lt (by nlinarith)
    have u3 : 1 / d2 = 0 := Nat.div_eq_of_lt (by omega)
    have u4 : 1 % d2 = 1 := Nat.mod_eq_of_lt (by omega)
    simp [phase, rowMajor, phaseSum, u1, u2, u3, u4]
  rw [l1] at h11
  by_cases e1 : d1 = 1
  · subst e1
    by_cases e0 : d0 = 1
    · exact Or.inr (Or.inl ⟨e0, rfl⟩)
    have l2 : codePhase [d0, 1, d2] 1 1 = 1 / d0 := by
      have u1 : 1 / d0 = 0 := Nat.div_eq_of_lt (by omega)
      have u2 : 1 % d0 = 1 := Nat.mod_eq_of_lt (by omega)
      simp [codePhase, phase, rowMajor, phaseSum, u1, u2]
    rw [l2] at h11
    have := inv_congr g2 (by omega) h11
    exact Or.inr (Or.inr (Or.inr (Or.inl ⟨rfl, this.symm⟩)))
  · have g1 : 2 ≤ d1 := by omega
    have l2 : codePhase [d0, d1, d2] 1 1 = 1 / d1 := by
      have u1 : 1 / (d0 * d1) = 0 := Nat.div_eq_of_lt (by nlinarith)
      have u2 : 1 % (d0 * d1) = 1 := Nat.mod_eq_of_lt (by nlinarith)
      have u3 : 1 / d1 = 0 := Nat.div_eq_of_lt (by omega)
      have u4 : 1 % d1 = 1 := Nat.mod_eq_of_lt (by omega)
      simp [codePhase, phase, rowMajor, phaseSum, u1, u2, u3, u4]
    rw [l2] at h11
    obtain rfl := inv_congr g2 g1 h11
    by_cases e0 : d0 = 1
    · exact Or.inr (Or.inr (Or.inl ⟨e0, rfl⟩))
    have g0 : 2 ≤ d0 := by omega
    have hnN : d2 < d0 * (d2 * d2) := by
      have : d2 < d2 * d2 := by nlinarith
      calc d2 < d2 * d2 := this
        _ ≤ d0 * (d2 * d2) := Nat.le_mul_of_pos_left _ p0
    have h22 := h d2 d2 hnN hnN
    have l3 : phase [d0, d2, d2] d2 d2 = 1 / d2 := by
      have u1 : d2 / (d2 * d2) = 0 := Nat.div_eq_of_lt (by nlinarith)
      have u2 : d2 % (d2 * d2) = d2 := Nat.mod_eq_of_lt (by nlinarith)
      have u3 : d2 / d2 = 1 := Nat.div_self p2
      have u4 : 1 % d2 = 1 := Nat.mod_eq_of_lt (by omega)
      simp [phase, rowMajor, phaseSum, u1, u2, u3, u4]
    have l4 : codePhase [d0, d2, d2] d2 d2 = 1 / d0 := by
      have u1 : d2 / (d0 * d2) = 0 := Nat.div_eq_of_lt (by nlinarith)
      have u2 : d2 % (d0 * d2) = d2 := Nat.mod_eq_of_lt (by nlinarith)
      have u3 : d2 / d2 = 1 := Nat.div_self p2
      have u4 : 1 % d0 = 1 := Nat.mod_eq_of_lt (by omega)
      simp [codePhase, phase, rowMajor, phaseSum, u1, u2, u3, u4]
    rw [l3, l4] at h22
    have := inv_congr g2 g0 h22
    exact Or.inr (Or.inr (Or.inr (Or.inr ⟨this.symm, rfl⟩)))

end Gopf.Pfutil
