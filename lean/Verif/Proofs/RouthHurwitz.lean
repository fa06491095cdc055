import Mathlib.Analysis.Complex.Polynomial.Basic
import Mathlib.Analysis.SpecialFunctions.Pow.Real
import Mathlib.Topology.Order.IntermediateValue
import Mathlib.LinearAlgebra.Matrix.Determinant.Basic
import Mathlib.LinearAlgebra.Matrix.ToLinearEquiv
import Mathlib.LinearAlgebra.Matrix.Trace

/-!
# The signs of the real parts of the roots of a real cubic
-/

namespace Gopf.Proofs

theorem real_root {a b c x1 : ℝ} (h : x1 ^ 3 + a * x1 ^ 2 + b * x1 + c ≤ 0) :
    ∃ x, x1 ≤ x ∧ x ^ 3 + a * x ^ 2 + b * x + c = 0 := by
  set X : ℝ := 1 + |a| + |b| + |c| + |x1| with hX
  have ha := abs_nonneg a
  have hb := abs_nonneg b
  have hc := abs_nonneg c
  have hx := abs_nonneg x1
  have hX1 : 1 ≤ X := by linarith
  have hxX : x1 ≤ X := by
    have := le_abs_self x1
    linarith
  have hpos : 0 ≤ X ^ 3 + a * X ^ 2 + b * X + c := by
    have h2 : X ≤ X ^ 2 := by nlinarith
    have h3 : 1 ≤ X ^ 2 := by linarith
    have e1 : -(|a| * X ^ 2) ≤ a * X ^ 2 := by
      have := mul_le_mul_of_nonneg_right (neg_abs_le a) (by linarith : 0 ≤ X ^ 2)
      linarith
    have e2 : -(|b| * X ^ 2) ≤ b * X := by
      have := mul_le_mul_of_nonneg_right (neg_abs_le b) (by linarith : 0 ≤ X)
      have := mul_le_mul_of_nonneg_left h2 hb
      linarith
    have e3 : -(|c| * X ^ 2) ≤ c := by
      have := neg_abs_le c
      have := mul_le_mul_of_nonneg_left h3 hc
      linarith
    have e4 : X ^ 3 = (1 + |a| + |b| + |c| + |x1|) * X ^ 2 := by rw [← hX]; ring
    have e5 : 0 ≤ |x1| * X ^ 2 := by positivity
    linarith
  have hcont : ContinuousOn (fun x : ℝ => x ^ 3 + a * x ^ 2 + b * x + c) (Set.Icc x1 X) := by fun_prop
  obtain ⟨x, hx, e⟩ := intermediate_value_Icc hxX hcont ⟨h, hpos⟩
  exact ⟨x, hx.1, e⟩

theorem cubic_parts (a b c : ℝ) (l : ℂ) : l ^ 3 + a * l ^ 2 + b * l + c = 0 ↔
    l.re ^ 3 - 3 * l.re * l.im ^ 2 + a * (l.re ^ 2 - l.im ^ 2) + b * l.re + c = 0 ∧
      l.im * (3 * l.re ^ 2 - l.im ^ 2 + 2 * a * l.re + b) = 0 := by
  rw [Complex.ext_iff]
  simp only [pow_succ, pow_zero, one_mul, Complex.add_re, Complex.add_im, Complex.mul_re, Complex.mul_im, Complex.ofReal_re,
    Complex.ofReal_im, Complex.zero_re, Complex.zero_im, zero_mul, sub_zero, add_zero]
  constructor
  · rintro ⟨h1, h2⟩
    exact ⟨by linarith, by linarith⟩
  · rintro ⟨h1, h2⟩
    exact ⟨by linarith, by linarith⟩

/-- All roots have negative real parts. -/
theorem cubic_inside {a b c : ℝ} (ha : 0 < a) (hc : 0 < c) (hab : c < a * b) {l : ℂ} (hl : l ^ 3 + a * l ^ 2 + b * l + c = 0) :
    l.re < 0 := by
  have hb : 0 < b := pos_of_mul_pos_right (hc.trans hab) ha.le
  obtain ⟨h1, h2⟩ := (cubic_parts a b c l).mp hl
  by_contra hcon
  push Not at hcon
  have p2 := mul_nonneg ha.le (sq_nonneg l.re)
  have p3 := pow_nonneg hcon 3
  rcases mul_eq_zero.mp h2 with h3 | h3
  · rw [h3] at h1
    have := mul_nonneg hb.le hcon
    linarith
  · have e : l.im ^ 2 = 3 * l.re ^ 2 + 2 * a * l.re + b := by linarith
    rw [e] at h1
    have e2 : 8 * l.re ^ 3 + 8 * (a * l.re ^ 2) + 2 * (a ^ 2 * l.re) + 2 * (b * l.re) + (a * b - c) = 0 := by linarith
    have p4 := mul_nonneg (sq_nonneg a) hcon
    have p5 := mul_nonneg hb.le hcon
    linarith

/-- Some root has a positive real part. -/
theorem cubic_outside {a b c : ℝ} (h : a < 0 ∨ c < 0 ∨ a * b < c) : ∃ l : ℂ, l ^ 3 + a * l ^ 2 + b * l + c = 0 ∧ 0 < l.re := by
  have hpair : ∀ x0 : ℝ, 0 < x0 → x0 ^ 3 + a * x0 ^ 2 + (a ^ 2 + b) / 4 * x0 + (a * b - c) / 8 = 0 →
      ∃ l : ℂ, l ^ 3 + a * l ^ 2 + b * l + c = 0 ∧ 0 < l.re := by
    intro x0 hx0 e
    obtain ⟨s, hs⟩ := IsAlgClosed.exists_pow_nat_eq (-(3 * x0 ^ 2 + 2 * a * x0 + b : ℂ)) (n := 2) (by norm_num)
    have ec : (x0 : ℂ) ^ 3 + a * x0 ^ 2 + (a ^ 2 + b) / 4 * x0 + (a * b - c) / 8 = 0 := by exact_mod_cast e
    have hroot : ∀ t : ℂ, t ^ 2 = s ^ 2 → (x0 + t) ^ 3 + a * (x0 + t) ^ 2 + b * (x0 + t) + c = 0 := by
      intro t ht
      rw [hs] at ht
      linear_combination (3 * x0 + t + a) * ht - 8 * ec
    rcases le_total 0 s.re with h0 | h0
    · refine ⟨x0 + s, hroot s rfl, ?_⟩
      rw [Complex.add_re, Complex.ofReal_re]
      linarith
    · refine ⟨x0 + -s, hroot (-s) (by ring), ?_⟩
      rw [Complex.add_re, Complex.ofReal_re, Complex.neg_re]
      linarith
  by_cases hc : c < 0
  · obtain ⟨x, hx, e⟩ := real_root (a := a) (b := b) (c := c) (x1 := 0) (by linarith)
    have hne : x ≠ 0 := by
      rintro rfl
      linarith
    refine ⟨x, by exact_mod_cast e, ?_⟩
    rw [Complex.ofReal_re]
    exact lt_of_le_of_ne hx hne.symm
  by_cases hab : a * b < c
  · obtain ⟨x, hx, e⟩ := real_root (a := a) (b := (a ^ 2 + b) / 4) (c := (a * b - c) / 8) (x1 := 0) (by linarith)
    have hne : x ≠ 0 := by
      rintro rfl
      linarith
    exact hpair x (lt_of_le_of_ne hx hne.symm) e
  · have ha : a < 0 := by tauto
    obtain ⟨x, hx, e⟩ := real_root (a := a) (b := (a ^ 2 + b) / 4) (c := (a * b - c) / 8) (x1 := -a / 2) (by
      push Not at hc
      have : (-a / 2) ^ 3 + a * (-a / 2) ^ 2 + (a ^ 2 + b) / 4 * (-a / 2) + (a * b - c) / 8 = -c / 8 := by ring
      rw [this]
      linarith)
    exact hpair x (by linarith) e

/-- The sum of the principal minors of two rows. -/
def minors (J : Matrix (Fin 3) (Fin 3) ℝ) : ℝ :=
  J 0 0 * J 1 1 - J 0 1 * J 1 0 + (J 0 0 * J 2 2 - J 0 2 * J 2 0) + (J 1 1 * J 2 2 - J 1 2 * J 2 1)

/-- The eigenvalues are the roots of the characteristic polynomial. -/
theorem eigen_cubic (J : Matrix (Fin 3) (Fin 3) ℝ) (l : ℂ) :
    (∃ v : Fin 3 → ℂ, v ≠ 0 ∧ ∀ i, J i 0 * v 0 + J i 1 * v 1 + J i 2 * v 2 = l * v i) ↔
      l ^ 3 + ((-J.trace : ℝ) : ℂ) * l ^ 2 + ((minors J : ℝ) : ℂ) * l + ((-J.det : ℝ) : ℂ) = 0 := by
  set A : Matrix (Fin 3) (Fin 3) ℂ := fun i j => (if i = j then l else 0) - J i j with hA
  have h1 : A.det = l ^ 3 + ((-J.trace : ℝ) : ℂ) * l ^ 2 + ((minors J : ℝ) : ℂ) * l + ((-J.det : ℝ) : ℂ) := by
    rw [Matrix.det_fin_three, Matrix.det_fin_three, Matrix.trace_fin_three, minors]
    simp only [hA]
    push_cast
    simp
    ring
  rw [← h1, ← Matrix.exists_mulVec_eq_zero_iff]
  refine exists_congr fun v => and_congr_right fun _ => ?_
  have e : ∀ i, A.mulVec v i = l * v i - (J i 0 * v 0 + J i 1 * v 1 + J i 2 * v 2) := by
    intro i
    simp only [hA, Matrix.mulVec, dotProduct, Fin.sum_univ_three]
    fin_cases i
    · simp
      ring
    · simp
      ring
    · simp
      ring
  constructor
  · intro h
    funext i
    rw [e, h i, sub_self]
    rfl
  · intro h i
    have := congrFun h i
    rw [e, Pi.zero_apply, sub_eq_zero] at this
    exact this.symm

end Gopf.Proofs
