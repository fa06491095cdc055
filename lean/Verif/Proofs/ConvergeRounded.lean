import Verif.Proofs.ConvergeImplicit
import Verif.Proofs.ConvergeRk4

/-!
# From one step to many when every step is only carried out approximately
-/

namespace Gopf.Converge
open Set

/-- The growth of errors that start with `e 0`. -/
theorem grow_from {K D dt : ℝ} (hK : 0 ≤ K) (hD : 0 ≤ D) (hdt : 0 ≤ dt) {e : ℕ → ℝ} (he : 0 ≤ e 0) {n : ℕ}
    (hs : ∀ j < n, e (j + 1) ≤ (1 + K * dt) * e j + D) : e n ≤ (e 0 + n * D) * Real.exp (K * (n * dt)) := by
  induction n with
  | zero => simp
  | succ n ih =>
    have h1 := ih fun j hj => hs j (by omega)
    have h2 := hs n (by omega)
    have e1 : 1 + K * dt ≤ Real.exp (K * dt) := by
      have := Real.add_one_le_exp (K * dt)
      linarith
    have e2 : Real.exp (K * dt) * Real.exp (K * (n * dt)) = Real.exp (K * (((n + 1 : ℕ) : ℝ) * dt)) := by
      rw [← Real.exp_add]; congr 1; push_cast; ring
    have e3 : 1 ≤ Real.exp (K * (((n + 1 : ℕ) : ℝ) * dt)) := Real.one_le_exp (by positivity)
    have e4 : (1 + K * dt) * e n ≤ (1 + K * dt) * ((e 0 + n * D) * Real.exp (K * (n * dt))) :=
      mul_le_mul_of_nonneg_left h1 (by positivity)
    have e5 : (1 + K * dt) * ((e 0 + n * D) * Real.exp (K * (n * dt))) ≤
        Real.exp (K * dt) * ((e 0 + n * D) * Real.exp (K * (n * dt))) :=
      mul_le_mul_of_nonneg_right e1 (by positivity)
    have e6 : Real.exp (K * dt) * ((e 0 + n * D) * Real.exp (K * (n * dt))) =
        (e 0 + n * D) * Real.exp (K * (((n + 1 : ℕ) : ℝ) * dt)) := by rw [← e2]; ring
    have e7 := mul_le_mul_of_nonneg_left e3 hD
    push_cast at e6 e7 ⊢
    linarith

/-- A method whose exact steps have an error of order `p + 1`, carried out with an error `δ` in every step from
a start with error `η`. -/
theorem accumulate_rounded {E : Type} [NormedAddCommGroup E] {p : ℕ} (hp : 1 ≤ p) {T : ℝ} (hT : 0 ≤ T) {y : ℝ → E}
    {K C d : ℝ} (hK : 0 ≤ K) (hC : 0 ≤ C) (hd : 0 < d) {step : ℝ → ℝ → E → E → Prop}
    (hstep : ∀ dt t : ℝ, 0 < dt → dt ≤ d → 0 ≤ t → t + dt ≤ T → ∀ Y Y' : E, step dt t Y Y' → ‖Y - y t‖ ≤ 1 →
      ‖Y' - y (t + dt)‖ ≤ (1 + K * dt) * ‖Y - y t‖ + C * dt ^ (p + 1)) :
    ∃ B dt0 : ℝ, 0 < B ∧ 0 < dt0 ∧ dt0 ≤ d ∧ ∀ dt η δ : ℝ, 0 < dt → dt ≤ dt0 → 0 ≤ η → 0 ≤ δ →
      B * (η + δ / dt) ≤ 1 / 2 → ∀ Y : ℕ → E, ‖Y 0 - y 0‖ ≤ η →
      (∀ n : ℕ, ((n : ℝ) + 1) * dt ≤ T → ∃ Z, step dt ((n : ℝ) * dt) (Y n) Z ∧ ‖Y (n + 1) - Z‖ ≤ δ) →
        ∀ n : ℕ, (n : ℝ) * dt ≤ T → ‖Y n - y (n * dt)‖ ≤ B * (η + dt ^ p + δ / dt) := by
  set B : ℝ := (1 + T + T * C) * Real.exp (K * T) with hB
  have hB0 : 0 < B := by positivity
  refine ⟨B, min (min 1 d) (1 / (2 * (B + 1))), hB0, by positivity, (min_le_left _ _).trans (min_le_right _ _), ?_⟩
  intro dt η δ hdt hdt0 hη hδ hsmall Y hY0 hY
  have hdt1 : dt ≤ 1 := hdt0.trans ((min_le_left _ _).trans (min_le_left _ _))
  have hdd : dt ≤ d := hdt0.trans ((min_le_left _ _).trans (min_le_right _ _))
  have hp0 : 0 ≤ dt ^ p := by positivity
  have hdp : dt ^ p ≤ dt := by
    have := pow_le_pow_of_le_one hdt.le hdt1 hp
    rwa [pow_one] at this
  have hdB : B * dt ^ p ≤ 1 / 2 := by
    have h1 : dt ≤ 1 / (2 * (B + 1)) := hdt0.trans (min_le_right _ _)
    rw [le_div_iff₀ (by positivity)] at h1
    have := mul_le_mul_of_nonneg_left hdp hB0.le
    nlinarith
  have hδd : 0 ≤ δ / dt := by positivity
  have htotal : B * (η + dt ^ p + δ / dt) ≤ 1 := by
    have : B * (η + dt ^ p + δ / dt) = B * (η + δ / dt) + B * dt ^ p := by ring
    linarith
  have bound : ∀ n : ℕ, (n : ℝ) * dt ≤ T →
      (∀ j < n, ‖Y (j + 1) - y ((j + 1 : ℕ) * dt)‖ ≤ (1 + K * dt) * ‖Y j - y (j * dt)‖ + (C * dt ^ (p + 1) + δ)) →
        ‖Y n - y (n * dt)‖ ≤ B * (η + dt ^ p + δ / dt) := by
    intro n hn hs
    have hb := grow_from (e := fun j => ‖Y j - y (j * dt)‖) (D := C * dt ^ (p + 1) + δ) hK (by positivity) hdt.le
      (norm_nonneg _) (n := n) hs
    have h0 : ‖Y 0 - y ((0 : ℕ) * dt)‖ ≤ η := by
      rw [Nat.cast_zero, zero_mul]; exact hY0
    have hn0 : 0 ≤ (n : ℝ) * dt := by positivity
    have e1 : Real.exp (K * (n * dt)) ≤ Real.exp (K * T) := Real.exp_le_exp.mpr (mul_le_mul_of_nonneg_left hn hK)
    have e2 : (n : ℝ) * (C * dt ^ (p + 1) + δ) = (n * dt) * (C * dt ^ p + δ / dt) := by
      field_simp
      ring
    have e3 : (n * dt) * (C * dt ^ p + δ / dt) ≤ T * (C * dt ^ p + δ / dt) :=
      mul_le_mul_of_nonneg_right hn (by positivity)
    have e4 : ‖Y 0 - y ((0 : ℕ) * dt)‖ + n * (C * dt ^ (p + 1) + δ) ≤ (1 + T + T * C) * (η + dt ^ p + δ / dt) := by
      rw [e2]
      have q1 : 0 ≤ (T + T * C) * η := by positivity
      have q2 : 0 ≤ (1 + T) * dt ^ p := by positivity
      have q3 : 0 ≤ (1 + T * C) * (δ / dt) := by positivity
      have q4 : (1 + T + T * C) * (η + dt ^ p + δ / dt) = η + T * (C * dt ^ p + δ / dt) + ((T + T * C) * η +
          (1 + T) * dt ^ p + (1 + T * C) * (δ / dt)) := by ring
      rw [q4]
      exact (add_le_add h0 e3).trans (le_add_of_nonneg_right (by positivity))
    refine hb.trans ((mul_le_mul e4 e1 (Real.exp_nonneg _) (by positivity)).trans (le_of_eq ?_))
    rw [hB]
    ring
  have key : ∀ n : ℕ, (n : ℝ) * dt ≤ T →
      ∀ j < n, ‖Y (j + 1) - y ((j + 1 : ℕ) * dt)‖ ≤ (1 + K * dt) * ‖Y j - y (j * dt)‖ + (C * dt ^ (p + 1) + δ) := by
    intro n
    induction n with
    | zero => intro _ j hj; exact absurd hj (Nat.not_lt_zero _)
    | succ n ih =>
      intro hn j hj
      have hn' : ((n : ℝ) + 1) * dt ≤ T := by push_cast at hn; exact hn
      have hnT : (n : ℝ) * dt ≤ T := by nlinarith
      rcases Nat.lt_succ_iff_lt_or_eq.mp hj with hj | rfl
      · exact ih hnT j hj
      · obtain ⟨Z, hZ, hYZ⟩ := hY j hn'
        have hj0 : 0 ≤ (j : ℝ) * dt := by positivity
        have hs := hstep dt (j * dt) hdt hdd hj0 (by linarith) (Y j) Z hZ ((bound j hnT (ih hnT)).trans htotal)
        have ht : ((j + 1 : ℕ) : ℝ) * dt = j * dt + dt := by push_cast; ring
        rw [ht]
        have := norm_sub_le_norm_sub_add_norm_sub (Y (j + 1)) Z (y (j * dt + dt))
        linarith
  exact fun n hn => bound n hn (key n hn)

end Gopf.Converge
