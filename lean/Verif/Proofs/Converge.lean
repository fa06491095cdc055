import Mathlib.Analysis.Calculus.MeanValue
import Mathlib.Analysis.Complex.Basic
import Mathlib.Analysis.SpecialFunctions.Exp
import Mathlib.Tactic.LinearCombination
import Mathlib.Tactic.Positivity

/-!
# Convergence of a semi-implicit one step method

The equations `y i' = G i t y y + a i y i` are advanced one after the other: equation `i` sees the new values of
the components before it (third argument of `G`) and the old state (fourth argument).
-/

namespace Gopf.Converge
open Set

variable {nf N : ℕ}

/-- The state of the method. -/
abbrev State (nf N : ℕ) := Fin nf → Fin N → ℂ

/-- What equation `i` sees: components before it are new. -/
def mix (i : Fin nf) (Y' Y : State nf N) : State nf N := fun j => if j < i then Y' j else Y j

/-- Lipschitz on bounded sets, with time in `[0, T]`. -/
def LipBounded (T : ℝ) (G : Fin nf → ℝ → State nf N → State nf N → Fin N → ℂ) : Prop :=
  ∀ R : ℝ, ∃ L : ℝ, 0 ≤ L ∧ ∀ i, ∀ s ∈ Icc 0 T, ∀ t ∈ Icc 0 T, ∀ X X' Y Y' : State nf N,
    ‖X‖ ≤ R → ‖X'‖ ≤ R → ‖Y‖ ≤ R → ‖Y'‖ ≤ R →
      ‖G i s X Y - G i t X' Y'‖ ≤ L * (|s - t| + ‖X - X'‖ + ‖Y - Y'‖)

/-- One step of the method. -/
def IsStep (a : State nf N) (G : Fin nf → ℝ → State nf N → State nf N → Fin N → ℂ) (dt t : ℝ)
    (Y Y' : State nf N) : Prop :=
  ∀ i k, (1 - (dt : ℂ) * a i k) * Y' i k = Y i k + (dt : ℂ) * G i t (mix i Y' Y) Y k

/-- The exact solution. -/
def Solves (T : ℝ) (a : State nf N) (G : Fin nf → ℝ → State nf N → State nf N → Fin N → ℂ)
    (y : ℝ → State nf N) : Prop :=
  ∀ t ∈ Icc 0 T, ∀ i, HasDerivWithinAt (fun s => y s i) (G i t (y t) (y t) + a i * y t i) (Icc 0 T) t

variable {T : ℝ} {a : State nf N} {G : Fin nf → ℝ → State nf N → State nf N → Fin N → ℂ} {y : ℝ → State nf N}

theorem regular (hT : 0 ≤ T) (hG : LipBounded T G) (hy : Solves T a G y) :
    ∃ M : ℝ, 0 ≤ M ∧ (∀ t ∈ Icc 0 T, ‖y t‖ ≤ M) ∧ (∀ s ∈ Icc 0 T, ∀ t ∈ Icc 0 T, ‖y s - y t‖ ≤ M * |s - t|) ∧
      ∀ t ∈ Icc 0 T, ∀ h, 0 ≤ h → t + h ≤ T → ∀ i,
        ‖y (t + h) i - y t i - (h : ℂ) • (G i t (y t) (y t) + a i * y t i)‖ ≤ M * h ^ 2 := by
  have hcont : ContinuousOn y (Icc 0 T) := by
    rw [continuousOn_pi]
    intro i t ht
    exact (hy t ht i).continuousWithinAt
  obtain ⟨R0, hR0⟩ := isCompact_Icc.exists_bound_of_continuousOn hcont
  set R := max R0 0 with hR
  have hyR : ∀ t ∈ Icc 0 T, ‖y t‖ ≤ R := fun t ht => (hR0 t ht).trans (le_max_left _ _)
  have hRn : 0 ≤ R := le_max_right _ _
  obtain ⟨L, hL, hLip⟩ := hG R
  have h0 : (0 : ℝ) ∈ Icc 0 T := ⟨le_rfl, hT⟩
  set D : ℝ → State nf N := fun t i => G i t (y t) (y t) + a i * y t i with hD
  -- the derivative is bounded
  set G0 : ℝ := ∑ i, ‖G i 0 (y 0) (y 0)‖ with hG0
  have hG0n : ∀ i, ‖G i 0 (y 0) (y 0)‖ ≤ G0 := fun i =>
    Finset.single_le_sum (f := fun i => ‖G i 0 (y 0) (y 0)‖) (fun j _ => norm_nonneg _) (Finset.mem_univ i)
  set M1 : ℝ := G0 + L * (T + 2 * R + 2 * R) + ‖a‖ * R with hM1
  have hG0' : 0 ≤ G0 := Finset.sum_nonneg fun i _ => norm_nonneg _
  have hM1n : 0 ≤ M1 := by positivity
  have hmul : ∀ i (v : Fin N → ℂ), ‖a i * v‖ ≤ ‖a‖ * ‖v‖ := fun i v =>
    (norm_mul_le _ _).trans (mul_le_mul_of_nonneg_right (norm_le_pi_norm a i) (norm_nonneg _))
  have hDb : ∀ t ∈ Icc 0 T, ∀ i, ‖D t i‖ ≤ M1 := by
    intro t ht i
    have h1 := hLip i t ht 0 h0 (y t) (y 0) (y t) (y 0) (hyR t ht) (hyR 0 h0) (hyR t ht) (hyR 0 h0)
    have h2 : ‖y t - y 0‖ ≤ 2 * R := (norm_sub_le _ _).trans (by linarith [hyR t ht, hyR 0 h0])
    have h3 : |t - 0| ≤ T := by rw [sub_zero, abs_of_nonneg ht.1]; exact ht.2
    have h4 : ‖G i t (y t) (y t)‖ ≤ G0 + L * (T + 2 * R + 2 * R) := by
      have : ‖G i t (y t) (y t)‖ ≤ ‖G i t (y t) (y t) - G i 0 (y 0) (y 0)‖ + ‖G i 0 (y 0) (y 0)‖ := by
        have := norm_add_le (G i t (y t) (y t) - G i 0 (y 0) (y 0)) (G i 0 (y 0) (y 0))
        rwa [sub_add_cancel] at this
      have h5 : L * (|t - 0| + ‖y t - y 0‖ + ‖y t - y 0‖) ≤ L * (T + 2 * R + 2 * R) :=
        mul_le_mul_of_nonneg_left (by linarith) hL
      linarith [hG0n i]
    have h6 : ‖a i * y t i‖ ≤ ‖a‖ * R := (hmul i _).trans
      (mul_le_mul_of_nonneg_left ((norm_le_pi_norm (y t) i).trans (hyR t ht)) (norm_nonneg _))
    calc ‖D t i‖ ≤ ‖G i t (y t) (y t)‖ + ‖a i * y t i‖ := norm_add_le _ _
      _ ≤ M1 := by rw [hM1]; linarith
  -- the solution is Lipschitz
  have hyL : ∀ s ∈ Icc 0 T, ∀ t ∈ Icc 0 T, ‖y s - y t‖ ≤ M1 * |s - t| := by
    intro s hs t ht
    rw [pi_norm_le_iff_of_nonneg (by positivity)]
    intro i
    have := (convex_Icc (0 : ℝ) T).norm_image_sub_le_of_norm_hasDerivWithin_le (f := fun s => y s i)
      (fun x hx => hy x hx i) (fun x hx => hDb x hx i) ht hs
    simpa [Real.norm_eq_abs] using this
  -- the derivative is Lipschitz
  set M2 : ℝ := L * (1 + M1 + M1) + ‖a‖ * M1 with hM2
  have hM2n : 0 ≤ M2 := by positivity
  have hDL : ∀ s ∈ Icc 0 T, ∀ t ∈ Icc 0 T, ∀ i, ‖D s i - D t i‖ ≤ M2 * |s - t| := by
    intro s hs t ht i
    have h1 := hLip i s hs t ht (y s) (y t) (y s) (y t) (hyR s hs) (hyR t ht) (hyR s hs) (hyR t ht)
    have h2 := hyL s hs t ht
    have h3 : ‖a i * (y s i - y t i)‖ ≤ ‖a‖ * (M1 * |s - t|) := (hmul i _).trans
      (mul_le_mul_of_nonneg_left ((norm_le_pi_norm (y s - y t) i).trans h2) (norm_nonneg _))
    have e : D s i - D t i = (G i s (y s) (y s) - G i t (y t) (y t)) + a i * (y s i - y t i) := by
      simp only [hD]; ring
    rw [e]
    calc _ ≤ ‖G i s (y s) (y s) - G i t (y t) (y t)‖ + ‖a i * (y s i - y t i)‖ := norm_add_le _ _
      _ ≤ L * (|s - t| + M1 * |s - t| + M1 * |s - t|) + ‖a‖ * (M1 * |s - t|) := by
        refine add_le_add (h1.trans (mul_le_mul_of_nonneg_left (by linarith) hL)) h3
      _ = M2 * |s - t| := by rw [hM2]; ring
  refine ⟨R + M1 + M2, by positivity, fun t ht => (hyR t ht).trans (by linarith), fun s hs t ht =>
    (hyL s hs t ht).trans (mul_le_mul_of_nonneg_right (by linarith) (abs_nonneg _)), ?_⟩
  intro t ht h hh hth i
  have hsub : Icc t (t + h) ⊆ Icc 0 T := fun x hx => ⟨ht.1.trans hx.1, hx.2.trans hth⟩
  have hder : ∀ x ∈ Icc t (t + h), HasDerivWithinAt (fun s : ℝ => y s i - (s : ℂ) • D t i) (D x i - D t i)
      (Icc t (t + h)) x := by
    intro x hx
    have h1 := (hy x (hsub hx) i).mono hsub
    have h2 : HasDerivWithinAt (fun s : ℝ => (s : ℂ) • D t i) (D t i) (Icc t (t + h)) x := by
      have h3 : HasDerivWithinAt (fun s : ℝ => s • D t i) ((1 : ℝ) • D t i) (Icc t (t + h)) x :=
        (hasDerivWithinAt_id x _).smul_const (D t i)
      rw [one_smul] at h3
      exact h3
    exact h1.sub h2
  have := (convex_Icc t (t + h)).norm_image_sub_le_of_norm_hasDerivWithin_le (C := M2 * h) hder
    (fun x hx => (hDL x (hsub hx) t ht i).trans (mul_le_mul_of_nonneg_left
      (by rw [abs_of_nonneg (by linarith [hx.1])]; linarith [hx.2]) hM2n))
    (⟨le_rfl, by linarith⟩ : t ∈ Icc t (t + h)) (⟨by linarith, le_rfl⟩ : t + h ∈ Icc t (t + h))
  have e : y (t + h) i - ((t + h : ℝ) : ℂ) • D t i - (y t i - (t : ℂ) • D t i) =
      y (t + h) i - y t i - (h : ℂ) • D t i := by
    push_cast
    rw [add_smul]
    abel
  rw [e] at this
  refine this.trans ?_
  rw [add_sub_cancel_left, Real.norm_eq_abs, abs_of_nonneg hh]
  nlinarith [sq_nonneg h]

theorem inv_bound {A dt : ℝ} {z : ℂ} (hdt : 0 ≤ dt) (hz : ‖z‖ ≤ A) (hA : dt * A ≤ 1 / 2) {w v : ℂ} {b : ℝ}
    (hb : ‖v‖ ≤ b) (h : (1 - (dt : ℂ) * z) * w = v) : ‖w‖ ≤ (1 + 2 * dt * A) * b := by
  have h1 : ‖(dt : ℂ) * z‖ ≤ dt * A := by
    rw [norm_mul, Complex.norm_real, Real.norm_eq_abs, abs_of_nonneg hdt]
    exact mul_le_mul_of_nonneg_left hz hdt
  have h2 : 1 - dt * A ≤ ‖1 - (dt : ℂ) * z‖ := by
    have := norm_sub_norm_le (1 : ℂ) ((dt : ℂ) * z)
    rw [norm_one] at this
    linarith
  have h3 : (1 - dt * A) * ‖w‖ ≤ b := by
    refine le_trans ?_ hb
    rw [← h, norm_mul]
    exact mul_le_mul_of_nonneg_right h2 (norm_nonneg _)
  have hA0 : 0 ≤ dt * A := mul_nonneg hdt ((norm_nonneg _).trans hz)
  have hb0 : 0 ≤ b := (norm_nonneg _).trans hb
  have h4 : 1 ≤ (1 + 2 * dt * A) * (1 - dt * A) := by nlinarith
  calc ‖w‖ ≤ ((1 + 2 * dt * A) * (1 - dt * A)) * ‖w‖ := le_mul_of_one_le_left (norm_nonneg _) h4
    _ = (1 + 2 * dt * A) * ((1 - dt * A) * ‖w‖) := by ring
    _ ≤ (1 + 2 * dt * A) * b := mul_le_mul_of_nonneg_left h3 (by linarith)

/-- The error after one step, in terms of the error before it. -/
theorem one_step (hT : 0 ≤ T) (hG : LipBounded T G) (hy : Solves T a G y) :
    ∃ K C : ℝ, 0 ≤ K ∧ 0 ≤ C ∧ ∀ dt t : ℝ, 0 < dt → dt ≤ 1 → dt * ‖a‖ ≤ 1 / 2 → 0 ≤ t → t + dt ≤ T →
      ∀ Y Y' : State nf N, IsStep a G dt t Y Y' → ‖Y - y t‖ ≤ 1 →
        ‖Y' - y (t + dt)‖ ≤ (1 + K * dt) * ‖Y - y t‖ + C * dt ^ 2 := by
  obtain ⟨M, hM, hyM, hyL, hyT⟩ := regular hT hG hy
  have key : ∀ n : ℕ, ∃ K C : ℝ, 0 ≤ K ∧ 0 ≤ C ∧ ∀ dt t : ℝ, 0 < dt → dt ≤ 1 → dt * ‖a‖ ≤ 1 / 2 → 0 ≤ t →
      t + dt ≤ T → ∀ Y Y' : State nf N, IsStep a G dt t Y Y' → ‖Y - y t‖ ≤ 1 → ∀ i : Fin nf, i.val < n →
        ‖Y' i - y (t + dt) i‖ ≤ (1 + K * dt) * ‖Y - y t‖ + C * dt ^ 2 := by
    intro n
    induction n with
    | zero => exact ⟨0, 0, le_rfl, le_rfl, fun _ _ _ _ _ _ _ _ _ _ _ i hi => absurd hi (Nat.not_lt_zero _)⟩
    | succ n ih =>
      obtain ⟨K, C, hK, hC, hprev⟩ := ih
      set R : ℝ := M + (1 + K + C + M) with hR
      obtain ⟨L, hL, hLip⟩ := hG R
      set A := ‖a‖ with hA
      have hA0 : 0 ≤ A := norm_nonneg _
      refine ⟨K + (2 * A + 2 * L * (2 + K)), C + 2 * (L * (C + M) + (1 + A) * M), by positivity, by positivity, ?_⟩
      intro dt t hdt hdt1 hdA ht htT Y Y' hstep he i hi
      set e := ‖Y - y t‖ with hee
      have he0 : 0 ≤ e := norm_nonneg _
      have htI : t ∈ Icc 0 T := ⟨ht, by linarith⟩
      have htI' : t + dt ∈ Icc 0 T := ⟨by linarith, htT⟩
      rcases Nat.lt_succ_iff_lt_or_eq.mp hi with hi | hi
      · refine (hprev dt t hdt hdt1 hdA ht htT Y Y' hstep he i hi).trans ?_
        have : 0 ≤ (2 * A + 2 * L * (2 + K)) * dt * e := by positivity
        have : 0 ≤ 2 * (L * (C + M) + (1 + A) * M) * dt ^ 2 := by positivity
        nlinarith
      · -- what the equation sees
        set X := mix i Y' Y with hX
        have hdiff : ‖y (t + dt) - y t‖ ≤ M * dt := by
          have := hyL (t + dt) htI' t htI
          rwa [add_sub_cancel_left, abs_of_pos hdt] at this
        have hXy : ‖X - y t‖ ≤ (1 + K) * e + (C + M) * dt := by
          rw [pi_norm_le_iff_of_nonneg (by positivity)]
          intro j
          simp only [hX, mix, Pi.sub_apply]
          split_ifs with hj
          · have h1 := hprev dt t hdt hdt1 hdA ht htT Y Y' hstep he j (by rw [← hi]; exact hj)
            have h2 : ‖y (t + dt) j - y t j‖ ≤ M * dt := (norm_le_pi_norm (y (t + dt) - y t) j).trans hdiff
            have h3 : ‖Y' j - y t j‖ ≤ ‖Y' j - y (t + dt) j‖ + ‖y (t + dt) j - y t j‖ := norm_sub_le_norm_sub_add_norm_sub _ _ _
            have h4 : K * dt * e ≤ K * e := by
              have := mul_le_mul_of_nonneg_left hdt1 (mul_nonneg hK he0)
              nlinarith
            have h5 : C * dt ^ 2 ≤ C * dt := mul_le_mul_of_nonneg_left (by nlinarith) hC
            nlinarith
          · refine (norm_le_pi_norm (Y - y t) j).trans ?_
            have : 0 ≤ K * e := by positivity
            have : 0 ≤ (C + M) * dt := by positivity
            nlinarith
        have hη : (1 + K) * e + (C + M) * dt ≤ 1 + K + C + M := by nlinarith
        have hXR : ‖X‖ ≤ R := by
          have := norm_add_le (X - y t) (y t)
          rw [sub_add_cancel] at this
          have := hyM t htI
          linarith
        have hYR : ‖Y‖ ≤ R := by
          have := norm_add_le (Y - y t) (y t)
          rw [sub_add_cancel] at this
          have := hyM t htI
          linarith
        have hyR : ‖y t‖ ≤ R := (hyM t htI).trans (by rw [hR]; linarith)
        have hD := hLip i t htI t htI X (y t) Y (y t) hXR hyR hYR hyR
        rw [sub_self, abs_zero, zero_add] at hD
        have hD' : ‖G i t X Y - G i t (y t) (y t)‖ ≤ L * ((2 + K) * e + (C + M) * dt) :=
          hD.trans (mul_le_mul_of_nonneg_left (by linarith) hL)
        have hτ := hyT t htI dt hdt.le htT i
        set b : ℝ := e + dt * (L * ((2 + K) * e + (C + M) * dt)) + (M * dt ^ 2 + dt * (A * (M * dt))) with hb
        have hb0 : 0 ≤ b := by positivity
        have hmain : ‖Y' i - y (t + dt) i‖ ≤ (1 + 2 * dt * A) * b := by
          rw [pi_norm_le_iff_of_nonneg (by positivity)]
          intro k
          refine inv_bound hdt.le ((norm_le_pi_norm (a i) k).trans (norm_le_pi_norm a i)) hdA (v :=
            (Y i k - y t i k) + (dt : ℂ) * (G i t X Y k - G i t (y t) (y t) k) -
              ((y (t + dt) i k - y t i k - (dt : ℂ) * (G i t (y t) (y t) k + a i k * y t i k)) -
                (dt : ℂ) * (a i k * (y (t + dt) i k - y t i k)))) ?_ ?_
          · have n1 : ‖Y i k - y t i k‖ ≤ e :=
              (norm_le_pi_norm ((Y - y t) i) k).trans (norm_le_pi_norm (Y - y t) i)
            have n2 : ‖(dt : ℂ) * (G i t X Y k - G i t (y t) (y t) k)‖ ≤ dt * (L * ((2 + K) * e + (C + M) * dt)) := by
              rw [norm_mul, Complex.norm_real, Real.norm_eq_abs, abs_of_pos hdt]
              exact mul_le_mul_of_nonneg_left ((norm_le_pi_norm (G i t X Y - G i t (y t) (y t)) k).trans hD') hdt.le
            have n3 : ‖y (t + dt) i k - y t i k - (dt : ℂ) * (G i t (y t) (y t) k + a i k * y t i k)‖ ≤ M * dt ^ 2 :=
              (norm_le_pi_norm (y (t + dt) i - y t i - (dt : ℂ) • (G i t (y t) (y t) + a i * y t i)) k).trans hτ
            have n4 : ‖(dt : ℂ) * (a i k * (y (t + dt) i k - y t i k))‖ ≤ dt * (A * (M * dt)) := by
              rw [norm_mul, norm_mul, Complex.norm_real, Real.norm_eq_abs, abs_of_pos hdt]
              refine mul_le_mul_of_nonneg_left (mul_le_mul ((norm_le_pi_norm (a i) k).trans (norm_le_pi_norm a i))
                ?_ (norm_nonneg _) hA0) hdt.le
              exact ((norm_le_pi_norm ((y (t + dt) - y t) i) k).trans (norm_le_pi_norm (y (t + dt) - y t) i)).trans hdiff
            calc _ ≤ ‖Y i k - y t i k‖ + ‖(dt : ℂ) * (G i t X Y k - G i t (y t) (y t) k)‖ +
                (‖y (t + dt) i k - y t i k - (dt : ℂ) * (G i t (y t) (y t) k + a i k * y t i k)‖ +
                  ‖(dt : ℂ) * (a i k * (y (t + dt) i k - y t i k))‖) :=
                (norm_sub_le _ _).trans (add_le_add (norm_add_le _ _) (norm_sub_le _ _))
              _ ≤ b := by rw [hb]; linarith
          · have := hstep i k
            rw [← hX] at this
            rw [Pi.sub_apply]
            linear_combination this
        refine hmain.trans ?_
        have hdA' : 2 * dt * A ≤ 1 := by linarith
        have e1 : b = e + dt * (L * (2 + K)) * e + dt ^ 2 * (L * (C + M) + (1 + A) * M) := by rw [hb]; ring
        have e2 : (1 + 2 * dt * A) * b = e + 2 * dt * A * e + (1 + 2 * dt * A) * (dt * (L * (2 + K)) * e) +
            (1 + 2 * dt * A) * (dt ^ 2 * (L * (C + M) + (1 + A) * M)) := by rw [e1]; ring
        have p1 : 0 ≤ dt * (L * (2 + K)) * e := by positivity
        have p2 : 0 ≤ dt ^ 2 * (L * (C + M) + (1 + A) * M) := by positivity
        have q1 : (1 + 2 * dt * A) * (dt * (L * (2 + K)) * e) ≤ 2 * (dt * (L * (2 + K)) * e) :=
          mul_le_mul_of_nonneg_right (by linarith) p1
        have q2 : (1 + 2 * dt * A) * (dt ^ 2 * (L * (C + M) + (1 + A) * M)) ≤
            2 * (dt ^ 2 * (L * (C + M) + (1 + A) * M)) := mul_le_mul_of_nonneg_right (by linarith) p2
        have p3 : 0 ≤ K * dt * e := by positivity
        have p4 : 0 ≤ C * dt ^ 2 := by positivity
        rw [e2]
        have r1 : (1 + (K + (2 * A + 2 * L * (2 + K))) * dt) * e + (C + 2 * (L * (C + M) + (1 + A) * M)) * dt ^ 2 =
            e + 2 * dt * A * e + 2 * (dt * (L * (2 + K)) * e) + 2 * (dt ^ 2 * (L * (C + M) + (1 + A) * M)) +
              (K * dt * e + C * dt ^ 2) := by ring
        rw [r1]
        linarith
  obtain ⟨K, C, hK, hC, h⟩ := key nf
  refine ⟨K, C, hK, hC, ?_⟩
  intro dt t hdt hdt1 hdA ht htT Y Y' hstep he
  rw [pi_norm_le_iff_of_nonneg (by positivity)]
  intro i
  exact h dt t hdt hdt1 hdA ht htT Y Y' hstep he i i.isLt

/-- First order convergence. -/
theorem converges (hT : 0 ≤ T) (hG : LipBounded T G) (hy : Solves T a G y) :
    ∃ C dt0 : ℝ, 0 ≤ C ∧ 0 < dt0 ∧ ∀ dt : ℝ, 0 < dt → dt ≤ dt0 → ∀ Y : ℕ → State nf N, Y 0 = y 0 →
      (∀ n : ℕ, IsStep a G dt ((n : ℝ) * dt) (Y n) (Y (n + 1))) → ∀ n : ℕ, (n : ℝ) * dt ≤ T → ‖Y n - y (n * dt)‖ ≤ C * dt := by
  obtain ⟨K, C, hK, hC, hstep⟩ := one_step hT hG hy
  set B : ℝ := C * T * Real.exp (K * T) with hB
  have hB0 : 0 ≤ B := by positivity
  refine ⟨B, min (min 1 (1 / (2 * (‖a‖ + 1)))) (1 / (B + 1)), hB0, by positivity, ?_⟩
  intro dt hdt hdt0 Y hY0 hY
  have hdt1 : dt ≤ 1 := hdt0.trans ((min_le_left _ _).trans (min_le_left _ _))
  have hdA : dt * ‖a‖ ≤ 1 / 2 := by
    have h1 : dt ≤ 1 / (2 * (‖a‖ + 1)) := hdt0.trans ((min_le_left _ _).trans (min_le_right _ _))
    rw [le_div_iff₀ (by positivity)] at h1
    nlinarith
  have hdB : B * dt ≤ 1 := by
    have h1 : dt ≤ 1 / (B + 1) := hdt0.trans (min_le_right _ _)
    rw [le_div_iff₀ (by positivity)] at h1
    nlinarith
  have key : ∀ n : ℕ, (n : ℝ) * dt ≤ T → ‖Y n - y (n * dt)‖ ≤ C * (n * dt) * Real.exp (K * (n * dt)) * dt := by
    intro n
    induction n with
    | zero => intro _; simp [hY0]
    | succ n ih =>
      intro hn
      have hn' : ((n : ℝ) + 1) * dt ≤ T := by push_cast at hn; exact hn
      have hnT : (n : ℝ) * dt ≤ T := by nlinarith
      have hb := ih hnT
      have hndt : 0 ≤ (n : ℝ) * dt := by positivity
      have hle1 : ‖Y n - y (n * dt)‖ ≤ 1 := by
        refine hb.trans (le_trans ?_ hdB)
        refine mul_le_mul_of_nonneg_right ?_ hdt.le
        rw [hB]
        refine mul_le_mul (mul_le_mul_of_nonneg_left hnT hC) ?_ (Real.exp_nonneg _) (by positivity)
        exact Real.exp_le_exp.mpr (mul_le_mul_of_nonneg_left hnT hK)
      have hs := hstep dt (n * dt) hdt hdt1 hdA hndt (by linarith) (Y n) (Y (n + 1)) (hY n) hle1
      have ht : ((n + 1 : ℕ) : ℝ) * dt = n * dt + dt := by push_cast; ring
      rw [ht]
      refine hs.trans ?_
      set s : ℝ := n * dt with hsdef
      have e1 : 1 + K * dt ≤ Real.exp (K * dt) := by
        have := Real.add_one_le_exp (K * dt)
        linarith
      have e2 : Real.exp (K * (s + dt)) = Real.exp (K * s) * Real.exp (K * dt) := by
        rw [← Real.exp_add]; congr 1; ring
      have e3 : 1 ≤ Real.exp (K * (s + dt)) := Real.one_le_exp (by positivity)
      calc (1 + K * dt) * ‖Y n - y s‖ + C * dt ^ 2
          ≤ Real.exp (K * dt) * (C * s * Real.exp (K * s) * dt) + C * dt ^ 2 * Real.exp (K * (s + dt)) := by
            refine add_le_add (mul_le_mul e1 hb (norm_nonneg _) (Real.exp_nonneg _)) ?_
            exact le_mul_of_one_le_right (by positivity) e3
        _ = C * (s + dt) * Real.exp (K * (s + dt)) * dt := by rw [e2]; ring
  intro n hn
  refine (key n hn).trans (mul_le_mul_of_nonneg_right ?_ hdt.le)
  rw [hB]
  have hndt : 0 ≤ (n : ℝ) * dt := by positivity
  refine mul_le_mul (mul_le_mul_of_nonneg_left hn hC) ?_ (Real.exp_nonneg _) (by positivity)
  exact Real.exp_le_exp.mpr (mul_le_mul_of_nonneg_left hn hK)

end Gopf.Converge
