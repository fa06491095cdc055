import Verif.Proofs.Converge
import Mathlib.Analysis.ODE.ExistUnique
import Mathlib.Analysis.Calculus.Deriv.Prod

/-!
# Existence of solutions of the equations `y i' = G i t y y + a i y i`
-/

namespace Gopf.Converge
open Set

variable {nf N : ℕ} {T : ℝ} {a : State nf N} {G : Fin nf → ℝ → State nf N → State nf N → Fin N → ℂ}

/-- `y` solves the equations on `[t0, t1]`. -/
def SolvesOn (t0 t1 : ℝ) (a : State nf N) (G : Fin nf → ℝ → State nf N → State nf N → Fin N → ℂ)
    (y : ℝ → State nf N) : Prop :=
  ∀ t ∈ Icc t0 t1, ∀ i, HasDerivWithinAt (fun s => y s i) (G i t (y t) (y t) + a i * y t i) (Icc t0 t1) t

/-- Picard–Lindelöf: solutions exist on intervals whose length depends only on a bound of the initial value. -/
theorem local_solution (hT : 0 ≤ T) (hG : LipBounded T G) (R : ℝ) :
    ∃ τ : ℝ, 0 < τ ∧ ∀ t0 t1 : ℝ, 0 ≤ t0 → t0 ≤ t1 → t1 ≤ T → t1 ≤ t0 + τ → ∀ y0 : State nf N, ‖y0‖ ≤ R →
      ∃ y : ℝ → State nf N, y t0 = y0 ∧ SolvesOn t0 t1 a G y := by
  obtain ⟨L, hL, hLip⟩ := hG (max R 0 + 1)
  have hR0 : 0 ≤ max R 0 := le_max_right _ _
  set F : ℝ → State nf N → State nf N := fun t y i => G i t y y + a i * y i with hF
  have h0 : (0 : ℝ) ∈ Icc 0 T := ⟨le_rfl, hT⟩
  have hmul : ∀ i (v : Fin N → ℂ), ‖a i * v‖ ≤ ‖a‖ * ‖v‖ := fun i v =>
    (norm_mul_le _ _).trans (mul_le_mul_of_nonneg_right (norm_le_pi_norm a i) (norm_nonneg _))
  have hdist : ∀ s ∈ Icc 0 T, ∀ t ∈ Icc 0 T, ∀ x x' : State nf N, ‖x‖ ≤ max R 0 + 1 → ‖x'‖ ≤ max R 0 + 1 →
      ‖F s x - F t x'‖ ≤ L * |s - t| + (2 * L + ‖a‖) * ‖x - x'‖ := by
    intro s hs t ht x x' hx hx'
    rw [pi_norm_le_iff_of_nonneg (by positivity)]
    intro i
    have e : (F s x - F t x') i = (G i s x x - G i t x' x') + a i * (x i - x' i) := by
      simp only [hF, Pi.sub_apply]
      ring
    rw [e]
    have h1 := hLip i s hs t ht x x' x x' hx hx' hx hx'
    have h2 := (hmul i (x i - x' i)).trans
      (mul_le_mul_of_nonneg_left (norm_le_pi_norm (x - x') i) (norm_nonneg a))
    have h3 := norm_add_le (G i s x x - G i t x' x') (a i * (x i - x' i))
    linarith
  set B : ℝ := ‖F 0 0‖ + L * T + (2 * L + ‖a‖) * (max R 0 + 1) with hB
  have hB0 : 0 ≤ B := by positivity
  refine ⟨1 / (B + 1), by positivity, ?_⟩
  intro t0 t1 ht0 ht01 ht1 hτ y0 hy0
  have hsub : ∀ t ∈ Icc t0 t1, t ∈ Icc 0 T := fun t ht => ⟨ht0.trans ht.1, ht.2.trans ht1⟩
  have hball : ∀ x ∈ Metric.closedBall y0 (1 : ℝ), ‖x‖ ≤ max R 0 + 1 := by
    intro x hx
    rw [mem_closedBall_iff_norm] at hx
    have := norm_le_norm_add_norm_sub' x y0
    have := le_max_left R 0
    linarith
  have hpl : IsPicardLindelof F (⟨t0, le_rfl, ht01⟩ : Icc t0 t1) y0 1 0 ⟨B, hB0⟩ ⟨2 * L + ‖a‖, by positivity⟩ := by
    refine ⟨?_, ?_, ?_, ?_⟩
    · intro t ht
      refine LipschitzOnWith.of_dist_le_mul fun x hx y hy => ?_
      rw [dist_eq_norm, dist_eq_norm]
      have := hdist t (hsub t ht) t (hsub t ht) x y (hball x hx) (hball y hy)
      rw [sub_self, abs_zero, mul_zero, zero_add] at this
      exact this
    · intro x hx
      have : LipschitzOnWith ⟨L, hL⟩ (fun t => F t x) (Icc t0 t1) := by
        refine LipschitzOnWith.of_dist_le_mul fun s hs t ht => ?_
        rw [dist_eq_norm, Real.dist_eq]
        have := hdist s (hsub s hs) t (hsub t ht) x x (hball x hx) (hball x hx)
        rw [sub_self x, norm_zero, mul_zero, add_zero] at this
        exact this
      exact this.continuousOn
    · intro t ht x hx
      have h1 := hdist t (hsub t ht) 0 h0 x 0 (hball x hx) (by rw [norm_zero]; positivity)
      rw [sub_zero, sub_zero, abs_of_nonneg (hsub t ht).1] at h1
      have h2 := norm_le_norm_add_norm_sub' (F t x) (F 0 0)
      have h3 : L * t ≤ L * T := mul_le_mul_of_nonneg_left (hsub t ht).2 hL
      have h4 : (2 * L + ‖a‖) * ‖x‖ ≤ (2 * L + ‖a‖) * (max R 0 + 1) :=
        mul_le_mul_of_nonneg_left (hball x hx) (by positivity)
      show ‖F t x‖ ≤ B
      linarith
    · show B * max (t1 - t0) (t0 - t0) ≤ 1 - 0
      rw [sub_self, max_eq_left (by linarith), sub_zero]
      have h1 : t1 - t0 ≤ 1 / (B + 1) := by linarith
      calc B * (t1 - t0) ≤ B * (1 / (B + 1)) := mul_le_mul_of_nonneg_left h1 hB0
        _ ≤ 1 := by rw [mul_one_div, div_le_one (by positivity)]; linarith
  obtain ⟨y, hy0', hy⟩ := hpl.exists_eq_forall_mem_Icc_hasDerivWithinAt₀
  refine ⟨y, hy0', ?_⟩
  intro t ht i
  exact (hasDerivWithinAt_pi.mp (hy t ht)) i

/-- Solutions on adjacent intervals can be joined. -/
theorem glue {t0 t1 t2 : ℝ} (h01 : t0 ≤ t1) (h12 : t1 ≤ t2) {y z : ℝ → State nf N} (hy : SolvesOn t0 t1 a G y)
    (hz : SolvesOn t1 t2 a G z) (e : y t1 = z t1) :
    SolvesOn t0 t2 a G (fun t => if t ≤ t1 then y t else z t) := by
  set w : ℝ → State nf N := fun t => if t ≤ t1 then y t else z t with hw
  have wl : ∀ t ≤ t1, w t = y t := fun t ht => if_pos ht
  have wr : ∀ t, t1 ≤ t → w t = z t := by
    intro t ht
    rcases ht.eq_or_lt with rfl | hlt
    · rw [wl _ le_rfl, e]
    · exact if_neg (not_le.mpr hlt)
  have dl : ∀ t ∈ Icc t0 t1, ∀ i, HasDerivWithinAt (fun s => w s i) (G i t (w t) (w t) + a i * w t i) (Icc t0 t1) t := by
    intro t ht i
    rw [wl t ht.2]
    exact (hy t ht i).congr (fun s hs => by rw [wl s hs.2]) (by rw [wl t ht.2])
  have dr : ∀ t ∈ Icc t1 t2, ∀ i, HasDerivWithinAt (fun s => w s i) (G i t (w t) (w t) + a i * w t i) (Icc t1 t2) t := by
    intro t ht i
    rw [wr t ht.1]
    exact (hz t ht i).congr (fun s hs => by rw [wr s hs.1]) (by rw [wr t ht.1])
  intro t ht i
  rcases lt_trichotomy t t1 with hlt | rfl | hgt
  · refine (dl t ⟨ht.1, hlt.le⟩ i).mono_of_mem_nhdsWithin ?_
    rw [mem_nhdsWithin]
    exact ⟨Iio t1, isOpen_Iio, hlt, fun s hs => ⟨hs.2.1, hs.1.le⟩⟩
  · rw [← Icc_union_Icc_eq_Icc h01 h12]
    exact (dl t ⟨h01, le_rfl⟩ i).union (dr t ⟨le_rfl, h12⟩ i)
  · refine (dr t ⟨hgt.le, ht.2⟩ i).mono_of_mem_nhdsWithin ?_
    rw [mem_nhdsWithin]
    exact ⟨Ioi t1, isOpen_Ioi, hgt, fun s hs => ⟨hs.1.le, hs.2.2⟩⟩

/-- A bound on the end values of all solutions from `y0` gives a solution on the whole interval. -/
theorem continuation (hT : 0 ≤ T) (hG : LipBounded T G) (R : ℝ) (y0 : State nf N)
    (hR : ∀ T' ∈ Icc 0 T, ∀ y : ℝ → State nf N, y 0 = y0 → Solves T' a G y → ‖y T'‖ ≤ R) :
    ∃ y : ℝ → State nf N, y 0 = y0 ∧ Solves T a G y := by
  obtain ⟨τ, hτ, hloc⟩ := local_solution (a := a) hT hG (max R ‖y0‖)
  have step : ∀ k : ℕ, ∃ y : ℝ → State nf N, y 0 = y0 ∧ Solves (min ((k : ℝ) * τ) T) a G y := by
    intro k
    induction k with
    | zero =>
      obtain ⟨y, h1, h2⟩ := hloc 0 0 le_rfl le_rfl hT (by linarith) y0 (le_max_right _ _)
      refine ⟨y, h1, ?_⟩
      have e : min (((0 : ℕ) : ℝ) * τ) T = 0 := by
        rw [Nat.cast_zero, zero_mul, min_eq_left hT]
      rw [e]
      exact h2
    | succ k ih =>
      obtain ⟨y, hy0, hy⟩ := ih
      have hk : 0 ≤ (k : ℝ) * τ := by positivity
      set s := min ((k : ℝ) * τ) T with hs
      set s' := min (((k + 1 : ℕ) : ℝ) * τ) T with hs'
      have hcast : ((k + 1 : ℕ) : ℝ) * τ = (k : ℝ) * τ + τ := by push_cast; ring
      have hs0 : 0 ≤ s := le_min hk hT
      have hsT : s ≤ T := min_le_right _ _
      have hss : s ≤ s' := by
        rw [hs', hcast]
        exact le_min ((min_le_left _ _).trans (by linarith)) hsT
      have hs'τ : s' ≤ s + τ := by
        rw [hs', hcast, hs]
        rcases le_total ((k : ℝ) * τ) T with hle | hle
        · rw [min_eq_left hle]; exact min_le_left _ _
        · rw [min_eq_right hle]; exact (min_le_right _ _).trans (by linarith)
      obtain ⟨z, hz0, hz⟩ := hloc s s' hs0 hss (min_le_right _ _) hs'τ (y s)
        ((hR s ⟨hs0, hsT⟩ y hy0 hy).trans (le_max_left _ _))
      refine ⟨_, ?_, glue hs0 hss hy hz hz0.symm⟩
      simp only [if_pos hs0, hy0]
  obtain ⟨k, hk⟩ := exists_nat_ge (T / τ)
  obtain ⟨y, h1, h2⟩ := step k
  have : T ≤ (k : ℝ) * τ := (div_le_iff₀ hτ).mp hk
  rw [min_eq_right this] at h2
  exact ⟨y, h1, h2⟩

end Gopf.Converge
