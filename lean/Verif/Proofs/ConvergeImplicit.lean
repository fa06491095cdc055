import Verif.Props.ImplicitEuler
import Verif.Proofs.ConvergeRk4
import Mathlib.Analysis.Calculus.Deriv.Prod
import Mathlib.Topology.MetricSpace.Contracting

/-!
# Convergence of the method that integrates a linear interpolation of the explicit part exactly
-/

namespace Gopf.Converge
open Set Pf Spec Props

/-! ## One bin -/

theorem integral_sub (dt : ℝ) (A N1 N0 M1 M0 : ℂ) :
    nonlinearIntegral dt A (N1 - M1) (N0 - M0) = nonlinearIntegral dt A N1 N0 - nonlinearIntegral dt A M1 M0 := by
  simp only [nonlinearIntegral]
  split_ifs <;> ring

theorem exp_first (z : ℂ) : ‖Complex.exp z - 1‖ ≤ ‖z‖ * Real.exp ‖z‖ := by
  have := Complex.norm_exp_sub_sum_le_norm_mul_exp z 1
  simpa using this

theorem exp_second (z : ℂ) : ‖Complex.exp z - z - 1‖ ≤ ‖z‖ ^ 2 * Real.exp ‖z‖ := by
  have := Complex.norm_exp_sub_sum_le_norm_mul_exp z 2
  rw [show Complex.exp z - z - 1 = Complex.exp z - ∑ m ∈ Finset.range 2, z ^ m / (m.factorial : ℂ) by
    simp [Finset.sum_range_succ]; ring]
  exact this

theorem exp_third (z : ℂ) : ‖Complex.exp z - 1 - z - z ^ 2 / 2‖ ≤ ‖z‖ ^ 3 * Real.exp ‖z‖ := by
  have := Complex.norm_exp_sub_sum_le_norm_mul_exp z 3
  rw [show Complex.exp z - 1 - z - z ^ 2 / 2 = Complex.exp z - ∑ m ∈ Finset.range 3, z ^ m / (m.factorial : ℂ) by
    simp [Finset.sum_range_succ, Nat.factorial]; ring]
  exact this

theorem norm_mul_dt {dt : ℝ} (hdt : 0 < dt) (A : ℂ) : ‖A * (dt : ℂ)‖ = ‖A‖ * dt := by
  rw [norm_mul, Complex.norm_real, Real.norm_of_nonneg hdt.le]

theorem exp_le_of {dt α : ℝ} (hdt : 0 < dt) (hdt1 : dt ≤ 1) {A : ℂ} (hA : ‖A‖ ≤ α) :
    Real.exp ‖A * (dt : ℂ)‖ ≤ Real.exp α := by
  rw [norm_mul_dt hdt]
  exact Real.exp_le_exp.mpr ((mul_le_of_le_one_right (norm_nonneg _) hdt1).trans hA)

theorem norm_exp_le_of {dt α : ℝ} (hdt : 0 < dt) (hdt1 : dt ≤ 1) {A : ℂ} (hA : ‖A‖ ≤ α) :
    ‖Complex.exp (A * (dt : ℂ))‖ ≤ 1 + α * Real.exp α * dt := by
  have h1 := exp_first (A * (dt : ℂ))
  have h2 : ‖Complex.exp (A * (dt : ℂ))‖ ≤ 1 + ‖Complex.exp (A * (dt : ℂ)) - 1‖ := by
    have := norm_add_le (1 : ℂ) (Complex.exp (A * (dt : ℂ)) - 1)
    rwa [add_sub_cancel, norm_one] at this
  have h3 := exp_le_of hdt hdt1 hA
  have h4 : ‖A * (dt : ℂ)‖ * Real.exp ‖A * (dt : ℂ)‖ ≤ α * dt * Real.exp α := by
    refine mul_le_mul ?_ h3 (Real.exp_nonneg _) (mul_nonneg ((norm_nonneg _).trans hA) hdt.le)
    rw [norm_mul_dt hdt]
    exact mul_le_mul_of_nonneg_right hA hdt.le
  linarith

theorem integral_norm {dt α : ℝ} (hdt : 0 < dt) (hdt1 : dt ≤ 1) {A : ℂ} (hA : ‖A‖ ≤ α) (N1 N0 : ℂ) :
    ‖nonlinearIntegral dt A N1 N0‖ ≤ dt * (2 * Real.exp α) * (‖N1‖ + ‖N0‖) := by
  have hE1 : 1 ≤ Real.exp α := Real.one_le_exp ((norm_nonneg _).trans hA)
  have hE := exp_le_of hdt hdt1 hA
  have hn1 := norm_nonneg N1
  have hn0 := norm_nonneg N0
  have hf : ‖Complex.exp (A * (dt : ℂ))‖ ≤ Real.exp α := (Complex.norm_exp_le_exp_norm _).trans hE
  simp only [nonlinearIntegral]
  split_ifs with hs
  · rw [norm_mul, norm_mul, Complex.norm_real, Real.norm_of_nonneg hdt.le]
    have h1 : ‖(1 / 2 : ℂ)‖ = 1 / 2 := by norm_num
    rw [h1]
    have h2 : ‖N1 + N0 * Complex.exp (A * (dt : ℂ))‖ ≤ Real.exp α * (‖N1‖ + ‖N0‖) := by
      refine (norm_add_le _ _).trans ?_
      rw [norm_mul]
      have a1 := mul_le_mul_of_nonneg_left hf hn0
      have a2 := mul_le_mul_of_nonneg_right hE1 hn1
      linarith
    have h3 := mul_le_mul_of_nonneg_left h2 (by positivity : 0 ≤ 1 / 2 * dt)
    have h4 : 0 ≤ dt * (Real.exp α * (‖N1‖ + ‖N0‖)) := by positivity
    linarith
  · have hA0 : A ≠ 0 := by
      rintro rfl
      exact hs (by rw [norm_zero]; norm_num)
    have hAn : 0 < ‖A‖ := norm_pos_iff.mpr hA0
    have e1 : ‖N0 * (Complex.exp (A * (dt : ℂ)) - 1) / A‖ ≤ ‖N0‖ * (dt * Real.exp α) := by
      rw [norm_div, norm_mul, mul_div_assoc]
      refine mul_le_mul_of_nonneg_left ?_ hn0
      rw [div_le_iff₀ hAn]
      refine (exp_first _).trans ?_
      rw [norm_mul_dt hdt] at hE ⊢
      have := mul_le_mul_of_nonneg_left hE (by positivity : 0 ≤ ‖A‖ * dt)
      linarith
    have e2 : ‖(N1 - N0) / (dt : ℂ) * (Complex.exp (A * (dt : ℂ)) - A * (dt : ℂ) - 1) / (A * A)‖ ≤
        (‖N1‖ + ‖N0‖) * (dt * Real.exp α) := by
      rw [norm_div, norm_mul, norm_div, norm_mul, Complex.norm_real, Real.norm_of_nonneg hdt.le,
        div_le_iff₀ (by positivity)]
      have b1 := exp_second (A * (dt : ℂ))
      rw [norm_mul_dt hdt] at b1 hE
      have b2 : ‖Complex.exp (A * (dt : ℂ)) - A * (dt : ℂ) - 1‖ ≤ (‖A‖ * dt) ^ 2 * Real.exp α :=
        b1.trans (mul_le_mul_of_nonneg_left hE (by positivity))
      have b3 : ‖N1 - N0‖ / dt ≤ (‖N1‖ + ‖N0‖) / dt := div_le_div_of_nonneg_right (norm_sub_le _ _) hdt.le
      refine (mul_le_mul b3 b2 (norm_nonneg _) (by positivity)).trans (le_of_eq ?_)
      field_simp
    refine (norm_add_le _ _).trans ?_
    have h4 : 0 ≤ dt * (Real.exp α * ‖N1‖) := by positivity
    nlinarith [e1, e2]

/-- The rule differs from the exact step by third order terms. -/
theorem bin_defect {dt α : ℝ} (hdt : 0 < dt) (hdt1 : dt ≤ 1) {A : ℂ} (hA : ‖A‖ ≤ α) (N0 N1 y0 : ℂ) :
    ∃ y1, IsExactStep dt A N0 N1 y0 y1 ∧
      ‖y0 * Complex.exp (A * dt) + nonlinearIntegral dt A N1 N0 - y1‖ ≤
        2 * Real.exp α * (α ^ 2 * ‖N0‖ * dt ^ 3 + α * ‖N1 - N0‖ * dt ^ 2) := by
  have hα : 0 ≤ α := (norm_nonneg _).trans hA
  have hpos : 0 ≤ 2 * Real.exp α * (α ^ 2 * ‖N0‖ * dt ^ 3 + α * ‖N1 - N0‖ * dt ^ 2) := by positivity
  by_cases hA0 : A = 0 ∨ 1 / 10 ^ 5 ≤ ‖A‖
  · obtain ⟨y1, h1, h2⟩ := c76_bin hdt (hdt1.trans (by norm_num)) A N0 N1 y0
    rw [stepDefect, if_pos hA0] at h2
    exact ⟨y1, h1, h2.trans hpos⟩
  · push Not at hA0
    refine ⟨_, exactStep_formula hdt.ne' hA0.1 N0 N1 y0, ?_⟩
    have hA' := hA0.1
    have hdtc : (dt : ℂ) ≠ 0 := by exact_mod_cast hdt.ne'
    simp only [nonlinearIntegral]
    rw [if_pos hA0.2]
    have hEz := exp_le_of hdt hdt1 hA
    set z : ℂ := A * dt with hz
    have hz0 : z ≠ 0 := mul_ne_zero hA' hdtc
    have hzn : ‖z‖ = ‖A‖ * dt := norm_mul_dt hdt A
    have hzα : ‖z‖ ≤ α * dt := by rw [hzn]; exact mul_le_mul_of_nonneg_right hA hdt.le
    have hz1 : ‖z‖ ≤ 1 := by
      rw [hzn]
      have := mul_le_mul hA0.2.le hdt1 hdt.le (by norm_num)
      exact this.trans (by norm_num)
    obtain ⟨ρ, hρ⟩ : ∃ ρ : ℂ, Complex.exp z = 1 + z + z ^ 2 / 2 + z ^ 2 * ρ :=
      ⟨(Complex.exp z - 1 - z - z ^ 2 / 2) / z ^ 2, by field_simp; ring⟩
    have hρn : ‖ρ‖ ≤ ‖z‖ * Real.exp α := by
      have h3 := exp_third z
      rw [hρ, show 1 + z + z ^ 2 / 2 + z ^ 2 * ρ - 1 - z - z ^ 2 / 2 = z ^ 2 * ρ by ring, norm_mul, norm_pow] at h3
      have hp : 0 < ‖z‖ ^ 2 := by positivity
      refine le_of_mul_le_mul_left (h3.trans ?_) hp
      have := mul_le_mul_of_nonneg_left hEz (by positivity : 0 ≤ ‖z‖ ^ 3)
      linarith
    have hdiff : y0 * Complex.exp z + 1 / 2 * (dt : ℂ) * (N1 + N0 * Complex.exp z) -
        (y0 * Complex.exp z + (N0 * (Complex.exp z - 1) / A +
          (N1 - N0) / dt * (Complex.exp z - z - 1) / (A * A))) =
        -(N0 * dt * (z * ρ * (1 - z / 2) - z ^ 2 / 4)) - (N1 - N0) * dt * ρ := by
      have e1 : (Complex.exp z - 1) / A = dt * (1 + z / 2 + z * ρ) := by
        rw [hρ, hz]; field_simp; ring
      have e2 : (Complex.exp z - z - 1) / (A * A) = dt * dt * (1 / 2 + ρ) := by
        rw [hρ, hz]; field_simp; ring
      rw [mul_div_assoc, mul_div_assoc, e1, e2, hρ]
      field_simp
      ring
    rw [hdiff]
    have hE1 : 1 ≤ Real.exp α := Real.one_le_exp hα
    have hn := norm_nonneg z
    have hq : ‖z * ρ * (1 - z / 2) - z ^ 2 / 4‖ ≤ 2 * Real.exp α * ‖z‖ ^ 2 := by
      have a1 : ‖1 - z / 2‖ ≤ 3 / 2 := by
        refine (norm_sub_le _ _).trans ?_
        rw [norm_one, norm_div]
        norm_num
        linarith
      have a2 : ‖z * ρ * (1 - z / 2)‖ ≤ ‖z‖ * (‖z‖ * Real.exp α) * (3 / 2) := by
        rw [norm_mul, norm_mul]
        exact mul_le_mul (mul_le_mul_of_nonneg_left hρn hn) a1 (norm_nonneg _) (by positivity)
      have a3 : ‖z ^ 2 / 4‖ = ‖z‖ ^ 2 / 4 := by rw [norm_div, norm_pow]; norm_num
      refine (norm_sub_le _ _).trans ?_
      rw [a3]
      have a4 := mul_le_mul_of_nonneg_left hE1 (by positivity : 0 ≤ ‖z‖ ^ 2)
      nlinarith
    have hz2 : ‖z‖ ^ 2 ≤ (α * dt) ^ 2 := pow_le_pow_left₀ hn hzα 2
    refine (norm_sub_le _ _).trans ?_
    rw [norm_neg, norm_mul, norm_mul, norm_mul, norm_mul, Complex.norm_real, Real.norm_of_nonneg hdt.le]
    have f1 : ‖N0‖ * dt * ‖z * ρ * (1 - z / 2) - z ^ 2 / 4‖ ≤ ‖N0‖ * dt * (2 * Real.exp α * (α * dt) ^ 2) :=
      mul_le_mul_of_nonneg_left (hq.trans (mul_le_mul_of_nonneg_left hz2 (by positivity))) (by positivity)
    have f2 : ‖N1 - N0‖ * dt * ‖ρ‖ ≤ ‖N1 - N0‖ * dt * (2 * (α * dt * Real.exp α)) := by
      refine mul_le_mul_of_nonneg_left (hρn.trans ?_) (by positivity)
      have := mul_le_mul_of_nonneg_right hzα (Real.exp_nonneg α)
      have : 0 ≤ α * dt * Real.exp α := by positivity
      linarith
    refine (add_le_add f1 f2).trans (le_of_eq ?_)
    ring

/-- A source that is nearly linear gives nearly the exact step. -/
theorem bin_perturbed {dt α δ t T : ℝ} (hdt : 0 < dt) (hdt1 : dt ≤ 1) (ht : 0 ≤ t) (htT : t + dt ≤ T) {A N0 N1 y1 : ℂ}
    (hA : ‖A‖ ≤ α) {y g : ℝ → ℂ}
    (hy : ∀ s ∈ Icc 0 T, HasDerivWithinAt y (g s + A * y s) (Icc 0 T) s)
    (hg : ∀ τ, 0 ≤ τ → τ ≤ dt → ‖g (t + τ) - (N0 + ((τ / dt : ℝ) : ℂ) • (N1 - N0))‖ ≤ δ)
    (he : IsExactStep dt A N0 N1 (y t) y1) : ‖y (t + dt) - y1‖ ≤ Real.exp α ^ 2 * (dt * δ) := by
  obtain ⟨z, hz0, hz1, hzd⟩ := he
  set w : ℝ → ℂ := fun τ => Complex.exp (-A * (τ : ℂ)) * (y (t + τ) - z τ) with hw
  have hder : ∀ τ ∈ Icc 0 dt, HasDerivWithinAt w
      (Complex.exp (-A * (τ : ℂ)) * (g (t + τ) - (N0 + ((τ / dt : ℝ) : ℂ) • (N1 - N0)))) (Icc 0 dt) τ := by
    intro τ hτ
    have e1 : HasDerivWithinAt (fun s : ℝ => y (t + s)) (g (t + τ) + A * y (t + τ)) (Icc 0 dt) τ := by
      have e2 : HasDerivWithinAt (fun s : ℝ => t + s) 1 (Icc 0 dt) τ := (hasDerivWithinAt_id τ _).const_add t
      have := (hy (t + τ) ⟨by linarith [hτ.1], by linarith [hτ.2]⟩).scomp τ e2
        (fun s hs => ⟨by linarith [hs.1], by linarith [hs.2]⟩)
      rwa [one_smul] at this
    have e3 : HasDerivAt (fun τ : ℝ => Complex.exp (-A * (τ : ℂ))) (-A * Complex.exp (-A * (τ : ℂ))) τ := by
      have i1 : HasDerivAt (fun τ : ℝ => -A * (τ : ℂ)) (-A) τ := by
        simpa using (Complex.ofRealCLM.hasDerivAt (x := τ)).const_mul (-A)
      refine i1.cexp.congr_deriv ?_
      ring
    refine (e3.hasDerivWithinAt.mul (e1.sub (hzd τ).hasDerivWithinAt)).congr_deriv ?_
    simp only [smul_eq_mul]
    rw [Pi.sub_apply]
    ring
  have hα : 0 ≤ α := (norm_nonneg _).trans hA
  have hexp : ∀ τ ∈ Icc 0 dt, ‖Complex.exp (-A * (τ : ℂ))‖ ≤ Real.exp α := by
    intro τ hτ
    refine (Complex.norm_exp_le_exp_norm _).trans (Real.exp_le_exp.mpr ?_)
    rw [norm_mul, norm_neg, Complex.norm_real, Real.norm_of_nonneg hτ.1]
    exact (mul_le_of_le_one_right (norm_nonneg _) (hτ.2.trans hdt1)).trans hA
  have hbound := (convex_Icc (0 : ℝ) dt).norm_image_sub_le_of_norm_hasDerivWithin_le (C := Real.exp α * δ) hder
    (fun τ hτ => by
      rw [norm_mul]
      exact mul_le_mul (hexp τ hτ) (hg τ hτ.1 hτ.2) (norm_nonneg _) (Real.exp_nonneg _))
    (⟨le_rfl, hdt.le⟩ : (0 : ℝ) ∈ Icc 0 dt) (⟨hdt.le, le_rfl⟩ : dt ∈ Icc 0 dt)
  have hw0 : w 0 = 0 := by simp [hw, hz0]
  rw [hw0, sub_zero, sub_zero, Real.norm_of_nonneg hdt.le] at hbound
  have hback : y (t + dt) - y1 = Complex.exp (A * (dt : ℂ)) * w dt := by
    rw [hw]
    dsimp only
    rw [← mul_assoc, ← Complex.exp_add, neg_mul, add_neg_cancel, Complex.exp_zero, one_mul, hz1]
  rw [hback, norm_mul]
  have hf : ‖Complex.exp (A * (dt : ℂ))‖ ≤ Real.exp α :=
    (Complex.norm_exp_le_exp_norm _).trans (exp_le_of hdt hdt1 hA)
  refine (mul_le_mul hf hbound (norm_nonneg _) (Real.exp_nonneg _)).trans (le_of_eq ?_)
  ring

/-! ## All bins -/

variable {nf N : ℕ}

/-- One step of the method, up to `ε`. -/
def IsImplicitStep (a : State nf N) (G : Fin nf → ℝ → State nf N → State nf N → Fin N → ℂ) (dt t ε : ℝ)
    (Y Y' : State nf N) : Prop :=
  ∀ i k, ‖Y' i k - (Y i k * Complex.exp (a i k * (dt : ℂ)) +
    nonlinearIntegral dt (a i k) (G i t Y' Y' k) (G i t Y Y k))‖ ≤ ε

/-- The explicit part along the solution is a linear function of time within a step, up to `dt ^ p`. -/
def Interpolated (T : ℝ) (p : ℕ) (G : Fin nf → ℝ → State nf N → State nf N → Fin N → ℂ) (y : ℝ → State nf N) : Prop :=
  ∃ C : ℝ, 0 ≤ C ∧ ∀ t dt τ : ℝ, 0 ≤ t → 0 < dt → dt ≤ 1 → t + dt ≤ T → 0 ≤ τ → τ ≤ dt → ∀ i,
    ‖G i (t + τ) (y (t + τ)) (y (t + τ)) - (G i t (y t) (y t) +
      ((τ / dt : ℝ) : ℂ) • (G i t (y (t + dt)) (y (t + dt)) - G i t (y t) (y t)))‖ ≤ C * dt ^ p

variable {T : ℝ} {a : State nf N} {G : Fin nf → ℝ → State nf N → State nf N → Fin N → ℂ} {y : ℝ → State nf N}

theorem bin_le (a : State nf N) (i : Fin nf) (k : Fin N) : ‖a i k‖ ≤ ‖a‖ :=
  (norm_le_pi_norm (a i) k).trans (norm_le_pi_norm a i)

/-- The solution is a step of the method up to a small defect. -/
theorem solution_defect (hT : 0 ≤ T) (hG : LipBounded T G) (hy : Solves T a G y) {p : ℕ} (hp : p ≤ 2)
    (hi : Interpolated T p G y) :
    ∃ C : ℝ, 0 ≤ C ∧ ∀ t dt : ℝ, 0 ≤ t → 0 < dt → dt ≤ 1 → t + dt ≤ T →
      IsImplicitStep a G dt t (C * dt ^ (p + 1)) (y t) (y (t + dt)) := by
  obtain ⟨M, hM, hyM, hyL, -⟩ := regular hT hG hy
  obtain ⟨Ci, hCi, hi⟩ := hi
  obtain ⟨L, hL, hLip⟩ := hG M
  have h0 : (0 : ℝ) ∈ Icc 0 T := ⟨le_rfl, hT⟩
  set G0 : ℝ := ∑ i, ‖G i 0 (y 0) (y 0)‖ with hG0
  have hG0n : 0 ≤ G0 := Finset.sum_nonneg fun _ _ => norm_nonneg _
  set Gm : ℝ := G0 + L * (T + 2 * M * T) with hGm
  have hGb : ∀ t ∈ Icc 0 T, ∀ i, ‖G i t (y t) (y t)‖ ≤ Gm := by
    intro t ht i
    have h1 : ‖G i 0 (y 0) (y 0)‖ ≤ G0 :=
      Finset.single_le_sum (f := fun i => ‖G i 0 (y 0) (y 0)‖) (fun _ _ => norm_nonneg _) (Finset.mem_univ i)
    have h2 := hLip i t ht 0 h0 (y t) (y 0) (y t) (y 0) (hyM t ht) (hyM 0 h0) (hyM t ht) (hyM 0 h0)
    have h3 := hyL t ht 0 h0
    rw [sub_zero, abs_of_nonneg ht.1] at h2 h3
    have h5 : M * t ≤ M * T := mul_le_mul_of_nonneg_left ht.2 hM
    have h4 : L * (t + ‖y t - y 0‖ + ‖y t - y 0‖) ≤ L * (T + 2 * M * T) :=
      mul_le_mul_of_nonneg_left (by linarith [ht.2]) hL
    have h6 := norm_sub_norm_le (G i t (y t) (y t)) (G i 0 (y 0) (y 0))
    linarith
  have hGm0 : 0 ≤ Gm := by positivity
  set α : ℝ := ‖a‖ with hα
  have hα0 : 0 ≤ α := norm_nonneg _
  refine ⟨Real.exp α ^ 2 * Ci + 2 * Real.exp α * (α ^ 2 * Gm + α * (L * (2 * M))), by positivity, ?_⟩
  intro t dt ht hdt hdt1 htT i k
  have htm : t ∈ Icc 0 T := ⟨ht, by linarith⟩
  have htm' : t + dt ∈ Icc 0 T := ⟨by linarith, htT⟩
  have hA : ‖a i k‖ ≤ α := bin_le a i k
  obtain ⟨y1, hex, hd⟩ := bin_defect hdt hdt1 hA (G i t (y t) (y t) k) (G i t (y (t + dt)) (y (t + dt)) k) (y t i k)
  have hpert := bin_perturbed (y := fun s => y s i k) (g := fun s => G i s (y s) (y s) k) hdt hdt1 ht htT hA
    (fun s hs => (hasDerivWithinAt_pi.mp (hy s hs i)) k)
    (fun τ h1 h2 => (norm_le_pi_norm _ k).trans (hi t dt τ ht hdt hdt1 htT h1 h2 i)) hex
  have hN : ‖G i t (y (t + dt)) (y (t + dt)) k - G i t (y t) (y t) k‖ ≤ L * (2 * M) * dt := by
    have h2 := hLip i t htm t htm (y (t + dt)) (y t) (y (t + dt)) (y t) (hyM _ htm') (hyM _ htm) (hyM _ htm') (hyM _ htm)
    have h3 := hyL (t + dt) htm' t htm
    rw [add_sub_cancel_left, abs_of_pos hdt] at h3
    rw [sub_self, abs_zero] at h2
    refine (norm_le_pi_norm (G i t (y (t + dt)) (y (t + dt)) - G i t (y t) (y t)) k).trans (h2.trans ?_)
    have := mul_le_mul_of_nonneg_left h3 hL
    linarith
  have hN0 : ‖G i t (y t) (y t) k‖ ≤ Gm := (norm_le_pi_norm _ k).trans (hGb t htm i)
  have hd' : ‖y t i k * Complex.exp (a i k * (dt : ℂ)) + nonlinearIntegral dt (a i k)
      (G i t (y (t + dt)) (y (t + dt)) k) (G i t (y t) (y t) k) - y1‖ ≤
        2 * Real.exp α * (α ^ 2 * Gm + α * (L * (2 * M))) * dt ^ 3 := by
    refine hd.trans ?_
    have b1 : α ^ 2 * ‖G i t (y t) (y t) k‖ * dt ^ 3 ≤ α ^ 2 * Gm * dt ^ 3 :=
      mul_le_mul_of_nonneg_right (mul_le_mul_of_nonneg_left hN0 (by positivity)) (by positivity)
    have b2 : α * ‖G i t (y (t + dt)) (y (t + dt)) k - G i t (y t) (y t) k‖ * dt ^ 2 ≤
        α * (L * (2 * M) * dt) * dt ^ 2 :=
      mul_le_mul_of_nonneg_right (mul_le_mul_of_nonneg_left hN hα0) (by positivity)
    refine (mul_le_mul_of_nonneg_left (add_le_add b1 b2) (by positivity)).trans (le_of_eq ?_)
    ring
  have hpow : dt ^ 3 ≤ dt ^ (p + 1) := pow_le_pow_of_le_one hdt.le hdt1 (by omega)
  have hK : 0 ≤ 2 * Real.exp α * (α ^ 2 * Gm + α * (L * (2 * M))) := by positivity
  have hd'' := hd'.trans (mul_le_mul_of_nonneg_left hpow hK)
  set v : ℂ := y t i k * Complex.exp (a i k * (dt : ℂ)) + nonlinearIntegral dt (a i k)
      (G i t (y (t + dt)) (y (t + dt)) k) (G i t (y t) (y t) k) with hv
  have e : y (t + dt) i k - v = (y (t + dt) i k - y1) - (v - y1) := by ring
  rw [e]
  refine (norm_sub_le _ _).trans ?_
  have e2 : Real.exp α ^ 2 * (dt * (Ci * dt ^ p)) = Real.exp α ^ 2 * Ci * dt ^ (p + 1) := by ring
  rw [e2] at hpert
  have := add_le_add hpert hd''
  linarith

/-- Two steps of the method from nearby states. -/
theorem two_steps {R : ℝ} (hG : LipBounded T G) :
    ∃ K d : ℝ, 0 ≤ K ∧ 0 < d ∧ d ≤ 1 ∧ ∀ t dt ε δ : ℝ, 0 ≤ t → 0 < dt → dt ≤ d → t + dt ≤ T →
      ∀ Y Y' Z Z' : State nf N, ‖Y‖ ≤ R → ‖Y'‖ ≤ R → ‖Z‖ ≤ R → ‖Z'‖ ≤ R → 0 ≤ ε → 0 ≤ δ →
      IsImplicitStep a G dt t ε Y Y' → IsImplicitStep a G dt t δ Z Z' →
        ‖Y' - Z'‖ ≤ (1 + K * dt) * ‖Y - Z‖ + 2 * (ε + δ) := by
  obtain ⟨L, hL, hLip⟩ := hG R
  set α : ℝ := ‖a‖ with hα
  have hα0 : 0 ≤ α := norm_nonneg _
  set κ : ℝ := 2 * Real.exp α * (2 * L) with hκ
  have hκ0 : 0 ≤ κ := by positivity
  set b : ℝ := α * Real.exp α + κ with hb
  have hb0 : 0 ≤ b := by positivity
  refine ⟨2 * κ + 2 * b, min 1 (1 / (2 * (κ + 1))), by positivity, by positivity, min_le_left _ _, ?_⟩
  intro t dt ε δ ht hdt hle htT Y Y' Z Z' hY hY' hZ hZ' hε hδ h1 h2
  have hdt1 : dt ≤ 1 := hle.trans (min_le_left _ _)
  have htm : t ∈ Icc 0 T := ⟨ht, by linarith⟩
  have hκdt : κ * dt ≤ 1 / 2 := by
    have : dt ≤ 1 / (2 * (κ + 1)) := hle.trans (min_le_right _ _)
    rw [le_div_iff₀ (by positivity)] at this
    nlinarith
  set E : ℝ := ‖Y - Z‖ with hE
  set E' : ℝ := ‖Y' - Z'‖ with hE'
  have hE0 : 0 ≤ E := norm_nonneg _
  have hE0' : 0 ≤ E' := norm_nonneg _
  have hmain : E' ≤ (1 + b * dt) * E + κ * dt * E' + (ε + δ) := by
    have hnn : 0 ≤ (1 + b * dt) * E + κ * dt * E' + (ε + δ) := by positivity
    rw [hE', pi_norm_le_iff_of_nonneg hnn]
    intro i
    rw [pi_norm_le_iff_of_nonneg hnn]
    intro k
    have g1 := hLip i t htm t htm Y' Z' Y' Z' hY' hZ' hY' hZ'
    have g0 := hLip i t htm t htm Y Z Y Z hY hZ hY hZ
    rw [sub_self, abs_zero] at g1 g0
    have q1 := (norm_le_pi_norm (G i t Y' Y' - G i t Z' Z') k).trans g1
    have q0 := (norm_le_pi_norm (G i t Y Y - G i t Z Z) k).trans g0
    have hA : ‖a i k‖ ≤ α := bin_le a i k
    have hint := integral_norm hdt hdt1 hA (G i t Y' Y' k - G i t Z' Z' k) (G i t Y Y k - G i t Z Z k)
    rw [integral_sub] at hint
    have hexp := norm_exp_le_of hdt hdt1 hA
    have r1 := h1 i k
    have r2 := h2 i k
    have e : (Y' - Z') i k = (Y' i k - (Y i k * Complex.exp (a i k * (dt : ℂ)) +
        nonlinearIntegral dt (a i k) (G i t Y' Y' k) (G i t Y Y k))) -
        (Z' i k - (Z i k * Complex.exp (a i k * (dt : ℂ)) +
        nonlinearIntegral dt (a i k) (G i t Z' Z' k) (G i t Z Z k))) +
        ((Y i k - Z i k) * Complex.exp (a i k * (dt : ℂ)) + (nonlinearIntegral dt (a i k) (G i t Y' Y' k) (G i t Y Y k) -
        nonlinearIntegral dt (a i k) (G i t Z' Z' k) (G i t Z Z k))) := by
      simp only [Pi.sub_apply]
      ring
    rw [e]
    refine (norm_add_le _ _).trans ?_
    have s1 := (norm_sub_le _ _).trans (add_le_add r1 r2)
    have s2 : ‖(Y i k - Z i k) * Complex.exp (a i k * (dt : ℂ))‖ ≤ E * (1 + α * Real.exp α * dt) := by
      rw [norm_mul]
      exact mul_le_mul (bin_le (Y - Z) i k) hexp (norm_nonneg _) hE0
    have s3 : dt * (2 * Real.exp α) * (‖G i t Y' Y' k - G i t Z' Z' k‖ + ‖G i t Y Y k - G i t Z Z k‖) ≤
        dt * (2 * Real.exp α) * (2 * L * E' + 2 * L * E) := by
      refine mul_le_mul_of_nonneg_left (add_le_add ?_ ?_) (by positivity)
      · refine q1.trans (le_of_eq ?_); ring
      · refine q0.trans (le_of_eq ?_); ring
    have s4 := (norm_add_le _ _).trans (add_le_add s2 (hint.trans s3))
    have e4 : E * (1 + α * Real.exp α * dt) + dt * (2 * Real.exp α) * (2 * L * E' + 2 * L * E) =
        (1 + b * dt) * E + κ * dt * E' := by rw [hb, hκ]; ring
    rw [e4] at s4
    linarith
  set x : ℝ := κ * dt with hx
  have hx0 : 0 ≤ x := by positivity
  set D : ℝ := (1 + b * dt) * E + (ε + δ) with hD
  have hD0 : 0 ≤ D := by positivity
  have h3 : E' ≤ (1 + 2 * x) * D := by
    have h4 : E' * (1 - x) ≤ D := by rw [hD]; linarith
    have h5 : E' * (1 - x) * (1 + 2 * x) ≤ D * (1 + 2 * x) := mul_le_mul_of_nonneg_right h4 (by linarith)
    have h6 : E' ≤ E' * (1 - x) * (1 + 2 * x) := by
      have h7 : 0 ≤ E' * (x * (1 - 2 * x)) := mul_nonneg hE0' (mul_nonneg hx0 (by linarith))
      linarith
    linarith
  refine h3.trans ?_
  have h8 : (1 + 2 * x) * (ε + δ) ≤ 2 * (ε + δ) := mul_le_mul_of_nonneg_right (by linarith) (by linarith)
  have h9 : (1 + 2 * x) * ((1 + b * dt) * E) ≤ (1 + (2 * κ + 2 * b) * dt) * E := by
    have : (1 + 2 * x) * (1 + b * dt) ≤ 1 + (2 * κ + 2 * b) * dt := by
      have h10 : 2 * x * (b * dt) ≤ 1 * (b * dt) := mul_le_mul_of_nonneg_right (by linarith) (by positivity)
      rw [hx] at h10 ⊢
      linarith
    have := mul_le_mul_of_nonneg_right this hE0
    linarith
  rw [hD]
  linarith

theorem grow {K D dt : ℝ} (hK : 0 ≤ K) (hD : 0 ≤ D) (hdt : 0 ≤ dt) {e : ℕ → ℝ} (h0 : e 0 = 0) {n : ℕ}
    (hs : ∀ j < n, e (j + 1) ≤ (1 + K * dt) * e j + D) : e n ≤ n * D * Real.exp (K * (n * dt)) := by
  induction n with
  | zero => simp [h0]
  | succ n ih =>
    have h1 := ih fun j hj => hs j (by omega)
    have h2 := hs n (by omega)
    have e1 : 1 + K * dt ≤ Real.exp (K * dt) := by
      have := Real.add_one_le_exp (K * dt)
      linarith
    have e2 : Real.exp (K * dt) * Real.exp (K * (n * dt)) = Real.exp (K * (((n + 1 : ℕ) : ℝ) * dt)) := by
      rw [← Real.exp_add]; congr 1; push_cast; ring
    have e3 : 1 ≤ Real.exp (K * (((n + 1 : ℕ) : ℝ) * dt)) := Real.one_le_exp (by positivity)
    have e4 : (1 + K * dt) * e n ≤ (1 + K * dt) * (n * D * Real.exp (K * (n * dt))) :=
      mul_le_mul_of_nonneg_left h1 (by positivity)
    have e5 : (1 + K * dt) * (n * D * Real.exp (K * (n * dt))) ≤
        Real.exp (K * dt) * (n * D * Real.exp (K * (n * dt))) :=
      mul_le_mul_of_nonneg_right e1 (by positivity)
    have e6 : Real.exp (K * dt) * (n * D * Real.exp (K * (n * dt))) =
        n * D * Real.exp (K * (((n + 1 : ℕ) : ℝ) * dt)) := by rw [← e2]; ring
    have e7 := mul_le_mul_of_nonneg_left e3 hD
    push_cast at e6 e7 ⊢
    linarith

/-- Convergence as long as the states stay bounded. -/
theorem implicit_converges (hT : 0 ≤ T) (hG : LipBounded T G) (hy : Solves T a G y) {p : ℕ} (hp : p ≤ 2)
    (hi : Interpolated T p G y) (R : ℝ) :
    ∃ C d : ℝ, 0 ≤ C ∧ 0 < d ∧ ∀ dt ε : ℝ, 0 < dt → dt ≤ d → 0 ≤ ε → ∀ Y : ℕ → State nf N, Y 0 = y 0 →
      ∀ n : ℕ, (n : ℝ) * dt ≤ T → (∀ j ≤ n, ‖Y j‖ ≤ R) →
        (∀ j < n, IsImplicitStep a G dt (j * dt) ε (Y j) (Y (j + 1))) →
          ‖Y n - y (n * dt)‖ ≤ C * (dt ^ p + ε / dt) := by
  obtain ⟨M, hM, hyM, -, -⟩ := regular hT hG hy
  obtain ⟨Cd, hCd, hdef⟩ := solution_defect hT hG hy hp hi
  obtain ⟨K, d, hK, hd, hd1, hstep⟩ := two_steps (a := a) (R := max R M) hG
  refine ⟨2 * T * Real.exp (K * T) * (Cd + 1), d, by positivity, hd, ?_⟩
  intro dt ε hdt hle hε Y hY0 n hn hR hY
  have hb := grow (e := fun j => ‖Y j - y (j * dt)‖) (D := 2 * (ε + Cd * dt ^ (p + 1))) hK (by positivity) hdt.le
    (by simp [hY0]) (n := n) (by
      intro j hj
      have hjn : ((j : ℝ) + 1) * dt ≤ T := by
        refine le_trans (mul_le_mul_of_nonneg_right ?_ hdt.le) hn
        exact_mod_cast hj
      have hj0 : 0 ≤ (j : ℝ) * dt := by positivity
      have hjT : (j : ℝ) * dt + dt ≤ T := by linarith
      have ej : ((j + 1 : ℕ) : ℝ) * dt = j * dt + dt := by push_cast; ring
      have := hstep (j * dt) dt ε (Cd * dt ^ (p + 1)) hj0 hdt hle hjT (Y j) (Y (j + 1)) (y (j * dt)) (y (j * dt + dt))
        ((hR j hj.le).trans (le_max_left _ _)) ((hR (j + 1) hj).trans (le_max_left _ _))
        ((hyM _ ⟨hj0, by linarith⟩).trans (le_max_right _ _)) ((hyM _ ⟨by linarith, hjT⟩).trans (le_max_right _ _))
        hε (by positivity) (hY j hj) (hdef (j * dt) dt hj0 hdt (hle.trans hd1) hjT)
      rw [ej]
      exact this)
  refine hb.trans ?_
  have hn0 : 0 ≤ (n : ℝ) * dt := by positivity
  have e1 : Real.exp (K * (n * dt)) ≤ Real.exp (K * T) := Real.exp_le_exp.mpr (mul_le_mul_of_nonneg_left hn hK)
  have e2 : (n : ℝ) * (2 * (ε + Cd * dt ^ (p + 1))) = (n * dt) * (2 * (ε / dt + Cd * dt ^ p)) := by
    field_simp
    ring
  rw [e2]
  have hdp : 0 ≤ dt ^ p := by positivity
  have hεd : 0 ≤ ε / dt := by positivity
  have e3 : (n * dt) * (2 * (ε / dt + Cd * dt ^ p)) ≤ T * (2 * ((Cd + 1) * (dt ^ p + ε / dt))) := by
    refine mul_le_mul hn ?_ (by positivity) hT
    have := mul_nonneg hCd hεd
    nlinarith
  refine (mul_le_mul e3 e1 (Real.exp_nonneg _) (by positivity)).trans (le_of_eq ?_)
  ring

/-! ## How well the explicit part is interpolated -/

theorem interpolated_one (hT : 0 ≤ T) (hG : LipBounded T G) (hy : Solves T a G y) : Interpolated T 1 G y := by
  obtain ⟨M, hM, hyM, hyL, -⟩ := regular hT hG hy
  obtain ⟨L, hL, hLip⟩ := hG M
  refine ⟨L * (1 + 2 * M) + L * (2 * M), by positivity, ?_⟩
  intro t dt τ ht hdt hdt1 htT hτ hτd i
  have htm : t ∈ Icc 0 T := ⟨ht, by linarith⟩
  have htm' : t + dt ∈ Icc 0 T := ⟨by linarith, htT⟩
  have hτm : t + τ ∈ Icc 0 T := ⟨by linarith, by linarith⟩
  have h1 := hLip i (t + τ) hτm t htm (y (t + τ)) (y t) (y (t + τ)) (y t) (hyM _ hτm) (hyM _ htm) (hyM _ hτm) (hyM _ htm)
  have h2 := hLip i t htm t htm (y (t + dt)) (y t) (y (t + dt)) (y t) (hyM _ htm') (hyM _ htm) (hyM _ htm') (hyM _ htm)
  have h3 := hyL (t + τ) hτm t htm
  have h4 := hyL (t + dt) htm' t htm
  rw [add_sub_cancel_left, abs_of_nonneg hτ] at h1 h3
  rw [add_sub_cancel_left, abs_of_pos hdt] at h4
  rw [sub_self, abs_zero] at h2
  have hq : ‖((τ / dt : ℝ) : ℂ)‖ ≤ 1 := by
    rw [Complex.norm_real, Real.norm_of_nonneg (by positivity)]
    exact (div_le_one hdt).mpr hτd
  have hMτ : M * τ ≤ M * dt := mul_le_mul_of_nonneg_left hτd hM
  have h5 : ‖((τ / dt : ℝ) : ℂ) • (G i t (y (t + dt)) (y (t + dt)) - G i t (y t) (y t))‖ ≤ L * (2 * M) * dt := by
    rw [norm_smul]
    refine (mul_le_of_le_one_left (norm_nonneg _) hq).trans (h2.trans ?_)
    have := mul_le_mul_of_nonneg_left h4 hL
    linarith
  have h6 : L * (τ + ‖y (t + τ) - y t‖ + ‖y (t + τ) - y t‖) ≤ L * (1 + 2 * M) * dt := by
    have := mul_le_mul_of_nonneg_left (by linarith : τ + ‖y (t + τ) - y t‖ + ‖y (t + τ) - y t‖ ≤ (1 + 2 * M) * dt) hL
    linarith
  rw [← sub_sub]
  refine (norm_sub_le _ _).trans ?_
  rw [pow_one]
  linarith

theorem interpolated_two (hT : 0 < T) {f : State nf N → State nf N} (hf : ContDiff ℝ 2 f)
    (haut : ∀ i t Y, G i t Y Y = f Y i) (hy : Solves T a G y) : Interpolated T 2 G y := by
  have hmul : ContDiff ℝ 2 fun Y : State nf N => (fun i => a i * Y i : State nf N) := by
    rw [contDiff_pi]
    intro i
    rw [contDiff_pi]
    intro k
    exact contDiff_const.mul (contDiff_apply_apply ℝ ℂ i k)
  have hsol : ∀ t ∈ Icc 0 T, HasDerivWithinAt y (f (y t) + fun i => a i * y t i) (Icc 0 T) t := by
    intro t ht
    rw [hasDerivWithinAt_pi]
    intro i
    have := hy t ht i
    rwa [haut] at this
  have hsm : ContDiffOn ℝ (2 + 1 : ℕ) y (Icc 0 T) :=
    solution_smooth (f := fun Y => f Y + fun i => a i * Y i) (m := 2) (hf.add hmul) hT hsol
  have hg : ContDiffOn ℝ (2 : ℕ) (fun t => f (y t)) (Icc 0 T) :=
    hf.comp_contDiffOn (hsm.of_le (by norm_num))
  obtain ⟨g, hg0, hgd, hgb⟩ := derivatives hT hg
  obtain ⟨M, hM, hMb⟩ := hgb 2 le_rfl
  have hrem : Small T 2 fun t h => g 0 (t + h) - (g 0 t + h • g 1 t) := by
    refine Small.integrate (u := g 0) (u' := g 1) (k := 1) (fun t ht => hgd 0 (by norm_num) t ht)
      (p' := fun t _ => g 1 t) (fun t h => ?_) (fun t => by simp) ?_
    · have := ((hasDerivAt_id h).smul_const (g 1 t)).const_add (g 0 t)
      simpa using this
    · refine Small.integrate (u := g 1) (u' := g 2) (k := 0) (fun t ht => hgd 1 (by norm_num) t ht)
        (p := fun t _ => g 1 t) (p' := fun _ _ => 0) (fun t h => hasDerivAt_const h _) (fun t => rfl) ?_
      exact ⟨M, hM, fun t h h1 h2 h3 h4 => by
        simpa using hMb (t + h) ⟨by linarith, h4⟩⟩
  obtain ⟨Q, hQ, hrem⟩ := hrem
  refine ⟨2 * Q, by positivity, ?_⟩
  intro t dt τ ht hdt hdt1 htT hτ hτd i
  have r1 := hrem t τ ht hτ (hτd.trans hdt1) (by linarith)
  have r2 := hrem t dt ht hdt.le hdt1 htT
  rw [hg0] at r1 r2
  rw [haut, haut, haut]
  have hdtc : (dt : ℂ) ≠ 0 := by exact_mod_cast hdt.ne'
  have e : f (y (t + τ)) i - (f (y t) i + ((τ / dt : ℝ) : ℂ) • (f (y (t + dt)) i - f (y t) i)) =
      (f (y (t + τ)) - (f (y t) + τ • g 1 t)) i - ((τ / dt : ℝ) : ℂ) • (f (y (t + dt)) - (f (y t) + dt • g 1 t)) i := by
    funext k
    simp only [Pi.sub_apply, Pi.add_apply, Pi.smul_apply, smul_eq_mul, Complex.real_smul]
    push_cast
    field_simp
    ring
  rw [e]
  have hq : ‖((τ / dt : ℝ) : ℂ)‖ ≤ 1 := by
    rw [Complex.norm_real, Real.norm_of_nonneg (by positivity)]
    exact (div_le_one hdt).mpr hτd
  refine (norm_sub_le _ _).trans ?_
  rw [norm_smul]
  have s1 := (norm_le_pi_norm (f (y (t + τ)) - (f (y t) + τ • g 1 t)) i).trans r1
  have s2 := (norm_le_pi_norm (f (y (t + dt)) - (f (y t) + dt • g 1 t)) i).trans r2
  have s3 := (mul_le_of_le_one_left (norm_nonneg ((f (y (t + dt)) - (f (y t) + dt • g 1 t)) i)) hq).trans s2
  have s4 : Q * τ ^ 2 ≤ Q * dt ^ 2 := mul_le_mul_of_nonneg_left (pow_le_pow_left₀ hτ hτd 2) hQ
  linarith

/-! ## The step exists -/

theorem implicit_solvable (hG : LipBounded T G) {R : ℝ} (hR : 0 ≤ R) {S : Set (State nf N)} (hS : IsClosed S)
    (hmaps : ∀ dt t : ℝ, ∀ Y ∈ S, ∀ Z ∈ S, (fun i k => Y i k * Complex.exp (a i k * (dt : ℂ)) +
      nonlinearIntegral dt (a i k) (G i t Z Z k) (G i t Y Y k)) ∈ S) :
    ∃ d : ℝ, 0 < d ∧ d ≤ 1 ∧ ∀ t dt : ℝ, t ∈ Icc 0 T → 0 < dt → dt ≤ d → ∀ Y ∈ S, ‖Y‖ ≤ R →
      ∃ Y' ∈ S, ‖Y'‖ ≤ R + 1 ∧ IsImplicitStep a G dt t 0 Y Y' := by
  obtain ⟨L, hL, hLip⟩ := hG (R + 1)
  set α : ℝ := ‖a‖ with hα
  have hα0 : 0 ≤ α := norm_nonneg _
  set G0 : ℝ := ∑ i, ‖G i 0 0 0‖ with hG0
  have hG0n : 0 ≤ G0 := Finset.sum_nonneg fun _ _ => norm_nonneg _
  set B : ℝ := G0 + L * (|T| + 2 * (R + 1)) with hB
  have hB0 : 0 ≤ B := by positivity
  set κ : ℝ := 2 * Real.exp α * (2 * L) with hκ
  have hκ0 : 0 ≤ κ := by positivity
  set W : ℝ := α * Real.exp α * R + 2 * Real.exp α * (B + B) with hW
  have hW0 : 0 ≤ W := by positivity
  refine ⟨min 1 (min (1 / (2 * (κ + 1))) (1 / (W + 1))), by positivity, min_le_left _ _, ?_⟩
  intro t dt ht hdt hle Y hYS hY
  have hdt1 : dt ≤ 1 := hle.trans (min_le_left _ _)
  have h0 : (0 : ℝ) ∈ Icc 0 T := ⟨le_rfl, ht.1.trans ht.2⟩
  have hκdt : κ * dt ≤ 1 / 2 := by
    have : dt ≤ 1 / (2 * (κ + 1)) := hle.trans ((min_le_right _ _).trans (min_le_left _ _))
    rw [le_div_iff₀ (by positivity)] at this
    nlinarith
  have hWdt : W * dt ≤ 1 := by
    have : dt ≤ 1 / (W + 1) := hle.trans ((min_le_right _ _).trans (min_le_right _ _))
    rw [le_div_iff₀ (by positivity)] at this
    nlinarith
  have hGb : ∀ Z : State nf N, ‖Z‖ ≤ R + 1 → ∀ i, ‖G i t Z Z‖ ≤ B := by
    intro Z hZ i
    have h1 : ‖G i 0 0 0‖ ≤ G0 :=
      Finset.single_le_sum (f := fun i => ‖G i 0 0 0‖) (fun _ _ => norm_nonneg _) (Finset.mem_univ i)
    have hz : ‖(0 : State nf N)‖ ≤ R + 1 := by rw [norm_zero]; linarith
    have h2 := hLip i t ht 0 h0 Z 0 Z 0 hZ hz hZ hz
    rw [sub_zero, sub_zero, abs_of_nonneg ht.1] at h2
    have h3 := norm_sub_norm_le (G i t Z Z) (G i 0 0 0)
    have h4 : L * (t + ‖Z‖ + ‖Z‖) ≤ L * (|T| + 2 * (R + 1)) :=
      mul_le_mul_of_nonneg_left (by have := le_abs_self T; linarith [ht.2]) hL
    linarith
  set Φ : State nf N → State nf N := fun Z i k => Y i k * Complex.exp (a i k * (dt : ℂ)) +
      nonlinearIntegral dt (a i k) (G i t Z Z k) (G i t Y Y k) with hΦ
  set s : Set (State nf N) := S ∩ Metric.closedBall 0 (R + 1) with hs
  have hYR : ‖Y‖ ≤ R + 1 := by linarith
  have hmem : MapsTo Φ s s := by
    rintro Z ⟨hZS, hZ⟩
    have hZ' : ‖Z‖ ≤ R + 1 := by simpa using hZ
    refine ⟨hmaps dt t Y hYS Z hZS, ?_⟩
    rw [mem_closedBall_zero_iff, pi_norm_le_iff_of_nonneg (by linarith)]
    intro i
    rw [pi_norm_le_iff_of_nonneg (by linarith)]
    intro k
    have hA : ‖a i k‖ ≤ α := bin_le a i k
    have b1 := norm_exp_le_of hdt hdt1 hA
    have b2 := integral_norm hdt hdt1 hA (G i t Z Z k) (G i t Y Y k)
    have b3 := (norm_le_pi_norm (G i t Z Z) k).trans (hGb Z hZ' i)
    have b4 := (norm_le_pi_norm (G i t Y Y) k).trans (hGb Y hYR i)
    have b5 : dt * (2 * Real.exp α) * (‖G i t Z Z k‖ + ‖G i t Y Y k‖) ≤ dt * (2 * Real.exp α) * (B + B) :=
      mul_le_mul_of_nonneg_left (add_le_add b3 b4) (by positivity)
    have b6 : ‖Y i k * Complex.exp (a i k * (dt : ℂ))‖ ≤ R * (1 + α * Real.exp α * dt) := by
      rw [norm_mul]
      exact mul_le_mul ((bin_le Y i k).trans hY) b1 (norm_nonneg _) hR
    have b7 := (norm_add_le _ _).trans (add_le_add b6 (b2.trans b5))
    refine b7.trans ?_
    have : R * (1 + α * Real.exp α * dt) + dt * (2 * Real.exp α) * (B + B) = R + W * dt := by rw [hW]; ring
    linarith
  have hlip : ∀ Z ∈ s, ∀ Z' ∈ s, ‖Φ Z - Φ Z'‖ ≤ 1 / 2 * ‖Z - Z'‖ := by
    rintro Z ⟨-, hZ⟩ Z' ⟨-, hZ'⟩
    rw [mem_closedBall_zero_iff] at hZ hZ'
    rw [pi_norm_le_iff_of_nonneg (by positivity)]
    intro i
    rw [pi_norm_le_iff_of_nonneg (by positivity)]
    intro k
    have hA : ‖a i k‖ ≤ α := bin_le a i k
    have e : (Φ Z - Φ Z') i k = nonlinearIntegral dt (a i k) (G i t Z Z k - G i t Z' Z' k) 0 := by
      have := integral_sub dt (a i k) (G i t Z Z k) (G i t Y Y k) (G i t Z' Z' k) (G i t Y Y k)
      rw [sub_self] at this
      rw [this]
      simp only [hΦ, Pi.sub_apply]
      ring
    rw [e]
    refine (integral_norm hdt hdt1 hA _ _).trans ?_
    have g1 := hLip i t ht t ht Z Z' Z Z' hZ hZ' hZ hZ'
    rw [sub_self, abs_zero] at g1
    have q1 := (norm_le_pi_norm (G i t Z Z - G i t Z' Z') k).trans g1
    rw [norm_zero, add_zero]
    have q2 : dt * (2 * Real.exp α) * ‖G i t Z Z k - G i t Z' Z' k‖ ≤
        dt * (2 * Real.exp α) * (L * (0 + ‖Z - Z'‖ + ‖Z - Z'‖)) :=
      mul_le_mul_of_nonneg_left q1 (by positivity)
    refine q2.trans ?_
    have q3 := mul_le_mul_of_nonneg_right hκdt (norm_nonneg (Z - Z'))
    refine le_trans (le_of_eq ?_) q3
    rw [hκ]
    ring
  have hcompl : IsComplete s := (hS.inter Metric.isClosed_closedBall).isComplete
  have hcontr : ContractingWith (1 / 2 : NNReal) (hmem.restrict Φ s s) := by
    refine ⟨by rw [← NNReal.coe_lt_coe]; norm_num, LipschitzWith.of_dist_le_mul ?_⟩
    rintro ⟨Z, hZ⟩ ⟨Z', hZ'⟩
    have := hlip Z hZ Z' hZ'
    simp only [Subtype.dist_eq, MapsTo.val_restrict_apply, dist_eq_norm]
    exact_mod_cast this
  have hYs : Y ∈ s := ⟨hYS, by simpa using hYR⟩
  obtain ⟨Y', hY', hfix, -⟩ := hcontr.exists_fixedPoint' hcompl hmem hYs (edist_ne_top _ _)
  refine ⟨Y', hY'.1, by simpa using hY'.2, ?_⟩
  intro i k
  have : Y' i k = Φ Y' i k := by rw [hfix.eq]
  rw [norm_le_zero_iff, sub_eq_zero]
  exact this

end Gopf.Converge
