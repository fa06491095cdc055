import Verif.Proofs.Converge
import Mathlib.Tactic.Module

/-!
# Convergence of the classical Runge-Kutta method

First order for the variant that divides by `1 - dt a`.
-/

namespace Gopf.Converge
open Set

/-! ## From one step to many -/

theorem accumulate {E : Type} [NormedAddCommGroup E] {p : ℕ} (hp : 1 ≤ p) {T : ℝ} (hT : 0 ≤ T) {y : ℝ → E}
    {K C d : ℝ} (hK : 0 ≤ K) (hC : 0 ≤ C) (hd : 0 < d) {step : ℝ → ℝ → E → E → Prop}
    (hstep : ∀ dt t : ℝ, 0 < dt → dt ≤ d → 0 ≤ t → t + dt ≤ T → ∀ Y Y' : E, step dt t Y Y' → ‖Y - y t‖ ≤ 1 →
      ‖Y' - y (t + dt)‖ ≤ (1 + K * dt) * ‖Y - y t‖ + C * dt ^ (p + 1)) :
    ∃ B dt0 : ℝ, 0 ≤ B ∧ 0 < dt0 ∧ ∀ dt : ℝ, 0 < dt → dt ≤ dt0 → ∀ Y : ℕ → E, Y 0 = y 0 →
      (∀ n : ℕ, step dt ((n : ℝ) * dt) (Y n) (Y (n + 1))) → ∀ n : ℕ, (n : ℝ) * dt ≤ T →
        ‖Y n - y (n * dt)‖ ≤ B * dt ^ p := by
  set B : ℝ := C * T * Real.exp (K * T) with hB
  have hB0 : 0 ≤ B := by positivity
  refine ⟨B, min (min 1 d) (1 / (B + 1)), hB0, by positivity, ?_⟩
  intro dt hdt hdt0 Y hY0 hY
  have hdt1 : dt ≤ 1 := hdt0.trans ((min_le_left _ _).trans (min_le_left _ _))
  have hdd : dt ≤ d := hdt0.trans ((min_le_left _ _).trans (min_le_right _ _))
  have hdp : dt ^ p ≤ dt := by
    have := pow_le_pow_of_le_one hdt.le hdt1 hp
    rwa [pow_one] at this
  have hdB : B * dt ^ p ≤ 1 := by
    have h1 : dt ≤ 1 / (B + 1) := hdt0.trans (min_le_right _ _)
    rw [le_div_iff₀ (by positivity)] at h1
    have := mul_le_mul_of_nonneg_left hdp hB0
    nlinarith
  have hp0 : 0 ≤ dt ^ p := by positivity
  have key : ∀ n : ℕ, (n : ℝ) * dt ≤ T → ‖Y n - y (n * dt)‖ ≤ C * (n * dt) * Real.exp (K * (n * dt)) * dt ^ p := by
    intro n
    induction n with
    | zero => intro _; simp [hY0]
    | succ n ih =>
      intro hn
      have hn' : ((n : ℝ) + 1) * dt ≤ T := by push_cast at hn; exact hn
      have hnT : (n : ℝ) * dt ≤ T := by nlinarith
      have hb := ih hnT
      have hndt : 0 ≤ (n : ℝ) * dt := by positivity
      have hle1 : ‖Y n - y (n * dt)‖ ≤ 1 := by
        refine hb.trans (le_trans ?_ hdB)
        refine mul_le_mul_of_nonneg_right ?_ hp0
        rw [hB]
        refine mul_le_mul (mul_le_mul_of_nonneg_left hnT hC) ?_ (Real.exp_nonneg _) (by positivity)
        exact Real.exp_le_exp.mpr (mul_le_mul_of_nonneg_left hnT hK)
      have hs := hstep dt (n * dt) hdt hdd hndt (by linarith) (Y n) (Y (n + 1)) (hY n) hle1
      have ht : ((n + 1 : ℕ) : ℝ) * dt = n * dt + dt := by push_cast; ring
      rw [ht]
      refine hs.trans ?_
      set s : ℝ := n * dt with hsdef
      have e1 : 1 + K * dt ≤ Real.exp (K * dt) := by
        have := Real.add_one_le_exp (K * dt)
        linarith
      have e2 : Real.exp (K * (s + dt)) = Real.exp (K * s) * Real.exp (K * dt) := by
        rw [← Real.exp_add]; congr 1; ring
      have e3 : 1 ≤ Real.exp (K * (s + dt)) := Real.one_le_exp (by positivity)
      calc (1 + K * dt) * ‖Y n - y s‖ + C * dt ^ (p + 1)
          ≤ Real.exp (K * dt) * (C * s * Real.exp (K * s) * dt ^ p) + C * dt ^ (p + 1) * Real.exp (K * (s + dt)) := by
            refine add_le_add (mul_le_mul e1 hb (norm_nonneg _) (Real.exp_nonneg _)) ?_
            exact le_mul_of_one_le_right (by positivity) e3
        _ = C * (s + dt) * Real.exp (K * (s + dt)) * dt ^ p := by rw [e2]; ring
  intro n hn
  refine (key n hn).trans (mul_le_mul_of_nonneg_right ?_ hp0)
  rw [hB]
  have hndt : 0 ≤ (n : ℝ) * dt := by positivity
  refine mul_le_mul (mul_le_mul_of_nonneg_left hn hC) ?_ (Real.exp_nonneg _) (by positivity)
  exact Real.exp_le_exp.mpr (mul_le_mul_of_nonneg_left hn hK)

/-! ## First order, with an implicit part -/

section implicit
variable {nf N : ℕ}

/-- A stage of the method: add a slope and divide. -/
noncomputable def stage (a : State nf N) (c : ℝ) (Y k : State nf N) : State nf N :=
  fun i x => (Y i x + (c : ℂ) * k i x) / (1 - (c : ℂ) * a i x)

variable {T : ℝ} {a : State nf N} {G : Fin nf → ℝ → State nf N → State nf N → Fin N → ℂ} {y : ℝ → State nf N}

/-- The slope. -/
def slopeOf (G : Fin nf → ℝ → State nf N → State nf N → Fin N → ℂ) (t : ℝ) (Y : State nf N) : State nf N :=
  fun i => G i t Y Y

/-- The steps that are considered. -/
def Considered (T : ℝ) (a : State nf N) (y : ℝ → State nf N) (dt t : ℝ) (Y : State nf N) : Prop :=
  0 < dt ∧ dt ≤ 1 ∧ dt * ‖a‖ ≤ 1 / 2 ∧ 0 ≤ t ∧ t + dt ≤ T ∧ ‖Y - y t‖ ≤ 1

/-- The stage differs from the solution by the error and the time step. -/
def Near (T : ℝ) (a : State nf N) (y : ℝ → State nf N) (X Z : ℝ → ℝ → State nf N → State nf N) : Prop :=
  ∃ α β : ℝ, 0 ≤ α ∧ 0 ≤ β ∧ ∀ dt t Y, Considered T a y dt t Y → ‖X dt t Y - Z dt t Y‖ ≤ α * ‖Y - y t‖ + β * dt

theorem Near.slope (hG : LipBounded T G) {M : ℝ} (hy : ∀ t ∈ Icc 0 T, ‖y t‖ ≤ M)
    {S : ℝ → ℝ → State nf N → State nf N} (hS : Near T a y S fun _ t _ => y t) :
    Near T a y (fun dt t Y => slopeOf G t (S dt t Y)) fun _ t _ => slopeOf G t (y t) := by
  obtain ⟨α, β, hα, hβ, hS⟩ := hS
  obtain ⟨L, hL, hLip⟩ := hG (M + (α + β))
  refine ⟨L * (2 * α), L * (2 * β), by positivity, by positivity, fun dt t Y hc => ?_⟩
  have h := hS dt t Y hc
  obtain ⟨hdt, hdt1, -, ht, htT, he⟩ := hc
  have he0 := norm_nonneg (Y - y t)
  have htI : t ∈ Icc 0 T := ⟨ht, by linarith⟩
  have h1 : ‖S dt t Y - y t‖ ≤ α + β := by nlinarith
  have h2 : ‖S dt t Y‖ ≤ M + (α + β) := by
    have := norm_add_le (S dt t Y - y t) (y t)
    rw [sub_add_cancel] at this
    linarith [hy t htI]
  have h3 : ‖y t‖ ≤ M + (α + β) := (hy t htI).trans (by linarith)
  rw [pi_norm_le_iff_of_nonneg (by positivity)]
  intro i
  refine (hLip i t htI t htI _ _ _ _ h2 h3 h2 h3).trans ?_
  rw [sub_self, abs_zero, zero_add]
  have := mul_le_mul_of_nonneg_left (add_le_add h h) hL
  linarith

/-- Dividing by `1 - c a`. -/
theorem stage_bound {c b : ℝ} (hc : 0 ≤ c) (hca : c * ‖a‖ ≤ 1 / 2) (Y k z : State nf N)
    (hb : ‖Y - z + (c : ℂ) • k + (c : ℂ) • (a * z)‖ ≤ b) : ‖stage a c Y k - z‖ ≤ (1 + 2 * c * ‖a‖) * b := by
  have hb0 : 0 ≤ b := (norm_nonneg _).trans hb
  rw [pi_norm_le_iff_of_nonneg (by positivity)]
  intro i
  rw [pi_norm_le_iff_of_nonneg (by positivity)]
  intro x
  have hax : ‖a i x‖ ≤ ‖a‖ := (norm_le_pi_norm (a i) x).trans (norm_le_pi_norm a i)
  have hne : 1 - (c : ℂ) * a i x ≠ 0 := by
    intro he
    have h3 : ‖(c : ℂ) * a i x‖ = 1 := by rw [← sub_eq_zero.mp he, norm_one]
    rw [norm_mul, Complex.norm_real, Real.norm_eq_abs, abs_of_nonneg hc] at h3
    have := mul_le_mul_of_nonneg_left hax hc
    linarith
  refine inv_bound hc hax hca (v := (Y - z + (c : ℂ) • k + (c : ℂ) • (a * z)) i x) ?_ ?_
  · exact ((norm_le_pi_norm ((Y - z + (c : ℂ) • k + (c : ℂ) • (a * z)) i) x).trans
      (norm_le_pi_norm (Y - z + (c : ℂ) • k + (c : ℂ) • (a * z)) i)).trans hb
  · simp only [stage, Pi.sub_apply, Pi.add_apply, Pi.smul_apply, Pi.mul_apply, smul_eq_mul]
    rw [mul_sub, mul_div_cancel₀ _ hne]
    ring

theorem norm_mul_state (a v : State nf N) : ‖a * v‖ ≤ ‖a‖ * ‖v‖ := norm_mul_le _ _

theorem norm_real_smul (c : ℝ) (hc : 0 ≤ c) (v : State nf N) : ‖(c : ℂ) • v‖ = c * ‖v‖ := by
  rw [norm_smul, Complex.norm_real, Real.norm_eq_abs, abs_of_nonneg hc]

theorem Near.stage {M D : ℝ} (hM : 0 ≤ M) (hD : 0 ≤ D) (hy : ∀ t ∈ Icc 0 T, ‖y t‖ ≤ M)
    (hyD : ∀ t ∈ Icc 0 T, ‖slopeOf G t (y t)‖ ≤ D) {c : ℝ} (hc0 : 0 ≤ c) (hc1 : c ≤ 1)
    {k : ℝ → ℝ → State nf N → State nf N} (hk : Near T a y k fun _ t _ => slopeOf G t (y t)) :
    Near T a y (fun dt t Y => Converge.stage a (c * dt) Y (k dt t Y)) fun _ t _ => y t := by
  obtain ⟨α, β, hα, hβ, hk⟩ := hk
  refine ⟨2 * (1 + α), 2 * (β + D + ‖a‖ * M), by positivity, by positivity, fun dt t Y hc => ?_⟩
  have h := hk dt t Y hc
  obtain ⟨hdt, hdt1, hda, ht, htT, he⟩ := hc
  have htI : t ∈ Icc 0 T := ⟨ht, by linarith⟩
  set e := ‖Y - y t‖ with hee
  have he0 : 0 ≤ e := norm_nonneg _
  have hcd0 : 0 ≤ c * dt := by positivity
  have hcd : c * dt ≤ dt := by nlinarith
  have hA0 : 0 ≤ ‖a‖ := norm_nonneg _
  have hca : c * dt * ‖a‖ ≤ 1 / 2 := (mul_le_mul_of_nonneg_right hcd hA0).trans hda
  have hk0 : ‖k dt t Y‖ ≤ D + (α * e + β * dt) := by
    have := norm_add_le (k dt t Y - slopeOf G t (y t)) (slopeOf G t (y t))
    rw [sub_add_cancel] at this
    linarith [hyD t htI]
  have hb : ‖Y - y t + ((c * dt : ℝ) : ℂ) • k dt t Y + ((c * dt : ℝ) : ℂ) • (a * y t)‖ ≤
      e + dt * (D + (α * e + β * dt)) + dt * (‖a‖ * M) := by
    refine (norm_add_le _ _).trans (add_le_add ((norm_add_le _ _).trans (add_le_add le_rfl ?_)) ?_)
    · rw [norm_real_smul _ hcd0]
      exact mul_le_mul hcd hk0 (norm_nonneg _) hdt.le
    · rw [norm_real_smul _ hcd0]
      exact mul_le_mul hcd ((norm_mul_state _ _).trans (mul_le_mul_of_nonneg_left (hy t htI) hA0)) (norm_nonneg _) hdt.le
  refine (stage_bound hcd0 hca Y (k dt t Y) (y t) hb).trans ?_
  have h2 : 1 + 2 * (c * dt) * ‖a‖ ≤ 2 := by nlinarith
  have h3 : e + dt * (D + (α * e + β * dt)) + dt * (‖a‖ * M) ≤ (1 + α) * e + (β + D + ‖a‖ * M) * dt := by
    have p1 : dt * (α * e) ≤ α * e := by
      have : 0 ≤ α * e := by positivity
      nlinarith
    have p2 : dt * (β * dt) ≤ β * dt := by
      have : 0 ≤ β * dt := by positivity
      nlinarith
    nlinarith
  have h4 : 0 ≤ e + dt * (D + (α * e + β * dt)) + dt * (‖a‖ * M) := by positivity
  calc _ ≤ 2 * (e + dt * (D + (α * e + β * dt)) + dt * (‖a‖ * M)) := mul_le_mul_of_nonneg_right h2 h4
    _ ≤ 2 * ((1 + α) * e + (β + D + ‖a‖ * M) * dt) := by linarith
    _ = _ := by ring

/-- One step of the Runge-Kutta method with an implicit part. -/
noncomputable def rkStep (a : State nf N) (F : State nf N → State nf N) (dt : ℝ) (Y : State nf N) : State nf N :=
  let k1 := F Y
  let k2 := F (stage a (1 / 2 * dt) Y k1)
  let k3 := F (stage a (1 / 2 * dt) Y k2)
  let k4 := F (stage a (1 * dt) Y k3)
  stage a dt Y ((1 / 6 : ℂ) • (k1 + (2 : ℂ) • k2 + (2 : ℂ) • k3 + k4))

theorem rk_one_step (hT : 0 ≤ T) (hG : LipBounded T G) (hy : Solves T a G y) :
    ∃ K C : ℝ, 0 ≤ K ∧ 0 ≤ C ∧ ∀ dt t : ℝ, ∀ Y : State nf N, Considered T a y dt t Y →
      ‖rkStep a (slopeOf G t) dt Y - y (t + dt)‖ ≤ (1 + K * dt) * ‖Y - y t‖ + C * dt ^ 2 := by
  obtain ⟨M, hM, hyM, hyL, hyT⟩ := regular hT hG hy
  -- the slope along the solution is bounded
  obtain ⟨D, hD, hyD⟩ : ∃ D : ℝ, 0 ≤ D ∧ ∀ t ∈ Icc 0 T, ‖slopeOf G t (y t)‖ ≤ D := by
    obtain ⟨L, hL, hLip⟩ := hG M
    refine ⟨‖slopeOf G 0 (y 0)‖ + L * (T + 4 * M), by positivity, fun t ht => ?_⟩
    have h0 : (0 : ℝ) ∈ Icc 0 T := ⟨le_rfl, hT⟩
    rw [pi_norm_le_iff_of_nonneg (by positivity)]
    intro i
    have h1 := hLip i t ht 0 h0 _ _ _ _ (hyM t ht) (hyM 0 h0) (hyM t ht) (hyM 0 h0)
    have h2 := norm_add_le (G i t (y t) (y t) - G i 0 (y 0) (y 0)) (G i 0 (y 0) (y 0))
    rw [sub_add_cancel] at h2
    have h3 : ‖G i 0 (y 0) (y 0)‖ ≤ ‖slopeOf G 0 (y 0)‖ := norm_le_pi_norm (slopeOf G 0 (y 0)) i
    have h4 : ‖y t - y 0‖ ≤ 2 * M := (norm_sub_le _ _).trans (by linarith [hyM t ht, hyM 0 h0])
    have h5 : |t - 0| ≤ T := by rw [sub_zero, abs_of_nonneg ht.1]; exact ht.2
    have h6 : L * (|t - 0| + ‖y t - y 0‖ + ‖y t - y 0‖) ≤ L * (T + 4 * M) :=
      mul_le_mul_of_nonneg_left (by linarith) hL
    show ‖G i t (y t) (y t)‖ ≤ _
    linarith
  -- the stages
  have n1 : Near T a y (fun _ _ Y => Y) fun _ t _ => y t :=
    ⟨1, 0, zero_le_one, le_rfl, fun dt t Y _ => by simp⟩
  have s1 := n1.slope hG hyM
  have s2 := (Near.stage hM hD hyM hyD (c := 1 / 2) (by norm_num) (by norm_num) s1).slope hG hyM
  have s3 := (Near.stage hM hD hyM hyD (c := 1 / 2) (by norm_num) (by norm_num) s2).slope hG hyM
  have s4 := (Near.stage hM hD hyM hyD (c := 1) (by norm_num) (by norm_num) s3).slope hG hyM
  obtain ⟨α1, β1, hα1, hβ1, s1⟩ := s1
  obtain ⟨α2, β2, hα2, hβ2, s2⟩ := s2
  obtain ⟨α3, β3, hα3, hβ3, s3⟩ := s3
  obtain ⟨α4, β4, hα4, hβ4, s4⟩ := s4
  set α := α1 + 2 * α2 + 2 * α3 + α4 with hα
  set β := β1 + 2 * β2 + 2 * β3 + β4 with hβ
  have hα0 : 0 ≤ α := by positivity
  have hβ0 : 0 ≤ β := by positivity
  set A := ‖a‖ with hA
  have hA0 : 0 ≤ A := norm_nonneg _
  refine ⟨2 * α + 2 * A, 2 * (β + M + A * M), by positivity, by positivity, fun dt t Y hc => ?_⟩
  have h1 := s1 dt t Y hc
  have h2 := s2 dt t Y hc
  have h3 := s3 dt t Y hc
  have h4 := s4 dt t Y hc
  obtain ⟨hdt, hdt1, hda, ht, htT, he⟩ := hc
  set e := ‖Y - y t‖ with hee
  have he0 : 0 ≤ e := norm_nonneg _
  have htI : t ∈ Icc 0 T := ⟨ht, by linarith⟩
  have htI' : t + dt ∈ Icc 0 T := ⟨by linarith, htT⟩
  simp only [rkStep]
  set k1 := slopeOf G t Y with hk1
  set k2 := slopeOf G t (Converge.stage a (1 / 2 * dt) Y k1) with hk2
  set k3 := slopeOf G t (Converge.stage a (1 / 2 * dt) Y k2) with hk3
  set k4 := slopeOf G t (Converge.stage a (1 * dt) Y k3) with hk4
  set g := slopeOf G t (y t) with hg
  set κ : State nf N := (1 / 6 : ℂ) • (k1 + (2 : ℂ) • k2 + (2 : ℂ) • k3 + k4) with hκ
  have hκg : ‖κ - g‖ ≤ α * e + β * dt := by
    have e1 : κ - g = (1 / 6 : ℂ) • ((k1 - g) + (2 : ℂ) • (k2 - g) + (2 : ℂ) • (k3 - g) + (k4 - g)) := by
      rw [hκ]; module
    have e2 : ‖(1 / 6 : ℂ)‖ = 1 / 6 := by
      rw [show (1 / 6 : ℂ) = ((1 / 6 : ℝ) : ℂ) by push_cast; rfl, Complex.norm_real]; norm_num
    have e3 : ∀ v : State nf N, ‖(2 : ℂ) • v‖ = 2 * ‖v‖ := fun v => by rw [norm_smul]; norm_num
    have e4 : ‖(k1 - g) + (2 : ℂ) • (k2 - g) + (2 : ℂ) • (k3 - g) + (k4 - g)‖ ≤
        ‖k1 - g‖ + 2 * ‖k2 - g‖ + 2 * ‖k3 - g‖ + ‖k4 - g‖ := by
      refine (norm_add_le _ _).trans (add_le_add ((norm_add_le _ _).trans (add_le_add ((norm_add_le _ _).trans
        (add_le_add le_rfl (e3 _).le)) (e3 _).le)) le_rfl)
    rw [e1, norm_smul, e2]
    have hsum : 0 ≤ α * e + β * dt := by positivity
    have h5 : ‖k1 - g‖ + 2 * ‖k2 - g‖ + 2 * ‖k3 - g‖ + ‖k4 - g‖ ≤ α * e + β * dt := by
      rw [hα, hβ]; linarith
    linarith
  -- the defect of the solution
  have hdiff : ‖y (t + dt) - y t‖ ≤ M * dt := by
    have := hyL (t + dt) htI' t htI
    rwa [add_sub_cancel_left, abs_of_pos hdt] at this
  have hτ : ‖y (t + dt) - y t - (dt : ℂ) • (g + a * y t)‖ ≤ M * dt ^ 2 := by
    rw [pi_norm_le_iff_of_nonneg (by positivity)]
    intro i
    exact hyT t htI dt hdt.le htT i
  have hb : ‖Y - y (t + dt) + (dt : ℂ) • κ + (dt : ℂ) • (a * y (t + dt))‖ ≤
      e + dt * (α * e + β * dt) + (M * dt ^ 2 + dt * (A * (M * dt))) := by
    have e1 : Y - y (t + dt) + (dt : ℂ) • κ + (dt : ℂ) • (a * y (t + dt)) =
        (Y - y t) + (dt : ℂ) • (κ - g) - ((y (t + dt) - y t - (dt : ℂ) • (g + a * y t)) -
          (dt : ℂ) • (a * (y (t + dt) - y t))) := by
      rw [mul_sub]; module
    rw [e1]
    refine (norm_sub_le _ _).trans (add_le_add ((norm_add_le _ _).trans (add_le_add le_rfl ?_))
      ((norm_sub_le _ _).trans (add_le_add hτ ?_)))
    · rw [norm_real_smul _ hdt.le]; exact mul_le_mul_of_nonneg_left hκg hdt.le
    · rw [norm_real_smul _ hdt.le]
      exact mul_le_mul_of_nonneg_left ((norm_mul_state _ _).trans (mul_le_mul_of_nonneg_left hdiff hA0)) hdt.le
  refine (stage_bound hdt.le hda Y κ (y (t + dt)) hb).trans ?_
  rw [← hA]
  have r : (1 + (2 * α + 2 * A) * dt) * e + 2 * (β + M + A * M) * dt ^ 2 =
      (1 + 2 * dt * A) * e + 2 * (dt * (α * e + β * dt) + (M * dt ^ 2 + dt * (A * (M * dt)))) := by ring
  have p : 0 ≤ dt * (α * e + β * dt) + (M * dt ^ 2 + dt * (A * (M * dt))) := by positivity
  have q : 2 * dt * A ≤ 1 := by linarith
  rw [r]
  have := mul_le_mul_of_nonneg_right (show 1 + 2 * dt * A ≤ 2 by linarith) p
  nlinarith

/-- First order convergence of the Runge-Kutta method with an implicit part. -/
theorem rk_converges (hT : 0 ≤ T) (hG : LipBounded T G) (hy : Solves T a G y) :
    ∃ C dt0 : ℝ, 0 ≤ C ∧ 0 < dt0 ∧ ∀ dt : ℝ, 0 < dt → dt ≤ dt0 → ∀ Y : ℕ → State nf N, Y 0 = y 0 →
      (∀ n : ℕ, Y (n + 1) = rkStep a (slopeOf G ((n : ℝ) * dt)) dt (Y n)) → ∀ n : ℕ, (n : ℝ) * dt ≤ T →
        ‖Y n - y (n * dt)‖ ≤ C * dt := by
  obtain ⟨K, C, hK, hC, h⟩ := rk_one_step hT hG hy
  obtain ⟨B, dt0, hB, hdt0, hconv⟩ := accumulate (p := 1) le_rfl hT (y := y) (d := min 1 (1 / (2 * (‖a‖ + 1)))) hK hC
    (by positivity) (step := fun dt t Y Y' => Y' = rkStep a (slopeOf G t) dt Y) (by
      intro dt t hdt hd ht htT Y Y' hs he
      rw [hs]
      refine h dt t Y ⟨hdt, hd.trans (min_le_left _ _), ?_, ht, htT, he⟩
      have h1 : dt ≤ 1 / (2 * (‖a‖ + 1)) := hd.trans (min_le_right _ _)
      rw [le_div_iff₀ (by positivity)] at h1
      nlinarith)
  refine ⟨B, dt0, hB, hdt0, fun dt hdt hle Y hY0 hY n hn => ?_⟩
  have := hconv dt hdt hle Y hY0 hY n hn
  rwa [pow_one] at this

end implicit

end Gopf.Converge
