import Verif.Proofs.ConvergeExists
import Verif.Props.ConvergeRk

/-!
# C112: the solution the steppers converge to exists and is unique
-/

namespace Gopf.Props
open Pf Pfutil Converge Set

variable {nf nd : ℕ} {dims : List ℕ}

/-! ## Proof -/

theorem lipschitz_mono {T T' : ℝ} {freq : Frequency dims.prod} {m : Model nf nd dims.prod}
    (hm : LocallyLipschitz T freq m) (hle : T' ≤ T) : LocallyLipschitz T' freq m := by
  refine ⟨?_, hm.calcs⟩
  intro R
  obtain ⟨L, hL, hb⟩ := hm.rhs R
  exact ⟨L, hL, fun i s hs t ht => hb i s ⟨hs.1, hs.2.trans hle⟩ t ⟨ht.1, ht.2.trans hle⟩⟩

theorem fft_realSpace (h : ∀ d ∈ dims, 0 < d) (F : Data dims.prod) : fft dims (realSpace F) = F := fft_surjective h F

/-- A solution for the spectra is a solution for the fields. -/
theorem spectral_solves (h : ∀ d ∈ dims, 0 < d) {T : ℝ} {freq : Frequency dims.prod} {m : Model nf nd dims.prod}
    {A : Fin nf → Data dims.prod} {y : ℝ → State nf dims.prod} (hy : Solves T A (spectralRHS freq m) y) :
    SolvesModel T freq m A (fun t j => realSpace (y t j)) := by
  intro t ht i k
  have := hasDerivWithinAt_pi.mp (hy t ht i) k
  simp only [fft_realSpace h]
  exact this

/-- Two curves with the same computed approximations agree. -/
theorem limit_unique {T : ℝ} (run : ℝ → ℕ → ℂ) {C C' dt0 dt0' t : ℝ} {p q : ℂ} (hdt0 : 0 < dt0) (hdt0' : 0 < dt0')
    (ht : 0 < t) (htT : t ≤ T)
    (hp : ∀ dt : ℝ, 0 < dt → dt ≤ dt0 → ∀ n : ℕ, (n : ℝ) * dt ≤ T → (n : ℝ) * dt = t → ‖run dt n - p‖ ≤ C * dt)
    (hq : ∀ dt : ℝ, 0 < dt → dt ≤ dt0' → ∀ n : ℕ, (n : ℝ) * dt ≤ T → (n : ℝ) * dt = t → ‖run dt n - q‖ ≤ C' * dt) :
    p = q := by
  by_contra hne
  have hpos : 0 < ‖p - q‖ := norm_pos_iff.mpr (sub_ne_zero.mpr hne)
  obtain ⟨n, hn⟩ := exists_nat_gt (t / dt0 + t / dt0' + (|C| + |C'|) * t / ‖p - q‖)
  have h1 : 0 ≤ t / dt0 := by positivity
  have h2 : 0 ≤ t / dt0' := by positivity
  have h3 : 0 ≤ (|C| + |C'|) * t / ‖p - q‖ := by positivity
  have hn0 : (0 : ℝ) < n := by linarith
  have hdt : 0 < t / n := by positivity
  have hnd : (n : ℝ) * (t / n) = t := by field_simp
  have hs : ∀ d : ℝ, 0 < d → t / d < n → t / n ≤ d := by
    intro d hd hlt
    rw [div_lt_iff₀ hd] at hlt
    rw [div_le_iff₀ hn0]
    linarith
  have e1 := hp (t / n) hdt (hs _ hdt0 (by linarith)) n (by rw [hnd]; exact htT) hnd
  have e2 := hq (t / n) hdt (hs _ hdt0' (by linarith)) n (by rw [hnd]; exact htT) hnd
  have e3 : ‖p - q‖ ≤ (|C| + |C'|) * (t / n) := by
    have : p - q = (run (t / n) n - q) - (run (t / n) n - p) := by ring
    rw [this]
    refine (norm_sub_le _ _).trans ?_
    have := mul_le_mul_of_nonneg_right (le_abs_self C) hdt.le
    have := mul_le_mul_of_nonneg_right (le_abs_self C') hdt.le
    linarith
  have e4 : (|C| + |C'|) * t / ‖p - q‖ < n := by linarith
  rw [div_lt_iff₀ hpos] at e4
  rw [mul_div_assoc', le_div_iff₀ hn0] at e3
  linarith

/-- Runs that converge to every solution from `f0` and stay bounded have a solution to converge to. -/
theorem exists_of_bounded {ι : Type} [Nonempty ι] (h : ∀ d ∈ dims, 0 < d) {T : ℝ} (hT : 0 ≤ T)
    (freq : Frequency dims.prod) (m : Model nf nd dims.prod) (hm : LocallyLipschitz T freq m)
    (A : Fin nf → Data dims.prod) (f0 : Fin nf → Data dims.prod) (run : ι → ℝ → ℕ → Fin nf → Data dims.prod)
    (hconv : ∀ T' ∈ Icc 0 T, ∀ u : ℝ → Fin nf → Data dims.prod, u 0 = f0 → SolvesModel T' freq m A u →
      ∃ C dt0 : ℝ, 0 < dt0 ∧ ∀ dt : ℝ, 0 < dt → dt ≤ dt0 → ∀ (a : ι) (n : ℕ), (n : ℝ) * dt ≤ T' → ∀ i,
        ∀ x : Fin dims.prod, ‖run a dt n i x - u (n * dt) i x‖ ≤ C * dt)
    (B dt0 : ℝ) (hdt0 : 0 < dt0)
    (hB : ∀ dt : ℝ, 0 < dt → dt ≤ dt0 → ∀ (a : ι) (n : ℕ), (n : ℝ) * dt ≤ T → ∀ i, ∀ x : Fin dims.prod,
      ‖run a dt n i x‖ ≤ B) :
    ∃ u : ℝ → Fin nf → Data dims.prod, u 0 = f0 ∧ SolvesModel T freq m A u := by
  obtain ⟨a⟩ := ‹Nonempty ι›
  obtain ⟨y, hy0, hy⟩ := continuation (a := A) hT (lipBounded_rhs hm)
    (max ‖fun j => fft dims (f0 j)‖ (dims.prod * max B 0)) (fun j => fft dims (f0 j)) (by
    intro T' hT' y hy0 hy
    rcases hT'.1.eq_or_lt with rfl | hpos
    · rw [hy0]; exact le_max_left _ _
    refine le_trans ?_ (le_max_right _ _)
    have hsol := spectral_solves h hy
    obtain ⟨C, dt1, hdt1, hc⟩ := hconv T' hT' (fun t j => realSpace (y t j))
      (by funext j; rw [hy0]; exact realSpace_fft h _) hsol
    have key : ∀ i, ∀ x : Fin dims.prod, ‖realSpace (y T' i) x‖ ≤ max B 0 := by
      intro i x
      refine le_of_forall_pos_le_add fun ε hε => ?_
      obtain ⟨n, hn⟩ := exists_nat_gt (T' / dt0 + T' / dt1 + |C| * T' / ε)
      have h1 : 0 ≤ T' / dt0 := by positivity
      have h2 : 0 ≤ T' / dt1 := by positivity
      have h3 : 0 ≤ |C| * T' / ε := by positivity
      have hn0 : (0 : ℝ) < n := by linarith
      have hdt : 0 < T' / n := by positivity
      have hnd : (n : ℝ) * (T' / n) = T' := by field_simp
      have hs : ∀ d : ℝ, 0 < d → T' / d < n → T' / n ≤ d := by
        intro d hd hlt
        rw [div_lt_iff₀ hd] at hlt
        rw [div_le_iff₀ hn0]
        linarith
      have e1 := hc (T' / n) hdt (hs _ hdt1 (by linarith)) a n hnd.le i x
      have e2 := hB (T' / n) hdt (hs _ hdt0 (by linarith)) a n (by rw [hnd]; exact hT'.2) i x
      rw [hnd] at e1
      have e3 : C * (T' / n) ≤ ε := by
        refine (mul_le_mul_of_nonneg_right (le_abs_self C) hdt.le).trans ?_
        rw [mul_div_assoc', div_le_iff₀ hn0]
        have : |C| * T' / ε < n := by linarith
        rw [div_lt_iff₀ hε] at this
        linarith
      have e4 := norm_le_norm_add_norm_sub (run a (T' / n) n i x) (realSpace (y T' i) x)
      have := le_max_left B 0
      linarith
    rw [pi_norm_le_iff_of_nonneg (by positivity)]
    intro i
    rw [← fft_realSpace h (y T' i)]
    refine (fft_norm _).trans (mul_le_mul_of_nonneg_left ?_ (Nat.cast_nonneg _))
    rw [pi_norm_le_iff_of_nonneg (le_max_right _ _)]
    exact key i)
  refine ⟨_, ?_, spectral_solves h hy⟩
  funext j
  rw [hy0]
  exact realSpace_fft h _

/-- A solution bounds the runs that converge to it. -/
theorem bounded_of_exists {ι : Type} (h : ∀ d ∈ dims, 0 < d) {T : ℝ}
    {freq : Frequency dims.prod} {m : Model nf nd dims.prod}
    {A : Fin nf → Data dims.prod} {u : ℝ → Fin nf → Data dims.prod} (hu : SolvesModel T freq m A u)
    (run : ι → ℝ → ℕ → Fin nf → Data dims.prod) {C dt0 : ℝ} (hC : 0 ≤ C) (hdt0 : 0 < dt0)
    (hconv : ∀ dt : ℝ, 0 < dt → dt ≤ dt0 → ∀ (a : ι) (n : ℕ), (n : ℝ) * dt ≤ T → ∀ i,
        ∀ x : Fin dims.prod, ‖run a dt n i x - u (n * dt) i x‖ ≤ C * dt) :
    ∃ B dt1 : ℝ, 0 < dt1 ∧ ∀ dt : ℝ, 0 < dt → dt ≤ dt1 → ∀ (a : ι) (n : ℕ), (n : ℝ) * dt ≤ T → ∀ i,
      ∀ x : Fin dims.prod, ‖run a dt n i x‖ ≤ B := by
  have hcont : ContinuousOn (fun t (j : Fin nf) => fft dims (u t j)) (Icc 0 T) := by
    rw [continuousOn_pi]
    intro i t ht
    exact (solves_spectral h hu t ht i).continuousWithinAt
  obtain ⟨M, hM⟩ := isCompact_Icc.exists_bound_of_continuousOn hcont
  refine ⟨M + C * dt0, dt0, hdt0, ?_⟩
  intro dt hdt hle a n hn i x
  have h1 := hconv dt hdt hle a n hn i x
  have ht : (n : ℝ) * dt ∈ Icc 0 T := ⟨by positivity, hn⟩
  have h2 : ‖u (n * dt) i x‖ ≤ M := by
    calc _ ≤ ‖u (n * dt) i‖ := norm_le_pi_norm _ x
      _ = ‖realSpace (fft dims (u (n * dt) i))‖ := by rw [realSpace_fft h]
      _ ≤ ‖fft dims (u (n * dt) i)‖ := realSpace_norm _
      _ ≤ _ := (norm_le_pi_norm (fun j : Fin nf => fft dims (u (n * dt) j)) i).trans (hM _ ht)
  have h3 := norm_le_norm_add_norm_sub' (run a dt n i x) (u (n * dt) i x)
  have h4 := mul_le_mul_of_nonneg_left hle hC
  linarith

/-! ## C112 -/

/-- C112: the solution is unique. -/
theorem c112_unique (h : ∀ d ∈ dims, 0 < d) {T : ℝ} (freq : Frequency dims.prod) (m : Model nf nd dims.prod)
    (hm : LocallyLipschitz T freq m) (A : Fin nf → Data dims.prod)
    (hA : ∀ i st t, m.getDenum i st freq t = A i) (u v : ℝ → Fin nf → Data dims.prod)
    (hu : SolvesModel T freq m A u) (hv : SolvesModel T freq m A v) (h0 : u 0 = v 0) :
    ∀ t ∈ Icc 0 T, u t = v t := by
  intro t ht
  rcases ht.1.eq_or_lt with rfl | hpos
  · exact h0
  have hT : 0 ≤ T := ht.1.trans ht.2
  obtain ⟨C, dt0, -, hdt0, h1⟩ := c107_euler_converges h hT freq m hm A hA u hu
  obtain ⟨C', dt0', -, hdt0', h2⟩ := c107_euler_converges h hT freq m hm A hA v hv
  funext i x
  refine limit_unique (T := T)
    (fun dt n => (eulerPropagate m n (⟨dt, freq, none, 0⟩, ⟨u 0, fun _ _ => 0⟩)).2.fields i x) hdt0 hdt0' hpos ht.2
    (C := C) (C' := C') ?_ ?_
  · intro dt hdt hle n hn hnt
    rw [← hnt]
    exact h1 dt hdt hle _ rfl n hn i x
  · intro dt hdt hle n hn hnt
    rw [← hnt]
    exact h2 dt hdt hle _ h0 n hn i x

/-- C112: from any fields there is a solution for some time. -/
theorem c112_exists (h : ∀ d ∈ dims, 0 < d) {T : ℝ} (hT : 0 < T) (freq : Frequency dims.prod)
    (m : Model nf nd dims.prod) (hm : LocallyLipschitz T freq m) (A : Fin nf → Data dims.prod)
    (f0 : Fin nf → Data dims.prod) :
    ∃ T' : ℝ, 0 < T' ∧ T' ≤ T ∧ ∃ u : ℝ → Fin nf → Data dims.prod, u 0 = f0 ∧ SolvesModel T' freq m A u := by
  obtain ⟨τ, hτ, hloc⟩ := local_solution (a := A) hT.le (lipBounded_rhs hm) ‖fun j => fft dims (f0 j)‖
  obtain ⟨y, hy0, hy⟩ := hloc 0 (min τ T) le_rfl (le_min hτ.le hT.le) (min_le_right _ _)
    (by rw [zero_add]; exact min_le_left _ _) (fun j => fft dims (f0 j)) le_rfl
  refine ⟨min τ T, lt_min hτ hT, min_le_right _ _, _, ?_, spectral_solves h hy⟩
  funext j
  rw [hy0]
  exact realSpace_fft h _

/-- C112: a solution exists up to time `T` if and only if the fields computed by the Euler stepper with small
time steps stay bounded up to time `T`. -/
theorem c112_euler_bounded (h : ∀ d ∈ dims, 0 < d) {T : ℝ} (hT : 0 ≤ T) (freq : Frequency dims.prod)
    (m : Model nf nd dims.prod) (hm : LocallyLipschitz T freq m) (A : Fin nf → Data dims.prod)
    (hA : ∀ i st t, m.getDenum i st freq t = A i) (f0 : Fin nf → Data dims.prod) :
    (∃ u : ℝ → Fin nf → Data dims.prod, u 0 = f0 ∧ SolvesModel T freq m A u) ↔
    ∃ B dt0 : ℝ, 0 < dt0 ∧ ∀ dt : ℝ, 0 < dt → dt ≤ dt0 → ∀ st : Store nf nd dims.prod, st.fields = f0 →
      ∀ n : ℕ, (n : ℝ) * dt ≤ T → ∀ i, ∀ x : Fin dims.prod,
        ‖(eulerPropagate m n (⟨dt, freq, none, 0⟩, st)).2.fields i x‖ ≤ B := by
  constructor
  · rintro ⟨u, rfl, hu⟩
    obtain ⟨C, dt0, hC, hdt0, hc⟩ := c107_euler_converges h hT freq m hm A hA u hu
    obtain ⟨B, dt1, hdt1, hB⟩ := bounded_of_exists h hu
      (fun (st : { st : Store nf nd dims.prod // st.fields = u 0 }) dt n =>
        (eulerPropagate m n (⟨dt, freq, none, 0⟩, st.1)).2.fields) hC hdt0
      (fun dt hdt hle st n hn => hc dt hdt hle st.1 st.2 n hn)
    exact ⟨B, dt1, hdt1, fun dt hdt hle st hst n hn => hB dt hdt hle ⟨st, hst⟩ n hn⟩
  · rintro ⟨B, dt0, hdt0, hB⟩
    have : Nonempty { st : Store nf nd dims.prod // st.fields = f0 } := ⟨⟨⟨f0, fun _ _ => 0⟩, rfl⟩⟩
    refine exists_of_bounded h hT freq m hm A f0
      (fun (st : { st : Store nf nd dims.prod // st.fields = f0 }) dt n =>
        (eulerPropagate m n (⟨dt, freq, none, 0⟩, st.1)).2.fields) ?_ B dt0 hdt0
      (fun dt hdt hle st n hn => hB dt hdt hle st.1 st.2 n hn)
    intro T' hT' u hu0 hu
    obtain ⟨C, dt1, -, hdt1, hc⟩ := c107_euler_converges h hT'.1 freq m (lipschitz_mono hm hT'.2) A hA u hu
    exact ⟨C, dt1, hdt1, fun dt hdt hle st n hn => hc dt hdt hle st.1 (st.2.trans hu0.symm) n hn⟩

/-- C112: the same for the RK4 stepper. -/
theorem c112_rk4_bounded (h : ∀ d ∈ dims, 0 < d) {T : ℝ} (hT : 0 ≤ T) (freq : Frequency dims.prod)
    (m : Model nf nd dims.prod) (hm : LocallyLipschitz T freq m) (A : Fin nf → Data dims.prod)
    (hA : ∀ i st t, m.getDenum i st freq t = A i) (f0 : Fin nf → Data dims.prod) :
    (∃ u : ℝ → Fin nf → Data dims.prod, u 0 = f0 ∧ SolvesModel T freq m A u) ↔
    ∃ B dt0 : ℝ, 0 < dt0 ∧ ∀ dt : ℝ, 0 < dt → dt ≤ dt0 → ∀ st : Store nf nd dims.prod, st.fields = f0 →
      ∀ n : ℕ, (n : ℝ) * dt ≤ T → ∀ i, ∀ x : Fin dims.prod,
        ‖(rk4Propagate m n (⟨dt, freq, none, 0⟩, st)).2.fields i x‖ ≤ B := by
  constructor
  · rintro ⟨u, rfl, hu⟩
    obtain ⟨C, dt0, hC, hdt0, hc⟩ := c111_converges h hT freq m hm A hA u hu
    obtain ⟨B, dt1, hdt1, hB⟩ := bounded_of_exists h hu
      (fun (st : { st : Store nf nd dims.prod // st.fields = u 0 }) dt n =>
        (rk4Propagate m n (⟨dt, freq, none, 0⟩, st.1)).2.fields) hC hdt0
      (fun dt hdt hle st n hn => hc dt hdt hle st.1 st.2 n hn)
    exact ⟨B, dt1, hdt1, fun dt hdt hle st hst n hn => hB dt hdt hle ⟨st, hst⟩ n hn⟩
  · rintro ⟨B, dt0, hdt0, hB⟩
    have : Nonempty { st : Store nf nd dims.prod // st.fields = f0 } := ⟨⟨⟨f0, fun _ _ => 0⟩, rfl⟩⟩
    refine exists_of_bounded h hT freq m hm A f0
      (fun (st : { st : Store nf nd dims.prod // st.fields = f0 }) dt n =>
        (rk4Propagate m n (⟨dt, freq, none, 0⟩, st.1)).2.fields) ?_ B dt0 hdt0
      (fun dt hdt hle st n hn => hB dt hdt hle st.1 st.2 n hn)
    intro T' hT' u hu0 hu
    obtain ⟨C, dt1, -, hdt1, hc⟩ := c111_converges h hT'.1 freq m (lipschitz_mono hm hT'.2) A hA u hu
    exact ⟨C, dt1, hdt1, fun dt hdt hle st n hn => hc dt hdt hle st.1 (st.2.trans hu0.symm) n hn⟩

/-- C112: the two steppers agree to first order. From any fields there is an end time up to which the fields
computed by the Euler and the RK4 stepper with the same small time step differ by at most `C dt`. -/
theorem c112_steppers_agree (h : ∀ d ∈ dims, 0 < d) {T : ℝ} (hT : 0 < T) (freq : Frequency dims.prod)
    (m : Model nf nd dims.prod) (hm : LocallyLipschitz T freq m) (A : Fin nf → Data dims.prod)
    (hA : ∀ i st t, m.getDenum i st freq t = A i) (f0 : Fin nf → Data dims.prod) :
    ∃ T' : ℝ, 0 < T' ∧ ∃ C dt0 : ℝ, 0 < dt0 ∧ ∀ dt : ℝ, 0 < dt → dt ≤ dt0 →
      ∀ st : Store nf nd dims.prod, st.fields = f0 → ∀ n : ℕ, (n : ℝ) * dt ≤ T' → ∀ i, ∀ x : Fin dims.prod,
        ‖(rk4Propagate m n (⟨dt, freq, none, 0⟩, st)).2.fields i x -
          (eulerPropagate m n (⟨dt, freq, none, 0⟩, st)).2.fields i x‖ ≤ C * dt := by
  obtain ⟨T', hpos, hle, u, rfl, hu⟩ := c112_exists h hT freq m hm A f0
  obtain ⟨C, dt0, -, hdt0, h1⟩ := c107_euler_converges h hpos.le freq m (lipschitz_mono hm hle) A hA u hu
  obtain ⟨C', dt0', -, hdt0', h2⟩ := c111_converges h hpos.le freq m (lipschitz_mono hm hle) A hA u hu
  refine ⟨T', hpos, C' + C, min dt0 dt0', lt_min hdt0 hdt0', ?_⟩
  intro dt hdt hd st hst n hn i x
  have e1 := h1 dt hdt (hd.trans (min_le_left _ _)) st hst n hn i x
  have e2 := h2 dt hdt (hd.trans (min_le_right _ _)) st hst n hn i x
  rw [add_mul, ← sub_sub_sub_cancel_right _ _ (u (n * dt) i x)]
  exact (norm_sub_le _ _).trans (add_le_add e2 e1)

/-! ### Blow-up -/

theorem square_rhs (i : Fin 1) (st : Store 1 1 [1].prod) (t : ℝ) :
    squareModel.getRHS i st (fun _ => [0]) t = st.derived 0 := by
  rw [c21_rhs]
  simp [squareModel]

theorem square_denum (i : Fin 1) (st : Store 1 1 [1].prod) (t : ℝ) :
    squareModel.getDenum i st (fun _ => [0]) t = fun _ => 0 := by
  funext k
  rw [c21_denum]
  simp [squareModel]

theorem square_lipschitz (T : ℝ) : LocallyLipschitz T (fun _ => [0]) squareModel := by
  refine ⟨?_, ?_⟩
  · intro R
    refine ⟨1, zero_le_one, fun i s _ t _ st st' _ _ _ _ => ?_⟩
    rw [square_rhs, square_rhs, one_mul]
    have := norm_le_pi_norm (st.derived - st'.derived) 0
    have := norm_nonneg (st.fields - st'.fields)
    have := abs_nonneg (s - t)
    simp only [Pi.sub_apply] at *
    linarith
  · intro R
    refine ⟨2 * max R 0, by positivity, fun d st st' h1 h2 => ?_⟩
    rw [pi_norm_le_iff_of_nonneg (by positivity)]
    intro x
    have e : (squareModel.calcs d st - squareModel.calcs d st') x =
        (st.fields 0 x + st'.fields 0 x) * (st.fields 0 x - st'.fields 0 x) := by
      simp only [squareModel, Pi.sub_apply]; ring
    rw [e, norm_mul]
    have b1 : ‖st.fields 0 x‖ ≤ R := ((norm_le_pi_norm (st.fields 0) x).trans (norm_le_pi_norm st.fields 0)).trans h1
    have b2 : ‖st'.fields 0 x‖ ≤ R := ((norm_le_pi_norm (st'.fields 0) x).trans (norm_le_pi_norm st'.fields 0)).trans h2
    have b3 : ‖st.fields 0 x - st'.fields 0 x‖ ≤ ‖st.fields - st'.fields‖ :=
      (norm_le_pi_norm ((st.fields - st'.fields) 0) x).trans (norm_le_pi_norm (st.fields - st'.fields) 0)
    refine mul_le_mul ((norm_add_le _ _).trans ?_) b3 (norm_nonneg _) (by positivity)
    have := le_max_left R 0
    linarith

theorem square_solution {T : ℝ} (hT : T < 1) :
    SolvesModel T (fun _ => [0]) squareModel (fun _ _ => 0) (fun t _ _ => (((1 - t)⁻¹ : ℝ) : ℂ)) := by
  intro t ht i k
  have hne : 1 - t ≠ 0 := by have := ht.2; linarith
  simp only [fft_one, square_rhs, zero_mul, add_zero]
  simp only [squareModel]
  have h1 : HasDerivAt (fun s : ℝ => (1 - s)⁻¹) (-(-1) / (1 - t) ^ 2) t := ((hasDerivAt_id t).const_sub 1).inv hne
  refine (h1.ofReal_comp.hasDerivWithinAt (s := Icc 0 T)).congr_deriv ?_
  rw [← Complex.ofReal_pow]
  congr 1
  field_simp

/-- C112: the condition is needed. For `dc/dt = c ^ 2` and the initial value 1 the computed fields exceed every
bound before time 1, for arbitrarily small time steps. -/
theorem c112_blow_up (B dt0 : ℝ) (hdt0 : 0 < dt0) :
    ∃ dt : ℝ, 0 < dt ∧ dt ≤ dt0 ∧ ∃ (st : Store 1 1 [1].prod) (n : ℕ), (st.fields = fun _ _ => 1) ∧
      (n : ℝ) * dt ≤ 1 ∧ ∃ x, B < ‖(eulerPropagate squareModel n (⟨dt, fun _ => [0], none, 0⟩, st)).2.fields 0 x‖ := by
  by_contra hcon
  push Not at hcon
  obtain ⟨u, hu0, hu⟩ := (c112_euler_bounded (dims := [1]) (by simp) zero_le_one (fun _ => [0]) squareModel
    (square_lipschitz 1) (fun _ _ => 0) square_denum (fun _ _ => 1)).mpr ⟨B, dt0, hdt0, by
      intro dt hdt hle st hst n hn i x
      rw [Subsingleton.elim i 0]
      exact hcon dt hdt hle st n hst hn x⟩
  have hcont : ContinuousOn (fun t (j : Fin 1) => fft [1] (u t j)) (Icc 0 1) := by
    rw [continuousOn_pi]
    intro i t ht
    exact (solves_spectral (by simp) hu t ht i).continuousWithinAt
  obtain ⟨M, hM⟩ := isCompact_Icc.exists_bound_of_continuousOn hcont
  have key : ∀ T : ℝ, 0 ≤ T → T < 1 → (1 - T)⁻¹ ≤ M := by
    intro T h0 h1
    have hu' : SolvesModel T (fun _ => [0]) squareModel (fun _ _ => 0) u := by
      intro t ht i k
      exact (hu t ⟨ht.1, ht.2.trans h1.le⟩ i k).mono (Icc_subset_Icc_right h1.le)
    have e := c112_unique (dims := [1]) (by simp) (fun _ => [0]) squareModel (square_lipschitz T) (fun _ _ => 0)
      square_denum u _ hu' (square_solution h1) (by rw [hu0]; simp) T ⟨h0, le_rfl⟩
    have hb := (norm_le_pi_norm (fun j : Fin 1 => fft [1] (u T j)) 0).trans (hM T ⟨h0, h1.le⟩)
    rw [fft_one, e] at hb
    have hx := (norm_le_pi_norm (fun _ : Fin [1].prod => (((1 - T)⁻¹ : ℝ) : ℂ)) ⟨0, by decide⟩).trans hb
    rw [Complex.norm_real, Real.norm_eq_abs] at hx
    exact (le_abs_self _).trans hx
  have hM1 : 1 ≤ M := by simpa using key 0 le_rfl zero_lt_one
  have h2 := key (1 - 1 / (M + 1)) (by
    have : 1 / (M + 1) ≤ 1 := by rw [div_le_one (by linarith)]; linarith
    linarith) (by
    have : 0 < 1 / (M + 1) := by positivity
    linarith)
  have : (1 - (1 - 1 / (M + 1)))⁻¹ = M + 1 := by
    rw [sub_sub_cancel, one_div, inv_inv]
  linarith

/-! ### The conditions are met -/

/-- The hypotheses of the theorems are met by `dc/dt = c ^ 2`; the computed fields are bounded up to every
`T < 1`. -/
example (T : ℝ) (hT0 : 0 ≤ T) (hT : T < 1) : LocallyLipschitz T (fun _ => [0]) squareModel ∧
    (∀ i st t, squareModel.getDenum i st (fun _ => [0]) t = fun _ => 0) ∧
    ∃ B dt0 : ℝ, 0 < dt0 ∧ ∀ dt : ℝ, 0 < dt → dt ≤ dt0 → ∀ st : Store 1 1 [1].prod, (st.fields = fun _ _ => 1) →
      ∀ n : ℕ, (n : ℝ) * dt ≤ T → ∀ i, ∀ x : Fin [1].prod,
        ‖(eulerPropagate squareModel n (⟨dt, fun _ => [0], none, 0⟩, st)).2.fields i x‖ ≤ B :=
  ⟨square_lipschitz T, square_denum,
    (c112_euler_bounded (by simp) hT0 (fun _ => [0]) squareModel (square_lipschitz T) (fun _ _ => 0) square_denum
      (fun _ _ => 1)).mp ⟨_, by simp, square_solution hT⟩⟩

end Gopf.Props
