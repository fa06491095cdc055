import Verif.Props.Stability

/-!
# C126: perturbations of a uniform state that leave it
-/

namespace Gopf.Props
open Spec Pf Pfutil

variable {n : ℕ} {dims : List ℕ}

theorem squares_neg (w : Data n) : squares (-w) = squares w := by
  simp [squares]

theorem squares_pos {w : Data n} (h : w ≠ 0) : 0 < squares w := by
  obtain ⟨x, hx⟩ := Function.ne_iff.mp h
  refine Finset.sum_pos' (fun _ _ => by positivity) ⟨x, Finset.mem_univ x, ?_⟩
  have : 0 < ‖w x‖ := norm_pos_iff.mpr hx
  positivity

/-- Waves that are all multiplied by at least `q` in modulus. -/
theorem multiplier_squares_ge (h : ∀ d ∈ dims, 0 < d) {a : Data dims.prod} {q : ℝ} (h0 : 0 ≤ q) (w : Data dims.prod)
    (ha : ∀ k, fft dims w k ≠ 0 → q ≤ ‖a k‖) :
    q * Real.sqrt (squares w) ≤ Real.sqrt (squares (multiplier dims a w)) := by
  have hp : (0 : ℝ) < (dims.prod : ℕ) := by
    have := Nat.pos_of_ne_zero (n := dims.prod) (by exact_mod_cast prod_ne_zero h)
    exact_mod_cast this
  have key : q ^ 2 * squares w ≤ squares (multiplier dims a w) := by
    refine le_of_mul_le_mul_left ?_ hp
    unfold squares
    rw [mul_left_comm, ← squares_parseval h, ← squares_parseval h, Finset.mul_sum]
    apply Finset.sum_le_sum
    intro k _
    rw [fft_multiplier h, norm_mul, mul_pow]
    by_cases hk : fft dims w k = 0
    · simp [hk]
    · exact mul_le_mul_of_nonneg_right (pow_le_pow_left₀ h0 (ha k hk) 2) (by positivity)
  calc q * Real.sqrt (squares w) = Real.sqrt (q ^ 2 * squares w) := by
        rw [Real.sqrt_mul (sq_nonneg q), Real.sqrt_sq h0]
    _ ≤ _ := Real.sqrt_le_sqrt key

theorem multiplier_squares_le (h : ∀ d ∈ dims, 0 < d) {a : Data dims.prod} {q : ℝ} (h0 : 0 ≤ q) (w : Data dims.prod)
    (ha : ∀ k, fft dims w k ≠ 0 → ‖a k‖ ≤ q) :
    Real.sqrt (squares (multiplier dims a w)) ≤ q * Real.sqrt (squares w) := by
  have hp : (0 : ℝ) < (dims.prod : ℕ) := by
    have := Nat.pos_of_ne_zero (n := dims.prod) (by exact_mod_cast prod_ne_zero h)
    exact_mod_cast this
  have key : squares (multiplier dims a w) ≤ q ^ 2 * squares w := by
    refine le_of_mul_le_mul_left ?_ hp
    unfold squares
    rw [mul_left_comm, ← squares_parseval h, ← squares_parseval h, Finset.mul_sum]
    apply Finset.sum_le_sum
    intro k _
    rw [fft_multiplier h, norm_mul, mul_pow]
    by_cases hk : fft dims w k = 0
    · simp [hk]
    · exact mul_le_mul_of_nonneg_right (pow_le_pow_left₀ (norm_nonneg _) (ha k hk) 2) (by positivity)
  calc Real.sqrt (squares (multiplier dims a w)) ≤ Real.sqrt (q ^ 2 * squares w) := Real.sqrt_le_sqrt key
    _ = _ := by rw [Real.sqrt_mul (sq_nonneg q), Real.sqrt_sq h0]

/-- The waves of the set `U`. -/
noncomputable def wavesIn (dims : List ℕ) (U : Set (Fin dims.prod)) : Data dims.prod →ₗ[ℂ] Data dims.prod :=
  open Classical in multiplier dims fun k => if k ∈ U then 1 else 0

open Classical in
theorem fft_wavesIn (h : ∀ d ∈ dims, 0 < d) (U : Set (Fin dims.prod)) (w : Data dims.prod) (k : Fin dims.prod) :
    fft dims (wavesIn dims U w) k = if k ∈ U then fft dims w k else 0 := by
  rw [wavesIn, fft_multiplier h]
  split_ifs <;> simp

theorem wavesIn_squares (h : ∀ d ∈ dims, 0 < d) (U : Set (Fin dims.prod)) (w : Data dims.prod) :
    Real.sqrt (squares (wavesIn dims U w)) ≤ Real.sqrt (squares w) := by
  have := multiplier_squares_le h (a := fun k => open Classical in if k ∈ U then 1 else 0) zero_le_one w (by
    intro k _
    split_ifs <;> simp)
  rwa [one_mul] at this

theorem wavesIn_add (h : ∀ d ∈ dims, 0 < d) (U : Set (Fin dims.prod)) (w : Data dims.prod) :
    wavesIn dims U w + wavesIn dims Uᶜ w = w := by
  apply fft_injective h
  funext k
  have := fft_add (wavesIn dims U w) (wavesIn dims Uᶜ w) k
  refine Eq.trans this ?_
  rw [fft_wavesIn h, fft_wavesIn h]
  by_cases hk : k ∈ U <;> simp [hk]

theorem wavesIn_multiplier (h : ∀ d ∈ dims, 0 < d) (U : Set (Fin dims.prod)) (a w : Data dims.prod) :
    wavesIn dims U (multiplier dims a w) = multiplier dims a (wavesIn dims U w) := by
  apply fft_injective h
  funext k
  rw [fft_wavesIn h, fft_multiplier h, fft_multiplier h, fft_wavesIn h]
  split_ifs <;> simp

/-- If some wave grows to first order, every perturbation made of the waves that grow fastest leaves a neighbourhood
that is the same for all of them. -/
theorem repulsion (h : ∀ d ∈ dims, 0 < d) {F : Data dims.prod → Data dims.prod} {φ : Data dims.prod} {z : ℂ}
    (hF : HasFDerivAt F (LinearMap.toContinuousLinearMap (multiplier dims φ)) (fun _ => z))
    (hfix : F (fun _ => z) = fun _ => z) {ρ : ℝ} (hρ : 1 < ρ) (hmax : ∀ k, ‖φ k‖ ≤ ρ) :
    ∃ ε : ℝ, 0 < ε ∧ ∀ y, (y ≠ fun _ => z) → (∀ k, fft dims (y - fun _ => z) k ≠ 0 → ‖φ k‖ = ρ) →
      ∃ (j : ℕ) (x : Fin dims.prod), ε ≤ ‖F^[j] y x - z‖ := by
  classical
  have hp : (0 : ℝ) < (dims.prod : ℕ) := by
    have := Nat.pos_of_ne_zero (n := dims.prod) (by exact_mod_cast prod_ne_zero h)
    exact_mod_cast this
  set U : Set (Fin dims.prod) := {k | ‖φ k‖ = ρ} with hU
  -- the largest factor of the other waves
  obtain ⟨σ, hσ0, hσ1, hσ⟩ : ∃ σ : ℝ, 0 ≤ σ ∧ σ < ρ ∧ ∀ k, k ∉ U → ‖φ k‖ ≤ σ := by
    obtain ⟨q, h0, h1, h2⟩ := uniform_bound (fun k => φ k / (ρ : ℂ)) U (fun k hk => by
      rw [norm_div, Complex.norm_real, Real.norm_eq_abs, abs_of_pos (by linarith), div_lt_one (by linarith)]
      exact lt_of_le_of_ne (hmax k) hk)
    refine ⟨q * ρ, by positivity, by nlinarith, fun k hk => ?_⟩
    have := h2 k hk
    rw [norm_div, Complex.norm_real, Real.norm_eq_abs, abs_of_pos (by linarith), div_le_iff₀ (by linarith)] at this
    exact this
  obtain ⟨η, hη, hη1, hη2⟩ : ∃ η : ℝ, 0 < η ∧ 1 < ρ - 2 * η ∧ σ + 2 * η ≤ ρ - 2 * η := by
    refine ⟨min ((ρ - 1) / 4) ((ρ - σ) / 4), lt_min (by linarith) (by linarith), ?_, ?_⟩
    · have := min_le_left ((ρ - 1) / 4) ((ρ - σ) / 4)
      linarith
    · have := min_le_right ((ρ - 1) / 4) ((ρ - σ) / 4)
      linarith
  set S : ℝ := Real.sqrt (dims.prod : ℕ) with hS
  have hSpos : 0 < S := Real.sqrt_pos.mpr hp
  have hlo := hF.isLittleO.bound (div_pos hη hSpos)
  rw [Metric.eventually_nhds_iff] at hlo
  obtain ⟨δ, hδ, hb⟩ := hlo
  -- one step
  have hstep : ∀ y, (∀ x, ‖y x - z‖ < δ) →
      Real.sqrt (squares (wavesIn dims Uᶜ (y - fun _ => z))) ≤ Real.sqrt (squares (wavesIn dims U (y - fun _ => z))) →
      (ρ - 2 * η) * Real.sqrt (squares (wavesIn dims U (y - fun _ => z))) ≤
        Real.sqrt (squares (wavesIn dims U (F y - fun _ => z))) ∧
      Real.sqrt (squares (wavesIn dims Uᶜ (F y - fun _ => z))) ≤
        Real.sqrt (squares (wavesIn dims U (F y - fun _ => z))) := by
    intro y hy hcone
    set w : Data dims.prod := y - fun _ => z with hw
    have hwn : ‖w‖ ≤ Real.sqrt (squares w) := (pi_norm_le_iff_of_nonneg (Real.sqrt_nonneg _)).mpr (le_squares w)
    have hdist : dist y (fun _ => z) < δ := by
      rw [dist_eq_norm]
      exact (pi_norm_lt_iff hδ).mpr hy
    have hrem := hb hdist
    rw [hfix, LinearMap.coe_toContinuousLinearMap', ← hw] at hrem
    set r : Data dims.prod := F y - (fun _ => z) - multiplier dims φ w with hr
    have hR : Real.sqrt (squares r) ≤ η * Real.sqrt (squares w) := by
      have h1 := squares_le r (r := η / S * ‖w‖) (by positivity) (fun x => (norm_le_pi_norm _ x).trans hrem)
      refine h1.trans ?_
      rw [← hS]
      have : S * (η / S * ‖w‖) = η * ‖w‖ := by field_simp
      rw [this]
      exact mul_le_mul_of_nonneg_left hwn hη.le
    have hw2 : Real.sqrt (squares w) ≤ 2 * Real.sqrt (squares (wavesIn dims U w)) := by
      have := squares_add (wavesIn dims U w) (wavesIn dims Uᶜ w)
      rw [wavesIn_add h] at this
      linarith
    have hR2 : Real.sqrt (squares r) ≤ 2 * η * Real.sqrt (squares (wavesIn dims U w)) := by
      have := mul_le_mul_of_nonneg_left hw2 hη.le
      linarith
    have hsplit : F y - (fun _ => z) = multiplier dims φ w + r := by rw [hr]; abel
    have hgrow : (ρ - 2 * η) * Real.sqrt (squares (wavesIn dims U w)) ≤
        Real.sqrt (squares (wavesIn dims U (F y - fun _ => z))) := by
      have e : multiplier dims φ (wavesIn dims U w) = wavesIn dims U (F y - fun _ => z) + -wavesIn dims U r := by
        rw [hsplit, map_add, wavesIn_multiplier h]
        abel
      have h1 := multiplier_squares_ge h (a := φ) (q := ρ) (by linarith) (wavesIn dims U w) (by
        intro k hk
        rw [fft_wavesIn h] at hk
        by_cases hkU : k ∈ U
        · exact le_of_eq hkU.symm
        · rw [if_neg hkU] at hk
          exact absurd rfl hk)
      rw [e] at h1
      have h2 := squares_add (wavesIn dims U (F y - fun _ => z)) (-wavesIn dims U r)
      rw [squares_neg] at h2
      have h3 := wavesIn_squares h U r
      linarith
    refine ⟨hgrow, ?_⟩
    have e : wavesIn dims Uᶜ (F y - fun _ => z) = multiplier dims φ (wavesIn dims Uᶜ w) + wavesIn dims Uᶜ r := by
      rw [hsplit, map_add, wavesIn_multiplier h]
    have h1 := multiplier_squares_le h (a := φ) (q := σ) hσ0 (wavesIn dims Uᶜ w) (by
      intro k hk
      rw [fft_wavesIn h] at hk
      by_cases hkU : k ∈ Uᶜ
      · exact hσ k hkU
      · rw [if_neg hkU] at hk
        exact absurd rfl hk)
    have h2 := squares_add (multiplier dims φ (wavesIn dims Uᶜ w)) (wavesIn dims Uᶜ r)
    rw [← e] at h2
    have h3 := wavesIn_squares h Uᶜ r
    have h4 := mul_le_mul_of_nonneg_left hcone hσ0
    have h5 := mul_le_mul_of_nonneg_right hη2 (Real.sqrt_nonneg (squares (wavesIn dims U w)))
    linarith
  refine ⟨δ, hδ, ?_⟩
  intro y hne hy
  by_contra hc
  push Not at hc
  have hwU : wavesIn dims U (y - fun _ => z) = y - fun _ => z := by
    apply fft_injective h
    funext k
    rw [fft_wavesIn h]
    split_ifs with hk
    · rfl
    · by_contra h1
      exact hk (hy k (Ne.symm h1))
  have hwC : wavesIn dims Uᶜ (y - fun _ => z) = 0 := by
    have := wavesIn_add h U (y - fun _ => z)
    rw [hwU] at this
    simpa using this
  have hall : ∀ j : ℕ, (ρ - 2 * η) ^ j * Real.sqrt (squares (y - fun _ => z)) ≤
        Real.sqrt (squares (wavesIn dims U (F^[j] y - fun _ => z))) ∧
      Real.sqrt (squares (wavesIn dims Uᶜ (F^[j] y - fun _ => z))) ≤
        Real.sqrt (squares (wavesIn dims U (F^[j] y - fun _ => z))) := by
    intro j
    induction j with
    | zero =>
      rw [Function.iterate_zero_apply, hwU, hwC]
      refine ⟨by simp, ?_⟩
      have : squares (0 : Data dims.prod) = 0 := by simp [squares]
      rw [this, Real.sqrt_zero]
      exact Real.sqrt_nonneg _
    | succ j ih =>
      rw [Function.iterate_succ_apply']
      obtain ⟨h1, h2⟩ := hstep (F^[j] y) (hc j) ih.2
      refine ⟨le_trans ?_ h1, h2⟩
      rw [pow_succ', mul_assoc]
      exact mul_le_mul_of_nonneg_left ih.1 (by linarith)
  have hpos : 0 < Real.sqrt (squares (y - fun _ => z)) := Real.sqrt_pos.mpr (squares_pos (sub_ne_zero.mpr hne))
  obtain ⟨j, hj⟩ := pow_unbounded_of_one_lt (S * δ / Real.sqrt (squares (y - fun _ => z))) hη1
  rw [div_lt_iff₀ hpos] at hj
  have h1 := (hall j).1
  have h2 := wavesIn_squares h U (F^[j] y - fun _ => z)
  have h3 := squares_le (F^[j] y - fun _ => z) hδ.le (fun x => (hc j x).le)
  rw [← hS] at h3
  linarith

/-- The factors depend on the length of the frequency only. -/
theorem factor_conj (h : GoodDims (intDims dims)) (N : Names) (c : Str → ℂ) (dt : ℝ) (eq : Equation) (z : ℂ)
    {b b' : Fin dims.prod} (hb : conjugateNode (intDims dims) (b.val : Int) = some (b'.val : Int)) :
    perturbationFactor N c (freqOf dims) dt eq z b' = perturbationFactor N c (freqOf dims) dt eq z b := by
  have e : laplaceSymbol (freqOf dims b') = laplaceSymbol (freqOf dims b) := by
    rw [symbol_laplaceNumber, symbol_laplaceNumber, laplaceNumber, laplaceNumber, freq_sq_conj h hb]
  unfold perturbationFactor linearisedRate implicitRate
  rw [e]

/-- There are real perturbations of any size made of the waves of a set that contains the conjugate of each of its
waves. -/
theorem perturbation_exists (h : GoodDims (intDims dims)) (hl : LayoutOk dims) (U : Set (Fin dims.prod)) (k : Fin dims.prod)
    (hk : k ∈ U) (hU : ∀ b b' : Fin dims.prod, conjugateNode (intDims dims) (b.val : Int) = some (b'.val : Int) →
      (b' ∈ U ↔ b ∈ U)) {δ : ℝ} (hδ : 0 < δ) :
    ∃ v : Data dims.prod, IsReal v ∧ v ≠ 0 ∧ (∀ x, ‖v x‖ < δ) ∧ ∀ k, fft dims v k ≠ 0 → k ∈ U := by
  classical
  have hpos := pos_of_goodDims h
  set w : Data dims.prod := fun x => ifft dims (fun k => if k ∈ U then 1 else 0) x / (dims.prod : ℂ) with hw
  have hf : fft dims w = fun k => if k ∈ U then 1 else 0 := fft_surjective hpos _
  have hreal : IsReal w := by
    refine real_of_hermitian h hl fun b b' hb => ?_
    rw [hf]
    dsimp only
    simp only [hU b b' hb]
    split_ifs <;> simp
  have hne : w ≠ 0 := by
    intro h0
    have h1 := congrFun hf k
    rw [h0, if_pos hk] at h1
    simp [fft] at h1
  set t : ℝ := δ / (‖w‖ + 1) with ht
  have hn : 0 < ‖w‖ + 1 := by positivity
  have htp : 0 < t := div_pos hδ hn
  refine ⟨(t : ℂ) • w, ?_, smul_ne_zero (by exact_mod_cast htp.ne') hne, ?_, ?_⟩
  · intro x
    have := hreal x
    simp [this]
  · intro x
    rw [Pi.smul_apply, norm_smul, Complex.norm_real, Real.norm_eq_abs, abs_of_pos htp, ht, div_mul_eq_mul_div,
      div_lt_iff₀ hn]
    have := norm_le_pi_norm w x
    exact mul_lt_mul_of_pos_left (by linarith) hδ
  · intro k hk0
    by_contra hkU
    refine hk0 ((fft_smul (t : ℂ) w k).trans ?_)
    rw [hf]
    simp [hkU]

/-- C126: if some factor is larger than one in modulus, the uniform state is not stable. There is a distance such that
every perturbation made of the waves with the largest factor, however small, grows to this distance at some node. -/
theorem c126_unstable (h : GoodDims (intDims dims)) (N : Names) (hN : N.WellNamed) (f : Str)
    (m0 : EqModel dims.prod) (h0 : StartsAs N m0) (heq : m0.equations = [])
    (eq : Equation) (hone : OneField N f eq) (hq : eq.Polynomial N ∧ Unregistered m0 eq)
    (s0 : Str) (hs : s0.filter (fun c => c ≠ ' ') = eq.text) (c : Str → ℂ) :
    ∃ m M, m0.addEquation s0 = some m ∧ m.fields = [f] ∧ m.assemble c = some M ∧
      ∀ z, uniformRate N c eq z = 0 → ∀ s : Stepper dims.prod, s.filter = none → s.freq = freqOf dims →
      (∀ k, 1 - s.dt * implicitRate N c (freqOf dims) eq k ≠ 0) →
      (∃ k, 1 < ‖perturbationFactor N c (freqOf dims) s.dt eq z k‖) →
      ∃ ε : ℝ, 0 < ε ∧ ∀ (st : Store m.fields.length m.derived.length dims.prod) (i : Fin m.fields.length),
        (st.fields i ≠ fun _ => z) →
        (∀ k, fft dims (st.fields i - fun _ => z) k ≠ 0 → ∀ k',
          ‖perturbationFactor N c (freqOf dims) s.dt eq z k'‖ ≤ ‖perturbationFactor N c (freqOf dims) s.dt eq z k‖) →
        ∃ steps x, ε ≤ ‖(eulerPropagate M steps (s, st)).2.fields i x - z‖ := by
  have hpos := pos_of_goodDims h
  obtain ⟨m, M, h1, h2, h3, h4⟩ := text_polynomial hpos N hN f m0 h0 heq eq hone hq s0 hs c
  refine ⟨m, M, h1, h2, h3, ?_⟩
  intro z hz s hfil hfreq hne ⟨k1, hk1⟩
  set F := polynomialStep dims (stepTerms N c (freqOf dims) s.dt eq) with hFdef
  have hF : ∀ (i : Fin m.fields.length) (s' : Stepper dims.prod), s'.dt = s.dt → s'.freq = s.freq →
      s'.filter = s.filter → ∀ st, (eulerStep M (s', st)).2.fields i = F (st.fields i) := by
    intro i s' a b d st
    rw [h4 s' (by rw [d, hfil]) (by rw [a, b, hfreq]; exact hne) st i, a, b, hfreq]
  have hfix := uniform_rests h N c s.dt eq z hz
  rw [← hFdef] at hfix
  have hD := step_hasFDerivAt hpos (stepTerms N c (freqOf dims) s.dt eq) z
  rw [← hFdef] at hD
  simp only [factor_eq] at hD
  obtain ⟨k0, -, hmax⟩ := Finset.exists_max_image Finset.univ
    (fun k => ‖perturbationFactor N c (freqOf dims) s.dt eq z k‖) ⟨k1, Finset.mem_univ k1⟩
  obtain ⟨ε, hε, hall⟩ := repulsion hpos hD hfix (lt_of_lt_of_le hk1 (hmax k1 (Finset.mem_univ k1)))
    (fun k => hmax k (Finset.mem_univ k))
  refine ⟨ε, hε, fun st i hst hw => ?_⟩
  obtain ⟨j, x, hj⟩ := hall (st.fields i) hst (fun k hk => le_antisymm (hmax k (Finset.mem_univ k)) (hw k hk k0))
  refine ⟨j, x, ?_⟩
  rw [propagate_iterate (hF i)]
  exact hj

/-- C126: real fields that are as close to the uniform state as one likes, and in which only waves are there that grow,
leave it. -/
theorem c126_leaves (h : GoodDims (intDims dims)) (hl : LayoutOk dims) (N : Names) (hN : N.WellNamed) (f : Str)
    (m0 : EqModel dims.prod) (h0 : StartsAs N m0) (heq : m0.equations = [])
    (eq : Equation) (hone : OneField N f eq) (hq : eq.Polynomial N ∧ Unregistered m0 eq)
    (s0 : Str) (hs : s0.filter (fun c => c ≠ ' ') = eq.text) (c : Str → ℂ) :
    ∃ m M, m0.addEquation s0 = some m ∧ m.fields = [f] ∧ m.assemble c = some M ∧
      ∀ z, uniformRate N c eq z = 0 → ∀ s : Stepper dims.prod, s.filter = none → s.freq = freqOf dims →
      (∀ k, 1 - s.dt * implicitRate N c (freqOf dims) eq k ≠ 0) →
      (∃ k, 1 < ‖perturbationFactor N c (freqOf dims) s.dt eq z k‖) →
      ∃ ε : ℝ, 0 < ε ∧ ∀ δ : ℝ, 0 < δ → ∃ v : Data dims.prod, IsReal v ∧ (∀ x, ‖v x‖ < δ) ∧
        (∀ k, fft dims v k ≠ 0 → 1 < ‖perturbationFactor N c (freqOf dims) s.dt eq z k‖) ∧
        ∀ (st : Store m.fields.length m.derived.length dims.prod) (i : Fin m.fields.length),
          (st.fields i = fun x => z + v x) →
          ∃ steps x, ε ≤ ‖(eulerPropagate M steps (s, st)).2.fields i x - z‖ := by
  obtain ⟨m, M, h1, h2, h3, h4⟩ := c126_unstable h N hN f m0 h0 heq eq hone hq s0 hs c
  refine ⟨m, M, h1, h2, h3, ?_⟩
  intro z hz s hfil hfreq hne hex
  obtain ⟨ε, hε, hall⟩ := h4 z hz s hfil hfreq hne hex
  obtain ⟨k1, hk1⟩ := hex
  obtain ⟨k0, -, hmax⟩ := Finset.exists_max_image Finset.univ
    (fun k => ‖perturbationFactor N c (freqOf dims) s.dt eq z k‖) ⟨k1, Finset.mem_univ k1⟩
  refine ⟨ε, hε, fun δ hδ => ?_⟩
  obtain ⟨v, v1, v2, v3, v4⟩ := perturbation_exists h hl
    {k | ∀ k', ‖perturbationFactor N c (freqOf dims) s.dt eq z k'‖ ≤ ‖perturbationFactor N c (freqOf dims) s.dt eq z k‖}
    k0 (fun k' => hmax k' (Finset.mem_univ k')) (by
      intro b b' hb
      simp only [Set.mem_setOf_eq, factor_conj h N c s.dt eq z hb]) hδ
  refine ⟨v, v1, v3, fun k hk => lt_of_lt_of_le hk1 (v4 k hk k1), fun st i hst => ?_⟩
  have e : (st.fields i - fun _ => z) = v := by
    rw [hst]
    funext x
    simp
  refine hall st i (fun hc => v2 ?_) (by rw [e]; exact v4)
  rw [← e, hc]
  funext x
  simp

/-- C126: the Cahn-Hilliard equation inside the spinodal. If the grid has a wave with `0 < 4π²|f|² < 1 - 3 z^2`, the
mixture comes apart for all time steps below 4: there are real fields of mean `z` as close to `z` as one likes that go
a fixed distance away from it. -/
theorem c126_demixing (h : GoodDims (intDims dims)) (hl : LayoutOk dims) {z dt : ℝ} (hdt : 0 < dt) (hdt4 : dt < 4)
    (k : Fin dims.prod) (hk : 0 < laplaceNumber dims k) (hz : laplaceNumber dims k < 1 - 3 * z ^ 2) :
    ∃ m M, ((EqModel.empty (n := dims.prod)).addField "conc".toList).addEquation
        "dconc/dt = LAPconc^3 - LAPconc - LAP^2conc".toList = some m ∧ m.assemble (fun _ => 0) = some M ∧
      ∀ s : Stepper dims.prod, s.dt = dt → s.filter = none → s.freq = freqOf dims →
      ∃ ε : ℝ, 0 < ε ∧ ∀ δ : ℝ, 0 < δ → ∃ v : Data dims.prod, IsReal v ∧ (∀ x, ‖v x‖ < δ) ∧ ∑ x, v x = 0 ∧
        ∀ (st : Store m.fields.length m.derived.length dims.prod) (i : Fin m.fields.length),
          (st.fields i = fun x => z + v x) →
          ∃ steps x, ε ≤ ‖(eulerPropagate M steps (s, st)).2.fields i x - z‖ := by
  obtain ⟨m, M, h1, h2, h3, h4⟩ := c126_leaves h hl concNames conc_wellNamed "conc".toList
    ((EqModel.empty (n := dims.prod)).addField "conc".toList) ⟨rfl, rfl, fun x => Iff.rfl⟩ rfl hilliardEquation
    hilliard_oneField ⟨hilliard_polynomial, fun _ _ => ⟨rfl, rfl⟩⟩
    "dconc/dt = LAPconc^3 - LAPconc - LAP^2conc".toList (by decide) fun _ => 0
  refine ⟨m, M, h1, h3, ?_⟩
  intro s hs hfil hfreq
  have hrest : uniformRate concNames (fun _ => 0) hilliardEquation z = 0 := by
    apply List.sum_eq_zero
    intro y hy
    obtain ⟨p, hp, rfl⟩ := List.mem_map.mp hy
    rw [if_neg (hilliard_divergence p hp)]
  obtain ⟨ε, hε, hall⟩ := h4 z hrest s hfil hfreq (by
    intro k h0
    rw [hilliard_implicit, hs] at h0
    have h5 : (1 - dt * (laplaceNumber dims k - laplaceNumber dims k ^ 2) : ℝ) = 0 := by exact_mod_cast h0
    have h6 : laplaceNumber dims k - laplaceNumber dims k ^ 2 ≤ 1 / 4 := by
      nlinarith [sq_nonneg (laplaceNumber dims k - 1 / 2)]
    have := mul_le_mul_of_nonneg_left h6 hdt.le
    linarith) ⟨k, by rw [hs]; exact c126_spinodal hdt hdt4 k hk hz⟩
  refine ⟨ε, hε, fun δ hδ => ?_⟩
  obtain ⟨v, v1, v2, v3, v4⟩ := hall δ hδ
  refine ⟨v, v1, v2, ?_, v4⟩
  have h0 : 0 < dims.prod := k.pos
  rw [← fft_zero_bin v ⟨0, h0⟩ rfl]
  by_contra hc
  have h5 := v3 _ hc
  have e : laplaceNumber dims ⟨0, h0⟩ = 0 := by
    have := symbol_origin h ⟨0, h0⟩ rfl
    rw [symbol_laplaceNumber, neg_eq_zero] at this
    exact_mod_cast this
  rw [perturbationFactor, hilliard_linearised, e] at h5
  simp at h5

/-- A grid and a state that meet the conditions: the longest wave on 16 times 16 nodes, and an even mixture. -/
example : GoodDims (intDims [16, 16]) ∧ LayoutOk [16, 16] ∧
    ∃ k : Fin [16, 16].prod, 0 < laplaceNumber [16, 16] k ∧ laplaceNumber [16, 16] k < 1 - 3 * (0 : ℝ) ^ 2 := by
  refine ⟨⟨by decide, by decide⟩, trivial, ⟨1, by decide⟩, ?_⟩
  have hf : freqOf [16, 16] ⟨1, by decide⟩ = [0, 1 / 16] := by
    have h1 : freq (intDims [16, 16]) 1 = some [0, 1 / 16] := by decide +kernel
    show ((freq (intDims [16, 16]) 1).getD []).map (fun q : ℚ => (q : ℝ)) = _
    rw [h1]
    simp
  rw [laplaceNumber, hf]
  have h1 := Real.pi_pos
  have h2 := Real.pi_le_four
  simp only [List.map_cons, List.map_nil, List.sum_cons, List.sum_nil]
  constructor
  · positivity
  · nlinarith

end Gopf.Props
