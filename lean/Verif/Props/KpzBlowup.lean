import Verif.Props.KpzRun

/-!
# C145: surfaces of the Kardar-Parisi-Zhang example that steepen without bound
-/

namespace Gopf.Props
open Spec Pf Pfutil
open scoped BigOperators Topology
open Filter

variable {n nf nd : ℕ} {dims : List ℕ}

/-! ### Surfaces that repeat along one side -/

/-- The point of the unit circle that turns once in `p` nodes along the side `j`. -/
noncomputable def turning (dims : List ℕ) (j p : ℕ) (x : Fin dims.prod) : ℂ := cis ((coord dims x.val j : ℚ) / p)

/-- The surface with the given waves along the side `j`, all of which repeat after `p` nodes. -/
noncomputable def comb (dims : List ℕ) (j p : ℕ) (a : ℕ → ℂ) : Data dims.prod :=
  fun x => ∑ r ∈ Finset.range p, a r * turning dims j p x ^ r

theorem phi_scale {p a r : ℕ} (ha : 0 < a) (hp : 0 < p) : phi ((r * a : ℕ) : ℤ) ((p * a : ℕ) : ℤ) = phi r p := by
  unfold phi
  congr 1
  have : (a : ℚ) ≠ 0 := by exact_mod_cast ha.ne'
  have : (p : ℚ) ≠ 0 := by exact_mod_cast hp.ne'
  push_cast
  field_simp

/-- The bins of the waves. -/
theorem comb_bin (h : GoodDims (intDims dims)) (hl : LayoutOk dims) (j : Fin dims.length) {p a : ℕ} (hj : dims[j] = p * a)
    {r : ℕ} (hr : r < p) :
    ∃ k : Fin dims.prod, (∀ b, fcomp (freqOf dims k) b = if b = j.val then ((phi r p : ℚ) : ℝ) else 0) ∧
      laplaceNumber dims k = 4 * Real.pi ^ 2 * ((phi r p : ℚ) : ℝ) ^ 2 ∧
      ∀ b, fft dims (fun x => turning dims j p x ^ r) b = if b = k then ((dims.prod : ℕ) : ℂ) else 0 := by
  have hpos := pos_of_goodDims h
  have hp : 0 < p := by omega
  have ha : 0 < a := by
    have := hpos dims[j] (List.getElem_mem _)
    rw [hj] at this
    exact Nat.pos_of_mul_pos_left this
  obtain ⟨k, hk⟩ := coord_surjective h (fun i => if i = j then ((r * a : ℕ) : ℤ) else 0) (by
    intro i
    have hi := hpos dims[i] (List.getElem_mem _)
    by_cases hij : i = j
    · subst hij
      rw [if_pos rfl, hj]
      exact ⟨by positivity, by exact_mod_cast Nat.mul_lt_mul_of_pos_right hr ha⟩
    · rw [if_neg hij]
      exact ⟨le_refl _, by exact_mod_cast hi⟩)
  have hphi : phi ((r * a : ℕ) : ℤ) (dims[j] : ℤ) = phi r p := by rw [hj]; exact phi_scale ha hp
  refine ⟨k, fun b => ?_, ?_, fun b => ?_⟩
  · rw [freqOf_coord h, fcomp, List.getD_eq_getElem?_getD, List.getElem?_ofFn]
    by_cases hb : b < dims.length
    · rw [dif_pos hb, Option.getD_some]
      have hkb := hk ⟨b, hb⟩
      by_cases hbj : b = j.val
      · subst hbj
        rw [if_pos rfl]
        rw [if_pos rfl] at hkb
        rw [← hphi]
        rw [show coord dims k.val (⟨j.val, hb⟩ : Fin dims.length).val = _ from hkb]
      · rw [if_neg hbj]
        rw [if_neg (fun e => hbj (congrArg Fin.val e))] at hkb
        rw [show coord dims k.val (⟨b, hb⟩ : Fin dims.length).val = _ from hkb, phi_zero]
        simp
    · rw [dif_neg hb, if_neg (fun e => hb (by rw [e]; exact j.2))]
      rfl
  · unfold laplaceNumber
    rw [freqOf_coord h, List.map_ofFn, List.sum_ofFn, Finset.sum_eq_single j]
    · simp only [Function.comp_apply]
      rw [hk j, if_pos rfl, hphi]
    · intro i _ hij
      simp only [Function.comp_apply]
      rw [hk i, if_neg hij, phi_zero]
      simp
    · exact fun hj => absurd (Finset.mem_univ j) hj
  · have hw : ∀ x : Fin dims.prod, turning dims j p x ^ r = cis (phase dims k.val x.val) := by
      intro x
      have e : cis (-phase dims k.val x.val) = cis (-((r : ℚ) * ((coord dims x.val j.val : ℚ) / p))) := by
        rw [cis_phase_coord h hl, Finset.sum_eq_single j]
        · rw [hk j, if_pos rfl, hj]
          congr 2
          have : (a : ℚ) ≠ 0 := by exact_mod_cast ha.ne'
          have : (p : ℚ) ≠ 0 := by exact_mod_cast hp.ne'
          push_cast
          field_simp
        · intro i _ hij
          rw [hk i, if_neg hij]
          simp
        · exact fun hj => absurd (Finset.mem_univ j) hj
      have := congrArg (starRingEnd ℂ) e
      rw [cis_conj, cis_conj, neg_neg, neg_neg, cis_nsmul] at this
      exact this.symm
    unfold fft
    simp only [hw]
    have := sum_kernel_fin hpos k b
    simp only [phase_symm dims (↑k : ℕ), phase_symm dims (↑b : ℕ)]
    rw [this]
    simp [eq_comm]

theorem fft_comb (j p : ℕ) (a : ℕ → ℂ) (k : Fin dims.prod) :
    fft dims (comb dims j p a) k = ∑ r ∈ Finset.range p, a r * fft dims (fun x => turning dims j p x ^ r) k := by
  unfold comb fft
  simp only [Finset.sum_mul, Finset.mul_sum]
  rw [Finset.sum_comm]
  exact Finset.sum_congr rfl fun r _ => Finset.sum_congr rfl fun x _ => by ring

section
variable (h : GoodDims (intDims dims)) (hl : LayoutOk dims) (j : Fin dims.length) {p a : ℕ} (hj : dims[j] = p * a)
include h hl hj

theorem grad_comb (hs : ∀ d ∈ dims, d ≤ 10 ^ 9) (b : ℕ) (c : ℕ → ℂ) :
    gradCalculate dims b false (comb dims j p c) =
      comb dims j p fun r => (if b = j.val then gradFactor false ((phi r p : ℚ) : ℝ) else 0) * c r := by
  have hpos := pos_of_goodDims h
  apply fft_injective hpos
  funext k
  rw [fft_grad h hs, fft_comb, fft_comb, Finset.mul_sum]
  refine Finset.sum_congr rfl fun r hr => ?_
  obtain ⟨κ, e1, -, e3⟩ := comb_bin h hl j hj (Finset.mem_range.mp hr)
  rw [e3]
  by_cases hk : k = κ
  · subst hk
    rw [e1]
    by_cases hb : b = j.val
    · rw [if_pos hb, if_pos hb]
      ring
    · rw [if_neg hb, if_neg hb]
      unfold gradFactor
      norm_num
  · rw [if_neg hk]
    ring

theorem lap_comb (c : ℕ → ℂ) :
    gridLaplacian (freqOf dims) (comb dims j p c) =
      comb dims j p fun r => -((4 * Real.pi ^ 2 * ((phi r p : ℚ) : ℝ) ^ 2 : ℝ) : ℂ) * c r := by
  have hpos := pos_of_goodDims h
  apply fft_injective hpos
  funext k
  have a3 : fft dims (gridLaplacian (freqOf dims) (comb dims j p c)) k = laplaceSymbol (freqOf dims k) * fft dims (comb dims j p c) k :=
    fft_lap hpos (freqOf dims) _ k
  rw [a3, fft_comb, fft_comb, Finset.mul_sum, symbol_laplaceNumber]
  refine Finset.sum_congr rfl fun r hr => ?_
  obtain ⟨κ, -, e2, e3⟩ := comb_bin h hl j hj (Finset.mem_range.mp hr)
  rw [e3]
  by_cases hk : k = κ
  · subst hk
    rw [e2]
    ring
  · rw [if_neg hk]
    ring

theorem slope_comb (hs : ∀ d ∈ dims, d ≤ 10 ^ 9) (c : ℕ → ℂ) (x : Fin dims.prod) :
    squaredSlope dims (comb dims j p c) x = comb dims j p (fun r => gradFactor false ((phi r p : ℚ) : ℝ) * c r) x ^ 2 := by
  unfold squaredSlope
  rw [Finset.sum_eq_single_of_mem j.val (Finset.mem_range.mpr j.2)]
  · rw [grad_comb h hl j hj hs]
    simp only [if_true]
  · intro b _ hb
    rw [grad_comb h hl j hj hs]
    simp only [if_neg hb, zero_mul]
    unfold comb
    simp

/-- A step of a surface that repeats is again one that repeats. -/
theorem surface_comb (hs : ∀ d ∈ dims, d ≤ 10 ^ 9) {dt lamb : ℝ} (hdt : 0 < dt) {U : ℕ → Data dims.prod}
    (hU : IsSurface dims dt lamb (fun _ _ => 0) U) {c c' : ℕ → ℂ} {i : ℕ} (hc : U i = comb dims j p c)
    (hstep : ∀ z : ℂ, z ^ p = 1 → ∑ r ∈ Finset.range p, ((1 + dt * (4 * Real.pi ^ 2 * ((phi r p : ℚ) : ℝ) ^ 2) : ℝ) : ℂ) * c' r * z ^ r =
      ∑ r ∈ Finset.range p, c r * z ^ r +
        (dt : ℂ) * ((lamb : ℂ) * (∑ r ∈ Finset.range p, gradFactor false ((phi r p : ℚ) : ℝ) * c r * z ^ r) ^ 2)) :
    U (i + 1) = comb dims j p c' := by
  have hpos := pos_of_goodDims h
  refine surface_unique hpos hdt fun k => ?_
  rw [hU i k]
  have key : fft dims (comb dims j p c') k * ((1 + dt * laplaceNumber dims k : ℝ) : ℂ) =
      fft dims (fun x => comb dims j p c' x - (dt : ℂ) * gridLaplacian (freqOf dims) (comb dims j p c') x) k := by
    have a1 := fft_sub (comb dims j p c') (fun x => (dt : ℂ) * gridLaplacian (freqOf dims) (comb dims j p c') x) k
    have a2 := fft_smul (dt : ℂ) (gridLaplacian (freqOf dims) (comb dims j p c')) k
    have a3 : fft dims (gridLaplacian (freqOf dims) (comb dims j p c')) k = laplaceSymbol (freqOf dims k) * fft dims (comb dims j p c') k :=
      fft_lap hpos (freqOf dims) _ k
    rw [a1, a2, a3, symbol_laplaceNumber]
    push_cast
    ring
  rw [key]
  congr 1
  funext x
  have hp : 0 < p := by
    have := hpos dims[j] (List.getElem_mem _)
    rw [hj] at this
    exact Nat.pos_of_mul_pos_right this
  have hz : turning dims j p x ^ p = 1 := by
    unfold turning
    rw [← cis_nsmul]
    have : (p : ℚ) * ((coord dims x.val j.val : ℚ) / p) = ((coord dims x.val j.val : ℤ) : ℚ) := by
      have : (p : ℚ) ≠ 0 := by exact_mod_cast hp.ne'
      field_simp
    rw [this, cis_int]
  have e := hstep (turning dims j p x) hz
  rw [hc, slope_comb h hl j hj hs, lap_comb h hl j hj, add_zero]
  unfold comb
  rw [← e, Finset.mul_sum, ← Finset.sum_sub_distrib]
  refine Finset.sum_congr rfl fun r _ => ?_
  push_cast
  ring

end

theorem phi_injective {p r s : ℕ} (hr : r < p) (hs : s < p) (e : phi (r : ℤ) p = phi (s : ℤ) p) : r = s := by
  obtain ⟨k1, e1⟩ := phi_int (r : ℤ) p
  obtain ⟨k2, e2⟩ := phi_int (s : ℤ) p
  have hp : (((p : ℕ) : ℤ) : ℚ) ≠ 0 := by
    have : ((p : ℕ) : ℤ) ≠ 0 := by omega
    exact_mod_cast this
  rw [e1, e2] at e
  generalize hP : ((p : ℕ) : ℤ) = P at *
  rw [div_add' _ _ _ hp, div_add' _ _ _ hp, div_left_inj' hp] at e
  have e3 : (r : ℤ) + k1 * P = s + k2 * P := by exact_mod_cast e
  rw [← hP] at e3
  rw [mul_comm k1, mul_comm k2] at e3
  have hk : k1 = k2 := by
    rcases lt_trichotomy k1 k2 with hlt | heq | hgt
    · have : (p : ℤ) * (k1 + 1) ≤ p * k2 := mul_le_mul_of_nonneg_left (by omega) (by omega)
      have : (p : ℤ) * (k1 + 1) = p * k1 + p := by ring
      omega
    · exact heq
    · have : (p : ℤ) * (k2 + 1) ≤ p * k1 := mul_le_mul_of_nonneg_left (by omega) (by omega)
      have : (p : ℤ) * (k2 + 1) = p * k2 + p := by ring
      omega
  subst hk
  omega

/-- A surface that stays near its mean has small waves. -/
theorem comb_coeff_le (h : GoodDims (intDims dims)) (hl : LayoutOk dims) (j : Fin dims.length) {p a : ℕ} (hj : dims[j] = p * a)
    {r : ℕ} (hr : r < p) (hr0 : 0 < r) (c : ℕ → ℂ) {B : ℝ}
    (hB : ∀ x, ‖comb dims j p c x - fieldMean (comb dims j p c)‖ ≤ B) : ‖c r‖ ≤ B := by
  have hpos := pos_of_goodDims h
  have hp : 0 < dims.prod := Nat.pos_of_ne_zero (by exact_mod_cast prod_ne_zero hpos)
  have hpR : (0 : ℝ) < (dims.prod : ℕ) := by exact_mod_cast hp
  obtain ⟨k, f1, -, f3⟩ := comb_bin h hl j hj hr
  have hk0 : k.val ≠ 0 := by
    intro hk
    have e := f1 j.val
    rw [fcomp_zero (freqOf_zero dims k hk), if_pos rfl] at e
    have e0 : phi (r : ℤ) p = phi ((0 : ℕ) : ℤ) p := by
      rw [Nat.cast_zero, phi_zero]
      exact_mod_cast e.symm
    have := phi_injective hr (by omega) e0
    omega
  have hfft : fft dims (comb dims j p c) k = c r * (dims.prod : ℕ) := by
    rw [fft_comb, Finset.sum_eq_single_of_mem r (Finset.mem_range.mpr hr)]
    · rw [f3, if_pos rfl]
    · intro r' hr' hne
      obtain ⟨k', g1, -, g3⟩ := comb_bin h hl j hj (Finset.mem_range.mp hr')
      rw [g3, if_neg, mul_zero]
      intro hkk
      have e1 := f1 j.val
      have e2 := g1 j.val
      rw [if_pos rfl] at e1 e2
      rw [hkk, e2] at e1
      exact hne (phi_injective (Finset.mem_range.mp hr') hr (by exact_mod_cast e1))
  have e := fft_deviation hpos (comb dims j p c) k
  rw [if_neg hk0] at e
  have hb : ‖fft dims (comb dims j p c) k‖ ≤ (dims.prod : ℕ) * B := by
    rw [← e]
    refine (fft_norm_sum _ k).trans ?_
    refine (Finset.sum_le_sum fun x _ => hB x).trans (le_of_eq ?_)
    rw [Finset.sum_const, Finset.card_univ, Fintype.card_fin, nsmul_eq_mul]
  rw [hfft, norm_mul, Complex.norm_natCast, mul_comm] at hb
  exact le_of_mul_le_mul_left hb hpR

theorem gradFactor_of_ne {f : ℝ} (hf : f ≠ 1 / 2) : gradFactor false f = 2 * Real.pi * Complex.I * f := by
  unfold gradFactor
  rw [if_neg (fun e => hf e.1)]

/-! ### A groove at every third node -/

/-- Height `m + s`, and `m - 2 s` at every third node along the side `j`. -/
noncomputable def everyThird (dims : List ℕ) (j : ℕ) (m s : ℝ) : Data dims.prod :=
  fun x => ((if (3 : ℤ) ∣ coord dims x.val j then m - 2 * s else m + s : ℝ) : ℂ)

noncomputable def threeWaves (m s : ℝ) (r : ℕ) : ℂ := if r = 0 then (m : ℂ) else -(s : ℂ)

theorem everyThird_comb (j : ℕ) (m s : ℝ) : everyThird dims j m s = comb dims j 3 (threeWaves m s) := by
  funext x
  unfold everyThird comb
  have hsum : ∑ r ∈ Finset.range 3, threeWaves m s r * turning dims j 3 x ^ r =
      m - s * (turning dims j 3 x + turning dims j 3 x ^ 2) := by
    simp only [Finset.sum_range_succ, Finset.sum_range_zero, threeWaves]
    norm_num
    ring
  rw [hsum]
  have hz : turning dims j 3 x ^ 3 = 1 := by
    unfold turning
    rw [← cis_nsmul]
    have : ((3 : ℕ) : ℚ) * ((coord dims x.val j : ℚ) / (3 : ℕ)) = ((coord dims x.val j : ℤ) : ℚ) := by
      push_cast
      ring
    rw [this, cis_int]
  by_cases hd : (3 : ℤ) ∣ coord dims x.val j
  · rw [if_pos hd]
    obtain ⟨y, hy⟩ := hd
    have : turning dims j 3 x = 1 := by
      unfold turning
      rw [hy, show ((3 * y : ℤ) : ℚ) / (3 : ℕ) = ((y : ℤ) : ℚ) by push_cast; ring, cis_int]
    rw [this]
    push_cast
    ring
  · rw [if_neg hd]
    have hne : turning dims j 3 x ≠ 1 := by
      intro e
      unfold turning at e
      obtain ⟨y, hy⟩ := (cis_eq_one_iff _).mp e
      apply hd
      refine ⟨y, ?_⟩
      have : (coord dims x.val j : ℚ) = 3 * y := by
        push_cast at hy
        linarith
      exact_mod_cast this
    have h0 : turning dims j 3 x + turning dims j 3 x ^ 2 = -1 := by
      have : (turning dims j 3 x - 1) * (turning dims j 3 x + turning dims j 3 x ^ 2 + 1) = 0 := by linear_combination hz
      rcases mul_eq_zero.mp this with h1 | h1
      · exact absurd (sub_eq_zero.mp h1) hne
      · linear_combination h1
    rw [h0]
    push_cast
    ring

/-- How fast the shortest waves with three nodes are smoothed. -/
noncomputable def thirdRate (dt : ℝ) : ℝ := dt * (4 * Real.pi ^ 2 / 9)

theorem third_step (h : GoodDims (intDims dims)) (hl : LayoutOk dims) (hs : ∀ d ∈ dims, d ≤ 10 ^ 9) (j : Fin dims.length) {a : ℕ}
    (hj : dims[j] = 3 * a) {dt lamb : ℝ} (hdt : 0 < dt) {U : ℕ → Data dims.prod} (hU : IsSurface dims dt lamb (fun _ _ => 0) U)
    {m s : ℝ} {i : ℕ} (hi : U i = everyThird dims j m s) :
    U (i + 1) = everyThird dims j (m + 2 * thirdRate dt * lamb * s ^ 2) (s * (1 + thirdRate dt * lamb * s) / (1 + thirdRate dt)) := by
  rw [everyThird_comb] at hi ⊢
  refine surface_comb h hl j hj hs hdt hU hi fun z hz => ?_
  have hne : ((1 + thirdRate dt : ℝ) : ℂ) ≠ 0 := by
    have : 0 < 1 + thirdRate dt := by
      unfold thirdRate
      positivity
    exact_mod_cast this.ne'
  have p0 : phi ((0 : ℕ) : ℤ) ((3 : ℕ) : ℤ) = 0 := phi_zero _
  have p1 : phi ((1 : ℕ) : ℤ) ((3 : ℕ) : ℤ) = 1 / 3 := by norm_num [phi, foldFreq]
  have p2 : phi ((2 : ℕ) : ℤ) ((3 : ℕ) : ℤ) = -1 / 3 := by norm_num [phi, foldFreq]
  simp only [Finset.sum_range_succ, Finset.sum_range_zero, zero_add]
  rw [p0, p1, p2, gradFactor_of_ne (by norm_num), gradFactor_of_ne (by norm_num), gradFactor_of_ne (by norm_num)]
  set s' := s * (1 + thirdRate dt * lamb * s) / (1 + thirdRate dt) with hs'
  have hs2 : ((1 + thirdRate dt : ℝ) : ℂ) * (s' : ℂ) = s * (1 + thirdRate dt * lamb * s) := by
    rw [hs', Complex.ofReal_div, mul_div_cancel₀ _ hne]
    push_cast
    ring
  simp only [threeWaves, if_true, one_ne_zero, if_false, OfNat.ofNat_ne_zero]
  unfold thirdRate at *
  generalize s' = t at *
  push_cast at hs2 ⊢
  have hI := Complex.I_sq
  generalize (Real.pi : ℂ) = π at *
  linear_combination (-(z + z ^ 2)) * hs2 + (4 * π ^ 2 / 9 * dt * lamb * s ^ 2 * (z - 2)) * hz -
    (4 * π ^ 2 / 9 * dt * lamb * s ^ 2 * (z - z ^ 2) ^ 2) * hI

section
variable {dt lamb : ℝ} {U : ℕ → Data dims.prod}

/-- The depth of the grooves after the steps. -/
noncomputable def thirdDepth (δ lamb : ℝ) (s : ℝ) : ℕ → ℝ
  | 0 => s
  | i + 1 => thirdDepth δ lamb s i * (1 + δ * lamb * thirdDepth δ lamb s i) / (1 + δ)

noncomputable def thirdMean (δ lamb : ℝ) (m s : ℝ) : ℕ → ℝ
  | 0 => m
  | i + 1 => thirdMean δ lamb m s i + 2 * δ * lamb * thirdDepth δ lamb s i ^ 2

theorem third_run (h : GoodDims (intDims dims)) (hl : LayoutOk dims) (hs : ∀ d ∈ dims, d ≤ 10 ^ 9) (j : Fin dims.length) {a : ℕ}
    (hj : dims[j] = 3 * a) (hdt : 0 < dt) (hU : IsSurface dims dt lamb (fun _ _ => 0) U)
    {m s : ℝ} (h0 : U 0 = everyThird dims j m s) (i : ℕ) :
    U i = everyThird dims j (thirdMean (thirdRate dt) lamb m s i) (thirdDepth (thirdRate dt) lamb s i) := by
  induction i with
  | zero => exact h0
  | succ i ih => exact third_step h hl hs j hj hdt hU ih

theorem thirdDepth_small {δ s : ℝ} (hδ : 0 < δ) (hlamb : 0 < lamb) (hs : 0 ≤ s) (h1 : lamb * s < 1) (i : ℕ) :
    0 ≤ thirdDepth δ lamb s i ∧ thirdDepth δ lamb s i ≤ ((1 + δ * (lamb * s)) / (1 + δ)) ^ i * s := by
  have hr0 : 0 ≤ (1 + δ * (lamb * s)) / (1 + δ) := by positivity
  have hr1 : (1 + δ * (lamb * s)) / (1 + δ) ≤ 1 := by
    rw [div_le_one (by linarith)]
    nlinarith
  induction i with
  | zero => simpa [thirdDepth] using hs
  | succ i ih =>
    obtain ⟨i1, i2⟩ := ih
    rw [thirdDepth]
    generalize thirdDepth δ lamb s i = t at *
    have hts : t ≤ s := i2.trans (by
      have := pow_le_one₀ (n := i) hr0 hr1
      nlinarith)
    refine ⟨by positivity, ?_⟩
    rw [mul_div_assoc]
    have hf : (1 + δ * lamb * t) / (1 + δ) ≤ (1 + δ * (lamb * s)) / (1 + δ) := by
      apply div_le_div_of_nonneg_right _ (by linarith)
      have : lamb * t ≤ lamb * s := by gcongr
      nlinarith
    refine (mul_le_mul i2 hf (by positivity) (i1.trans i2)).trans (le_of_eq ?_)
    rw [pow_succ]
    ring

theorem thirdDepth_large {δ s : ℝ} (hδ : 0 < δ) (hlamb : 0 < lamb) (h1 : 1 < lamb * s) (i : ℕ) :
    ((1 + δ * (lamb * s)) / (1 + δ)) ^ i * s ≤ thirdDepth δ lamb s i := by
  have hs : 0 < s := by
    by_contra hn
    have : lamb * s ≤ 0 := mul_nonpos_of_nonneg_of_nonpos hlamb.le (not_lt.mp hn)
    linarith
  have hr0 : 0 ≤ (1 + δ * (lamb * s)) / (1 + δ) := by positivity
  have hr1 : 1 ≤ (1 + δ * (lamb * s)) / (1 + δ) := by
    rw [one_le_div (by linarith)]
    nlinarith
  induction i with
  | zero => simp [thirdDepth]
  | succ i ih =>
    rw [thirdDepth]
    generalize thirdDepth δ lamb s i = t at *
    have hts : s ≤ t := le_trans (by
      have := one_le_pow₀ (n := i) hr1
      nlinarith) ih
    rw [mul_div_assoc]
    have hf : (1 + δ * (lamb * s)) / (1 + δ) ≤ (1 + δ * lamb * t) / (1 + δ) := by
      apply div_le_div_of_nonneg_right _ (by linarith)
      have : lamb * s ≤ lamb * t := by gcongr
      nlinarith
    refine le_trans (le_of_eq ?_) (mul_le_mul ih hf hr0 (hs.le.trans hts))
    rw [pow_succ]
    ring

theorem thirdRate_pos (hdt : 0 < dt) : 0 < thirdRate dt := by
  have := Real.pi_pos
  unfold thirdRate
  positivity

theorem third_flattens (h : GoodDims (intDims dims)) (hl : LayoutOk dims) (hs : ∀ d ∈ dims, d ≤ 10 ^ 9) (j : Fin dims.length) {a : ℕ}
    (hj : dims[j] = 3 * a) (hdt : 0 < dt) (hU : IsSurface dims dt lamb (fun _ _ => 0) U) (hlamb : 0 < lamb)
    {m s : ℝ} (h0 : U 0 = everyThird dims j m s) (hs0 : 0 ≤ s) (hlt : lamb * s < 1) :
    ∃ H : ℝ, ∀ x, Tendsto (fun i => U i x) atTop (𝓝 (H : ℂ)) := by
  have hδ := thirdRate_pos hdt
  have hb := thirdDepth_small hδ hlamb hs0 hlt
  set δ := thirdRate dt
  set ρ := (1 + δ * (lamb * s)) / (1 + δ) with hρ
  have hρ0 : 0 ≤ ρ := by rw [hρ]; positivity
  have hρ1 : ρ < 1 := by
    rw [hρ, div_lt_one (by linarith)]
    nlinarith
  have hstep : ∀ i, dist (thirdMean δ lamb m s i) (thirdMean δ lamb m s (i + 1)) ≤ 2 * δ * lamb * s ^ 2 * ρ ^ i := by
    intro i
    rw [dist_comm, Real.dist_eq, thirdMean, add_sub_cancel_left, abs_of_nonneg (by positivity)]
    obtain ⟨b1, b2⟩ := hb i
    have hp0 := pow_nonneg hρ0 i
    have hp1 := pow_le_one₀ (n := i) hρ0 hρ1.le
    have : thirdDepth δ lamb s i ^ 2 ≤ s ^ 2 * ρ ^ i := by
      calc thirdDepth δ lamb s i ^ 2 ≤ (ρ ^ i * s) ^ 2 := by gcongr
        _ = s ^ 2 * (ρ ^ i * ρ ^ i) := by ring
        _ ≤ s ^ 2 * (ρ ^ i * 1) := by gcongr
        _ = _ := by ring
    calc 2 * δ * lamb * thirdDepth δ lamb s i ^ 2 ≤ 2 * δ * lamb * (s ^ 2 * ρ ^ i) := by gcongr
      _ = _ := by ring
  obtain ⟨H, hH⟩ := cauchySeq_tendsto_of_complete (cauchySeq_of_le_geometric ρ _ hρ1 hstep)
  have hd : Tendsto (thirdDepth δ lamb s) atTop (𝓝 0) := by
    refine squeeze_zero (fun i => (hb i).1) (fun i => (hb i).2) ?_
    have := (tendsto_pow_atTop_nhds_zero_of_lt_one hρ0 hρ1).mul_const s
    simpa using this
  refine ⟨H, fun x => ?_⟩
  have e : (fun i => U i x) = fun i => (((if (3 : ℤ) ∣ coord dims x.val j then thirdMean δ lamb m s i - 2 * thirdDepth δ lamb s i
      else thirdMean δ lamb m s i + thirdDepth δ lamb s i : ℝ)) : ℂ) := by
    funext i
    rw [third_run h hl hs j hj hdt hU h0 i]
    rfl
  rw [e]
  refine (Complex.continuous_ofReal.tendsto H).comp ?_
  by_cases hx : (3 : ℤ) ∣ coord dims x.val j
  · simp only [if_pos hx]
    have := hH.sub (hd.const_mul 2)
    simpa using this
  · simp only [if_neg hx]
    have := hH.add hd
    simpa using this

theorem third_stays {δ s : ℝ} (hδ : 0 < δ) (h1 : lamb * s = 1) (i : ℕ) : thirdDepth δ lamb s i = s := by
  induction i with
  | zero => rfl
  | succ i ih =>
    rw [thirdDepth, ih, mul_assoc δ, h1, mul_one, mul_div_assoc, div_self (by linarith), mul_one]

theorem third_steepens (h : GoodDims (intDims dims)) (hl : LayoutOk dims) (hs : ∀ d ∈ dims, d ≤ 10 ^ 9) (j : Fin dims.length) {a : ℕ}
    (hj : dims[j] = 3 * a) (hdt : 0 < dt) (hU : IsSurface dims dt lamb (fun _ _ => 0) U) (hlamb : 0 < lamb)
    {m s : ℝ} (h0 : U 0 = everyThird dims j m s) (hgt : 1 < lamb * s) {x y : Fin dims.prod}
    (hx : (3 : ℤ) ∣ coord dims x.val j) (hy : ¬ (3 : ℤ) ∣ coord dims y.val j) :
    Tendsto (fun i => (U i y - U i x).re) atTop atTop := by
  have hδ := thirdRate_pos hdt
  have hb := thirdDepth_large hδ hlamb hgt
  set δ := thirdRate dt
  have hs : 0 < s := by
    by_contra hn
    have : lamb * s ≤ 0 := mul_nonpos_of_nonneg_of_nonpos hlamb.le (not_lt.mp hn)
    linarith
  have e : (fun i => (U i y - U i x).re) = fun i => 3 * thirdDepth δ lamb s i := by
    funext i
    rw [third_run h hl (by assumption) j hj hdt hU h0 i]
    unfold everyThird
    rw [if_pos hx, if_neg hy, ← Complex.ofReal_sub, Complex.ofReal_re]
    ring
  rw [e]
  have hρ1 : 1 < (1 + δ * (lamb * s)) / (1 + δ) := by
    rw [one_lt_div (by linarith)]
    nlinarith
  have ht := (tendsto_pow_atTop_atTop_of_one_lt hρ1).atTop_mul_const (by positivity : (0 : ℝ) < 3 * s)
  refine tendsto_atTop_mono (fun i => ?_) ht
  have := hb i
  linarith

end

/-! ### Waves that repeat after eight nodes -/

noncomputable def eightWaves (m a1 a2 a3 a4 : ℝ) (r : ℕ) : ℂ :=
  if r = 0 then (m : ℂ) else if r = 1 ∨ r = 7 then (a1 : ℂ) else if r = 2 ∨ r = 6 then (a2 : ℂ)
  else if r = 3 ∨ r = 5 then (a3 : ℂ) else (a4 : ℂ)

/-- How fast the waves with eight nodes are smoothed. -/
noncomputable def eighthRate (dt : ℝ) : ℝ := dt * (Real.pi ^ 2 / 16)

theorem eight_step (h : GoodDims (intDims dims)) (hl : LayoutOk dims) (hs : ∀ d ∈ dims, d ≤ 10 ^ 9) (j : Fin dims.length) {a : ℕ}
    (hj : dims[j] = 8 * a) {dt lamb : ℝ} (hdt : 0 < dt) {U : ℕ → Data dims.prod} (hU : IsSurface dims dt lamb (fun _ _ => 0) U)
    {m a1 a2 a3 a4 : ℝ} {i : ℕ} (hi : U i = comb dims j 8 (eightWaves m a1 a2 a3 a4)) :
    ∃ m' a4', U (i + 1) = comb dims j 8 (eightWaves m'
      ((a1 + 4 * eighthRate dt * lamb * a2 * (a1 + 3 * a3)) / (1 + eighthRate dt))
      ((a2 - eighthRate dt * lamb * (a1 - 3 * a3) ^ 2) / (1 + 4 * eighthRate dt))
      ((a3 - 4 * eighthRate dt * lamb * a2 * (a1 + 3 * a3)) / (1 + 9 * eighthRate dt)) a4') := by
  have hδ : 0 < eighthRate dt := by
    have := Real.pi_pos
    unfold eighthRate
    positivity
  refine ⟨m + eighthRate dt * lamb * (2 * (a1 ^ 2 + 4 * a2 ^ 2 + 9 * a3 ^ 2)),
    (a4 - eighthRate dt * lamb * (12 * a1 * a3 + 8 * a2 ^ 2)) / (1 + 16 * eighthRate dt), ?_⟩
  refine surface_comb h hl j hj hs hdt hU hi fun z hz => ?_
  have q0 : phi ((0 : ℕ) : ℤ) ((8 : ℕ) : ℤ) = 0 := phi_zero _
  have q1 : phi ((1 : ℕ) : ℤ) ((8 : ℕ) : ℤ) = 1 / 8 := by norm_num [phi, foldFreq]
  have q2 : phi ((2 : ℕ) : ℤ) ((8 : ℕ) : ℤ) = 1 / 4 := by norm_num [phi, foldFreq]
  have q3 : phi ((3 : ℕ) : ℤ) ((8 : ℕ) : ℤ) = 3 / 8 := by norm_num [phi, foldFreq]
  have q4 : phi ((4 : ℕ) : ℤ) ((8 : ℕ) : ℤ) = 1 / 2 := by norm_num [phi, foldFreq]
  have q5 : phi ((5 : ℕ) : ℤ) ((8 : ℕ) : ℤ) = -3 / 8 := by norm_num [phi, foldFreq]
  have q6 : phi ((6 : ℕ) : ℤ) ((8 : ℕ) : ℤ) = -1 / 4 := by norm_num [phi, foldFreq]
  have q7 : phi ((7 : ℕ) : ℤ) ((8 : ℕ) : ℤ) = -1 / 8 := by norm_num [phi, foldFreq]
  have g4 : gradFactor false (((1 / 2 : ℚ)) : ℝ) = 0 := by
    unfold gradFactor
    norm_num
  simp only [Finset.sum_range_succ, Finset.sum_range_zero, zero_add]
  rw [q0, q1, q2, q3, q4, q5, q6, q7, g4, gradFactor_of_ne (by norm_num), gradFactor_of_ne (by norm_num), gradFactor_of_ne (by norm_num),
    gradFactor_of_ne (by norm_num), gradFactor_of_ne (by norm_num), gradFactor_of_ne (by norm_num), gradFactor_of_ne (by norm_num)]
  simp only [eightWaves, if_true, one_ne_zero, if_false, OfNat.ofNat_ne_zero, OfNat.ofNat_ne_one, OfNat.one_ne_ofNat, true_or, or_true]
  norm_num only [if_true, if_false, or_false, false_or, or_self]
  have e1 : ((1 + eighthRate dt : ℝ) : ℂ) * (((a1 + 4 * eighthRate dt * lamb * a2 * (a1 + 3 * a3)) / (1 + eighthRate dt) : ℝ) : ℂ) =
      a1 + 4 * eighthRate dt * lamb * a2 * (a1 + 3 * a3) := by
    rw [← Complex.ofReal_mul, mul_div_cancel₀ _ (by linarith)]
    push_cast
    ring
  have e2 : ((1 + 4 * eighthRate dt : ℝ) : ℂ) * (((a2 - eighthRate dt * lamb * (a1 - 3 * a3) ^ 2) / (1 + 4 * eighthRate dt) : ℝ) : ℂ) =
      a2 - eighthRate dt * lamb * (a1 - 3 * a3) ^ 2 := by
    rw [← Complex.ofReal_mul, mul_div_cancel₀ _ (by linarith)]
    push_cast
    ring
  have e3 : ((1 + 9 * eighthRate dt : ℝ) : ℂ) * (((a3 - 4 * eighthRate dt * lamb * a2 * (a1 + 3 * a3)) / (1 + 9 * eighthRate dt) : ℝ) : ℂ) =
      a3 - 4 * eighthRate dt * lamb * a2 * (a1 + 3 * a3) := by
    rw [← Complex.ofReal_mul, mul_div_cancel₀ _ (by linarith)]
    push_cast
    ring
  have e4 : ((1 + 16 * eighthRate dt : ℝ) : ℂ) * (((a4 - eighthRate dt * lamb * (12 * a1 * a3 + 8 * a2 ^ 2)) / (1 + 16 * eighthRate dt) : ℝ) : ℂ) =
      a4 - eighthRate dt * lamb * (12 * a1 * a3 + 8 * a2 ^ 2) := by
    rw [← Complex.ofReal_mul, mul_div_cancel₀ _ (by linarith)]
    push_cast
    ring
  generalize (a1 + 4 * eighthRate dt * lamb * a2 * (a1 + 3 * a3)) / (1 + eighthRate dt) = b1 at *
  generalize (a2 - eighthRate dt * lamb * (a1 - 3 * a3) ^ 2) / (1 + 4 * eighthRate dt) = b2 at *
  generalize (a3 - 4 * eighthRate dt * lamb * a2 * (a1 + 3 * a3)) / (1 + 9 * eighthRate dt) = b3 at *
  generalize (a4 - eighthRate dt * lamb * (12 * a1 * a3 + 8 * a2 ^ 2)) / (1 + 16 * eighthRate dt) = b4 at *
  unfold eighthRate at *
  push_cast at e1 e2 e3 e4 ⊢
  have hI := Complex.I_sq
  generalize (Real.pi : ℂ) = π at *
  linear_combination (z + z ^ 7) * e1 + (z ^ 2 + z ^ 6) * e2 + (z ^ 3 + z ^ 5) * e3 + z ^ 4 * e4 +
    (dt * (π ^ 2 / 16) * lamb * (-2 * (a1 ^ 2 + 4 * a2 ^ 2 + 9 * a3 ^ 2) - 4 * a2 * (a1 + 3 * a3) * z +
      (9 * a3 ^ 2 - 6 * a1 * a3) * z ^ 2 + 12 * a2 * a3 * z ^ 3 + (6 * a1 * a3 + 4 * a2 ^ 2) * z ^ 4 +
      4 * a1 * a2 * z ^ 5 + a1 ^ 2 * z ^ 6)) * hz -
    (dt * (π ^ 2 / 16) * lamb * (a1 * z + 2 * a2 * z ^ 2 + 3 * a3 * z ^ 3 - 3 * a3 * z ^ 5 - 2 * a2 * z ^ 6 - a1 * z ^ 7) ^ 2) * hI

/-- The waves that repeat after eight nodes feed each other: in units of the factor, with the amplitudes `-A`, `-P` and
`B` and `W = 3 B - A`. -/
theorem eight_next {δ A P B : ℝ} (hδ : 0 < δ) (hδ1 : δ ≤ 1 / 30) (hA : 0 ≤ A) (hAW : A ≤ 3 * B - A) (hP : 8 ≤ P)
    (hW : 6 ≤ 3 * B - A) :
    0 ≤ (A + 4 * δ * P * (3 * B - A)) / (1 + δ) ∧
    (A + 4 * δ * P * (3 * B - A)) / (1 + δ) ≤
      3 * ((B + 4 * δ * P * (3 * B - A)) / (1 + 9 * δ)) - (A + 4 * δ * P * (3 * B - A)) / (1 + δ) ∧
    8 ≤ (P + δ * (3 * B + A) ^ 2) / (1 + 4 * δ) ∧
    (1 + 50 * δ) / (1 + 11 * δ) * (3 * B - A) ≤
      3 * ((B + 4 * δ * P * (3 * B - A)) / (1 + 9 * δ)) - (A + 4 * δ * P * (3 * B - A)) / (1 + δ) := by
  obtain ⟨W, rfl⟩ : ∃ W, B = (W + A) / 3 := ⟨3 * B - A, by ring⟩
  have e1 : 3 * ((W + A) / 3) - A = W := by ring
  have e2 : 3 * ((W + A) / 3) + A = W + 2 * A := by ring
  rw [e1] at hAW hW
  rw [e1, e2]
  have hW0 : 0 < W := by linarith
  have h1 : 0 < 1 + δ := by linarith
  have h9 : 0 < 1 + 9 * δ := by linarith
  have h11 : 0 < 1 + 11 * δ := by linarith
  have hδA : 0 ≤ δ * A := mul_nonneg hδ.le hA
  have hδW : 0 ≤ δ * W := by positivity
  have hδAW : δ * A ≤ δ * W := mul_le_mul_of_nonneg_left hAW hδ.le
  have hPW : 8 * (δ * W) ≤ δ * P * W := by
    have := mul_le_mul_of_nonneg_right hP hδW
    linarith
  set X := δ * P * W with hX
  have hX0 : 0 ≤ X := by linarith
  have hδX : δ * X ≤ 1 / 30 * X := mul_le_mul_of_nonneg_right hδ1 hX0
  have e3 : A + 4 * δ * P * W = A + 4 * X := by rw [hX]; ring
  have e4 : (W + A) / 3 + 4 * δ * P * W = (W + A) / 3 + 4 * X := by rw [hX]; ring
  rw [e3, e4]
  -- the new `W`, over a common denominator
  have eW : 3 * (((W + A) / 3 + 4 * X) / (1 + 9 * δ)) - (A + 4 * X) / (1 + δ) =
      (W * (1 + δ) + 8 * X - 24 * (δ * X) - 8 * (δ * A)) / ((1 + 9 * δ) * (1 + δ)) := by
    field_simp
    ring
  rw [eW]
  refine ⟨by positivity, ?_, ?_, ?_⟩
  · rw [div_le_div_iff₀ h1 (by positivity)]
    have key : (A + 4 * X) * (1 + 9 * δ) ≤ W * (1 + δ) + 8 * X - 24 * (δ * X) - 8 * (δ * A) := by
      nlinarith
    have := mul_le_mul_of_nonneg_right key h1.le
    linarith
  · rw [le_div_iff₀ (by linarith)]
    have hsq : 36 ≤ (W + 2 * A) ^ 2 := by nlinarith
    have := mul_le_mul_of_nonneg_left hsq hδ.le
    linarith
  · rw [div_mul_eq_mul_div, div_le_div_iff₀ h11 (by positivity)]
    have k1 : W * (1 + 50 * δ) ≤ W * (1 + δ) + 8 * X - 24 * (δ * X) - 8 * (δ * A) := by
      nlinarith
    have k2 : (1 + 9 * δ) * (1 + δ) ≤ 1 + 11 * δ := by nlinarith
    calc (1 + 50 * δ) * W * ((1 + 9 * δ) * (1 + δ)) ≤ (1 + 50 * δ) * W * (1 + 11 * δ) := by gcongr
      _ ≤ _ := by
        have := mul_le_mul_of_nonneg_right k1 h11.le
        linarith

theorem eight_run (h : GoodDims (intDims dims)) (hl : LayoutOk dims) (hs : ∀ d ∈ dims, d ≤ 10 ^ 9) (j : Fin dims.length) {a : ℕ}
    (hj : dims[j] = 8 * a) {dt lamb : ℝ} (hdt : 0 < dt) (hdt1 : eighthRate dt ≤ 1 / 30) {U : ℕ → Data dims.prod}
    (hU : IsSurface dims dt lamb (fun _ _ => 0) U)
    {m a1 a2 a3 a4 : ℝ} (h0 : U 0 = comb dims j 8 (eightWaves m a1 a2 a3 a4)) (h1 : 0 ≤ -(lamb * a1))
    (h2 : -(lamb * a1) ≤ lamb * (a1 + 3 * a3)) (h3 : 8 ≤ -(lamb * a2)) (h4 : 6 ≤ lamb * (a1 + 3 * a3)) (i : ℕ) :
    ∃ m a1 a2 a3 a4 : ℝ, U i = comb dims j 8 (eightWaves m a1 a2 a3 a4) ∧ 0 ≤ -(lamb * a1) ∧
      -(lamb * a1) ≤ lamb * (a1 + 3 * a3) ∧ 8 ≤ -(lamb * a2) ∧
      ((1 + 50 * eighthRate dt) / (1 + 11 * eighthRate dt)) ^ i * 6 ≤ lamb * (a1 + 3 * a3) := by
  have hδ : 0 < eighthRate dt := by
    have := Real.pi_pos
    unfold eighthRate
    positivity
  have hg : 1 ≤ (1 + 50 * eighthRate dt) / (1 + 11 * eighthRate dt) := by
    rw [one_le_div (by linarith)]
    linarith
  induction i with
  | zero => exact ⟨m, a1, a2, a3, a4, h0, h1, h2, h3, by simpa using h4⟩
  | succ i ih =>
    obtain ⟨m, a1, a2, a3, a4, i0, i1, i2, i3, i4⟩ := ih
    obtain ⟨m', a4', e⟩ := eight_step h hl hs j hj hdt hU i0
    refine ⟨m', _, _, _, a4', e, ?_⟩
    have i4' : 6 ≤ lamb * (a1 + 3 * a3) := by
      have := one_le_pow₀ (n := i) hg
      linarith
    have eW : 3 * (lamb * a3) - -(lamb * a1) = lamb * (a1 + 3 * a3) := by ring
    obtain ⟨n1, n2, n3, n4⟩ := eight_next (A := -(lamb * a1)) (P := -(lamb * a2)) (B := lamb * a3) hδ hdt1 i1 (by rw [eW]; exact i2) i3
      (by rw [eW]; exact i4')
    generalize eighthRate dt = δ at *
    have f1 : -(lamb * ((a1 + 4 * δ * lamb * a2 * (a1 + 3 * a3)) / (1 + δ))) =
        (-(lamb * a1) + 4 * δ * -(lamb * a2) * (3 * (lamb * a3) - -(lamb * a1))) / (1 + δ) := by ring
    have f2 : -(lamb * ((a2 - δ * lamb * (a1 - 3 * a3) ^ 2) / (1 + 4 * δ))) =
        (-(lamb * a2) + δ * (3 * (lamb * a3) + -(lamb * a1)) ^ 2) / (1 + 4 * δ) := by ring
    have f3 : lamb * ((a1 + 4 * δ * lamb * a2 * (a1 + 3 * a3)) / (1 + δ) + 3 * ((a3 - 4 * δ * lamb * a2 * (a1 + 3 * a3)) / (1 + 9 * δ))) =
        3 * ((lamb * a3 + 4 * δ * -(lamb * a2) * (3 * (lamb * a3) - -(lamb * a1))) / (1 + 9 * δ)) -
          (-(lamb * a1) + 4 * δ * -(lamb * a2) * (3 * (lamb * a3) - -(lamb * a1))) / (1 + δ) := by ring
    rw [f1, f2, f3]
    refine ⟨n1, n2, n3, le_trans ?_ n4⟩
    rw [eW, pow_succ]
    have := mul_le_mul_of_nonneg_left i4 (by linarith : 0 ≤ (1 + 50 * δ) / (1 + 11 * δ))
    linarith

theorem eight_steepens (h : GoodDims (intDims dims)) (hl : LayoutOk dims) (hs : ∀ d ∈ dims, d ≤ 10 ^ 9) (j : Fin dims.length) {a : ℕ}
    (hj : dims[j] = 8 * a) {dt lamb : ℝ} (hlamb : 0 < lamb) (hdt : 0 < dt) (hdt1 : dt ≤ 1 / 20) {U : ℕ → Data dims.prod}
    (hU : IsSurface dims dt lamb (fun _ _ => 0) U)
    {m a1 a2 a3 a4 : ℝ} (h0 : U 0 = comb dims j 8 (eightWaves m a1 a2 a3 a4)) (h1 : a1 ≤ 0)
    (h2 : -a1 ≤ a1 + 3 * a3) (h3 : a2 ≤ -(8 / lamb)) (h4 : 6 / lamb ≤ a1 + 3 * a3) (B : ℝ) :
    ∀ᶠ i in atTop, ∃ x, B < ‖U i x - fieldMean (U i)‖ := by
  have hrate : eighthRate dt ≤ 1 / 30 := by
    unfold eighthRate
    have p1 := Real.pi_gt_three
    have p2 : Real.pi ^ 2 ≤ 10 := by nlinarith [Real.pi_lt_d2]
    nlinarith
  have hδ : 0 < eighthRate dt := by
    have := Real.pi_pos
    unfold eighthRate
    positivity
  have hrun := eight_run h hl hs j hj hdt hrate hU h0 (by nlinarith) (by nlinarith)
    (by
      have := mul_le_mul_of_nonneg_left h3 hlamb.le
      rw [mul_neg, mul_div_cancel₀ _ hlamb.ne'] at this
      linarith)
    (by
      have := mul_le_mul_of_nonneg_left h4 hlamb.le
      rwa [mul_div_cancel₀ _ hlamb.ne'] at this)
  have hg : 1 < (1 + 50 * eighthRate dt) / (1 + 11 * eighthRate dt) := by
    rw [one_lt_div (by linarith)]
    linarith
  have ht := (tendsto_pow_atTop_atTop_of_one_lt hg).atTop_mul_const (by norm_num : (0 : ℝ) < 6)
  filter_upwards [ht.eventually_gt_atTop (lamb * (4 * B))] with i hi
  by_contra hno
  push Not at hno
  obtain ⟨m', b1, b2, b3, b4, e, -, -, -, hW⟩ := hrun i
  rw [e] at hno
  have c1 := comb_coeff_le h hl j hj (r := 1) (by norm_num) (by norm_num) _ hno
  have c3 := comb_coeff_le h hl j hj (r := 3) (by norm_num) (by norm_num) _ hno
  have w1 : eightWaves m' b1 b2 b3 b4 1 = b1 := rfl
  have w3 : eightWaves m' b1 b2 b3 b4 3 = b3 := rfl
  rw [w1, Complex.norm_real, Real.norm_eq_abs] at c1
  rw [w3, Complex.norm_real, Real.norm_eq_abs] at c3
  have : lamb * (b1 + 3 * b3) ≤ lamb * (4 * B) := by
    apply mul_le_mul_of_nonneg_left _ hlamb.le
    have := le_abs_self b1
    have := le_abs_self b3
    linarith
  linarith

/-! ### The example -/

/-- The surface `m + ∑ r, 2 a r cos(2π r y / 8)` of the waves that repeat after eight nodes along the side `j`. -/
noncomputable def everyEighth (dims : List ℕ) (j : ℕ) (m a1 a2 a3 : ℝ) : Data dims.prod :=
  fun x => ((m + 2 * a1 * Real.cos (2 * Real.pi * coord dims x.val j / 8) + 2 * a2 * Real.cos (2 * (2 * Real.pi * coord dims x.val j / 8)) +
    2 * a3 * Real.cos (3 * (2 * Real.pi * coord dims x.val j / 8)) : ℝ) : ℂ)

theorem everyEighth_comb (j : ℕ) (m a1 a2 a3 : ℝ) : everyEighth dims j m a1 a2 a3 = comb dims j 8 (eightWaves m a1 a2 a3 0) := by
  funext x
  unfold everyEighth comb
  have hz : turning dims j 8 x ^ 8 = 1 := by
    unfold turning
    rw [← cis_nsmul]
    have : ((8 : ℕ) : ℚ) * ((coord dims x.val j : ℚ) / (8 : ℕ)) = ((coord dims x.val j : ℤ) : ℚ) := by
      push_cast
      ring
    rw [this, cis_int]
  have he : turning dims j 8 x = Complex.exp (((2 * Real.pi * coord dims x.val j / 8 : ℝ) : ℂ) * Complex.I) := by
    unfold turning cis
    congr 1
    push_cast
    ring
  set θ : ℝ := 2 * Real.pi * coord dims x.val j / 8 with hθ
  have hpow : ∀ r : ℕ, turning dims j 8 x ^ r = Complex.exp (((r * θ : ℝ) : ℂ) * Complex.I) := by
    intro r
    rw [he, ← Complex.exp_nat_mul]
    congr 1
    push_cast
    ring
  have hinv : ∀ r : ℕ, r ≤ 8 → turning dims j 8 x ^ (8 - r) = Complex.exp (-((r * θ : ℝ) : ℂ) * Complex.I) := by
    intro r hr
    have h1 : turning dims j 8 x ^ (8 - r) * turning dims j 8 x ^ r = 1 := by
      rw [← pow_add, Nat.sub_add_cancel hr, hz]
    have h2 : Complex.exp (-((r * θ : ℝ) : ℂ) * Complex.I) * turning dims j 8 x ^ r = 1 := by
      rw [hpow, ← Complex.exp_add]
      simp
    have hne : turning dims j 8 x ^ r ≠ 0 := by
      rw [hpow]
      exact Complex.exp_ne_zero _
    exact mul_right_cancel₀ hne (h1.trans h2.symm)
  have hcos : ∀ r : ℕ, r ≤ 8 → turning dims j 8 x ^ r + turning dims j 8 x ^ (8 - r) = ((2 * Real.cos (r * θ) : ℝ) : ℂ) := by
    intro r hr
    rw [hinv r hr, hpow]
    push_cast [Complex.cos]
    ring
  have k1 := hcos 1 (by norm_num)
  have k2 := hcos 2 (by norm_num)
  have k3 := hcos 3 (by norm_num)
  norm_num at k1 k2 k3
  simp only [Finset.sum_range_succ, Finset.sum_range_zero, zero_add, eightWaves, if_true, one_ne_zero, if_false, OfNat.ofNat_ne_zero,
    OfNat.ofNat_ne_one, OfNat.one_ne_ofNat, true_or, or_true]
  norm_num only [if_true, if_false, or_false, false_or, or_self]
  push_cast
  linear_combination -(a1 : ℂ) * k1 - (a2 : ℂ) * k2 - (a3 : ℂ) * k3

section
variable (h : GoodDims (intDims dims)) (hl : LayoutOk dims) (hs : ∀ d ∈ dims, d ≤ 10 ^ 9) {lamb : ℝ} (hlamb : 0 < lamb) {c : Str → ℂ}
  {m0 m : EqModel dims.prod}
  (h1 : kpzModel dims lamb = some m0) (h2 : m0.addEquation kpzEquation = some m)
  {M : Model m.fields.length m.derived.length dims.prod} (h3 : m.assemble c = some M)
  {d : Fin m.derived.length} (hd : (m.derived[d]).1 = "WHITE_NOISE".toList) {s : Stepper dims.prod} (hfil : s.filter = none)
  (hfreq : s.freq = freqOf dims) (hdt : 0 < s.dt)
  (st : Store m.fields.length m.derived.length dims.prod) (i : Fin m.fields.length)
include h hl hs hlamb h1 h2 h3 hd hfil hfreq hdt

/-- C145: when a side is a multiple of three, whether a surface flattens depends on its height, whatever the time step:
grooves at every third node flatten when their depth is below `3 / lamb`, keep their depth when it is `3 / lamb`, and
deepen without bound when it is larger. -/
theorem c145_third (j : Fin dims.length) {a : ℕ} (hj : dims[j] = 3 * a) (b g : ℝ) (hg : 0 ≤ g)
    (hst : st.fields i = everyThird dims j b g) :
    (lamb * g < 1 → ∃ H : ℝ, ∀ x,
      Tendsto (fun steps => (noisyPropagate M d (fun _ _ => 0) steps (s, st)).2.fields i x) atTop (𝓝 (H : ℂ))) ∧
    (lamb * g = 1 → ∀ steps, ∃ b', (noisyPropagate M d (fun _ _ => 0) steps (s, st)).2.fields i = everyThird dims j b' g) ∧
    (1 < lamb * g → ∀ x y, (3 : ℤ) ∣ coord dims x.val j → ¬ (3 : ℤ) ∣ coord dims y.val j →
      Tendsto (fun steps => ((noisyPropagate M d (fun _ _ => 0) steps (s, st)).2.fields i y -
        (noisyPropagate M d (fun _ _ => 0) steps (s, st)).2.fields i x).re) atTop atTop) := by
  have hU := kpz_surface (pos_of_goodDims h) h1 h2 h3 hd hfil hfreq hdt (fun _ _ => 0) st i
  refine ⟨fun hlt => third_flattens h hl hs j hj hdt hU hlamb hst hg hlt, fun heq steps => ?_,
    fun hgt x y hx hy => third_steepens h hl hs j hj hdt hU hlamb hst hgt hx hy⟩
  refine ⟨thirdMean (thirdRate s.dt) lamb b g steps, ?_⟩
  have := third_run h hl hs j hj hdt hU hst steps
  rw [third_stays (thirdRate_pos hdt) heq] at this
  exact this

/-- C145: when a side is a multiple of eight, as in the program, some surfaces move away from their mean without bound,
for every time step up to 1/20. -/
theorem c145_steepens (j : Fin dims.length) {a : ℕ} (hj : dims[j] = 8 * a) (hdt1 : s.dt ≤ 1 / 20) {b a1 a2 a3 : ℝ}
    (hst : st.fields i = everyEighth dims j b a1 a2 a3) (g1 : a1 ≤ 0) (g2 : -a1 ≤ a1 + 3 * a3) (g3 : a2 ≤ -(8 / lamb))
    (g4 : 6 / lamb ≤ a1 + 3 * a3) (B : ℝ) :
    ∀ᶠ steps in atTop, ∃ x, B < ‖(noisyPropagate M d (fun _ _ => 0) steps (s, st)).2.fields i x -
      fieldMean ((noisyPropagate M d (fun _ _ => 0) steps (s, st)).2.fields i)‖ := by
  have hU := kpz_surface (pos_of_goodDims h) h1 h2 h3 hd hfil hfreq hdt (fun _ _ => 0) st i
  exact eight_steepens h hl hs j hj hlamb hdt hdt1 hU (hst.trans (everyEighth_comb _ _ _ _ _)) g1 g2 g3 g4 B

end

/-- The domain, the factor and the time step of the program meet the hypotheses of `c145_steepens`, with the surface
`-1.6 cos(π y / 2) + 0.4 cos(3 π y / 4)`. -/
example : ∃ (m0 m : EqModel [128, 128].prod) (M : Model m.fields.length m.derived.length [128, 128].prod) (d : Fin m.derived.length),
    kpzModel [128, 128] kpzFactor = some m0 ∧ m0.addEquation kpzEquation = some m ∧ m.assemble (fun _ => 0) = some M ∧
    ∀ (s : Stepper [128, 128].prod), s.filter = none → s.freq = freqOf [128, 128] → s.dt = kpzTimeStep →
    ∀ (st : Store m.fields.length m.derived.length [128, 128].prod) (i : Fin m.fields.length),
      st.fields i = everyEighth [128, 128] 0 0 0 (-4 / 5) (1 / 5) → ∀ B : ℝ,
      ∀ᶠ steps in atTop, ∃ x, B < ‖(noisyPropagate M d (fun _ _ => 0) steps (s, st)).2.fields i x -
        fieldMean ((noisyPropagate M d (fun _ _ => 0) steps (s, st)).2.fields i)‖ := by
  have h : GoodDims (intDims [128, 128]) := ⟨by decide, by decide⟩
  obtain ⟨m0, m, M, a1, a2, -, a4, d, hd⟩ := c145_assembles (pos_of_goodDims h) kpzFactor (fun _ => 0)
  refine ⟨m0, m, M, d, a1, a2, a4, fun s hfil hfreq hdt st i hst B => ?_⟩
  have hk : s.dt = 1 / 10000 := by rw [hdt]; norm_num [kpzTimeStep]
  exact c145_steepens h trivial (by intro d hd; simp at hd; omega) (by norm_num [kpzFactor]) a1 a2 a4 hd hfil hfreq
    (by rw [hk]; norm_num) st i ⟨0, by norm_num⟩ (a := 16) rfl (by rw [hk]; norm_num) hst (by norm_num) (by norm_num)
    (by norm_num [kpzFactor]) (by norm_num [kpzFactor]) B

/-- Grooves of depth 0.3 on a domain of 9 by 4 nodes, with the factor 10 of the program, keep their depth. -/
example : ∃ (m0 m : EqModel [9, 4].prod) (M : Model m.fields.length m.derived.length [9, 4].prod) (d : Fin m.derived.length),
    kpzModel [9, 4] kpzFactor = some m0 ∧ m0.addEquation kpzEquation = some m ∧ m.assemble (fun _ => 0) = some M ∧
    ∀ (s : Stepper [9, 4].prod), s.filter = none → s.freq = freqOf [9, 4] → 0 < s.dt →
    ∀ (st : Store m.fields.length m.derived.length [9, 4].prod) (i : Fin m.fields.length),
      st.fields i = everyThird [9, 4] 0 0 (1 / 10) → ∀ steps, ∃ b',
        (noisyPropagate M d (fun _ _ => 0) steps (s, st)).2.fields i = everyThird [9, 4] 0 b' (1 / 10) := by
  have h : GoodDims (intDims [9, 4]) := ⟨by decide, by decide⟩
  obtain ⟨m0, m, M, a1, a2, -, a4, d, hd⟩ := c145_assembles (pos_of_goodDims h) kpzFactor (fun _ => 0)
  refine ⟨m0, m, M, d, a1, a2, a4, fun s hfil hfreq hdt st i hst => ?_⟩
  exact (c145_third h trivial (by intro d hd; simp at hd; omega) (by norm_num [kpzFactor]) a1 a2 a4 hd hfil hfreq hdt st i
    ⟨0, by norm_num⟩ (a := 3) rfl 0 (1 / 10) (by norm_num) hst).2.1 (by norm_num [kpzFactor])

theorem deviation_sum_le (u : Data n) : ∑ x, ‖u x - fieldMean u‖ ≤ 2 * ∑ x, ‖u x‖ := by
  have hm : n * ‖fieldMean u‖ ≤ ∑ x, ‖u x‖ := by
    unfold fieldMean
    rcases Nat.eq_zero_or_pos n with rfl | hn
    · simp
    · have : (0 : ℝ) < n := by exact_mod_cast hn
      rw [norm_div, Complex.norm_natCast, mul_div_cancel₀ _ this.ne']
      exact norm_sum_le _ _
  calc ∑ x, ‖u x - fieldMean u‖ ≤ ∑ x, (‖u x‖ + ‖fieldMean u‖) := Finset.sum_le_sum fun x _ => norm_sub_le _ _
    _ = ∑ x, ‖u x‖ + n * ‖fieldMean u‖ := by
      rw [Finset.sum_add_distrib, Finset.sum_const, Finset.card_univ, Fintype.card_fin, nsmul_eq_mul]
    _ ≤ _ := by linarith

/-- A flat surface with a small bump on the domain of the program meets the hypotheses of `c145_small`. -/
example (x0 : Fin [128, 128].prod) : |kpzFactor| * [128, 128].length * (128 : ℕ) ^ 2 *
    ∑ x, ‖(Pi.single x0 (1 / 10 ^ 6) : Data [128, 128].prod) x - fieldMean (Pi.single x0 (1 / 10 ^ 6) : Data [128, 128].prod)‖ ≤ 2 := by
  have hb := deviation_sum_le (Pi.single x0 (1 / 10 ^ 6) : Data [128, 128].prod)
  have e : ∑ x, ‖(Pi.single x0 (1 / 10 ^ 6) : Data [128, 128].prod) x‖ = 1 / 10 ^ 6 := by
    rw [Finset.sum_eq_single x0]
    · rw [Pi.single_eq_same]
      norm_num
    · intro x _ hx
      rw [Pi.single_eq_of_ne hx, norm_zero]
    · exact fun hx => absurd (Finset.mem_univ x0) hx
  rw [e] at hb
  generalize ∑ x, ‖(Pi.single x0 (1 / 10 ^ 6) : Data [128, 128].prod) x - fieldMean (Pi.single x0 (1 / 10 ^ 6) : Data [128, 128].prod)‖ = S at *
  have hk : |kpzFactor| = 10 := by norm_num [kpzFactor]
  rw [hk]
  norm_num at hb ⊢
  linarith

end Gopf.Props
