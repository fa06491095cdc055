import Verif.Props.Nucleation
import Verif.Props.Energy
import Verif.Props.Uniform

/-!
# C139: the states of rest of the heterogeneous nucleation example
-/

namespace Gopf.Props
open Spec Pf Pfutil

variable {n : ℕ} {dims : List ℕ}

theorem fft_gridLaplacian (h : ∀ d ∈ dims, 0 < d) (u : Data dims.prod) (k : Fin dims.prod) :
    fft dims (gridLaplacian (freqOf dims) u) k = laplaceSymbol (freqOf dims k) * fft dims u k := by
  have := spectralLaplacian_iterate (fft dims) (fun x => divRealScalar (ifft dims x) (dims.prod : ℕ))
    (fun x => fft_divided h x) (freqOf dims) 1 u k
  rw [Function.iterate_one, pow_one] at this
  exact this

/-- The Laplacian of a field against the field, in Fourier space. -/
theorem laplacian_form (h : ∀ d ∈ dims, 0 < d) (u : Data dims.prod) :
    (dims.prod : ℕ) * ∑ x, (gridLaplacian (freqOf dims) u x * (starRingEnd ℂ) (u x)).re =
      -∑ k, laplaceNumber dims k * ‖fft dims u k‖ ^ 2 := by
  rw [← real_parseval h, ← Finset.sum_neg_distrib]
  refine Finset.sum_congr rfl fun k _ => ?_
  rw [fft_gridLaplacian h, symbol_laplaceNumber, mul_assoc, Complex.mul_conj, Complex.normSq_eq_norm_sq]
  rw [← Complex.ofReal_neg, ← Complex.ofReal_mul, Complex.ofReal_re]
  ring

/-- Two different waves of a grid are at least one period of the longest side apart. -/
theorem laplaceNumber_ge {N : ℕ} (hN : 0 < N) (k : Fin [N, N].prod) (hk : k.val ≠ 0) :
    4 * Real.pi ^ 2 / N ^ 2 ≤ laplaceNumber [N, N] k := by
  have h : GoodDims (intDims [N, N]) := ⟨Or.inl rfl, by
    intro d hd
    have : d = (N : ℤ) := by simpa [intDims] using hd
    omega⟩
  have hex : ∃ j : Fin [N, N].length, coord [N, N] k.val j.val ≠ 0 := by
    by_contra hc
    push Not at hc
    have h0 : 0 < [N, N].prod := k.pos
    have : k = ⟨0, h0⟩ := coord_injective h fun j => by rw [hc j, coord_origin h ⟨0, h0⟩ rfl j]
    exact hk (by rw [this])
  obtain ⟨j, hj⟩ := hex
  have hside : ∀ j : Fin [N, N].length, [N, N][j] = N := by
    intro j
    fin_cases j <;> rfl
  have hr := coord_range h k j
  have hne := phi_ne_zero (lt_of_le_of_ne hr.1 (Ne.symm hj)) hr.2
  rw [hside] at hne
  have hNr : (0 : ℝ) < N := by exact_mod_cast hN
  have hbound : (1 / (N : ℝ)) ^ 2 ≤ ((phi (coord [N, N] k.val j.val) (N : ℤ) : ℚ) : ℝ) ^ 2 := by
    obtain ⟨i, hi⟩ := phi_int (coord [N, N] k.val j.val) (N : ℤ)
    set p := phi (coord [N, N] k.val j.val) (N : ℤ) with hp
    have hNq : (0 : ℚ) < N := by exact_mod_cast hN
    obtain ⟨z, hz⟩ : ∃ z : ℤ, p * N = z := by
      refine ⟨coord [N, N] k.val j.val + i * N, ?_⟩
      rw [hi]
      push_cast
      field_simp
    have hz0 : z ≠ 0 := by
      rintro rfl
      have : p * N = 0 := by simpa using hz
      rcases mul_eq_zero.mp this with h1 | h1
      · exact hne h1
      · exact hNq.ne' h1
    have h1 : (1 : ℝ) ≤ (z : ℝ) ^ 2 := by
      have : 1 ≤ z ^ 2 := by
        have := sq_nonneg z
        have h2 : z ^ 2 ≠ 0 := pow_ne_zero 2 hz0
        omega
      exact_mod_cast this
    have h2 : (p : ℝ) * N = z := by exact_mod_cast hz
    rw [← h2, mul_pow] at h1
    rw [div_pow, one_pow, div_le_iff₀ (by positivity)]
    exact h1
  unfold laplaceNumber
  rw [mul_div_assoc]
  have hpi := Real.pi_pos
  have hs : (1 / (N : ℝ)) ^ 2 ≤ ((freqOf [N, N] k).map fun x => x ^ 2).sum := by
    rw [freqOf_coord h, List.map_ofFn, List.sum_ofFn]
    refine hbound.trans ?_
    have := Finset.single_le_sum (f := fun i : Fin [N, N].length =>
      ((fun x : ℝ => x ^ 2) ∘ fun j : Fin [N, N].length => ((phi (coord [N, N] k.val j.val) ([N, N][j] : ℤ) : ℚ) : ℝ)) i)
      (fun i _ => by simp only [Function.comp_apply]; positivity) (Finset.mem_univ j)
    simp only [Function.comp_apply, hside] at this ⊢
    exact this
  have := mul_le_mul_of_nonneg_left hs (by positivity : (0 : ℝ) ≤ 4 * Real.pi ^ 2)
  calc 4 * (Real.pi ^ 2 / N ^ 2) = 4 * Real.pi ^ 2 * (1 / (N : ℝ)) ^ 2 := by ring
    _ ≤ _ := this

/-- A constant does not matter to the Laplacian. -/
theorem gridLaplacian_shift (h : GoodDims (intDims dims)) (w : Data dims.prod) (m : ℂ) :
    gridLaplacian (freqOf dims) (fun x => w x + m) = gridLaplacian (freqOf dims) w := by
  have hpos := pos_of_goodDims h
  apply fft_injective hpos
  funext k
  rw [fft_gridLaplacian hpos, fft_gridLaplacian hpos]
  have := fft_add w (fun _ => m) k
  rw [this, fft_const hpos]
  split_ifs with hk
  · rw [symbol_origin h k hk, zero_mul, zero_mul]
  · rw [add_zero]

/-- If all waves of the grid are short enough, the homogeneous system has uniform states of rest only. -/
theorem rest_uniform (h : GoodDims (intDims dims)) {rho gamma X : ℝ} (hg : 0 < gamma)
    (hX : ∀ k : Fin dims.prod, k.val ≠ 0 → X ≤ laplaceNumber dims k) (hlim : 1 + 3 * rho ^ 2 / 16 < gamma * X)
    {u : Data dims.prod} (hu : IsReal u)
    (hrest : ∀ x, homogeneousForce rho gamma (gridLaplacian (freqOf dims)) u x = 0) :
    ∃ m : ℝ, u = fun _ => (m : ℂ) := by
  have hpos := pos_of_goodDims h
  have hn : (0 : ℝ) < (dims.prod : ℕ) := by
    have := Nat.pos_of_ne_zero (n := dims.prod) (by exact_mod_cast prod_ne_zero hpos)
    exact_mod_cast this
  set m : ℝ := (∑ x, (u x).re) / (dims.prod : ℕ) with hm
  set w : Fin dims.prod → ℝ := fun x => (u x).re - m with hw
  have huw : ∀ x, u x = ((w x + m : ℝ) : ℂ) := by
    intro x
    rw [hw]
    apply Complex.ext
    · simp
    · simpa using hu x
  have hw0 : ∑ x, w x = 0 := by
    rw [hw, Finset.sum_sub_distrib, Finset.sum_const, Finset.card_univ, Fintype.card_fin, nsmul_eq_mul, hm]
    field_simp
    ring
  set W : Data dims.prod := fun x => (w x : ℂ) with hW
  have hLap : gridLaplacian (freqOf dims) u = gridLaplacian (freqOf dims) W := by
    have : u = fun x => W x + (m : ℂ) := by
      funext x
      rw [huw x, hW]
      push_cast
      rfl
    rw [this, gridLaplacian_shift h]
  -- the waves
  have hbig : X * ∑ x, w x ^ 2 ≤ -∑ x, (gridLaplacian (freqOf dims) W x * (starRingEnd ℂ) (W x)).re := by
    have h1 := laplacian_form hpos W
    have h2 := squares_parseval hpos W
    have h3 : ∑ x, ‖W x‖ ^ 2 = ∑ x, w x ^ 2 := by
      refine Finset.sum_congr rfl fun x _ => ?_
      rw [hW, Complex.norm_real, Real.norm_eq_abs, sq_abs]
    have h4 : X * ∑ k, ‖fft dims W k‖ ^ 2 ≤ ∑ k, laplaceNumber dims k * ‖fft dims W k‖ ^ 2 := by
      rw [Finset.mul_sum]
      refine Finset.sum_le_sum fun k _ => ?_
      by_cases hk : k.val = 0
      · have : fft dims W k = 0 := by
          rw [fft_zero_bin W k hk, hW, ← Complex.ofReal_sum, hw0, Complex.ofReal_zero]
        rw [this]
        simp
      · exact mul_le_mul_of_nonneg_right (hX k hk) (by positivity)
    rw [h2, h3] at h4
    refine le_of_mul_le_mul_left ?_ hn
    linarith
  -- the force
  have hforce : ∀ x, (1 - (w x + m) ^ 2) * (w x + m + 3 * rho / 4) * w x =
      -gamma * (gridLaplacian (freqOf dims) W x * (starRingEnd ℂ) (W x)).re := by
    intro x
    have h1 := hrest x
    unfold homogeneousForce at h1
    rw [hLap, huw x] at h1
    have h2 : (gamma : ℂ) * gridLaplacian (freqOf dims) W x =
        ((-((1 - (w x + m) ^ 2) * (w x + m + 3 * rho / 4)) : ℝ) : ℂ) := by
      push_cast at h1 ⊢
      linear_combination h1
    have h3 : gamma * (gridLaplacian (freqOf dims) W x).re = -((1 - (w x + m) ^ 2) * (w x + m + 3 * rho / 4)) := by
      have := congrArg Complex.re h2
      rwa [Complex.re_ofReal_mul, Complex.ofReal_re] at this
    have h4 : (gridLaplacian (freqOf dims) W x * (starRingEnd ℂ) (W x)).re = (gridLaplacian (freqOf dims) W x).re * w x := by
      rw [hW, Complex.conj_ofReal, Complex.re_mul_ofReal]
    rw [h4]
    linear_combination w x * h3
  have hsum : gamma * X * ∑ x, w x ^ 2 ≤ (1 + 3 * rho ^ 2 / 16) * ∑ x, w x ^ 2 := by
    have h1 := mul_le_mul_of_nonneg_left hbig hg.le
    have h2 : gamma * -∑ x, (gridLaplacian (freqOf dims) W x * (starRingEnd ℂ) (W x)).re =
        ∑ x, ((1 - (w x + m) ^ 2) * (w x + m + 3 * rho / 4) - (1 - m ^ 2) * (m + 3 * rho / 4)) * w x := by
      have e : ∀ x, ((1 - (w x + m) ^ 2) * (w x + m + 3 * rho / 4) - (1 - m ^ 2) * (m + 3 * rho / 4)) * w x =
          -gamma * (gridLaplacian (freqOf dims) W x * (starRingEnd ℂ) (W x)).re - (1 - m ^ 2) * (m + 3 * rho / 4) * w x := by
        intro x
        rw [← hforce x]
        ring
      rw [Finset.sum_congr rfl fun x _ => e x, Finset.sum_sub_distrib, ← Finset.mul_sum, ← Finset.mul_sum, hw0]
      ring
    rw [h2] at h1
    rw [mul_assoc, Finset.mul_sum (a := 1 + 3 * rho ^ 2 / 16)]
    refine h1.trans (Finset.sum_le_sum fun x _ => ?_)
    generalize w x = a
    have e : ((1 - (a + m) ^ 2) * (a + m + 3 * rho / 4) - (1 - m ^ 2) * (m + 3 * rho / 4)) * a =
        (1 + 3 * rho ^ 2 / 16) * a ^ 2 -
          a ^ 2 * (3 / 4 * (a + 2 * m + rho / 2) ^ 2 + a ^ 2 / 4) := by ring
    rw [e]
    have : 0 ≤ a ^ 2 * (3 / 4 * (a + 2 * m + rho / 2) ^ 2 + a ^ 2 / 4) := by positivity
    linarith
  have hzero : ∑ x, w x ^ 2 = 0 := by
    have h1 : 0 ≤ ∑ x, w x ^ 2 := Finset.sum_nonneg fun x _ => sq_nonneg _
    by_contra hc
    have h2 : 0 < ∑ x, w x ^ 2 := lt_of_le_of_ne h1 (Ne.symm hc)
    have := mul_lt_mul_of_pos_right hlim h2
    linarith
  refine ⟨m, funext fun x => ?_⟩
  have := (Finset.sum_eq_zero_iff_of_nonneg (fun x _ => sq_nonneg (w x))).mp hzero x (Finset.mem_univ x)
  have h0 : w x = 0 := by simpa using this
  rw [huw x, h0, zero_add]

/-- C139: with the constants that are written in the program, a real state of rest on a grid of at most four by four
nodes is one of three uniform states: on such grids there is no droplet to be found, whatever the weight. -/
theorem c139_small_grids {N : ℕ} (hN : 0 < N) (h4 : N ≤ 4) {u : Data [N, N].prod} (hu : IsReal u) :
    (∀ x, homogeneousForce nucleationRho nucleationGamma (gridLaplacian (freqOf [N, N])) u x = 0) ↔
      u = (fun _ => 1) ∨ u = (fun _ => -1) ∨ u = fun _ => -3 / 80 := by
  have h : GoodDims (intDims [N, N]) := ⟨Or.inl rfl, by
    intro d hd
    have : d = (N : ℤ) := by simpa [intDims] using hd
    omega⟩
  have hNr : (0 : ℝ) < N := by exact_mod_cast hN
  have h4r : (N : ℝ) ≤ 4 := by exact_mod_cast h4
  have hforce : ∀ (m : ℂ) x, homogeneousForce nucleationRho nucleationGamma (gridLaplacian (freqOf [N, N]))
      (fun _ => m) x = (1 - m) * (1 + m) * (m + 3 / 80) := by
    intro m x
    unfold homogeneousForce nucleationRho
    rw [gridLaplacian_const h]
    push_cast
    ring
  constructor
  · intro hrest
    have hX : ∀ k : Fin [N, N].prod, k.val ≠ 0 → (9 / 4 : ℝ) ≤ laplaceNumber [N, N] k := by
      intro k hk
      refine le_trans ?_ (laplaceNumber_ge hN k hk)
      rw [le_div_iff₀ (by positivity)]
      have h3 := Real.pi_gt_three
      nlinarith
    obtain ⟨m, rfl⟩ := rest_uniform h (rho := nucleationRho) (gamma := nucleationGamma) (X := 9 / 4)
      (by norm_num [nucleationGamma]) hX (by norm_num [nucleationGamma, nucleationRho]) hu hrest
    have h0 : 0 < [N, N].prod := by
      have : [N, N].prod = N * N := by simp
      rw [this]
      positivity
    have := hrest ⟨0, h0⟩
    rw [hforce] at this
    rcases mul_eq_zero.mp this with h1 | h1
    · rcases mul_eq_zero.mp h1 with h2 | h2
      · left
        rw [← sub_eq_zero.mp h2]
      · right; left
        rw [show (m : ℂ) = -1 by linear_combination h2]
    · right; right
      rw [show (m : ℂ) = -3 / 80 by linear_combination h1]
  · rintro (rfl | rfl | rfl) x
    · rw [hforce]; ring
    · rw [hforce]; ring
    · rw [hforce]; ring

/-- C139: with the constants of the program the squares of a real state of rest sum to at most 11/10 times the number
of nodes, on every grid and for every weight. -/
theorem c139_size {N : ℕ} (hN : 0 < N) {u : Data [N, N].prod} (hu : IsReal u)
    (hrest : ∀ x, homogeneousForce nucleationRho nucleationGamma (gridLaplacian (freqOf [N, N])) u x = 0) :
    ∑ x, (u x).re ^ 2 ≤ 11 / 10 * ([N, N].prod : ℕ) := by
  have hpos : ∀ d ∈ [N, N], 0 < d := by
    intro d hd
    have : d = N := by simpa using hd
    omega
  have hn : (0 : ℝ) < ([N, N].prod : ℕ) := by
    have := Nat.pos_of_ne_zero (n := [N, N].prod) (by exact_mod_cast prod_ne_zero hpos)
    exact_mod_cast this
  have h1 := laplacian_form hpos u
  have h2 : ∑ x, (gridLaplacian (freqOf [N, N]) u x * (starRingEnd ℂ) (u x)).re ≤ 0 := by
    have : 0 ≤ ∑ k, laplaceNumber [N, N] k * ‖fft [N, N] u k‖ ^ 2 :=
      Finset.sum_nonneg fun k _ => mul_nonneg (laplaceNumber_nonneg k) (by positivity)
    by_contra hc
    push Not at hc
    have := mul_pos hn hc
    linarith
  have hforce : ∀ x, (1 - (u x).re ^ 2) * ((u x).re + 3 / 80) * (u x).re =
      -(1 / 2) * (gridLaplacian (freqOf [N, N]) u x * (starRingEnd ℂ) (u x)).re := by
    intro x
    have hx : u x = ((u x).re : ℂ) := by
      apply Complex.ext
      · simp
      · simpa using hu x
    have h3 := congrArg Complex.re (hrest x)
    unfold homogeneousForce nucleationRho nucleationGamma at h3
    rw [Complex.add_re, Complex.re_ofReal_mul] at h3
    have h4 : ((1 - u x ^ 2) * (u x + ((3 * 0.05 / 4 : ℝ) : ℂ))).re = (1 - (u x).re ^ 2) * ((u x).re + 3 / 80) := by
      have : (1 - u x ^ 2) * (u x + ((3 * 0.05 / 4 : ℝ) : ℂ)) = (((1 - (u x).re ^ 2) * ((u x).re + 3 / 80) : ℝ) : ℂ) := by
        conv_lhs => rw [hx]
        push_cast
        ring
      rw [this, Complex.ofReal_re]
    rw [h4, Complex.zero_re] at h3
    have h5 : (gridLaplacian (freqOf [N, N]) u x * (starRingEnd ℂ) (u x)).re =
        (gridLaplacian (freqOf [N, N]) u x).re * (u x).re := by
      conv_lhs => rw [hx, Complex.conj_ofReal, Complex.re_mul_ofReal]
    rw [h5]
    linear_combination (u x).re * h3
  have h3 : 0 ≤ ∑ x, (1 - (u x).re ^ 2) * ((u x).re + 3 / 80) * (u x).re := by
    rw [Finset.sum_congr rfl fun x _ => hforce x, ← Finset.mul_sum]
    linarith
  have h4 : ∀ t : ℝ, t ^ 2 + (1 - t ^ 2) * (t + 3 / 80) * t ≤ 11 / 10 := by
    intro t
    nlinarith [sq_nonneg (t ^ 2 - 1), sq_nonneg (t ^ 2 - 1 + 3 / 80 * t), sq_nonneg t]
  calc ∑ x, (u x).re ^ 2 ≤ ∑ x, ((u x).re ^ 2 + (1 - (u x).re ^ 2) * ((u x).re + 3 / 80) * (u x).re) := by
        rw [Finset.sum_add_distrib]
        linarith
    _ ≤ ∑ _x : Fin [N, N].prod, (11 / 10 : ℝ) := Finset.sum_le_sum fun x _ => h4 _
    _ = 11 / 10 * ([N, N].prod : ℕ) := by
        rw [Finset.sum_const, Finset.card_univ, Fintype.card_fin, nsmul_eq_mul, mul_comm]

/-- There are real states of rest, on every grid. -/
example (N : ℕ) (hN : 0 < N) : IsReal (fun _ : Fin [N, N].prod => (1 : ℂ)) ∧
    ∀ x, homogeneousForce nucleationRho nucleationGamma (gridLaplacian (freqOf [N, N])) (fun _ => 1) x = 0 := by
  refine ⟨fun x => by simp, fun x => ?_⟩
  unfold homogeneousForce
  rw [gridLaplacian_const ⟨Or.inl rfl, by
    intro d hd
    have : d = (N : ℤ) := by simpa [intDims] using hd
    omega⟩]
  simp

end Gopf.Props
