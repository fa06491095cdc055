import Verif.Props.Kpz

/-!
# C145: runs of the Kardar-Parisi-Zhang example
-/

namespace Gopf.Props
open Spec Pf Pfutil
open scoped BigOperators Topology
open Filter

variable {n nf nd : ℕ} {dims : List ℕ}

/-! ### Sequences of surfaces -/

/-- The surfaces `U 0, U 1, ...` follow the steps of the example with the noise `η`. -/
def IsSurface (dims : List ℕ) (dt lamb : ℝ) (η U : ℕ → Data dims.prod) : Prop :=
  ∀ j k, fft dims (U (j + 1)) k * ((1 + dt * laplaceNumber dims k : ℝ) : ℂ) =
    fft dims (fun x => U j x + (dt : ℂ) * ((lamb : ℂ) * squaredSlope dims (U j) x + η j x)) k

theorem noisy_succ (M : Model nf nd dims.prod) (d : Fin nd) (η : ℕ → Data dims.prod) (j : ℕ)
    (p : Stepper dims.prod × Store nf nd dims.prod) :
    noisyPropagate M d η (j + 1) p = eulerStep (M.drawn d (η j)) (noisyPropagate M d η j p) := by
  simp [noisyPropagate, List.range_succ]

theorem noisy_stepper (M : Model nf nd dims.prod) (d : Fin nd) (η : ℕ → Data dims.prod) (j : ℕ)
    (p : Stepper dims.prod × Store nf nd dims.prod) :
    (noisyPropagate M d η j p).1.dt = p.1.dt ∧ (noisyPropagate M d η j p).1.freq = p.1.freq ∧
      (noisyPropagate M d η j p).1.filter = p.1.filter := by
  induction j with
  | zero => exact ⟨rfl, rfl, rfl⟩
  | succ j ih =>
    rw [noisy_succ]
    exact ih

section
variable (hpos : ∀ d ∈ dims, 0 < d) {lamb : ℝ} {c : Str → ℂ} {m0 m : EqModel dims.prod} (h1 : kpzModel dims lamb = some m0)
  (h2 : m0.addEquation kpzEquation = some m) {M : Model m.fields.length m.derived.length dims.prod} (h3 : m.assemble c = some M)
  {d : Fin m.derived.length} (hd : (m.derived[d]).1 = "WHITE_NOISE".toList) {s : Stepper dims.prod} (hfil : s.filter = none)
  (hfreq : s.freq = freqOf dims) (hdt : 0 < s.dt)
include hpos h1 h2 h3 hd hfil hfreq hdt

theorem kpz_surface (η : ℕ → Data dims.prod) (st : Store m.fields.length m.derived.length dims.prod) (i : Fin m.fields.length) :
    IsSurface dims s.dt lamb η fun j => (noisyPropagate M d η j (s, st)).2.fields i := by
  obtain ⟨m0', m', M', a1, a2, -, a4, -, a6⟩ := kpz_model hpos lamb c
  obtain rfl := Option.some.inj (h1.symm.trans a1)
  obtain rfl := Option.some.inj (h2.symm.trans a2)
  obtain rfl := Option.some.inj (h3.symm.trans a4)
  intro j k
  obtain ⟨e1, e2, e3⟩ := noisy_stepper M d η j (s, st)
  have := a6 d hd (noisyPropagate M d η j (s, st)).1 (e3.trans hfil) (e2.trans hfreq) (by rw [e1]; exact hdt) (η j)
    (noisyPropagate M d η j (s, st)).2 i k
  rw [e1] at this
  dsimp only
  rw [noisy_succ]
  exact this

end

section
variable {dt lamb : ℝ} {η U : ℕ → Data dims.prod}

theorem surface_factor (hdt : 0 < dt) (k : Fin dims.prod) : 0 < 1 + dt * laplaceNumber dims k := by
  have := mul_nonneg hdt.le (laplaceNumber_nonneg k)
  linarith

/-- A step in real space. -/
theorem surface_space (hpos : ∀ d ∈ dims, 0 < d) (hU : IsSurface dims dt lamb η U) (j : ℕ) (x : Fin dims.prod) :
    U (j + 1) x - (dt : ℂ) * gridLaplacian (freqOf dims) (U (j + 1)) x =
      U j x + (dt : ℂ) * ((lamb : ℂ) * squaredSlope dims (U j) x + η j x) := by
  have : (fun x => U (j + 1) x - (dt : ℂ) * gridLaplacian (freqOf dims) (U (j + 1)) x) =
      fun x => U j x + (dt : ℂ) * ((lamb : ℂ) * squaredSlope dims (U j) x + η j x) := by
    apply fft_injective hpos
    funext k
    rw [← hU j k]
    have a1 := fft_sub (U (j + 1)) (fun x => (dt : ℂ) * gridLaplacian (freqOf dims) (U (j + 1)) x) k
    have a2 := fft_smul (dt : ℂ) (gridLaplacian (freqOf dims) (U (j + 1))) k
    have a3 : fft dims (gridLaplacian (freqOf dims) (U (j + 1))) k = laplaceSymbol (freqOf dims k) * fft dims (U (j + 1)) k :=
      fft_lap hpos (freqOf dims) (U (j + 1)) k
    rw [a1, a2, a3, symbol_laplaceNumber]
    push_cast
    ring
  exact congrFun this x

/-- The next surface is the only one with this property. -/
theorem surface_unique (hpos : ∀ d ∈ dims, 0 < d) (hdt : 0 < dt) {v w : Data dims.prod}
    (h : ∀ k, fft dims v k * ((1 + dt * laplaceNumber dims k : ℝ) : ℂ) = fft dims w k * ((1 + dt * laplaceNumber dims k : ℝ) : ℂ)) :
    v = w := by
  apply fft_injective hpos
  funext k
  exact mul_right_cancel₀ (by exact_mod_cast (surface_factor hdt k).ne') (h k)

theorem slope_real (h : GoodDims (intDims dims)) (hl : LayoutOk dims) (hs : ∀ d ∈ dims, d ≤ 10 ^ 9) {u : Data dims.prod}
    (hu : IsReal u) (x : Fin dims.prod) : (squaredSlope dims u x).im = 0 ∧ 0 ≤ (squaredSlope dims u x).re := by
  have e : squaredSlope dims u x = ((∑ d ∈ Finset.range dims.length, (gradCalculate dims d false u x).re ^ 2 : ℝ) : ℂ) := by
    unfold squaredSlope
    rw [Complex.ofReal_sum]
    refine Finset.sum_congr rfl fun d _ => ?_
    rw [Complex.ofReal_pow]
    congr 1
    exact Complex.ext rfl (c71_real h hl hs d u hu x)
  rw [e]
  exact ⟨Complex.ofReal_im _, by rw [Complex.ofReal_re]; exact Finset.sum_nonneg fun _ _ => sq_nonneg _⟩

theorem surface_real (h : GoodDims (intDims dims)) (hl : LayoutOk dims) (hs : ∀ d ∈ dims, d ≤ 10 ^ 9) (hdt : 0 < dt)
    (hU : IsSurface dims dt lamb η U) (hη : ∀ j, IsReal (η j)) (h0 : IsReal (U 0)) (j : ℕ) : IsReal (U j) := by
  induction j with
  | zero => exact h0
  | succ j ih =>
    apply real_of_hermitian h hl
    intro b b' hb
    have hr : IsReal fun x => U j x + (dt : ℂ) * ((lamb : ℂ) * squaredSlope dims (U j) x + η j x) := by
      intro x
      have e1 := ih x
      have e2 := (slope_real h hl hs ih x).1
      have e3 := hη j x
      simp [e1, e2, e3]
    have e := hermitian_fft h hl hr b b' hb
    have hf : laplaceNumber dims b' = laplaceNumber dims b := by
      unfold laplaceNumber
      rw [freq_sq_conj h hb]
    rw [← hU j b', ← hU j b, hf, map_mul, Complex.conj_ofReal] at e
    exact mul_right_cancel₀ (by exact_mod_cast (surface_factor hdt b).ne') e

theorem surface_sum (h : GoodDims (intDims dims)) (hU : IsSurface dims dt lamb η U) (j : ℕ) :
    ∑ x, U (j + 1) x = ∑ x, U j x + (dt : ℂ) * ((lamb : ℂ) * ∑ x, squaredSlope dims (U j) x + ∑ x, η j x) := by
  have hp : 0 < dims.prod := Nat.pos_of_ne_zero (by exact_mod_cast prod_ne_zero (pos_of_goodDims h))
  have e := hU j ⟨0, hp⟩
  rw [fft_zero_bin _ _ rfl, fft_zero_bin _ _ rfl, laplace_origin h _ rfl] at e
  simp only [mul_zero, add_zero, Complex.ofReal_one, mul_one] at e
  rw [e, Finset.sum_add_distrib, ← Finset.mul_sum, Finset.sum_add_distrib, Finset.mul_sum]

theorem grad_shift (h : GoodDims (intDims dims)) (hs : ∀ d ∈ dims, d ≤ 10 ^ 9) (d : ℕ) (u : Data dims.prod) (z : ℂ) :
    gradCalculate dims d false (fun x => u x + z) = gradCalculate dims d false u := by
  have hpos := pos_of_goodDims h
  apply fft_injective hpos
  funext k
  rw [fft_grad h hs, fft_grad h hs]
  have e : fft dims (fun x => u x + z) k = fft dims u k + fft dims (fun _ => z) k := fft_add u _ k
  rw [e, fft_const hpos]
  by_cases hk : k.val = 0
  · rw [fcomp_zero (freqOf_zero dims k hk)]
    unfold gradFactor
    norm_num
  · rw [if_neg hk, add_zero]

theorem slope_shift (h : GoodDims (intDims dims)) (hs : ∀ d ∈ dims, d ≤ 10 ^ 9) (u : Data dims.prod) (z : ℂ) :
    squaredSlope dims (fun x => u x + z) = squaredSlope dims u := by
  unfold squaredSlope
  simp only [grad_shift h hs]

theorem surface_shift (h : GoodDims (intDims dims)) (hs : ∀ d ∈ dims, d ≤ 10 ^ 9) (hdt : 0 < dt)
    {V : ℕ → Data dims.prod} (hU : IsSurface dims dt lamb η U) (hV : IsSurface dims dt lamb η V) (z : ℂ)
    (h0 : V 0 = fun x => U 0 x + z) (j : ℕ) : V j = fun x => U j x + z := by
  have hpos := pos_of_goodDims h
  induction j with
  | zero => exact h0
  | succ j ih =>
    refine surface_unique hpos hdt fun k => ?_
    rw [hV j k]
    have e1 : fft dims (fun x => U (j + 1) x + z) k = fft dims (U (j + 1)) k + fft dims (fun _ => z) k := fft_add (U (j + 1)) _ k
    have e2 : fft dims (fun x => V j x + (dt : ℂ) * ((lamb : ℂ) * squaredSlope dims (V j) x + η j x)) k =
        fft dims (fun x => U j x + (dt : ℂ) * ((lamb : ℂ) * squaredSlope dims (U j) x + η j x)) k + fft dims (fun _ => z) k := by
      rw [ih, slope_shift h hs]
      have := fft_add (fun x => U j x + (dt : ℂ) * ((lamb : ℂ) * squaredSlope dims (U j) x + η j x)) (fun _ => z) k
      rw [← this]
      congr 1
      funext x
      ring
    rw [e1, e2, add_mul, hU j k, fft_const hpos]
    by_cases hk : k.val = 0
    · rw [laplace_origin h k hk]
      simp
    · rw [if_neg hk, zero_mul]

/-! ### Small surfaces -/

theorem gradFactor_le (h : GoodDims (intDims dims)) (k : Fin dims.prod) (d : ℕ) :
    ‖gradFactor false (fcomp (freqOf dims k) d)‖ ≤ Real.pi := by
  have hpi := Real.pi_pos
  have hr : |fcomp (freqOf dims k) d| ≤ 1 / 2 := by
    rw [freqOf_coord h, fcomp, List.getD_eq_getElem?_getD, List.getElem?_ofFn]
    by_cases hd : d < dims.length
    · rw [dif_pos hd, Option.getD_some]
      have hc := coord_range h k ⟨d, hd⟩
      obtain ⟨p1, p2⟩ := phi_range hc.1 hc.2
      have q1 : -(1 / 2 : ℝ) < ((phi (coord dims k.val d) (dims[d] : ℤ) : ℚ) : ℝ) := by
        have := (Rat.cast_lt (K := ℝ)).mpr p1
        push_cast at this
        exact this
      have q2 : ((phi (coord dims k.val d) (dims[d] : ℤ) : ℚ) : ℝ) ≤ 1 / 2 := by
        have := (Rat.cast_le (K := ℝ)).mpr p2
        push_cast at this
        exact this
      rw [abs_le]
      exact ⟨q1.le, q2⟩
    · rw [dif_neg hd]
      norm_num
  unfold gradFactor
  split_ifs
  · rw [norm_zero]
    exact hpi.le
  · rw [norm_mul, norm_mul, norm_mul, Complex.norm_I, Complex.norm_real, Complex.norm_real, Real.norm_eq_abs, Real.norm_eq_abs,
      abs_of_pos hpi, Complex.norm_two, mul_one]
    nlinarith

theorem slope_bound (h : GoodDims (intDims dims)) (hs : ∀ d ∈ dims, d ≤ 10 ^ 9) (u : Data dims.prod) {A : ℝ}
    (hu : ∀ k : Fin dims.prod, k.val ≠ 0 → ‖fft dims u k‖ ≤ A) : ∑ x, ‖squaredSlope dims u x‖ ≤ dims.length * Real.pi ^ 2 * A ^ 2 := by
  have hpos := pos_of_goodDims h
  have hp : 0 < dims.prod := Nat.pos_of_ne_zero (by exact_mod_cast prod_ne_zero hpos)
  have hpR : (0 : ℝ) < (dims.prod : ℕ) := by exact_mod_cast hp
  have hcomp : ∀ d, ∑ x, ‖gradCalculate dims d false u x‖ ^ 2 ≤ Real.pi ^ 2 * A ^ 2 := by
    intro d
    have e := squares_parseval hpos (gradCalculate dims d false u)
    have hk : ∀ k, ‖fft dims (gradCalculate dims d false u) k‖ ^ 2 ≤ Real.pi ^ 2 * A ^ 2 := by
      intro k
      rw [fft_grad h hs, norm_mul, mul_pow]
      by_cases hk : k.val = 0
      · have : gradFactor false (fcomp (freqOf dims k) d) = 0 := by
          rw [fcomp_zero (freqOf_zero dims k hk)]
          unfold gradFactor
          norm_num
        rw [this, norm_zero]
        have : 0 ≤ Real.pi ^ 2 * A ^ 2 := by positivity
        simpa using this
      · have := gradFactor_le h k d
        have := hu k hk
        gcongr
    have hsum := Finset.sum_le_sum fun k (_ : k ∈ Finset.univ) => hk k
    rw [Finset.sum_const, Finset.card_univ, Fintype.card_fin, nsmul_eq_mul, e] at hsum
    exact le_of_mul_le_mul_left hsum hpR
  calc ∑ x, ‖squaredSlope dims u x‖ ≤ ∑ x, ∑ d ∈ Finset.range dims.length, ‖gradCalculate dims d false u x‖ ^ 2 := by
        refine Finset.sum_le_sum fun x _ => ?_
        unfold squaredSlope
        refine (norm_sum_le _ _).trans (le_of_eq ?_)
        simp only [norm_pow]
    _ = ∑ d ∈ Finset.range dims.length, ∑ x, ‖gradCalculate dims d false u x‖ ^ 2 := Finset.sum_comm
    _ ≤ ∑ _d ∈ Finset.range dims.length, Real.pi ^ 2 * A ^ 2 := Finset.sum_le_sum fun d _ => hcomp d
    _ = _ := by rw [Finset.sum_const, Finset.card_range, nsmul_eq_mul]; ring

theorem fft_norm_sum (u : Data dims.prod) (k : Fin dims.prod) : ‖fft dims u k‖ ≤ ∑ x, ‖u x‖ := by
  unfold fft
  refine (norm_sum_le _ _).trans (Finset.sum_le_sum fun x _ => ?_)
  rw [norm_mul, cis_norm, mul_one]

/-- The waves of a surface that is flat enough shrink in every step. -/
theorem surface_small (h : GoodDims (intDims dims)) (hs : ∀ d ∈ dims, d ≤ 10 ^ 9) (hdt : 0 < dt)
    (hU : IsSurface dims dt lamb (fun _ _ => 0) U) {L : ℕ} (hL : ∀ d ∈ dims, d ≤ L) (hL0 : 0 < L) {A : ℝ} (hA : 0 ≤ A)
    (hsmall : |lamb| * dims.length * L ^ 2 * A ≤ 2) (h0 : ∀ k : Fin dims.prod, k.val ≠ 0 → ‖fft dims (U 0) k‖ ≤ A) (j : ℕ) :
    ∀ k : Fin dims.prod, k.val ≠ 0 → ‖fft dims (U j) k‖ ≤
      ((1 + dt * (2 * Real.pi ^ 2 / (L : ℝ) ^ 2)) / (1 + dt * (4 * Real.pi ^ 2 / (L : ℝ) ^ 2))) ^ j * A := by
  have hpi := Real.pi_pos
  have hLR : (0 : ℝ) < L := by exact_mod_cast hL0
  set X : ℝ := 4 * Real.pi ^ 2 / (L : ℝ) ^ 2 with hX
  have hX0 : 0 < X := by positivity
  have hX2 : 2 * Real.pi ^ 2 / (L : ℝ) ^ 2 = X / 2 := by rw [hX]; ring
  rw [hX2]
  set ρ : ℝ := (1 + dt * (X / 2)) / (1 + dt * X) with hρ
  have hdX : 0 < dt * X := mul_pos hdt hX0
  have hρ0 : 0 ≤ ρ := by rw [hρ]; positivity
  have hρ1 : ρ ≤ 1 := by
    rw [hρ, div_le_one (by positivity)]
    nlinarith
  induction j with
  | zero => simpa using h0
  | succ j ih =>
    intro k hk
    have hAj : 0 ≤ ρ ^ j * A := mul_nonneg (pow_nonneg hρ0 j) hA
    have hAle : ρ ^ j * A ≤ A := by
      have := pow_le_one₀ (n := j) hρ0 hρ1
      nlinarith
    have hx : X ≤ laplaceNumber dims k := laplace_slowest h hL k hk
    have hfac : 1 + dt * X ≤ 1 + dt * laplaceNumber dims k := by
      have := mul_le_mul_of_nonneg_left hx hdt.le
      linarith
    have hslope : ‖fft dims (squaredSlope dims (U j)) k‖ ≤ dims.length * Real.pi ^ 2 * (ρ ^ j * A) ^ 2 :=
      (fft_norm_sum _ k).trans (slope_bound h hs (U j) ih)
    have hlam : |lamb| * (dims.length * Real.pi ^ 2 * (ρ ^ j * A) ^ 2) ≤ X / 2 * (ρ ^ j * A) := by
      have e1 : |lamb| * dims.length * A * Real.pi ^ 2 ≤ X / 2 := by
        rw [hX, ← hX2, le_div_iff₀ (by positivity)]
        have := mul_le_mul_of_nonneg_right hsmall (sq_nonneg Real.pi)
        linarith
      calc |lamb| * (dims.length * Real.pi ^ 2 * (ρ ^ j * A) ^ 2) =
            (|lamb| * dims.length * (ρ ^ j * A) * Real.pi ^ 2) * (ρ ^ j * A) := by ring
        _ ≤ (|lamb| * dims.length * A * Real.pi ^ 2) * (ρ ^ j * A) := by gcongr
        _ ≤ _ := by gcongr
    have e := hU j k
    have e1 : fft dims (fun x => U j x + (dt : ℂ) * ((lamb : ℂ) * squaredSlope dims (U j) x + 0)) k =
        fft dims (U j) k + dt * (lamb * fft dims (squaredSlope dims (U j)) k) := by
      have a1 := fft_add (U j) (fun x => (dt : ℂ) * ((lamb : ℂ) * squaredSlope dims (U j) x + 0)) k
      have a2 := fft_smul (dt : ℂ) (fun x => (lamb : ℂ) * squaredSlope dims (U j) x + 0) k
      have a3 := fft_smul (lamb : ℂ) (squaredSlope dims (U j)) k
      rw [a1, a2, ← a3]
      simp only [add_zero]
    rw [e1] at e
    have hn := congrArg norm e
    rw [norm_mul, Complex.norm_real, Real.norm_eq_abs, abs_of_pos (surface_factor hdt k)] at hn
    have hrhs : ‖fft dims (U j) k + dt * (lamb * fft dims (squaredSlope dims (U j)) k)‖ ≤ (1 + dt * (X / 2)) * (ρ ^ j * A) := by
      refine (norm_add_le _ _).trans ?_
      rw [norm_mul, norm_mul, Complex.norm_real, Complex.norm_real, Real.norm_eq_abs, Real.norm_eq_abs, abs_of_pos hdt]
      have b1 := mul_le_mul_of_nonneg_left hslope (abs_nonneg lamb)
      have b2 := mul_le_mul_of_nonneg_left (b1.trans hlam) hdt.le
      have b3 := ih k hk
      linarith
    have hfin : ‖fft dims (U (j + 1)) k‖ * (1 + dt * X) ≤ (1 + dt * (X / 2)) * (ρ ^ j * A) :=
      (mul_le_mul_of_nonneg_left hfac (norm_nonneg _)).trans (hn.le.trans hrhs)
    have e2 : ρ ^ (j + 1) * A = (1 + dt * (X / 2)) * (ρ ^ j * A) / (1 + dt * X) := by
      rw [pow_succ, hρ]
      ring
    rw [e2, le_div_iff₀ (by positivity)]
    exact hfin


theorem surface_mean (h : GoodDims (intDims dims)) (hU : IsSurface dims dt lamb η U) (n : ℕ) :
    fieldMean (U n) = fieldMean (U 0) +
      (dt : ℂ) * ∑ j ∈ Finset.range n, ((lamb : ℂ) * fieldMean (squaredSlope dims (U j)) + fieldMean (η j)) := by
  induction n with
  | zero => simp
  | succ n ih =>
    rw [Finset.sum_range_succ, mul_add, ← add_assoc, ← ih]
    have e := surface_sum h hU n
    unfold fieldMean
    rw [e]
    generalize ∑ x, U n x = a
    generalize ∑ x, squaredSlope dims (U n) x = b
    generalize ∑ x, η n x = b'
    ring

theorem deviation_le (h : GoodDims (intDims dims)) (u : Data dims.prod) {A : ℝ} (hA : 0 ≤ A)
    (hu : ∀ k : Fin dims.prod, k.val ≠ 0 → ‖fft dims u k‖ ≤ A) (x : Fin dims.prod) : ‖u x - fieldMean u‖ ≤ A := by
  have hpos := pos_of_goodDims h
  have hp : 0 < dims.prod := Nat.pos_of_ne_zero (by exact_mod_cast prod_ne_zero hpos)
  have hpR : (0 : ℝ) < (dims.prod : ℕ) := by exact_mod_cast hp
  have e := squares_parseval hpos (fun x => u x - fieldMean u)
  have hk : ∀ k, ‖fft dims (fun x => u x - fieldMean u) k‖ ^ 2 ≤ A ^ 2 := by
    intro k
    rw [fft_deviation hpos]
    by_cases hk : k.val = 0
    · rw [if_pos hk, norm_zero]
      have := sq_nonneg A
      simpa using this
    · rw [if_neg hk]
      have := hu k hk
      gcongr
  have hsum := Finset.sum_le_sum fun k (_ : k ∈ Finset.univ) => hk k
  rw [Finset.sum_const, Finset.card_univ, Fintype.card_fin, nsmul_eq_mul, e] at hsum
  have hone := Finset.single_le_sum (f := fun x => ‖u x - fieldMean u‖ ^ 2) (fun _ _ => sq_nonneg _) (Finset.mem_univ x)
  have := hone.trans (le_of_mul_le_mul_left hsum hpR)
  exact (pow_le_pow_iff_left₀ (norm_nonneg _) hA (by norm_num)).mp this

theorem surface_converges (h : GoodDims (intDims dims)) (hs : ∀ d ∈ dims, d ≤ 10 ^ 9) (hdt : 0 < dt)
    (hU : IsSurface dims dt lamb (fun _ _ => 0) U) {L : ℕ} (hL : ∀ d ∈ dims, d ≤ L)
    (hsmall : |lamb| * dims.length * L ^ 2 * ∑ x, ‖U 0 x - fieldMean (U 0)‖ ≤ 2) :
    ∃ H, Tendsto (fun n => fieldMean (U n)) atTop (𝓝 H) ∧ ∀ x, Tendsto (fun n => U n x) atTop (𝓝 H) := by
  have hpos := pos_of_goodDims h
  have hp : 0 < dims.prod := Nat.pos_of_ne_zero (by exact_mod_cast prod_ne_zero hpos)
  have hpR : (1 : ℝ) ≤ (dims.prod : ℕ) := by exact_mod_cast hp
  have hL0 : 0 < L := lt_of_lt_of_le (hpos _ (List.getElem_mem (by
    rcases h.1 with h' | h' <;> simp [intDims] at h' <;> omega : 0 < dims.length))) (hL _ (List.getElem_mem _))
  have hLR : (0 : ℝ) < L := by exact_mod_cast hL0
  have hpi := Real.pi_pos
  set A := ∑ x, ‖U 0 x - fieldMean (U 0)‖ with hAdef
  have hA : 0 ≤ A := Finset.sum_nonneg fun _ _ => norm_nonneg _
  have h0 : ∀ k : Fin dims.prod, k.val ≠ 0 → ‖fft dims (U 0) k‖ ≤ A := by
    intro k hk
    have e := fft_deviation hpos (U 0) k
    rw [if_neg hk] at e
    rw [← e]
    exact fft_norm_sum _ k
  have hb := surface_small h hs hdt hU hL hL0 hA hsmall h0
  set ρ : ℝ := (1 + dt * (2 * Real.pi ^ 2 / (L : ℝ) ^ 2)) / (1 + dt * (4 * Real.pi ^ 2 / (L : ℝ) ^ 2)) with hρ
  have hgain : 0 < dt * (2 * Real.pi ^ 2 / (L : ℝ) ^ 2) := mul_pos hdt (by positivity)
  have hgain2 : dt * (4 * Real.pi ^ 2 / (L : ℝ) ^ 2) = 2 * (dt * (2 * Real.pi ^ 2 / (L : ℝ) ^ 2)) := by ring
  have hρ0 : 0 ≤ ρ := by rw [hρ]; positivity
  have hρ1 : ρ < 1 := by
    rw [hρ, div_lt_one (by rw [hgain2]; linarith)]
    linarith
  have hstep : ∀ j, dist (fieldMean (U j)) (fieldMean (U (j + 1))) ≤ dt * (|lamb| * (dims.length * Real.pi ^ 2 * A ^ 2)) * ρ ^ j := by
    intro j
    have e := surface_sum h hU j
    have e2 : fieldMean (U (j + 1)) - fieldMean (U j) = (dt : ℂ) * ((lamb : ℂ) * ∑ x, squaredSlope dims (U j) x) / (dims.prod : ℕ) := by
      unfold fieldMean
      rw [e]
      simp only [Finset.sum_const_zero, add_zero]
      generalize ∑ x, U j x = a
      generalize ∑ x, squaredSlope dims (U j) x = b
      ring
    rw [dist_comm, dist_eq_norm, e2, norm_div, norm_mul, norm_mul, Complex.norm_real, Complex.norm_real, Real.norm_eq_abs,
      Real.norm_eq_abs, abs_of_pos hdt, Complex.norm_natCast]
    have b1 : ‖∑ x, squaredSlope dims (U j) x‖ ≤ dims.length * Real.pi ^ 2 * (ρ ^ j * A) ^ 2 :=
      (norm_sum_le _ _).trans (slope_bound h hs (U j) (hb j))
    have hpj := pow_nonneg hρ0 j
    have hpj1 := pow_le_one₀ (n := j) hρ0 hρ1.le
    have b2 : (ρ ^ j * A) ^ 2 ≤ A ^ 2 * ρ ^ j := by
      have : (ρ ^ j) ^ 2 ≤ ρ ^ j := by nlinarith
      rw [mul_pow, mul_comm]
      gcongr
    calc dt * (|lamb| * ‖∑ x, squaredSlope dims (U j) x‖) / (dims.prod : ℕ) ≤ dt * (|lamb| * ‖∑ x, squaredSlope dims (U j) x‖) :=
          div_le_self (by positivity) hpR
      _ ≤ dt * (|lamb| * (dims.length * Real.pi ^ 2 * (A ^ 2 * ρ ^ j))) := by
          have := b1.trans (mul_le_mul_of_nonneg_left b2 (by positivity))
          gcongr
      _ = _ := by ring
  have hc := cauchySeq_of_le_geometric ρ _ hρ1 hstep
  obtain ⟨H, hH⟩ := cauchySeq_tendsto_of_complete hc
  refine ⟨H, hH, fun x => ?_⟩
  have hdev : Tendsto (fun n => U n x - fieldMean (U n)) atTop (𝓝 0) := by
    have hz : Tendsto (fun n : ℕ => ρ ^ n * A) atTop (𝓝 0) := by
      have := (tendsto_pow_atTop_nhds_zero_of_lt_one hρ0 hρ1).mul_const A
      simpa using this
    exact squeeze_zero_norm (fun n => deviation_le h (U n) (mul_nonneg (pow_nonneg hρ0 n) hA) (hb n) x) hz
  have := hdev.add hH
  simpa using this

theorem slope_zero_iff (h : GoodDims (intDims dims)) (hl : LayoutOk dims) (hs : ∀ d ∈ dims, d ≤ 10 ^ 9) {u : Data dims.prod}
    (hu : IsReal u) : ∑ x, squaredSlope dims u x = 0 ↔ ∀ k, fft dims u k ≠ 0 → ∀ d < dims.length,
        fcomp (freqOf dims k) d = 0 ∨ fcomp (freqOf dims k) d = 1 / 2 := by
  have hpos := pos_of_goodDims h
  have hv := c102_value (dims := dims) 1 0 u
  rw [← c102_zero_iff h hl hs (one_ne_zero) 0 hu, hv]
  have e : (fun x => ((1 : ℝ) : ℂ) * ∑ d ∈ Finset.range dims.length, gradCalculate dims d false u x ^ 2) = squaredSlope dims u := by
    funext x
    rw [Complex.ofReal_one, one_mul]
    rfl
  rw [e]
  constructor
  · intro hz
    have hre : ∑ x, (squaredSlope dims u x).re = 0 := by
      have := congrArg Complex.re hz
      rwa [Complex.re_sum] at this
    have hall := (Finset.sum_eq_zero_iff_of_nonneg fun x _ => (slope_real h hl hs hu x).2).mp hre
    have : squaredSlope dims u = fun _ => 0 := by
      funext x
      exact Complex.ext (hall x (Finset.mem_univ x)) (slope_real h hl hs hu x).1
    rw [this]
    funext k
    rw [fft_const hpos]
    simp
  · intro hz
    have hp : 0 < dims.prod := Nat.pos_of_ne_zero (by exact_mod_cast prod_ne_zero hpos)
    have := congrFun hz ⟨0, hp⟩
    rwa [fft_zero_bin _ _ rfl] at this

end

/-! ### The example -/

/-- C145: the example assembles; its model has the single field `height`. -/
theorem c145_assembles (h : ∀ d ∈ dims, 0 < d) (lamb : ℝ) (c : Str → ℂ) :
    ∃ m0 m M, kpzModel dims lamb = some m0 ∧ m0.addEquation kpzEquation = some m ∧ m.fields = ["height".toList] ∧
      m.assemble c = some M ∧ ∃ d : Fin m.derived.length, (m.derived[d]).1 = "WHITE_NOISE".toList := by
  obtain ⟨m0, m, M, a1, a2, a3, a4, a5, -⟩ := kpz_model h lamb c
  exact ⟨m0, m, M, a1, a2, a3, a4, a5⟩

section
variable (h : GoodDims (intDims dims)) (hs : ∀ d ∈ dims, d ≤ 10 ^ 9) {lamb : ℝ} {c : Str → ℂ} {m0 m : EqModel dims.prod}
  (h1 : kpzModel dims lamb = some m0) (h2 : m0.addEquation kpzEquation = some m)
  {M : Model m.fields.length m.derived.length dims.prod} (h3 : m.assemble c = some M)
  {d : Fin m.derived.length} (hd : (m.derived[d]).1 = "WHITE_NOISE".toList) {s : Stepper dims.prod} (hfil : s.filter = none)
  (hfreq : s.freq = freqOf dims) (hdt : 0 < s.dt)
  (st : Store m.fields.length m.derived.length dims.prod) (i : Fin m.fields.length)

section
include h h1 h2 h3 hd hfil hfreq hdt

/-- C145: in a step the curvature of the new surface, the squared slope of the old one and the noise are added to the
height. No other surface has this property. -/
theorem c145_step (η : Data dims.prod) (v : Data dims.prod) :
    (∀ x, v x - (s.dt : ℂ) * gridLaplacian (freqOf dims) v x =
        st.fields i x + (s.dt : ℂ) * ((lamb : ℂ) * squaredSlope dims (st.fields i) x + η x)) ↔
      v = (eulerStep (M.drawn d η) (s, st)).2.fields i := by
  have hpos := pos_of_goodDims h
  have hU := kpz_surface hpos h1 h2 h3 hd hfil hfreq hdt (fun _ => η) st i
  have hsp := surface_space hpos hU 0
  have e1 : (noisyPropagate M d (fun _ => η) (0 + 1) (s, st)) = eulerStep (M.drawn d η) (s, st) := noisy_succ M d _ 0 _
  have e0 : (noisyPropagate M d (fun _ => η) 0 (s, st)) = (s, st) := rfl
  rw [e1, e0] at hsp
  dsimp only at hsp
  constructor
  · intro hv
    refine surface_unique hpos hdt fun k => ?_
    have key : ∀ w : Data dims.prod, fft dims w k * ((1 + s.dt * laplaceNumber dims k : ℝ) : ℂ) =
        fft dims (fun x => w x - (s.dt : ℂ) * gridLaplacian (freqOf dims) w x) k := by
      intro w
      have a1 := fft_sub w (fun x => (s.dt : ℂ) * gridLaplacian (freqOf dims) w x) k
      have a2 := fft_smul (s.dt : ℂ) (gridLaplacian (freqOf dims) w) k
      have a3 : fft dims (gridLaplacian (freqOf dims) w) k = laplaceSymbol (freqOf dims k) * fft dims w k :=
        fft_lap hpos (freqOf dims) w k
      rw [a1, a2, a3, symbol_laplaceNumber]
      push_cast
      ring
    rw [key, key]
    congr 1
    funext x
    rw [hv x, hsp x]
  · rintro rfl
    exact hsp

/-- C145: the mean height after any number of steps: it rises with the squared slopes met on the way and with the
noise. -/
theorem c145_mean (η : ℕ → Data dims.prod) (steps : ℕ) :
    fieldMean ((noisyPropagate M d η steps (s, st)).2.fields i) = fieldMean (st.fields i) +
      (s.dt : ℂ) * ∑ j ∈ Finset.range steps,
        ((lamb : ℂ) * fieldMean (squaredSlope dims ((noisyPropagate M d η j (s, st)).2.fields i)) + fieldMean (η j)) :=
  surface_mean h (kpz_surface (pos_of_goodDims h) h1 h2 h3 hd hfil hfreq hdt η st i) steps

end

section
include h hs h1 h2 h3 hd hfil hfreq hdt

/-- C145: a start with real heights stays real when the noise is real. -/
theorem c145_real (hl : LayoutOk dims) (hst : IsReal (st.fields i)) {η : ℕ → Data dims.prod} (hη : ∀ j, IsReal (η j)) (steps : ℕ) :
    IsReal ((noisyPropagate M d η steps (s, st)).2.fields i) :=
  surface_real h hl hs hdt (kpz_surface (pos_of_goodDims h) h1 h2 h3 hd hfil hfreq hdt η st i) hη hst steps

/-- C145: only differences of height matter: lifting the start by any amount lifts the whole run by this amount. -/
theorem c145_shift (η : ℕ → Data dims.prod) (st' : Store m.fields.length m.derived.length dims.prod) (z : ℂ)
    (hst : st'.fields i = fun x => st.fields i x + z) (steps : ℕ) (x : Fin dims.prod) :
    (noisyPropagate M d η steps (s, st')).2.fields i x = (noisyPropagate M d η steps (s, st)).2.fields i x + z := by
  have hpos := pos_of_goodDims h
  exact congrFun (surface_shift h hs hdt (kpz_surface hpos h1 h2 h3 hd hfil hfreq hdt η st i)
    (kpz_surface hpos h1 h2 h3 hd hfil hfreq hdt η st' i) z hst steps) x

/-- C145: without noise and with a positive factor the mean height never falls, and it stays only while the surface
consists of waves whose frequencies along the axes are all 0 or the largest one. -/
theorem c145_growth (hl : LayoutOk dims) (hlamb : 0 < lamb) (hst : IsReal (st.fields i)) (steps : ℕ) :
    (fieldMean ((noisyPropagate M d (fun _ _ => 0) steps (s, st)).2.fields i)).re ≤
        (fieldMean ((noisyPropagate M d (fun _ _ => 0) (steps + 1) (s, st)).2.fields i)).re ∧
      ((fieldMean ((noisyPropagate M d (fun _ _ => 0) steps (s, st)).2.fields i)).re =
          (fieldMean ((noisyPropagate M d (fun _ _ => 0) (steps + 1) (s, st)).2.fields i)).re ↔
        ∀ k, fft dims ((noisyPropagate M d (fun _ _ => 0) steps (s, st)).2.fields i) k ≠ 0 → ∀ a < dims.length,
          fcomp (freqOf dims k) a = 0 ∨ fcomp (freqOf dims k) a = 1 / 2) := by
  have hpos := pos_of_goodDims h
  have hp : 0 < dims.prod := Nat.pos_of_ne_zero (by exact_mod_cast prod_ne_zero hpos)
  have hpR : (0 : ℝ) < (dims.prod : ℕ) := by exact_mod_cast hp
  have hU := kpz_surface hpos h1 h2 h3 hd hfil hfreq hdt (fun _ _ => 0) st i
  have hr := c145_real h hs h1 h2 h3 hd hfil hfreq hdt st i hl hst (η := fun _ _ => 0) (fun _ _ => rfl) steps
  rw [← slope_zero_iff h hl hs hr]
  have e := surface_sum h hU steps
  set u := (noisyPropagate M d (fun _ _ => 0) steps (s, st)).2.fields i with hu
  set v := (noisyPropagate M d (fun _ _ => 0) (steps + 1) (s, st)).2.fields i with hv
  have hS : ∃ σ : ℝ, 0 ≤ σ ∧ ∑ x, squaredSlope dims u x = (σ : ℂ) := by
    refine ⟨∑ x, (squaredSlope dims u x).re, Finset.sum_nonneg fun x _ => (slope_real h hl hs hr x).2, ?_⟩
    rw [Complex.ofReal_sum]
    exact Finset.sum_congr rfl fun x _ => Complex.ext rfl (slope_real h hl hs hr x).1
  obtain ⟨σ, hσ0, hσ⟩ := hS
  rw [hσ, Finset.sum_const_zero, add_zero] at e
  have e2 : (fieldMean v).re = (fieldMean u).re + s.dt * lamb * σ / (dims.prod : ℕ) := by
    unfold fieldMean
    have e3 : (∑ x, v x) / ((dims.prod : ℕ) : ℂ) = (∑ x, u x) / ((dims.prod : ℕ) : ℂ) + ((s.dt * lamb * σ / (dims.prod : ℕ) : ℝ) : ℂ) := by
      rw [e, Complex.ofReal_div, Complex.ofReal_mul, Complex.ofReal_mul, Complex.ofReal_natCast]
      ring
    rw [e3, Complex.add_re, Complex.ofReal_re]
  have hg : 0 < s.dt * lamb := mul_pos hdt hlamb
  rw [e2, hσ]
  constructor
  · have : 0 ≤ s.dt * lamb * σ / (dims.prod : ℕ) := by positivity
    linarith
  · rw [Complex.ofReal_eq_zero]
    constructor
    · intro hz
      have hz2 : s.dt * lamb * σ / (dims.prod : ℕ) = 0 := by linarith
      rcases div_eq_zero_iff.mp hz2 with h4 | h4
      · exact (mul_eq_zero.mp h4).resolve_left hg.ne'
      · exact absurd h4 hpR.ne'
    · rintro rfl
      simp

/-- C145: without noise a surface that is flat enough ends flat; when it is real and the factor is not negative, it ends
at least as high as it was on average. -/
theorem c145_small {L : ℕ} (hL : ∀ a ∈ dims, a ≤ L)
    (hsmall : |lamb| * dims.length * L ^ 2 * ∑ x, ‖st.fields i x - fieldMean (st.fields i)‖ ≤ 2) :
    ∃ H, (∀ x, Tendsto (fun steps => (noisyPropagate M d (fun _ _ => 0) steps (s, st)).2.fields i x) atTop (𝓝 H)) ∧
      (LayoutOk dims → 0 < lamb → IsReal (st.fields i) → H.im = 0 ∧ (fieldMean (st.fields i)).re ≤ H.re) := by
  have hpos := pos_of_goodDims h
  have hp : 0 < dims.prod := Nat.pos_of_ne_zero (by exact_mod_cast prod_ne_zero hpos)
  have hU := kpz_surface hpos h1 h2 h3 hd hfil hfreq hdt (fun _ _ => 0) st i
  obtain ⟨H, hH, hx⟩ := surface_converges h hs hdt hU hL hsmall
  refine ⟨H, hx, fun hl hlamb hst => ⟨?_, ?_⟩⟩
  · have := (Complex.continuous_im.tendsto H).comp (hx ⟨0, hp⟩)
    refine tendsto_nhds_unique this ?_
    have e : (Complex.im ∘ fun steps => (noisyPropagate M d (fun _ _ => 0) steps (s, st)).2.fields i ⟨0, hp⟩) = fun _ => 0 := by
      funext steps
      exact c145_real h hs h1 h2 h3 hd hfil hfreq hdt st i hl hst (η := fun _ _ => 0) (fun _ _ => rfl) steps _
    rw [e]
    exact tendsto_const_nhds
  · have := (Complex.continuous_re.tendsto H).comp hH
    have hmono : Monotone (Complex.re ∘ fun steps => fieldMean ((noisyPropagate M d (fun _ _ => 0) steps (s, st)).2.fields i)) :=
      monotone_nat_of_le_succ fun steps => (c145_growth h hs h1 h2 h3 hd hfil hfreq hdt st i hl hlamb hst steps).1
    exact hmono.ge_of_tendsto this 0

end

open MeasureTheory ProbabilityTheory in
include h h1 h2 h3 hd hfil hfreq hdt in
/-- C145: what the noise adds to the mean height is zero on average, and after the time `steps * dt` its mean square is
the strength times `2 dt` times this time, divided by the number of nodes. -/
theorem c145_noise {Ω : Type} [MeasurableSpace Ω] {P : Measure Ω} [IsProbabilityMeasure P] {S : ℝ} (hS : 0 ≤ S)
    {ξ : ℕ × Fin dims.prod → Ω → ℝ} (hξ : NormalDraws P ξ) (steps : ℕ) :
    ∫ ω, (fieldMean ((noisyPropagate M d (noiseOf S ξ ω) steps (s, st)).2.fields i) - fieldMean (st.fields i) -
        (s.dt : ℂ) * ∑ j ∈ Finset.range steps,
          (lamb : ℂ) * fieldMean (squaredSlope dims ((noisyPropagate M d (noiseOf S ξ ω) j (s, st)).2.fields i))) ∂P = 0 ∧
    ∫ ω, ‖fieldMean ((noisyPropagate M d (noiseOf S ξ ω) steps (s, st)).2.fields i) - fieldMean (st.fields i) -
        (s.dt : ℂ) * ∑ j ∈ Finset.range steps,
          (lamb : ℂ) * fieldMean (squaredSlope dims ((noisyPropagate M d (noiseOf S ξ ω) j (s, st)).2.fields i))‖ ^ 2 ∂P =
      2 * S * s.dt * (steps * s.dt) / (dims.prod : ℕ) := by
  have hpos := pos_of_goodDims h
  have hp : 0 < dims.prod := Nat.pos_of_ne_zero (by exact_mod_cast prod_ne_zero hpos)
  have hpR : (0 : ℝ) < (dims.prod : ℕ) := by exact_mod_cast hp
  have hpC : ((dims.prod : ℕ) : ℂ) ≠ 0 := by exact_mod_cast hp.ne'
  have e : ∀ ω, fieldMean ((noisyPropagate M d (noiseOf S ξ ω) steps (s, st)).2.fields i) - fieldMean (st.fields i) -
        (s.dt : ℂ) * ∑ j ∈ Finset.range steps,
          (lamb : ℂ) * fieldMean (squaredSlope dims ((noisyPropagate M d (noiseOf S ξ ω) j (s, st)).2.fields i)) =
      ∑ a ∈ Finset.range steps ×ˢ (Finset.univ : Finset (Fin dims.prod)),
        ((s.dt * Real.sqrt (2 * S) / (dims.prod : ℕ) : ℝ) : ℂ) * (ξ a ω : ℂ) := by
    intro ω
    rw [c145_mean h h1 h2 h3 hd hfil hfreq hdt st i (noiseOf S ξ ω) steps, Finset.sum_add_distrib, Finset.sum_product]
    have e1 : ∀ j, (s.dt : ℂ) * fieldMean (noiseOf S ξ ω j) =
        ∑ x, ((s.dt * Real.sqrt (2 * S) / (dims.prod : ℕ) : ℝ) : ℂ) * (ξ (j, x) ω : ℂ) := by
      intro j
      unfold fieldMean noiseOf whiteNoise
      rw [Finset.sum_div, Finset.mul_sum]
      refine Finset.sum_congr rfl fun x _ => ?_
      rw [Complex.ofReal_div, Complex.ofReal_mul, Complex.ofReal_mul, Complex.ofReal_natCast]
      ring
    rw [← Finset.sum_congr rfl fun j _ => e1 j]
    simp only [Finset.mul_sum, mul_add]
    ring
  obtain ⟨d1, d2⟩ := draws_combination hξ (Finset.range steps ×ˢ (Finset.univ : Finset (Fin dims.prod)))
    fun _ => ((s.dt * Real.sqrt (2 * S) / (dims.prod : ℕ) : ℝ) : ℂ)
  simp only [e]
  refine ⟨d1, d2.trans ?_⟩
  rw [Finset.sum_const, Finset.card_product, Finset.card_range, Finset.card_univ, Fintype.card_fin, nsmul_eq_mul,
    Complex.norm_real, Real.norm_eq_abs, sq_abs, div_pow, mul_pow, Real.sq_sqrt (by linarith)]
  rw [Nat.cast_mul]
  field_simp

open MeasureTheory ProbabilityTheory in
include h h1 h2 h3 hd hfil hfreq hdt in
/-- C145: with the strength the example chooses, the mean square of what the noise adds to the mean height until a time
is proportional to the root of the time step: with smaller time steps there is less and less noise. -/
theorem c145_strength {Ω : Type} [MeasurableSpace Ω] {P : Measure Ω} [IsProbabilityMeasure P]
    {ξ : ℕ × Fin dims.prod → Ω → ℝ} (hξ : NormalDraws P ξ) (steps : ℕ) :
    ∫ ω, ‖fieldMean ((noisyPropagate M d (noiseOf (kpzStrength s.dt) ξ ω) steps (s, st)).2.fields i) - fieldMean (st.fields i) -
        (s.dt : ℂ) * ∑ j ∈ Finset.range steps,
          (lamb : ℂ) * fieldMean (squaredSlope dims ((noisyPropagate M d (noiseOf (kpzStrength s.dt) ξ ω) j (s, st)).2.fields i))‖ ^ 2 ∂P =
      Real.sqrt s.dt * (steps * s.dt) / (50 * (dims.prod : ℕ)) := by
  have hr : 0 < Real.sqrt s.dt := Real.sqrt_pos.mpr hdt
  have hS : 0 ≤ kpzStrength s.dt := by
    unfold kpzStrength
    positivity
  rw [(c145_noise h h1 h2 h3 hd hfil hfreq hdt st i hS hξ steps).2]
  have e : kpzStrength s.dt * s.dt = Real.sqrt s.dt / 100 := by
    unfold kpzStrength
    have := Real.mul_self_sqrt hdt.le
    rw [div_mul_eq_mul_div, div_eq_iff hr.ne']
    linarith
  have e2 : 2 * kpzStrength s.dt * s.dt * (steps * s.dt) / (dims.prod : ℕ) =
      2 * (kpzStrength s.dt * s.dt) * (steps * s.dt) / (dims.prod : ℕ) := by ring
  rw [e2, e, ← div_div]
  ring

end

end Gopf.Props
