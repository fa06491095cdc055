import Verif.Model.Terms
import Verif.Proofs.Hermitian
import Verif.Props.Prefix
import Verif.Props.Euler
import Mathlib.Analysis.Calculus.Deriv.Pow
import Mathlib.Analysis.Calculus.Deriv.Mul
import Mathlib.Analysis.Calculus.Deriv.Add
import Mathlib.Analysis.Calculus.Deriv.Abs
import Mathlib.Tactic.Linarith
import Mathlib.Tactic.Ring
import Mathlib.Tactic.FieldSimp
import Mathlib.Tactic.NormNum
import Mathlib.LinearAlgebra.Matrix.Notation

/-!
# C45–C50: predefined terms
-/

namespace Gopf.Props
open Spec Pfutil Pf
open scoped BigOperators

/-! ## C45 -/

/-- C45: the transformed value lies strictly between the bounds. -/
theorem c45_range (b : BoundTransform) (h : b.min < b.max) (x : ℝ) :
    b.min < b.forward x ∧ b.forward x < b.max := by
  have hpi := Real.pi_pos
  have h1 : -(1 / 2) < Real.arctan x / Real.pi := by
    rw [lt_div_iff₀ hpi]; have := Real.neg_pi_div_two_lt_arctan x; linarith
  have h2 : Real.arctan x / Real.pi < 1 / 2 := by
    rw [div_lt_iff₀ hpi]; have := Real.arctan_lt_pi_div_two x; linarith
  unfold BoundTransform.forward
  constructor
  · have : 0 < (b.max - b.min) * (Real.arctan x / Real.pi + 1 / 2) :=
      mul_pos (by linarith) (by linarith)
    linarith
  · have : (b.max - b.min) * (Real.arctan x / Real.pi + 1 / 2) < (b.max - b.min) * 1 :=
      mul_lt_mul_of_pos_left (by linarith) (by linarith)
    linarith

/-- C45: the transformation is strictly increasing. -/
theorem c45_monotone (b : BoundTransform) (h : b.min < b.max) : StrictMono b.forward := by
  intro x y hxy
  have hpi := Real.pi_pos
  have : Real.arctan x / Real.pi < Real.arctan y / Real.pi :=
    div_lt_div_of_pos_right (Real.arctan_strictMono hxy) hpi
  unfold BoundTransform.forward
  have := mul_lt_mul_of_pos_left (show Real.arctan x / Real.pi + 1 / 2 < Real.arctan y / Real.pi + 1 / 2
    by linarith) (show 0 < b.max - b.min by linarith)
  linarith

/-- C45: mapping forward and back returns the number. -/
theorem c45_backward_forward (b : BoundTransform) (h : b.min < b.max) (x : ℝ) :
    b.backward (b.forward x) = x := by
  have hpi := Real.pi_pos.ne'
  have hd : b.max - b.min ≠ 0 := by linarith
  unfold BoundTransform.backward BoundTransform.forward
  have : Real.pi * (b.min + (b.max - b.min) * (Real.arctan x / Real.pi + 1 / 2) - b.min) /
      (b.max - b.min) - 1 / 2 * Real.pi = Real.arctan x := by
    field_simp; ring
  rw [this, Real.tan_arctan]

/-- C45: mapping a number between the bounds back and forward returns it. -/
theorem c45_forward_backward (b : BoundTransform) (y : ℝ) (h1 : b.min < y) (h2 : y < b.max) :
    b.forward (b.backward y) = y := by
  have hpi := Real.pi_pos
  have hd : 0 < b.max - b.min := by linarith
  unfold BoundTransform.backward BoundTransform.forward
  have hq : Real.pi * (y - b.min) / (b.max - b.min) - 1 / 2 * Real.pi =
      Real.pi * ((y - b.min) / (b.max - b.min) - 1 / 2) := by ring
  have q0 : 0 < (y - b.min) / (b.max - b.min) := div_pos (by linarith) hd
  have q1 : (y - b.min) / (b.max - b.min) < 1 := by rw [div_lt_one hd]; linarith
  rw [hq, Real.arctan_tan (by nlinarith) (by nlinarith)]
  field_simp
  ring

example : (⟨0, 1⟩ : BoundTransform).forward 0 = 1 / 2 := by
  simp [BoundTransform.forward]

/-! ## C46 -/

private theorem abs_pow_odd {n : ℕ} (h : Odd n) (x : ℝ) (hx : x ≤ 0) : |x| ^ n = -x ^ n := by
  rw [abs_of_nonpos hx, h.neg_pow]

/-- C46: for an odd exponent of at least 3 the penalty is the derivative of
`prefactor·(|x|ⁿ - xⁿ)` at every `x`. -/
theorem c46_odd (p : ℝ) {n : ℕ} (hn : Odd n) (h3 : 3 ≤ n) (x : ℝ) :
    HasDerivAt (fun y : ℝ => p * (|y| ^ n - y ^ n)) (penalty p n x) x := by
  obtain ⟨m, rfl⟩ : ∃ m, n = m + 1 := ⟨n - 1, by omega⟩
  have hneg : HasDerivAt (fun y : ℝ => p * (-y ^ (m + 1) - y ^ (m + 1)))
      (-2 * p * ((m + 1 : ℕ) : ℝ) * x ^ m) x := by
    have h1 := hasDerivAt_pow (m + 1) x
    have h2 := HasDerivAt.const_mul p ((HasDerivAt.neg h1).sub h1)
    refine h2.congr_deriv ?_
    simp only [Nat.add_sub_cancel, smul_eq_mul]
    ring
  unfold penalty
  rw [Nat.add_sub_cancel]
  rcases lt_trichotomy x 0 with hx | hx | hx
  · rw [if_neg (by linarith)]
    refine hneg.congr_of_eventuallyEq ?_
    filter_upwards [eventually_lt_nhds hx] with y hy
    rw [abs_pow_odd hn y hy.le]
  · subst hx
    rw [if_neg (lt_irrefl _)]
    have e : |(0:ℝ)| ^ (m + 1) = 0 := by simp
    rw [hasDerivAt_iff_isLittleO]
    simp only [e, zero_pow (Nat.succ_ne_zero m), sub_zero, mul_zero, zero_pow (show m ≠ 0 by omega),
      smul_eq_mul]
    have hO : (fun y : ℝ => p * (|y| ^ (m + 1) - y ^ (m + 1))) =O[nhds 0] fun y => y ^ (m + 1) := by
      refine Asymptotics.IsBigO.const_mul_left ?_ p
      refine Asymptotics.IsBigO.sub ?_ (Asymptotics.isBigO_refl _ _)
      refine Asymptotics.IsBigO.of_bound 1 (Filter.Eventually.of_forall fun y => ?_)
      rw [one_mul, norm_pow, norm_pow]; simp
    have ho : (fun y : ℝ => y ^ (m + 1)) =o[nhds 0] fun y : ℝ => y := by
      have := Asymptotics.isLittleO_pow_pow (𝕜 := ℝ) (show 1 < m + 1 by omega)
      simpa using this
    exact hO.trans_isLittleO ho
  · rw [if_pos hx]
    refine (hasDerivAt_const x (0:ℝ)).congr_of_eventuallyEq ?_
    filter_upwards [eventually_gt_nhds hx] with y hy
    rw [abs_of_pos hy]; simp

/-- C46: for an even exponent the documented function is zero everywhere but the penalty is not zero at
any negative argument, so it is not the derivative there. -/
theorem c46_even {p : ℝ} (hp : p ≠ 0) {n : ℕ} (hn : Even n) (h2 : 2 ≤ n) {x : ℝ} (hx : x < 0) :
    ¬ HasDerivAt (fun y : ℝ => p * (|y| ^ n - y ^ n)) (penalty p n x) x := by
  intro h
  have h0 : (fun y : ℝ => p * (|y| ^ n - y ^ n)) = fun _ => 0 := by
    funext y; rw [hn.pow_abs]; ring
  rw [h0] at h
  have := h.unique (hasDerivAt_const x (0:ℝ))
  unfold penalty at this
  rw [if_neg (by linarith)] at this
  have hpow : x ^ (n - 1) ≠ 0 := pow_ne_zero _ hx.ne
  have hn0 : (n : ℝ) ≠ 0 := by exact_mod_cast (by omega : n ≠ 0)
  exact (mul_ne_zero (mul_ne_zero (mul_ne_zero (by norm_num) hp) hn0) hpow) this

example : penalty 1500 3 (-2) = -36000 := by norm_num [penalty]

/-! ## C47 -/

/-- A matrix written row by row. -/
def rowList {d : ℕ} (K : Matrix (Fin d) (Fin d) ℝ) : List ℝ :=
  (List.finRange d).flatMap fun i => (List.finRange d).map fun j => K i j

/-- `kᵀ K k`. -/
def quadForm {d : ℕ} (K : Matrix (Fin d) (Fin d) ℝ) (k : Fin d → ℝ) : ℝ := ∑ i, ∑ j, k i * K i j * k j

/-- The matrix obtained by copying the upper triangle to the lower one. -/
def upper {d : ℕ} (K : Matrix (Fin d) (Fin d) ℝ) : Matrix (Fin d) (Fin d) ℝ :=
  fun i j => if i ≤ j then K i j else K j i

/-- C47: in two and three dimensions the term multiplies the field by `-4π² kᵀ K k`, where the lower
triangle of `K` is ignored and replaced by the upper one. -/
theorem c47_value {d : ℕ} (hd : d = 2 ∨ d = 3) (K : Matrix (Fin d) (Fin d) ℝ) (k : Fin d → ℝ) :
    hessEval (rowList K) (List.ofFn k) = some (-4 * Real.pi ^ 2 * quadForm (upper K) k) := by
  rcases hd with rfl | rfl
  · simp only [rowList, hessEval, hessCoeff, fcomp, List.finRange_succ, List.finRange_zero, List.map_cons,
      List.map_nil, List.flatMap_cons, List.flatMap_nil, List.append_nil, List.cons_append,
      List.nil_append, List.ofFn_succ, List.ofFn_zero, List.length_cons, List.length_nil,
      List.range_succ, List.range_zero, List.foldlM_cons, List.foldlM_nil, Nat.reduceAdd,
      Nat.reduceSub, List.range'_succ, List.range'_zero, quadForm, upper, Fin.sum_univ_two]
    norm_num
    ring_nf
  · simp only [rowList, hessEval, hessCoeff, fcomp, List.finRange_succ, List.finRange_zero, List.map_cons,
      List.map_nil, List.flatMap_cons, List.flatMap_nil, List.append_nil, List.cons_append,
      List.nil_append, List.ofFn_succ, List.ofFn_zero, List.length_cons, List.length_nil,
      List.range_succ, List.range_zero, List.foldlM_cons, List.foldlM_nil, Nat.reduceAdd,
      Nat.reduceSub, List.range'_succ, List.range'_zero, quadForm, upper, Fin.sum_univ_three]
    have e1 : (1 : Fin 3) ≤ 2 := by decide
    have e2 : ¬ (2 : Fin 3) ≤ 1 := by decide
    have e3 : ¬ (2 : Fin 3) = 0 := by decide
    norm_num [e1, e2, e3]
    ring_nf

/-- C47: for a symmetric tensor the coefficient is `-4π² kᵀ K k`. -/
theorem c47_symmetric {d : ℕ} (hd : d = 2 ∨ d = 3) (K : Matrix (Fin d) (Fin d) ℝ) (hK : K.transpose = K)
    (k : Fin d → ℝ) :
    hessEval (rowList K) (List.ofFn k) = some (-4 * Real.pi ^ 2 * quadForm K k) := by
  rw [c47_value hd]
  congr 3
  funext i j
  unfold upper
  split
  · rfl
  · exact congrFun (congrFun hK i) j

/-- C47: the quadratic form is reproduced for all wave vectors exactly if the off-diagonal elements add
up to twice the upper ones, that is if the tensor is symmetric. -/
theorem c47_iff {d : ℕ} (hd : d = 2 ∨ d = 3) (K : Matrix (Fin d) (Fin d) ℝ) :
    (∀ k : Fin d → ℝ,
      hessEval (rowList K) (List.ofFn k) = some (-4 * Real.pi ^ 2 * quadForm K k)) ↔
    K.transpose = K := by
  refine ⟨fun h => ?_, fun h k => c47_symmetric hd K h k⟩
  have hpi : Real.pi ^ 2 ≠ 0 := pow_ne_zero _ Real.pi_pos.ne'
  have key : ∀ k : Fin d → ℝ, quadForm (upper K) k = quadForm K k := by
    intro k
    have := (c47_value hd K k).symm.trans (h k)
    have := Option.some.inj this
    have h4 : (-4 * Real.pi ^ 2) ≠ 0 := mul_ne_zero (by norm_num) hpi
    exact mul_left_cancel₀ h4 this
  rcases hd with rfl | rfl
  · have h1 := key ![1, 1]
    simp [quadForm, upper, Fin.sum_univ_two] at h1
    ext i j
    fin_cases i <;> fin_cases j <;> simp [Matrix.transpose] <;> linarith
  · have h1 := key ![1, 1, 0]
    have h2 := key ![1, 0, 1]
    have h3 := key ![0, 1, 1]
    have e1 : (1 : Fin 3) ≤ 2 := by decide
    have e2 : ¬ (2 : Fin 3) ≤ 1 := by decide
    have e3 : ¬ (2 : Fin 3) = 0 := by decide
    simp [quadForm, upper, Fin.sum_univ_three, e1, e2, e3] at h1 h2 h3
    ext i j
    fin_cases i <;> fin_cases j <;> simp [Matrix.transpose] <;> linarith

/-- C47: for `κ` times the identity the coefficient is `κ` times the symbol of the Laplacian. -/
theorem c47_isotropic {d : ℕ} (hd : d = 2 ∨ d = 3) (κ : ℝ) (k : Fin d → ℝ) :
    (hessEval (rowList (κ • (1 : Matrix (Fin d) (Fin d) ℝ))) (List.ofFn k)).map (fun x : ℝ => (x : ℂ)) =
      some ((κ : ℂ) * laplaceSymbol (List.ofFn k)) := by
  rw [c47_symmetric hd _ (by simp)]
  have : quadForm (κ • (1 : Matrix (Fin d) (Fin d) ℝ)) k = κ * ((List.ofFn k).map fun x : ℝ => x ^ 2).sum := by
    rw [List.map_ofFn, List.sum_ofFn]
    unfold quadForm
    rw [Finset.mul_sum]
    refine Finset.sum_congr rfl fun i _ => ?_
    rw [Finset.sum_eq_single i]
    · simp; ring
    · intro j _ hj
      simp [Matrix.one_apply_ne' hj]
    · simp
  rw [this]
  simp only [Option.map_some, laplaceSymbol]
  congr 1
  push_cast
  ring

example : hessEval [1, 2, 2, 5] [1, 1] = some (-4 * Real.pi ^ 2 * 10) := by
  have := c47_symmetric (Or.inl rfl) !![1, 2; 2, 5] (by ext i j; fin_cases i <;> fin_cases j <;> rfl) ![1, 1]
  simpa [rowList, quadForm, Fin.sum_univ_two, List.finRange_succ, show (1:ℝ) + 2 + (2 + 5) = 10 by norm_num]
    using this

/-! ## C48 -/

theorem freqOf_zero (dims : List ℕ) (k : Fin dims.prod) (hk : k.val = 0) : ∀ x ∈ freqOf dims k, x = 0 := by
  intro x hx
  unfold freqOf at hx
  rw [hk] at hx
  obtain ⟨q, hq, rfl⟩ := List.mem_map.mp hx
  suffices h : ∀ l, freq (dims.map Int.ofNat) ((0 : ℕ) : Int) = some l → ∀ q ∈ l, q = 0 by
    cases hf : freq (dims.map Int.ofNat) ((0 : ℕ) : Int) with
    | none => rw [hf] at hq; simp at hq
    | some l => rw [hf] at hq; simp [h l hf q hq]
  intro l hl q hq
  have m0 : ∀ d r : Int, goMod 0 d = some r → r = 0 := by
    intro d r h; unfold goMod at h; split at h <;> simp_all
  have d0 : ∀ d r : Int, goDiv 0 d = some r → r = 0 := by
    intro d r h; unfold goDiv at h; split at h <;> simp_all
  simp only [freq, col, row, Nat.cast_zero, Option.bind_eq_bind, Option.bind_eq_some_iff,
    Option.pure_def, Option.some.injEq] at hl
  obtain ⟨c, ⟨d1, -, hc⟩, r, ⟨e0, -, e1, -, q1, hq1, hr⟩, f0, -, f1, -, ex, hex, rfl⟩ := hl
  obtain rfl := m0 _ _ hc
  obtain rfl := d0 _ _ hq1
  obtain rfl := m0 _ _ hr
  have hex0 : ∀ y ∈ ex, y = 0 := by
    unfold thirdFreq at hex
    split at hex
    · simp at hex; subst hex; simp
    · obtain ⟨d, hd, rfl⟩ := Option.map_eq_some_iff.mp hex
      simp only [depth, Option.bind_eq_bind, Option.bind_eq_some_iff] at hd
      obtain ⟨_, -, _, -, hd⟩ := hd
      obtain rfl := d0 _ _ hd
      intro y hy
      simp only [List.mem_cons, List.mem_replicate] at hy
      rcases hy with rfl | ⟨-, rfl⟩ <;> simp
  obtain ⟨y, hy, rfl⟩ := List.mem_map.mp hq
  have : y = 0 := by
    simp only [List.cons_append, List.nil_append, List.mem_cons] at hy
    rcases hy with rfl | rfl | hy
    · simp
    · simp
    · exact hex0 y hy
  rw [this]
  norm_num [foldFreq]

theorem fcomp_zero {f : List ℝ} (h : ∀ x ∈ f, x = 0) (c : ℕ) : fcomp f c = 0 := by
  unfold fcomp
  rw [List.getD_eq_getElem?_getD]
  cases hc : f[c]? with
  | none => rfl
  | some x => exact h x (List.mem_of_getElem? hc)

theorem foldl_fix {α β : Type} (l : List α) (f : β → α → β) (b : β) (h : ∀ a ∈ l, f b a = b) :
    l.foldl f b = b := by
  induction l with
  | nil => rfl
  | cons a l ih =>
    rw [List.foldl_cons, h a (by simp)]
    exact ih fun x hx => h x (by simp [hx])

theorem lapFactor_zero {f : List ℝ} (h : ∀ x ∈ f, x = 0) : lapFactor 1 f = 0 := by
  rw [show (1 : ℤ) = ((1 : ℕ) : ℤ) from rfl, lapFactor_eq, pow_one]
  unfold laplaceSymbol
  have : (f.map fun x => x ^ 2).sum = 0 := by
    apply List.sum_eq_zero
    intro y hy
    obtain ⟨x, hx, rfl⟩ := List.mem_map.mp hy
    simp [h x hx]
  rw [this]; simp

/-- C48: conservative noise does not change the mean, whatever the random currents are. -/
theorem c48_noise (dims : List ℕ) (dim : ℕ) (current : ℕ → Data dims.prod) (t : ℝ)
    (k : Fin dims.prod) (hk : k.val = 0) : conservativeNoise dim current (freqOf dims) t k = 0 := by
  refine foldl_fix _ _ _ fun c _ => ?_
  simp [fcomp_zero (freqOf_zero dims k hk)]

/-- C48: the divergence of a flux does not change the mean. -/
theorem c48_div_grad (dims : List ℕ) (dim : ℕ) (flux : ℕ → Data dims.prod) (t : ℝ)
    (k : Fin dims.prod) (hk : k.val = 0) : divGrad dim flux (freqOf dims) t k = 0 := by
  refine foldl_fix _ _ _ fun c _ => ?_
  simp [fcomp_zero (freqOf_zero dims k hk)]

/-- C48: charge transport does not change the total charge, whatever the conductivity, the external
field and the charge density are. -/
theorem c48_charge (dims : List ℕ) (sigma : Fin dims.prod → List ℝ) (ext : List ℝ)
    (density : Data dims.prod) (k : Fin dims.prod) (hk : k.val = 0) :
    chargeTransport dims sigma ext density k = 0 := by
  refine foldl_fix _ _ _ fun c _ => ?_
  simp [fcomp_zero (freqOf_zero dims k hk)]

/-- C48: the pair correlation terms with a Laplacian do not change the mean. -/
theorem c48_pair_correlation (dims : List ℕ) (corr : ℝ → ℝ) (prefactor : ℝ) (brick : Data dims.prod)
    (t : ℝ) (k : Fin dims.prod) (hk : k.val = 0) :
    explicitPairCorrTerm corr prefactor true brick (freqOf dims) t k = 0 := by
  simp [explicitPairCorrTerm, lapEval, lapFactor_zero (freqOf_zero dims k hk)]

/-- C48: the weighted Laplacian `F ∇²u` is not a divergence. It leaves the mean alone for all weights
only if `u` is constant, that is if no non-zero frequency is present. -/
theorem c48_weighted_laplacian {dims : List ℕ} (h : ∀ d ∈ dims, 0 < d) (field : Data dims.prod) (t : ℝ)
    (k0 : Fin dims.prod) (hk : k0.val = 0) :
    (∀ prefactor : Data dims.prod, weightedLaplacian dims field prefactor (freqOf dims) t k0 = 0) ↔
      ∀ k, field k = 0 ∨ ∀ x ∈ freqOf dims k, x = 0 := by
  have hN := prod_ne_zero h
  have hval : ∀ prefactor : Data dims.prod,
      weightedLaplacian dims field prefactor (freqOf dims) t k0 =
        ∑ x, (ifft dims (lapEval 1 (freqOf dims) field) x / dims.prod) * (ifft dims prefactor x / dims.prod) := by
    intro prefactor
    unfold weightedLaplacian
    simp only [fft_zero_bin _ k0 hk, divRealScalar, Complex.ofReal_natCast]
  constructor
  · intro hall k
    have hlap : ∀ x0, ifft dims (lapEval 1 (freqOf dims) field) x0 = 0 := by
      intro x0
      have := hall (fft dims fun x => if x = x0 then 1 else 0)
      rw [hval] at this
      rw [Finset.sum_eq_single x0] at this
      · rw [ifft_fft h] at this
        simp only [if_true, mul_one, div_self hN] at this
        rcases div_eq_zero_iff.mp this with h3 | h3
        · exact h3
        · exact absurd h3 hN
      · intro x _ hx
        rw [ifft_fft h, if_neg hx]; simp
      · simp
    have := fft_ifft h (lapEval 1 (freqOf dims) field) k
    have hz : ifft dims (lapEval 1 (freqOf dims) field) = fun _ => 0 := funext hlap
    rw [hz] at this
    have h0 : fft dims (fun _ => (0:ℂ)) k = 0 := by simp [fft]
    rw [h0] at this
    rcases mul_eq_zero.mp this.symm with h3 | h3
    · exact absurd h3 hN
    · unfold lapEval at h3
      rcases mul_eq_zero.mp h3 with h4 | h4
      · exact Or.inl h4
      · right
        rw [show (1 : ℤ) = ((1 : ℕ) : ℤ) from rfl, lapFactor_eq, pow_one] at h4
        unfold laplaceSymbol at h4
        rw [neg_eq_zero, Complex.ofReal_eq_zero] at h4
        have h5 : ((freqOf dims k).map fun x => x ^ 2).sum = 0 := by
          have : 4 * Real.pi ^ 2 ≠ 0 := mul_ne_zero (by norm_num) (pow_ne_zero _ Real.pi_pos.ne')
          rcases mul_eq_zero.mp h4 with h6 | h6
          · exact absurd h6 this
          · exact h6
        intro x hx
        have hle : x ^ 2 ≤ ((freqOf dims k).map fun x => x ^ 2).sum :=
          List.single_le_sum (by
            intro y hy; obtain ⟨z, -, rfl⟩ := List.mem_map.mp hy; positivity) _
            (List.mem_map.mpr ⟨x, hx, rfl⟩)
        rw [h5] at hle
        exact pow_eq_zero_iff (n := 2) (by norm_num) |>.mp (le_antisymm hle (sq_nonneg x))
  · intro hall prefactor
    rw [hval]
    refine Finset.sum_eq_zero fun x _ => ?_
    have hz : lapEval 1 (freqOf dims) field = fun _ => 0 := by
      funext k
      unfold lapEval
      rcases hall k with h4 | h4
      · rw [h4]; simp
      · rw [lapFactor_zero h4]; simp
    rw [hz]
    simp [ifft]

/-- The mean does change for a wave on two nodes with some weight. -/
example : ∃ prefactor : Data [2, 1].prod,
    weightedLaplacian [2, 1] (fun _ => 1) prefactor (freqOf [2, 1]) 0 ⟨0, by decide⟩ ≠ 0 := by
  by_contra hc
  push Not at hc
  have := (c48_weighted_laplacian (dims := [2, 1]) (by decide) (fun _ => 1) 0 ⟨0, by decide⟩ rfl).mp hc
    ⟨1, by decide⟩
  have f1 : freqOf [2, 1] ⟨1, by decide⟩ = [1/2, 0] := by
    have : freq ([2, 1].map Int.ofNat) ((1 : ℕ) : Int) = some [1/2, 0] := by decide +kernel
    unfold freqOf
    rw [this]; norm_num
  rw [f1] at this
  simp at this

/-! ## C49 -/

/-- The conductivity (row `d`, column `d2`) that the current calculation reads from the six (three in
2D) numbers of a node, see `chargeCurrent`. -/
def conductivityRead (sigma : List ℝ) (dim d d2 : ℕ) : ℝ := sigma.getD (voigtIndex d d2 dim) 0

/-- C49: the current is minus the conductivity read from the components times the field. -/
theorem c49_current (dims : List ℕ) (sigma : Fin dims.prod → List ℝ) (ext : List ℝ)
    (density : Data dims.prod) (d2 : ℕ) (i : Fin dims.prod) :
    chargeCurrent dims sigma ext density d2 i =
      ((List.range dims.length).map fun d : ℕ =>
        ((conductivityRead (sigma i) dims.length d d2 : ℝ) : ℂ) * effField dims ext density d i).sum := by
  unfold chargeCurrent conductivityRead
  have : ∀ (l : List ℕ) (a : ℂ) (f : ℕ → ℂ), l.foldl (fun (acc : ℂ) (d : ℕ) => acc + f d) a =
      a + (l.map f).sum := by
    intro l
    induction l with
    | nil => simp
    | cons x l ih => intro a f; simp [ih, add_assoc]
  rw [this _ _ fun d => _]; simp

/-- C49: components in the documented 3D order xx, yy, zz, xz, yz, xy are read as the tensor they came
from exactly if its xz and yz components are equal. -/
theorem c49_documented_order (S : Matrix (Fin 3) (Fin 3) ℝ) (hS : S.transpose = S) :
    (∀ d d2 : Fin 3, conductivityRead [S 0 0, S 1 1, S 2 2, S 0 2, S 1 2, S 0 1] 3 d d2 = S d d2) ↔
      S 0 2 = S 1 2 := by
  have sy : ∀ i j, S i j = S j i := fun i j => congrFun (congrFun hS j) i
  constructor
  · intro h
    have := h 0 2
    simp [conductivityRead, voigtIndex] at this
    exact this.symm
  · intro h d d2
    fin_cases d <;> fin_cases d2 <;> simp [conductivityRead, voigtIndex, h, sy 1 0, sy 2 0, sy 2 1]

/-- C49: with the usual Voigt order xx, yy, zz, yz, xz, xy every tensor is read correctly. -/
theorem c49_voigt_order (S : Matrix (Fin 3) (Fin 3) ℝ) (hS : S.transpose = S) (d d2 : Fin 3) :
    conductivityRead [S 0 0, S 1 1, S 2 2, S 1 2, S 0 2, S 0 1] 3 d d2 = S d d2 := by
  have sy : ∀ i j, S i j = S j i := fun i j => congrFun (congrFun hS j) i
  fin_cases d <;> fin_cases d2 <;> simp [conductivityRead, voigtIndex, sy 1 0, sy 2 0, sy 2 1]

/-- C49: in 2D the documented order xx, yy, xy is the one used. -/
theorem c49_two_dimensions (S : Matrix (Fin 2) (Fin 2) ℝ) (hS : S.transpose = S) (d d2 : Fin 2) :
    conductivityRead [S 0 0, S 1 1, S 0 1] 2 d d2 = S d d2 := by
  have sy : ∀ i j, S i j = S j i := fun i j => congrFun (congrFun hS j) i
  fin_cases d <;> fin_cases d2 <;> simp [conductivityRead, voigtIndex, sy 1 0]

example : ¬ ∀ d d2 : Fin 3, conductivityRead [1, 1, 1, (0:ℝ), 5, 0] 3 d d2 = !![1,0,0;0,1,5;0,5,1] d d2 := by
  intro h
  have := h 0 2
  norm_num [conductivityRead, voigtIndex] at this
  simp at this

/-! ## C50 -/

/-- C50: below a third of the peak nothing is dissipated, above the peak the full value is used. -/
theorem c50_ends {f peak : ℝ} (hp : 0 < peak) :
    (f < peak / 3 → interpolant f peak = 0) ∧ (peak < f → interpolant f peak = 1) := by
  constructor
  · intro h
    unfold interpolant
    rw [if_pos (by linarith)]
  · intro h
    unfold interpolant
    rw [if_neg (by linarith), if_pos h]

/-- C50: at the peak the interpolation has the value -1 instead of 1. -/
theorem c50_peak {peak : ℝ} (hp : 0 < peak) : interpolant peak peak = -1 := by
  unfold interpolant
  rw [if_neg (by linarith), if_neg (lt_irrefl _)]
  have : 3 / 2 * (peak - 1 / 3 * peak) / peak = 1 := by field_simp; norm_num
  simp only [this]; norm_num

/-- C50: between a third of the peak and the peak the value is negative exactly on the last third of
the interval. -/
theorem c50_negative_iff {f peak : ℝ} (hp : 0 < peak) :
    interpolant f peak < 0 ↔ 7 / 9 * peak < f ∧ f ≤ peak := by
  unfold interpolant
  split_ifs with h1 h2
  · simp; intro h; linarith
  · constructor
    · intro h; norm_num at h
    · intro h; linarith [h.2]
  · have hx : 3 / 2 * (f - 1 / 3 * peak) / peak = 3 / 2 * (f / peak) - 1 / 2 := by field_simp
    simp only [hx]
    have hf : 1 / 3 ≤ f / peak := by rw [le_div_iff₀ hp]; linarith
    have he : 2 * (3 / 2 * (f / peak) - 1 / 2) * (3 / 2 * (f / peak) - 1 / 2) -
        3 * (3 / 2 * (f / peak) - 1 / 2) * (3 / 2 * (f / peak) - 1 / 2) * (3 / 2 * (f / peak) - 1 / 2) =
        (3 / 2 * (f / peak) - 1 / 2) ^ 2 * (7 / 2 - 9 / 2 * (f / peak)) := by ring
    rw [he]
    constructor
    · intro h
      refine ⟨?_, by linarith⟩
      have : 7 / 2 - 9 / 2 * (f / peak) < 0 := by
        by_contra hc
        push Not at hc
        have := mul_nonneg (sq_nonneg (3 / 2 * (f / peak) - 1 / 2)) hc
        linarith
      have : 7 / 9 < f / peak := by linarith
      rwa [lt_div_iff₀ hp] at this
    · rintro ⟨h, -⟩
      have : 7 / 9 < f / peak := by rwa [lt_div_iff₀ hp]
      exact mul_neg_of_pos_of_neg (by have : 0 < 3 / 2 * (f / peak) - 1 / 2 := by linarith
                                      positivity) (by linarith)

/-- C50: the interpolation is not monotone, for any peak. -/
theorem c50_not_monotone {peak : ℝ} (hp : 0 < peak) : ¬ Monotone fun f => interpolant f peak := by
  intro h
  have h1 := h (show (0:ℝ) ≤ peak from hp.le)
  simp only at h1
  rw [c50_peak hp, (c50_ends hp).1 (by linarith)] at h1
  norm_num at h1

/-- C50: with positive `eps` the term of a mode is amplifying exactly if its wave number lies in the last
third of the interval. -/
theorem c50_amplifies {n : ℕ} {eps peak : ℝ} (he : 0 < eps) (hp : 0 < peak) (power : ℕ)
    (freq : Frequency n) (t : ℝ) (i : Fin n) :
    0 < (spectralViscosity eps peak power freq t i).re ↔
      7 / 9 * peak < Real.sqrt (dotR (freq i) (freq i)) ∧ Real.sqrt (dotR (freq i) (freq i)) ≤ peak := by
  rw [← c50_negative_iff hp]
  unfold spectralViscosity
  simp only [Complex.ofReal_re]
  set f := Real.sqrt (dotR (freq i) (freq i)) with hf
  have hf0 : 0 ≤ f := Real.sqrt_nonneg _
  constructor
  · intro h
    by_contra hc
    push Not at hc
    have : 0 ≤ eps * interpolant f peak * f ^ power := mul_nonneg (mul_nonneg he.le hc) (pow_nonneg hf0 _)
    linarith
  · intro h
    have hfp : 0 < f := by have := ((c50_negative_iff hp).mp h).1; nlinarith
    have : 0 < eps * (-interpolant f peak) * f ^ power :=
      mul_pos (mul_pos he (by linarith)) (pow_pos hfp _)
    linarith

example : interpolant (1 / 2) (1 / 2) = -1 := c50_peak (by norm_num)

end Gopf.Props
