import Verif.Props.Growth
import Mathlib.Analysis.Calculus.FDeriv.Pow
import Mathlib.Analysis.Calculus.FDeriv.Pi
import Mathlib.Analysis.Calculus.FDeriv.Add
import Mathlib.Analysis.Normed.Module.FiniteDimension

/-!
# C126: small perturbations of a uniform state
-/

namespace Gopf.Props
open Spec Pf Pfutil

variable {n : ℕ} {dims : List ℕ}

/-! ### The specification -/

/-- The number of times the field occurs in a term, counted with its power. -/
def degree (N : Names) (p : List Item × Option Char) : ℕ :=
  ((factorsIn N.varying p.1).map fun f => f.power.num.toNat).sum

/-- The number in front of the field in a term. -/
noncomputable def coefficient (N : Names) (c : Str → ℂ) (p : List Item × Option Char) : ℂ :=
  (signOf p.2 : ℂ) * ((factorsIn N.scalars p.1).map fun f => c f.name ^ ((f.power : ℚ) : ℂ)).prod

/-- The growth rate of the wave `k` in the equation linearised at the uniform state `z`: a term `a LAP^n u^p`
contributes `a (-4π²|f|²)^n p z^(p-1)`. -/
noncomputable def linearisedRate (N : Names) (c : Str → ℂ) (freq : Frequency n) (eq : Equation) (z : ℂ) (k : Fin n) : ℂ :=
  (eq.terms.map fun p : List Item × Option Char =>
    coefficient N c p * laplaceSymbol (freq k) ^ (laplacians p.1).sum *
      ((degree N p : ℂ) * z ^ (degree N p - 1))).sum

open Classical in
/-- The same for the terms that are linear in the field only: what is treated implicitly. -/
noncomputable def implicitRate (N : Names) (c : Str → ℂ) (freq : Frequency n) (eq : Equation) (k : Fin n) : ℂ :=
  (eq.terms.map fun p : List Item × Option Char => if LinearIn eq.field N.varying p.1 then
    coefficient N c p * laplaceSymbol (freq k) ^ (laplacians p.1).sum else 0).sum

/-- What a step multiplies the wave `k` of a small perturbation by. -/
noncomputable def perturbationFactor (N : Names) (c : Str → ℂ) (freq : Frequency n) (dt : ℝ) (eq : Equation) (z : ℂ)
    (k : Fin n) : ℂ :=
  1 + dt * linearisedRate N c freq eq z k / (1 - dt * implicitRate N c freq eq k)

/-- The rate of change of a uniform state: terms with a Laplacian do not contribute. -/
noncomputable def uniformRate (N : Names) (c : Str → ℂ) (eq : Equation) (z : ℂ) : ℂ :=
  (eq.terms.map fun p : List Item × Option Char => if (laplacians p.1).sum = 0 then
    coefficient N c p * z ^ degree N p else 0).sum

/-! ### Multipliers -/

/-- The linear map that multiplies the wave `k` by `a k`. -/
noncomputable def multiplier (dims : List ℕ) (a : Data dims.prod) : Data dims.prod →ₗ[ℂ] Data dims.prod where
  toFun w := fun x => ifft dims (fun k => a k * fft dims w k) x / (dims.prod : ℂ)
  map_add' v w := by
    funext x
    simp only [ifft, Pi.add_apply]
    rw [← add_div, ← Finset.sum_add_distrib]
    congr 1
    refine Finset.sum_congr rfl fun k _ => ?_
    have : fft dims (v + w) k = fft dims v k + fft dims w k := fft_add v w k
    rw [this]
    ring
  map_smul' r w := by
    funext x
    simp only [ifft, RingHom.id_apply, Pi.smul_apply, smul_eq_mul]
    rw [mul_div_assoc', Finset.mul_sum]
    congr 1
    refine Finset.sum_congr rfl fun k _ => ?_
    have : fft dims (r • w) k = r * fft dims w k := fft_smul r w k
    rw [this]
    ring

theorem fft_multiplier (h : ∀ d ∈ dims, 0 < d) (a w : Data dims.prod) (k : Fin dims.prod) :
    fft dims (multiplier dims a w) k = a k * fft dims w k := by
  have := congrFun (fft_divided h fun k => a k * fft dims w k) k
  rw [← this]
  congr 1

/-- The sum of the squares. -/
noncomputable def squares (w : Data n) : ℝ := ∑ x, ‖w x‖ ^ 2

theorem multiplier_squares (h : ∀ d ∈ dims, 0 < d) {a : Data dims.prod} {q : ℝ} (ha : ∀ k, ‖a k‖ ≤ q)
    (w : Data dims.prod) : squares (multiplier dims a w) ≤ q ^ 2 * squares w := by
  have hp : (0 : ℝ) < (dims.prod : ℕ) := by
    have := Nat.pos_of_ne_zero (n := dims.prod) (by exact_mod_cast prod_ne_zero h)
    exact_mod_cast this
  refine le_of_mul_le_mul_left ?_ hp
  unfold squares
  rw [← squares_parseval h, mul_left_comm, ← squares_parseval h, Finset.mul_sum]
  apply Finset.sum_le_sum
  intro k _
  rw [fft_multiplier h, norm_mul, mul_pow]
  have := pow_le_pow_left₀ (norm_nonneg _) (ha k) 2
  exact mul_le_mul_of_nonneg_right this (by positivity)

/-! ### A step as a polynomial of the field -/

/-- The step of the simulation as a map of the field alone. -/
noncomputable def polynomialStep (dims : List ℕ) (terms : List (Data dims.prod × ℕ)) (y : Data dims.prod) : Data dims.prod :=
  y + (terms.map fun t => multiplier dims t.1 fun x => y x ^ t.2).sum

theorem multiplier_sum (terms : List (Data dims.prod × ℂ)) (w : Data dims.prod) :
    (terms.map fun t => multiplier dims t.1 (t.2 • w)).sum =
      multiplier dims (fun k => (terms.map fun t => t.1 k * t.2).sum) w := by
  induction terms with
  | nil =>
    funext x
    simp [multiplier, ifft]
  | cons t l ih =>
    rw [List.map_cons, List.sum_cons, ih]
    funext x
    simp only [multiplier, LinearMap.coe_mk, AddHom.coe_mk, Pi.add_apply, ifft, List.map_cons, List.sum_cons]
    rw [← add_div, ← Finset.sum_add_distrib]
    congr 1
    refine Finset.sum_congr rfl fun k _ => ?_
    have : fft dims (t.2 • w) k = t.2 * fft dims w k := fft_smul t.2 w k
    rw [this]
    ring

theorem power_hasFDerivAt (z : ℂ) (p : ℕ) :
    HasFDerivAt (fun y : Data n => fun x => y x ^ p) (((p : ℂ) * z ^ (p - 1)) • ContinuousLinearMap.id ℂ (Data n))
      (fun _ => z) := by
  rw [hasFDerivAt_pi']
  intro x
  have h1 : HasFDerivAt (fun y : Data n => y x) (ContinuousLinearMap.proj (R := ℂ) (φ := fun _ : Fin n => ℂ) x)
      (fun _ => z) := (ContinuousLinearMap.proj (R := ℂ) (φ := fun _ : Fin n => ℂ) x).hasFDerivAt
  have h2 := h1.pow p
  refine h2.congr_fderiv ?_
  ext v
  simp

theorem multiplier_scale (a w : Data dims.prod) (z : ℂ) :
    multiplier dims a (z • w) = multiplier dims (fun k => a k * z) w := by
  have := multiplier_sum [(a, z)] w
  simpa using this

theorem multiplier_plus (a b w : Data dims.prod) :
    multiplier dims a w + multiplier dims b w = multiplier dims (fun k => a k + b k) w := by
  have := multiplier_sum [(a, 1), (b, 1)] w
  simpa using this

theorem multiplier_one (h : ∀ d ∈ dims, 0 < d) (w : Data dims.prod) : multiplier dims (fun _ => 1) w = w := by
  apply fft_injective h
  funext k
  rw [fft_multiplier h, one_mul]

theorem sum_hasFDerivAt (terms : List (Data dims.prod × ℕ)) (z : ℂ) :
    HasFDerivAt (fun y : Data dims.prod => (terms.map fun t => multiplier dims t.1 fun x => y x ^ t.2).sum)
      (LinearMap.toContinuousLinearMap (multiplier dims fun k =>
        (terms.map fun t => t.1 k * ((t.2 : ℂ) * z ^ (t.2 - 1))).sum)) (fun _ => z) := by
  induction terms with
  | nil =>
    refine (hasFDerivAt_const (0 : Data dims.prod) (fun _ => z)).congr_fderiv ?_
    ext w x
    simp [multiplier, ifft]
  | cons t l ih =>
    have h1 : HasFDerivAt (fun y : Data dims.prod => multiplier dims t.1 fun x => y x ^ t.2)
        ((LinearMap.toContinuousLinearMap (multiplier dims t.1)).comp
          (((t.2 : ℂ) * z ^ (t.2 - 1)) • ContinuousLinearMap.id ℂ (Data dims.prod))) (fun _ => z) :=
      (LinearMap.toContinuousLinearMap (multiplier dims t.1)).hasFDerivAt.comp _ (power_hasFDerivAt z t.2)
    refine (h1.add ih).congr_fderiv ?_
    refine ContinuousLinearMap.ext fun w => ?_
    simp only [_root_.add_apply, ContinuousLinearMap.comp_apply, _root_.smul_apply,
      ContinuousLinearMap.id_apply, LinearMap.coe_toContinuousLinearMap', List.map_cons, List.sum_cons]
    rw [multiplier_scale, multiplier_plus]

theorem step_hasFDerivAt (h : ∀ d ∈ dims, 0 < d) (terms : List (Data dims.prod × ℕ)) (z : ℂ) :
    HasFDerivAt (polynomialStep dims terms)
      (LinearMap.toContinuousLinearMap (multiplier dims fun k =>
        1 + (terms.map fun t => t.1 k * ((t.2 : ℂ) * z ^ (t.2 - 1))).sum)) (fun _ => z) := by
  refine ((hasFDerivAt_id (𝕜 := ℂ) (fun _ : Fin dims.prod => z)).add (sum_hasFDerivAt terms z)).congr_fderiv ?_
  refine ContinuousLinearMap.ext fun w => ?_
  simp only [_root_.add_apply, ContinuousLinearMap.id_apply, LinearMap.coe_toContinuousLinearMap']
  conv_lhs => rw [← multiplier_one h w]
  rw [multiplier_one h, ← multiplier_plus, multiplier_one h]

/-! ### Attraction -/

theorem squares_nonneg (w : Data n) : 0 ≤ squares w := Finset.sum_nonneg fun _ _ => by positivity

theorem le_squares (w : Data n) (x : Fin n) : ‖w x‖ ≤ Real.sqrt (squares w) :=
  Real.le_sqrt_of_sq_le (Finset.single_le_sum (f := fun x => ‖w x‖ ^ 2) (fun _ _ => by positivity) (Finset.mem_univ x))

theorem squares_le (w : Data n) {r : ℝ} (hr : 0 ≤ r) (hw : ∀ x, ‖w x‖ ≤ r) :
    Real.sqrt (squares w) ≤ Real.sqrt n * r := by
  rw [← Real.sqrt_sq hr, ← Real.sqrt_mul (Nat.cast_nonneg n)]
  apply Real.sqrt_le_sqrt
  calc squares w ≤ ∑ _x : Fin n, r ^ 2 :=
        Finset.sum_le_sum fun x _ => pow_le_pow_left₀ (norm_nonneg _) (hw x) 2
    _ = n * r ^ 2 := by simp

theorem sqrt_squares (w : Data n) : Real.sqrt (squares w) = ‖(WithLp.toLp 2 w : EuclideanSpace ℂ (Fin n))‖ := by
  rw [EuclideanSpace.norm_eq]
  rfl

theorem squares_add (v w : Data n) : Real.sqrt (squares (v + w)) ≤ Real.sqrt (squares v) + Real.sqrt (squares w) := by
  rw [sqrt_squares, sqrt_squares, sqrt_squares, WithLp.toLp_add]
  exact norm_add_le _ _

/-- If the waves outside `Z` are damped to first order, and the others are not there and do not come, small
perturbations decay exponentially, with any rate above the largest factor. -/
theorem attraction (h : ∀ d ∈ dims, 0 < d) {F : Data dims.prod → Data dims.prod} {φ : Data dims.prod} {z : ℂ}
    (hF : HasFDerivAt F (LinearMap.toContinuousLinearMap (multiplier dims φ)) (fun _ => z))
    (hfix : F (fun _ => z) = fun _ => z) {q q' : ℝ} (hq : q < q') (hq' : q' < 1) (h0 : 0 ≤ q)
    (Z : Set (Fin dims.prod)) (hφ : ∀ k, k ∉ Z → ‖φ k‖ ≤ q)
    (hZ : ∀ y, (∀ k ∈ Z, fft dims (y - fun _ => z) k = 0) → ∀ k ∈ Z, fft dims (F y - fun _ => z) k = 0) :
    ∃ δ C : ℝ, 0 < δ ∧ ∀ y, (∀ x, ‖y x - z‖ < δ) → (∀ k ∈ Z, fft dims (y - fun _ => z) k = 0) → ∀ (j : ℕ) x,
      ‖F^[j] y x - z‖ ≤ C * q' ^ j := by
  classical
  have hp : (0 : ℝ) < (dims.prod : ℕ) := by
    have := Nat.pos_of_ne_zero (n := dims.prod) (by exact_mod_cast prod_ne_zero h)
    exact_mod_cast this
  set S : ℝ := Real.sqrt (dims.prod : ℕ) with hS
  have hSpos : 0 < S := Real.sqrt_pos.mpr hp
  have hε : 0 < (q' - q) / S := div_pos (by linarith) hSpos
  have hlo := hF.isLittleO.bound hε
  rw [Metric.eventually_nhds_iff] at hlo
  obtain ⟨δ, hδ, hb⟩ := hlo
  -- one step
  have hstep : ∀ y, Real.sqrt (squares (y - fun _ => z)) < δ → (∀ k ∈ Z, fft dims (y - fun _ => z) k = 0) →
      Real.sqrt (squares (F y - fun _ => z)) ≤ q' * Real.sqrt (squares (y - fun _ => z)) := by
    intro y hy hyZ
    set w : Data dims.prod := y - fun _ => z with hw
    have hwn : ‖w‖ ≤ Real.sqrt (squares w) := (pi_norm_le_iff_of_nonneg (Real.sqrt_nonneg _)).mpr (le_squares w)
    have hdist : dist y (fun _ => z) < δ := by
      rw [dist_eq_norm]
      exact lt_of_le_of_lt hwn hy
    have hrem := hb hdist
    rw [hfix, LinearMap.coe_toContinuousLinearMap'] at hrem
    rw [← hw] at hrem
    have hsplit : F y - (fun _ => z) = multiplier dims φ w + (F y - (fun _ => z) - multiplier dims φ w) := by abel
    have hL : Real.sqrt (squares (multiplier dims φ w)) ≤ q * Real.sqrt (squares w) := by
      have e : multiplier dims φ w = multiplier dims (fun k => if k ∈ Z then 0 else φ k) w := by
        apply fft_injective h
        funext k
        rw [fft_multiplier h, fft_multiplier h]
        split_ifs with hk
        · rw [hyZ k hk, mul_zero, mul_zero]
        · rfl
      rw [e]
      have := multiplier_squares h (a := fun k => if k ∈ Z then 0 else φ k) (q := q) (fun k => by
        split_ifs with hk
        · simpa using h0
        · exact hφ k hk) w
      calc Real.sqrt (squares _) ≤ Real.sqrt (q ^ 2 * squares w) := Real.sqrt_le_sqrt this
        _ = q * Real.sqrt (squares w) := by rw [Real.sqrt_mul (sq_nonneg q), Real.sqrt_sq h0]
    have hR : Real.sqrt (squares (F y - (fun _ => z) - multiplier dims φ w)) ≤ (q' - q) * Real.sqrt (squares w) := by
      have h1 := squares_le (F y - (fun _ => z) - multiplier dims φ w)
        (r := (q' - q) / S * ‖w‖) (by positivity) (fun x => (norm_le_pi_norm _ x).trans hrem)
      refine h1.trans ?_
      rw [← hS]
      have : S * ((q' - q) / S * ‖w‖) = (q' - q) * ‖w‖ := by field_simp
      rw [this]
      exact mul_le_mul_of_nonneg_left hwn (by linarith)
    rw [hsplit]
    refine (squares_add _ _).trans ?_
    linarith
  -- all steps
  have hall : ∀ y, Real.sqrt (squares (y - fun _ => z)) < δ → (∀ k ∈ Z, fft dims (y - fun _ => z) k = 0) → ∀ j : ℕ,
      Real.sqrt (squares (F^[j] y - fun _ => z)) ≤ q' ^ j * Real.sqrt (squares (y - fun _ => z)) ∧
      ∀ k ∈ Z, fft dims (F^[j] y - fun _ => z) k = 0 := by
    intro y hy hyZ j
    have hq0 : 0 ≤ q' := by linarith
    induction j with
    | zero => exact ⟨by simp, hyZ⟩
    | succ j ih =>
      rw [Function.iterate_succ_apply']
      have hlt : Real.sqrt (squares (F^[j] y - fun _ => z)) < δ := by
        refine lt_of_le_of_lt ih.1 (lt_of_le_of_lt ?_ hy)
        exact mul_le_of_le_one_left (Real.sqrt_nonneg _) (pow_le_one₀ hq0 hq'.le)
      refine ⟨(hstep _ hlt ih.2).trans ?_, hZ _ ih.2⟩
      calc q' * Real.sqrt (squares (F^[j] y - fun _ => z))
          ≤ q' * (q' ^ j * Real.sqrt (squares (y - fun _ => z))) := mul_le_mul_of_nonneg_left ih.1 hq0
        _ = q' ^ (j + 1) * Real.sqrt (squares (y - fun _ => z)) := by ring
  refine ⟨δ / (2 * S), δ, by positivity, ?_⟩
  intro y hy hyZ j x
  have hsmall : Real.sqrt (squares (y - fun _ => z)) < δ := by
    have h1 := squares_le (y - fun _ => z) (r := δ / (2 * S)) (by positivity) (fun x => (hy x).le)
    rw [← hS] at h1
    have : S * (δ / (2 * S)) = δ / 2 := by field_simp
    rw [this] at h1
    linarith
  have h1 := (hall y hsmall hyZ j).1
  have h2 := le_squares (F^[j] y - fun _ => z) x
  have hq0 : 0 ≤ q' ^ j := pow_nonneg (by linarith) j
  refine h2.trans (h1.trans ?_)
  rw [mul_comm]
  exact mul_le_mul_of_nonneg_right hsmall.le hq0

/-! ### The step of an equation given as text -/

/-- The terms of a step: the multiplier in front of each power of the field. -/
noncomputable def stepTerms (N : Names) (c : Str → ℂ) (freq : Frequency n) (dt : ℝ) (eq : Equation) : List (Data n × ℕ) :=
  eq.terms.map fun p => (fun k => dt * (coefficient N c p * laplaceSymbol (freq k) ^ (laplacians p.1).sum) /
    (1 - dt * implicitRate N c freq eq k), degree N p)

theorem fft_list_sum (l : List (Data dims.prod)) (k : Fin dims.prod) : fft dims l.sum k = (l.map fun w => fft dims w k).sum := by
  induction l with
  | nil => simp [fft]
  | cons a l ih =>
    rw [List.sum_cons, List.map_cons, List.sum_cons, ← ih]
    exact fft_add a l.sum k

theorem fft_value (h : ∀ d ∈ dims, 0 < d) (N : Names) (c : Str → ℂ) (u : Str → Data dims.prod)
    (freq : Frequency dims.prod) (eq : Equation) (k : Fin dims.prod) :
    fft dims (Equation.value N (spectralLaplacian (fft dims)
      (fun x => divRealScalar (ifft dims x) (dims.prod : ℕ)) freq) c u eq) k =
      (eq.terms.map fun p : List Item × Option Char => coefficient N c p * laplaceSymbol (freq k) ^ (laplacians p.1).sum *
        fft dims (productValue (factorsIn N.varying p.1) u) k).sum := by
  unfold Equation.value
  rw [fft_list_sum, List.map_map]
  congr 1
  apply List.map_congr_left
  intro p _
  simp only [Function.comp_apply]
  have e := fft_smul (dims := dims) ((signOf p.2 : ℂ) * ((factorsIn N.scalars p.1).map fun f => c f.name ^ ((f.power : ℚ) : ℂ)).prod)
    ((spectralLaplacian (fft dims) (fun x => divRealScalar (ifft dims x) (dims.prod : ℕ)) freq)^[(laplacians p.1).sum]
      (productValue (factorsIn N.varying p.1) u)) k
  refine e.trans ?_
  rw [spectralLaplacian_iterate (fft dims) _ (fun x => fft_divided h x), coefficient]
  ring

theorem productValue_power {N : Names} {f : Str} (hv : N.varying = [f]) {p : List Item × Option Char}
    (hnat : ∀ g ∈ factorsIn N.varying p.1, ∃ q : ℕ, g.power = q) (u : Str → Data n) (y : Data n) (hu : u f = y) :
    productValue (factorsIn N.varying p.1) u = fun x => y x ^ degree N p := by
  funext x
  unfold productValue degree
  have hname : ∀ g ∈ factorsIn N.varying p.1, g.name = f := by
    intro g hg
    have := (List.mem_filter.mp hg).2
    rw [hv] at this
    simpa using this
  generalize factorsIn N.varying p.1 = l at hnat hname
  induction l with
  | nil => simp
  | cons g l ih =>
    rw [List.map_cons, List.prod_cons, ih (fun a ha => hnat a (by simp [ha])) (fun a ha => hname a (by simp [ha])),
      List.map_cons, List.sum_cons, pow_add, hname g (by simp), hu]
    obtain ⟨q, hq⟩ := hnat g (by simp)
    rw [hq]
    simp

theorem implicit_eq (N : Names) (c : Str → ℂ) (u : Str → Data n) (hu : ∀ x ∈ N.scalars, u x = fun _ => c x)
    (freq : Frequency n) (eq : Equation) (k : Fin n) :
    (eq.terms.map (linearFactor N eq.field u freq k)).sum = implicitRate N c freq eq k := by
  unfold implicitRate
  congr 1
  apply List.map_congr_left
  intro p _
  rw [linearFactor_congr (u' := fun x _ => c x) freq k hu]
  unfold linearFactor coefficient
  rw [prod_map_pow]

/-- One field, no functions, whole powers. -/
structure OneField (N : Names) (f : Str) (eq : Equation) : Prop where
  fields : N.fields = [f]
  functions : N.functions = []
  powers : ∀ p ∈ eq.terms, ∀ g ∈ factorsIn N.varying p.1, ∃ q : ℕ, g.power = q

/-- The step of a simulation is a polynomial of the field. -/
theorem text_polynomial (h : ∀ d ∈ dims, 0 < d) (N : Names) (hN : N.WellNamed) (f : Str)
    (m0 : EqModel dims.prod) (h0 : StartsAs N m0) (heq : m0.equations = [])
    (eq : Equation) (hone : OneField N f eq) (hq : eq.Polynomial N ∧ Unregistered m0 eq)
    (s0 : Str) (hs : s0.filter (fun c => c ≠ ' ') = eq.text) (c : Str → ℂ) :
    ∃ m M, m0.addEquation s0 = some m ∧ m.fields = [f] ∧ m.assemble c = some M ∧
      ∀ s : Stepper dims.prod, s.filter = none → (∀ k, 1 - s.dt * implicitRate N c s.freq eq k ≠ 0) →
      ∀ (st : Store m.fields.length m.derived.length dims.prod) (i : Fin m.fields.length),
        (eulerStep M (s, st)).2.fields i = polynomialStep dims (stepTerms N c s.freq s.dt eq) (st.fields i) := by
  have hder : m0.derived = [] := by
    have := h0.functions
    rw [hone.functions] at this
    exact List.map_eq_nil_iff.mp this
  obtain ⟨m, M, h1, h2, h3, h4⟩ := c97_euler h N hN m0 h0 heq (by rw [hder]; simp) [eq]
    (by intro e he; obtain rfl := List.mem_singleton.mp he; exact hq) [s0] (by simpa using hs)
    (by rw [hone.fields]; simp) c
  have hadd : m0.addEquation s0 = some m := by
    simpa [List.foldlM_cons, List.foldlM_nil] using h1
  rw [hone.fields] at h2
  refine ⟨m, M, hadd, h2, h3, ?_⟩
  intro s hfil hne st i
  have hlen : m.fields.length = 1 := by rw [h2]; rfl
  have hi0 : i.val = 0 := by have := i.2; omega
  have hget : ∀ j : Fin m.fields.length, m.fields[j] = f := by
    intro j
    have : m.fields[j] ∈ m.fields := List.getElem_mem j.2
    generalize m.fields[j] = a at this
    rw [h2] at this
    simpa using this
  have hij : ∀ j : Fin m.fields.length, j = i := fun j => Fin.ext (by have := j.2; omega)
  have hfield : eq.field = f := by
    have := hq.1.field
    rw [hone.fields] at this
    simpa using this
  have hv : N.varying = [f] := by rw [Names.varying, hone.fields, hone.functions]; rfl
  have hfs : f ∉ N.scalars := by
    intro hm
    have := hN.nodup
    rw [Names.all, List.nodup_append] at this
    exact this.2.2 f (by rw [hv]; simp) f hm rfl
  let u : Str → Data dims.prod := fun x => if x = f then st.fields i else fun _ => c x
  have huf : u f = st.fields i := by simp [u]
  have hus : ∀ x ∈ N.scalars, u x = fun _ => c x := by
    intro x hx
    have : x ≠ f := fun e => hfs (e ▸ hx)
    simp [u, this]
  apply fft_injective h
  funext k
  have key := h4 i eq (by rw [hi0]; rfl) (by rw [hget, hfield]) (c97_first M i hi0) s hfil st u
    (fun j => by rw [hget, huf, hij j]) hus (by rw [hder]; simp) k
  rw [implicit_eq N c u hus] at key
  have key := key (hne k)
  rw [fft_value h] at key
  have hval : ∀ p ∈ eq.terms, productValue (factorsIn N.varying p.1) u = fun x => st.fields i x ^ degree N p :=
    fun p hp => productValue_power hv (hone.powers p hp) u _ huf
  have e1 : fft dims (polynomialStep dims (stepTerms N c s.freq s.dt eq) (st.fields i)) k =
      fft dims (st.fields i) k + ((stepTerms N c s.freq s.dt eq).map fun t => t.1 k * fft dims (fun x => st.fields i x ^ t.2) k).sum := by
    unfold polynomialStep
    have := fft_add (st.fields i)
      (((stepTerms N c s.freq s.dt eq).map fun t => multiplier dims t.1 fun x => st.fields i x ^ t.2).sum) k
    refine this.trans ?_
    rw [fft_list_sum, List.map_map]
    congr 2
    apply List.map_congr_left
    intro t _
    exact fft_multiplier h _ _ k
  rw [e1]
  have e2 : ((stepTerms N c s.freq s.dt eq).map fun t => t.1 k * fft dims (fun x => st.fields i x ^ t.2) k).sum *
      (1 - s.dt * implicitRate N c s.freq eq k) =
      s.dt * (eq.terms.map fun p : List Item × Option Char => coefficient N c p *
        laplaceSymbol (s.freq k) ^ (laplacians p.1).sum * fft dims (productValue (factorsIn N.varying p.1) u) k).sum := by
    unfold stepTerms
    rw [List.map_map]
    generalize hl : eq.terms = l at hval
    have hne' := hne k
    clear hl
    induction l with
    | nil => simp
    | cons p l ih =>
      rw [List.map_cons, List.sum_cons, List.map_cons, List.sum_cons, add_mul, mul_add,
        ih fun a ha => hval a (by simp [ha]), hval p (by simp)]
      congr 1
      simp only [Function.comp_apply]
      field_simp
  rw [← e2] at key
  have := mul_right_cancel₀ (hne k) key
  rw [← this]
  ring

theorem factor_eq (N : Names) (c : Str → ℂ) (freq : Frequency n) (dt : ℝ) (eq : Equation) (z : ℂ) (k : Fin n) :
    1 + ((stepTerms N c freq dt eq).map fun t => t.1 k * ((t.2 : ℂ) * z ^ (t.2 - 1))).sum =
      perturbationFactor N c freq dt eq z k := by
  unfold perturbationFactor linearisedRate stepTerms
  congr 1
  rw [List.map_map]
  induction eq.terms with
  | nil => simp
  | cons p l ih =>
    rw [List.map_cons, List.sum_cons, List.map_cons, List.sum_cons, mul_add, add_div, ← ih]
    simp only [Function.comp_apply]
    ring

theorem fft_polynomialStep (h : ∀ d ∈ dims, 0 < d) (terms : List (Data dims.prod × ℕ)) (y : Data dims.prod)
    (k : Fin dims.prod) : fft dims (polynomialStep dims terms y) k =
      fft dims y k + (terms.map fun t => t.1 k * fft dims (fun x => y x ^ t.2) k).sum := by
  unfold polynomialStep
  have := fft_add y ((terms.map fun t => multiplier dims t.1 fun x => y x ^ t.2).sum) k
  refine this.trans ?_
  rw [fft_list_sum, List.map_map]
  congr 2
  apply List.map_congr_left
  intro t _
  exact fft_multiplier h _ _ k

theorem uniform_rests (h : GoodDims (intDims dims)) (N : Names) (c : Str → ℂ) (dt : ℝ) (eq : Equation) (z : ℂ)
    (hz : uniformRate N c eq z = 0) :
    polynomialStep dims (stepTerms N c (freqOf dims) dt eq) (fun _ => z) = fun _ => z := by
  apply fft_injective (pos_of_goodDims h)
  funext k
  rw [fft_polynomialStep (pos_of_goodDims h)]
  simp only [fft_const (pos_of_goodDims h)]
  split_ifs with hk
  · have e : ((stepTerms N c (freqOf dims) dt eq).map fun t => t.1 k * ((dims.prod : ℂ) * z ^ t.2)).sum =
        dt / (1 - dt * implicitRate N c (freqOf dims) eq k) * (dims.prod : ℂ) * uniformRate N c eq z := by
      unfold stepTerms uniformRate
      rw [List.map_map]
      induction eq.terms with
      | nil => simp
      | cons p l ih =>
        rw [List.map_cons, List.sum_cons, List.map_cons, List.sum_cons, mul_add, ← ih]
        congr 1
        simp only [Function.comp_apply, symbol_origin h k hk]
        split_ifs with hp
        · rw [hp]; ring
        · rw [zero_pow hp]; ring
    rw [e, hz]
    ring
  · rw [List.sum_eq_zero]
    · ring
    · intro y hy
      obtain ⟨t, -, rfl⟩ := List.mem_map.mp hy
      ring

/-- The step of the simulation, many times. -/
theorem propagate_iterate {nf nd : ℕ} {M : Model nf nd dims.prod} {i : Fin nf} {F : Data dims.prod → Data dims.prod}
    {s : Stepper dims.prod} (hF : ∀ s' : Stepper dims.prod, s'.dt = s.dt → s'.freq = s.freq → s'.filter = s.filter →
      ∀ st, (eulerStep M (s', st)).2.fields i = F (st.fields i)) (st : Store nf nd dims.prod) (steps : ℕ) :
    (eulerPropagate M steps (s, st)).2.fields i = F^[steps] (st.fields i) := by
  have key : ((eulerPropagate M steps (s, st)).1.dt = s.dt ∧ (eulerPropagate M steps (s, st)).1.freq = s.freq ∧
      (eulerPropagate M steps (s, st)).1.filter = s.filter) ∧
      (eulerPropagate M steps (s, st)).2.fields i = F^[steps] (st.fields i) := by
    induction steps with
    | zero => simp [eulerPropagate]
    | succ j ih =>
      have e : eulerPropagate M (j + 1) (s, st) = eulerStep M (eulerPropagate M j (s, st)) := by
        simp [eulerPropagate, List.range_succ]
      rw [e, Function.iterate_succ_apply']
      generalize eulerPropagate M j (s, st) = p at ih
      obtain ⟨p1, p2⟩ := p
      obtain ⟨⟨a, b, c⟩, d⟩ := ih
      refine ⟨⟨a, b, c⟩, ?_⟩
      rw [hF p1 a b c, ← d]
  exact key.2

/-- C126: a uniform state of which the equation says that it rests does rest in a simulation. A small perturbation of
it is, to first order, taken by the steps wave by wave: each step multiplies the wave `k` by
`1 + dt r / (1 - dt a)`, where `r` is the growth rate of the linearised equation and `a` its implicit part. It does
not matter how the perturbation depends on its size `ε`. -/
theorem c126_waves (h : GoodDims (intDims dims)) (N : Names) (hN : N.WellNamed) (f : Str)
    (m0 : EqModel dims.prod) (h0 : StartsAs N m0) (heq : m0.equations = [])
    (eq : Equation) (hone : OneField N f eq) (hq : eq.Polynomial N ∧ Unregistered m0 eq)
    (s0 : Str) (hs : s0.filter (fun c => c ≠ ' ') = eq.text) (c : Str → ℂ) :
    ∃ m M, m0.addEquation s0 = some m ∧ m.fields = [f] ∧ m.assemble c = some M ∧
      ∀ z, uniformRate N c eq z = 0 → ∀ s : Stepper dims.prod, s.filter = none → s.freq = freqOf dims →
      (∀ k, 1 - s.dt * implicitRate N c (freqOf dims) eq k ≠ 0) →
      ∀ (y : ℂ → Store m.fields.length m.derived.length dims.prod) (v : Data dims.prod) (i : Fin m.fields.length),
        (∀ x, (y 0).fields i x = z) → (∀ x, HasDerivAt (fun ε => (y ε).fields i x) (v x) 0) → ∀ steps,
        (∀ x, (eulerPropagate M steps (s, y 0)).2.fields i x = z) ∧
        ∃ w : Data dims.prod, (∀ x, HasDerivAt (fun ε => (eulerPropagate M steps (s, y ε)).2.fields i x) (w x) 0) ∧
          ∀ k, fft dims w k = perturbationFactor N c (freqOf dims) s.dt eq z k ^ steps * fft dims v k := by
  have hpos := pos_of_goodDims h
  obtain ⟨m, M, h1, h2, h3, h4⟩ := text_polynomial hpos N hN f m0 h0 heq eq hone hq s0 hs c
  refine ⟨m, M, h1, h2, h3, ?_⟩
  intro z hz s hfil hfreq hne y v i hy hv steps
  set F := polynomialStep dims (stepTerms N c (freqOf dims) s.dt eq) with hFdef
  have hF : ∀ s' : Stepper dims.prod, s'.dt = s.dt → s'.freq = s.freq → s'.filter = s.filter →
      ∀ st, (eulerStep M (s', st)).2.fields i = F (st.fields i) := by
    intro s' a b d st
    rw [h4 s' (by rw [d, hfil]) (by rw [a, b, hfreq]; exact hne) st i, a, b, hfreq]
  simp only [propagate_iterate hF]
  have hfix := uniform_rests h N c s.dt eq z hz
  rw [← hFdef] at hfix
  have hD := step_hasFDerivAt hpos (stepTerms N c (freqOf dims) s.dt eq) z
  rw [← hFdef] at hD
  simp only [factor_eq] at hD
  have hy0 : (y 0).fields i = fun _ => z := funext hy
  induction steps with
  | zero => exact ⟨hy, v, hv, fun k => by simp⟩
  | succ j ih =>
    obtain ⟨a, w, b, d⟩ := ih
    simp only [Function.iterate_succ_apply']
    have ha : F^[j] ((y 0).fields i) = fun _ => z := funext a
    refine ⟨fun x => by rw [ha, hfix], multiplier dims (perturbationFactor N c (freqOf dims) s.dt eq z) w, ?_, ?_⟩
    · have hcurve : HasDerivAt (fun ε => F^[j] ((y ε).fields i)) w 0 := hasDerivAt_pi.mpr b
      have hD' : HasFDerivAt F (LinearMap.toContinuousLinearMap (multiplier dims
          fun k => perturbationFactor N c (freqOf dims) s.dt eq z k)) (F^[j] ((y 0).fields i)) := by rw [ha]; exact hD
      have := hD'.comp_hasDerivAt (0 : ℂ) hcurve
      exact fun x => hasDerivAt_pi.mp this x
    · intro k
      rw [fft_multiplier hpos, d k, pow_succ]
      ring

theorem uniform_bound (φ : Data n) (Z : Set (Fin n)) (hφ : ∀ k, k ∉ Z → ‖φ k‖ < 1) :
    ∃ q : ℝ, 0 ≤ q ∧ q < 1 ∧ ∀ k, k ∉ Z → ‖φ k‖ ≤ q := by
  classical
  rcases (Finset.univ.filter fun k : Fin n => k ∉ Z).eq_empty_or_nonempty with he | hne
  · refine ⟨0, le_rfl, one_pos, fun k hk => ?_⟩
    have : k ∈ (Finset.univ.filter fun k : Fin n => k ∉ Z) := by simp [hk]
    rw [he] at this
    simp at this
  · obtain ⟨k0, hk0, hmax⟩ := Finset.exists_max_image _ (fun k => ‖φ k‖) hne
    refine ⟨‖φ k0‖, norm_nonneg _, hφ k0 (by simpa using hk0), fun k hk => hmax k (by simpa using hk)⟩

/-- The common part of the two theorems on stability. -/
theorem stable_text (h : GoodDims (intDims dims)) (N : Names) (hN : N.WellNamed) (f : Str)
    (m0 : EqModel dims.prod) (h0 : StartsAs N m0) (heq : m0.equations = [])
    (eq : Equation) (hone : OneField N f eq) (hq : eq.Polynomial N ∧ Unregistered m0 eq)
    (s0 : Str) (hs : s0.filter (fun c => c ≠ ' ') = eq.text) (c : Str → ℂ) :
    ∃ m M, m0.addEquation s0 = some m ∧ m.fields = [f] ∧ m.assemble c = some M ∧
      ∀ z, uniformRate N c eq z = 0 → ∀ s : Stepper dims.prod, s.filter = none → s.freq = freqOf dims →
      (∀ k, 1 - s.dt * implicitRate N c (freqOf dims) eq k ≠ 0) →
      ∀ Z : Set (Fin dims.prod), (∀ k, k ∉ Z → ‖perturbationFactor N c (freqOf dims) s.dt eq z k‖ < 1) →
      (∀ k ∈ Z, ∀ p ∈ eq.terms, laplaceSymbol (freqOf dims k) ^ (laplacians p.1).sum = 0) →
      ∃ δ C q : ℝ, 0 < δ ∧ q < 1 ∧ 0 ≤ q ∧ ∀ (st : Store m.fields.length m.derived.length dims.prod)
        (i : Fin m.fields.length), (∀ x, ‖st.fields i x - z‖ < δ) →
        (∀ k ∈ Z, fft dims (st.fields i - fun _ => z) k = 0) →
        ∀ steps x, ‖(eulerPropagate M steps (s, st)).2.fields i x - z‖ ≤ C * q ^ steps := by
  have hpos := pos_of_goodDims h
  obtain ⟨m, M, h1, h2, h3, h4⟩ := text_polynomial hpos N hN f m0 h0 heq eq hone hq s0 hs c
  refine ⟨m, M, h1, h2, h3, ?_⟩
  intro z hz s hfil hfreq hne Z hφ hZ
  set F := polynomialStep dims (stepTerms N c (freqOf dims) s.dt eq) with hFdef
  have hF : ∀ (i : Fin m.fields.length) (s' : Stepper dims.prod), s'.dt = s.dt → s'.freq = s.freq →
      s'.filter = s.filter → ∀ st, (eulerStep M (s', st)).2.fields i = F (st.fields i) := by
    intro i s' a b d st
    rw [h4 s' (by rw [d, hfil]) (by rw [a, b, hfreq]; exact hne) st i, a, b, hfreq]
  have hfix := uniform_rests h N c s.dt eq z hz
  rw [← hFdef] at hfix
  have hD := step_hasFDerivAt hpos (stepTerms N c (freqOf dims) s.dt eq) z
  rw [← hFdef] at hD
  simp only [factor_eq] at hD
  obtain ⟨q, hq0, hq1, hqb⟩ := uniform_bound (perturbationFactor N c (freqOf dims) s.dt eq z) Z hφ
  obtain ⟨δ, C, hδ, hall⟩ := attraction hpos hD hfix (q := q) (q' := (q + 1) / 2) (by linarith) (by linarith) hq0 Z hqb
    (by
      intro y hy k hk
      have e : ∀ w : Data dims.prod, fft dims (w - fun _ => z) k = fft dims w k - fft dims (fun _ => z) k := by
        intro w
        have := fft_add (w - fun _ => z) (fun _ => z) k
        have e2 : (fun j => (w - fun _ => z : Data dims.prod) j + z) = w := by funext j; simp
        rw [e2] at this
        rw [this]
        ring
      rw [e, hFdef, fft_polynomialStep hpos, List.sum_eq_zero, add_zero, ← e]
      · exact hy k hk
      · intro y hy
        obtain ⟨t, ht, rfl⟩ := List.mem_map.mp hy
        obtain ⟨p, hp, rfl⟩ := List.mem_map.mp ht
        dsimp only
        rw [hZ k hk p hp]
        simp)
  refine ⟨δ, C, (q + 1) / 2, hδ, by linarith, by linarith, ?_⟩
  intro st i hst hstZ steps x
  rw [propagate_iterate (hF i)]
  exact hall _ hst hstZ steps x

/-- C126: if all these factors are less than one in modulus, fields that are everywhere close enough to the uniform
state converge to it, exponentially in the number of steps. -/
theorem c126_stable (h : GoodDims (intDims dims)) (N : Names) (hN : N.WellNamed) (f : Str)
    (m0 : EqModel dims.prod) (h0 : StartsAs N m0) (heq : m0.equations = [])
    (eq : Equation) (hone : OneField N f eq) (hq : eq.Polynomial N ∧ Unregistered m0 eq)
    (s0 : Str) (hs : s0.filter (fun c => c ≠ ' ') = eq.text) (c : Str → ℂ) :
    ∃ m M, m0.addEquation s0 = some m ∧ m.fields = [f] ∧ m.assemble c = some M ∧
      ∀ z, uniformRate N c eq z = 0 → ∀ s : Stepper dims.prod, s.filter = none → s.freq = freqOf dims →
      (∀ k, 1 - s.dt * implicitRate N c (freqOf dims) eq k ≠ 0) →
      (∀ k, ‖perturbationFactor N c (freqOf dims) s.dt eq z k‖ < 1) →
      ∃ δ C q : ℝ, 0 < δ ∧ q < 1 ∧ 0 ≤ q ∧ ∀ (st : Store m.fields.length m.derived.length dims.prod)
        (i : Fin m.fields.length), (∀ x, ‖st.fields i x - z‖ < δ) →
        ∀ steps x, ‖(eulerPropagate M steps (s, st)).2.fields i x - z‖ ≤ C * q ^ steps := by
  obtain ⟨m, M, h1, h2, h3, h4⟩ := stable_text h N hN f m0 h0 heq eq hone hq s0 hs c
  refine ⟨m, M, h1, h2, h3, ?_⟩
  intro z hz s hfil hfreq hne hφ
  obtain ⟨δ, C, q, a, b, b', d⟩ := h4 z hz s hfil hfreq hne ∅ (fun k _ => hφ k) (by simp)
  exact ⟨δ, C, q, a, b, b', fun st i hst => d st i hst (by simp)⟩

/-- C126: if every term has a Laplacian, every uniform state rests, and if the factors of all waves except the uniform
one are less than one in modulus, fields close enough to a uniform state with the same mean converge to it. -/
theorem c126_conserved (h : GoodDims (intDims dims)) (N : Names) (hN : N.WellNamed) (f : Str)
    (m0 : EqModel dims.prod) (h0 : StartsAs N m0) (heq : m0.equations = [])
    (eq : Equation) (hone : OneField N f eq) (hq : eq.Polynomial N ∧ Unregistered m0 eq) (hdiv : Equation.Divergence eq)
    (s0 : Str) (hs : s0.filter (fun c => c ≠ ' ') = eq.text) (c : Str → ℂ) :
    ∃ m M, m0.addEquation s0 = some m ∧ m.fields = [f] ∧ m.assemble c = some M ∧
      ∀ (z : ℂ) (s : Stepper dims.prod), s.filter = none → s.freq = freqOf dims →
      (∀ k, 1 - s.dt * implicitRate N c (freqOf dims) eq k ≠ 0) →
      (∀ k : Fin dims.prod, k.val ≠ 0 → ‖perturbationFactor N c (freqOf dims) s.dt eq z k‖ < 1) →
      ∃ δ C q : ℝ, 0 < δ ∧ q < 1 ∧ 0 ≤ q ∧ ∀ (st : Store m.fields.length m.derived.length dims.prod)
        (i : Fin m.fields.length), (∀ x, ‖st.fields i x - z‖ < δ) → ∑ x, st.fields i x = ∑ _x : Fin dims.prod, z →
        ∀ steps x, ‖(eulerPropagate M steps (s, st)).2.fields i x - z‖ ≤ C * q ^ steps := by
  obtain ⟨m, M, h1, h2, h3, h4⟩ := stable_text h N hN f m0 h0 heq eq hone hq s0 hs c
  refine ⟨m, M, h1, h2, h3, ?_⟩
  intro z s hfil hfreq hne hφ
  have hz : uniformRate N c eq z = 0 := by
    apply List.sum_eq_zero
    intro y hy
    obtain ⟨p, hp, rfl⟩ := List.mem_map.mp hy
    rw [if_neg (hdiv p hp)]
  obtain ⟨δ, C, q, a, b, b', d⟩ := h4 z hz s hfil hfreq hne {k | k.val = 0} (fun k hk => hφ k hk) (by
    intro k hk p hp
    rw [symbol_origin h k hk, zero_pow (hdiv p hp)])
  refine ⟨δ, C, q, a, b, b', fun st i hst hsum => d st i hst ?_⟩
  intro k hk
  rw [fft_zero_bin _ k hk]
  simp only [Pi.sub_apply, Finset.sum_sub_distrib, hsum, sub_self]

/-- C126: the limit of the time step. For real rates with `dt a < 1` the factor is less than one in modulus exactly if
the wave decays by the linearised equation and `dt |r| < 2 (1 - dt a)`; a wave that grows by the linearised equation
grows in the simulation. -/
theorem c126_limit (N : Names) (c : Str → ℂ) (freq : Frequency n) {dt : ℝ} (hdt : 0 < dt) (eq : Equation) (z : ℂ)
    (k : Fin n) {r a : ℝ} (hr : linearisedRate N c freq eq z k = r) (ha : implicitRate N c freq eq k = a)
    (hlt : dt * a < 1) :
    (‖perturbationFactor N c freq dt eq z k‖ < 1 ↔ r < 0 ∧ dt * -r < 2 * (1 - dt * a)) ∧
      (1 < ‖perturbationFactor N c freq dt eq z k‖ ↔ 0 < r ∨ 2 * (1 - dt * a) < dt * -r) := by
  have hp : 0 < 1 - dt * a := by linarith
  have e : perturbationFactor N c freq dt eq z k = ((1 + dt * r / (1 - dt * a) : ℝ) : ℂ) := by
    rw [perturbationFactor, hr, ha]
    push_cast
    ring
  have e2 : 1 + dt * r / (1 - dt * a) = (1 - dt * a + dt * r) / (1 - dt * a) := by field_simp
  rw [e, Complex.norm_real, Real.norm_eq_abs, e2, abs_div, abs_of_pos hp]
  constructor
  · rw [div_lt_one hp, abs_lt]
    constructor
    · rintro ⟨h1, h2⟩
      have : dt * r < 0 := by linarith
      exact ⟨(pos_iff_neg_of_mul_neg this).mp hdt, by linarith⟩
    · rintro ⟨h1, h2⟩
      have := mul_neg_of_pos_of_neg hdt h1
      constructor <;> linarith
  · rw [one_lt_div hp, lt_abs]
    constructor
    · rintro (h1 | h1)
      · left
        have : 0 < dt * r := by linarith
        exact (pos_iff_pos_of_mul_pos this).mp hdt
      · right; linarith
    · rintro (h1 | h1)
      · left
        have := mul_pos hdt h1
        linarith
      · right; linarith

/-! ### The Cahn-Hilliard equation -/

/-- `4π²|f|²` of the wave `k`. -/
noncomputable def laplaceNumber (dims : List ℕ) (k : Fin dims.prod) : ℝ :=
  4 * Real.pi ^ 2 * ((freqOf dims k).map fun x => x ^ 2).sum

theorem phi_ne_zero {x d : ℤ} (h0 : 0 < x) (h1 : x < d) : phi x d ≠ 0 := by
  intro h
  obtain ⟨k, hk⟩ := phi_int x d
  rw [h] at hk
  have hd : (0 : ℚ) < d := by exact_mod_cast lt_trans h0 h1
  have e : (x : ℚ) = (-k) * d := by field_simp at hk; linarith
  have e' : x = -k * d := by exact_mod_cast e
  have hk1 : 0 < -k := by
    by_contra hc
    have : -k * d ≤ 0 := mul_nonpos_of_nonpos_of_nonneg (by omega) (by omega)
    omega
  have : d ≤ -k * d := le_mul_of_one_le_left (by omega) (by omega)
  omega

theorem laplaceNumber_pos (h : GoodDims (intDims dims)) (k : Fin dims.prod) (hk : k.val ≠ 0) : 0 < laplaceNumber dims k := by
  have hex : ∃ j : Fin dims.length, coord dims k.val j.val ≠ 0 := by
    by_contra hc
    push Not at hc
    have h0 : 0 < dims.prod := k.pos
    have : k = ⟨0, h0⟩ := coord_injective h fun j => by rw [hc j, coord_origin h ⟨0, h0⟩ rfl j]
    exact hk (by rw [this])
  obtain ⟨j, hj⟩ := hex
  have hr := coord_range h k j
  have hne := phi_ne_zero (lt_of_le_of_ne hr.1 (Ne.symm hj)) hr.2
  unfold laplaceNumber
  have hpi := Real.pi_pos
  have hs : 0 < ((freqOf dims k).map fun x => x ^ 2).sum := by
    rw [freqOf_coord h, List.map_ofFn, List.sum_ofFn]
    refine Finset.sum_pos' (fun j _ => by simp only [Function.comp_apply]; positivity) ⟨j, Finset.mem_univ j, ?_⟩
    simp only [Function.comp_apply]
    have : ((phi (coord dims k.val j.val) (dims[j] : ℤ) : ℚ) : ℝ) ≠ 0 := by exact_mod_cast hne
    positivity
  positivity

theorem symbol_laplaceNumber (k : Fin dims.prod) : laplaceSymbol (freqOf dims k) = -(laplaceNumber dims k : ℂ) := rfl

theorem conc_term (l : Option (Option (List Char))) (hl : l = some none ∨ l = some (some ['2'])) (e : Option Exponent)
    (he : e = none ∨ e = some ⟨['3'], none⟩) : Monomial concNames [⟨l, some ⟨"conc".toList, e⟩⟩] where
  readable :=
    { wf := by
        intro i hi
        obtain rfl := List.mem_singleton.mp hi
        refine ⟨by simp, ?_, ?_, by simp; decide, by
          intro f hf _
          have : f = ⟨"conc".toList, e⟩ := by simpa using hf.symm
          subst this
          exact ⟨List.mem_of_elem_eq_true (by rfl), by simp, by simp⟩⟩
        · rcases he with rfl | rfl <;> simp [Exponent.WellFormed]
        · rcases hl with rfl | rfl <;> simp
      oneLap := by rcases hl with rfl | rfl <;> simp [laplacians]
      lapFirst := by
        intro pre i post h hl j hj
        cases pre with
        | nil => simp at hj
        | cons p pre => simp at h
      together := ⟨[], [⟨l, some ⟨"conc".toList, e⟩⟩], [], by simp, by simp, by simp,
        by simp; decide, by simp, by simp⟩ }
  once := by
    intro x _
    exact (List.length_filter_le _ _)
  kind := Or.inl ⟨by simp [factorsIn, concNames], by rcases he with rfl | rfl <;> simp [factorsIn, concNames]⟩
  exactOne := by
    intro f hf
    have : f = ⟨"conc".toList, e⟩ := by
      simpa using (List.mem_filter.mp hf).1
    subst this
    rcases he with rfl | rfl
    · intro _; decide +kernel
    · intro h
      have p1 : Factor.power ⟨"conc".toList, some ⟨['3'], none⟩⟩ = 3 := by decide +kernel
      rw [p1] at h
      norm_num at h

/-- `dconc/dt = LAPconc^3 - LAPconc - LAP^2conc`. -/
def hilliardEquation : Equation := ⟨"conc".toList, none, [⟨some none, some ⟨"conc".toList, some ⟨['3'], none⟩⟩⟩],
  [('-', [⟨some none, some ⟨"conc".toList, none⟩⟩]), ('-', [⟨some (some ['2']), some ⟨"conc".toList, none⟩⟩])]⟩

theorem hilliard_polynomial : Equation.Polynomial concNames hilliardEquation := by
  refine ⟨by decide, by simp [hilliardEquation], by simp [hilliardEquation], ?_⟩
  intro p hp
  simp only [hilliardEquation, Equation.terms, List.map_cons, List.map_nil, List.mem_cons, List.not_mem_nil,
    or_false] at hp
  rcases hp with rfl | rfl | rfl
  · exact conc_term _ (Or.inl rfl) _ (Or.inr rfl)
  · exact conc_term _ (Or.inl rfl) _ (Or.inl rfl)
  · exact conc_term _ (Or.inr rfl) _ (Or.inl rfl)

theorem hilliard_power3 : Factor.power ⟨"conc".toList, some ⟨['3'], none⟩⟩ = 3 := by decide +kernel
theorem hilliard_power1 : Factor.power ⟨"conc".toList, none⟩ = 1 := by decide +kernel

theorem hilliard_oneField : OneField concNames "conc".toList hilliardEquation := by
  refine ⟨rfl, rfl, ?_⟩
  intro p hp g hg
  have hf := (List.mem_filter.mp hg).1
  simp only [hilliardEquation, Equation.terms, List.map_cons, List.map_nil, List.mem_cons, List.not_mem_nil,
    or_false] at hp
  rcases hp with rfl | rfl | rfl
  · have : g = ⟨"conc".toList, some ⟨['3'], none⟩⟩ := by simpa using hf
    subst this
    exact ⟨3, by rw [hilliard_power3]; norm_num⟩
  · have : g = ⟨"conc".toList, none⟩ := by simpa using hf
    subst this
    exact ⟨1, by rw [hilliard_power1]; norm_num⟩
  · have : g = ⟨"conc".toList, none⟩ := by simpa using hf
    subst this
    exact ⟨1, by rw [hilliard_power1]; norm_num⟩

theorem hilliard_divergence : Equation.Divergence hilliardEquation := by
  unfold Equation.Divergence
  decide

theorem hilliard_linearised (c : Str → ℂ) (z : ℝ) (k : Fin dims.prod) :
    linearisedRate concNames c (freqOf dims) hilliardEquation z k =
      ((laplaceNumber dims k * (1 - 3 * z ^ 2) - laplaceNumber dims k ^ 2 : ℝ) : ℂ) := by
  have s1 : ∀ l, factorsIn concNames.scalars l = [] := by intro l; simp [factorsIn, concNames]
  have g1 : signOf none = 1 := by decide
  have g2 : signOf (some '-') = -1 := by decide
  have d1 : degree concNames ([⟨some none, some ⟨"conc".toList, some ⟨['3'], none⟩⟩⟩], none) = 3 := by decide +kernel
  have d2 : degree concNames ([⟨some none, some ⟨"conc".toList, none⟩⟩], some '-') = 1 := by decide +kernel
  have d3 : degree concNames ([⟨some (some ['2']), some ⟨"conc".toList, none⟩⟩], some '-') = 1 := by decide +kernel
  have l1 : ∀ f, (laplacians [⟨some none, f⟩]).sum = 1 := by intro f; simp [laplacians, lapValue]
  have l2 : ∀ f, (laplacians [⟨some (some ['2']), f⟩]).sum = 2 := by
    intro f
    have : lapValue (some ['2']) = 2 := by decide
    simp [laplacians, this]
  simp only [linearisedRate, coefficient, hilliardEquation, Equation.terms, List.map_cons, List.map_nil, List.sum_cons,
    List.sum_nil, s1, g1, g2, d1, d2, d3, l1, l2, List.prod_nil, symbol_laplaceNumber]
  push_cast
  ring

theorem conc_linearIn (l : Option (Option (List Char))) :
    LinearIn "conc".toList concNames.varying [⟨l, some ⟨"conc".toList, none⟩⟩] := by
  refine ⟨by simp [occurrences, Item.name?], ?_, ?_⟩
  · intro g hg hne
    have : g = "conc".toList := by simpa [concNames, Names.varying] using hg
    exact absurd this hne
  · intro i hi f hf
    have hi' : i = ⟨l, some ⟨"conc".toList, none⟩⟩ := by simpa using (List.mem_filter.mp hi).1
    subst hi'
    have hf' : f = ⟨"conc".toList, none⟩ := by simpa using hf.symm
    subst hf'
    rw [hilliard_power1]
    norm_num

theorem cube_not_linearIn (l : Option (Option (List Char))) :
    ¬ LinearIn "conc".toList concNames.varying [⟨l, some ⟨"conc".toList, some ⟨['3'], none⟩⟩⟩] := by
  rintro ⟨-, -, h3⟩
  have := h3 ⟨l, some ⟨"conc".toList, some ⟨['3'], none⟩⟩⟩ (by simp [occurrences, Item.name?]) _ rfl
  rw [hilliard_power3] at this
  norm_num at this

theorem hilliard_implicit (c : Str → ℂ) (k : Fin dims.prod) :
    implicitRate concNames c (freqOf dims) hilliardEquation k =
      ((laplaceNumber dims k - laplaceNumber dims k ^ 2 : ℝ) : ℂ) := by
  have s1 : ∀ l, factorsIn concNames.scalars l = [] := by intro l; simp [factorsIn, concNames]
  have g2 : signOf (some '-') = -1 := by decide
  have l1 : ∀ f, (laplacians [⟨some none, f⟩]).sum = 1 := by intro f; simp [laplacians, lapValue]
  have l2 : ∀ f, (laplacians [⟨some (some ['2']), f⟩]).sum = 2 := by
    intro f
    have : lapValue (some ['2']) = 2 := by decide
    simp [laplacians, this]
  unfold implicitRate
  rw [show hilliardEquation.terms = [([⟨some none, some ⟨"conc".toList, some ⟨['3'], none⟩⟩⟩], none),
    ([⟨some none, some ⟨"conc".toList, none⟩⟩], some '-'),
    ([⟨some (some ['2']), some ⟨"conc".toList, none⟩⟩], some '-')] from rfl]
  rw [List.map_cons, List.map_cons, List.map_cons, List.map_nil]
  rw [if_neg (by exact cube_not_linearIn _), if_pos (by exact conc_linearIn _), if_pos (by exact conc_linearIn _)]
  simp only [coefficient, List.sum_cons, List.sum_nil, s1, g2, l1, l2, List.map_nil, List.prod_nil, symbol_laplaceNumber]
  push_cast
  ring

/-- C126: the Cahn-Hilliard equation. Outside the spinodal (`3 z^2 > 1`) and for time steps below `8/(3 z^2 + 1)^2`,
fields that are close enough to the uniform state `z` and have mean `z` converge to it, on every grid. -/
theorem c126_cahn_hilliard (h : GoodDims (intDims dims)) {z dt : ℝ} (hz : 1 < 3 * z ^ 2) (hdt : 0 < dt)
    (hlim : dt * (3 * z ^ 2 + 1) ^ 2 < 8) :
    ∃ m M, ((EqModel.empty (n := dims.prod)).addField "conc".toList).addEquation
        "dconc/dt = LAPconc^3 - LAPconc - LAP^2conc".toList = some m ∧ m.assemble (fun _ => 0) = some M ∧
      ∀ s : Stepper dims.prod, s.dt = dt → s.filter = none → s.freq = freqOf dims →
      ∃ δ C q : ℝ, 0 < δ ∧ q < 1 ∧ 0 ≤ q ∧ ∀ (st : Store m.fields.length m.derived.length dims.prod)
        (i : Fin m.fields.length), (∀ x, ‖st.fields i x - z‖ < δ) → ∑ x, st.fields i x = ∑ _x : Fin dims.prod, (z : ℂ) →
        ∀ steps x, ‖(eulerPropagate M steps (s, st)).2.fields i x - z‖ ≤ C * q ^ steps := by
  obtain ⟨m, M, h1, h2, h3, h4⟩ := c126_conserved h concNames conc_wellNamed "conc".toList
    ((EqModel.empty (n := dims.prod)).addField "conc".toList) ⟨rfl, rfl, fun x => Iff.rfl⟩ rfl hilliardEquation
    hilliard_oneField ⟨hilliard_polynomial, fun _ _ => ⟨rfl, rfl⟩⟩ hilliard_divergence
    "dconc/dt = LAPconc^3 - LAPconc - LAP^2conc".toList (by decide) fun _ => 0
  refine ⟨m, M, h1, h3, ?_⟩
  intro s hs hfil hfreq
  have hsmall : dt < 2 := by
    by_contra hc
    push Not at hc
    have : (4 : ℝ) ≤ (3 * z ^ 2 + 1) ^ 2 := by nlinarith
    nlinarith
  have hA : ∀ q : ℝ, dt * (q - q ^ 2) < 1 := by
    intro q
    have h5 : q - q ^ 2 ≤ 1 / 4 := by nlinarith [sq_nonneg (q - 1 / 2)]
    have := mul_le_mul_of_nonneg_left h5 hdt.le
    linarith
  refine h4 z s hfil hfreq ?_ ?_
  · intro k h0
    rw [hilliard_implicit, hs] at h0
    have : (1 - dt * (laplaceNumber dims k - laplaceNumber dims k ^ 2) : ℝ) = 0 := by exact_mod_cast h0
    linarith [hA (laplaceNumber dims k)]
  · intro k hk
    have hq := laplaceNumber_pos h k hk
    rw [hs]
    rw [(c126_limit concNames (fun _ => 0) (freqOf dims) hdt hilliardEquation z k (hilliard_linearised _ z k)
      (hilliard_implicit _ k) (hA _)).1]
    generalize laplaceNumber dims k = q at hq
    constructor
    · have : q * (1 - 3 * z ^ 2) < 0 := mul_neg_of_pos_of_neg hq (by linarith)
      have : 0 ≤ q ^ 2 := sq_nonneg q
      linarith
    · have h6 : q * (3 * z ^ 2 + 1) - q ^ 2 ≤ (3 * z ^ 2 + 1) ^ 2 / 4 := by
        nlinarith [sq_nonneg (q - (3 * z ^ 2 + 1) / 2)]
      have h7 := mul_le_mul_of_nonneg_left h6 hdt.le
      nlinarith

/-- C126: inside the spinodal (`3 z^2 < 1`) the waves with `4π²|f|² < 1 - 3 z^2` grow, for every time step below 4. -/
theorem c126_spinodal {z dt : ℝ} (hdt : 0 < dt) (hdt4 : dt < 4) (k : Fin dims.prod)
    (hk : 0 < laplaceNumber dims k) (hs : laplaceNumber dims k < 1 - 3 * z ^ 2) :
    1 < ‖perturbationFactor concNames (fun _ => 0) (freqOf dims) dt hilliardEquation z k‖ := by
  have hA : dt * (laplaceNumber dims k - laplaceNumber dims k ^ 2) < 1 := by
    have h5 : laplaceNumber dims k - laplaceNumber dims k ^ 2 ≤ 1 / 4 := by nlinarith [sq_nonneg (laplaceNumber dims k - 1 / 2)]
    have := mul_le_mul_of_nonneg_left h5 hdt.le
    linarith
  refine (c126_limit concNames (fun _ => 0) (freqOf dims) hdt hilliardEquation z k (hilliard_linearised _ z k)
      (hilliard_implicit _ k) hA).2.mpr (Or.inl ?_)
  nlinarith

/-- The numbers of the last theorems: `z = 1` with a time step of 1/4, and a wave on a grid of 16 times 16 nodes. -/
example : (1 : ℝ) < 3 * 1 ^ 2 ∧ (1 / 4 : ℝ) * (3 * 1 ^ 2 + 1) ^ 2 < 8 ∧ GoodDims (intDims [16, 16]) := by
  refine ⟨by norm_num, by norm_num, by simp [GoodDims, intDims]⟩

end Gopf.Props
