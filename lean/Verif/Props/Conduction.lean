import Verif.Model.ElectricConductivity
import Verif.Props.Transport
import Verif.Props.Growth
import Verif.Props.Energy
import Verif.Props.Nucleation

/-!
# C141: charge transport in a heterogeneous anisotropic conductor
-/

namespace Gopf.Props
open Spec Pf Pfutil
open scoped BigOperators Topology
open Filter

variable {n : ℕ} {dims : List ℕ}

/-! ### Symmetric forms -/

theorem form_expand {m : ℕ} {S : Fin m → Fin m → ℝ} (hS : ∀ d e, S d e = S e d) (v w : Fin m → ℝ) (t : ℝ) :
    ∑ d, ∑ e, S d e * (v d - t * w d) * (v e - t * w e) =
      ∑ d, ∑ e, S d e * v d * v e - 2 * t * ∑ d, w d * ∑ e, S e d * v e + t ^ 2 * ∑ d, ∑ e, S d e * w d * w e := by
  have e1 : ∑ d, ∑ e, S d e * v d * w e = ∑ d, w d * ∑ e, S e d * v e := by
    rw [Finset.sum_comm]
    refine Finset.sum_congr rfl fun d _ => ?_
    rw [Finset.mul_sum]
    exact Finset.sum_congr rfl fun e _ => by ring
  have e2 : ∑ d, ∑ e, S d e * w d * v e = ∑ d, w d * ∑ e, S e d * v e := by
    refine Finset.sum_congr rfl fun d _ => ?_
    rw [Finset.mul_sum]
    exact Finset.sum_congr rfl fun e _ => by rw [hS d e]; ring
  have e3 : ∑ d, ∑ e, S d e * (v d - t * w d) * (v e - t * w e) = ∑ d, ∑ e, S d e * v d * v e -
      t * ∑ d, ∑ e, S d e * v d * w e - t * ∑ d, ∑ e, S d e * w d * v e + t ^ 2 * ∑ d, ∑ e, S d e * w d * w e := by
    simp only [Finset.mul_sum, ← Finset.sum_sub_distrib, ← Finset.sum_add_distrib]
    exact Finset.sum_congr rfl fun d _ => Finset.sum_congr rfl fun e _ => by ring
  rw [e3, e1, e2]
  ring

/-- A symmetric form between `0` and `hi`. -/
theorem form_square {m : ℕ} {S : Fin m → Fin m → ℝ} (hS : ∀ d e, S d e = S e d) {hi : ℝ} (h0 : 0 < hi)
    (hlo : ∀ v : Fin m → ℝ, 0 ≤ ∑ d, ∑ e, S d e * v d * v e)
    (hhi : ∀ v : Fin m → ℝ, ∑ d, ∑ e, S d e * v d * v e ≤ hi * ∑ d, v d ^ 2) (v : Fin m → ℝ) :
    ∑ d, (∑ e, S e d * v e) ^ 2 ≤ hi * ∑ d, ∑ e, S d e * v d * v e := by
  have h1 := hlo fun d => v d - 1 / hi * ∑ e, S e d * v e
  rw [form_expand hS v (fun d => ∑ e, S e d * v e) (1 / hi)] at h1
  have h2 := hhi fun d => ∑ e, S e d * v e
  have e : ∑ d, (∑ e, S e d * v e) * ∑ e, S e d * v e = ∑ d, (∑ e, S e d * v e) ^ 2 :=
    Finset.sum_congr rfl fun d _ => by ring
  rw [e] at h1
  generalize ∑ d, (∑ e, S e d * v e) ^ 2 = A at *
  generalize ∑ d, ∑ e, S d e * v d * v e = F at *
  generalize ∑ d, ∑ e, S d e * (∑ e, S e d * v e) * (∑ e', S e' e * v e') = G at *
  have h3 : (1 / hi) ^ 2 * G ≤ (1 / hi) ^ 2 * (hi * A) := mul_le_mul_of_nonneg_left h2 (by positivity)
  have h4 : (1 / hi) ^ 2 * (hi * A) = A / hi := by field_simp
  have h5 : 2 * (1 / hi) * A = 2 * (A / hi) := by ring
  have h6 : A / hi ≤ F := by linarith
  rwa [div_le_iff₀ h0, mul_comm] at h6

/-- The power of a complex vector. -/
def power {m : ℕ} (S : Fin m → Fin m → ℝ) (v : Fin m → ℂ) : ℝ :=
  ∑ d, ((∑ e, (S e d : ℂ) * v e) * (starRingEnd ℂ) (v d)).re

theorem power_parts {m : ℕ} {S : Fin m → Fin m → ℝ} (hS : ∀ d e, S d e = S e d) (v : Fin m → ℂ) :
    power S v = ∑ d, ∑ e, S d e * (v d).re * (v e).re + ∑ d, ∑ e, S d e * (v d).im * (v e).im := by
  unfold power
  rw [← Finset.sum_add_distrib]
  refine Finset.sum_congr rfl fun d _ => ?_
  rw [Finset.sum_mul, Complex.re_sum, ← Finset.sum_add_distrib]
  refine Finset.sum_congr rfl fun e _ => ?_
  rw [hS d e]
  simp
  ring

theorem norm_parts {m : ℕ} (v : Fin m → ℂ) : ∑ d, ‖v d‖ ^ 2 = ∑ d, (v d).re ^ 2 + ∑ d, (v d).im ^ 2 := by
  rw [← Finset.sum_add_distrib]
  refine Finset.sum_congr rfl fun d _ => ?_
  rw [← Complex.normSq_eq_norm_sq, Complex.normSq_apply]
  ring

theorem power_square {m : ℕ} {S : Fin m → Fin m → ℝ} (hS : ∀ d e, S d e = S e d) {hi : ℝ} (h0 : 0 < hi)
    (hlo : ∀ v : Fin m → ℝ, 0 ≤ ∑ d, ∑ e, S d e * v d * v e)
    (hhi : ∀ v : Fin m → ℝ, ∑ d, ∑ e, S d e * v d * v e ≤ hi * ∑ d, v d ^ 2) (v : Fin m → ℂ) :
    ∑ d, ‖∑ e, (S e d : ℂ) * v e‖ ^ 2 ≤ hi * power S v := by
  rw [norm_parts, power_parts hS]
  have h1 := form_square hS h0 hlo hhi fun d => (v d).re
  have h2 := form_square hS h0 hlo hhi fun d => (v d).im
  have e1 : ∀ d, (∑ e, (S e d : ℂ) * v e).re = ∑ e, S e d * (v e).re := fun d => by
    rw [Complex.re_sum]; exact Finset.sum_congr rfl fun e _ => by simp
  have e2 : ∀ d, (∑ e, (S e d : ℂ) * v e).im = ∑ e, S e d * (v e).im := fun d => by
    rw [Complex.im_sum]; exact Finset.sum_congr rfl fun e _ => by simp
  simp only [e1, e2]
  rw [mul_add]
  exact add_le_add h1 h2

theorem power_ge {m : ℕ} {S : Fin m → Fin m → ℝ} (hS : ∀ d e, S d e = S e d) {lo : ℝ}
    (hlo : ∀ v : Fin m → ℝ, lo * ∑ d, v d ^ 2 ≤ ∑ d, ∑ e, S d e * v d * v e) (v : Fin m → ℂ) :
    lo * ∑ d, ‖v d‖ ^ 2 ≤ power S v := by
  rw [norm_parts, power_parts hS, mul_add]
  exact add_le_add (hlo fun d => (v d).re) (hlo fun d => (v d).im)

/-! ### Specification -/

/-- The conductivity at node `x`, as the term reads it (C49). -/
noncomputable def conductivityAt (sigma : Fin dims.prod → List ℝ) (x : Fin dims.prod) (d e : Fin dims.length) : ℝ :=
  conductivityRead (sigma x) dims.length d e

/-- At every node the conductivity is between `lo` and `hi` in every direction. -/
structure Conducting (sigma : Fin dims.prod → List ℝ) (lo hi : ℝ) : Prop where
  below : ∀ x (v : Fin dims.length → ℝ), lo * ∑ d, v d ^ 2 ≤ ∑ d, ∑ e, conductivityAt sigma x d e * v d * v e
  above : ∀ x (v : Fin dims.length → ℝ), ∑ d, ∑ e, conductivityAt sigma x d e * v d * v e ≤ hi * ∑ d, v d ^ 2

/-- Component `d` of the wave vector `k`, zero at the Nyquist frequency. -/
noncomputable def resolved (k : Fin dims.prod) (d : Fin dims.length) : ℝ :=
  if abs (abs (fcomp (freqOf dims k) d) - 1 / 2) > 1 / 10 ^ 10 then fcomp (freqOf dims k) d else 0

/-- The divisor of the wave `k`. -/
noncomputable def poisson (k : Fin dims.prod) : ℝ := 2 * Real.pi * dotR (freqOf dims k) (freqOf dims k) + 1 / 10 ^ 16

/-- The electric field of the charges with spectrum `P`. -/
noncomputable def inducedField (P : Data dims.prod) (d : Fin dims.length) : Data dims.prod := fun x =>
  -(ifft dims (fun k => P k * (Complex.I * ((resolved k d / poisson k : ℝ) : ℂ))) x / (dims.prod : ℂ))

/-- The current density in the external field `ext` and the field of the charges. -/
noncomputable def ohmCurrent (sigma : Fin dims.prod → List ℝ) (ext : List ℝ) (P : Data dims.prod) (d : Fin dims.length) :
    Data dims.prod := fun x => ∑ e, (conductivityAt sigma x e d : ℂ) * ((fcomp ext e : ℂ) + inducedField P e x)

/-- Minus the divergence of a vector field, as a spectrum. -/
noncomputable def minusDiv (a : Fin dims.length → Data dims.prod) : Data dims.prod := fun k =>
  -∑ d, Complex.I * ((2 * Real.pi * resolved k d : ℝ) : ℂ) * fft dims (a d) k

/-- The current of the density `u` has no divergence. -/
def AtRest (sigma : Fin dims.prod → List ℝ) (ext : List ℝ) (u : Data dims.prod) : Prop :=
  ∀ k, ∑ d, (resolved k d : ℂ) * fft dims (ohmCurrent sigma ext (fft dims u) d) k = 0

/-! ### Proofs -/

theorem voigt_symm (i j m : ℕ) : voigtIndex i j m = voigtIndex j i m := by
  unfold voigtIndex
  split_ifs
  · rcases i with _ | _ | i <;> rcases j with _ | _ | j <;> simp
  · rcases i with _ | _ | _ | i <;> rcases j with _ | _ | _ | j <;> simp

theorem conductivity_symm (sigma : Fin dims.prod → List ℝ) (x : Fin dims.prod) (d e : Fin dims.length) :
    conductivityAt sigma x d e = conductivityAt sigma x e d := by
  unfold conductivityAt conductivityRead
  rw [voigt_symm]

theorem dot_components (h : GoodDims (intDims dims)) (k : Fin dims.prod) :
    dotR (freqOf dims k) (freqOf dims k) = ∑ d : Fin dims.length, fcomp (freqOf dims k) d ^ 2 := by
  have hl : (freqOf dims k).length = dims.length := by
    obtain ⟨q, -, hq, -, e⟩ := freqOf_eq h k
    rw [e]
    have : q.length = (intDims dims).length := (List.Forall₂.length_eq hq).symm
    simp [this, intDims]
  rw [← Finset.sum_range (fun d => fcomp (freqOf dims k) d ^ 2), ← hl, Finset.sum_range, dotR_squares]
  generalize freqOf dims k = l
  conv_lhs => rw [← List.ofFn_getElem (xs := l), List.map_ofFn, List.sum_ofFn]
  refine Finset.sum_congr rfl fun i _ => ?_
  simp [fcomp]

theorem poisson_pos (h : GoodDims (intDims dims)) (k : Fin dims.prod) : 0 < poisson k := by
  unfold poisson
  rw [dot_components h]
  have : 0 ≤ ∑ d : Fin dims.length, fcomp (freqOf dims k) d ^ 2 := Finset.sum_nonneg fun _ _ => by positivity
  positivity

theorem resolved_le (h : GoodDims (intDims dims)) (k : Fin dims.prod) :
    2 * Real.pi * ∑ d, resolved k d ^ 2 ≤ poisson k := by
  unfold poisson
  rw [dot_components h]
  have : ∑ d : Fin dims.length, resolved k d ^ 2 ≤ ∑ d : Fin dims.length, fcomp (freqOf dims k) d ^ 2 :=
    Finset.sum_le_sum fun d _ => by unfold resolved; split_ifs <;> [rfl; simpa using sq_nonneg _]
  have h2 := mul_le_mul_of_nonneg_left this (by positivity : (0 : ℝ) ≤ 2 * Real.pi)
  have : (0 : ℝ) < 1 / 10 ^ 16 := by norm_num
  linarith

theorem fft_induced (hpos : ∀ d ∈ dims, 0 < d) (P : Data dims.prod) (d : Fin dims.length) (k : Fin dims.prod) :
    fft dims (inducedField P d) k = -(P k * (Complex.I * ((resolved k d / poisson k : ℝ) : ℂ))) := by
  have e : inducedField P d = fun x => (-1 : ℂ) * (ifft dims (fun k => P k * (Complex.I * ((resolved k d / poisson k : ℝ) : ℂ))) x /
      (dims.prod : ℂ)) := by
    funext x
    unfold inducedField
    ring
  rw [e, fft_smul]
  have := congrFun (fft_surjective hpos fun k => P k * (Complex.I * ((resolved k d / poisson k : ℝ) : ℂ))) k
  rw [this]
  ring

theorem effField_induced (ext : List ℝ) (P : Data dims.prod) (d : Fin dims.length) (x : Fin dims.prod) :
    effField dims ext P d x = -((fcomp ext d : ℂ) + inducedField P d x) := by
  unfold effField inducedField divRealScalar
  have e : (fun i : Fin dims.prod => if abs (abs (fcomp (freqOf dims i) d) - 1 / 2) > 1 / 10 ^ 10 then
      P i * (Complex.I * ((fcomp (freqOf dims i) d / (2 * Real.pi * dotR (freqOf dims i) (freqOf dims i) + 1 / 10 ^ 16) : ℝ) : ℂ))
      else 0) = fun k => P k * (Complex.I * ((resolved k d / poisson k : ℝ) : ℂ)) := by
    funext k
    unfold resolved poisson
    split_ifs <;> simp
  dsimp only
  rw [e, Complex.ofReal_natCast]
  ring

theorem current_ohm (sigma : Fin dims.prod → List ℝ) (ext : List ℝ) (P : Data dims.prod) (d : Fin dims.length) :
    chargeCurrent dims sigma ext P d = fun x => -ohmCurrent sigma ext P d x := by
  funext x
  rw [c49_current, range_sum, Finset.sum_range]
  unfold ohmCurrent
  rw [← Finset.sum_neg_distrib]
  refine Finset.sum_congr rfl fun e _ => ?_
  rw [effField_induced, mul_neg]
  rfl

theorem fft_neg_fun (a : Data dims.prod) (k : Fin dims.prod) : fft dims (fun x => -a x) k = -fft dims a k := by
  simp only [fft, neg_mul, Finset.sum_neg_distrib]

/-- The rate of change of the charge is minus the divergence of the current. -/
theorem transport_div (sigma : Fin dims.prod → List ℝ) (ext : List ℝ) (P : Data dims.prod) :
    chargeTransport dims sigma ext P = minusDiv (ohmCurrent sigma ext P) := by
  funext k
  unfold chargeTransport minusDiv
  have hf : ∀ (l : List ℕ) (p : ℕ → Prop) [DecidablePred p] (g : ℕ → ℂ) (a : ℂ),
      l.foldl (fun (acc : ℂ) (d : ℕ) => if p d then acc + g d else acc) a =
        a + (l.map fun d => if p d then g d else 0).sum := by
    intro l p _ g
    induction l with
    | nil => simp
    | cons x l ih =>
      intro a
      simp only [List.foldl_cons, ih, List.map_cons, List.sum_cons]
      split_ifs <;> ring
  refine (hf (List.range dims.length) (fun d => abs (abs (fcomp (freqOf dims k) d) - 1 / 2) > 1 / 10 ^ 10)
    (fun d => Complex.I * ((2 * Real.pi * fcomp (freqOf dims k) d : ℝ) : ℂ) *
      fft dims (chargeCurrent dims sigma ext P d) k) 0).trans ?_
  rw [zero_add, range_sum, Finset.sum_range, ← Finset.sum_neg_distrib]
  refine Finset.sum_congr rfl fun d _ => ?_
  rw [current_ohm, fft_neg_fun]
  unfold resolved
  split_ifs <;> simp

/-! ### The distance in which charges relax -/

/-- The weight of the wave `k`. -/
noncomputable def chargeWeight (k : Fin dims.prod) : ℝ := 1 / (2 * Real.pi * poisson k * (dims.prod : ℕ))

/-- The energy of the field of charges. -/
noncomputable def chargeNorm (P : Data dims.prod) : ℝ := ∑ k, chargeWeight k * ‖P k‖ ^ 2

theorem prod_pos' (hpos : ∀ d ∈ dims, 0 < d) : (0 : ℝ) < (dims.prod : ℕ) := by
  exact_mod_cast Nat.pos_of_ne_zero (n := dims.prod) (by exact_mod_cast prod_ne_zero hpos)

theorem chargeWeight_pos (h : GoodDims (intDims dims)) (k : Fin dims.prod) : 0 < chargeWeight k := by
  have h1 := poisson_pos h k
  have h2 := prod_pos' (pos_of_goodDims h)
  unfold chargeWeight
  have := Real.pi_pos
  positivity

/-- The divergence is minus the adjoint of the field of the charges. -/
theorem div_pairing (h : GoodDims (intDims dims)) (a : Fin dims.length → Data dims.prod) (W : Data dims.prod) :
    ∑ k, chargeWeight k * (minusDiv a k * (starRingEnd ℂ) (W k)).re =
      -∑ x, ∑ d, (a d x * (starRingEnd ℂ) (inducedField W d x)).re := by
  have hpos := pos_of_goodDims h
  have hP := prod_pos' hpos
  rw [Finset.sum_comm]
  have e1 : ∀ d, ∑ x, (a d x * (starRingEnd ℂ) (inducedField W d x)).re =
      (∑ k, (fft dims (a d) k * (starRingEnd ℂ) (fft dims (inducedField W d) k)).re) / (dims.prod : ℕ) := fun d => by
    rw [real_parseval hpos]
    field_simp
  simp only [e1]
  rw [← Finset.sum_div, Finset.sum_comm, ← neg_div, ← Finset.sum_neg_distrib, Finset.sum_div]
  refine Finset.sum_congr rfl fun k _ => ?_
  have hk := poisson_pos h k
  have hpi := Real.pi_pos
  unfold minusDiv chargeWeight
  rw [neg_mul, Complex.neg_re, Finset.sum_mul, Complex.re_sum]
  have e2 : ∀ d, (fft dims (a d) k * (starRingEnd ℂ) (fft dims (inducedField W d) k)).re =
      (Complex.I * ((2 * Real.pi * resolved k d : ℝ) : ℂ) * fft dims (a d) k * (starRingEnd ℂ) (W k)).re / (2 * Real.pi * poisson k) := by
    intro d
    rw [fft_induced hpos]
    have e3 : fft dims (a d) k * (starRingEnd ℂ) (-(W k * (Complex.I * ((resolved k d / poisson k : ℝ) : ℂ)))) =
        ((1 / (2 * Real.pi * poisson k) : ℝ) : ℂ) *
          (Complex.I * ((2 * Real.pi * resolved k d : ℝ) : ℂ) * fft dims (a d) k * (starRingEnd ℂ) (W k)) := by
      rw [map_neg, map_mul, map_mul, Complex.conj_I, Complex.conj_ofReal]
      have h1 : (poisson k : ℂ) ≠ 0 := by exact_mod_cast hk.ne'
      have h2 : (Real.pi : ℂ) ≠ 0 := by exact_mod_cast hpi.ne'
      push_cast
      field_simp
    rw [e3, Complex.re_ofReal_mul]
    ring
  simp only [e2]
  rw [← Finset.sum_div]
  generalize ∑ d, (Complex.I * ((2 * Real.pi * resolved k d : ℝ) : ℂ) * fft dims (a d) k * (starRingEnd ℂ) (W k)).re = A
  field_simp

/-- A divergence is not larger than the vector field. -/
theorem div_bound (h : GoodDims (intDims dims)) (a : Fin dims.length → Data dims.prod) :
    chargeNorm (minusDiv a) ≤ ∑ x, ∑ d, ‖a d x‖ ^ 2 := by
  have hpos := pos_of_goodDims h
  have hP := prod_pos' hpos
  have hpi := Real.pi_pos
  have e1 : ∑ x, ∑ d, ‖a d x‖ ^ 2 = (∑ k, ∑ d, ‖fft dims (a d) k‖ ^ 2) / (dims.prod : ℕ) := by
    rw [Finset.sum_comm, Finset.sum_comm (f := fun k d => ‖fft dims (a d) k‖ ^ 2)]
    simp only [squares_parseval hpos]
    rw [← Finset.mul_sum]
    field_simp
  rw [e1, Finset.sum_div]
  unfold chargeNorm
  refine Finset.sum_le_sum fun k _ => ?_
  have hk := poisson_pos h k
  have h1 : ‖minusDiv a k‖ ≤ ∑ d, (2 * Real.pi * |resolved k d|) * ‖fft dims (a d) k‖ := by
    unfold minusDiv
    rw [norm_neg]
    refine (norm_sum_le _ _).trans (Finset.sum_le_sum fun d _ => ?_)
    rw [norm_mul, norm_mul, Complex.norm_I, one_mul, Complex.norm_real, Real.norm_eq_abs, abs_mul, abs_of_pos (by positivity)]
  have h2 : ‖minusDiv a k‖ ^ 2 ≤ (∑ d, (2 * Real.pi * |resolved k d|) ^ 2) * ∑ d, ‖fft dims (a d) k‖ ^ 2 :=
    (pow_le_pow_left₀ (norm_nonneg _) h1 2).trans (Finset.sum_mul_sq_le_sq_mul_sq _ _ _)
  have h3 : ∑ d, (2 * Real.pi * |resolved k d|) ^ 2 ≤ 2 * Real.pi * poisson k := by
    have e : ∑ d, (2 * Real.pi * |resolved k d|) ^ 2 = 2 * Real.pi * (2 * Real.pi * ∑ d, resolved k d ^ 2) := by
      rw [Finset.mul_sum, Finset.mul_sum]
      exact Finset.sum_congr rfl fun d _ => by rw [mul_pow, sq_abs]; ring
    rw [e]
    exact mul_le_mul_of_nonneg_left (resolved_le h k) (by positivity)
  have h4 : 0 ≤ ∑ d, ‖fft dims (a d) k‖ ^ 2 := Finset.sum_nonneg fun _ _ => by positivity
  have h5 := h2.trans (mul_le_mul_of_nonneg_right h3 h4)
  unfold chargeWeight
  rw [div_mul_eq_mul_div, one_mul, div_le_div_iff₀ (by positivity) hP]
  nlinarith [mul_le_mul_of_nonneg_right h5 hP.le]

/-- How much of a wave the field sees. -/
noncomputable def visible (k : Fin dims.prod) : ℝ := 2 * Real.pi * (∑ d, resolved k d ^ 2) / poisson k

theorem induced_squares (h : GoodDims (intDims dims)) (P : Data dims.prod) :
    ∑ x, ∑ d, ‖inducedField P d x‖ ^ 2 = ∑ k, visible k * (chargeWeight k * ‖P k‖ ^ 2) := by
  have hpos := pos_of_goodDims h
  have hP := prod_pos' hpos
  have hpi := Real.pi_pos
  have e1 : ∑ x, ∑ d, ‖inducedField P d x‖ ^ 2 = (∑ k, ∑ d, ‖fft dims (inducedField P d) k‖ ^ 2) / (dims.prod : ℕ) := by
    rw [Finset.sum_comm, Finset.sum_comm (f := fun k d => ‖fft dims (inducedField P d) k‖ ^ 2)]
    simp only [squares_parseval hpos]
    rw [← Finset.mul_sum]
    field_simp
  rw [e1, Finset.sum_div]
  refine Finset.sum_congr rfl fun k _ => ?_
  have hk := poisson_pos h k
  have e2 : ∀ d, ‖fft dims (inducedField P d) k‖ ^ 2 = resolved k d ^ 2 * (‖P k‖ ^ 2 / poisson k ^ 2) := by
    intro d
    rw [fft_induced hpos, norm_neg, norm_mul, norm_mul, Complex.norm_I, Complex.norm_real, Real.norm_eq_abs, one_mul, mul_pow,
      sq_abs]
    ring
  simp only [e2]
  rw [← Finset.sum_mul]
  unfold visible chargeWeight
  field_simp

/-- The linear part of the rate of change. -/
noncomputable def relaxation (sigma : Fin dims.prod → List ℝ) (P : Data dims.prod) : Data dims.prod :=
  minusDiv fun d x => ∑ e, (conductivityAt sigma x e d : ℂ) * inducedField P e x

/-- The power of the field of the charges. -/
noncomputable def inducedPower (sigma : Fin dims.prod → List ℝ) (P : Data dims.prod) : ℝ :=
  ∑ x, power (conductivityAt sigma x) fun d => inducedField P d x

/-- A step of the charges relaxes them. -/
theorem relaxation_step (h : GoodDims (intDims dims)) {sigma : Fin dims.prod → List ℝ} {lo hi : ℝ} (hc : Conducting sigma lo hi)
    (h0 : 0 ≤ lo) (h1 : 0 < hi) (dt : ℝ) (W : Data dims.prod) :
    chargeNorm (fun k => W k + dt * relaxation sigma W k) + dt * (2 - dt * hi) * inducedPower sigma W ≤ chargeNorm W := by
  have hp := div_pairing h (fun d x => ∑ e, (conductivityAt sigma x e d : ℂ) * inducedField W e x) W
  have hb := div_bound h (fun d x => ∑ e, (conductivityAt sigma x e d : ℂ) * inducedField W e x)
  have hpow : ∑ x, ∑ d, ‖∑ e, (conductivityAt sigma x e d : ℂ) * inducedField W e x‖ ^ 2 ≤ hi * inducedPower sigma W := by
    unfold inducedPower
    rw [Finset.mul_sum]
    refine Finset.sum_le_sum fun x _ => power_square (conductivity_symm sigma x) h1 (fun v => ?_) (hc.above x) _
    exact (mul_nonneg h0 (Finset.sum_nonneg fun _ _ => by positivity)).trans (hc.below x v)
  have e : chargeNorm (fun k => W k + dt * relaxation sigma W k) = chargeNorm W +
      2 * dt * ∑ k, chargeWeight k * (relaxation sigma W k * (starRingEnd ℂ) (W k)).re + dt ^ 2 * chargeNorm (relaxation sigma W) := by
    unfold chargeNorm
    rw [Finset.mul_sum, Finset.mul_sum, ← Finset.sum_add_distrib, ← Finset.sum_add_distrib]
    refine Finset.sum_congr rfl fun k _ => ?_
    rw [← Complex.normSq_eq_norm_sq, ← Complex.normSq_eq_norm_sq, ← Complex.normSq_eq_norm_sq, Complex.normSq_apply,
      Complex.normSq_apply, Complex.normSq_apply]
    simp
    ring
  have hpw : ∑ k, chargeWeight k * (relaxation sigma W k * (starRingEnd ℂ) (W k)).re = -inducedPower sigma W := hp
  have hb2 : chargeNorm (relaxation sigma W) ≤ hi * inducedPower sigma W := hb.trans hpow
  rw [e, hpw]
  have := mul_le_mul_of_nonneg_left hb2 (sq_nonneg dt)
  linarith

/-- The rate of change is affine. -/
theorem transport_affine (sigma : Fin dims.prod → List ℝ) (ext : List ℝ) (P W : Data dims.prod) :
    chargeTransport dims sigma ext (P + W) = chargeTransport dims sigma ext P + relaxation sigma W := by
  have hE : ∀ d x, inducedField (P + W) d x = inducedField P d x + inducedField W d x := by
    intro d x
    unfold inducedField ifft
    rw [← neg_add, ← add_div, ← Finset.sum_add_distrib]
    congr 2
    exact Finset.sum_congr rfl fun k _ => by simp only [Pi.add_apply]; ring
  funext k
  rw [Pi.add_apply, transport_div, transport_div]
  unfold relaxation minusDiv
  rw [← neg_add, ← Finset.sum_add_distrib]
  congr 1
  refine Finset.sum_congr rfl fun d _ => ?_
  rw [← mul_add, ← fft_add]
  congr 2
  funext x
  unfold ohmCurrent
  rw [← Finset.sum_add_distrib]
  exact Finset.sum_congr rfl fun e _ => by rw [hE]; ring

/-- Waves that the field does not see do not change. -/
theorem div_invisible (h : GoodDims (intDims dims)) (a : Fin dims.length → Data dims.prod) {k : Fin dims.prod} (hk : visible k = 0) :
    minusDiv a k = 0 := by
  have hp := poisson_pos h k
  have hpi := Real.pi_pos
  have h1 : ∑ d, resolved k d ^ 2 = 0 := by
    unfold visible at hk
    rw [div_eq_zero_iff] at hk
    rcases hk with hk | hk
    · rcases mul_eq_zero.mp hk with h2 | h2
      · exact absurd h2 (by positivity)
      · exact h2
    · exact absurd hk hp.ne'
  have h2 : ∀ d, resolved k d = 0 := fun d => by
    have := (Finset.sum_eq_zero_iff_of_nonneg fun d _ => sq_nonneg (resolved k d)).mp h1 d (Finset.mem_univ d)
    exact pow_eq_zero_iff (two_ne_zero) |>.mp this
  unfold minusDiv
  simp [h2]

theorem visible_nonneg (h : GoodDims (intDims dims)) (k : Fin dims.prod) : 0 ≤ visible k := by
  have hp := poisson_pos h k
  have hpi := Real.pi_pos
  unfold visible
  exact div_nonneg (mul_nonneg (by positivity) (Finset.sum_nonneg fun _ _ => by positivity)) hp.le

theorem visible_gap (h : GoodDims (intDims dims)) : ∃ g : ℝ, 0 < g ∧ ∀ k : Fin dims.prod, visible k = 0 ∨ g ≤ visible k := by
  by_cases hne : (Finset.univ.filter fun k : Fin dims.prod => visible k ≠ 0).Nonempty
  · obtain ⟨k0, hk0, hmin⟩ := Finset.exists_min_image _ (fun k => visible k) hne
    refine ⟨visible k0, lt_of_le_of_ne (visible_nonneg h k0) (Ne.symm (Finset.mem_filter.mp hk0).2), fun k => ?_⟩
    by_cases hk : visible k = 0
    · exact Or.inl hk
    · exact Or.inr (hmin k (Finset.mem_filter.mpr ⟨Finset.mem_univ k, hk⟩))
  · refine ⟨1, one_pos, fun k => Or.inl ?_⟩
    by_contra hk
    exact hne ⟨k, Finset.mem_filter.mpr ⟨Finset.mem_univ k, hk⟩⟩

theorem power_nonneg {sigma : Fin dims.prod → List ℝ} {lo hi : ℝ} (hc : Conducting sigma lo hi) (h0 : 0 ≤ lo) (x : Fin dims.prod)
    (v : Fin dims.length → ℂ) : 0 ≤ power (conductivityAt sigma x) v :=
  (mul_nonneg h0 (Finset.sum_nonneg fun _ _ => by positivity)).trans (power_ge (conductivity_symm sigma x) (hc.below x) v)

theorem power_gap (h : GoodDims (intDims dims)) {sigma : Fin dims.prod → List ℝ} {lo hi : ℝ} (hc : Conducting sigma lo hi)
    (h0 : 0 ≤ lo) {g : ℝ} (hg : ∀ k : Fin dims.prod, visible k = 0 ∨ g ≤ visible k) {W : Data dims.prod}
    (hW : ∀ k, visible k = 0 → W k = 0) : lo * g * chargeNorm W ≤ inducedPower sigma W := by
  have h1 : lo * ∑ x, ∑ d, ‖inducedField W d x‖ ^ 2 ≤ inducedPower sigma W := by
    unfold inducedPower
    rw [Finset.mul_sum]
    exact Finset.sum_le_sum fun x _ => power_ge (conductivity_symm sigma x) (hc.below x) _
  refine le_trans ?_ h1
  rw [induced_squares h, mul_assoc]
  refine mul_le_mul_of_nonneg_left ?_ h0
  unfold chargeNorm
  rw [Finset.mul_sum]
  refine Finset.sum_le_sum fun k _ => ?_
  rcases hg k with hk | hk
  · rw [hW k hk]; simp
  · exact mul_le_mul_of_nonneg_right hk (mul_nonneg (chargeWeight_pos h k).le (by positivity))

/-- Every run of explicit steps converges geometrically to charges at rest. -/
theorem charges_converge (h : GoodDims (intDims dims)) {sigma : Fin dims.prod → List ℝ} {lo hi : ℝ} (hc : Conducting sigma lo hi)
    (h0 : 0 < lo) (h1 : 0 < hi) (ext : List ℝ) {dt : ℝ} (hdt : 0 < dt) (hlim : dt * hi < 2) (P : ℕ → Data dims.prod)
    (hP : ∀ j k, P (j + 1) k = P j k + dt * chargeTransport dims sigma ext (P j) k) :
    ∃ (Q : Data dims.prod) (C r : ℝ), 0 ≤ C ∧ 0 ≤ r ∧ r < 1 ∧ (∀ j k, ‖P j k - Q k‖ ≤ C * r ^ j) ∧
      chargeTransport dims sigma ext Q = 0 := by
  obtain ⟨g, hg0, hg⟩ := visible_gap h
  set W : ℕ → Data dims.prod := fun j => P (j + 1) - P j with hW
  have hWt : ∀ j k, W j k = dt * chargeTransport dims sigma ext (P j) k := fun j k => by
    simp only [hW, Pi.sub_apply, hP]; ring
  have hWstep : ∀ j, W (j + 1) = fun k => W j k + dt * relaxation sigma (W j) k := by
    intro j
    funext k
    have e := congrFun (transport_affine sigma ext (P j) (W j)) k
    have e2 : P j + W j = P (j + 1) := add_sub_cancel (P j) (P (j + 1))
    rw [e2, Pi.add_apply] at e
    rw [hWt, hWt, e]
    ring
  have hWz : ∀ j k, visible k = 0 → W j k = 0 := by
    intro j k hk
    rw [hWt, transport_div, div_invisible h _ hk, mul_zero]
  set a := dt * (2 - dt * hi) * (lo * g) with ha
  have ha0 : 0 < a := mul_pos (mul_pos hdt (by linarith)) (mul_pos h0 hg0)
  set ρ := max 0 (1 - a) with hρ
  have hρ0 : 0 ≤ ρ := le_max_left _ _
  have hρ1 : ρ < 1 := max_lt one_pos (by linarith)
  have hnn : ∀ j, 0 ≤ chargeNorm (W j) := fun j =>
    Finset.sum_nonneg fun k _ => mul_nonneg (chargeWeight_pos h k).le (by positivity)
  have hdec : ∀ j, chargeNorm (W (j + 1)) ≤ ρ * chargeNorm (W j) := by
    intro j
    have e1 := relaxation_step h hc h0.le h1 dt (W j)
    rw [← hWstep j] at e1
    have e2 := mul_le_mul_of_nonneg_left (power_gap h hc h0.le hg (hWz j)) (mul_pos hdt (by linarith : 0 < 2 - dt * hi)).le
    have e3 := mul_le_mul_of_nonneg_right (le_max_right 0 (1 - a)) (hnn j)
    rw [← hρ] at e3
    have e4 : dt * (2 - dt * hi) * (lo * g * chargeNorm (W j)) = a * chargeNorm (W j) := by rw [ha]; ring
    linarith
  have hgeo : ∀ j, chargeNorm (W j) ≤ ρ ^ j * chargeNorm (W 0) := by
    intro j
    induction j with
    | zero => simp
    | succ j ih =>
      refine (hdec j).trans ?_
      rw [pow_succ, mul_comm (ρ ^ j) ρ, mul_assoc]
      exact mul_le_mul_of_nonneg_left ih hρ0
  set C0 := ∑ k : Fin dims.prod, Real.sqrt (chargeNorm (W 0) / chargeWeight k) with hC0
  have hC00 : 0 ≤ C0 := Finset.sum_nonneg fun _ _ => Real.sqrt_nonneg _
  set r := Real.sqrt ρ with hr
  have hr1 : r < 1 := by rw [hr, Real.sqrt_lt' one_pos, one_pow]; exact hρ1
  have hwave : ∀ j k, ‖W j k‖ ≤ C0 * r ^ j := by
    intro j k
    have hk := chargeWeight_pos h k
    have e1 : chargeWeight k * ‖W j k‖ ^ 2 ≤ ρ ^ j * chargeNorm (W 0) :=
      (Finset.single_le_sum (f := fun k => chargeWeight k * ‖W j k‖ ^ 2)
        (fun k _ => mul_nonneg (chargeWeight_pos h k).le (by positivity)) (Finset.mem_univ k)).trans (hgeo j)
    have e2 : ‖W j k‖ ^ 2 ≤ ρ ^ j * (chargeNorm (W 0) / chargeWeight k) := by
      rw [mul_div_assoc', le_div_iff₀ hk, mul_comm]; exact e1
    have e3 : ‖W j k‖ ≤ Real.sqrt (ρ ^ j * (chargeNorm (W 0) / chargeWeight k)) := Real.le_sqrt_of_sq_le e2
    rw [Real.sqrt_mul (by positivity)] at e3
    have e4 : Real.sqrt (ρ ^ j) = r ^ j := by
      have : ρ ^ j = (r ^ j) ^ 2 := by rw [← pow_mul, mul_comm, pow_mul, hr, Real.sq_sqrt hρ0]
      rw [this, Real.sqrt_sq (pow_nonneg (Real.sqrt_nonneg _) _)]
    rw [e4] at e3
    have e5 : Real.sqrt (chargeNorm (W 0) / chargeWeight k) ≤ C0 :=
      Finset.single_le_sum (f := fun k : Fin dims.prod => Real.sqrt (chargeNorm (W 0) / chargeWeight k))
        (fun _ _ => Real.sqrt_nonneg _) (Finset.mem_univ k)
    have := mul_le_mul_of_nonneg_left e5 (pow_nonneg (Real.sqrt_nonneg ρ) j)
    rw [← hr] at this
    linarith
  have hdist : ∀ j, dist (P j) (P (j + 1)) ≤ C0 * r ^ j := by
    intro j
    refine (dist_pi_le_iff (mul_nonneg hC00 (pow_nonneg (Real.sqrt_nonneg _) _))).mpr fun k => ?_
    rw [dist_comm, dist_eq_norm]
    exact hwave j k
  obtain ⟨Q, hQ⟩ := cauchySeq_tendsto_of_complete (cauchySeq_of_le_geometric r C0 hr1 hdist)
  refine ⟨Q, C0 / (1 - r), r, div_nonneg hC00 (by linarith), Real.sqrt_nonneg _, hr1, ?_, ?_⟩
  · intro j k
    have e1 := dist_le_of_le_geometric_of_tendsto r C0 hr1 hdist hQ j
    have e2 := (dist_le_pi_dist (P j) Q k).trans e1
    rw [dist_eq_norm] at e2
    refine e2.trans (le_of_eq ?_)
    ring
  · have hcont : Continuous (chargeTransport dims sigma ext) := by
      have : chargeTransport dims sigma ext = fun P => minusDiv (ohmCurrent sigma ext P) := funext (transport_div sigma ext)
      rw [this]
      unfold minusDiv ohmCurrent inducedField fft ifft
      fun_prop
    have e1 : Tendsto (fun j => chargeTransport dims sigma ext (P j)) atTop (𝓝 (chargeTransport dims sigma ext Q)) :=
      (hcont.tendsto Q).comp hQ
    have e2 : Tendsto (fun j => P (j + 1) - P j) atTop (𝓝 (Q - Q)) := (hQ.comp (tendsto_add_atTop_nat 1)).sub hQ
    rw [sub_self] at e2
    have e3 : Tendsto (fun j => (dt : ℂ) • chargeTransport dims sigma ext (P j)) atTop (𝓝 0) := by
      refine e2.congr fun j => ?_
      funext k
      rw [Pi.sub_apply, hP, Pi.smul_apply, smul_eq_mul]
      ring
    have e4 := tendsto_nhds_unique e3 (e1.const_smul (dt : ℂ))
    have hdc : (dt : ℂ) ≠ 0 := by exact_mod_cast hdt.ne'
    exact (smul_eq_zero.mp e4.symm).resolve_left hdc

/-! ### The simulation -/

/-- The names of the example. -/
def conductionNames : Names := ⟨["density".toList], [], []⟩

theorem conduction_wellNamed : conductionNames.WellNamed where
  ident := by
    have : ∀ x ∈ conductionNames.all, (∀ c ∈ x, c.isAlphanum = true ∨ c = '_') ∧ ∃ c ∈ x.head?, c.isAlpha = true := by
      decide +kernel
    intro x hx
    obtain ⟨h1, c, hc, h2⟩ := this x hx
    cases x with
    | nil => simp at hc
    | cons y x =>
      simp only [List.head?_cons, Option.mem_some_iff] at hc
      subst hc
      exact ⟨⟨y, x, rfl, h2⟩, h1⟩
  nodup := by decide +kernel
  noLap := by decide +kernel
  long := by decide +kernel
  sepLap := by decide +kernel
  sepVarying := by decide +kernel
  sepScalar := by decide +kernel

/-- The equation of the example, spelled. -/
def conductionSpelled : MixedEquation :=
  ⟨"density".toList, none, .registered [] "MINUS_DIV_CURRENT".toList, []⟩

theorem conduction_text : [conductionEquation].map (fun s => s.filter fun c => c ≠ ' ') =
    [conductionSpelled].map MixedEquation.text := by
  decide +kernel

/-- The term of the example. -/
noncomputable def conductionTerm (dims : List ℕ) (sigma : Fin dims.prod → List ℝ) (ext : List ℝ) : BTerm dims.prod :=
  fun b _ _ => chargeTransport dims sigma ext (b "density".toList)

/-- The model of the example before the equation is added. -/
noncomputable def conductionPlain (dims : List ℕ) (sigma : Fin dims.prod → List ℝ) (ext : List ℝ) : EqModel dims.prod :=
  { EqModel.empty.addField "density".toList with
    explicitTerms := [("MINUS_DIV_CURRENT".toList, conductionTerm dims sigma ext)] }

theorem conduction_registered (sigma : Fin dims.prod → List ℝ) (ext : List ℝ) :
    conductionModel dims sigma ext = some (conductionPlain dims sigma ext) := by
  unfold conductionModel EqModel.registerExplicit
  rw [(c98_accepted "MINUS_DIV_CURRENT".toList).mpr (by decide)]
  rfl

theorem conduction_good (sigma : Fin dims.prod → List ℝ) (ext : List ℝ) :
    MixedEquation.Good conductionNames (conductionPlain dims sigma ext) (fun _ => conductionTerm dims sigma ext)
      (fun _ _ _ _ _ => 0) conductionSpelled where
  field := by decide
  lead := by simp [conductionSpelled]
  signs := by simp [conductionSpelled]
  terms := by
    intro p hp
    have hp : p ∈ [(Summand.registered [] "MINUS_DIV_CURRENT".toList, (none : Option Char))] := hp
    obtain rfl := List.mem_singleton.mp hp
    exact ⟨⟨by simp, (c98_accepted _).mpr (by decide), by decide, ⟨by decide, by decide⟩, by decide, Or.inl rfl⟩,
      .explicit rfl rfl⟩

/-- The model of the example, as the steppers see it. -/
theorem conduction_model (sigma : Fin dims.prod → List ℝ) (ext : List ℝ) (c : Str → ℂ) :
    ∃ (m0 m : EqModel dims.prod) (M : Model m.fields.length m.derived.length dims.prod),
      conductionModel dims sigma ext = some m0 ∧ m0.addEquation conductionEquation = some m ∧
      m.fields = ["density".toList] ∧ m.assemble c = some M ∧ FieldsOnly M ∧
      (∀ i st freq t, M.getDenum i st freq t = fun _ => 0) ∧
      ∀ i st freq t, M.getRHS i (sddFft M st) freq t = chargeTransport dims sigma ext (fft dims (st.fields i)) := by
  obtain ⟨m, M, hadd, hf, has, hFO, hall⟩ := mixed_force (dims := dims) conductionNames conduction_wellNamed
    (conductionPlain dims sigma ext) ⟨rfl, rfl, fun x => Iff.rfl⟩ rfl (by
      have e : (conductionPlain dims sigma ext).derived = [] := rfl
      rw [e]
      simp)
    (fun _ => conductionTerm dims sigma ext) (fun _ _ _ _ _ => 0) [conductionSpelled]
    (by intro e he; obtain rfl := List.mem_singleton.mp he; exact conduction_good sigma ext)
    (by
      intro e he
      obtain rfl := List.mem_singleton.mp he
      intro p hp
      have hp : p ∈ [(Summand.registered [] "MINUS_DIV_CURRENT".toList, (none : Option Char))] := hp
      obtain rfl := List.mem_singleton.mp hp
      rfl)
    [conductionEquation] conduction_text (by decide) c
  have hadd1 : (conductionPlain dims sigma ext).addEquation conductionEquation = some m := by
    rw [List.foldlM_cons] at hadd
    simp only [List.foldlM_nil] at hadd
    cases hm : (conductionPlain dims sigma ext).addEquation conductionEquation with
    | none => rw [hm] at hadd; exact absurd hadd (by simp)
    | some m' => rw [hm] at hadd; exact hadd
  have hlen : m.fields.length = 1 := by rw [hf]; rfl
  have hi0 : ∀ i : Fin m.fields.length, i.val = 0 := fun i => by have := i.2; omega
  have heq : ∀ i : Fin m.fields.length, [conductionSpelled][i.val]? = some conductionSpelled := fun i => by rw [hi0 i]; rfl
  have hij : ∀ i j : Fin m.fields.length, j = i := fun i j => Fin.ext (by rw [hi0 i, hi0 j])
  refine ⟨_, m, M, conduction_registered sigma ext, hadd1, hf, has, hFO, fun i => (hall i _ (heq i)).1, ?_⟩
  intro i st freq t
  obtain ⟨b, hb, hR⟩ := (hall i _ (heq i)).2 st (fun _ => st.fields i)
    (by intro j; rw [hij i j]) (by intro x hx; exact absurd hx (by simp [conductionNames]))
    (by
      intro p hp
      have hp : p ∈ ([] : List (Str × Calc dims.prod)) := hp
      simp at hp)
  have hbd : b "density".toList = fft dims (st.fields i) := hb _ (List.mem_of_elem_eq_true (by rfl))
  funext k
  rw [hR freq t k]
  have et : conductionSpelled.terms = [(Summand.registered [] "MINUS_DIV_CURRENT".toList, (none : Option Char))] := rfl
  rw [et]
  simp only [List.map_cons, List.map_nil, List.sum_cons, List.sum_nil, summandSpectrum, add_zero, zero_mul]
  have e5 : conductionTerm dims sigma ext b freq t = chargeTransport dims sigma ext (fft dims (st.fields i)) := by
    unfold conductionTerm
    rw [hbd]
  rw [e5]
  have hs2 : delimSign none = 1 := if_neg (by decide)
  rw [hs2, one_mul, List.prod_nil, one_mul]

/-- A step adds `dt` times the rate of change to every wave. -/
theorem conduction_step (hpos : ∀ d ∈ dims, 0 < d) {nf nd : ℕ} (hnf : nf = 1) {M : Model nf nd dims.prod} (hd : FieldsOnly M)
    (hden : ∀ i st freq t, M.getDenum i st freq t = fun _ => 0) {sigma : Fin dims.prod → List ℝ} {ext : List ℝ}
    (hR : ∀ i st freq t, M.getRHS i (sddFft M st) freq t = chargeTransport dims sigma ext (fft dims (st.fields i)))
    (s : Stepper dims.prod) (hs : s.filter = none) (st : Store nf nd dims.prod) (i : Fin nf) (k : Fin dims.prod) :
    fft dims ((eulerStep M (s, st)).2.fields i) k = fft dims (st.fields i) k +
      s.dt * chargeTransport dims sigma ext (fft dims (st.fields i)) k := by
  subst hnf
  have hst : sddFft M st = ⟨fun j => fft dims (st.fields j), fun d => fft dims (M.calcs d st)⟩ := by
    unfold sddFft
    rw [sync_eq hd]
    rfl
  have := c22_euler hpos M hd i (c22_single_equation M i) s hs st k
  dsimp only at this
  rw [this, hden, ← hst, hR, mul_zero, sub_zero, div_one]

theorem conduction_run (hpos : ∀ d ∈ dims, 0 < d) {nf nd : ℕ} (hnf : nf = 1) {M : Model nf nd dims.prod} (hd : FieldsOnly M)
    (hden : ∀ i st freq t, M.getDenum i st freq t = fun _ => 0) {sigma : Fin dims.prod → List ℝ} {ext : List ℝ}
    (hR : ∀ i st freq t, M.getRHS i (sddFft M st) freq t = chargeTransport dims sigma ext (fft dims (st.fields i)))
    (s : Stepper dims.prod) (hs : s.filter = none) (st : Store nf nd dims.prod) (i : Fin nf) (j : ℕ) (k : Fin dims.prod) :
    fft dims ((eulerPropagate M (j + 1) (s, st)).2.fields i) k = fft dims ((eulerPropagate M j (s, st)).2.fields i) k +
      s.dt * chargeTransport dims sigma ext (fft dims ((eulerPropagate M j (s, st)).2.fields i)) k := by
  have hsucc : ∀ j, eulerPropagate M (j + 1) (s, st) = eulerStep M (eulerPropagate M j (s, st)) := by
    intro j
    simp [eulerPropagate, List.range_succ]
  have hsame : ∀ j, (eulerPropagate M j (s, st)).1.dt = s.dt ∧ (eulerPropagate M j (s, st)).1.filter = s.filter := by
    intro j
    induction j with
    | zero => exact ⟨rfl, rfl⟩
    | succ j ih => rw [hsucc j]; exact ih
  obtain ⟨a1, a2⟩ := hsame j
  have := conduction_step hpos hnf hd hden hR (eulerPropagate M j (s, st)).1 (a2.trans hs) (eulerPropagate M j (s, st)).2 i k
  rw [a1] at this
  rw [hsucc j]
  exact this

/-- What the program builds is determined. -/
theorem conduction_unique {sigma : Fin dims.prod → List ℝ} {ext : List ℝ} {c : Str → ℂ} {m0 m : EqModel dims.prod}
    (h0 : conductionModel dims sigma ext = some m0) (h1 : m0.addEquation conductionEquation = some m)
    {M : Model m.fields.length m.derived.length dims.prod} (h2 : m.assemble c = some M) :
    m.fields.length = 1 ∧ FieldsOnly M ∧ (∀ i st freq t, M.getDenum i st freq t = fun _ => 0) ∧
      ∀ i st freq t, M.getRHS i (sddFft M st) freq t = chargeTransport dims sigma ext (fft dims (st.fields i)) := by
  obtain ⟨m0', m', M', a1, a2, a3, a4, a5, a6, a7⟩ := conduction_model sigma ext c
  obtain rfl := Option.some.inj (h0.symm.trans a1)
  obtain rfl := Option.some.inj (h1.symm.trans a2)
  obtain rfl := Option.some.inj (h2.symm.trans a4)
  exact ⟨by rw [a3]; rfl, a5, a6, a7⟩

/-- C141: the program assembles its model. -/
theorem c141_assembles (sigma : Fin dims.prod → List ℝ) (ext : List ℝ) (c : Str → ℂ) :
    ∃ m0 m M, conductionModel dims sigma ext = some m0 ∧ m0.addEquation conductionEquation = some m ∧
      m.fields = ["density".toList] ∧ m.assemble c = some M := by
  obtain ⟨m0', m', M', a1, a2, a3, a4, -⟩ := conduction_model sigma ext c
  exact ⟨m0', m', M', a1, a2, a3, a4⟩

theorem hi_pos (h : GoodDims (intDims dims)) {sigma : Fin dims.prod → List ℝ} {lo hi : ℝ} (hc : Conducting sigma lo hi)
    (h0 : 0 < lo) : 0 < hi := by
  have hpos := pos_of_goodDims h
  have hm : 0 < dims.length := by
    have := h.1
    simp only [intDims, List.length_map] at this
    omega
  have hx : 0 < dims.prod := Nat.pos_of_ne_zero (by exact_mod_cast prod_ne_zero hpos)
  have := (hc.below ⟨0, hx⟩ fun _ => 1).trans (hc.above ⟨0, hx⟩ fun _ => 1)
  simp only [one_pow, Finset.sum_const, Finset.card_univ, Fintype.card_fin, nsmul_eq_mul, mul_one] at this
  have hm' : (0 : ℝ) < dims.length := by exact_mod_cast hm
  have := le_of_mul_le_mul_right this hm'
  linarith

/-- C141: if the conductivity is positive and at most `hi` in every direction at every node and the time step is below `2/hi`, then
from every start the charges converge geometrically to charges at rest; the total charge is kept, and the reported current converges
to a current without divergence. -/
theorem c141_converges (h : GoodDims (intDims dims)) {sigma : Fin dims.prod → List ℝ} {lo hi : ℝ} (hc : Conducting sigma lo hi)
    (hlo : 0 < lo) (ext : List ℝ) (c : Str → ℂ) {m0 m : EqModel dims.prod} (h0 : conductionModel dims sigma ext = some m0)
    (h1 : m0.addEquation conductionEquation = some m) {M} (h2 : m.assemble c = some M) (s : Stepper dims.prod)
    (hs : s.filter = none) (hdt : 0 < s.dt) (hlim : s.dt * hi < 2) (st : Store m.fields.length m.derived.length dims.prod)
    (i : Fin m.fields.length) :
    ∃ (p : Data dims.prod) (C r : ℝ), 0 ≤ r ∧ r < 1 ∧
      (∀ steps x, ‖(eulerPropagate M steps (s, st)).2.fields i x - p x‖ ≤ C * r ^ steps) ∧
      ∑ x, p x = ∑ x, st.fields i x ∧
      AtRest sigma ext p ∧
      ∀ (d : Fin dims.length) x, Tendsto (fun steps => currentOf dims sigma ext ((eulerPropagate M steps (s, st)).2.fields i) d x) atTop
        (𝓝 (currentOf dims sigma ext p d x)) := by
  obtain ⟨hnf, hd, hden, hR⟩ := conduction_unique h0 h1 h2
  have hpos := pos_of_goodDims h
  have hrun := conduction_run hpos hnf hd hden hR s hs st i
  obtain ⟨Q, C, r, hC, hr0, hr1, hQ, hrest⟩ := charges_converge h hc hlo (hi_pos h hc hlo) ext hdt hlim
    (fun j => fft dims ((eulerPropagate M j (s, st)).2.fields i)) hrun
  set p : Data dims.prod := fun x => ifft dims Q x / (dims.prod : ℂ) with hp
  have hfp : fft dims p = Q := fft_surjective hpos Q
  have hlimit : ∀ steps x, ‖(eulerPropagate M steps (s, st)).2.fields i x - p x‖ ≤ (dims.prod : ℕ) * C * r ^ steps := by
    intro steps x
    have e1 := norm_le_spectrum hpos ((eulerPropagate M steps (s, st)).2.fields i - p) x
    refine e1.trans (le_trans (Finset.sum_le_sum fun k _ => (?_ : _ ≤ C * r ^ steps)) (le_of_eq ?_))
    · have e2 : fft dims ((eulerPropagate M steps (s, st)).2.fields i - p) k =
          fft dims ((eulerPropagate M steps (s, st)).2.fields i) k - fft dims p k := by
        rw [← fft_sub']; rfl
      rw [e2, hfp]
      exact hQ steps k
    · simp only [Finset.sum_const, Finset.card_univ, Fintype.card_fin, nsmul_eq_mul]
      ring
  have htend : Tendsto (fun steps => (eulerPropagate M steps (s, st)).2.fields i) atTop (𝓝 p) := by
    refine tendsto_pi_nhds.mpr fun x => ?_
    refine tendsto_iff_norm_sub_tendsto_zero.mpr (squeeze_zero (fun _ => norm_nonneg _) (fun j => hlimit j x) ?_)
    have := (tendsto_pow_atTop_nhds_zero_of_lt_one hr0 hr1).const_mul ((dims.prod : ℕ) * C : ℝ)
    simpa using this
  refine ⟨p, (dims.prod : ℕ) * C, r, hr0, hr1, hlimit, ?_, ?_, ?_⟩
  · have hx : 0 < dims.prod := Nat.pos_of_ne_zero (by exact_mod_cast prod_ne_zero hpos)
    have hsum : ∀ j, ∑ x, (eulerPropagate M j (s, st)).2.fields i x = ∑ x, st.fields i x := by
      intro j
      induction j with
      | zero => rfl
      | succ j ih =>
        have e := hrun j ⟨0, hx⟩
        rw [fft_zero_bin _ _ rfl, fft_zero_bin _ _ rfl, c48_charge dims sigma ext _ _ rfl, mul_zero, add_zero] at e
        exact e.trans ih
    have e1 : Tendsto (fun j => ∑ x, (eulerPropagate M j (s, st)).2.fields i x) atTop (𝓝 (∑ x, p x)) :=
      tendsto_finsetSum _ fun x _ => (tendsto_pi_nhds.mp htend) x
    simp only [hsum] at e1
    exact tendsto_nhds_unique e1 tendsto_const_nhds |>.symm ▸ rfl
  · intro k
    have e1 := congrFun hrest k
    rw [transport_div, ← hfp] at e1
    unfold minusDiv at e1
    have hpi : (2 * Real.pi : ℂ) ≠ 0 := by
      have := Real.pi_pos.ne'
      simp [this]
    have e2 : ∑ d, Complex.I * ((2 * Real.pi * resolved k d : ℝ) : ℂ) * fft dims (ohmCurrent sigma ext (fft dims p) d) k =
        (Complex.I * (2 * Real.pi)) * ∑ d, (resolved k d : ℂ) * fft dims (ohmCurrent sigma ext (fft dims p) d) k := by
      rw [Finset.mul_sum]
      exact Finset.sum_congr rfl fun d _ => by push_cast; ring
    rw [e2] at e1
    have e3 := neg_eq_zero.mp e1
    exact (mul_eq_zero.mp e3).resolve_left (mul_ne_zero Complex.I_ne_zero hpi)
  · intro d x
    have e1 : ∀ u : Data dims.prod, currentOf dims sigma ext u d x = (ohmCurrent sigma ext (fft dims u) d x).re := by
      intro u
      unfold currentOf
      rw [current_ohm]
      simp
    simp only [e1]
    have hcont : Continuous fun u : Data dims.prod => (ohmCurrent sigma ext (fft dims u) d x).re := by
      unfold ohmCurrent inducedField fft ifft
      fun_prop
    exact (hcont.tendsto p).comp htend

/-! ### Charges at rest -/

/-- The total electric field at a node. -/
noncomputable def totalField (ext : List ℝ) (u : Data dims.prod) (x : Fin dims.prod) (d : Fin dims.length) : ℂ :=
  (fcomp ext d : ℂ) + inducedField (fft dims u) d x

/-- The power that the currents of the density `u` turn into heat. -/
noncomputable def dissipated (sigma : Fin dims.prod → List ℝ) (ext : List ℝ) (u : Data dims.prod) : ℝ :=
  ∑ x, power (conductivityAt sigma x) (totalField ext u x)

/-- The power of two fields. -/
def jointPower {m : ℕ} (S : Fin m → Fin m → ℝ) (v w : Fin m → ℂ) : ℝ :=
  ∑ d, ((∑ e, (S e d : ℂ) * v e) * (starRingEnd ℂ) (w d)).re

theorem mutual_comm {m : ℕ} {S : Fin m → Fin m → ℝ} (hS : ∀ d e, S d e = S e d) (v w : Fin m → ℂ) : jointPower S v w = jointPower S w v := by
  unfold jointPower
  simp only [Finset.sum_mul, Complex.re_sum]
  rw [Finset.sum_comm]
  refine Finset.sum_congr rfl fun d _ => Finset.sum_congr rfl fun e _ => ?_
  rw [hS d e]
  simp
  ring

theorem power_sub {m : ℕ} {S : Fin m → Fin m → ℝ} (hS : ∀ d e, S d e = S e d) (v w : Fin m → ℂ) :
    power S (fun d => w d - v d) = power S w - 2 * jointPower S v w + power S v := by
  have e1 : power S (fun d => w d - v d) = jointPower S w w - jointPower S w v - jointPower S v w + jointPower S v v := by
    unfold power jointPower
    rw [← Finset.sum_sub_distrib, ← Finset.sum_sub_distrib, ← Finset.sum_add_distrib]
    refine Finset.sum_congr rfl fun d _ => ?_
    simp only [mul_sub, Finset.sum_sub_distrib, map_sub, sub_mul, Complex.sub_re]
    ring
  rw [e1, mutual_comm hS w v]
  have : ∀ v, jointPower S v v = power S v := fun _ => rfl
  rw [this, this]
  ring

/-- What is at rest has no rate of change. -/
theorem rest_transport (sigma : Fin dims.prod → List ℝ) (ext : List ℝ) (u : Data dims.prod) :
    AtRest sigma ext u ↔ chargeTransport dims sigma ext (fft dims u) = 0 := by
  have hpi : (2 * Real.pi : ℂ) ≠ 0 := by
    have := Real.pi_pos.ne'
    simp [this]
  have e2 : ∀ k, chargeTransport dims sigma ext (fft dims u) k = -((Complex.I * (2 * Real.pi)) *
      ∑ d, (resolved k d : ℂ) * fft dims (ohmCurrent sigma ext (fft dims u) d) k) := by
    intro k
    rw [transport_div]
    unfold minusDiv
    rw [Finset.mul_sum]
    congr 1
    exact Finset.sum_congr rfl fun d _ => by push_cast; ring
  constructor
  · intro hr
    funext k
    rw [e2, hr k]
    simp
  · intro hr k
    have e3 := congrFun hr k
    rw [e2] at e3
    exact (mul_eq_zero.mp (neg_eq_zero.mp e3)).resolve_left (mul_ne_zero Complex.I_ne_zero hpi)

theorem reported_current (sigma : Fin dims.prod → List ℝ) (ext : List ℝ) (u : Data dims.prod) (d : Fin dims.length) (x : Fin dims.prod) :
    currentOf dims sigma ext u d x = (ohmCurrent sigma ext (fft dims u) d x).re := by
  unfold currentOf
  rw [current_ohm]
  simp

/-- The current at rest does no work on fields of charges. -/
theorem rest_mutual (h : GoodDims (intDims dims)) {sigma : Fin dims.prod → List ℝ} {ext : List ℝ} {u : Data dims.prod}
    (hr : AtRest sigma ext u) (ext' : List ℝ) (v : Data dims.prod) :
    ∑ x, jointPower (conductivityAt sigma x) (totalField ext u x) (totalField ext' v x) =
      ∑ x, ∑ d : Fin dims.length, fcomp ext' d * currentOf dims sigma ext u d x := by
  have e1 := div_pairing h (ohmCurrent sigma ext (fft dims u)) (fft dims v)
  rw [← transport_div, (rest_transport sigma ext u).mp hr] at e1
  simp only [Pi.zero_apply, zero_mul, Complex.zero_re, mul_zero, Finset.sum_const_zero] at e1
  have e2 : ∑ x, jointPower (conductivityAt sigma x) (totalField ext u x) (totalField ext' v x) =
      ∑ x, ∑ d : Fin dims.length, fcomp ext' d * currentOf dims sigma ext u d x +
        ∑ x, ∑ d, (ohmCurrent sigma ext (fft dims u) d x * (starRingEnd ℂ) (inducedField (fft dims v) d x)).re := by
    rw [← Finset.sum_add_distrib]
    refine Finset.sum_congr rfl fun x _ => ?_
    unfold jointPower
    rw [← Finset.sum_add_distrib]
    refine Finset.sum_congr rfl fun d _ => ?_
    rw [reported_current]
    have e3 : (∑ e, (conductivityAt sigma x e d : ℂ) * totalField ext u x e) = ohmCurrent sigma ext (fft dims u) d x := rfl
    rw [e3]
    unfold totalField
    rw [map_add, mul_add, Complex.add_re, Complex.conj_ofReal, mul_comm _ (fcomp ext' d : ℂ), Complex.re_ofReal_mul]
  rw [e2]
  linarith

/-- C141: at rest the power drawn from the external field is the power turned into heat. -/
theorem c141_power (h : GoodDims (intDims dims)) {sigma : Fin dims.prod → List ℝ} {ext : List ℝ} {u : Data dims.prod}
    (hr : AtRest sigma ext u) :
    ∑ x, ∑ d : Fin dims.length, fcomp ext d * currentOf dims sigma ext u d x = dissipated sigma ext u :=
  (rest_mutual h hr ext u).symm

/-- C141: the effective conductivity is symmetric. -/
theorem c141_reciprocal (h : GoodDims (intDims dims)) {sigma : Fin dims.prod → List ℝ} {e f : List ℝ} {u v : Data dims.prod}
    (hu : AtRest sigma e u) (hv : AtRest sigma f v) :
    ∑ x, ∑ d : Fin dims.length, fcomp f d * currentOf dims sigma e u d x =
      ∑ x, ∑ d : Fin dims.length, fcomp e d * currentOf dims sigma f v d x := by
  rw [← rest_mutual h hu f v, ← rest_mutual h hv e u]
  exact Finset.sum_congr rfl fun x _ => mutual_comm (conductivity_symm sigma x) _ _

theorem dissipated_sub (h : GoodDims (intDims dims)) {sigma : Fin dims.prod → List ℝ} {ext : List ℝ} {u : Data dims.prod}
    (hu : AtRest sigma ext u) (v : Data dims.prod) :
    ∑ x, power (conductivityAt sigma x) (fun d => totalField ext v x d - totalField ext u x d) =
      dissipated sigma ext v - dissipated sigma ext u := by
  have e1 := rest_mutual h hu ext v
  rw [c141_power h hu] at e1
  simp only [power_sub (conductivity_symm sigma _)]
  rw [Finset.sum_add_distrib, Finset.sum_sub_distrib, ← Finset.mul_sum, e1]
  unfold dissipated
  ring

/-- C141: no distribution of charges turns less power into heat than one at rest. -/
theorem c141_least (h : GoodDims (intDims dims)) {sigma : Fin dims.prod → List ℝ} {lo hi : ℝ} (hc : Conducting sigma lo hi)
    (hlo : 0 ≤ lo) {ext : List ℝ} {u : Data dims.prod} (hu : AtRest sigma ext u) (v : Data dims.prod) :
    dissipated sigma ext u ≤ dissipated sigma ext v := by
  have e1 := dissipated_sub h hu v
  have e2 : 0 ≤ ∑ x, power (conductivityAt sigma x) (fun d => totalField ext v x d - totalField ext u x d) :=
    Finset.sum_nonneg fun x _ => power_nonneg hc hlo x _
  linarith

/-- C141: the current at rest is determined by the conductivity and the external field. -/
theorem c141_unique (h : GoodDims (intDims dims)) {sigma : Fin dims.prod → List ℝ} {lo hi : ℝ} (hc : Conducting sigma lo hi)
    (hlo : 0 < lo) {ext : List ℝ} {u v : Data dims.prod} (hu : AtRest sigma ext u) (hv : AtRest sigma ext v)
    (d : Fin dims.length) (x : Fin dims.prod) : currentOf dims sigma ext u d x = currentOf dims sigma ext v d x := by
  have e1 := dissipated_sub h hu v
  have e2 := c141_least h hc hlo.le hu v
  have e3 := c141_least h hc hlo.le hv u
  rw [le_antisymm e3 e2, sub_self] at e1
  have e4 : ∀ x d, totalField ext v x d = totalField ext u x d := by
    intro x d
    have e5 := (Finset.sum_eq_zero_iff_of_nonneg fun x _ => power_nonneg hc hlo.le x _).mp e1 x (Finset.mem_univ x)
    have e6 := power_ge (conductivity_symm sigma x) (hc.below x) fun d => totalField ext v x d - totalField ext u x d
    rw [e5] at e6
    have e7 : ∑ d, ‖totalField ext v x d - totalField ext u x d‖ ^ 2 = 0 :=
      le_antisymm (by nlinarith) (Finset.sum_nonneg fun _ _ => by positivity)
    have e8 := (Finset.sum_eq_zero_iff_of_nonneg fun _ _ => by positivity).mp e7 d (Finset.mem_univ d)
    exact sub_eq_zero.mp (norm_eq_zero.mp (pow_eq_zero_iff two_ne_zero |>.mp e8))
  rw [reported_current, reported_current]
  congr 1
  exact Finset.sum_congr rfl fun e _ => by
    have := e4 x e
    unfold totalField at this
    rw [this]

theorem induced_sum (h : GoodDims (intDims dims)) (P : Data dims.prod) (d : Fin dims.length) : ∑ x, inducedField P d x = 0 := by
  have hpos := pos_of_goodDims h
  have hx : 0 < dims.prod := Nat.pos_of_ne_zero (by exact_mod_cast prod_ne_zero hpos)
  rw [← fft_zero_bin _ ⟨0, hx⟩ rfl, fft_induced hpos]
  have : resolved (⟨0, hx⟩ : Fin dims.prod) d = 0 := by
    unfold resolved
    rw [fcomp_zero (freqOf_zero dims _ rfl)]
    simp
  rw [this]
  simp

/-- C141: the power of the current at rest lies between that of the smallest conductivity and that of the fields without charges. -/
theorem c141_bounds (h : GoodDims (intDims dims)) {sigma : Fin dims.prod → List ℝ} {lo hi : ℝ} (hc : Conducting sigma lo hi)
    (hlo : 0 ≤ lo) {ext : List ℝ} {u : Data dims.prod} (hu : AtRest sigma ext u) :
    (dims.prod : ℕ) * (lo * ∑ d : Fin dims.length, fcomp ext d ^ 2) ≤
        ∑ x, ∑ d : Fin dims.length, fcomp ext d * currentOf dims sigma ext u d x ∧
      ∑ x, ∑ d : Fin dims.length, fcomp ext d * currentOf dims sigma ext u d x ≤
        ∑ x, ∑ d : Fin dims.length, ∑ e, conductivityAt sigma x d e * fcomp ext d * fcomp ext e := by
  have hpos := pos_of_goodDims h
  rw [c141_power h hu]
  constructor
  · have e1 : ∑ x : Fin dims.prod, lo * ∑ d, ‖totalField ext u x d‖ ^ 2 ≤ dissipated sigma ext u :=
      Finset.sum_le_sum fun x _ => power_ge (conductivity_symm sigma x) (hc.below x) _
    refine le_trans ?_ e1
    rw [← Finset.mul_sum, ← mul_assoc, mul_comm ((dims.prod : ℕ) : ℝ) lo, mul_assoc]
    refine mul_le_mul_of_nonneg_left ?_ hlo
    rw [Finset.sum_comm, Finset.mul_sum]
    refine Finset.sum_le_sum fun d _ => ?_
    have e2 : ∀ x, ‖totalField ext u x d‖ ^ 2 = fcomp ext d ^ 2 + 2 * fcomp ext d * (inducedField (fft dims u) d x).re +
        ‖inducedField (fft dims u) d x‖ ^ 2 := by
      intro x
      unfold totalField
      rw [← Complex.normSq_eq_norm_sq, ← Complex.normSq_eq_norm_sq, Complex.normSq_apply, Complex.normSq_apply]
      simp
      ring
    simp only [e2]
    rw [Finset.sum_add_distrib, Finset.sum_add_distrib, ← Finset.mul_sum, ← Complex.re_sum, induced_sum h, Complex.zero_re,
      mul_zero, add_zero, Finset.sum_const, Finset.card_univ, Fintype.card_fin, nsmul_eq_mul]
    have : 0 ≤ ∑ x, ‖inducedField (fft dims u) d x‖ ^ 2 := Finset.sum_nonneg fun _ _ => by positivity
    linarith
  · refine (c141_least h hc hlo hu 0).trans (le_of_eq ?_)
    unfold dissipated
    refine Finset.sum_congr rfl fun x _ => ?_
    rw [power_parts (conductivity_symm sigma x)]
    have e1 : ∀ d, totalField ext (0 : Data dims.prod) x d = (fcomp ext d : ℂ) := by
      intro d
      unfold totalField inducedField
      have : fft dims (0 : Data dims.prod) = fun _ => 0 := by funext k; simp [fft]
      rw [this]
      simp [ifft]
    simp only [e1, Complex.ofReal_re, Complex.ofReal_im, mul_zero, Finset.sum_const_zero, add_zero]

/-- C141: a step never takes the charges further from charges at rest, measured by the energy of the field of the difference. -/
theorem c141_monotone (h : GoodDims (intDims dims)) {sigma : Fin dims.prod → List ℝ} {lo hi : ℝ} (hc : Conducting sigma lo hi)
    (hlo : 0 < lo) (ext : List ℝ) (c : Str → ℂ) {m0 m : EqModel dims.prod} (h0 : conductionModel dims sigma ext = some m0)
    (h1 : m0.addEquation conductionEquation = some m) {M} (h2 : m.assemble c = some M) (s : Stepper dims.prod)
    (hs : s.filter = none) (hdt : 0 ≤ s.dt) (hlim : s.dt * hi ≤ 2) (st : Store m.fields.length m.derived.length dims.prod)
    (i : Fin m.fields.length) {p : Data dims.prod} (hp : AtRest sigma ext p) :
    Antitone fun steps => chargeNorm (fft dims ((eulerPropagate M steps (s, st)).2.fields i - p)) := by
  obtain ⟨hnf, hd, hden, hR⟩ := conduction_unique h0 h1 h2
  have hpos := pos_of_goodDims h
  have hrun := conduction_run hpos hnf hd hden hR s hs st i
  refine antitone_nat_of_succ_le fun j => ?_
  have e0 := (rest_transport sigma ext p).mp hp
  have hsub : ∀ u : Data dims.prod, fft dims (u - p) = fft dims u - fft dims p := by
    intro u
    funext k
    rw [Pi.sub_apply, ← fft_sub']
    rfl
  set W := fft dims ((eulerPropagate M j (s, st)).2.fields i - p) with hW
  have e1 : fft dims ((eulerPropagate M (j + 1) (s, st)).2.fields i - p) = fun k => W k + s.dt * relaxation sigma W k := by
    have e2 := transport_affine sigma ext (fft dims p) W
    rw [e0, zero_add, hW, hsub, add_sub_cancel] at e2
    funext k
    rw [hsub, Pi.sub_apply, hrun j k, e2, hW, hsub, Pi.sub_apply]
    ring
  show chargeNorm (fft dims ((eulerPropagate M (j + 1) (s, st)).2.fields i - p)) ≤ chargeNorm W
  rw [e1]
  have e3 := relaxation_step h hc hlo.le (hi_pos h hc hlo) s.dt W
  have e4 : 0 ≤ inducedPower sigma W := Finset.sum_nonneg fun x _ => power_nonneg hc hlo.le x _
  have e5 : 0 ≤ s.dt * (2 - s.dt * hi) * inducedPower sigma W := mul_nonneg (mul_nonneg hdt (by linarith)) e4
  linarith

/-- C141: in a uniform isotropic conductor a wave grows without bound as soon as the time step exceeds `2/(s·θ)`, where `θ` is the
part of the wave that the field sees. -/
theorem c141_sharp (h : GoodDims (intDims dims)) (σ : ℝ) (ext : List ℝ) (c : Str → ℂ) {m0 m : EqModel dims.prod}
    (h0 : conductionModel dims (fun _ => isotropic dims.length σ) ext = some m0)
    (h1 : m0.addEquation conductionEquation = some m) {M} (h2 : m.assemble c = some M) (s : Stepper dims.prod)
    (hs : s.filter = none) (k : Fin dims.prod) (hlim : 2 < s.dt * σ * visible k)
    (st : Store m.fields.length m.derived.length dims.prod) (i : Fin m.fields.length) (hk : fft dims (st.fields i) k ≠ 0) :
    Tendsto (fun steps => ‖fft dims ((eulerPropagate M steps (s, st)).2.fields i) k‖) atTop atTop := by
  obtain ⟨hnf, hd, hden, hR⟩ := conduction_unique h0 h1 h2
  have hpos := pos_of_goodDims h
  have hrun := conduction_run hpos hnf hd hden hR s hs st i
  have hvis : (2 * Real.pi * ∑ d ∈ Finset.range dims.length,
          (if abs (abs (fcomp (freqOf dims k) d) - 1 / 2) > 1 / 10 ^ 10 then fcomp (freqOf dims k) d ^ 2 else 0)) /
        (2 * Real.pi * dotR (freqOf dims k) (freqOf dims k) + 1 / 10 ^ 16) = visible k := by
    unfold visible poisson
    rw [Finset.sum_range]
    congr 2
    refine Finset.sum_congr rfl fun d _ => ?_
    unfold resolved
    split_ifs <;> simp
  have hstep : ∀ j, fft dims ((eulerPropagate M (j + 1) (s, st)).2.fields i) k =
      ((1 - s.dt * σ * visible k : ℝ) : ℂ) * fft dims ((eulerPropagate M j (s, st)).2.fields i) k := by
    intro j
    rw [hrun j k, c78_relaxation h, mul_div_assoc, hvis]
    push_cast
    ring
  have hpow : ∀ j, ‖fft dims ((eulerPropagate M j (s, st)).2.fields i) k‖ =
      |1 - s.dt * σ * visible k| ^ j * ‖fft dims (st.fields i) k‖ := by
    intro j
    induction j with
    | zero => simp [eulerPropagate]
    | succ j ih => rw [hstep, norm_mul, ih, Complex.norm_real, Real.norm_eq_abs, pow_succ]; ring
  simp only [hpow]
  refine Tendsto.atTop_mul_const (norm_pos_iff.mpr hk) (tendsto_pow_atTop_atTop_of_one_lt ?_)
  rw [abs_of_neg (by linarith)]
  linarith

/-! ### Concrete cases -/

/-- A conductor on a 4×4 grid, whose nodes have the principal conductivities 1 and 3, along the axes or along the diagonals. -/
noncomputable def exampleConductor (x : Fin ([4, 4] : List ℕ).prod) : List ℝ := if x.val % 2 = 0 then [1, 3, 0] else [2, 2, 1]

theorem exampleConductor_conducting : Conducting (dims := [4, 4]) exampleConductor 1 3 := by
  have hf : ∀ (x : Fin ([4, 4] : List ℕ).prod) (v : Fin ([4, 4] : List ℕ).length → ℝ),
      ∑ d, ∑ e, conductivityAt exampleConductor x d e * v d * v e =
        if x.val % 2 = 0 then v 0 ^ 2 + 3 * v 1 ^ 2 else 2 * v 0 ^ 2 + 2 * v 1 ^ 2 + 2 * (v 0 * v 1) := by
    intro x v
    have hs : ∀ g : Fin ([4, 4] : List ℕ).length → ℝ, ∑ d, g d = g 0 + g 1 := fun g => Fin.sum_univ_two g
    rw [hs, hs, hs]
    unfold conductivityAt conductivityRead exampleConductor
    have e00 : voigtIndex (0 : Fin ([4, 4] : List ℕ).length).val (0 : Fin ([4, 4] : List ℕ).length).val ([4, 4] : List ℕ).length = 0 := rfl
    have e01 : voigtIndex (0 : Fin ([4, 4] : List ℕ).length).val (1 : Fin ([4, 4] : List ℕ).length).val ([4, 4] : List ℕ).length = 2 := rfl
    have e10 : voigtIndex (1 : Fin ([4, 4] : List ℕ).length).val (0 : Fin ([4, 4] : List ℕ).length).val ([4, 4] : List ℕ).length = 2 := rfl
    have e11 : voigtIndex (1 : Fin ([4, 4] : List ℕ).length).val (1 : Fin ([4, 4] : List ℕ).length).val ([4, 4] : List ℕ).length = 1 := rfl
    rw [e00, e01, e10, e11]
    split_ifs <;> simp <;> ring
  have hs : ∀ g : Fin ([4, 4] : List ℕ).length → ℝ, ∑ d, g d = g 0 + g 1 := fun g => Fin.sum_univ_two g
  constructor
  · intro x v
    rw [hf, hs]
    split_ifs
    · nlinarith [sq_nonneg (v 1)]
    · nlinarith [sq_nonneg (v 0 + v 1)]
  · intro x v
    rw [hf, hs]
    split_ifs
    · nlinarith [sq_nonneg (v 0)]
    · nlinarith [sq_nonneg (v 0 - v 1)]

/-- The hypotheses of `c141_converges` hold for it with the time step of the example, and so do those of the theorems on charges at rest. -/
example : ∃ m0 m M, conductionModel [4, 4] exampleConductor [1, 0] = some m0 ∧ m0.addEquation conductionEquation = some m ∧
    m.assemble (fun _ => 0) = some M ∧ (0 : ℝ) < 1 / 10 ∧ (1 / 10 : ℝ) * 3 < 2 ∧
    ∃ u, AtRest (dims := [4, 4]) exampleConductor [1, 0] u := by
  have hg : GoodDims (intDims [4, 4]) := ⟨by decide, by decide⟩
  obtain ⟨m0, m, M, h1, h2, h3, h4⟩ := c141_assembles (dims := [4, 4]) exampleConductor [1, 0] fun _ => 0
  have hl : m.fields.length = 1 := by rw [h3]; rfl
  obtain ⟨p, -, -, -, -, -, -, hp, -⟩ := c141_converges hg exampleConductor_conducting one_pos [1, 0] (fun _ => 0) h1 h2 h4
    ⟨1 / 10, freqOf [4, 4], none, 0⟩ rfl (by norm_num) (by norm_num) ⟨fun _ _ => 0, fun _ _ => 0⟩ ⟨0, by omega⟩
  exact ⟨m0, m, M, h1, h2, h4, by norm_num, by norm_num, p, hp⟩

/-- The hypothesis of `c141_sharp` holds on a 4×4 grid for a conductivity 1 and the time step 3. -/
example (k : Fin ([4, 4] : List ℕ).prod) (hk : k.val = 1) : 2 < (3 : ℝ) * 1 * visible k := by
  have hf : freqOf [4, 4] k = [0, 1 / 4] := by
    have : freq ([4, 4].map Int.ofNat) 1 = some [0, 1 / 4] := by decide +kernel
    unfold freqOf
    rw [hk]
    simp only [Nat.cast_one, this, Option.getD_some]
    simp
  have hs : ∀ g : Fin ([4, 4] : List ℕ).length → ℝ, ∑ d, g d = g 0 + g 1 := fun g => Fin.sum_univ_two g
  have e0 : resolved k (0 : Fin ([4, 4] : List ℕ).length) = 0 := by
    unfold resolved
    rw [hf]
    simp [fcomp]
  have e1 : resolved k (1 : Fin ([4, 4] : List ℕ).length) = 1 / 4 := by
    unfold resolved
    rw [hf]
    have : fcomp ([0, 1 / 4] : List ℝ) (1 : Fin ([4, 4] : List ℕ).length) = 1 / 4 := rfl
    rw [this, if_pos]
    rw [abs_of_pos (by norm_num : (0 : ℝ) < 1 / 4), abs_of_neg (by norm_num)]
    norm_num
  have e2 : poisson k = 2 * Real.pi * (1 / 16) + 1 / 10 ^ 16 := by
    unfold poisson
    rw [hf]
    simp [dotR]
    norm_num
  unfold visible
  rw [hs, e0, e1, e2]
  have hpi := Real.pi_gt_three
  rw [mul_one, mul_div_assoc', lt_div_iff₀ (by positivity)]
  norm_num
  linarith

end Gopf.Props
