import Verif.Model.PairCorr
import Verif.Model.Miller
import Verif.Proofs.Parseval
import Verif.Props.Euler
import Verif.Proofs.ModeSolver
import Mathlib.Analysis.Calculus.Deriv.Pow
import Mathlib.Analysis.Calculus.Deriv.Mul
import Mathlib.Analysis.Calculus.Deriv.Add
import Mathlib.Analysis.SpecialFunctions.ExpDeriv
import Mathlib.Analysis.SpecialFunctions.Sqrt

/-!
# Theorems C62, C72, C85, C86, C87, C92
-/

namespace Gopf.Props
open Pfc Pf Pfutil
open scoped BigOperators

variable {dims : List ℕ}

/-! ## C62 -/

/-- C62: the energy is the documented polynomial and the derivative method is its derivative. -/
theorem c62_derivative (im : IdealMix) (x : ℝ) :
    im.eval x = x ^ 2 / 2 - im.C3 * x ^ 3 / 6 + im.C4 * x ^ 4 / 12 ∧
    HasDerivAt im.eval (im.deriv x) x := by
  have he : ∀ y, im.eval y = y ^ 2 / 2 - im.C3 * y ^ 3 / 6 + im.C4 * y ^ 4 / 12 := by
    intro y
    unfold IdealMix.eval IdealMix.quadraticPrefactor IdealMix.thirdOrderPrefactor
      IdealMix.fourthOrderPrefactor
    ring
  refine ⟨he x, ?_⟩
  have hf : im.eval = fun y => y ^ 2 / 2 - im.C3 * y ^ 3 / 6 + im.C4 * y ^ 4 / 12 := funext he
  rw [hf]
  have h := (((hasDerivAt_pow 2 x).div_const 2).sub
    ((HasDerivAt.const_mul im.C3 (hasDerivAt_pow 3 x)).div_const 6)).add
    ((HasDerivAt.const_mul im.C4 (hasDerivAt_pow 4 x)).div_const 12)
  refine h.congr_deriv ?_
  unfold IdealMix.deriv IdealMix.quadraticPrefactor IdealMix.thirdOrderPrefactor
    IdealMix.fourthOrderPrefactor
  norm_num
  ring

/-- The right hand side contributed by the mixed term for the real field `q`: linear part times the
transformed field plus the non-linear part. -/
noncomputable def idealMixTotal (im : IdealMix) (prefactor : ℝ) (laplacian : Bool)
    (q : Fin dims.prod → ℝ) : Option (Data dims.prod) := do
  let b : Data dims.prod := fun x => (q x : ℂ)
  let nonlin ← idealMixNonLinear laplacian (some (fft dims (idealMixDerivedField im b)))
  return fun k => idealMixLinear prefactor laplacian (freqOf dims) 0 k * fft dims b k +
    nonlin (freqOf dims) 0 k

private theorem total_eq (im : IdealMix) (prefactor : ℝ) (laplacian : Bool) (q : Fin dims.prod → ℝ) :
    ∃ out, idealMixTotal im prefactor laplacian q = some out ∧ ∀ k, out k =
      (if laplacian then lapFactor 1 (freqOf dims k) else 1) *
        fft dims (fun x => ((prefactor * q x + (im.deriv (q x) - q x) : ℝ) : ℂ)) k := by
  refine ⟨_, rfl, fun k => ?_⟩
  have hd : (fun x => ((prefactor * q x + (im.deriv (q x) - q x) : ℝ) : ℂ)) =
      fun x => (prefactor : ℂ) * (q x : ℂ) + idealMixDerivedField im (fun x => (q x : ℂ)) x := by
    funext x
    unfold idealMixDerivedField IdealMix.deriv IdealMix.quadraticPrefactor
    simp only [Complex.ofReal_re]
    push_cast
    ring
  rw [hd, fft_add, fft_smul]
  cases laplacian
  · simp [idealMixLinear]
  · simp [idealMixLinear, lapEval]
    ring

/-- C62: with prefactor one the mixed term is the transform of the derivative of the energy (or its
Laplacian), for every real field. -/
theorem c62_unit_prefactor (im : IdealMix) (laplacian : Bool) (q : Fin dims.prod → ℝ) :
    ∃ out, idealMixTotal im 1 laplacian q = some out ∧ ∀ k, out k =
      (if laplacian then lapFactor 1 (freqOf dims k) else 1) *
        fft dims (idealMixEval im 1 (fun x => (q x : ℂ))) k := by
  obtain ⟨out, h1, h2⟩ := total_eq im 1 laplacian q
  refine ⟨out, h1, fun k => ?_⟩
  rw [h2]
  congr 2
  funext x
  simp [idealMixEval]

/-- C62: for any prefactor the term is prefactor times the derivative of the energy exactly if the
prefactor is one or the non-linear part vanishes at every node: the prefactor is missing there. -/
theorem c62_right_iff (hpos : ∀ d ∈ dims, 0 < d) (im : IdealMix) (prefactor : ℝ)
    (q : Fin dims.prod → ℝ) :
    idealMixTotal im prefactor false q =
      some (fft dims (idealMixEval im prefactor (fun x => (q x : ℂ)))) ↔
    prefactor = 1 ∨ ∀ x, -im.C3 / 2 * q x ^ 2 + im.C4 / 3 * q x ^ 3 = 0 := by
  obtain ⟨out, h1, h2⟩ := total_eq im prefactor false q
  have hout : out = fft dims (fun x => ((prefactor * q x + (im.deriv (q x) - q x) : ℝ) : ℂ)) := by
    funext k; rw [h2]; simp
  have hnl : ∀ x, im.deriv (q x) - q x = -im.C3 / 2 * q x ^ 2 + im.C4 / 3 * q x ^ 3 := by
    intro x
    unfold IdealMix.deriv IdealMix.quadraticPrefactor IdealMix.thirdOrderPrefactor
      IdealMix.fourthOrderPrefactor
    ring
  rw [h1, hout, Option.some.injEq]
  constructor
  · intro h
    have h3 := fft_injective hpos h
    by_cases hp : prefactor = 1
    · exact Or.inl hp
    · right
      intro x
      have h4 := congrFun h3 x
      simp only [idealMixEval, Complex.ofReal_re] at h4
      have h5 : prefactor * q x + (im.deriv (q x) - q x) = prefactor * im.deriv (q x) := by
        exact_mod_cast h4
      have h6 : (prefactor - 1) * (im.deriv (q x) - q x) = 0 := by linarith
      rw [← hnl]
      exact (mul_eq_zero.mp h6).resolve_left (sub_ne_zero.mpr hp)
  · intro h
    congr 1
    funext x
    simp only [idealMixEval, Complex.ofReal_re]
    congr 1
    rcases h with rfl | h
    · ring
    · have := h x
      rw [← hnl] at this
      have : im.deriv (q x) = q x := by linarith
      rw [this]; ring

/-- C62: so with prefactor 2, C3 = 0, C4 = 1 and a field that is 1 everywhere it is wrong. -/
example : idealMixTotal (dims := [4, 4]) ⟨0, 1⟩ 2 false (fun _ => 1) ≠
    some (fft [4, 4] (idealMixEval ⟨0, 1⟩ 2 (fun _ => ((1 : ℝ) : ℂ)))) := by
  intro h
  rcases (c62_right_iff (by simp) ⟨0, 1⟩ 2 (fun _ => 1)).mp h with h | h
  · norm_num at h
  · have := h ⟨0, by decide⟩
    norm_num at this

/-- C62: the derivative registered with a model is the derivative of the reported energy with respect to
the value at each node. -/
theorem c62_energy (n : ℕ) (im : IdealMix) (prefactor : ℝ) (q : Fin n → ℝ) (x : Fin n) :
    HasDerivAt (fun y : ℝ => idealMixEnergy im prefactor (fun i => ((Function.update q x y i : ℝ) : ℂ)))
      (idealMixEval im prefactor (fun i => (q i : ℂ)) x).re (q x) := by
  have he : ∀ p : Fin n → ℝ, idealMixEnergy im prefactor (fun i => (p i : ℂ)) =
      ∑ i, prefactor * im.eval (p i) := by
    intro p
    unfold idealMixEnergy
    rw [foldl_add_list, zero_add]
    simp only [Complex.ofReal_re]
    exact (Fin.sum_univ_def _).symm
  simp only [he]
  have e1 : (fun y : ℝ => ∑ i, prefactor * im.eval (Function.update q x y i)) =
      fun y => prefactor * im.eval y + ∑ i ∈ Finset.univ.erase x, prefactor * im.eval (q i) := by
    funext y
    rw [← Finset.add_sum_erase _ _ (Finset.mem_univ x), Function.update_self]
    congr 1
    refine Finset.sum_congr rfl fun j hj => ?_
    rw [Function.update_of_ne (Finset.ne_of_mem_erase hj)]
  rw [e1]
  have h := (HasDerivAt.const_mul prefactor (c62_derivative im (q x)).2).add_const
    (∑ i ∈ Finset.univ.erase x, prefactor * im.eval (q i))
  refine h.congr_deriv ?_
  simp [idealMixEval]

/-- C62: a missing derived field makes the construction panic. -/
theorem c62_missing_field (n : ℕ) (laplacian : Bool) :
    idealMixNonLinear (n := n) laplacian none = none := rfl

/-! ## C72 -/

/-- C72: the explicit term is the implicit coefficient times the field, bin by bin; the Laplacian
multiplies it by `-(2π|f|)²`. -/
theorem c72_explicit (corr : ℝ → ℝ) (A : ℝ) (lap : Bool) (b : Data dims.prod)
    (freq : Frequency dims.prod) (t : ℝ) (k : Fin dims.prod) :
    explicitPairCorrTerm corr A lap b freq t k = pairCorrTerm corr A lap freq t k * b k ∧
    pairCorrTerm corr A true freq t k =
      -((2 * Real.pi * norm2 (freq k)) ^ 2 : ℝ) * pairCorrTerm corr A false freq t k := by
  constructor
  · cases lap
    · simp [explicitPairCorrTerm, pairCorrTerm]
    · simp [explicitPairCorrTerm, pairCorrTerm, lapEval]
      ring
  · simp [pairCorrTerm, lapEval, lapFactor]
    ring

private theorem bilinear (hpos : ∀ d ∈ dims, 0 < d) (S : Fin dims.prod → ℝ) (u w : Fin dims.prod → ℝ) :
    ∑ x, ((ifft dims (fun k => fft dims (fun x => (u x : ℂ)) k * (S k : ℂ)) x / (dims.prod : ℂ)) *
      (w x : ℂ)) = (∑ k, (S k : ℂ) * (fft dims (fun x => (u x : ℂ)) k *
        (starRingEnd ℂ) (fft dims (fun x => (w x : ℂ)) k))) / (dims.prod : ℂ) := by
  have hN := prod_ne_zero' hpos
  have h := parseval hpos (fun x => ifft dims (fun k => fft dims (fun x => (u x : ℂ)) k * (S k : ℂ)) x /
    (dims.prod : ℂ)) (fun x => (w x : ℂ))
  rw [fft_surjective hpos] at h
  simp only [Complex.conj_ofReal] at h
  rw [eq_div_iff hN, mul_comm, ← h]
  refine Finset.sum_congr rfl fun k _ => ?_
  ring

/-- C72: the term is the functional derivative of the reported energy: for every real field and every
direction the derivative of the energy in that direction is the sum over the nodes of the direction
times the term (transformed back). -/
theorem c72_gradient (hpos : ∀ d ∈ dims, 0 < d) (corr : ℝ → ℝ) (A : ℝ) (q v : Fin dims.prod → ℝ)
    (t : ℝ) :
    HasDerivAt (fun s : ℝ => pairCorrEnergy dims corr A (fun x => ((q x + s * v x : ℝ) : ℂ)))
      (∑ x, v x * (divRealScalar (ifft dims (explicitPairCorrTerm corr A false
        (fft dims (fun x => (q x : ℂ))) (freqOf dims) t)) (dims.prod : ℕ) x).re) 0 := by
  set S : Fin dims.prod → ℝ := fun i =>
    A * corr (2 * Real.pi * Real.sqrt (dotR (freqOf dims i) (freqOf dims i))) with hS
  set N : ℝ := ((dims.prod : ℕ) : ℝ) with hNdef
  have hNc : ((N : ℝ) : ℂ) = (dims.prod : ℂ) := by rw [hNdef, Complex.ofReal_natCast]
  set Q := fft dims (fun x => (q x : ℂ)) with hQ
  set V := fft dims (fun x => (v x : ℂ)) with hV
  have hE : ∀ u : Fin dims.prod → ℝ, pairCorrEnergy dims corr A (fun x => (u x : ℂ)) =
      -1 / 2 * ((∑ k, (S k : ℂ) * (fft dims (fun x => (u x : ℂ)) k *
        (starRingEnd ℂ) (fft dims (fun x => (u x : ℂ)) k))) / (dims.prod : ℂ)).re := by
    intro u
    rw [← bilinear hpos S u u]
    unfold pairCorrEnergy
    simp only
    rw [foldl_add_list, zero_add, ← Fin.sum_univ_def, Complex.re_sum]
    simp only [divRealScalar, Complex.ofReal_natCast, hS]
  have hexp : ∀ s : ℝ, pairCorrEnergy dims corr A (fun x => ((q x + s * v x : ℝ) : ℂ)) =
      -1 / 2 * ((∑ k, S k * Complex.normSq (Q k)) / N +
        s * ((∑ k, S k * (2 * (Q k * (starRingEnd ℂ) (V k)).re)) / N) +
        s ^ 2 * ((∑ k, S k * Complex.normSq (V k)) / N)) := by
    intro s
    rw [hE (fun x => q x + s * v x)]
    congr 1
    have hf : ∀ k, fft dims (fun x => ((q x + s * v x : ℝ) : ℂ)) k = Q k + s * V k := by
      intro k
      have : (fun x => ((q x + s * v x : ℝ) : ℂ)) = fun x => (q x : ℂ) + (s : ℂ) * (v x : ℂ) := by
        funext x; push_cast; rfl
      rw [this, fft_add, fft_smul]
    simp only [hf]
    rw [← hNc, Complex.div_ofReal_re, Complex.re_sum]
    rw [mul_div_assoc', mul_div_assoc', ← add_div, ← add_div, Finset.mul_sum, Finset.mul_sum,
      ← Finset.sum_add_distrib, ← Finset.sum_add_distrib]
    congr 1
    refine Finset.sum_congr rfl fun k _ => ?_
    rw [Complex.re_ofReal_mul]
    simp only [map_add, map_mul, Complex.conj_ofReal, Complex.add_re, Complex.mul_re, Complex.add_im,
      Complex.mul_im, Complex.conj_re, Complex.conj_im, Complex.ofReal_re, Complex.ofReal_im,
      Complex.normSq_apply]
    ring
  have hfun : (fun s : ℝ => pairCorrEnergy dims corr A (fun x => ((q x + s * v x : ℝ) : ℂ))) = _ :=
    funext hexp
  rw [hfun]
  have hd := HasDerivAt.const_mul (-1 / 2 : ℝ) ((((hasDerivAt_id (0 : ℝ)).mul_const
    ((∑ k, S k * (2 * (Q k * (starRingEnd ℂ) (V k)).re)) / N)).const_add
      ((∑ k, S k * Complex.normSq (Q k)) / N)).add
    ((hasDerivAt_pow 2 (0 : ℝ)).mul_const ((∑ k, S k * Complex.normSq (V k)) / N)))
  refine hd.congr_deriv ?_
  have hb := bilinear hpos S q v
  have hneg : explicitPairCorrTerm corr A false Q (freqOf dims) t = fun k => -(Q k * (S k : ℂ)) := by
    funext k
    simp only [explicitPairCorrTerm, hS]
    simp
    ring
  have hi : ∀ x, ifft dims (fun k => -(Q k * (S k : ℂ))) x = -ifft dims (fun k => Q k * (S k : ℂ)) x := by
    intro x
    unfold ifft
    rw [← Finset.sum_neg_distrib]
    exact Finset.sum_congr rfl fun k _ => by ring
  have hr : ∑ x, v x * (divRealScalar (ifft dims (explicitPairCorrTerm corr A false Q (freqOf dims) t))
      N x).re = -(∑ x, ((ifft dims (fun k => Q k * (S k : ℂ)) x / (dims.prod : ℂ)) * (v x : ℂ))).re := by
    rw [Complex.re_sum, ← Finset.sum_neg_distrib]
    refine Finset.sum_congr rfl fun x _ => ?_
    rw [hneg]
    simp only [divRealScalar, hi, hNc]
    rw [Complex.re_mul_ofReal, neg_div, Complex.neg_re]
    ring
  rw [hr, hb, ← hNc, Complex.div_ofReal_re, Complex.re_sum]
  simp only [Complex.re_ofReal_mul]
  have : ∑ k, S k * (2 * (Q k * (starRingEnd ℂ) (V k)).re) =
      2 * ∑ k, S k * (Q k * (starRingEnd ℂ) (V k)).re := by
    rw [Finset.mul_sum]
    exact Finset.sum_congr rfl fun k _ => by ring
  rw [this]
  simp
  ring

/-- The hypothesis of `c72_gradient` is met by every domain with positive side lengths. -/
example : ∀ d ∈ [16, 8, 4], 0 < d := by simp

/-! ## C85 -/

private theorem fold_spec (effTemp k : ℝ) (peaks : List Peak) (r : ℝ) :
    let g := peaks.foldl (fun (result : ℝ) peak =>
      if peakValue effTemp peak k > result then peakValue effTemp peak k else result) r
    r ≤ g ∧ (∀ p ∈ peaks, peakValue effTemp p k ≤ g) ∧ (g = r ∨ ∃ p ∈ peaks, g = peakValue effTemp p k) := by
  induction peaks generalizing r with
  | nil => simp
  | cons p ps ih =>
    simp only [List.foldl_cons]
    obtain ⟨h1, h2, h3⟩ := ih (if peakValue effTemp p k > r then peakValue effTemp p k else r)
    have hr : r ≤ (if peakValue effTemp p k > r then peakValue effTemp p k else r) := by
      split <;> linarith
    have hp : peakValue effTemp p k ≤ (if peakValue effTemp p k > r then peakValue effTemp p k else r) := by
      split <;> linarith
    refine ⟨hr.trans h1, ?_, ?_⟩
    · intro x hx
      rcases List.mem_cons.mp hx with rfl | hx
      · exact hp.trans h1
      · exact h2 x hx
    · rcases h3 with h | ⟨x, hx, h⟩
      · rw [h]
        split
        · exact Or.inr ⟨p, by simp, rfl⟩
        · exact Or.inl rfl
      · exact Or.inr ⟨x, by simp [hx], h⟩

private theorem peakValue_eq (effTemp : ℝ) (p : Peak) (k : ℝ) : peakValue effTemp p k =
    Real.exp (-(effTemp * k) ^ 2 / (2 * p.planeDensity * p.numPlanes)) *
      Real.exp (-((k - p.location) / p.width) ^ 2 / 2) := by
  unfold peakValue
  have e1 : -effTemp * effTemp * k * k = -(effTemp * k) ^ 2 := by ring
  have e2 : -0.5 * ((k - p.location) / p.width) ^ 2 = -((k - p.location) / p.width) ^ 2 / 2 := by
    norm_num; ring
  simp only [e1, e2]

/-- C85: the correlation function is the maximum of its peaks, each a Gaussian damped by the effective
temperature; with no peaks it is zero. -/
theorem c85_maximum (effTemp : ℝ) (peaks : List Peak) (k : ℝ) :
    let g := fun p : Peak => Real.exp (-(effTemp * k) ^ 2 / (2 * p.planeDensity * p.numPlanes)) *
      Real.exp (-((k - p.location) / p.width) ^ 2 / 2)
    (∀ p ∈ peaks, g p ≤ pairCorrEval effTemp peaks k) ∧
    (peaks = [] → pairCorrEval effTemp peaks k = 0) ∧
    (peaks ≠ [] → ∃ p ∈ peaks, pairCorrEval effTemp peaks k = g p) := by
  obtain ⟨h1, h2, h3⟩ := fold_spec effTemp k peaks 0
  refine ⟨fun p hp => (peakValue_eq effTemp p k).symm.le.trans (h2 p hp), ?_, ?_⟩
  · rintro rfl; rfl
  · intro hne
    rcases h3 with h | ⟨p, hp, h⟩
    · obtain ⟨p, hp⟩ := List.exists_mem_of_ne_nil _ hne
      have h4 := h2 p hp
      rw [h] at h4
      have : 0 < peakValue effTemp p k := by
        rw [peakValue_eq]; positivity
      linarith
    · exact ⟨p, hp, h.trans (peakValue_eq effTemp p k)⟩

/-- C85: its values lie between zero and one (positive densities and plane numbers). -/
theorem c85_range (effTemp : ℝ) (peaks : List Peak) (k : ℝ)
    (hp : ∀ p ∈ peaks, 0 < p.planeDensity ∧ 0 < p.numPlanes) :
    0 ≤ pairCorrEval effTemp peaks k ∧ pairCorrEval effTemp peaks k ≤ 1 := by
  obtain ⟨h1, h2, h3⟩ := fold_spec effTemp k peaks 0
  refine ⟨h1, ?_⟩
  rcases h3 with h | ⟨p, hm, h⟩
  · rw [pairCorrEval, h]; norm_num
  · rw [pairCorrEval, h, peakValue_eq]
    have hd : 0 < 2 * p.planeDensity * (p.numPlanes : ℝ) := by
      have := (hp p hm).1
      have h2 : (0 : ℝ) < p.numPlanes := by exact_mod_cast (hp p hm).2
      positivity
    refine mul_le_one₀ ?_ (Real.exp_nonneg _) ?_
    · rw [Real.exp_le_one_iff, neg_div]
      have : 0 ≤ (effTemp * k) ^ 2 / (2 * p.planeDensity * (p.numPlanes : ℝ)) := by positivity
      linarith
    · rw [Real.exp_le_one_iff, neg_div]
      have : 0 ≤ ((k - p.location) / p.width) ^ 2 / 2 := by positivity
      linarith

/-- C85: at temperature zero it is one at the location of every peak. -/
theorem c85_at_peak (peaks : List Peak) (hp : ∀ p ∈ peaks, 0 < p.planeDensity ∧ 0 < p.numPlanes)
    (p : Peak) (hm : p ∈ peaks) : pairCorrEval 0 peaks p.location = 1 := by
  refine le_antisymm (c85_range 0 peaks _ hp).2 ?_
  have h := (c85_maximum 0 peaks p.location).1 p hm
  simpa using h

/-- C85: it does not increase with the temperature. -/
theorem c85_temperature (T1 T2 : ℝ) (hT : |T1| ≤ |T2|) (peaks : List Peak) (k : ℝ)
    (hp : ∀ p ∈ peaks, 0 < p.planeDensity ∧ 0 < p.numPlanes) :
    pairCorrEval T2 peaks k ≤ pairCorrEval T1 peaks k := by
  by_cases hne : peaks = []
  · subst hne; exact le_refl _
  obtain ⟨p, hm, h⟩ := (c85_maximum T2 peaks k).2.2 hne
  rw [h]
  refine le_trans ?_ ((c85_maximum T1 peaks k).1 p hm)
  refine mul_le_mul_of_nonneg_right ?_ (Real.exp_nonneg _)
  rw [Real.exp_le_exp]
  have hd : 0 < 2 * p.planeDensity * (p.numPlanes : ℝ) := by
    have := (hp p hm).1
    have h2 : (0 : ℝ) < p.numPlanes := by exact_mod_cast (hp p hm).2
    positivity
  rw [div_le_div_iff_of_pos_right hd]
  have h1 : T1 ^ 2 ≤ T2 ^ 2 := sq_le_sq.mpr hT
  nlinarith [sq_nonneg k]

/-- C85: the order of the peaks is irrelevant. -/
theorem c85_order (effTemp : ℝ) (p1 p2 : List Peak) (hperm : p1.Perm p2) (k : ℝ) :
    pairCorrEval effTemp p1 k = pairCorrEval effTemp p2 k := by
  have key : ∀ a b : List Peak, a.Perm b → pairCorrEval effTemp a k ≤ pairCorrEval effTemp b k := by
    intro a b hab
    obtain ⟨_, _, h3⟩ := fold_spec effTemp k a 0
    obtain ⟨g1, g2, _⟩ := fold_spec effTemp k b 0
    rcases h3 with h | ⟨p, hp, h⟩
    · rw [pairCorrEval, h]; exact g1
    · rw [pairCorrEval, h]; exact g2 p (hab.subset hp)
  exact le_antisymm (key _ _ hperm) (key _ _ hperm.symm)

/-- C85: the peaks of the square lattice are located at the lengths of the reciprocal lattice vectors
(1 0) and (1 1) of the simple cubic cell in two dimensions; their plane numbers are the numbers of
equivalent indices, their densities the densities of lattice points on these lines (per spacing). -/
theorem c85_square (width a : ℝ) (ha : 0 < a) :
    (squareLattice2D width a).map Peak.location =
      [Real.sqrt (∑ i, hklVector (k := 0) (reciprocal (sc2D a)) ⟨1, 0, 0⟩ i ^ 2),
       Real.sqrt (∑ i, hklVector (k := 0) (reciprocal (sc2D a)) ⟨1, 1, 0⟩ i ^ 2)] ∧
    (squareLattice2D width a).map Peak.planeDensity =
      [1 / Real.sqrt ((1 : ℝ) ^ 2 + 0 ^ 2), 1 / Real.sqrt ((1 : ℝ) ^ 2 + 1 ^ 2)] ∧
    (squareLattice2D width a).map Peak.numPlanes =
      [(numEquivalent2D ⟨1, 0, 0⟩ : ℤ), (numEquivalent2D ⟨1, 1, 0⟩ : ℤ)] := by
  have hinv : (sc2D a)⁻¹ = !![1 / a, 0; 0, 1 / a] := by
    refine Matrix.inv_eq_right_inv ?_
    ext i j
    fin_cases i <;> fin_cases j <;>
      simp [sc2D, Matrix.mul_apply, Fin.sum_univ_two, Matrix.one_apply, ha.ne']
  have hpi : 0 < 2 * Real.pi / a := by positivity
  have h2 : Real.sqrt 2 ≠ 0 := by positivity
  refine ⟨?_, ?_, ?_⟩
  · simp only [squareLattice2D, List.map_cons, List.map_nil, hklVector, reciprocal, hinv,
      Fin.sum_univ_two]
    have e1 : ∀ x : ℝ, Real.sqrt (x ^ 2 + 0 ^ 2) = |x| := fun x => by
      rw [zero_pow two_ne_zero, add_zero, Real.sqrt_sq_eq_abs]
    simp
    constructor
    · rw [Real.sqrt_sq_eq_abs, abs_of_pos (by positivity)]; ring
    · have : (2 * Real.pi * a⁻¹) ^ 2 + (2 * Real.pi * a⁻¹) ^ 2 = 2 * (2 * Real.pi * a⁻¹) ^ 2 := by ring
      rw [this, Real.sqrt_mul (by norm_num), Real.sqrt_sq (by positivity)]
      field_simp
  · simp [squareLattice2D]; norm_num
  · simp only [squareLattice2D, List.map_cons, List.map_nil]
    decide +kernel

/-! ## C92 -/

/-- C92: the location of the triangular lattice's peak is no length of a reciprocal lattice vector of
the triangular lattice with lattice parameter `a` (cell vectors of length `a` at 60 degrees). -/
theorem c92_not_triangular (width a : ℝ) (ha : 0 < a) (C : Matrix (Fin 2) (Fin 2) ℝ)
    (hC : C = !![a, a / 2; 0, a * Real.sqrt 3 / 2]) (m : Miller) :
    ∀ p ∈ triangularLattice2D width a,
      p.location ^ 2 ≠ ∑ i, hklVector (k := 0) (reciprocal C) m i ^ 2 := by
  intro p hp
  simp only [triangularLattice2D, List.mem_singleton] at hp
  subst hp
  have h3 : Real.sqrt 3 ≠ 0 := by positivity
  have hs : Real.sqrt 3 ^ 2 = 3 := Real.sq_sqrt (by norm_num)
  have hinv : C⁻¹ = !![1 / a, -1 / (a * Real.sqrt 3); 0, 2 / (a * Real.sqrt 3)] := by
    subst hC
    refine Matrix.inv_eq_right_inv ?_
    ext i j
    fin_cases i <;> fin_cases j <;>
      simp [Matrix.mul_apply, Fin.sum_univ_two, Matrix.one_apply] <;> field_simp <;> ring
  intro h
  simp only [hklVector, reciprocal, hinv, Fin.sum_univ_two] at h
  simp at h
  have hpi : Real.pi ≠ 0 := Real.pi_ne_zero
  have h4 : (3 : ℝ) = 4 * ((m.H : ℝ) ^ 2 - m.H * m.K + m.K ^ 2) := by
    field_simp at h
    nlinarith [h, hs]
  have h5 : (3 : ℤ) = 4 * (m.H ^ 2 - m.H * m.K + m.K ^ 2) := by exact_mod_cast h4
  omega

/-- C92: the height of the peak. -/
theorem c92_height (effTemp width a : ℝ) :
    pairCorrEval effTemp (triangularLattice2D width a) (2 * Real.pi / a) =
      Real.exp (-(effTemp * (2 * Real.pi / a)) ^ 2 / 12) := by
  have e : ∀ p ∈ triangularLattice2D width a, peakValue effTemp p (2 * Real.pi / a) =
      Real.exp (-(effTemp * (2 * Real.pi / a)) ^ 2 / 12) := by
    intro p hp
    simp only [triangularLattice2D, List.mem_singleton] at hp
    subst hp
    unfold peakValue
    dsimp only
    rw [sub_self, zero_div, zero_pow two_ne_zero, mul_zero, Real.exp_zero, mul_one]
    congr 1
    norm_num
    ring
  have h := Real.exp_pos (-(effTemp * (2 * Real.pi / a)) ^ 2 / 12)
  have e' := e _ (List.mem_singleton.mpr rfl)
  unfold pairCorrEval triangularLattice2D
  rw [List.foldl_cons, List.foldl_nil, e', if_pos h]

/-- C92: nor of the cell the library calls triangular. -/
theorem c92_not_library_cell (width a : ℝ) (ha : 0 < a) (m : Miller) :
    ∀ p ∈ triangularLattice2D width a,
      p.location ^ 2 ≠ ∑ i, hklVector (k := 0) (reciprocal (triangular2D a)) m i ^ 2 := by
  intro p hp
  simp only [triangularLattice2D, List.mem_singleton] at hp
  subst hp
  have hinv : (triangular2D a)⁻¹ = !![1 / a, -1 / a; 0, 2 / a] := by
    refine Matrix.inv_eq_right_inv ?_
    ext i j
    fin_cases i <;> fin_cases j <;>
      simp [triangular2D, Matrix.mul_apply, Fin.sum_univ_two, Matrix.one_apply] <;> field_simp <;> ring
  intro h
  simp only [hklVector, reciprocal, hinv, Fin.sum_univ_two] at h
  simp at h
  have hpi : Real.pi ≠ 0 := Real.pi_ne_zero
  have h4 : (1 : ℝ) = 2 * ((m.H : ℝ) ^ 2 - 2 * m.H * m.K + 2 * m.K ^ 2) := by
    field_simp at h
    nlinarith [h]
  have h5 : (1 : ℤ) = 2 * (m.H ^ 2 - 2 * m.H * m.K + 2 * m.K ^ 2) := by exact_mod_cast h4
  omega

/-! ## C87 -/

/-- C87: the indicator's derivative is the reported one everywhere, also where the branches meet. -/
theorem c87_derivative (x : ℝ) : HasDerivAt indicator (indicatorDeriv x) x := by
  have hpoly : ∀ y : ℝ, HasDerivAt (fun y : ℝ => 3 * y * y - 2 * y * y * y) (6 * y - 6 * y * y) y := by
    intro y
    have h := (HasDerivAt.const_mul (3 : ℝ) (hasDerivAt_pow 2 y)).sub
      (HasDerivAt.const_mul (2 : ℝ) (hasDerivAt_pow 3 y))
    have e : (fun y : ℝ => 3 * y * y - 2 * y * y * y) = fun y => 3 * y ^ 2 - 2 * y ^ 3 := by
      funext y; ring
    rw [e]
    refine h.congr_deriv ?_
    norm_num; ring
  have hmid : ∀ y ∈ Set.Icc (0 : ℝ) 1, indicator y = 3 * y * y - 2 * y * y * y := by
    intro y hy
    unfold indicator
    rw [if_neg (not_lt.mpr hy.1), if_neg (not_lt.mpr hy.2)]
  have hlow : ∀ y ∈ Set.Iic (0 : ℝ), indicator y = 0 := by
    intro y hy
    rcases lt_or_eq_of_le (Set.mem_Iic.mp hy) with h | h
    · unfold indicator; rw [if_pos h]
    · subst h; unfold indicator; norm_num
  have hhigh : ∀ y ∈ Set.Ici (1 : ℝ), indicator y = 1 := by
    intro y hy
    rcases lt_or_eq_of_le (Set.mem_Ici.mp hy) with h | h
    · unfold indicator; rw [if_neg (by linarith), if_pos h]
    · subst h; unfold indicator; norm_num
  have hIcc : ∀ y ∈ Set.Icc (0 : ℝ) 1, HasDerivWithinAt indicator (6 * y - 6 * y * y) (Set.Icc 0 1) y :=
    fun y hy => (hpoly y).hasDerivWithinAt.congr hmid (hmid y hy)
  have hIic : ∀ y ∈ Set.Iic (0 : ℝ), HasDerivWithinAt indicator 0 (Set.Iic 0) y :=
    fun y hy => (hasDerivWithinAt_const y _ (0 : ℝ)).congr hlow (hlow y hy)
  have hIci : ∀ y ∈ Set.Ici (1 : ℝ), HasDerivWithinAt indicator 0 (Set.Ici 1) y :=
    fun y hy => (hasDerivWithinAt_const y _ (1 : ℝ)).congr hhigh (hhigh y hy)
  unfold indicatorDeriv
  rcases lt_trichotomy x 0 with h | h | h
  · rw [if_pos (Or.inl h)]
    exact (hIic x h.le).hasDerivAt (Iic_mem_nhds h)
  · subst h
    rw [if_neg (by norm_num)]
    have h1 := hIcc 0 (by simp)
    have h2 := hIic 0 (by simp)
    norm_num at h1 ⊢
    have h3 := h2.union h1
    rw [Set.Iic_union_Icc_eq_Iic (by norm_num)] at h3
    exact h3.hasDerivAt (Iic_mem_nhds (by norm_num))
  · rcases lt_trichotomy x 1 with h1 | h1 | h1
    · rw [if_neg (by push Not; exact ⟨h.le, h1.le⟩)]
      exact (hIcc x ⟨h.le, h1.le⟩).hasDerivAt (Icc_mem_nhds h h1)
    · subst h1
      rw [if_neg (by norm_num)]
      have h1 := hIcc 1 (by simp)
      have h2 := hIci 1 (by simp)
      norm_num at h1 ⊢
      have h3 := h1.union h2
      rw [Set.Icc_union_Ici_eq_Ici (by norm_num)] at h3
      exact h3.hasDerivAt (Ici_mem_nhds (by norm_num))
    · rw [if_pos (Or.inr h1)]
      exact (hIci x h1.le).hasDerivAt (Ici_mem_nhds h1)

/-- C87: the derivative is continuous, so the indicator is continuously differentiable. -/
theorem c87_smooth : Continuous indicatorDeriv ∧ ContDiff ℝ 1 indicator := by
  have hc : Continuous indicatorDeriv := by
    have e : indicatorDeriv = fun x => 6 * (max 0 (min x 1)) - 6 * (max 0 (min x 1)) * (max 0 (min x 1)) := by
      funext x
      unfold indicatorDeriv
      rcases lt_trichotomy x 0 with h | h | h
      · rw [if_pos (Or.inl h), min_eq_left (by linarith), max_eq_left h.le]; ring
      · subst h; norm_num
      · rcases le_or_gt x 1 with h1 | h1
        · rw [if_neg (by push Not; exact ⟨h.le, h1⟩), min_eq_left h1, max_eq_right h.le]
        · rw [if_pos (Or.inr h1), min_eq_right h1.le, max_eq_right zero_le_one]; ring
    rw [e]
    fun_prop
  have hd : deriv indicator = indicatorDeriv := funext fun x => (c87_derivative x).deriv
  exact ⟨hc, contDiff_one_iff_deriv.mpr ⟨fun x => (c87_derivative x).differentiableAt, by rw [hd]; exact hc⟩⟩

/-- C87: the indicator takes values in [0, 1], is 0 for arguments up to 0 and 1 from 1 on, does not
decrease, and treats the two phases alike. -/
theorem c87_shape (x y : ℝ) : 0 ≤ indicator x ∧ indicator x ≤ 1 ∧ (x ≤ 0 → indicator x = 0) ∧
    (1 ≤ x → indicator x = 1) ∧ (x ≤ y → indicator x ≤ indicator y) ∧
    indicator (1 - x) = 1 - indicator x := by
  have hlow : ∀ y : ℝ, y ≤ 0 → indicator y = 0 := by
    intro y hy
    rcases lt_or_eq_of_le hy with h | h
    · unfold indicator; rw [if_pos h]
    · subst h; unfold indicator; norm_num
  have hhigh : ∀ y : ℝ, 1 ≤ y → indicator y = 1 := by
    intro y hy
    rcases lt_or_eq_of_le hy with h | h
    · unfold indicator; rw [if_neg (by linarith), if_pos h]
    · subst h; unfold indicator; norm_num
  have hmid : ∀ y : ℝ, 0 ≤ y → y ≤ 1 → indicator y = 3 * y * y - 2 * y * y * y := by
    intro y h0 h1
    unfold indicator
    rw [if_neg (not_lt.mpr h0), if_neg (not_lt.mpr h1)]
  have hr : ∀ y : ℝ, 0 ≤ indicator y ∧ indicator y ≤ 1 := by
    intro y
    rcases le_total y 0 with h | h
    · rw [hlow y h]; norm_num
    rcases le_total y 1 with h1 | h1
    · rw [hmid y h h1]
      constructor
      · nlinarith [mul_nonneg h h, mul_nonneg (mul_nonneg h h) (sub_nonneg.mpr h1)]
      · have : 1 - (3 * y * y - 2 * y * y * y) = (1 - y) ^ 2 * (1 + 2 * y) := by ring
        nlinarith [mul_nonneg (sq_nonneg (1 - y)) (by linarith : (0 : ℝ) ≤ 1 + 2 * y)]
    · rw [hhigh y h1]; norm_num
  refine ⟨(hr x).1, (hr x).2, hlow x, hhigh x, ?_, ?_⟩
  · intro hxy
    rcases le_total x 0 with h | h
    · rw [hlow x h]; exact (hr y).1
    rcases le_total 1 y with h1 | h1
    · rw [hhigh y h1]; exact (hr x).2
    rw [hmid x h (hxy.trans h1), hmid y (h.trans hxy) h1]
    have hx1 : 0 ≤ 1 - x := by linarith
    have hy1 : 0 ≤ 1 - y := by linarith
    have hy0 : 0 ≤ y := by linarith
    have hyx : 0 ≤ y - x := by linarith
    nlinarith [mul_nonneg hyx (mul_nonneg h hx1), mul_nonneg hyx (mul_nonneg hy0 hy1),
      mul_nonneg hyx (mul_nonneg h hy1), mul_nonneg hyx (mul_nonneg hy0 hx1),
      mul_nonneg hyx (mul_nonneg hyx hyx), mul_nonneg hyx hyx]
  · rcases le_total x 0 with h | h
    · rw [hlow x h, hhigh _ (by linarith)]; ring
    rcases le_total x 1 with h1 | h1
    · rw [hmid x h h1, hmid _ (by linarith) (by linarith)]; ring
    · rw [hhigh x h1, hlow _ (by linarith)]; ring

/-! ## C86 -/

/-- C86: called with the transform of a concentration field the function returns at every node the
interpolation by the indicator of the concentration between the two correlation functions in real
space, i.e. between the fields whose transforms are the given functions of the wave number. -/
theorem c86_interpolation (hpos : ∀ d ∈ dims, 0 < d) (c1 c2 : ℝ → ℝ) (c : Data dims.prod) :
    ∃ K1 K2 out after,
      (∀ k, fft dims K1 k = ((c1 (2 * Real.pi * Real.sqrt (dotR (freqOf dims k) (freqOf dims k))) : ℝ) : ℂ)) ∧
      (∀ k, fft dims K2 k = ((c2 (2 * Real.pi * Real.sqrt (dotR (freqOf dims k) (freqOf dims k))) : ℝ) : ℂ)) ∧
      twoPhaseEvaluate [c1, c2] (fft dims c) = some (out, after) ∧
      (∀ x, out x = (indicator (c x).re : ℂ) * K1 x + (1 - (indicator (c x).re : ℂ)) * K2 x) ∧
      after = c := by
  have hN := prod_ne_zero' hpos
  have hconc : divRealScalar (ifft dims (fft dims c)) (dims.prod : ℕ) = c := by
    funext x
    simp only [divRealScalar, ifft_fft hpos, Complex.ofReal_natCast]
    field_simp
  have hK : ∀ F : Data dims.prod, fft dims (divRealScalar (ifft dims F) (dims.prod : ℕ)) = F := by
    intro F
    have e : divRealScalar (ifft dims F) (dims.prod : ℕ) = fun x => ifft dims F x / (dims.prod : ℂ) := by
      funext x; simp only [divRealScalar, Complex.ofReal_natCast]
    rw [e]; exact fft_surjective hpos F
  refine ⟨_, _, _, _, fun k => congrFun (hK _) k, fun k => congrFun (hK _) k, rfl, fun x => ?_, hconc⟩
  simp only [hconc]
  push_cast
  rfl

/-- C86: in a domain filled with one of the phases the transformed result is the correlation function of
that phase. -/
theorem c86_pure_phase (hpos : ∀ d ∈ dims, 0 < d) (c1 c2 : ℝ → ℝ) (c : Data dims.prod) :
    ((∀ x, 1 ≤ (c x).re) → ∃ after, twoPhaseEvaluateFT [c1, c2] (fft dims c) = some (fun k =>
      ((c1 (2 * Real.pi * Real.sqrt (dotR (freqOf dims k) (freqOf dims k))) : ℝ) : ℂ), after)) ∧
    ((∀ x, (c x).re ≤ 0) → ∃ after, twoPhaseEvaluateFT [c1, c2] (fft dims c) = some (fun k =>
      ((c2 (2 * Real.pi * Real.sqrt (dotR (freqOf dims k) (freqOf dims k))) : ℝ) : ℂ), after)) := by
  obtain ⟨K1, K2, out, after, h1, h2, h3, h4, _⟩ := c86_interpolation hpos c1 c2 c
  constructor
  · intro hc
    refine ⟨after, ?_⟩
    have : out = K1 := by
      funext x; rw [h4, (c87_shape _ 0).2.2.2.1 (hc x)]; simp
    simp only [twoPhaseEvaluateFT, h3, this]
    exact congrArg (fun f => some (f, after)) (funext h1)
  · intro hc
    refine ⟨after, ?_⟩
    have : out = K2 := by
      funext x; rw [h4, (c87_shape _ 0).2.2.1 (hc x)]; simp
    simp only [twoPhaseEvaluateFT, h3, this]
    exact congrArg (fun f => some (f, after)) (funext h2)

/-- C86: the caller's array is overwritten: it held the transform of the concentration and holds the
concentration afterwards, so a second call with the same array does not see the same concentration. For
a uniform concentration different from zero in a domain of several nodes the array has changed. -/
theorem c86_overwrites_argument (hpos : ∀ d ∈ dims, 0 < d) (hN : 1 < dims.prod) (c1 c2 : ℝ → ℝ) (c : ℂ)
    (hc : c ≠ 0) : ∃ out after, twoPhaseEvaluate [c1, c2] (fft dims (fun _ => c)) = some (out, after) ∧
      after ≠ fft dims (fun _ => c) := by
  obtain ⟨K1, K2, out, after, _, _, h3, _, h5⟩ := c86_interpolation hpos c1 c2 (fun _ => c)
  refine ⟨out, after, h3, ?_⟩
  rw [h5]
  intro h
  -- the sum of all bins is N times the value at node zero
  have h0 : 0 < dims.prod := by omega
  have hz := congrFun h ⟨0, h0⟩
  have hk : fft dims (fun _ => c) ⟨0, h0⟩ = dims.prod * c := by
    have hp : ∀ x : Fin dims.prod, cis (-phase dims 0 x) = 1 := by
      intro x
      have : phase dims 0 x = 0 := phase_zero_left dims x
      rw [this]; simp [cis]
    unfold fft
    simp only [hp]
    simp
  rw [hk] at hz
  have : ((dims.prod : ℂ) - 1) * c = 0 := by linear_combination -hz
  rcases mul_eq_zero.mp this with h1 | h1
  · have h2 : (dims.prod : ℂ) = 1 := by linear_combination h1
    have : dims.prod = 1 := by exact_mod_cast h2
    omega
  · exact hc h1

/-- C86: anything but two correlation functions is rejected. -/
theorem c86_two_functions (l : List (ℝ → ℝ)) (cFT : Data dims.prod) :
    (twoPhaseEvaluate l cFT).isSome ↔ l.length = 2 := by
  match l with
  | [] => simp [twoPhaseEvaluate]
  | [_] => simp [twoPhaseEvaluate]
  | [_, _] => simp [twoPhaseEvaluate]
  | _ :: _ :: _ :: _ => simp [twoPhaseEvaluate]

end Gopf.Props
