import Verif.Proofs.ElasticMin

/-!
# The elastic energy on domains with even sides

With even sides the derivatives of the library leave out the highest frequencies. The displacement of least energy is the
one the library calculates, but with the highest frequencies left out of the wave vectors of the linear systems as well.
-/

namespace Gopf.Elasticity
open Spec Pfutil Pf Props
open scoped BigOperators

variable {dims : List ℕ}

/-- The wave vector of a bin without the highest frequencies. -/
noncomputable def fq (dims : List ℕ) (k : Fin dims.prod) : Fin 3 → ℝ := fun a => noNyquist (freq3 dims k a)

theorem freq3_nyquist_at (h : GoodDims (intDims dims)) (hs : ∀ d ∈ dims, d ≤ 10 ^ 9)
    (b : Fin dims.prod) (j : Fin 3) (hn : freq3 dims b j ≠ 1 / 2) :
    tol ≤ abs (abs (freq3 dims b j) - 1 / 2) := by
  by_contra hlt
  rw [not_le] at hlt
  unfold tol at hlt
  rcases abs_cases (freq3 dims b j) with ⟨e, -⟩ | ⟨e, -⟩
  · rw [e] at hlt
    exact hn ((nyquist_iff h hs b j).mp hlt)
  · obtain ⟨c, hc⟩ := conj_exists h b
    rcases fcomp_conj h hc j with e' | ⟨-, e'⟩
    · rw [e] at hlt
      have h2 : |fcomp (freqOf dims c) j - 1 / 2| < 1 / 10 ^ 10 := by
        have e3 : fcomp (freqOf dims c) j = -freq3 dims b j := e'
        rw [e3]; exact hlt
      have h3 : fcomp (freqOf dims c) j = 1 / 2 := (nyquist_iff h hs c j).mp h2
      have h4 := freq3_gt h b j
      have h5 : fcomp (freqOf dims c) j = -freq3 dims b j := e'
      linarith
    · exact hn e'

theorem fq_eq (h : GoodDims (intDims dims)) (hs : ∀ d ∈ dims, d ≤ 10 ^ 9) (k : Fin dims.prod) (a : Fin 3) :
    fq dims k a = if freq3 dims k a = 1 / 2 then 0 else freq3 dims k a := by
  unfold fq
  split_ifs with e
  · unfold noNyquist tol
    rw [e, if_pos]
    norm_num [abs_of_pos]
  · exact noNyquist_eq (freq3_nyquist_at h hs k a e)

theorem fq_conj (h : GoodDims (intDims dims)) {b c : Fin dims.prod}
    (hc : conjugateNode (intDims dims) (b.val : Int) = some (c.val : Int)) : fq dims c = -fq dims b := by
  funext a
  unfold fq
  rw [Pi.neg_apply]
  rcases fcomp_conj h hc a with e | ⟨e, e'⟩
  · have : freq3 dims c a = -freq3 dims b a := e
    rw [this, noNyquist_neg]
  · have h1 : freq3 dims c a = 1 / 2 := e
    have h2 : freq3 dims b a = 1 / 2 := e'
    have h3 : noNyquist (1 / 2) = 0 := by
      unfold noNyquist tol
      rw [if_pos]
      norm_num [abs_of_pos]
    rw [h1, h2, h3, neg_zero]

theorem fq_small (h : GoodDims (intDims dims)) (hs : ∀ d ∈ dims, d ≤ 10 ^ 9) (k : Fin dims.prod) (a : Fin 3)
    (hlt : |fq dims k a| < tol) : fq dims k a = 0 := by
  rw [fq_eq h hs] at hlt ⊢
  split_ifs at hlt ⊢ with e
  · rfl
  · exact freq3_small h hs k a hlt

theorem fq_nyquist (h : GoodDims (intDims dims)) (hs : ∀ d ∈ dims, d ≤ 10 ^ 9) (k : Fin dims.prod) (a : Fin 3) :
    tol ≤ abs (abs (fq dims k a) - 1 / 2) := by
  rw [fq_eq h hs]
  split_ifs with e
  · unfold tol
    rw [abs_zero, zero_sub, abs_neg, abs_of_pos (by norm_num)]
    norm_num
  · exact freq3_nyquist_at h hs k a e

theorem gradFactor_fq (h : GoodDims (intDims dims)) (hs : ∀ d ∈ dims, d ≤ 10 ^ 9) (k : Fin dims.prod) (a : Fin 3) :
    gradFactor false (freq3 dims k a) = 2 * Real.pi * Complex.I * (fq dims k a : ℂ) := by
  rw [fq_eq h hs]
  unfold gradFactor
  by_cases e : freq3 dims k a = 1 / 2
  · rw [if_pos ⟨e, rfl⟩, if_pos e]; simp
  · rw [if_neg fun e' => e e'.1, if_neg e]

/-- The transform of the strain of a displacement field. -/
theorem fft_symGrad_fq (h : GoodDims (intDims dims)) (hl : LayoutOk dims)
    (hs : ∀ d ∈ dims, d ≤ 10 ^ 9) (u : Fin 3 → Fin dims.prod → ℝ) (i j : Fin 3) (k : Fin dims.prod) :
    fft dims (fun x => ((symGrad dims u x i j : ℝ) : ℂ)) k =
      Complex.I * Real.pi * ((fq dims k j : ℂ) * fft dims (fun y => ((u i y : ℝ) : ℂ)) k +
        (fq dims k i : ℂ) * fft dims (fun y => ((u j y : ℝ) : ℂ)) k) := by
  rw [fft_symGrad_all h hl hs, gradFactor_fq h hs, gradFactor_fq h hs]
  ring

/-! ### The strain the library calculates is that of a displacement field -/

theorem grad_parts (h : GoodDims (intDims dims)) (hl : LayoutOk dims) (hs : ∀ d ∈ dims, d ≤ 10 ^ 9) (comp : ℕ)
    (u : Data dims.prod) (x : Fin dims.prod) :
    (gradCalculate dims comp false u x).re = (gradCalculate dims comp false (fun y => (((u y).re : ℝ) : ℂ)) x).re := by
  have e : u = fun y => (((u y).re : ℝ) : ℂ) + Complex.I * (((u y).im : ℝ) : ℂ) := by
    funext y
    rw [mul_comm]
    exact (Complex.re_add_im _).symm
  have e2 : gradCalculate dims comp false u = fun x => gradCalculate dims comp false (fun y => (((u y).re : ℝ) : ℂ)) x +
      Complex.I * gradCalculate dims comp false (fun y => (((u y).im : ℝ) : ℂ)) x := by
    apply fft_injective (pos_of_goodDims h)
    funext k
    rw [fft_add, fft_smul, fft_grad h hs, fft_grad h hs, fft_grad h hs]
    conv_lhs => rw [e, fft_add, fft_smul]
    ring
  have hr := c71_real h hl hs comp (fun y => (((u y).im : ℝ) : ℂ)) (fun y => by simp) x
  rw [e2]
  simp only [Complex.add_re, Complex.mul_re, Complex.I_re, Complex.I_im, zero_mul, one_mul, zero_sub]
  rw [hr]
  simp

/-- The strain is that of the displacement, on every domain and for every indicator. -/
theorem eps_eq_symGrad_any (h : GoodDims (intDims dims)) (hl : LayoutOk dims)
    (hs : ∀ d ∈ dims, d ≤ 10 ^ 9) (c : Idx4 → ℝ) (S : Mat3) (g : Fin dims.prod → ℝ) (x : Fin dims.prod) :
    symGrad dims (dispField dims c S g) x = eps dims c S g x := by
  have hpos := pos_of_goodDims h
  let U : Fin 3 → Data dims.prod := fun i y => ifft dims (ftDisp dims c S g i) y / (dims.prod : ℂ)
  have hU : ∀ i, fft dims (U i) = ftDisp dims c S g i := fun i => fft_surjective hpos _
  ext i j
  have e1 : (fun x => ifft dims (ftStrain dims c S (fft dims fun x => (g x : ℂ)) i j) x / (dims.prod : ℂ)) =
      fun x => (1 / 2 : ℂ) * (gradCalculate dims j false (U i) x + gradCalculate dims i false (U j) x) := by
    apply fft_injective hpos
    rw [fft_surjective hpos]
    funext k
    rw [fft_smul, fft_add, fft_grad h hs, fft_grad h hs, hU, hU]
    have g1 := gradFactor_fq h hs k j
    have g2 := gradFactor_fq h hs k i
    unfold freq3 at g1 g2
    rw [g1, g2]
    unfold ftStrain strain ftDisp fq
    push_cast
    ring
  unfold eps symGrad
  simp only [Matrix.of_apply]
  rw [show ifft dims (ftStrain dims c S (fft dims fun x => (g x : ℂ)) i j) x / (dims.prod : ℂ) = _ from congrFun e1 x]
  have e2 : ((1 / 2 : ℂ) * (gradCalculate dims j false (U i) x + gradCalculate dims i false (U j) x)).re =
      ((gradCalculate dims j false (U i) x).re + (gradCalculate dims i false (U j) x).re) / 2 := by
    have : (1 / 2 : ℂ) = ((1 / 2 : ℝ) : ℂ) := by push_cast; ring
    rw [this, Complex.re_ofReal_mul, Complex.add_re]
    ring
  rw [e2, grad_parts h hl hs j (U i), grad_parts h hl hs i (U j)]
  rfl

/-! ### The least energy -/

/-- The transformed displacement of least energy. -/
noncomputable def ftLeast (dims : List ℕ) (c : Idx4 → ℝ) (S : Mat3) (g : Fin dims.prod → ℝ) (i : Fin 3) :
    Data dims.prod := fun k =>
  displacement (fun a => effForce S a (fq dims k) (fft dims (fun x => (g x : ℂ)) k)) (fq dims k) c i

/-- The displacement of least energy. -/
noncomputable def leastDisp (dims : List ℕ) (c : Idx4 → ℝ) (S : Mat3) (g : Fin dims.prod → ℝ) (i : Fin 3)
    (x : Fin dims.prod) : ℝ := (ifft dims (ftLeast dims c S g i) x / (dims.prod : ℂ)).re

theorem fft_leastDisp (h : GoodDims (intDims dims)) (hl : LayoutOk dims)
    (c : Idx4 → ℝ) (S : Mat3) (g : Fin dims.prod → ℝ) (i : Fin 3) :
    fft dims (fun x => ((leastDisp dims c S g i x : ℝ) : ℂ)) = ftLeast dims c S g i := by
  have hreal : IsReal fun x => ifft dims (ftLeast dims c S g i) x / (dims.prod : ℂ) := by
    apply real_of_hermitian h hl
    rw [fft_surjective (pos_of_goodDims h)]
    intro b e hbe
    have hg : Hermitian dims (fft dims fun x => (g x : ℂ)) := hermitian_fft h hl fun x => by simp
    unfold ftLeast
    rw [displacement_mul, displacement_mul S (fq dims b), hg b e hbe, map_mul]
    congr 1
    rw [fq_conj h hbe, displacement_conj]
  have e : (fun x => ((leastDisp dims c S g i x : ℝ) : ℂ)) =
      fun x => ifft dims (ftLeast dims c S g i) x / (dims.prod : ℂ) := by
    funext x
    exact Complex.ext (by rw [Complex.ofReal_re]; rfl) (by rw [Complex.ofReal_im]; exact (hreal x).symm)
  rw [e]
  exact fft_surjective (pos_of_goodDims h) _

theorem fft_leastStrain (h : GoodDims (intDims dims)) (hl : LayoutOk dims) (hs : ∀ d ∈ dims, d ≤ 10 ^ 9)
    (c : Idx4 → ℝ) (S : Mat3) (g : Fin dims.prod → ℝ) (i j : Fin 3) (k : Fin dims.prod) :
    fft dims (fun x => ((symGrad dims (leastDisp dims c S g) x i j : ℝ) : ℂ)) k =
      strain (displacement (fun a => effForce S a (fq dims k) (fft dims (fun x => (g x : ℂ)) k)) (fq dims k) c)
        (fq dims k) i j := by
  rw [fft_symGrad_fq h hl hs, fft_leastDisp h hl, fft_leastDisp h hl]
  unfold strain
  rw [noNyquist_eq (fq_nyquist h hs k i), noNyquist_eq (fq_nyquist h hs k j)]
  unfold ftLeast
  push_cast
  ring

/-- Virtual work: the stress of the displacement of least energy does no work on any displacement field. -/
theorem virtual_work_least (h : GoodDims (intDims dims)) (hl : LayoutOk dims)
    (hs : ∀ d ∈ dims, d ≤ 10 ^ 9) (r : Rank4) (hr : StableMaterial r.get) (misfit : Mat3) (g : Fin dims.prod → ℝ)
    (u : Fin 3 → Fin dims.prod → ℝ) :
    ∑ x, form r.get (symGrad dims (leastDisp dims r.get (r.contractLast misfit) g) x - g x • misfit)
      (symGrad dims u x) = 0 := by
  have hpos := pos_of_goodDims h
  set S := r.contractLast misfit with hS
  set ε := symGrad dims (leastDisp dims r.get S g) with hε
  set δ := symGrad dims u with hδ'
  set w : Fin 3 → Data dims.prod := fun i => fft dims (fun y => ((u i y : ℝ) : ℂ)) with hw
  have hδ : ∀ i j k, fft dims (fun x => ((δ x i j : ℝ) : ℂ)) k =
      Complex.I * Real.pi * ((fq dims k j : ℂ) * w i k + (fq dims k i : ℂ) * w j k) :=
    fun i j k => fft_symGrad_fq h hl hs u i j k
  -- the stress
  let sig : Fin 3 → Fin 3 → Data dims.prod := fun i j x =>
    ∑ k, ∑ l, (r.get (i, j, k, l) : ℂ) * ((ε x k l : ℝ) - (misfit k l : ℂ) * (g x : ℂ))
  have e1 : ∀ x, ((form r.get (ε x - g x • misfit) (δ x) : ℝ) : ℂ) =
      ∑ i, ∑ j, sig i j x * (starRingEnd ℂ) ((δ x i j : ℝ) : ℂ) := by
    intro x
    rw [form_symm hr.major]
    unfold form
    simp only [sig, Complex.ofReal_sum, Finset.sum_mul, Complex.conj_ofReal]
    refine Finset.sum_congr rfl fun i _ => Finset.sum_congr rfl fun j _ => Finset.sum_congr rfl fun k _ =>
      Finset.sum_congr rfl fun l _ => ?_
    simp only [Matrix.sub_apply, Matrix.smul_apply, smul_eq_mul]
    push_cast
    ring
  have hsig : ∀ i j k, fft dims (sig i j) k = ∑ a, ∑ b, (r.get (i, j, a, b) : ℂ) *
      (strain (displacement (fun a => effForce S a (fq dims k) (fft dims (fun x => (g x : ℂ)) k)) (fq dims k) r.get)
        (fq dims k) a b - (misfit a b : ℂ) * fft dims (fun x => (g x : ℂ)) k) := by
    intro i j k
    simp only [← fft_leastStrain h hl hs r.get S g _ _ k]
    simp only [sig, fft, Finset.sum_mul, Finset.mul_sum, ← Finset.sum_sub_distrib, hε]
    rw [Finset.sum_comm]
    refine Finset.sum_congr rfl fun a _ => ?_
    rw [Finset.sum_comm]
    refine Finset.sum_congr rfl fun b _ => ?_
    refine Finset.sum_congr rfl fun x _ => ?_
    ring
  have hzero : ∀ k, ∑ i, ∑ j, fft dims (sig i j) k *
      (starRingEnd ℂ) (fft dims (fun x => ((δ x i j : ℝ) : ℂ)) k) = 0 := by
    intro k
    simp only [hδ _ _ k]
    by_cases hf : |fq dims k 0| < tol ∧ |fq dims k 1| < tol ∧ |fq dims k 2| < tol
    · have hz : ∀ j, fq dims k j = 0 := by
        intro j
        refine fq_small h hs k j ?_
        fin_cases j
        exacts [hf.1, hf.2.1, hf.2.2]
      simp [hz]
    · have hdet : (dispMatrix (fq dims k) r.get).det ≠ 0 := by
        refine det_ne_zero hr ?_
        intro h0
        apply hf
        rw [h0]
        simp [tol]
      have heq := c79_equilibrium r hr.minorRight misfit (fft dims (fun x => (g x : ℂ)) k) hf (fq_nyquist h hs k) hdet
      simp only at heq
      have hbal : ∀ i, ∑ j, (fq dims k j : ℂ) * fft dims (sig i j) k = 0 := by
        intro i
        rw [← heq i]
        refine Finset.sum_congr rfl fun j _ => ?_
        rw [hsig]
      have hsym : ∀ i j, fft dims (sig i j) k = fft dims (sig j i) k := by
        intro i j
        rw [hsig, hsig]
        refine Finset.sum_congr rfl fun a _ => Finset.sum_congr rfl fun b _ => ?_
        rw [hr.minorLeft]
      set v : Fin 3 → ℂ := fun i => w i k with hv
      have hst : ∀ i j, (starRingEnd ℂ) (Complex.I * Real.pi *
          ((fq dims k j : ℂ) * w i k + (fq dims k i : ℂ) * w j k)) =
          -(Complex.I * Real.pi) * ((fq dims k j : ℂ) * (starRingEnd ℂ) (v i) +
            (fq dims k i : ℂ) * (starRingEnd ℂ) (v j)) := by
        intro i j
        simp only [map_add, map_mul, Complex.conj_I, Complex.conj_ofReal, hv]
        ring
      simp only [hst]
      have z1 : ∑ i, ∑ j, (starRingEnd ℂ) (v i) * ((fq dims k j : ℂ) * fft dims (sig i j) k) = 0 := by
        refine Finset.sum_eq_zero fun i _ => ?_
        rw [← Finset.mul_sum, hbal, mul_zero]
      have z2 : ∑ i, ∑ j, (starRingEnd ℂ) (v j) * ((fq dims k i : ℂ) * fft dims (sig i j) k) = 0 := by
        rw [Finset.sum_comm]
        refine Finset.sum_eq_zero fun j _ => ?_
        rw [← Finset.mul_sum]
        simp only [hsym _ j]
        rw [hbal, mul_zero]
      have e2 : ∑ i, ∑ j, fft dims (sig i j) k * (-(Complex.I * Real.pi) *
          ((fq dims k j : ℂ) * (starRingEnd ℂ) (v i) + (fq dims k i : ℂ) * (starRingEnd ℂ) (v j))) =
          -(Complex.I * Real.pi) *
            (∑ i, ∑ j, (starRingEnd ℂ) (v i) * ((fq dims k j : ℂ) * fft dims (sig i j) k)) +
          -(Complex.I * Real.pi) *
            (∑ i, ∑ j, (starRingEnd ℂ) (v j) * ((fq dims k i : ℂ) * fft dims (sig i j) k)) := by
        simp only [Finset.mul_sum, ← Finset.sum_add_distrib]
        refine Finset.sum_congr rfl fun i _ => Finset.sum_congr rfl fun j _ => ?_
        ring
      rw [e2, z1, z2]
      simp
  have hfinal : ((∑ x, form r.get (ε x - g x • misfit) (δ x) : ℝ) : ℂ) = 0 := by
    rw [Complex.ofReal_sum]
    simp only [e1]
    rw [Finset.sum_comm]
    have hN := prod_ne_zero' hpos
    apply mul_left_cancel₀ hN
    rw [mul_zero, Finset.mul_sum]
    have : ∀ i, (dims.prod : ℂ) * ∑ x, ∑ j, sig i j x * (starRingEnd ℂ) ((δ x i j : ℝ) : ℂ) =
        ∑ k, ∑ j, fft dims (sig i j) k *
          (starRingEnd ℂ) (fft dims (fun x => ((δ x i j : ℝ) : ℂ)) k) := by
      intro i
      rw [Finset.sum_comm, Finset.mul_sum, Finset.sum_comm (s := Finset.univ (α := Fin dims.prod))]
      exact Finset.sum_congr rfl fun j _ => (parseval hpos _ _).symm
    simp only [this]
    rw [Finset.sum_comm]
    exact Finset.sum_eq_zero fun k _ => hzero k
  exact_mod_cast hfinal

/-- The energy of a displacement field is the least energy plus the energy of the strain of the difference. -/
theorem energy_split (h : GoodDims (intDims dims)) (hl : LayoutOk dims)
    (hs : ∀ d ∈ dims, d ≤ 10 ^ 9) (r : Rank4) (hr : StableMaterial r.get) (misfit : Mat3) (g : Fin dims.prod → ℝ)
    (u : Fin 3 → Fin dims.prod → ℝ) :
    ∑ x, energyDensity r.get (symGrad dims u x - g x • misfit) =
      ∑ x, energyDensity r.get (symGrad dims (leastDisp dims r.get (r.contractLast misfit) g) x - g x • misfit) +
        ∑ x, energyDensity r.get (symGrad dims u x - symGrad dims (leastDisp dims r.get (r.contractLast misfit) g) x) := by
  set v := leastDisp dims r.get (r.contractLast misfit) g
  let U : Fin 3 → Fin dims.prod → ℝ := fun i y => u i y - v i y
  have hvw := virtual_work_least h hl hs r hr misfit g U
  have e : ∀ x, energyDensity r.get (symGrad dims u x - g x • misfit) =
      (energyDensity r.get (symGrad dims v x - g x • misfit) +
        energyDensity r.get (symGrad dims u x - symGrad dims v x)) +
      form r.get (symGrad dims v x - g x • misfit) (symGrad dims U x) := by
    intro x
    have hU : symGrad dims u x - g x • misfit = (symGrad dims v x - g x • misfit) + symGrad dims U x := by
      rw [symGrad_sub h hl hs]
      abel
    rw [hU, ← symGrad_sub h hl hs]
    generalize symGrad dims v x - g x • misfit = A
    change energyDensity r.get (A + symGrad dims U x) = _ + energyDensity r.get (symGrad dims U x) + _
    generalize symGrad dims U x = B
    rw [energyDensity_form, energyDensity_form, energyDensity_form, form_add_left, form_add_right, form_add_right,
      form_symm hr.major B A]
    ring
  simp only [e, Finset.sum_add_distrib]
  rw [hvw, add_zero]

/-- The elastic energy of an indicator, on every domain. -/
theorem least_isLeast (h : GoodDims (intDims dims)) (hl : LayoutOk dims)
    (hs : ∀ d ∈ dims, d ≤ 10 ^ 9) (r : Rank4) (hr : StableMaterial r.get) (misfit : Mat3) (g : Fin dims.prod → ℝ) :
    IsElasticEnergy dims r.get misfit g
      (∑ x, energyDensity r.get (symGrad dims (leastDisp dims r.get (r.contractLast misfit) g) x - g x • misfit)) := by
  refine ⟨⟨_, rfl⟩, ?_⟩
  rintro W ⟨u, rfl⟩
  rw [energy_split h hl hs r hr misfit g u]
  have : 0 ≤ ∑ x, energyDensity r.get (symGrad dims u x -
      symGrad dims (leastDisp dims r.get (r.contractLast misfit) g) x) := by
    refine Finset.sum_nonneg fun x _ => ?_
    rw [energyDensity_form]
    exact mul_nonneg (by norm_num) (form_nonneg hr _)
  linarith

end Gopf.Elasticity
