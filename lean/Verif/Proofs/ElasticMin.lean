import Verif.Proofs.LinElast

/-!
# The strain of an indicator minimises the elastic energy
-/

namespace Gopf.Elasticity
open Spec Pfutil Pf Props
open scoped BigOperators

variable {dims : List ℕ}

theorem form_minor {c : Idx4 → ℝ} (hs : StableMaterial c) (a b : Mat3) :
    form c a b = ∑ i, ∑ j, ∑ k, ∑ l, c (i, j, k, l) * a i j * b l k := by
  unfold form
  refine Finset.sum_congr rfl fun i _ => Finset.sum_congr rfl fun j _ => ?_
  rw [Finset.sum_comm]
  refine Finset.sum_congr rfl fun k _ => Finset.sum_congr rfl fun l _ => ?_
  rw [hs.minorRight]

theorem form_transpose_right {c : Idx4 → ℝ} (hs : StableMaterial c) (a b : Mat3) :
    form c a b.transpose = form c a b := by
  rw [form_minor hs a b]; rfl

theorem form_transpose_left {c : Idx4 → ℝ} (hs : StableMaterial c) (a b : Mat3) :
    form c a.transpose b = form c a b := by
  rw [form_symm hs.major, form_transpose_right hs, form_symm hs.major]

theorem form_add_left (c : Idx4 → ℝ) (a b e : Mat3) : form c (a + b) e = form c a e + form c b e := by
  have h1 : a + b = a - (-1 : ℝ) • b := by rw [neg_one_smul, sub_neg_eq_add]
  rw [h1, form_sub_left, form_smul_left]; ring

theorem form_add_right (c : Idx4 → ℝ) (a b e : Mat3) : form c e (a + b) = form c e a + form c e b := by
  have h1 : a + b = a - (-1 : ℝ) • b := by rw [neg_one_smul, sub_neg_eq_add]
  rw [h1, form_sub_right, form_smul_right]; ring

/-- The energy of any strain, symmetric or not, is that of its symmetric part. -/
theorem form_nonneg {c : Idx4 → ℝ} (hs : StableMaterial c) (a : Mat3) : 0 ≤ form c a a := by
  have e : form c (a + a.transpose) (a + a.transpose) = 4 * form c a a := by
    rw [form_add_left, form_add_right, form_add_right, form_transpose_left hs, form_transpose_left hs,
      form_transpose_right hs]
    ring
  by_cases h0 : a + a.transpose = 0
  · rw [h0] at e
    have : form c 0 0 = 0 := by simp [form]
    rw [this] at e
    linarith
  · have := hs.positive (a + a.transpose) (by rw [Matrix.transpose_add, Matrix.transpose_transpose, add_comm]) h0
    rw [energyDensity_form, e] at this
    linarith

/-- The linear system of a wave vector that is not zero is regular. -/
theorem det_ne_zero {c : Idx4 → ℝ} (hs : StableMaterial c) {f : Fin 3 → ℝ} (hf : f ≠ 0) :
    (dispMatrix f c).det ≠ 0 := by
  intro h0
  obtain ⟨v, hv, hM⟩ := Matrix.exists_mulVec_eq_zero_iff.mpr h0
  have hq : ∑ m, v m * (dispMatrix f c).mulVec v m = 0 := by rw [hM]; simp
  have e1 : ∑ m, v m * (dispMatrix f c).mulVec v m =
      (2 * Real.pi) ^ 2 * form c (Matrix.of fun i j => v i * f j) (Matrix.of fun i j => v i * f j) := by
    unfold form dispMatrix Matrix.mulVec dotProduct
    simp only [Matrix.of_apply, dispElem_eq, Finset.mul_sum, Finset.sum_mul]
    refine Finset.sum_congr rfl fun m _ => ?_
    rw [Finset.sum_comm]
    refine Finset.sum_congr rfl fun j _ => Finset.sum_congr rfl fun k _ => Finset.sum_congr rfl fun l _ => ?_
    ring
  rw [e1] at hq
  have hpi : (2 * Real.pi) ^ 2 ≠ 0 := by positivity
  have hform := (mul_eq_zero.mp hq).resolve_left hpi
  set a : Mat3 := Matrix.of fun i j => v i * f j with ha
  have e : form c (a + a.transpose) (a + a.transpose) = 4 * form c a a := by
    rw [form_add_left, form_add_right, form_add_right, form_transpose_left hs, form_transpose_left hs,
      form_transpose_right hs]
    ring
  have hz : a + a.transpose = 0 := by
    by_contra hne
    have := hs.positive (a + a.transpose) (by rw [Matrix.transpose_add, Matrix.transpose_transpose, add_comm]) hne
    rw [energyDensity_form, e, hform] at this
    norm_num at this
  have hz' : ∀ i j, v i * f j + v j * f i = 0 := fun i j => congrFun (congrFun hz i) j
  obtain ⟨j, hj⟩ := Function.ne_iff.mp hf
  obtain ⟨i, hi⟩ := Function.ne_iff.mp hv
  have hj' : f j ≠ 0 := hj
  have hi' : v i ≠ 0 := hi
  have hvj : v j = 0 := by
    have := hz' j j
    have h2 : v j * f j = 0 := by linarith
    exact (mul_eq_zero.mp h2).resolve_right hj'
  have := hz' i j
  rw [hvj, zero_mul, add_zero] at this
  rcases mul_eq_zero.mp this with h | h
  · exact hi' h
  · exact hj' h

theorem regular_of_stable {c : Idx4 → ℝ} (hs : StableMaterial c) : Regular dims c := by
  intro k hk
  refine det_ne_zero hs ?_
  intro h0
  apply hk
  rw [h0]
  simp [tol]

/-- The transform of the strain of a displacement field. -/
theorem fft_symGrad_all (h : GoodDims (intDims dims)) (hl : LayoutOk dims)
    (hs : ∀ d ∈ dims, d ≤ 10 ^ 9) (u : Fin 3 → Fin dims.prod → ℝ) (i j : Fin 3) (k : Fin dims.prod) :
    fft dims (fun x => ((symGrad dims u x i j : ℝ) : ℂ)) k =
      1 / 2 * (gradFactor false (freq3 dims k j) * fft dims (fun y => ((u i y : ℝ) : ℂ)) k +
        gradFactor false (freq3 dims k i) * fft dims (fun y => ((u j y : ℝ) : ℂ)) k) := by
  have hre : ∀ (a b : Fin 3) (x : Fin dims.prod),
      (((gradCalculate dims b false (fun y => (u a y : ℂ)) x).re : ℝ) : ℂ) =
        gradCalculate dims b false (fun y => (u a y : ℂ)) x := by
    intro a b x
    refine Complex.ext (by simp) ?_
    rw [Complex.ofReal_im]
    exact (c71_real h hl hs b _ (fun y => by simp) x).symm
  have e : (fun x => ((symGrad dims u x i j : ℝ) : ℂ)) = fun x => (1 / 2 : ℂ) *
      (gradCalculate dims j false (fun y => (u i y : ℂ)) x + gradCalculate dims i false (fun y => (u j y : ℂ)) x) := by
    funext x
    unfold symGrad
    rw [Matrix.of_apply, Complex.ofReal_div, Complex.ofReal_add, hre, hre]
    push_cast
    ring
  rw [e, fft_smul, fft_add, fft_grad h hs, fft_grad h hs]
  rfl

theorem fft_symGrad (h : GoodDims (intDims dims)) (hl : LayoutOk dims)
    (hs : ∀ d ∈ dims, d ≤ 10 ^ 9) (u : Fin 3 → Fin dims.prod → ℝ) (i j : Fin 3) (k : Fin dims.prod)
    (hn : ∀ a : Fin 3, freq3 dims k a ≠ 1 / 2) :
    fft dims (fun x => ((symGrad dims u x i j : ℝ) : ℂ)) k =
      Complex.I * Real.pi * ((freq3 dims k j : ℂ) * fft dims (fun y => ((u i y : ℝ) : ℂ)) k +
        (freq3 dims k i : ℂ) * fft dims (fun y => ((u j y : ℝ) : ℂ)) k) := by
  have hg : ∀ b : Fin 3, gradFactor false (freq3 dims k b) = 2 * Real.pi * Complex.I * (freq3 dims k b : ℂ) := by
    intro b
    unfold gradFactor
    rw [if_neg fun e => hn b e.1]
  rw [fft_symGrad_all h hl hs, hg, hg]
  ring

theorem displacement_conj (c : Idx4 → ℝ) (S : Mat3) (f : Fin 3 → ℝ) (a : Fin 3) :
    displacement (fun a => effForce S a (-f) 1) (-f) c a =
      (starRingEnd ℂ) (displacement (fun a => effForce S a f 1) f c a) := by
  have hM : dispMatrix (-f) c = dispMatrix f c := by
    ext m n
    unfold dispMatrix
    rw [Matrix.of_apply, Matrix.of_apply, dispElem_eq, dispElem_eq]
    simp
  rw [displacement_eq, displacement_eq, hM]
  simp only [Pi.neg_apply, abs_neg]
  split_ifs
  · simp
  · rw [map_sum]
    refine Finset.sum_congr rfl fun k _ => ?_
    rw [effForce_eq, effForce_eq, map_mul, Complex.conj_ofReal]
    congr 1
    simp [map_sum, Complex.conj_ofNat]

/-- The transformed displacement. -/
noncomputable def ftDisp (dims : List ℕ) (c : Idx4 → ℝ) (S : Mat3) (g : Fin dims.prod → ℝ) (i : Fin 3) :
    Data dims.prod := fun k =>
  displacement (fun a => effForce S a (freq3 dims k) (fft dims (fun x => (g x : ℂ)) k)) (freq3 dims k) c i

/-- The displacement. -/
noncomputable def dispField (dims : List ℕ) (c : Idx4 → ℝ) (S : Mat3) (g : Fin dims.prod → ℝ) (i : Fin 3)
    (x : Fin dims.prod) : ℝ := (ifft dims (ftDisp dims c S g i) x / (dims.prod : ℂ)).re

theorem fft_dispField (h : GoodDims (intDims dims)) (hl : LayoutOk dims)
    (c : Idx4 → ℝ) (S : Mat3) (g : Fin dims.prod → ℝ) (hq : Quiet dims g) (i : Fin 3) :
    fft dims (fun x => ((dispField dims c S g i x : ℝ) : ℂ)) = ftDisp dims c S g i := by
  have hreal : IsReal fun x => ifft dims (ftDisp dims c S g i) x / (dims.prod : ℂ) := by
    apply real_of_hermitian h hl
    rw [fft_surjective (pos_of_goodDims h)]
    intro b e hbe
    have hg : Hermitian dims (fft dims fun x => (g x : ℂ)) := hermitian_fft h hl fun x => by simp
    unfold ftDisp
    rw [displacement_mul, displacement_mul S (freq3 dims b), hg b e hbe, map_mul]
    rcases quiet_cases hq b with h0 | hn
    · rw [h0]; simp
    congr 1
    rw [freq3_conj_quiet h hn hbe, displacement_conj]
  have e : (fun x => ((dispField dims c S g i x : ℝ) : ℂ)) =
      fun x => ifft dims (ftDisp dims c S g i) x / (dims.prod : ℂ) := by
    funext x
    exact Complex.ext (by rw [Complex.ofReal_re]; rfl) (by rw [Complex.ofReal_im]; exact (hreal x).symm)
  rw [e]
  exact fft_surjective (pos_of_goodDims h) _

theorem noNyquist_eq {x : ℝ} (h : tol ≤ abs (abs x - 1 / 2)) : noNyquist x = x := by
  unfold noNyquist
  rw [if_neg (not_lt.mpr h)]

/-- The strain is that of the displacement. -/
theorem eps_eq_symGrad (h : GoodDims (intDims dims)) (hl : LayoutOk dims)
    (hs : ∀ d ∈ dims, d ≤ 10 ^ 9) (c : Idx4 → ℝ) (S : Mat3) (g : Fin dims.prod → ℝ) (hq : Quiet dims g)
    (x : Fin dims.prod) :
    symGrad dims (dispField dims c S g) x = eps dims c S g x := by
  ext i j
  have : (fun x => ((symGrad dims (dispField dims c S g) x i j : ℝ) : ℂ)) =
      fun x => ((eps dims c S g x i j : ℝ) : ℂ) := by
    apply fft_injective (pos_of_goodDims h)
    rw [fft_eps h hl c S g hq]
    funext k
    rcases quiet_cases hq k with h0 | hn
    · have hd : ∀ a, ftDisp dims c S g a k = 0 := by
        intro a
        unfold ftDisp
        rw [displacement_mul, h0, mul_zero]
      rw [fft_symGrad_all h hl hs, fft_dispField h hl c S g hq, fft_dispField h hl c S g hq, hd, hd, ftStrain_eq, h0]
      simp
    rw [fft_symGrad h hl hs _ _ _ _ hn, fft_dispField h hl c S g hq, fft_dispField h hl c S g hq]
    unfold ftStrain strain
    rw [noNyquist_eq (freq3_nyquist h hs k hn i), noNyquist_eq (freq3_nyquist h hs k hn j)]
    unfold ftDisp
    push_cast
    ring
  exact_mod_cast congrFun this x

/-- The stress of an indicator does no work on any displacement field. -/
theorem virtual_work_symGrad (h : GoodDims (intDims dims)) (hl : LayoutOk dims)
    (hs : ∀ d ∈ dims, d ≤ 10 ^ 9) (r : Rank4) (hr : StableMaterial r.get) (misfit : Mat3)
    (g : Fin dims.prod → ℝ) (hq : Quiet dims g) (u : Fin 3 → Fin dims.prod → ℝ) :
    ∑ x, form r.get (eps dims r.get (r.contractLast misfit) g x - g x • misfit) (symGrad dims u x) = 0 :=
  virtual_work h hl hs r hr.minorRight hr.minorLeft hr.major (regular_of_stable hr) misfit g hq
    (fun i => fft dims (fun y => ((u i y : ℝ) : ℂ))) (symGrad dims u)
    (fun i j k hn => fft_symGrad h hl hs u i j k hn)

theorem symGrad_sub (h : GoodDims (intDims dims)) (hl : LayoutOk dims) (hs : ∀ d ∈ dims, d ≤ 10 ^ 9)
    (u v : Fin 3 → Fin dims.prod → ℝ) (x : Fin dims.prod) :
    symGrad dims (fun i y => u i y - v i y) x = symGrad dims u x - symGrad dims v x := by
  ext i j
  have : (fun x => ((symGrad dims (fun i y => u i y - v i y) x i j : ℝ) : ℂ)) =
      fun x => ((symGrad dims u x i j : ℝ) : ℂ) - ((symGrad dims v x i j : ℝ) : ℂ) := by
    apply fft_injective (pos_of_goodDims h)
    funext k
    rw [fft_sub, fft_symGrad_all h hl hs, fft_symGrad_all h hl hs, fft_symGrad_all h hl hs]
    have hf : ∀ a, fft dims (fun y => ((u a y - v a y : ℝ) : ℂ)) k = fft dims (fun y => ((u a y : ℝ) : ℂ)) k -
        fft dims (fun y => ((v a y : ℝ) : ℂ)) k := by
      intro a
      rw [← fft_sub]
      simp only [Complex.ofReal_sub]
    rw [hf, hf]
    ring
  have := congrFun this x
  rw [Matrix.sub_apply]
  exact_mod_cast this

/-- The energy of any indicator and any displacement field lies above the tangent at an indicator and its
calculated strain. -/
theorem energy_tangent (h : GoodDims (intDims dims)) (hl : LayoutOk dims)
    (hs : ∀ d ∈ dims, d ≤ 10 ^ 9) (r : Rank4) (hr : StableMaterial r.get) (misfit : Mat3)
    (g : Fin dims.prod → ℝ) (hq : Quiet dims g) (p : Fin dims.prod → ℝ) (u : Fin 3 → Fin dims.prod → ℝ) :
    ∑ x, energyDensity r.get (eps dims r.get (r.contractLast misfit) g x - g x • misfit) +
      ∑ x, (p x - g x) * -form r.get (eps dims r.get (r.contractLast misfit) g x - g x • misfit) misfit ≤
      ∑ x, energyDensity r.get (symGrad dims u x - p x • misfit) := by
  set S := r.contractLast misfit
  let U : Fin 3 → Fin dims.prod → ℝ := fun i y => u i y - dispField dims r.get S g i y
  have hU : ∀ x, symGrad dims u x - p x • misfit =
      (eps dims r.get S g x - g x • misfit) + (symGrad dims U x - (p x - g x) • misfit) := by
    intro x
    rw [symGrad_sub h hl hs, eps_eq_symGrad h hl hs r.get S g hq, sub_smul]
    abel
  have hvw := virtual_work_symGrad h hl hs r hr misfit g hq U
  have e : ∀ x, energyDensity r.get (symGrad dims u x - p x • misfit) =
      (energyDensity r.get (eps dims r.get S g x - g x • misfit) +
        (p x - g x) * -form r.get (eps dims r.get S g x - g x • misfit) misfit) +
      form r.get (eps dims r.get S g x - g x • misfit) (symGrad dims U x) +
      1 / 2 * form r.get (symGrad dims U x - (p x - g x) • misfit) (symGrad dims U x - (p x - g x) • misfit) := by
    intro x
    rw [hU x]
    generalize hA : eps dims r.get S g x - g x • misfit = A
    generalize hB : symGrad dims U x - (p x - g x) • misfit = B
    have hAB : form r.get A B = form r.get A (symGrad dims U x) - (p x - g x) * form r.get A misfit := by
      rw [← hB, form_sub_right, form_smul_right]
    rw [energyDensity_form, energyDensity_form, form_add_left, form_add_right, form_add_right,
      form_symm hr.major B A, hAB]
    ring
  simp only [e, Finset.sum_add_distrib]
  rw [hvw]
  have : 0 ≤ ∑ x, 1 / 2 * form r.get (symGrad dims U x - (p x - g x) • misfit)
      (symGrad dims U x - (p x - g x) • misfit) :=
    Finset.sum_nonneg fun x _ => mul_nonneg (by norm_num) (form_nonneg hr _)
  linarith

/-- The energy of the calculated strain is the elastic energy. -/
theorem eps_isLeast (h : GoodDims (intDims dims)) (hl : LayoutOk dims)
    (hs : ∀ d ∈ dims, d ≤ 10 ^ 9) (r : Rank4) (hr : StableMaterial r.get) (misfit : Mat3)
    (g : Fin dims.prod → ℝ) (hq : Quiet dims g) :
    IsElasticEnergy dims r.get misfit g
      (∑ x, energyDensity r.get (eps dims r.get (r.contractLast misfit) g x - g x • misfit)) := by
  constructor
  · exact ⟨dispField dims r.get (r.contractLast misfit) g, by
      simp only [eps_eq_symGrad h hl hs r.get _ g hq]⟩
  · rintro W ⟨u, rfl⟩
    have := energy_tangent h hl hs r hr misfit g hq g u
    simpa using this

end Gopf.Elasticity
