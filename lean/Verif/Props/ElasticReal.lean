import Verif.Props.CubicElast

/-!
# C154: when the elastic term keeps a real field real
-/

namespace Gopf.Props
open Spec Pfutil Pf Elasticity
open scoped BigOperators

variable {dims : List ℕ}

/-- The stiffness does not change when axes are reversed (isotropic, cubic and orthotropic materials whose axes are the
axes of the grid). -/
def MirrorSymmetric (c : Idx4 → ℝ) : Prop :=
  ∀ d : Fin 3 → ℝ, (∀ a, d a * d a = 1) → ∀ i j k l, d i * d j * d k * d l * c (i, j, k, l) = c (i, j, k, l)

theorem mirror_stress {r : Rank4} (hr : MirrorSymmetric r.get) {misfit : Mat3} (hm : NoShear misfit) (i j : Fin 3)
    (hij : i ≠ j) : r.contractLast misfit i j = 0 := by
  rw [contractLast_eq]
  refine Finset.sum_eq_zero fun k _ => Finset.sum_eq_zero fun l _ => ?_
  by_cases hkl : k = l
  · subst hkl
    have h1 := hr (fun a => if a = i then -1 else 1) (fun a => by split_ifs <;> norm_num) i j k k
    have e : (if k = i then (-1 : ℝ) else 1) * (if k = i then -1 else 1) = 1 := by split_ifs <;> norm_num
    rw [if_pos rfl, if_neg (Ne.symm hij), mul_assoc (-1 * 1 : ℝ), e] at h1
    have : r.get (i, j, k, k) = 0 := by linarith
    rw [this, zero_mul]
  · rw [hm k l hkl, mul_zero]

theorem mirror_matrix {c : Idx4 → ℝ} (hc : MirrorSymmetric c) (f d : Fin 3 → ℝ) (hd : ∀ a, d a * d a = 1) (m n : Fin 3) :
    dispElem m n (fun a => d a * f a) c = d m * dispElem m n f c * d n := by
  rw [dispElem_eq, dispElem_eq]
  have : ∀ j l, c (m, j, n, l) * (d j * f j) * (d l * f l) = d m * d n * (c (m, j, n, l) * f j * f l) := by
    intro j l
    have h1 := hc d hd m j n l
    have h2 := hd m
    have h3 := hd n
    calc c (m, j, n, l) * (d j * f j) * (d l * f l)
        = (d m * d m) * (d n * d n) * (c (m, j, n, l) * (d j * f j) * (d l * f l)) := by rw [h2, h3]; ring
      _ = d m * d n * ((d m * d j * d n * d l * c (m, j, n, l)) * f j * f l) := by ring
      _ = _ := by rw [h1]
  simp only [this, ← Finset.mul_sum]
  ring

theorem mirror_displacement {r : Idx4 → ℝ} (hr : MirrorSymmetric r) (F : Fin 3 → ℂ) (f d : Fin 3 → ℝ)
    (hd : ∀ c, d c * d c = 1) (a : Fin 3) :
    displacement (fun c => -(d c : ℂ) * (starRingEnd ℂ) (F c)) (fun c => d c * f c) r a =
      -(d a : ℂ) * (starRingEnd ℂ) (displacement F f r a) := by
  unfold displacement
  simp only [abs_turn (hd _)]
  split_ifs with h0
  · simp
  · set K : Mat3 := Matrix.of fun j k => dispElem j k f r with hK
    set D : Mat3 := Matrix.diagonal d with hD
    have hDD : D * D = 1 := by
      rw [hD, Matrix.diagonal_mul_diagonal]
      simp [hd]
    have hinv : D⁻¹ = D := Matrix.inv_eq_right_inv hDD
    have hmat : (Matrix.of fun j k => dispElem j k (fun c => d c * f c) r : Mat3) = D * K * D := by
      ext j k
      rw [hD, Matrix.mul_diagonal, Matrix.diagonal_mul, Matrix.of_apply, mirror_matrix hr _ _ hd]
      rfl
    rw [hmat, Matrix.mul_inv_rev, Matrix.mul_inv_rev, hinv]
    have hvec : ∀ v : Fin 3 → ℝ, (D * (K⁻¹ * D)).mulVec v a = d a * K⁻¹.mulVec (fun c => d c * v c) a := by
      intro v
      rw [← Matrix.mulVec_mulVec, ← Matrix.mulVec_mulVec, hD, Matrix.mulVec_diagonal]
      congr 2
      funext c
      exact Matrix.mulVec_diagonal _ _ _
    have e1 : (fun c => d c * (-(d c : ℂ) * (starRingEnd ℂ) (F c)).re) = fun c => -(F c).re := by
      funext c
      have := hd c
      simp
      linear_combination (F c).re * this
    have e2 : (fun c => d c * (-(d c : ℂ) * (starRingEnd ℂ) (F c)).im) = fun c => (F c).im := by
      funext c
      have := hd c
      simp
      linear_combination ((F c).im) * this
    have e3 : K⁻¹.mulVec (fun c => -(F c).re) a = -K⁻¹.mulVec (fun c => (F c).re) a :=
      congrFun (Matrix.mulVec_neg (fun c => (F c).re) K⁻¹) a
    dsimp only
    rw [hvec, hvec, e1, e2, e3]
    apply Complex.ext <;> simp

/-- The strain along an axis caused by a real distribution of phases has a conjugate symmetric spectrum. -/
theorem mirror_strain (h : GoodDims (intDims dims)) {r : Rank4} (hr : MirrorSymmetric r.get) {misfit : Mat3}
    (hm : NoShear misfit) (el : HomoLinElast dims.prod) (h1 : el.matProp = r)
    (h2 : el.effStress = r.contractLast misfit) {w : Data dims.prod} (hw : Hermitian dims w) (i : Fin 3) :
    Hermitian dims fun k => strain (displacement (el.force w k) (freq3 dims k) el.matProp.get) (freq3 dims k) i i := by
  intro b b' hb
  obtain ⟨d, hd, hf⟩ := Props.freq3_conj h hb
  have hforce : el.force w b' = fun c => -(d c : ℂ) * (starRingEnd ℂ) (el.force w b c) := by
    funext c
    unfold HomoLinElast.force
    split_ifs with hc
    · have hS : ∀ k ind, effForce el.effStress c k ind = -(2 * Real.pi * Complex.I * ind * ((el.effStress c c : ℂ) * (k c : ℂ))) := by
        intro k ind
        rw [effForce_eq]
        congr 2
        refine Finset.sum_eq_single c (fun j _ hj => ?_) fun hc => absurd (Finset.mem_univ c) hc
        rw [h2, mirror_stress hr hm _ _ (Ne.symm hj)]
        simp
      rw [hS, hS, hf, hw b b' hb]
      simp [Complex.conj_ofReal, Complex.conj_ofNat]
      ring
    · simp
  dsimp only
  rw [hforce, hf, h1]
  unfold strain
  rw [mirror_displacement hr _ _ _ hd, noNyquist_turn (hd i)]
  have e : ((d i : ℝ) : ℂ) * d i = 1 := by exact_mod_cast hd i
  simp only [map_add, map_mul, Complex.conj_I, Complex.conj_ofReal, Complex.ofReal_mul]
  linear_combination (2 * Complex.I * Real.pi * noNyquist (freq3 dims b i) *
    (starRingEnd ℂ) (displacement (el.force w b) (freq3 dims b) r.get i)) * (-e)

/-- The term is the transform of a real field as soon as each strain it uses, or its factor, allows it. -/
theorem elastic_fromReal (h : GoodDims (intDims dims)) (hl : LayoutOk dims) (el : HomoLinElast dims.prod)
    (hs : ∀ i j, el.matProp.contractLast el.misfit i j = 0 ∨ Hermitian dims fun k => strain (displacement (el.force
      (fft dims fun x => ((phaseIndicator (el.field x) : ℝ) : ℂ)) k) (freq3 dims k) el.matProp.get) (freq3 dims k) i j) :
    FromReal dims el.construct := by
  have hpos := pos_of_goodDims h
  unfold HomoLinElast.construct
  dsimp only
  have hsub : ∀ (w w' : Data dims.prod) (r : ℝ), FromReal dims w → FromReal dims w' →
      FromReal dims fun k => w k - (r : ℂ) * w' k := by
    intro w w' r hw hw'
    have := hw.add_smul hw' (-r)
    refine (congrArg (FromReal dims) ?_).mp this
    funext k
    push_cast
    ring
  refine hsub _ _ _ ?_ ⟨_, rfl⟩
  refine FromReal.foldl _ _ (fun i w hw => ?_) _ FromReal.zero
  refine FromReal.foldl _ _ (fun j w hw => ?_) _ hw
  rcases hs i j with h0 | hherm
  · rw [h0, mul_zero]
    refine (congrArg (FromReal dims) ?_).mp hw
    funext k
    simp
  · refine hw.add_smul ?_ _
    have hreal : IsReal (divRealScalar (ifft dims fun k => strain (displacement (el.force
        (fft dims fun x => ((phaseIndicator (el.field x) : ℝ) : ℂ)) k) (freq3 dims k) el.matProp.get) (freq3 dims k) i j) (dims.prod : ℕ)) := by
      apply real_of_hermitian h hl
      rw [fft_divided hpos]
      exact hherm
    refine ⟨fun x => (divRealScalar (ifft dims fun k => strain (displacement (el.force
        (fft dims fun x => ((phaseIndicator (el.field x) : ℝ) : ℂ)) k) (freq3 dims k) el.matProp.get) (freq3 dims k) i j) (dims.prod : ℕ) x).re *
        phaseIndicatorDeriv (el.field x), ?_⟩
    congr 1
    funext x
    rw [Complex.ofReal_mul]
    congr 1
    exact Complex.ext rfl (by rw [Complex.ofReal_im]; exact hreal x)

theorem elastic_keep (l : List (Data dims.prod)) (e : HomoLinElast dims.prod) :
    (l.foldl HomoLinElast.onStepFinished e).matProp = e.matProp ∧
    (l.foldl HomoLinElast.onStepFinished e).misfit = e.misfit ∧
    (l.foldl HomoLinElast.onStepFinished e).effStress = e.effStress := by
  induction l generalizing e with
  | nil => exact ⟨rfl, rfl, rfl⟩
  | cons x l ih => exact ih _

/-- C154: for a material whose stiffness does not change when axes are reversed and a misfit strain without shear the
term is the transform of a real field, on every domain and whatever the fields of the past were. -/
theorem c154_mirror (h : GoodDims (intDims dims)) (hl : LayoutOk dims) (r : Rank4) (hr : MirrorSymmetric r.get)
    (misfit : Mat3) (hm : NoShear misfit) (l : List (Data dims.prod)) :
    ∃ g : Fin dims.prod → ℝ,
      (l.foldl HomoLinElast.onStepFinished (newHomogeneousModulus dims.prod r misfit)).construct =
        fft dims fun x => (g x : ℂ) := by
  obtain ⟨k1, k2, k3⟩ := elastic_keep l (newHomogeneousModulus dims.prod r misfit)
  refine elastic_fromReal h hl _ fun i j => ?_
  by_cases hij : i = j
  · subst hij
    exact Or.inr (mirror_strain h hr hm _ k1 k3 (hermitian_fft h hl fun x => Complex.ofReal_im _) i)
  · left
    rw [k1, k2]
    exact mirror_stress hr hm i j hij

/-- C154: isotropic materials are of this kind. -/
theorem c154_isotropic (bulk poisson : ℝ) : MirrorSymmetric (isotropic bulk poisson).get := by
  intro d hd i j k l
  unfold isotropic
  rw [isotropicOf_get]
  simp only [Matrix.one_apply]
  have h : ∀ a b c e : Fin 3, a = b → c = e → d a * d b * (d c * d e) = 1 := by
    rintro a _ c _ rfl rfl
    rw [hd, hd, one_mul]
  have t1 : d i * d j * d k * d l * ((if i = j then (1 : ℝ) else 0) * if k = l then 1 else 0) =
      (if i = j then (1 : ℝ) else 0) * if k = l then 1 else 0 := by
    split_ifs with e1 e2
    · linear_combination h i j k l e1 e2
    all_goals ring
  have t2 : d i * d j * d k * d l * ((if i = k then (1 : ℝ) else 0) * if j = l then 1 else 0) =
      (if i = k then (1 : ℝ) else 0) * if j = l then 1 else 0 := by
    split_ifs with e1 e2
    · linear_combination h i k j l e1 e2
    all_goals ring
  have t3 : d i * d j * d k * d l * ((if i = l then (1 : ℝ) else 0) * if j = k then 1 else 0) =
      (if i = l then (1 : ℝ) else 0) * if j = k then 1 else 0 := by
    split_ifs with e1 e2
    · linear_combination h i l j k e1 e2
    all_goals ring
  set s := shear bulk poisson
  linear_combination (bulk - 2 * s / 3) * t1 + s * t2 + s * t3

/-- C154: and so are the cubic materials of the library. -/
theorem c154_cubic (c11 c12 c44 : ℝ) : MirrorSymmetric (cubicMaterial c11 c12 c44).get := by
  intro d hd i j k l
  rw [cubicMaterial_get]
  split_ifs with e1 e2 e3
  · obtain ⟨rfl, rfl, rfl⟩ := e1
    have := hd i
    linear_combination (d i * d i + 1) * c11 * this
  · obtain ⟨rfl, rfl⟩ := e2
    have h1 := hd i
    have h2 := hd k
    linear_combination (d k * d k) * c12 * h1 + c12 * h2
  · obtain ⟨rfl, rfl⟩ := e3
    have h1 := hd i
    have h2 := hd j
    linear_combination (d j * d j) * c44 * h1 + c44 * h2
  · ring

/-- C154: with odd sides the term is the transform of a real field for every stiffness and every misfit strain. -/
theorem c154_odd (h : GoodDims (intDims dims)) (hl : LayoutOk dims) (ho : OddSides dims) (r : Rank4)
    (misfit : Mat3) (l : List (Data dims.prod)) :
    ∃ g : Fin dims.prod → ℝ,
      (l.foldl HomoLinElast.onStepFinished (newHomogeneousModulus dims.prod r misfit)).construct =
        fft dims fun x => (g x : ℂ) := by
  refine elastic_fromReal h hl _ fun i j => Or.inr ?_
  set el := l.foldl HomoLinElast.onStepFinished (newHomogeneousModulus dims.prod r misfit)
  have hw : Hermitian dims (fft dims fun x => ((phaseIndicator (el.field x) : ℝ) : ℂ)) :=
    hermitian_fft h hl fun x => Complex.ofReal_im _
  intro b b' hb
  have hf := Gopf.Elasticity.freq3_conj h ho hb
  have hforce : el.force (fft dims fun x => ((phaseIndicator (el.field x) : ℝ) : ℂ)) b' =
      fun c => (starRingEnd ℂ) (el.force (fft dims fun x => ((phaseIndicator (el.field x) : ℝ) : ℂ)) b c) := by
    funext c
    unfold HomoLinElast.force
    split_ifs
    · rw [effForce_eq, effForce_eq, hf, hw b b' hb]
      simp [map_sum, Complex.conj_ofNat]
    · simp
  have hM : dispMatrix (-freq3 dims b) el.matProp.get = dispMatrix (freq3 dims b) el.matProp.get := by
    ext m n
    unfold dispMatrix
    rw [Matrix.of_apply, Matrix.of_apply, dispElem_eq, dispElem_eq]
    simp
  have hd : ∀ a, displacement (fun c => (starRingEnd ℂ) (el.force
      (fft dims fun x => ((phaseIndicator (el.field x) : ℝ) : ℂ)) b c)) (-freq3 dims b) el.matProp.get a =
      (starRingEnd ℂ) (displacement (el.force (fft dims fun x => ((phaseIndicator (el.field x) : ℝ) : ℂ)) b)
        (freq3 dims b) el.matProp.get a) := by
    intro a
    rw [displacement_eq, displacement_eq, hM]
    simp only [Pi.neg_apply, abs_neg]
    split_ifs
    · simp
    · rw [map_sum]
      refine Finset.sum_congr rfl fun k _ => ?_
      rw [map_mul, Complex.conj_ofReal]
  dsimp only
  rw [hforce, hf]
  unfold strain
  rw [hd, hd, Pi.neg_apply, Pi.neg_apply, noNyquist_neg, noNyquist_neg]
  simp

/-! ### With even sides it can fail -/

/-- A misfit strain with both dilatation and shear. -/
noncomputable def mixedMisfit : Mat3 := !![1 / 2, 1 / 2, 0; 1 / 2, 1 / 2, 0; 0, 0, 0]

/-- One node of the second phase and its half transformed neighbour. -/
noncomputable def evenField : Fin [4, 2].prod → ℝ := fun x => if x.val = 0 then 1 else if x.val = 2 then 1 / 2 else 0

theorem mixed_stress : (isotropicOf (2 / 3) 1).contractLast mixedMisfit = !![1, 1, 0; 1, 1, 0; 0, 0, 0] := by
  ext i j
  rw [contractLast_eq]
  simp only [isotropicOf_get, Fin.sum_univ_three, Matrix.one_apply, mixedMisfit]
  fin_cases i <;> fin_cases j <;> simp <;> norm_num

/-- Strain per amount of second phase, contracted with the stress of the misfit. -/
noncomputable def mixedFactor (n f : Fin 3 → ℝ) : ℝ :=
  (n 0 + n 1) * (f 0 + f 1) * (2 / (f 0 ^ 2 + f 1 ^ 2) - (f 0 + f 1) ^ 2 / (2 * (f 0 ^ 2 + f 1 ^ 2) ^ 2))

theorem mixed_displacement {f : Fin 3 → ℝ} (h2 : f 2 = 0) (hf : ¬ (|f 0| < tol ∧ |f 1| < tol ∧ |f 2| < tol))
    (H : ℂ) (el : HomoLinElast [4, 2].prod) (w : Data [4, 2].prod) (k : Fin [4, 2].prod) (hk : freq3 [4, 2] k = f)
    (hH : w k = H) (he : el.effStress = !![1, 1, 0; 1, 1, 0; 0, 0, 0]) :
    displacement (el.force w k) f (isotropicOf (2 / 3) 1).get = fun a =>
      if a = 2 then 0 else -Complex.I * H * ((f 0 + f 1 : ℝ) : ℂ) / (2 * Real.pi) *
        ((1 / (f 0 ^ 2 + f 1 ^ 2) - (f 0 + f 1) / (2 * (f 0 ^ 2 + f 1 ^ 2) ^ 2) * f a : ℝ) : ℂ) := by
  symm
  rw [c57_displacement (by norm_num) (by norm_num) hf]
  have hne : f 0 ^ 2 + f 1 ^ 2 ≠ 0 := by
    intro e
    have e0 : f 0 = 0 := by nlinarith [sq_nonneg (f 0), sq_nonneg (f 1)]
    have e1 : f 1 = 0 := by nlinarith [sq_nonneg (f 0), sq_nonneg (f 1)]
    apply hf
    rw [e0, e1, h2]
    simp [tol]
  have hnc : ((f 0 : ℝ) : ℂ) ^ 2 + ((f 1 : ℝ) : ℂ) ^ 2 ≠ 0 := by exact_mod_cast hne
  have hpi : ((Real.pi : ℝ) : ℂ) ≠ 0 := by exact_mod_cast Real.pi_ne_zero
  have hel : ∀ m n, dispElem m n f (isotropicOf (2 / 3) 1).get = (2 * Real.pi) ^ 2 *
      ((if m = n then f 0 ^ 2 + f 1 ^ 2 else 0) + f m * f n) := by
    intro m n
    rw [dispElem_eq]
    congr 1
    simp only [isotropicOf_get, Fin.sum_univ_three, Matrix.one_apply, h2]
    fin_cases m <;> fin_cases n <;> simp [h2] <;> ring
  intro m
  simp only [hel, Fin.sum_univ_three]
  unfold HomoLinElast.force
  rw [effForce_eq, hk, hH, he, Fin.sum_univ_three]
  fin_cases m <;> simp [axes, h2] <;> field_simp <;> ring

theorem mixed_strain {f : Fin 3 → ℝ} (h2 : f 2 = 0) (hf : ¬ (|f 0| < tol ∧ |f 1| < tol ∧ |f 2| < tol))
    (el : HomoLinElast [4, 2].prod) (w : Data [4, 2].prod) (k : Fin [4, 2].prod) (hk : freq3 [4, 2] k = f)
    (he : el.effStress = !![1, 1, 0; 1, 1, 0; 0, 0, 0]) (hm : el.matProp = isotropicOf (2 / 3) 1) :
    let e : Fin 3 → Fin 3 → ℂ := fun i j => strain (displacement (el.force w k) (freq3 [4, 2] k) el.matProp.get) (freq3 [4, 2] k) i j
    e 0 0 + 2 * e 0 1 + e 1 1 = w k * ((mixedFactor (fun a => noNyquist (f a)) f : ℝ) : ℂ) := by
  intro e
  simp only [e, hk, hm]
  rw [mixed_displacement h2 hf (w k) el w k hk rfl he]
  have hpi : ((Real.pi : ℝ) : ℂ) ≠ 0 := by exact_mod_cast Real.pi_ne_zero
  have hI := Complex.I_sq
  unfold strain mixedFactor
  simp only [if_neg (show (0 : Fin 3) ≠ 2 by decide), if_neg (show (1 : Fin 3) ≠ 2 by decide)]
  generalize noNyquist (f 0) = n0
  generalize noNyquist (f 1) = n1
  have key : ∀ (q0 q1 : ℂ), Complex.I * ((Real.pi * n0 : ℝ) : ℂ) * q0 + Complex.I * ((Real.pi * n0 : ℝ) : ℂ) * q0 +
      2 * (Complex.I * ((Real.pi * n1 : ℝ) : ℂ) * q0 + Complex.I * ((Real.pi * n0 : ℝ) : ℂ) * q1) +
      (Complex.I * ((Real.pi * n1 : ℝ) : ℂ) * q1 + Complex.I * ((Real.pi * n1 : ℝ) : ℂ) * q1) =
      2 * Complex.I * Real.pi * ((n0 + n1 : ℝ) : ℂ) * (q0 + q1) := by
    intro q0 q1
    push_cast
    ring
  rw [key, ← mul_add, ← Complex.ofReal_add]
  have e2 : (1 / (f 0 ^ 2 + f 1 ^ 2) - (f 0 + f 1) / (2 * (f 0 ^ 2 + f 1 ^ 2) ^ 2) * f 0 +
      (1 / (f 0 ^ 2 + f 1 ^ 2) - (f 0 + f 1) / (2 * (f 0 ^ 2 + f 1 ^ 2) ^ 2) * f 1)) =
      2 / (f 0 ^ 2 + f 1 ^ 2) - (f 0 + f 1) ^ 2 / (2 * (f 0 ^ 2 + f 1 ^ 2) ^ 2) := by ring
  rw [e2]
  generalize (2 / (f 0 ^ 2 + f 1 ^ 2) - (f 0 + f 1) ^ 2 / (2 * (f 0 ^ 2 + f 1 ^ 2) ^ 2)) = v
  push_cast
  field_simp
  linear_combination (-((f 0 + f 1 : ℂ) * (n0 + n1) * w k * v)) * hI

/-- The frequencies of the bins of a 4 times 2 grid. -/
def freqTable : List (ℚ × ℚ) := [(0, 0), (0, 1 / 2), (1 / 4, 0), (1 / 4, 1 / 2), (1 / 2, 0), (1 / 2, 1 / 2), (-1 / 4, 0), (-1 / 4, 1 / 2)]

theorem freqTable_ok : ∀ k : Fin [4, 2].prod, Pfutil.freq ([4, 2].map Int.ofNat) (k.val : Int) =
    some [(freqTable.getD k.val 0).1, (freqTable.getD k.val 0).2] := by decide +kernel

theorem phase_ok : ∀ k : Fin [4, 2].prod, phase [4, 2] k 2 = ((k.val / 2 : ℕ) : ℚ) / 4 ∧ phase [4, 2] k 0 = 0 := by
  decide +kernel

theorem freq3_table (k : Fin [4, 2].prod) : freq3 [4, 2] k =
    ![(((freqTable.getD k.val 0).1 : ℚ) : ℝ), (((freqTable.getD k.val 0).2 : ℚ) : ℝ), 0] := by
  funext c
  unfold freq3 freqOf
  rw [freqTable_ok k]
  fin_cases c <;> simp [fcomp]

/-- The contracted strain of one bin of the 4 times 2 grid. -/
noncomputable def evenGamma (k : Fin [4, 2].prod) : ℝ :=
  if k.val = 0 then 0 else mixedFactor (fun a => noNyquist (freq3 [4, 2] k a)) (freq3 [4, 2] k)

theorem noNyquist_zero : noNyquist 0 = 0 := by simp [noNyquist]

theorem noNyquist_half : noNyquist (1 / 2) = 0 := by
  unfold noNyquist tol
  rw [if_pos]
  norm_num [abs_of_pos]

theorem noNyquist_quarter : noNyquist (1 / 4) = 1 / 4 := by
  unfold noNyquist tol
  rw [if_neg]
  rw [abs_of_pos (by norm_num : (0 : ℝ) < 1 / 4), abs_of_neg (by norm_num)]
  norm_num

theorem noNyquist_negQuarter : noNyquist (-1 / 4) = -1 / 4 := by
  have : (-1 / 4 : ℝ) = -(1 / 4) := by norm_num
  rw [this, noNyquist_neg, noNyquist_quarter]

theorem evenGamma_two : evenGamma ⟨2, by decide⟩ = 3 / 2 := by
  unfold evenGamma mixedFactor
  rw [if_neg (by decide), freq3_table]
  norm_num [freqTable, noNyquist_zero, noNyquist_quarter]

theorem evenGamma_three : evenGamma ⟨3, by decide⟩ = 33 / 50 := by
  unfold evenGamma mixedFactor
  rw [if_neg (by decide), freq3_table]
  have h1 := noNyquist_quarter
  have h2 := noNyquist_half
  norm_num at h1 h2
  norm_num [freqTable, h1, h2]

theorem evenGamma_six : evenGamma ⟨6, by decide⟩ = 3 / 2 := by
  unfold evenGamma mixedFactor
  rw [if_neg (by decide), freq3_table]
  have h1 := noNyquist_negQuarter
  norm_num at h1
  norm_num [freqTable, noNyquist_zero, h1]

theorem evenGamma_seven : evenGamma ⟨7, by decide⟩ = -19 / 50 := by
  unfold evenGamma mixedFactor
  rw [if_neg (by decide), freq3_table]
  have h1 := noNyquist_negQuarter
  have h2 := noNyquist_half
  norm_num at h1 h2
  norm_num [freqTable, h1, h2]

theorem evenField_sum (g : ℝ → ℝ) (hg : g 0 = 0) (a : Fin [4, 2].prod → ℂ) :
    ∑ x, ((g (evenField x) : ℝ) : ℂ) * a x = (g 1 : ℂ) * a ⟨0, by decide⟩ + (g (1 / 2) : ℂ) * a ⟨2, by decide⟩ := by
  have hv : ∀ x : Fin [4, 2].prod, x.val ≠ 0 → x.val ≠ 2 → evenField x = 0 := by
    intro x h0 h2
    unfold evenField
    rw [if_neg h0, if_neg h2]
  rw [← Finset.sum_subset (Finset.subset_univ {(⟨0, by decide⟩ : Fin [4, 2].prod), ⟨2, by decide⟩})]
  · rw [Finset.sum_pair (by decide)]
    simp [evenField]
  · intro x _ hx
    simp only [Finset.mem_insert, Finset.mem_singleton, not_or, Fin.ext_iff] at hx
    rw [hv x hx.1 hx.2, hg]
    simp

/-- The strain energy part of the term at bin zero: an imaginary part is left. -/
theorem even_im : ((elasticTerm [4, 2].prod (isotropicOf (2 / 3) 1) mixedMisfit evenField).construct ⟨0, by decide⟩).im
    = 39 / 200 := by
  set el := elasticTerm [4, 2].prod (isotropicOf (2 / 3) 1) mixedMisfit evenField with hel
  have hfield : ∀ i, el.field i = evenField i := fun i => by
    simp [hel, elasticTerm, HomoLinElast.onStepFinished]
  have hmp : el.matProp = isotropicOf (2 / 3) 1 := rfl
  have hmf : el.misfit = mixedMisfit := rfl
  have hst : el.effStress = !![1, 1, 0; 1, 1, 0; 0, 0, 0] := mixed_stress
  set w := fft [4, 2] fun i => ((phaseIndicator (evenField i) : ℝ) : ℂ) with hw
  set e : Fin 3 → Fin 3 → Data [4, 2].prod := fun i j k =>
    strain (displacement (el.force w k) (freq3 [4, 2] k) el.matProp.get) (freq3 [4, 2] k) i j with he
  have hax : axes [4, 2] = [0, 1] := by decide
  have hwk : ∀ k, w k = 1 + 1 / 2 * cis (-((k.val / 2 : ℕ) : ℚ) / 4) := by
    intro k
    rw [hw]
    unfold fft
    rw [evenField_sum phaseIndicator (by norm_num [phaseIndicator])]
    rw [show phase [4, 2] k (⟨0, by decide⟩ : Fin [4, 2].prod).val = 0 from (phase_ok k).2,
      show phase [4, 2] k (⟨2, by decide⟩ : Fin [4, 2].prod).val = _ from (phase_ok k).1, neg_zero, cis_zero, neg_div]
    norm_num [phaseIndicator]
  have hT : ∀ k, e 0 0 k + 2 * e 0 1 k + e 1 1 k = w k * ((evenGamma k : ℝ) : ℂ) := by
    intro k
    by_cases hk : k.val = 0
    · have hz : freq3 [4, 2] k = fun _ => 0 := by
        rw [freq3_table, hk]
        funext c
        fin_cases c <;> simp [freqTable]
      have h0 : ∀ i j, e i j k = 0 := by
        intro i j
        simp only [he]
        rw [hz]
        simp [strain, noNyquist_zero]
      unfold evenGamma
      rw [if_pos hk, h0, h0, h0]
      simp
    · unfold evenGamma
      rw [if_neg hk]
      refine mixed_strain ?_ ?_ el w k rfl hst hmp
      · rw [freq3_table]; simp
      · rw [freq3_table]
        unfold tol
        have : ∀ n : Fin 8, n.val ≠ 0 → ¬ (|(freqTable.getD n.val 0).1| < 1 / 10 ^ 10 ∧ |(freqTable.getD n.val 0).2| < 1 / 10 ^ 10) := by
          decide +kernel
        have h3 := this k hk
        rintro ⟨a0, a1, -⟩
        apply h3
        constructor
        · apply (Rat.cast_lt (K := ℝ)).mp
          push_cast
          simpa using a0
        · apply (Rat.cast_lt (K := ℝ)).mp
          push_cast
          simpa using a1
  have hS : ∀ i j, fft [4, 2] (fun x => divRealScalar (ifft [4, 2] (e i j)) (([4, 2].prod : ℕ) : ℝ) x *
      ((phaseIndicatorDeriv (el.field x) : ℝ) : ℂ)) ⟨0, by decide⟩ = 3 / 16 * ifft [4, 2] (e i j) ⟨2, by decide⟩ := by
    intro i j
    rw [fft_zero_bin _ ⟨0, by decide⟩ rfl]
    have : ∀ x, divRealScalar (ifft [4, 2] (e i j)) (([4, 2].prod : ℕ) : ℝ) x * ((phaseIndicatorDeriv (el.field x) : ℝ) : ℂ) =
        ((phaseIndicatorDeriv (evenField x) : ℝ) : ℂ) * divRealScalar (ifft [4, 2] (e i j)) (([4, 2].prod : ℕ) : ℝ) x := by
      intro x
      rw [hfield, mul_comm]
    rw [Finset.sum_congr rfl fun x _ => this x, evenField_sum phaseIndicatorDeriv (by norm_num [phaseIndicatorDeriv])]
    unfold divRealScalar
    have h8 : ((([4, 2].prod : ℕ) : ℝ) : ℂ) = 8 := by norm_num
    rw [h8]
    generalize ifft [4, 2] (e i j) ⟨0, _⟩ = a
    generalize ifft [4, 2] (e i j) ⟨2, _⟩ = b
    norm_num [phaseIndicatorDeriv]
    ring
  have hsum : ifft [4, 2] (e 0 0) ⟨2, by decide⟩ + 2 * ifft [4, 2] (e 0 1) ⟨2, by decide⟩ + ifft [4, 2] (e 1 1) ⟨2, by decide⟩ =
      ∑ k, ((evenGamma k : ℝ) : ℂ) * (cis (((k.val / 2 : ℕ) : ℚ) / 4) + 1 / 2) := by
    unfold ifft
    rw [Finset.mul_sum, ← Finset.sum_add_distrib, ← Finset.sum_add_distrib]
    refine Finset.sum_congr rfl fun k _ => ?_
    rw [show phase [4, 2] k (⟨2, by decide⟩ : Fin [4, 2].prod).val = _ from (phase_ok k).1]
    have h1 := hT k
    rw [hwk k] at h1
    have h2 := cis_neg_mul (((k.val / 2 : ℕ) : ℚ) / 4)
    rw [← neg_div] at h2
    linear_combination cis (((k.val / 2 : ℕ) : ℚ) / 4) * h1 + (1 / 2 * ((evenGamma k : ℝ) : ℂ)) * h2
  have hconstruct : el.construct ⟨0, by decide⟩ = 3 / 16 * (∑ k, ((evenGamma k : ℝ) : ℂ) * (cis (((k.val / 2 : ℕ) : ℚ) / 4) + 1 / 2)) -
      ((2 * energyDensity el.matProp.get el.misfit : ℝ) : ℂ) * ((∑ x, phaseIndicator (el.field x) * phaseIndicatorDeriv (el.field x) : ℝ) : ℂ) := by
    unfold HomoLinElast.construct
    dsimp only
    have hwe : (fft [4, 2] fun i => ((phaseIndicator (el.field i) : ℝ) : ℂ)) = w := by
      simp only [hfield]
      exact hw.symm
    rw [hwe, hax]
    have f0 : (List.filter (fun x => decide ((0 : Fin 3) ≤ x)) [0, 1]) = [0, 1] := by decide
    have f1 : (List.filter (fun x => decide ((1 : Fin 3) ≤ x)) [0, 1]) = [1] := by decide
    simp only [List.foldl_cons, List.foldl_nil, f0, f1]
    have hA : el.matProp.contractLast el.misfit = !![1, 1, 0; 1, 1, 0; 0, 0, 0] := mixed_stress
    rw [hA]
    have e00 := hS 0 0
    have e01 := hS 0 1
    have e11 := hS 1 1
    simp only [he] at e00 e01 e11 hsum
    rw [e00, e01, e11, ← hsum, fft_zero_bin _ ⟨0, by decide⟩ rfl, Complex.ofReal_sum]
    simp
    ring
  rw [hconstruct, Complex.sub_im, Complex.im_ofReal_mul, Complex.ofReal_im, mul_zero, sub_zero]
  have c0 : cis 0 = 1 := cis_zero
  have c1 : cis (1 / 4) = Complex.I := by
    unfold cis
    refine Eq.trans ?_ Complex.exp_pi_div_two_mul_I
    congr 1
    push_cast
    ring
  have c2 : cis (2 / 4) = -1 := by
    rw [show (2 / 4 : ℚ) = 1 / 4 + 1 / 4 by norm_num, cis_add, c1, Complex.I_mul_I]
  have c3 : cis (3 / 4) = -Complex.I := by
    rw [show (3 / 4 : ℚ) = 2 / 4 + 1 / 4 by norm_num, cis_add, c1, c2, neg_one_mul]
  have hlast : (∑ k : Fin [4, 2].prod, ((evenGamma k : ℝ) : ℂ) * (cis (((k.val / 2 : ℕ) : ℚ) / 4) + 1 / 2)).im = 26 / 25 := by
    have h8 : ∀ F : Fin [4, 2].prod → ℂ, ∑ k, F k = F ⟨0, by decide⟩ + F ⟨1, by decide⟩ + F ⟨2, by decide⟩ +
        F ⟨3, by decide⟩ + F ⟨4, by decide⟩ + F ⟨5, by decide⟩ + F ⟨6, by decide⟩ + F ⟨7, by decide⟩ :=
      fun F => Fin.sum_univ_eight F
    rw [h8, evenGamma_two, evenGamma_three, evenGamma_six, evenGamma_seven]
    generalize evenGamma ⟨0, _⟩ = g0
    generalize evenGamma ⟨1, _⟩ = g1
    generalize evenGamma ⟨4, _⟩ = g4
    generalize evenGamma ⟨5, _⟩ = g5
    simp only [show (0 / 2 : ℕ) = 0 from rfl, show (2 / 2 : ℕ) = 1 from rfl,
      show (4 / 2 : ℕ) = 2 from rfl, 
      show (6 / 2 : ℕ) = 3 from rfl, Nat.cast_zero, Nat.cast_one, Nat.cast_ofNat, zero_div,
      c0, c1, c2, c3]
    have hh : ((1 : ℂ) / 2) = ((1 / 2 : ℝ) : ℂ) := by push_cast; rfl
    rw [hh]
    simp only [Complex.add_im, Complex.im_ofReal_mul, Complex.one_im, Complex.neg_im, Complex.I_im, Complex.ofReal_im]
    norm_num
  rw [show (3 / 16 : ℂ) = ((3 / 16 : ℝ) : ℂ) by push_cast; rfl, Complex.im_ofReal_mul, hlast]
  norm_num

/-- C154: with even sides it can fail. On a 4 times 2 grid, for an isotropic material (bulk modulus 2/3, Poisson ratio 0)
and a misfit strain with dilatation and shear there is a real field, with values between zero and one, for which the term
is not the transform of any real field: its zero bin, the change of the total, has an imaginary part. -/
theorem c154_even_not : ∃ c : Fin [4, 2].prod → ℝ, (∀ x, 0 ≤ c x ∧ c x ≤ 1) ∧
    MirrorSymmetric (isotropicOf (2 / 3) 1).get ∧ InPlane [4, 2] (isotropicOf (2 / 3) 1) mixedMisfit ∧
    isotropicOf (2 / 3) 1 = isotropic (2 / 3) 0 ∧
    ¬ ∃ g : Fin [4, 2].prod → ℝ,
      (elasticTerm [4, 2].prod (isotropicOf (2 / 3) 1) mixedMisfit c).construct = fft [4, 2] fun x => (g x : ℂ) := by
  have hiso : isotropicOf (2 / 3) 1 = isotropic (2 / 3) 0 := by
    unfold isotropic shear
    norm_num
  refine ⟨evenField, fun x => ?_, ?_, ?_, hiso, ?_⟩
  · unfold evenField
    split_ifs <;> norm_num
  · rw [hiso]
    exact c154_isotropic _ _
  · unfold InPlane
    rw [mixed_stress]
    intro i j hj hi
    fin_cases i <;> fin_cases j <;> simp at hi hj ⊢
  · rintro ⟨g, hg⟩
    have h1 := even_im
    rw [hg, fft_zero_bin _ ⟨0, by decide⟩ rfl, ← Complex.ofReal_sum, Complex.ofReal_im] at h1
    norm_num at h1

/-- The hypotheses of the positive results are met by the even grid of the example with a misfit without shear. -/
example : GoodDims (intDims [4, 2]) ∧ LayoutOk [4, 2] ∧ MirrorSymmetric (isotropic 60 (1 / 3)).get ∧ NoShear (1 : Mat3) :=
  ⟨by unfold GoodDims; decide, trivial, c154_isotropic _ _, fun i j hij => Matrix.one_apply_ne hij⟩

example : GoodDims (intDims [5, 7]) ∧ LayoutOk [5, 7] ∧ OddSides [5, 7] :=
  ⟨by unfold GoodDims; decide, trivial, by unfold OddSides; decide⟩

end Gopf.Props
