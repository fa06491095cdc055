import Verif.Props.LinElast

/-!
# C146: the elastic term of a cubic material with a diagonal misfit strain
-/

namespace Gopf.Props
open Spec Pfutil Pf Elasticity
open scoped BigOperators

variable {dims : List ℕ}

/-- No shear in the misfit strain. -/
def NoShear (misfit : Mat3) : Prop := ∀ i j, i ≠ j → misfit i j = 0

theorem cubic_stress {misfit : Mat3} (hm : NoShear misfit) (c11 c12 c44 : ℝ) (i j : Fin 3) (hij : i ≠ j) :
    (cubicMaterial c11 c12 c44).contractLast misfit i j = 0 := by
  rw [contractLast_eq]
  refine Finset.sum_eq_zero fun k _ => Finset.sum_eq_zero fun l _ => ?_
  rw [cubicMaterial_get, if_neg fun e => hij e.1, if_neg fun e => hij e.1]
  split_ifs with h
  · rw [hm k l (by rw [← h.1, ← h.2]; exact hij), mul_zero]
  · rw [zero_mul]

/-- The matrix of the equations of balance of a cubic material. -/
theorem cubic_matrix (c11 c12 c44 : ℝ) (f : Fin 3 → ℝ) (m n : Fin 3) :
    dispElem m n f (cubicMaterial c11 c12 c44).get = (2 * Real.pi) ^ 2 *
      (c12 * f m * f n + if m = n then (c11 - c12 - c44) * f m ^ 2 + c44 * ∑ j, f j ^ 2 else 0) := by
  rw [dispElem_eq]
  congr 1
  simp only [cubicMaterial_get, Fin.sum_univ_three]
  fin_cases m <;> fin_cases n <;> simp <;> ring

theorem cubic_matrix_turn (c11 c12 c44 : ℝ) (f d : Fin 3 → ℝ) (hd : ∀ c, d c * d c = 1) (m n : Fin 3) :
    dispElem m n (fun c => d c * f c) (cubicMaterial c11 c12 c44).get =
      d m * dispElem m n f (cubicMaterial c11 c12 c44).get * d n := by
  have hsq : ∀ j, (d j * f j) ^ 2 = f j ^ 2 := fun j => by
    have := hd j
    rw [mul_pow, pow_two (d j), this, one_mul]
  rw [cubic_matrix, cubic_matrix]
  simp only [hsq]
  split_ifs with h
  · subst h
    have := hd m
    linear_combination (-((2 * Real.pi) ^ 2 * ((c11 - c12 - c44) * f m ^ 2 + c44 * ∑ j, f j ^ 2))) * this
  · ring

theorem abs_turn {d x : ℝ} (hd : d * d = 1) : |d * x| = |x| := by
  have : |d| = 1 := by
    have h := abs_mul_abs_self d
    rw [hd] at h
    nlinarith [abs_nonneg d]
  rw [abs_mul, this, one_mul]

theorem displacement_turn (c11 c12 c44 : ℝ) (F : Fin 3 → ℂ) (f d : Fin 3 → ℝ) (hd : ∀ c, d c * d c = 1) (a : Fin 3) :
    displacement (fun c => -(d c : ℂ) * (starRingEnd ℂ) (F c)) (fun c => d c * f c) (cubicMaterial c11 c12 c44).get a =
      -(d a : ℂ) * (starRingEnd ℂ) (displacement F f (cubicMaterial c11 c12 c44).get a) := by
  unfold displacement
  simp only [abs_turn (hd _)]
  split_ifs with h0
  · simp
  · set K : Mat3 := Matrix.of fun j k => dispElem j k f (cubicMaterial c11 c12 c44).get with hK
    set D : Mat3 := Matrix.diagonal d with hD
    have hDD : D * D = 1 := by
      rw [hD, Matrix.diagonal_mul_diagonal]
      simp [hd]
    have hinv : D⁻¹ = D := Matrix.inv_eq_right_inv hDD
    have hmat : (Matrix.of fun j k => dispElem j k (fun c => d c * f c) (cubicMaterial c11 c12 c44).get : Mat3) = D * K * D := by
      ext j k
      rw [hD, Matrix.mul_diagonal, Matrix.diagonal_mul, Matrix.of_apply, cubic_matrix_turn _ _ _ _ _ hd]
      rfl
    rw [hmat, Matrix.mul_inv_rev, Matrix.mul_inv_rev, hinv]
    have hvec : ∀ v : Fin 3 → ℝ, (D * (K⁻¹ * D)).mulVec v a = d a * K⁻¹.mulVec (fun c => d c * v c) a := by
      intro v
      rw [← Matrix.mulVec_mulVec, ← Matrix.mulVec_mulVec, hD, Matrix.mulVec_diagonal]
      congr 2
      funext c
      exact Matrix.mulVec_diagonal _ _ _
    have e1 : (fun c => d c * (-(d c : ℂ) * (starRingEnd ℂ) (F c)).re) = fun c => -(F c).re := by
      funext c
      have := hd c
      simp
      linear_combination (F c).re * this
    have e2 : (fun c => d c * (-(d c : ℂ) * (starRingEnd ℂ) (F c)).im) = fun c => (F c).im := by
      funext c
      have := hd c
      simp
      linear_combination ((F c).im) * this
    have e3 : K⁻¹.mulVec (fun c => -(F c).re) a = -K⁻¹.mulVec (fun c => (F c).re) a := by
      have := congrFun (Matrix.mulVec_neg (fun c => (F c).re) K⁻¹) a
      exact this
    dsimp only
    rw [hvec, hvec, e1, e2, e3]
    apply Complex.ext <;> simp

theorem noNyquist_turn {d x : ℝ} (hd : d * d = 1) : noNyquist (d * x) = d * noNyquist x := by
  unfold noNyquist
  rw [abs_turn hd]
  split_ifs <;> simp

theorem freq3_conj (h : GoodDims (intDims dims)) {b b' : Fin dims.prod}
    (hb : conjugateNode (intDims dims) (b.val : Int) = some (b'.val : Int)) :
    ∃ d : Fin 3 → ℝ, (∀ c, d c * d c = 1) ∧ freq3 dims b' = fun c => d c * freq3 dims b c := by
  refine ⟨fun c => if freq3 dims b' c = -freq3 dims b c then -1 else 1, fun c => by dsimp only; split_ifs <;> norm_num, ?_⟩
  funext c
  dsimp only
  split_ifs with e
  · rw [e]; ring
  · rcases fcomp_conj h hb c with e' | ⟨e1, e2⟩
    · exact absurd e' e
    · unfold freq3
      rw [e1, e2, one_mul]

/-- The strain along an axis caused by a real distribution of phases has a conjugate symmetric spectrum. -/
theorem cubic_strain (h : GoodDims (intDims dims)) {misfit : Mat3} (hm : NoShear misfit) (c11 c12 c44 : ℝ)
    (el : HomoLinElast dims.prod) (h1 : el.matProp = cubicMaterial c11 c12 c44) (h2 : el.effStress = el.matProp.contractLast misfit)
    {w : Data dims.prod} (hw : Hermitian dims w) (i : Fin 3) :
    Hermitian dims fun k => strain (displacement (el.force w k) (freq3 dims k) el.matProp.get) (freq3 dims k) i i := by
  intro b b' hb
  obtain ⟨d, hd, hf⟩ := freq3_conj h hb
  have hforce : el.force w b' = fun c => -(d c : ℂ) * (starRingEnd ℂ) (el.force w b c) := by
    funext c
    unfold HomoLinElast.force
    split_ifs with hc
    · have hS : ∀ k ind, effForce el.effStress c k ind = -(2 * Real.pi * Complex.I * ind * ((el.effStress c c : ℂ) * (k c : ℂ))) := by
        intro k ind
        rw [effForce_eq]
        congr 2
        refine Finset.sum_eq_single c (fun j _ hj => ?_) fun hc => absurd (Finset.mem_univ c) hc
        rw [h2, h1, cubic_stress hm _ _ _ _ _ (Ne.symm hj)]
        simp
      rw [hS, hS, hf, hw b b' hb]
      simp [Complex.conj_ofReal, Complex.conj_ofNat]
      ring
    · simp
  dsimp only
  rw [hforce, hf, h1]
  unfold strain
  rw [displacement_turn _ _ _ _ _ _ hd, noNyquist_turn (hd i)]
  have e : ((d i : ℝ) : ℂ) * d i = 1 := by exact_mod_cast hd i
  simp only [map_add, map_mul, Complex.conj_I, Complex.conj_ofReal, Complex.ofReal_mul]
  linear_combination (2 * Complex.I * Real.pi * noNyquist (freq3 dims b i) *
    (starRingEnd ℂ) (displacement (el.force w b) (freq3 dims b) (cubicMaterial c11 c12 c44).get i)) * (-e)

theorem fft_divided (h : ∀ d ∈ dims, 0 < d) (s : Data dims.prod) :
    fft dims (divRealScalar (ifft dims s) (dims.prod : ℕ)) = s := by
  funext k
  have e : divRealScalar (ifft dims s) (dims.prod : ℕ) = fun x => (1 / ((dims.prod : ℕ) : ℂ)) * ifft dims s x := by
    funext x
    unfold divRealScalar
    rw [Complex.ofReal_natCast]
    ring
  rw [e, fft_smul, fft_ifft h]
  have := prod_ne_zero' h
  field_simp

/-- What the transform of a real field looks like. -/
def FromReal (dims : List ℕ) (w : Data dims.prod) : Prop := ∃ g : Fin dims.prod → ℝ, w = fft dims fun x => (g x : ℂ)

theorem FromReal.add_smul {w w' : Data dims.prod} (h : FromReal dims w) (h' : FromReal dims w') (r : ℝ) :
    FromReal dims fun k => w k + (r : ℂ) * w' k := by
  obtain ⟨g, rfl⟩ := h
  obtain ⟨g', rfl⟩ := h'
  refine ⟨fun x => g x + r * g' x, ?_⟩
  funext k
  rw [← fft_smul, ← fft_add]
  congr 1
  funext x
  push_cast
  rfl

theorem FromReal.zero : FromReal dims fun _ => 0 := ⟨fun _ => 0, by funext k; simp [fft]⟩

theorem FromReal.foldl {α : Type} (l : List α) (g : α → Data dims.prod → Data dims.prod)
    (hg : ∀ a w, FromReal dims w → FromReal dims (g a w)) (w : Data dims.prod) (hw : FromReal dims w) :
    FromReal dims (l.foldl (fun w a => g a w) w) := by
  induction l generalizing w with
  | nil => exact hw
  | cons a l ih => exact ih _ (hg a w hw)

/-- C146: for a cubic material and a misfit strain without shear the elastic term is the transform of a real field, on
every domain (sides with an even number of nodes too) and whatever the last field was. -/
theorem c146_elastic_real (h : GoodDims (intDims dims)) (hl : LayoutOk dims) (c11 c12 c44 : ℝ) (misfit : Mat3)
    (hm : NoShear misfit) (l : List (Data dims.prod)) :
    ∃ g : Fin dims.prod → ℝ,
      (l.foldl HomoLinElast.onStepFinished
        (newHomogeneousModulus dims.prod (cubicMaterial c11 c12 c44) misfit)).construct = fft dims fun x => (g x : ℂ) := by
  have hpos := pos_of_goodDims h
  set el := l.foldl HomoLinElast.onStepFinished (newHomogeneousModulus dims.prod (cubicMaterial c11 c12 c44) misfit) with hel
  have hkeep : ∀ (l : List (Data dims.prod)) (e : HomoLinElast dims.prod),
      (l.foldl HomoLinElast.onStepFinished e).matProp = e.matProp ∧
      (l.foldl HomoLinElast.onStepFinished e).misfit = e.misfit ∧
      (l.foldl HomoLinElast.onStepFinished e).effStress = e.effStress := by
    intro l
    induction l with
    | nil => intro e; exact ⟨rfl, rfl, rfl⟩
    | cons x l ih => intro e; exact ih _
  obtain ⟨k1, k2, k3⟩ := hkeep l (newHomogeneousModulus dims.prod (cubicMaterial c11 c12 c44) misfit)
  rw [← hel] at k1 k2 k3
  have k1' : el.matProp = cubicMaterial c11 c12 c44 := k1
  have k2' : el.misfit = misfit := k2
  have k3' : el.effStress = el.matProp.contractLast misfit := by rw [k3, k1']; rfl
  show FromReal dims el.construct
  unfold HomoLinElast.construct
  dsimp only
  have hsub : ∀ (w w' : Data dims.prod) (r : ℝ), FromReal dims w → FromReal dims w' →
      FromReal dims fun k => w k - (r : ℂ) * w' k := by
    intro w w' r hw hw'
    have := hw.add_smul hw' (-r)
    refine (congrArg (FromReal dims) ?_).mp this
    funext k
    push_cast
    ring
  refine hsub _ _ _ ?_ ⟨_, rfl⟩
  refine FromReal.foldl _ _ (fun i w hw => ?_) _ FromReal.zero
  refine FromReal.foldl _ _ (fun j w hw => ?_) _ hw
  by_cases hij : i = j
  · subst hij
    refine hw.add_smul ?_ _
    have hherm := cubic_strain h hm c11 c12 c44 el k1' k3'
      (hermitian_fft h hl (data := fun x => ((phaseIndicator (el.field x) : ℝ) : ℂ)) (fun x => Complex.ofReal_im _)) i
    have hreal : IsReal (divRealScalar (ifft dims fun k => strain (displacement (el.force
        (fft dims fun x => ((phaseIndicator (el.field x) : ℝ) : ℂ)) k) (freq3 dims k) el.matProp.get) (freq3 dims k) i i) (dims.prod : ℕ)) := by
      apply real_of_hermitian h hl
      rw [fft_divided hpos]
      exact hherm
    refine ⟨fun x => (divRealScalar (ifft dims fun k => strain (displacement (el.force
        (fft dims fun x => ((phaseIndicator (el.field x) : ℝ) : ℂ)) k) (freq3 dims k) el.matProp.get) (freq3 dims k) i i) (dims.prod : ℕ) x).re *
        phaseIndicatorDeriv (el.field x), ?_⟩
    congr 1
    funext x
    rw [Complex.ofReal_mul]
    congr 1
    exact Complex.ext rfl (by rw [Complex.ofReal_im]; exact hreal x)
  · rw [k1', k2', cubic_stress hm _ _ _ _ _ hij, mul_zero]
    refine (congrArg (FromReal dims) ?_).mp hw
    funext k
    simp

/-- C146: where the last field is zero or one there is no elastic force: if it is so everywhere, the term vanishes. -/
theorem c146_elastic_none (el : HomoLinElast dims.prod) (hf : ∀ x, el.field x = 0 ∨ el.field x = 1) :
    el.construct = fun _ => 0 := by
  have hz : ∀ x, phaseIndicatorDeriv (el.field x) = 0 := by
    intro x
    rcases hf x with e | e <;> rw [e] <;> norm_num [phaseIndicatorDeriv]
  have h0 : fft dims (fun _ => (0 : ℂ)) = fun _ => 0 := by funext k; simp [fft]
  have hfold : ∀ {α : Type} (l : List α) (g : α → Data dims.prod → Data dims.prod) (w : Data dims.prod),
      (∀ a, g a w = w) → l.foldl (fun w a => g a w) w = w := by
    intro α l g w hg
    induction l with
    | nil => rfl
    | cons a l ih => rw [List.foldl_cons, hg, ih]
  unfold HomoLinElast.construct
  simp only [hz, mul_zero, Complex.ofReal_zero, h0]
  funext k
  rw [sub_zero]
  refine congrFun (hfold _ _ _ fun i => hfold _ _ _ fun j => ?_) k
  funext k
  simp

/-- C146: the linear system for the displacements has exactly one solution at every frequency but zero. -/
theorem c146_solvable {c11 c12 c44 : ℝ} (h12 : 0 ≤ c12) (h44 : 0 < c44) (h11 : c12 + c44 ≤ c11) (f : Fin 3 → ℝ) (hf : f ≠ 0) :
    IsUnit (Matrix.of fun j k => dispElem j k f (cubicMaterial c11 c12 c44).get : Mat3) := by
  rw [Matrix.isUnit_iff_isUnit_det, isUnit_iff_ne_zero]
  intro hdet
  obtain ⟨v, hv, hKv⟩ := Matrix.exists_mulVec_eq_zero_iff.mpr hdet
  have hpi : (0 : ℝ) < (2 * Real.pi) ^ 2 := by positivity
  have hq : ∑ m, v m * ∑ n, dispElem m n f (cubicMaterial c11 c12 c44).get * v n = 0 := by
    refine Finset.sum_eq_zero fun m _ => ?_
    have : ∑ n, dispElem m n f (cubicMaterial c11 c12 c44).get * v n = 0 := congrFun hKv m
    rw [this, mul_zero]
  have hval : ∑ m, v m * ∑ n, dispElem m n f (cubicMaterial c11 c12 c44).get * v n = (2 * Real.pi) ^ 2 *
      (c12 * (∑ m, f m * v m) ^ 2 + (c11 - c12 - c44) * (∑ m, (f m * v m) ^ 2) + c44 * (∑ j, f j ^ 2) * ∑ m, v m ^ 2) := by
    simp only [cubic_matrix, Fin.sum_univ_three]
    simp
    ring
  rw [hval] at hq
  have hpos : ∀ w : Fin 3 → ℝ, w ≠ 0 → 0 < ∑ j, w j ^ 2 := by
    intro w hw
    obtain ⟨j, hj⟩ := Function.ne_iff.mp hw
    exact Finset.sum_pos' (fun j _ => sq_nonneg _) ⟨j, Finset.mem_univ j, lt_of_le_of_ne (sq_nonneg _) (Ne.symm (pow_ne_zero 2 hj))⟩
  have a1 : 0 ≤ c12 * (∑ m, f m * v m) ^ 2 := mul_nonneg h12 (sq_nonneg _)
  have a2 : 0 ≤ (c11 - c12 - c44) * (∑ m, (f m * v m) ^ 2) :=
    mul_nonneg (by linarith) (Finset.sum_nonneg fun _ _ => sq_nonneg _)
  have a3 : 0 < c44 * (∑ j, f j ^ 2) * ∑ m, v m ^ 2 := mul_pos (mul_pos h44 (hpos f hf)) (hpos v hv)
  rcases mul_eq_zero.mp hq with e | e
  · exact hpi.ne' e
  · linarith

end Gopf.Props
