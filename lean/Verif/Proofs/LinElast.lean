import Verif.Props.Derivative
import Verif.Props.Equilibrium
import Verif.Model.LinElast
import Verif.Spec.Elastic

/-!
# Proofs about the elastic strain of an indicator function
-/

namespace Gopf.Elasticity
open Spec Pfutil Pf Props
open scoped BigOperators

variable {dims : List ℕ}

/-- The displacement as a complex linear function of the force. -/
theorem displacement_eq (force : Fin 3 → ℂ) (f : Fin 3 → ℝ) (c : Idx4 → ℝ) (j : Fin 3) :
    displacement force f c j =
      if |f 0| < tol ∧ |f 1| < tol ∧ |f 2| < tol then 0
      else ∑ k, (((dispMatrix f c)⁻¹ j k : ℝ) : ℂ) * force k := by
  unfold displacement
  split_ifs with h
  · rfl
  · refine Complex.ext ?_ ?_
    · simp [Matrix.mulVec, dotProduct, dispMatrix]
    · simp [Matrix.mulVec, dotProduct, dispMatrix]

/-- The transformed strain of a transformed indicator. -/
noncomputable def ftStrain (dims : List ℕ) (c : Idx4 → ℝ) (S : Mat3) (ind : Data dims.prod) (i j : Fin 3) :
    Data dims.prod := fun k =>
  strain (displacement (fun a => effForce S a (freq3 dims k) (ind k)) (freq3 dims k) c) (freq3 dims k) i j

/-- What the strain of a bin is for the indicator one. -/
noncomputable def strainFactor (dims : List ℕ) (c : Idx4 → ℝ) (S : Mat3) (i j : Fin 3) : Data dims.prod :=
  fun k => strain (displacement (fun a => effForce S a (freq3 dims k) 1) (freq3 dims k) c) (freq3 dims k) i j

theorem displacement_mul (S : Mat3) (f : Fin 3 → ℝ) (c : Idx4 → ℝ) (ind : ℂ) (j : Fin 3) :
    displacement (fun a => effForce S a f ind) f c j =
      displacement (fun a => effForce S a f 1) f c j * ind := by
  rw [displacement_eq, displacement_eq]
  split_ifs
  · simp
  · rw [Finset.sum_mul]
    refine Finset.sum_congr rfl fun k _ => ?_
    rw [effForce_eq, effForce_eq]; ring

theorem ftStrain_eq (c : Idx4 → ℝ) (S : Mat3) (ind : Data dims.prod) (i j : Fin 3) (k : Fin dims.prod) :
    ftStrain dims c S ind i j k = strainFactor dims c S i j k * ind k := by
  unfold ftStrain strainFactor strain
  rw [displacement_mul, displacement_mul S _ _ _ j]
  ring

theorem strain_symm (u : Fin 3 → ℂ) (f : Fin 3 → ℝ) (i j : Fin 3) : strain u f i j = strain u f j i := by
  unfold strain; ring

theorem noNyquist_neg (x : ℝ) : noNyquist (-x) = -noNyquist x := by
  unfold noNyquist
  rw [abs_neg]
  split_ifs <;> simp

/-- The factor is the same for opposite wave vectors, and real. -/
theorem strainFactor_conj (c : Idx4 → ℝ) (S : Mat3) (f : Fin 3 → ℝ) (i j : Fin 3) :
    strain (displacement (fun a => effForce S a (-f) 1) (-f) c) (-f) i j =
      (starRingEnd ℂ) (strain (displacement (fun a => effForce S a f 1) f c) f i j) := by
  have hM : dispMatrix (-f) c = dispMatrix f c := by
    ext m n
    unfold dispMatrix
    rw [Matrix.of_apply, Matrix.of_apply, dispElem_eq, dispElem_eq]
    simp
  have hd : ∀ a, displacement (fun a => effForce S a (-f) 1) (-f) c a =
      (starRingEnd ℂ) (displacement (fun a => effForce S a f 1) f c a) := by
    intro a
    rw [displacement_eq, displacement_eq, hM]
    simp only [Pi.neg_apply, abs_neg]
    split_ifs
    · simp
    · rw [map_sum]
      refine Finset.sum_congr rfl fun k _ => ?_
      rw [effForce_eq, effForce_eq, map_mul, Complex.conj_ofReal]
      congr 1
      simp [map_sum, Complex.conj_ofNat]
  unfold strain
  rw [hd, hd, Pi.neg_apply, Pi.neg_apply, noNyquist_neg, noNyquist_neg]
  simp

/-- No side of the domain is even, so that there is no highest frequency. -/
def OddSides (dims : List ℕ) : Prop := ∀ d ∈ dims, d % 2 = 1

theorem fcomp_ne_half (h : GoodDims (intDims dims)) (ho : OddSides dims) (b : Fin dims.prod) (comp : ℕ) :
    fcomp (freqOf dims b) comp ≠ 1 / 2 := by
  obtain ⟨q, -, hq, -, e⟩ := freqOf_eq h b
  rw [e, fcomp_map]
  have ho' : ∀ d ∈ intDims dims, d % 2 = 1 := by
    intro d hd
    simp only [intDims, List.mem_map] at hd
    obtain ⟨x, hx, rfl⟩ := hd
    have := ho x hx
    show (x : Int) % 2 = 1
    exact_mod_cast this
  have key : ∀ (ds q : List Int) (comp : ℕ), InBox ds q → (∀ d ∈ ds, d % 2 = 1) →
      (List.zipWith phi q ds).getD comp 0 ≠ 1 / 2 := by
    intro ds q comp hb
    induction hb generalizing comp with
    | nil => intro _; norm_num
    | @cons d x ds q h1 h2 ih =>
      intro ho
      cases comp with
      | zero =>
        simp only [List.zipWith_cons_cons, List.getD_cons_zero]
        intro e
        obtain ⟨k, hk⟩ := phi_int x d
        have hd : (d : ℚ) ≠ 0 := by
          have : 0 < d := h1.1.trans_lt h1.2
          exact_mod_cast this.ne'
        rw [e] at hk
        field_simp at hk
        have h3 : d = 2 * (x + d * k) := by exact_mod_cast hk
        have := ho d (by simp)
        omega
      | succ comp => simpa using ih comp fun d hd => ho d (by simp [hd])
  have := key _ _ comp hq ho'
  intro e
  apply this
  have : (((List.zipWith phi q (intDims dims)).getD comp 0 : ℚ) : ℝ) = ((1 / 2 : ℚ) : ℝ) := by
    rw [e]; norm_num
  exact_mod_cast this

theorem freq3_conj (h : GoodDims (intDims dims)) (ho : OddSides dims) {b c : Fin dims.prod}
    (hc : conjugateNode (intDims dims) (b.val : Int) = some (c.val : Int)) :
    freq3 dims c = -freq3 dims b := by
  funext a
  unfold freq3
  rcases fcomp_conj h hc a with e | ⟨-, e⟩
  · rw [e]; rfl
  · exact absurd e (fcomp_ne_half h ho b a)

theorem freq3_conj_quiet (h : GoodDims (intDims dims)) {b c : Fin dims.prod} (hn : ∀ a : Fin 3, freq3 dims b a ≠ 1 / 2)
    (hc : conjugateNode (intDims dims) (b.val : Int) = some (c.val : Int)) :
    freq3 dims c = -freq3 dims b := by
  funext a
  rcases fcomp_conj h hc a with e | ⟨-, e⟩
  · unfold freq3; rw [e]; rfl
  · exact absurd e (hn a)

theorem freq3_gt (h : GoodDims (intDims dims)) (b : Fin dims.prod) (j : Fin 3) : -(1 / 2) < freq3 dims b j := by
  obtain ⟨q, -, hq, -, e⟩ := freqOf_eq h b
  unfold freq3
  rw [e, fcomp_map]
  have key : ∀ (ds q : List Int) (comp : ℕ), InBox ds q → -(1 / 2) < (List.zipWith phi q ds).getD comp 0 := by
    intro ds q comp hb
    induction hb generalizing comp with
    | nil => norm_num
    | @cons d x ds q h1 h2 ih =>
      cases comp with
      | zero => simpa using (phi_range h1.1 h1.2).1
      | succ comp => simpa using ih comp
  have := (Rat.cast_lt (K := ℝ)).mpr (key _ _ j hq)
  push_cast at this
  exact this

theorem freq3_nyquist (h : GoodDims (intDims dims)) (hs : ∀ d ∈ dims, d ≤ 10 ^ 9)
    (b : Fin dims.prod) (hn : ∀ a : Fin 3, freq3 dims b a ≠ 1 / 2) (j : Fin 3) :
    tol ≤ abs (abs (freq3 dims b j) - 1 / 2) := by
  by_contra hlt
  rw [not_le] at hlt
  unfold tol at hlt
  rcases abs_cases (freq3 dims b j) with ⟨e, -⟩ | ⟨e, -⟩
  · rw [e] at hlt
    exact hn j ((nyquist_iff h hs b j).mp hlt)
  · obtain ⟨c, hc⟩ := conj_exists h b
    have := congrFun (freq3_conj_quiet h hn hc) j
    rw [e] at hlt
    have h2 : |fcomp (freqOf dims c) j - 1 / 2| < 1 / 10 ^ 10 := by
      have e3 : fcomp (freqOf dims c) j = -freq3 dims b j := this
      rw [e3]; exact hlt
    have h3 : freq3 dims c j = 1 / 2 := (nyquist_iff h hs c j).mp h2
    have h4 := freq3_gt h b j
    rw [Pi.neg_apply, h3] at this
    linarith

/-- Without even sides there is no highest frequency. -/
theorem quiet_of_odd (h : GoodDims (intDims dims)) (ho : OddSides dims) (g : Fin dims.prod → ℝ) : Quiet dims g :=
  fun k a e => absurd e (fcomp_ne_half h ho k a)

theorem quiet_cases {g : Fin dims.prod → ℝ} (hq : Quiet dims g) (k : Fin dims.prod) :
    fft dims (fun x => (g x : ℂ)) k = 0 ∨ ∀ a : Fin 3, freq3 dims k a ≠ 1 / 2 := by
  by_cases hk : ∃ a : Fin 3, freq3 dims k a = 1 / 2
  · obtain ⟨a, ha⟩ := hk
    exact Or.inl (hq k a ha)
  · exact Or.inr fun a ha => hk ⟨a, ha⟩

/-- The linear systems of all non-zero wave vectors are regular. -/
def Regular (dims : List ℕ) (c : Idx4 → ℝ) : Prop := ∀ k : Fin dims.prod,
  ¬ (|freq3 dims k 0| < tol ∧ |freq3 dims k 1| < tol ∧ |freq3 dims k 2| < tol) →
    (dispMatrix (freq3 dims k) c).det ≠ 0

/-- The strain of a real indicator is real. -/
theorem strain_real (h : GoodDims (intDims dims)) (hl : LayoutOk dims)
    (c : Idx4 → ℝ) (S : Mat3) (g : Fin dims.prod → ℝ) (hq : Quiet dims g) (i j : Fin 3) :
    IsReal fun x => ifft dims (ftStrain dims c S (fft dims fun x => (g x : ℂ)) i j) x / (dims.prod : ℂ) := by
  apply real_of_hermitian h hl
  rw [fft_surjective (pos_of_goodDims h)]
  intro b e hbe
  have hg : Hermitian dims (fft dims fun x => (g x : ℂ)) := hermitian_fft h hl fun x => by simp
  rw [ftStrain_eq, ftStrain_eq, hg b e hbe, map_mul]
  rcases quiet_cases hq b with h0 | hn
  · rw [h0]; simp
  congr 1
  unfold strainFactor
  rw [freq3_conj_quiet h hn hbe, strainFactor_conj]

/-- The strain at a node. -/
noncomputable def eps (dims : List ℕ) (c : Idx4 → ℝ) (S : Mat3) (g : Fin dims.prod → ℝ) (x : Fin dims.prod) :
    Mat3 := Matrix.of fun i j =>
  (ifft dims (ftStrain dims c S (fft dims fun x => (g x : ℂ)) i j) x / (dims.prod : ℂ)).re

theorem eps_symm (c : Idx4 → ℝ) (S : Mat3) (g : Fin dims.prod → ℝ) (x : Fin dims.prod) (i j : Fin 3) :
    eps dims c S g x i j = eps dims c S g x j i := by
  unfold eps
  simp only [Matrix.of_apply]
  have : ftStrain dims c S (fft dims fun x => (g x : ℂ)) i j =
      ftStrain dims c S (fft dims fun x => (g x : ℂ)) j i := by
    funext k; exact strain_symm _ _ _ _
  rw [this]

theorem ofReal_eps (h : GoodDims (intDims dims)) (hl : LayoutOk dims)
    (c : Idx4 → ℝ) (S : Mat3) (g : Fin dims.prod → ℝ) (hq : Quiet dims g) (x : Fin dims.prod) (i j : Fin 3) :
    ((eps dims c S g x i j : ℝ) : ℂ) =
      ifft dims (ftStrain dims c S (fft dims fun x => (g x : ℂ)) i j) x / (dims.prod : ℂ) :=
  Complex.ext (by rw [Complex.ofReal_re]; rfl)
    (by rw [Complex.ofReal_im]; exact (strain_real h hl c S g hq i j x).symm)

theorem fft_eps (h : GoodDims (intDims dims)) (hl : LayoutOk dims)
    (c : Idx4 → ℝ) (S : Mat3) (g : Fin dims.prod → ℝ) (hq : Quiet dims g) (i j : Fin 3) :
    fft dims (fun x => ((eps dims c S g x i j : ℝ) : ℂ)) =
      ftStrain dims c S (fft dims fun x => (g x : ℂ)) i j := by
  simp only [ofReal_eps h hl c S g hq]
  exact fft_surjective (pos_of_goodDims h) _

/-- The strain at a node is a linear function of the values of the indicator. -/
theorem eps_linear (c : Idx4 → ℝ) (S : Mat3) (g : Fin dims.prod → ℝ)
    (x : Fin dims.prod) (i j : Fin 3) :
    eps dims c S g x i j = ∑ y, g y * eps dims c S (Pi.single y 1) x i j := by
  unfold eps
  simp only [Matrix.of_apply]
  have e : ∀ g : Fin dims.prod → ℝ,
      ifft dims (ftStrain dims c S (fft dims fun x => (g x : ℂ)) i j) x / (dims.prod : ℂ) =
      ∑ y, (g y : ℂ) * ((∑ k, strainFactor dims c S i j k * cis (-phase dims k y) * cis (phase dims k x)) /
        (dims.prod : ℂ)) := by
    intro g
    unfold ifft
    simp only [ftStrain_eq]
    unfold fft
    simp only [Finset.mul_sum, Finset.sum_mul, Finset.sum_div]
    rw [Finset.sum_comm]
    refine Finset.sum_congr rfl fun y _ => Finset.sum_congr rfl fun k _ => ?_
    ring
  rw [e g, Complex.re_sum]
  refine Finset.sum_congr rfl fun y _ => ?_
  rw [e (Pi.single y 1)]
  generalize hG : (fun y : Fin dims.prod => (∑ k, strainFactor dims c S i j k * cis (-phase dims k y) *
    cis (phase dims k x)) / (dims.prod : ℂ)) = G
  have hGy : ∀ y : Fin dims.prod, (∑ k, strainFactor dims c S i j k * cis (-phase dims k y) *
    cis (phase dims k x)) / (dims.prod : ℂ) = G y := fun y => congrFun hG y
  simp only [hGy]
  rw [Finset.sum_eq_single y, Pi.single_eq_same]
  · simp
  · intro z _ hz; rw [Pi.single_eq_of_ne hz]; simp
  · simp

/-- The bilinear form of the energy. -/
def form (c : Idx4 → ℝ) (a b : Mat3) : ℝ := ∑ i, ∑ j, ∑ k, ∑ l, c (i, j, k, l) * a i j * b k l

theorem energyDensity_form (c : Idx4 → ℝ) (e : Mat3) : energyDensity c e = 1 / 2 * form c e e := by
  rw [energyDensity_eq, sum_idx]; rfl

theorem form_symm {c : Idx4 → ℝ} (hc : Major c) (a b : Mat3) : form c a b = form c b a := by
  unfold form
  have : ∀ i j, ∑ k, ∑ l, c (i, j, k, l) * a i j * b k l = ∑ k, ∑ l, c (k, l, i, j) * b k l * a i j := by
    intro i j
    refine Finset.sum_congr rfl fun k _ => Finset.sum_congr rfl fun l _ => ?_
    rw [← hc i j k l]; ring
  simp only [this]
  calc ∑ i, ∑ j, ∑ k, ∑ l, c (k, l, i, j) * b k l * a i j
      = ∑ i, ∑ k, ∑ j, ∑ l, c (k, l, i, j) * b k l * a i j :=
        Finset.sum_congr rfl fun i _ => Finset.sum_comm
    _ = ∑ k, ∑ i, ∑ j, ∑ l, c (k, l, i, j) * b k l * a i j := Finset.sum_comm
    _ = ∑ k, ∑ i, ∑ l, ∑ j, c (k, l, i, j) * b k l * a i j :=
        Finset.sum_congr rfl fun k _ => Finset.sum_congr rfl fun i _ => Finset.sum_comm
    _ = ∑ k, ∑ l, ∑ i, ∑ j, c (k, l, i, j) * b k l * a i j :=
        Finset.sum_congr rfl fun k _ => Finset.sum_comm

theorem form_sub_left (c : Idx4 → ℝ) (a b e : Mat3) : form c (a - b) e = form c a e - form c b e := by
  unfold form
  simp only [Matrix.sub_apply, ← Finset.sum_sub_distrib]
  refine Finset.sum_congr rfl fun i _ => Finset.sum_congr rfl fun j _ => Finset.sum_congr rfl fun k _ =>
    Finset.sum_congr rfl fun l _ => ?_
  ring

theorem form_smul_left (c : Idx4 → ℝ) (s : ℝ) (a e : Mat3) : form c (s • a) e = s * form c a e := by
  unfold form
  simp only [Matrix.smul_apply, smul_eq_mul, Finset.mul_sum]
  refine Finset.sum_congr rfl fun i _ => Finset.sum_congr rfl fun j _ => Finset.sum_congr rfl fun k _ =>
    Finset.sum_congr rfl fun l _ => ?_
  ring

theorem form_contract (r : Rank4) (a e : Mat3) :
    form r.get a e = ∑ i, ∑ j, r.contractLast e i j * a i j := by
  unfold form
  simp only [contractLast_eq, Finset.sum_mul]
  refine Finset.sum_congr rfl fun i _ => Finset.sum_congr rfl fun j _ => Finset.sum_congr rfl fun k _ =>
    Finset.sum_congr rfl fun l _ => ?_
  ring

theorem form_sub_right (c : Idx4 → ℝ) (a b e : Mat3) : form c e (a - b) = form c e a - form c e b := by
  unfold form
  simp only [Matrix.sub_apply, ← Finset.sum_sub_distrib]
  refine Finset.sum_congr rfl fun i _ => Finset.sum_congr rfl fun j _ => Finset.sum_congr rfl fun k _ =>
    Finset.sum_congr rfl fun l _ => ?_
  ring

theorem form_smul_right (c : Idx4 → ℝ) (s : ℝ) (a e : Mat3) : form c e (s • a) = s * form c e a := by
  unfold form
  simp only [Matrix.smul_apply, smul_eq_mul, Finset.mul_sum]
  refine Finset.sum_congr rfl fun i _ => Finset.sum_congr rfl fun j _ => Finset.sum_congr rfl fun k _ =>
    Finset.sum_congr rfl fun l _ => ?_
  ring

/-- A frequency below the tolerance is zero. -/
theorem freq3_small (h : GoodDims (intDims dims)) (hs : ∀ d ∈ dims, d ≤ 10 ^ 9) (b : Fin dims.prod)
    (j : Fin 3) (hlt : |freq3 dims b j| < tol) : freq3 dims b j = 0 := by
  obtain ⟨q, -, hb, -, e⟩ := freqOf_eq h b
  unfold freq3 tol at *
  rw [e, fcomp_map] at hlt ⊢
  have hlt' : |(List.zipWith phi q (intDims dims)).getD j 0| < (1 : ℚ) / 10 ^ 10 := by
    have : ((|(List.zipWith phi q (intDims dims)).getD j 0| : ℚ) : ℝ) < ((1 / 10 ^ 10 : ℚ) : ℝ) := by
      push_cast; convert hlt using 2
    exact_mod_cast this
  suffices hq : (List.zipWith phi q (intDims dims)).getD j 0 = 0 by rw [hq]; norm_num
  clear e hlt
  have hs' : ∀ d ∈ intDims dims, d ≤ 10 ^ 9 := by
    intro d hd
    simp only [intDims, List.mem_map] at hd
    obtain ⟨x, hx, rfl⟩ := hd
    have := hs x hx
    show (x : Int) ≤ 10 ^ 9
    exact_mod_cast this
  generalize j.val = c at hlt' ⊢
  generalize intDims dims = ds at hb hs' hlt' ⊢
  induction hb generalizing c with
  | nil => rfl
  | @cons d x ds q h1 h2 ih =>
    cases c with
    | zero =>
      simp only [List.zipWith_cons_cons, List.getD_cons_zero] at hlt' ⊢
      have hd : (0:ℚ) < d := by exact_mod_cast lt_of_le_of_lt h1.1 h1.2
      have hd9 : (d:ℚ) ≤ 10 ^ 9 := by exact_mod_cast hs' d (by simp)
      obtain ⟨k, hk⟩ := phi_int x d
      have e2 : phi x d = ((x + k * d : Int) : ℚ) / d := by
        rw [hk]; push_cast; field_simp
      rw [e2, abs_div, abs_of_pos hd, div_lt_iff₀ hd] at hlt'
      have h3 : (|((x + k * d : Int) : ℚ)|) < 1 := by
        refine lt_of_lt_of_le hlt' ?_
        rw [div_mul_eq_mul_div, div_le_one (by positivity)]
        linarith
      rw [← Int.cast_abs] at h3
      have h4 : |x + k * d| < 1 := by exact_mod_cast h3
      rw [e2, Int.abs_lt_one_iff.mp h4]
      simp
    | succ c =>
      simp only [List.zipWith_cons_cons, List.getD_cons_succ] at hlt' ⊢
      exact ih c (fun d hd => hs' d (by simp [hd])) hlt'

/-- Virtual work: the stress of an indicator does no work on the strain of any displacement field. -/
theorem virtual_work (h : GoodDims (intDims dims)) (hl : LayoutOk dims)
    (hs : ∀ d ∈ dims, d ≤ 10 ^ 9) (r : Rank4) (hmr : MinorRight r.get) (hml : MinorLeft r.get)
    (hM : Major r.get) (hdet : Regular dims r.get) (misfit : Mat3) (g : Fin dims.prod → ℝ)
    (hq : Quiet dims g) (w : Fin 3 → Data dims.prod) (δ : Fin dims.prod → Mat3)
    (hδ : ∀ i j k, (∀ a : Fin 3, freq3 dims k a ≠ 1 / 2) → fft dims (fun x => ((δ x i j : ℝ) : ℂ)) k =
      Complex.I * Real.pi * ((freq3 dims k j : ℂ) * w i k + (freq3 dims k i : ℂ) * w j k)) :
    ∑ x, form r.get (eps dims r.get (r.contractLast misfit) g x - g x • misfit) (δ x) = 0 := by
  have hpos := pos_of_goodDims h
  set S := r.contractLast misfit with hS
  -- the stress
  let sig : Fin 3 → Fin 3 → Data dims.prod := fun i j x =>
    ∑ k, ∑ l, (r.get (i, j, k, l) : ℂ) * ((eps dims r.get S g x k l : ℝ) - (misfit k l : ℂ) * (g x : ℂ))
  have e1 : ∀ x, ((form r.get (eps dims r.get S g x - g x • misfit) (δ x) : ℝ) : ℂ) =
      ∑ i, ∑ j, sig i j x * (starRingEnd ℂ) ((δ x i j : ℝ) : ℂ) := by
    intro x
    rw [form_symm hM]
    unfold form
    simp only [sig, Complex.ofReal_sum, Finset.sum_mul, Complex.conj_ofReal]
    refine Finset.sum_congr rfl fun i _ => Finset.sum_congr rfl fun j _ => Finset.sum_congr rfl fun k _ =>
      Finset.sum_congr rfl fun l _ => ?_
    simp only [Matrix.sub_apply, Matrix.smul_apply, smul_eq_mul]
    push_cast
    ring
  have hsig : ∀ i j k, fft dims (sig i j) k = ∑ a, ∑ b, (r.get (i, j, a, b) : ℂ) *
      (ftStrain dims r.get S (fft dims fun x => (g x : ℂ)) a b k -
        (misfit a b : ℂ) * fft dims (fun x => (g x : ℂ)) k) := by
    intro i j k
    have : ∀ a b, fft dims (fun x => ((eps dims r.get S g x a b : ℝ) : ℂ)) k =
        ftStrain dims r.get S (fft dims fun x => (g x : ℂ)) a b k := fun a b =>
      congrFun (fft_eps h hl r.get S g hq a b) k
    simp only [← this]
    simp only [sig, fft, Finset.sum_mul, Finset.mul_sum, ← Finset.sum_sub_distrib]
    rw [Finset.sum_comm]
    refine Finset.sum_congr rfl fun a _ => ?_
    rw [Finset.sum_comm]
    refine Finset.sum_congr rfl fun b _ => ?_
    refine Finset.sum_congr rfl fun x _ => ?_
    ring
  have hzero : ∀ k, ∑ i, ∑ j, fft dims (sig i j) k *
      (starRingEnd ℂ) (fft dims (fun x => ((δ x i j : ℝ) : ℂ)) k) = 0 := by
    intro k
    rcases quiet_cases hq k with h0 | hn
    · have hs0 : ∀ i j, fft dims (sig i j) k = 0 := by
        intro i j
        rw [hsig]
        simp only [ftStrain_eq, h0]
        simp
      simp [hs0]
    simp only [hδ _ _ k hn]
    by_cases hf : |freq3 dims k 0| < tol ∧ |freq3 dims k 1| < tol ∧ |freq3 dims k 2| < tol
    · have hz : ∀ j, freq3 dims k j = 0 := by
        intro j
        refine freq3_small h hs k j ?_
        fin_cases j
        exacts [hf.1, hf.2.1, hf.2.2]
      simp [hz]
    · have hny := freq3_nyquist h hs k hn
      have heq := c79_equilibrium r hmr misfit (fft dims (fun x => (g x : ℂ)) k) hf hny (hdet k hf)
      simp only at heq
      have hbal : ∀ i, ∑ j, (freq3 dims k j : ℂ) * fft dims (sig i j) k = 0 := by
        intro i
        rw [← heq i]
        refine Finset.sum_congr rfl fun j _ => ?_
        rw [hsig]
        rfl
      have hsym : ∀ i j, fft dims (sig i j) k = fft dims (sig j i) k := by
        intro i j
        rw [hsig, hsig]
        refine Finset.sum_congr rfl fun a _ => Finset.sum_congr rfl fun b _ => ?_
        rw [hml]
      set u : Fin 3 → ℂ := fun i => w i k with hu
      have hst : ∀ i j, (starRingEnd ℂ) (Complex.I * Real.pi *
          ((freq3 dims k j : ℂ) * w i k + (freq3 dims k i : ℂ) * w j k)) =
          -(Complex.I * Real.pi) * ((freq3 dims k j : ℂ) * (starRingEnd ℂ) (u i) +
            (freq3 dims k i : ℂ) * (starRingEnd ℂ) (u j)) := by
        intro i j
        simp only [map_add, map_mul, Complex.conj_I, Complex.conj_ofReal, hu]
        ring
      simp only [hst]
      have z1 : ∑ i, ∑ j, (starRingEnd ℂ) (u i) * ((freq3 dims k j : ℂ) * fft dims (sig i j) k) = 0 := by
        refine Finset.sum_eq_zero fun i _ => ?_
        rw [← Finset.mul_sum, hbal, mul_zero]
      have z2 : ∑ i, ∑ j, (starRingEnd ℂ) (u j) * ((freq3 dims k i : ℂ) * fft dims (sig i j) k) = 0 := by
        rw [Finset.sum_comm]
        refine Finset.sum_eq_zero fun j _ => ?_
        rw [← Finset.mul_sum]
        simp only [hsym _ j]
        rw [hbal, mul_zero]
      have e2 : ∑ i, ∑ j, fft dims (sig i j) k * (-(Complex.I * Real.pi) *
          ((freq3 dims k j : ℂ) * (starRingEnd ℂ) (u i) + (freq3 dims k i : ℂ) * (starRingEnd ℂ) (u j))) =
          -(Complex.I * Real.pi) *
            (∑ i, ∑ j, (starRingEnd ℂ) (u i) * ((freq3 dims k j : ℂ) * fft dims (sig i j) k)) +
          -(Complex.I * Real.pi) *
            (∑ i, ∑ j, (starRingEnd ℂ) (u j) * ((freq3 dims k i : ℂ) * fft dims (sig i j) k)) := by
        simp only [Finset.mul_sum, ← Finset.sum_add_distrib]
        refine Finset.sum_congr rfl fun i _ => Finset.sum_congr rfl fun j _ => ?_
        ring
      rw [e2, z1, z2]
      simp
  have hfinal : ((∑ x, form r.get (eps dims r.get S g x - g x • misfit) (δ x) : ℝ) : ℂ) = 0 := by
    rw [Complex.ofReal_sum]
    simp only [e1]
    rw [Finset.sum_comm]
    have hN := prod_ne_zero' hpos
    apply mul_left_cancel₀ hN
    rw [mul_zero, Finset.mul_sum]
    have : ∀ i, (dims.prod : ℂ) * ∑ x, ∑ j, sig i j x * (starRingEnd ℂ) ((δ x i j : ℝ) : ℂ) =
        ∑ k, ∑ j, fft dims (sig i j) k *
          (starRingEnd ℂ) (fft dims (fun x => ((δ x i j : ℝ) : ℂ)) k) := by
      intro i
      rw [Finset.sum_comm, Finset.mul_sum, Finset.sum_comm (s := Finset.univ (α := Fin dims.prod))]
      exact Finset.sum_congr rfl fun j _ => (parseval hpos _ _).symm
    simp only [this]
    rw [Finset.sum_comm]
    exact Finset.sum_eq_zero fun k _ => hzero k
  exact_mod_cast hfinal

end Gopf.Elasticity
