import Verif.Props.ElasticReal
import Verif.Proofs.ElasticAny

/-!
# C104: the energy of a region on domains with even sides
-/

namespace Gopf.Props
open Spec Pfutil Pf Elasticity
open scoped BigOperators

variable {dims : List ℕ}

/-- C104: on every domain, with odd or even sides, the elastic energy of a region exists and lies between zero and the
energy of the misfit strain; the returned energy times the volume is the energy of a displacement field and so never
below it. -/
theorem c104_upper (h : GoodDims (intDims dims)) (hl : LayoutOk dims)
    (hs : ∀ d ∈ dims, d ≤ 10 ^ 9) (r : Rank4) (hr : StableMaterial r.get) (misfit : Mat3)
    (hm : misfit.transpose = misfit) (ind : Fin dims.prod → ℝ) (h01 : ∀ x, ind x = 0 ∨ ind x = 1)
    (hv : ∃ x, ind x = 1) :
    ∃ E, IsElasticEnergy dims r.get misfit ind E ∧ 0 ≤ E ∧ E ≤ energyDensity r.get misfit * ∑ x, ind x ∧
      E ≤ homogeneousModulusEnergy dims ind misfit r * ∑ x, ind x := by
  have hV : 0 < ∑ x, ind x := by
    obtain ⟨x, hx⟩ := hv
    exact Finset.sum_pos' (fun y _ => by rcases h01 y with e | e <;> rw [e]; norm_num) ⟨x, Finset.mem_univ _, by
        rw [hx]; norm_num⟩
  have hE := least_isLeast h hl hs r hr misfit ind
  refine ⟨_, hE, ?_, ?_, ?_⟩
  · refine Finset.sum_nonneg fun x _ => ?_
    rw [energyDensity_form]
    exact mul_nonneg (by norm_num) (form_nonneg hr _)
  · have h2 := hE.2 ⟨fun _ _ => 0, rfl⟩
    have e : ∀ x, energyDensity r.get (symGrad dims (fun _ _ => 0) x - ind x • misfit) =
        energyDensity r.get misfit * ind x := by
      intro x
      rw [symGrad_zero, energyDensity_form, energyDensity_form, form_sub_left, form_sub_right, form_sub_right,
        form_smul_left, form_smul_right, form_smul_right]
      have : form r.get 0 0 = 0 ∧ form r.get 0 misfit = 0 ∧ form r.get misfit 0 = 0 := by simp [form]
      rw [this.1, this.2.1, this.2.2]
      simp only [form_smul_left]
      rcases h01 x with e | e <;> rw [e] <;> ring
    simp only [e, ← Finset.mul_sum] at h2
    exact h2
  · rw [energy_strains r misfit hm ind h01, div_mul_cancel₀ _ hV.ne']
    refine hE.2 ⟨dispField dims r.get (r.contractLast misfit) ind, ?_⟩
    simp only [eps_eq_symGrad_any h hl hs]

/-! ### A region for which it is larger -/

/-- The misfit strain of the example: a shear in the plane. -/
noncomputable def shearMisfit : Mat3 := !![0, 1, 0; 1, 0, 0; 0, 0, 0]

/-- Stripes of width two along the first axis of a 4 times 2 grid, shifted by two from one column to the other; one half
inside and minus one half outside. -/
noncomputable def stripes (x : Fin [4, 2].prod) : ℝ :=
  if x.val = 0 ∨ x.val = 2 ∨ x.val = 5 ∨ x.val = 7 then 1 / 2 else -1 / 2

/-- The stripes moved by one node. -/
noncomputable def movedStripes (x : Fin [4, 2].prod) : ℝ :=
  if x.val = 0 ∨ x.val = 3 ∨ x.val = 5 ∨ x.val = 6 then 1 / 2 else -1 / 2

/-- The region. -/
noncomputable def stripedRegion (x : Fin [4, 2].prod) : ℝ := stripes x + 1 / 2

theorem phase42 : ∀ k x : Fin [4, 2].prod, phase [4, 2] k x.val =
    (((k.val / 2) * (x.val / 2) + 2 * (k.val % 2) * (x.val % 2) : ℕ) : ℚ) / 4 := by decide +kernel

theorem cis_quarter (m : ℕ) : cis (-((m : ℚ) / 4)) = (-Complex.I) ^ m := by
  have c1 : cis (-(1 / 4)) = -Complex.I := by
    have : cis (1 / 4) = Complex.I := by
      unfold cis
      refine Eq.trans ?_ Complex.exp_pi_div_two_mul_I
      congr 1
      push_cast
      ring
    have h := cis_neg_mul (1 / 4)
    rw [this] at h
    have h2 : Complex.I * Complex.I = -1 := Complex.I_mul_I
    linear_combination (-Complex.I) * h + cis (-(1 / 4)) * h2
  induction m with
  | zero => simp [cis_zero]
  | succ m ih =>
    rw [pow_succ, ← ih, ← c1, ← cis_add]
    congr 1
    push_cast
    ring

theorem fft42 (F : Fin [4, 2].prod → ℂ) (k : Fin [4, 2].prod) : fft [4, 2] F k =
    F ⟨0, by decide⟩ + F ⟨1, by decide⟩ * (-Complex.I) ^ (2 * (k.val % 2)) +
    F ⟨2, by decide⟩ * (-Complex.I) ^ (k.val / 2) + F ⟨3, by decide⟩ * (-Complex.I) ^ (k.val / 2 + 2 * (k.val % 2)) +
    F ⟨4, by decide⟩ * (-Complex.I) ^ (k.val / 2 * 2) + F ⟨5, by decide⟩ * (-Complex.I) ^ (k.val / 2 * 2 + 2 * (k.val % 2)) +
    F ⟨6, by decide⟩ * (-Complex.I) ^ (k.val / 2 * 3) + F ⟨7, by decide⟩ * (-Complex.I) ^ (k.val / 2 * 3 + 2 * (k.val % 2)) := by
  have h8 : ∀ F : Fin [4, 2].prod → ℂ, ∑ k, F k = F ⟨0, by decide⟩ + F ⟨1, by decide⟩ + F ⟨2, by decide⟩ +
      F ⟨3, by decide⟩ + F ⟨4, by decide⟩ + F ⟨5, by decide⟩ + F ⟨6, by decide⟩ + F ⟨7, by decide⟩ :=
    fun F => Fin.sum_univ_eight F
  have e : ∀ x : Fin [4, 2].prod, F x * cis (-phase [4, 2] k x.val) =
      F x * (-Complex.I) ^ ((k.val / 2) * (x.val / 2) + 2 * (k.val % 2) * (x.val % 2)) := by
    intro x
    rw [phase42, cis_quarter]
  unfold fft
  rw [Finset.sum_congr rfl fun x _ => e x, h8]
  norm_num

theorem stripes_hat (k : Fin [4, 2].prod) : fft [4, 2] (fun x => ((stripes x : ℝ) : ℂ)) k =
    if k.val = 3 then 2 - 2 * Complex.I else if k.val = 7 then 2 + 2 * Complex.I else 0 := by
  rw [fft42]
  have h2 := Complex.I_sq
  have h3 : Complex.I ^ 3 = -Complex.I := Complex.I_pow_three
  obtain ⟨k, hk⟩ := k
  have hk' : k < 8 := hk
  interval_cases k <;> simp [stripes] <;> ring_nf <;> (try simp [h2, h3, Complex.I_pow_four]) <;> (try ring_nf)

theorem moved_hat (k : Fin [4, 2].prod) : fft [4, 2] (fun x => ((movedStripes x : ℝ) : ℂ)) k =
    if k.val = 3 then 2 + 2 * Complex.I else if k.val = 7 then 2 - 2 * Complex.I else 0 := by
  rw [fft42]
  have h2 := Complex.I_sq
  have h3 : Complex.I ^ 3 = -Complex.I := Complex.I_pow_three
  obtain ⟨k, hk⟩ := k
  have hk' : k < 8 := hk
  interval_cases k <;> simp [movedStripes] <;> ring_nf <;> (try simp [h2, h3, Complex.I_pow_four]) <;> (try ring_nf)

/-- The displacement of a bin for the shear. -/
theorem shear_displacement {f : Fin 3 → ℝ} (h2 : f 2 = 0) (hf : ¬ (|f 0| < tol ∧ |f 1| < tol ∧ |f 2| < tol)) (H : ℂ) :
    displacement (fun a => effForce ((isotropicOf (2 / 3) 1).contractLast shearMisfit) a f H) f (isotropicOf (2 / 3) 1).get =
      fun a => if a = 2 then 0 else -Complex.I * H / Real.pi *
        (((if a = 0 then f 1 ^ 3 else f 0 ^ 3) / (f 0 ^ 2 + f 1 ^ 2) ^ 2 : ℝ) : ℂ) := by
  symm
  rw [c57_displacement (by norm_num) (by norm_num) hf]
  have hne : f 0 ^ 2 + f 1 ^ 2 ≠ 0 := by
    intro e
    have e0 : f 0 = 0 := by nlinarith [sq_nonneg (f 0), sq_nonneg (f 1)]
    have e1 : f 1 = 0 := by nlinarith [sq_nonneg (f 0), sq_nonneg (f 1)]
    apply hf
    rw [e0, e1, h2]
    simp [tol]
  have hnc : ((f 0 : ℝ) : ℂ) ^ 2 + ((f 1 : ℝ) : ℂ) ^ 2 ≠ 0 := by exact_mod_cast hne
  have hpi : ((Real.pi : ℝ) : ℂ) ≠ 0 := by exact_mod_cast Real.pi_ne_zero
  have hst : (isotropicOf (2 / 3) 1).contractLast shearMisfit = !![0, 2, 0; 2, 0, 0; 0, 0, 0] := by
    ext i j
    rw [contractLast_eq]
    simp only [isotropicOf_get, Fin.sum_univ_three, Matrix.one_apply, shearMisfit]
    fin_cases i <;> fin_cases j <;> simp <;> norm_num
  have hel : ∀ m n, dispElem m n f (isotropicOf (2 / 3) 1).get = (2 * Real.pi) ^ 2 *
      ((if m = n then f 0 ^ 2 + f 1 ^ 2 else 0) + f m * f n) := by
    intro m n
    rw [dispElem_eq]
    congr 1
    simp only [isotropicOf_get, Fin.sum_univ_three, Matrix.one_apply, h2]
    fin_cases m <;> fin_cases n <;> simp [h2] <;> ring
  intro m
  simp only [hel, Fin.sum_univ_three]
  rw [effForce_eq, hst, Fin.sum_univ_three]
  fin_cases m <;> simp [h2] <;> field_simp <;> ring

theorem region_hat (k : Fin [4, 2].prod) (hk : k.val ≠ 0) : fft [4, 2] (fun x => ((stripedRegion x : ℝ) : ℂ)) k =
    fft [4, 2] (fun x => ((stripes x : ℝ) : ℂ)) k := by
  have e : (fun x => ((stripedRegion x : ℝ) : ℂ)) = fun x => ((stripes x : ℝ) : ℂ) + 1 / 2 := by
    funext x
    unfold stripedRegion
    push_cast
    ring
  rw [e, fft_add]
  have : fft [4, 2] (fun _ => (1 / 2 : ℂ)) k = 0 := by
    rw [fft42]
    have h2 := Complex.I_sq
    have h3 : Complex.I ^ 3 = -Complex.I := Complex.I_pow_three
    obtain ⟨k, hk8⟩ := k
    have hk' : k < 8 := hk8
    dsimp only at hk
    interval_cases k <;> simp at hk ⊢ <;> ring_nf <;> (try simp [h2, h3, Complex.I_pow_four]) <;> (try ring_nf)
  rw [this, add_zero]

/-- The spectrum of the calculated strain: the shear is 1/25 of the stripes, the stretch along the first axis is
imaginary. -/
theorem stripes_strain (i j : Fin 3) (k : Fin [4, 2].prod) :
    ftStrain [4, 2] (isotropicOf (2 / 3) 1).get ((isotropicOf (2 / 3) 1).contractLast shearMisfit)
      (fft [4, 2] fun x => ((stripedRegion x : ℝ) : ℂ)) i j k =
    if i = 0 ∧ j = 0 then -Complex.I * (16 / 25) * fft [4, 2] (fun x => ((movedStripes x : ℝ) : ℂ)) k
    else if (i = 0 ∧ j = 1) ∨ (i = 1 ∧ j = 0) then 1 / 25 * fft [4, 2] (fun x => ((stripes x : ℝ) : ℂ)) k
    else 0 := by
  by_cases hk0 : k.val = 0
  · have hz : freq3 [4, 2] k = fun _ => 0 := by
      rw [freq3_table, hk0]
      funext c
      fin_cases c <;> simp [freqTable]
    unfold ftStrain
    have h0 : fft [4, 2] (fun x => ((stripes x : ℝ) : ℂ)) k = 0 := by
      rw [stripes_hat, hk0]
      rfl
    have h1 : fft [4, 2] (fun x => ((movedStripes x : ℝ) : ℂ)) k = 0 := by
      rw [moved_hat, hk0]
      rfl
    rw [hz, h0, h1]
    simp [strain, noNyquist_zero]
  unfold ftStrain
  rw [region_hat k hk0]
  by_cases hk : k.val = 3 ∨ k.val = 7
  · have hf2 : freq3 [4, 2] k 2 = 0 := by rw [freq3_table]; simp
    have hf1 : freq3 [4, 2] k 1 = 1 / 2 := by
      rw [freq3_table]
      rcases hk with e | e <;> rw [e] <;> norm_num [freqTable]
    have hpi : ((Real.pi : ℝ) : ℂ) ≠ 0 := by exact_mod_cast Real.pi_ne_zero
    have hI := Complex.I_sq
    rw [shear_displacement hf2 (by
      rintro ⟨-, h1, -⟩
      rw [hf1] at h1
      unfold tol at h1
      norm_num [abs_of_pos] at h1)]
    unfold strain
    have n1 : noNyquist (freq3 [4, 2] k 1) = 0 := by rw [hf1, noNyquist_half]
    have n2 : noNyquist (freq3 [4, 2] k 2) = 0 := by rw [hf2, noNyquist_zero]
    have hcase : ∀ s : ℝ, s ^ 2 = 1 → freq3 [4, 2] k 0 = s / 4 → noNyquist (freq3 [4, 2] k 0) = s / 4 →
        fft [4, 2] (fun x => ((movedStripes x : ℝ) : ℂ)) k = (s : ℂ) * Complex.I * fft [4, 2] (fun x => ((stripes x : ℝ) : ℂ)) k →
        Complex.I * ((Real.pi * noNyquist (freq3 [4, 2] k j) : ℝ) : ℂ) *
            (if i = 2 then 0 else -Complex.I * fft [4, 2] (fun x => ((stripes x : ℝ) : ℂ)) k / Real.pi *
              (((if i = 0 then freq3 [4, 2] k 1 ^ 3 else freq3 [4, 2] k 0 ^ 3) /
                (freq3 [4, 2] k 0 ^ 2 + freq3 [4, 2] k 1 ^ 2) ^ 2 : ℝ) : ℂ)) +
          Complex.I * ((Real.pi * noNyquist (freq3 [4, 2] k i) : ℝ) : ℂ) *
            (if j = 2 then 0 else -Complex.I * fft [4, 2] (fun x => ((stripes x : ℝ) : ℂ)) k / Real.pi *
              (((if j = 0 then freq3 [4, 2] k 1 ^ 3 else freq3 [4, 2] k 0 ^ 3) /
                (freq3 [4, 2] k 0 ^ 2 + freq3 [4, 2] k 1 ^ 2) ^ 2 : ℝ) : ℂ)) =
        if i = 0 ∧ j = 0 then -Complex.I * (16 / 25) * fft [4, 2] (fun x => ((movedStripes x : ℝ) : ℂ)) k
        else if (i = 0 ∧ j = 1) ∨ (i = 1 ∧ j = 0) then 1 / 25 * fft [4, 2] (fun x => ((stripes x : ℝ) : ℂ)) k
        else 0 := by
      intro s hs f0 n0 hm
      rw [hm]
      generalize fft [4, 2] (fun x => ((stripes x : ℝ) : ℂ)) k = H
      have hD : (freq3 [4, 2] k 0 ^ 2 + freq3 [4, 2] k 1 ^ 2) ^ 2 = 25 / 256 := by
        rw [f0, hf1, div_pow, hs]; norm_num
      have hc1 : freq3 [4, 2] k 1 ^ 3 / (25 / 256) = 32 / 25 := by rw [hf1]; norm_num
      have hc0 : freq3 [4, 2] k 0 ^ 3 / (25 / 256) = 4 / 25 * s := by
        rw [f0, div_pow, show s ^ 3 = s ^ 2 * s by ring, hs]; ring
      rw [hD, ]
      have hsc : (s : ℂ) ^ 2 = 1 := by exact_mod_cast hs
      fin_cases i <;> fin_cases j <;> simp [n1, n2, n0, hc1, hc0] <;> field_simp <;> ring_nf <;>
        (try simp only [hI, hsc]) <;> (try ring_nf)
    rcases hk with e | e
    · refine hcase 1 (by norm_num) ?_ ?_ ?_
      · rw [freq3_table, e]; norm_num [freqTable]
      · have : freq3 [4, 2] k 0 = 1 / 4 := by rw [freq3_table, e]; norm_num [freqTable]
        rw [this, noNyquist_quarter]
      · rw [stripes_hat, moved_hat, if_pos e, if_pos e]
        push_cast
        linear_combination 2 * hI
    · refine hcase (-1) (by norm_num) ?_ ?_ ?_
      · rw [freq3_table, e]; norm_num [freqTable]
      · have : freq3 [4, 2] k 0 = -1 / 4 := by rw [freq3_table, e]; norm_num [freqTable]
        rw [this, noNyquist_negQuarter]
      · have h3 : ¬ k.val = 3 := by rw [e]; decide
        rw [stripes_hat, moved_hat, if_neg h3, if_neg h3, if_pos e, if_pos e]
        push_cast
        linear_combination 2 * hI
  · have h0 : fft [4, 2] (fun x => ((stripes x : ℝ) : ℂ)) k = 0 := by
      rw [stripes_hat, if_neg fun e => hk (Or.inl e), if_neg fun e => hk (Or.inr e)]
    have h1 : fft [4, 2] (fun x => ((movedStripes x : ℝ) : ℂ)) k = 0 := by
      rw [moved_hat, if_neg fun e => hk (Or.inl e), if_neg fun e => hk (Or.inr e)]
    rw [h0, h1]
    have hd : ∀ a, displacement (fun a => effForce ((isotropicOf (2 / 3) 1).contractLast shearMisfit) a (freq3 [4, 2] k) 0)
        (freq3 [4, 2] k) (isotropicOf (2 / 3) 1).get a = 0 := by
      intro a
      rw [displacement_mul, mul_zero]
    unfold strain
    rw [hd, hd]
    simp

theorem good42 : GoodDims (intDims [4, 2]) := by unfold GoodDims; decide

/-- The calculated strain. -/
theorem stripes_eps (x : Fin [4, 2].prod) : eps [4, 2] (isotropicOf (2 / 3) 1).get
    ((isotropicOf (2 / 3) 1).contractLast shearMisfit) stripedRegion x = (1 / 25 * stripes x) • shearMisfit := by
  have hp := pos_of_goodDims good42
  have hN : (([4, 2].prod : ℕ) : ℂ) ≠ 0 := prod_ne_zero' hp
  have back : ∀ (F : Data [4, 2].prod), ifft [4, 2] (fft [4, 2] F) x / (([4, 2].prod : ℕ) : ℂ) = F x := by
    intro F
    have := congrFun (fft_injective hp (fft_surjective hp (fft [4, 2] F))) x
    exact this
  ext i j
  unfold eps
  rw [Matrix.of_apply, Matrix.smul_apply, smul_eq_mul]
  by_cases h00 : i = 0 ∧ j = 0
  · have e : ftStrain [4, 2] (isotropicOf (2 / 3) 1).get ((isotropicOf (2 / 3) 1).contractLast shearMisfit)
        (fft [4, 2] fun x => ((stripedRegion x : ℝ) : ℂ)) i j =
        fft [4, 2] fun x => -Complex.I * (16 / 25) * ((movedStripes x : ℝ) : ℂ) := by
      funext k
      rw [stripes_strain, if_pos h00, fft_smul]
    rw [e, back, h00.1, h00.2]
    have : -Complex.I * (16 / 25) * ((movedStripes x : ℝ) : ℂ) = ((-(16 / 25) * movedStripes x : ℝ) : ℂ) * Complex.I := by
      push_cast; ring
    rw [this, Complex.re_ofReal_mul, Complex.I_re]
    simp [shearMisfit]
  · by_cases h01 : (i = 0 ∧ j = 1) ∨ (i = 1 ∧ j = 0)
    · have e : ftStrain [4, 2] (isotropicOf (2 / 3) 1).get ((isotropicOf (2 / 3) 1).contractLast shearMisfit)
          (fft [4, 2] fun x => ((stripedRegion x : ℝ) : ℂ)) i j = fft [4, 2] fun x => 1 / 25 * ((stripes x : ℝ) : ℂ) := by
        funext k
        rw [stripes_strain, if_neg h00, if_pos h01, fft_smul]
      rw [e, back]
      have : 1 / 25 * ((stripes x : ℝ) : ℂ) = ((1 / 25 * stripes x : ℝ) : ℂ) := by push_cast; ring
      rw [this, Complex.ofReal_re]
      rcases h01 with ⟨rfl, rfl⟩ | ⟨rfl, rfl⟩ <;> simp [shearMisfit]
    · have e : ftStrain [4, 2] (isotropicOf (2 / 3) 1).get ((isotropicOf (2 / 3) 1).contractLast shearMisfit)
          (fft [4, 2] fun x => ((stripedRegion x : ℝ) : ℂ)) i j = fft [4, 2] fun _ => 0 := by
        funext k
        rw [stripes_strain, if_neg h00, if_neg h01]
        simp [fft]
      rw [e, back]
      have : shearMisfit i j = 0 := by
        fin_cases i <;> fin_cases j <;> simp [shearMisfit] at h00 h01 ⊢
      rw [this]
      simp

theorem isotropic_plain : isotropic (2 / 3) 0 = isotropicOf (2 / 3) 1 := by
  unfold isotropic shear
  norm_num

/-- The energy density of the material of the example. -/
theorem plain_energy (e : Mat3) (he : e.transpose = e) :
    energyDensity (isotropicOf (2 / 3) 1).get e = ∑ i, ∑ j, e i j ^ 2 := by
  rw [← isotropic_plain, c53_energy _ _ e he]
  unfold shear
  norm_num

theorem shear_symm : shearMisfit.transpose = shearMisfit := by
  ext i j
  fin_cases i <;> fin_cases j <;> simp [shearMisfit]

theorem shear_energy (a : ℝ) : energyDensity (isotropicOf (2 / 3) 1).get (a • shearMisfit) = 2 * a ^ 2 := by
  rw [plain_energy _ (by rw [Matrix.transpose_smul, shear_symm])]
  simp [Fin.sum_univ_three, shearMisfit]
  ring

theorem sum42 (F : Fin [4, 2].prod → ℝ) : ∑ k, F k = F ⟨0, by decide⟩ + F ⟨1, by decide⟩ + F ⟨2, by decide⟩ +
    F ⟨3, by decide⟩ + F ⟨4, by decide⟩ + F ⟨5, by decide⟩ + F ⟨6, by decide⟩ + F ⟨7, by decide⟩ := Fin.sum_univ_eight F

theorem region_volume : ∑ x, stripedRegion x = 4 := by
  rw [sum42]
  simp [stripedRegion, stripes]
  norm_num

/-- The strain of any displacement field sums to zero. -/
theorem symGrad_total (u : Fin 3 → Fin [4, 2].prod → ℝ) (i j : Fin 3) : ∑ x, symGrad [4, 2] u x i j = 0 := by
  have h := fft_symGrad_fq good42 trivial (by decide) u i j ⟨0, by decide⟩
  have hz : ∀ a, fq [4, 2] ⟨0, by decide⟩ a = 0 := by
    intro a
    unfold fq
    rw [freq3_table]
    fin_cases a <;> simp [freqTable, noNyquist_zero]
  rw [fft_zero_bin _ ⟨0, by decide⟩ rfl, hz, hz] at h
  simp only [Complex.ofReal_zero, zero_mul, add_zero, mul_zero] at h
  rw [← Complex.ofReal_sum] at h
  exact_mod_cast h

/-- The displacement that relaxes the stripes. -/
noncomputable def slip (a : Fin 3) (x : Fin [4, 2].prod) : ℝ := if a = 1 then -(4 / Real.pi) * movedStripes x else 0

theorem slip_strain (x : Fin [4, 2].prod) : symGrad [4, 2] slip x = stripes x • shearMisfit := by
  have hpi : ((Real.pi : ℝ) : ℂ) ≠ 0 := by exact_mod_cast Real.pi_ne_zero
  have h0 : ∀ k, fft [4, 2] (fun _ => ((0 : ℝ) : ℂ)) k = 0 := by intro k; simp [fft]
  have hs : ∀ a k, fft [4, 2] (fun y => ((slip a y : ℝ) : ℂ)) k =
      if a = 1 then -(4 / Real.pi) * fft [4, 2] (fun y => ((movedStripes y : ℝ) : ℂ)) k else 0 := by
    intro a k
    by_cases ha : a = 1
    · rw [if_pos ha, ← fft_smul]
      simp only [slip, if_pos ha]
      push_cast
      rfl
    · rw [if_neg ha]
      simp only [slip, if_neg ha]
      exact h0 k
  have hq : ∀ k : Fin [4, 2].prod, fq [4, 2] k 2 = 0 := by
    intro k
    unfold fq
    rw [freq3_table]
    simp [noNyquist_zero]
  have hq1 : ∀ k : Fin [4, 2].prod, (fq [4, 2] k 1 : ℂ) * fft [4, 2] (fun y => ((movedStripes y : ℝ) : ℂ)) k = 0 := by
    intro k
    rw [moved_hat]
    by_cases h3 : k.val = 3
    · have : fq [4, 2] k 1 = 0 := by
        unfold fq
        rw [show freq3 [4, 2] k 1 = 1 / 2 by rw [freq3_table, h3]; norm_num [freqTable], noNyquist_half]
      rw [this]; simp
    · by_cases h7 : k.val = 7
      · have : fq [4, 2] k 1 = 0 := by
          unfold fq
          rw [show freq3 [4, 2] k 1 = 1 / 2 by rw [freq3_table, h7]; norm_num [freqTable], noNyquist_half]
        rw [this]; simp
      · rw [if_neg h3, if_neg h7, mul_zero]
  have hq0 : ∀ k : Fin [4, 2].prod, (fq [4, 2] k 0 : ℂ) * fft [4, 2] (fun y => ((movedStripes y : ℝ) : ℂ)) k =
      Complex.I / 4 * fft [4, 2] (fun y => ((stripes y : ℝ) : ℂ)) k := by
    intro k
    have hI := Complex.I_sq
    rw [moved_hat, stripes_hat]
    by_cases h3 : k.val = 3
    · have : fq [4, 2] k 0 = 1 / 4 := by
        unfold fq
        rw [show freq3 [4, 2] k 0 = 1 / 4 by rw [freq3_table, h3]; norm_num [freqTable], noNyquist_quarter]
      rw [this, if_pos h3, if_pos h3]
      push_cast
      linear_combination (1 / 2) * hI
    · by_cases h7 : k.val = 7
      · have : fq [4, 2] k 0 = -1 / 4 := by
          unfold fq
          rw [show freq3 [4, 2] k 0 = -1 / 4 by rw [freq3_table, h7]; norm_num [freqTable], noNyquist_negQuarter]
        rw [this, if_neg h3, if_neg h3, if_pos h7, if_pos h7]
        push_cast
        linear_combination (-1 / 2) * hI
      · rw [if_neg h3, if_neg h3, if_neg h7, if_neg h7, mul_zero, mul_zero]
  have key : ∀ i j : Fin 3, (fun x => ((symGrad [4, 2] slip x i j : ℝ) : ℂ)) = fun x => (shearMisfit i j : ℂ) * ((stripes x : ℝ) : ℂ) := by
    intro i j
    apply fft_injective (pos_of_goodDims good42)
    funext k
    rw [fft_symGrad_fq good42 trivial (by decide), fft_smul, hs, hs]
    have a0 := hq0 k
    have a1 := hq1 k
    have a2 := hq k
    have hI := Complex.I_sq
    have e1 : Complex.I * Real.pi * ((fq [4, 2] k 0 : ℂ) * (-(4 / Real.pi) *
        fft [4, 2] (fun y => ((movedStripes y : ℝ) : ℂ)) k)) = fft [4, 2] (fun y => ((stripes y : ℝ) : ℂ)) k := by
      have : Complex.I * Real.pi * ((fq [4, 2] k 0 : ℂ) * (-(4 / Real.pi) *
          fft [4, 2] (fun y => ((movedStripes y : ℝ) : ℂ)) k)) = -4 * Complex.I * ((fq [4, 2] k 0 : ℂ) *
            fft [4, 2] (fun y => ((movedStripes y : ℝ) : ℂ)) k) := by
        field_simp
      rw [this, a0]
      linear_combination (-fft [4, 2] (fun y => ((stripes y : ℝ) : ℂ)) k) * hI
    have e2 : (fq [4, 2] k 1 : ℂ) * (-(4 / Real.pi) * fft [4, 2] (fun y => ((movedStripes y : ℝ) : ℂ)) k) = 0 := by
      linear_combination (-(4 / Real.pi : ℂ)) * a1
    generalize fft [4, 2] (fun y => ((movedStripes y : ℝ) : ℂ)) k = M at *
    generalize fft [4, 2] (fun y => ((stripes y : ℝ) : ℂ)) k = T at *
    fin_cases i <;> fin_cases j <;> simp [shearMisfit, a2] <;> first | linear_combination e1 | simpa using a1
  ext i j
  have := congrFun (key i j) x
  rw [Matrix.smul_apply, smul_eq_mul, mul_comm]
  exact_mod_cast this

/-- C104: on a 4 times 2 grid, for an isotropic material (bulk modulus 2/3, Poisson ratio 0) and a misfit strain that is a
shear, there is a region of four nodes whose elastic energy is exactly 4, one per node, while the returned energy per
volume is 1201/625, almost twice as much. -/
theorem c104_even : (∀ x, stripedRegion x = 0 ∨ stripedRegion x = 1) ∧ ∑ x, stripedRegion x = 4 ∧
    StableMaterial (isotropic (2 / 3) 0).get ∧ shearMisfit.transpose = shearMisfit ∧
    IsElasticEnergy [4, 2] (isotropic (2 / 3) 0).get shearMisfit stripedRegion 4 ∧
    homogeneousModulusEnergy [4, 2] stripedRegion shearMisfit (isotropic (2 / 3) 0) = 1201 / 625 := by
  have h01 : ∀ x, stripedRegion x = 0 ∨ stripedRegion x = 1 := by
    intro x
    unfold stripedRegion stripes
    split_ifs <;> norm_num
  refine ⟨h01, region_volume, c103_isotropic (by norm_num) (by norm_num) (by norm_num), shear_symm, ?_, ?_⟩
  · rw [isotropic_plain]
    constructor
    · refine ⟨slip, ?_⟩
      have e : ∀ x, symGrad [4, 2] slip x - stripedRegion x • shearMisfit = (-1 / 2 : ℝ) • shearMisfit := by
        intro x
        rw [slip_strain, ← sub_smul]
        congr 1
        unfold stripedRegion
        ring
      simp only [e, shear_energy]
      rw [sum42]
      norm_num
    · rintro W ⟨u, rfl⟩
      have hsym : ∀ x, (symGrad [4, 2] u x - stripedRegion x • shearMisfit).transpose =
          symGrad [4, 2] u x - stripedRegion x • shearMisfit := by
        intro x
        rw [Matrix.transpose_sub, Matrix.transpose_smul, shear_symm]
        congr 1
        ext i j
        rw [Matrix.transpose_apply]
        unfold symGrad
        rw [Matrix.of_apply, Matrix.of_apply, add_comm]
      have hle : ∀ x, 2 * (stripedRegion x - symGrad [4, 2] u x 0 1 - 1 / 4) ≤
          energyDensity (isotropicOf (2 / 3) 1).get (symGrad [4, 2] u x - stripedRegion x • shearMisfit) := by
        intro x
        rw [plain_energy _ (hsym x)]
        have s10 := congrFun (congrFun (hsym x) 0) 1
        rw [Matrix.transpose_apply] at s10
        have e01 : (symGrad [4, 2] u x - stripedRegion x • shearMisfit) 0 1 = symGrad [4, 2] u x 0 1 - stripedRegion x := by
          simp [shearMisfit]
        simp only [Fin.sum_univ_three]
        rw [s10, e01]
        generalize symGrad [4, 2] u x - stripedRegion x • shearMisfit = A
        generalize symGrad [4, 2] u x 0 1 = a
        generalize stripedRegion x = g
        nlinarith [sq_nonneg (a - g + 1 / 2), sq_nonneg (A 0 0), sq_nonneg (A 0 2), sq_nonneg (A 1 1), sq_nonneg (A 1 2),
          sq_nonneg (A 2 0), sq_nonneg (A 2 1), sq_nonneg (A 2 2)]
      have h := Finset.sum_le_sum fun (x : Fin [4, 2].prod) (_ : x ∈ Finset.univ) => hle x
      refine le_trans (le_of_eq ?_) h
      rw [← Finset.mul_sum, Finset.sum_sub_distrib, Finset.sum_sub_distrib, region_volume, symGrad_total, sum42]
      norm_num
  · rw [energy_strains _ _ shear_symm _ h01, isotropic_plain, region_volume]
    have e : ∀ x, eps [4, 2] (isotropicOf (2 / 3) 1).get ((isotropicOf (2 / 3) 1).contractLast shearMisfit) stripedRegion x -
        stripedRegion x • shearMisfit = (1 / 25 * stripes x - stripedRegion x) • shearMisfit := by
      intro x
      rw [stripes_eps, sub_smul]
    simp only [e, shear_energy]
    rw [sum42]
    simp [stripedRegion, stripes]
    norm_num

end Gopf.Props
