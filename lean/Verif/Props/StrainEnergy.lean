import Verif.Props.LinElast
import Verif.Proofs.ElasticAny
import Verif.Model.StrainEnergy

/-!
# C119: the strain energy of an ellipsoidal inclusion
-/

namespace Gopf.Props
open Spec Pfutil Pf Elasticity
open scoped BigOperators

variable {n : ℕ}

/-! ## Specification -/

/-- What is assumed of the transform of another module: both directions are linear over the real numbers and
the inverse undoes the transform up to the number of nodes. -/
structure LawfulTransform {n : ℕ} (ft : Transform n) : Prop where
  fft_smul : ∀ (s : ℝ) (x : Data n), ft.fft (fun i => (s : ℂ) * x i) = fun k => (s : ℂ) * ft.fft x k
  ifft_smul : ∀ (s : ℝ) (x : Data n), ft.ifft (fun i => (s : ℂ) * x i) = fun k => (s : ℂ) * ft.ifft x k
  ifft_add : ∀ (x y : Data n), ft.ifft (fun i => x i + y i) = fun k => ft.ifft x k + ft.ifft y k
  inverse : ∀ (x : Data n) (i : Fin n), ft.ifft (ft.fft x) i = (n : ℂ) * x i

/-- The transform of a domain of this library. -/
noncomputable def dftTransform (dims : List ℕ) : Transform dims.prod := ⟨fft dims, ifft dims, freq3 dims⟩

theorem dft_lawful {dims : List ℕ} (h : ∀ d ∈ dims, 0 < d) : LawfulTransform (dftTransform dims) := by
  refine ⟨fun s x => ?_, fun s x => ?_, fun x y => ?_, fun x i => ifft_fft h x i⟩
  · funext k
    simp only [dftTransform, fft, Finset.mul_sum]
    exact Finset.sum_congr rfl fun _ _ => by ring
  · funext k
    simp only [dftTransform, ifft, Finset.mul_sum]
    exact Finset.sum_congr rfl fun _ _ => by ring
  · funext k
    simp only [dftTransform, ifft, ← Finset.sum_add_distrib]
    exact Finset.sum_congr rfl fun _ _ => by ring

example : LawfulTransform (dftTransform [5, 5, 5]) := dft_lawful (by decide)

/-- The tensor of a list of six engineering strains: `xx, yy, zz, yz, xz, xy`. -/
noncomputable def engineeringStrain (e : Fin 6 → ℝ) : Mat3 := Matrix.of fun i j =>
  if i = j then e (vo i j) else e (vo i j) / 2

/-- The volume of an ellipsoid. -/
noncomputable def ellipsoidVolume (a b c : ℝ) : ℝ := 4 / 3 * Real.pi * (a * b * c)

/-- The constants of a 6×6 matrix of moduli. -/
def voigtTensor (V : Matrix (Fin 6) (Fin 6) ℝ) (t : Idx4) : ℝ := V (vo t.1 t.2.1) (vo t.2.2.1 t.2.2.2)

open Classical in
/-- The indicator of the ellipsoid with half axes `a`, `b`, `c` about the voxel `m`. -/
noncomputable def ellipsoidIndicator (place : Fin n → ℤ × ℤ × ℤ) (m : ℤ) (a b c : ℝ) (x : Fin n) : ℝ :=
  if (((place x).1 : ℝ) - m) ^ 2 / a ^ 2 + (((place x).2.1 : ℝ) - m) ^ 2 / b ^ 2 +
    (((place x).2.2 : ℝ) - m) ^ 2 / c ^ 2 ≤ 1 then 1 else 0

/-- `u` is a displacement field of least energy. -/
def Relaxed (dims : List ℕ) (c : Idx4 → ℝ) (misfit : Mat3) (h : Fin dims.prod → ℝ)
    (u : Fin 3 → Fin dims.prod → ℝ) : Prop :=
  IsElasticEnergy dims c misfit h (∑ x, energyDensity c (symGrad dims u x - h x • misfit))

/-! ## Lemmas -/

/-- All moduli multiplied by the same number. -/
def scaled (c : ℝ) (r : Rank4) : Rank4 := ⟨fun i => c * r.data i⟩

private theorem scaled_get (c : ℝ) (r : Rank4) (t : Idx4) : (scaled c r).get t = c * r.get t := rfl

private theorem scaled_set (c : ℝ) (r : Rank4) (t : Idx4) (v : ℝ) :
    (scaled c r).set t (c * v) = scaled c (r.set t v) := by
  unfold scaled Rank4.set
  congr 1
  funext i
  simp only [Function.update_apply]
  split_ifs <;> rfl

private theorem voigtStep_scaled (c : ℝ) (r : Rank4) (x : ℝ × ℕ) :
    voigtStep (scaled c r) (c * x.1, x.2) = (voigtStep r x).map (scaled c) := by
  unfold voigtStep
  cases voigtMap (x.2 / 6) with
  | none => rfl
  | some i1 =>
    cases voigtMap (x.2 % 6) with
    | none => rfl
    | some i2 =>
      simp only [Option.bind_eq_bind, Option.bind_some, Option.pure_def, Option.map_some, scaled_set]

private theorem foldlM_scaled (c : ℝ) (l : List (ℝ × ℕ)) (r : Rank4) :
    (l.map fun x : ℝ × ℕ => (c * x.1, x.2)).foldlM voigtStep (scaled c r) =
      (l.foldlM voigtStep r).map (scaled c) := by
  induction l generalizing r with
  | nil => rfl
  | cons x l ih =>
    rw [List.map_cons, List.foldlM_cons, List.foldlM_cons, voigtStep_scaled]
    cases voigtStep r x with
    | none => rfl
    | some r' => simpa using ih r'

private theorem fromFlatVoigt_scaled (c : ℝ) (v : List ℝ) :
    fromFlatVoigt (v.map fun x : ℝ => c * x) = (fromFlatVoigt v).map (scaled c) := by
  unfold fromFlatVoigt
  rw [← foldlM_scaled, List.zipIdx_map]
  congr 1
  unfold scaled newRank4
  simp

private theorem contract_scaled (c s : ℝ) (r : Rank4) (m : Mat3) (i j : Fin 3) :
    (scaled c r).contractLast (s • m) i j = c * s * r.contractLast m i j := by
  rw [contractLast_eq, contractLast_eq, Finset.mul_sum]
  refine Finset.sum_congr rfl fun k _ => ?_
  rw [Finset.mul_sum]
  refine Finset.sum_congr rfl fun l _ => ?_
  rw [scaled_get, Matrix.smul_apply, smul_eq_mul]; ring

private theorem dispMatrix_scaled (c : ℝ) (r : Rank4) (f : Fin 3 → ℝ) :
    dispMatrix f (scaled c r).get = c • dispMatrix f r.get := by
  ext i j
  simp only [dispMatrix, Matrix.smul_apply, Matrix.of_apply, dispElem, scaled_get, smul_eq_mul]
  simp only [List.finRange_succ, List.finRange_zero, List.foldl_cons, List.foldl_nil, List.map_cons, List.map_nil]
  ring

private theorem inv_scaled (c : ℝ) (hc : c ≠ 0) (M : Mat3) : (c • M)⁻¹ = c⁻¹ • M⁻¹ := by
  rw [Matrix.inv_def, Matrix.inv_def, Matrix.det_smul, Matrix.adjugate_smul, smul_smul, smul_smul]
  congr 1
  simp only [Fintype.card_fin, Ring.inverse_eq_inv']
  rw [mul_inv]
  field_simp

private theorem displacement_scaled (c s : ℝ) (hc : c ≠ 0) (r : Rank4) (F : Fin 3 → ℂ) (f : Fin 3 → ℝ)
    (j : Fin 3) :
    displacement (fun a => ((c * s : ℝ) : ℂ) * F a) f (scaled c r).get j = (s : ℂ) * displacement F f r.get j := by
  rw [displacement_eq, displacement_eq]
  split_ifs
  · simp
  · rw [dispMatrix_scaled, inv_scaled c hc, Finset.mul_sum]
    refine Finset.sum_congr rfl fun k _ => ?_
    rw [Matrix.smul_apply, smul_eq_mul]
    have : (c : ℂ) ≠ 0 := by exact_mod_cast hc
    push_cast
    field_simp

private theorem displacement_zero (r : Idx4 → ℝ) (f : Fin 3 → ℝ) : displacement (fun _ => 0) f r = fun _ => 0 := by
  funext j
  rw [displacement_eq]
  simp

private theorem misfitForce_scaled (ft : Transform n) (c s : ℝ) (r : Rank4) (m : Mat3) (ind : Data n) :
    misfitForce ft (scaled c r) (s • m) ind = fun k a => ((c * s : ℝ) : ℂ) * misfitForce ft r m ind k a := by
  funext k a
  unfold misfitForce
  rw [effForce_eq, effForce_eq]
  simp only [contract_scaled, Fin.sum_univ_three]
  push_cast
  ring

private theorem displacements_scaled (ft : Transform n) (c s : ℝ) (hc : c ≠ 0) (r : Rank4)
    (F : Fin n → Fin 3 → ℂ) :
    displacements ft (scaled c r) (fun k a => ((c * s : ℝ) : ℂ) * F k a) =
      fun k a => (s : ℂ) * displacements ft r F k a := by
  funext k a
  exact displacement_scaled c s hc r (F k) (ft.freq k) a

private theorem realStrain_scaled {ft : Transform n} (hft : LawfulTransform ft) (s : ℝ) (u : Fin n → Fin 3 → ℂ)
    (i j : Fin 3) (x : Fin n) :
    realStrain ft (fun k a => (s : ℂ) * u k a) i j x = s * realStrain ft u i j x := by
  unfold realStrain
  have : (fun k => strain (fun a => (s : ℂ) * u k a) (ft.freq k) i j) =
      fun k => (s : ℂ) * strain (u k) (ft.freq k) i j := by
    funext k
    unfold strain
    ring
  rw [this, hft.ifft_smul, Complex.re_ofReal_mul]
  ring

private theorem perturbedPart_scaled (c s : ℝ) (r : Rank4) (f : Fin 3 → ℝ) (a i j : Fin 3) (z : ℂ) :
    perturbedPart (scaled c r).get f a i j ((s : ℂ) * z) = ((c * s : ℝ) : ℂ) * perturbedPart r.get f a i j z := by
  unfold perturbedPart
  simp only [scaled_get, List.finRange_succ, List.finRange_zero, List.foldl_cons, List.foldl_nil, List.map_cons,
    List.map_nil]
  push_cast
  ring

private theorem perturbedForce_scaled (c s : ℝ) (r : Rank4) (f : Fin 3 → ℝ) (a : Fin 3) (S : Fin 3 → Fin 3 → ℂ) :
    perturbedForce (scaled c r).get f (fun i j => (s : ℂ) * S i j) a =
      ((c * s : ℝ) : ℂ) * perturbedForce r.get f S a := by
  unfold perturbedForce
  simp only [perturbedPart_scaled]
  have h1 : ∀ (l : List (Fin 3)) (g : Fin 3 → ℂ) (z : ℂ), l.foldl (fun (acc : ℂ) j => acc - ((c * s : ℝ) : ℂ) * g j)
      (((c * s : ℝ) : ℂ) * z) = ((c * s : ℝ) : ℂ) * l.foldl (fun (acc : ℂ) j => acc - g j) z := by
    intro l g
    induction l with
    | nil => intro z; rfl
    | cons j l ih => intro z; rw [List.foldl_cons, List.foldl_cons, ← ih, mul_sub]
  have h2 : ∀ (l : List (Fin 3)) (z : ℂ), l.foldl (fun (acc : ℂ) i =>
      ((List.finRange 3).filter (i ≤ ·)).foldl (fun (acc : ℂ) j => acc - ((c * s : ℝ) : ℂ) *
        perturbedPart r.get f a i j (S i j)) acc) (((c * s : ℝ) : ℂ) * z) = ((c * s : ℝ) : ℂ) *
      l.foldl (fun (acc : ℂ) i => ((List.finRange 3).filter (i ≤ ·)).foldl (fun (acc : ℂ) j => acc -
        perturbedPart r.get f a i j (S i j)) acc) z := by
    intro l
    induction l with
    | nil => intro z; rfl
    | cons i l ih =>
      intro z
      rw [List.foldl_cons, List.foldl_cons, h1 _ (fun j => perturbedPart r.get f a i j (S i j)), ih]
  have := h2 (List.finRange 3) 0
  rwa [mul_zero] at this

private theorem perturbedForces_scaled {ft : Transform n} (hft : LawfulTransform ft) (c s : ℝ) (m : Mat3)
    (u : Fin n → Fin 3 → ℂ) (shape : Fin n → ℝ) (r : Rank4) :
    perturbedForces ft (s • m) (fun k a => (s : ℂ) * u k a) shape (scaled c r) =
      fun k a => ((c * s : ℝ) : ℂ) * perturbedForces ft m u shape r k a := by
  funext k a
  unfold perturbedForces
  rw [← perturbedForce_scaled]
  congr 1
  funext i j
  have : (fun x => ((((s • m) i j - realStrain ft (fun k a => (s : ℂ) * u k a) i j x) * shape x : ℝ) : ℂ)) =
      fun x => (s : ℂ) * (((m i j - realStrain ft u i j x) * shape x : ℝ) : ℂ) := by
    funext x
    rw [realStrain_scaled hft, Matrix.smul_apply, smul_eq_mul]
    push_cast
    ring
  rw [this, hft.fft_smul]

private theorem diffMatProp_scaled (c : ℝ) (r : Rank4) (inc : Option Rank4) :
    diffMatProp (scaled c r) (inc.map (scaled c)) = scaled c (diffMatProp r inc) := by
  cases inc with
  | none => simp [diffMatProp, scaled, newRank4]
  | some q => simp [diffMatProp, scaled, mul_sub]

private theorem corrected_scaled {ft : Transform n} (hft : LawfulTransform ft) (c s : ℝ) (hc : c ≠ 0) (r : Rank4)
    (inc : Option Rank4) (b : Bool) (m : Mat3) (shape : Fin n → ℝ) (u : Fin n → Fin 3 → ℂ) :
    correctedDisplacements ft (scaled c r) (inc.map (scaled c)) b (s • m) shape (fun k a => (s : ℂ) * u k a) =
      fun k a => (s : ℂ) * correctedDisplacements ft r inc b m shape u k a := by
  unfold correctedDisplacements
  rw [Option.isSome_map]
  split_ifs
  · rw [diffMatProp_scaled, perturbedForces_scaled hft, displacements_scaled ft c s hc]
    funext k a
    ring
  · rfl

private theorem inclusionStrains_scaled {ft : Transform n} (hft : LawfulTransform ft) (c s : ℝ) (hc : c ≠ 0)
    (r : Rank4) (inc : Option Rank4) (b : Bool) (m : Mat3) (ind : Fin n → ℝ) (x : Fin n) :
    inclusionStrains ft (scaled c r) (inc.map (scaled c)) b (s • m) ind x =
      s • inclusionStrains ft r inc b m ind x := by
  unfold inclusionStrains
  rw [misfitForce_scaled, displacements_scaled ft c s hc, corrected_scaled hft c s hc]
  ext i j
  simp only [elasticStrain, Matrix.of_apply, Matrix.smul_apply, smul_eq_mul]
  rw [realStrain_scaled hft]
  split_ifs
  · ring
  · rfl

private theorem energyDensity_scaled (c s : ℝ) (r : Rank4) (e : Mat3) :
    energyDensity (scaled c r).get (s • e) = c * s ^ 2 * energyDensity r.get e := by
  rw [energyDensity_form, energyDensity_form, form_smul_left, form_smul_right]
  have : form (scaled c r).get e e = c * form r.get e e := by
    unfold form
    simp only [scaled_get, Finset.mul_sum]
    refine Finset.sum_congr rfl fun i _ => Finset.sum_congr rfl fun j _ => Finset.sum_congr rfl fun k _ =>
      Finset.sum_congr rfl fun l _ => ?_
    ring
  rw [this]; ring

private theorem totalEnergy_scaled (g : Bool) (c s : ℝ) (r d : Rank4) (e : Fin n → Mat3) :
    totalEnergy g (scaled c r) (scaled c d) (fun x => s • e x) = c * s ^ 2 * totalEnergy g r d e := by
  unfold totalEnergy
  simp only [energyDensity_scaled, ← Finset.mul_sum]
  split_ifs <;> ring

private theorem misfitMatrix_scaled (s : ℝ) (v : List ℝ) :
    misfitMatrix (v.map fun x : ℝ => s * x) = (misfitMatrix v).map (s • ·) := by
  unfold misfitMatrix
  simp only [List.getElem?_map]
  cases v[0]? <;> try rfl
  cases v[1]? <;> try rfl
  cases v[2]? <;> try rfl
  cases v[5]? <;> try rfl
  cases v[4]? <;> try rfl
  cases v[3]? <;> try rfl
  simp only [Option.map_some, Option.bind_eq_bind, Option.bind_some, Option.pure_def]
  congr 1
  ext i j
  fin_cases i <;> fin_cases j <;> simp <;> ring

/-- The input with the misfit strain multiplied by `s` and all moduli multiplied by `c`. -/
def scaledInput (c s : ℝ) (p : StrainEnergyInput) : StrainEnergyInput :=
  { p with
    misfit := p.misfit.map fun x : ℝ => s * x
    matPropMatrix := p.matPropMatrix.map fun v => v.map fun x : ℝ => c * x
    matPropInc := p.matPropInc.map fun v => v.map fun x : ℝ => c * x }

/-- C119: the energy is proportional to the square of the misfit strain and to the moduli, with and without
moduli of the inclusion and the correction. -/
theorem c119_scaling {ft : Transform n} (hft : LawfulTransform ft) (place : Fin n → ℤ × ℤ × ℤ)
    (p : StrainEnergyInput) (c s : ℝ) (hc : c ≠ 0) :
    calculateStrainEnergy ft place (scaledInput c s p) =
      (calculateStrainEnergy ft place p).map fun E => c * s ^ 2 * E := by
  unfold calculateStrainEnergy
  have h1 : fromFlatVoigt ((scaledInput c s p).matPropMatrix.getD []) =
      (fromFlatVoigt (p.matPropMatrix.getD [])).map (scaled c) := by
    rw [← fromFlatVoigt_scaled]
    cases h : p.matPropMatrix <;> simp [scaledInput, h]
  have h2 : inclusionConstants (scaledInput c s p) = (inclusionConstants p).map (Option.map (scaled c)) := by
    unfold inclusionConstants scaledInput
    cases h : p.matPropInc with
    | none => rfl
    | some v =>
      simp only [Option.map_some, fromFlatVoigt_scaled]
      cases fromFlatVoigt v <;> rfl
  have h3 : misfitMatrix (scaledInput c s p).misfit = (misfitMatrix p.misfit).map (s • ·) :=
    misfitMatrix_scaled s p.misfit
  rw [h1, h2, h3]
  cases fromFlatVoigt (p.matPropMatrix.getD []) with
  | none => rfl
  | some r =>
    cases misfitMatrix p.misfit with
    | none => rfl
    | some m =>
      cases inclusionConstants p with
      | none => rfl
      | some inc =>
        simp only [Option.map_some, Option.bind_eq_bind, Option.bind_some, Option.pure_def]
        have h4 : (scaledInput c s p).matPropMatrix.isSome = p.matPropMatrix.isSome := by
          unfold scaledInput; rw [Option.isSome_map]
        have h5 := funext fun x => inclusionStrains_scaled hft c s hc r inc p.applyPerturbation m
          (ellipsoid place p.domainSize p.halfA p.halfB p.halfC) x
        have h6 : (scaledInput c s p).applyPerturbation = p.applyPerturbation ∧
          (scaledInput c s p).domainSize = p.domainSize ∧ (scaledInput c s p).halfA = p.halfA ∧
          (scaledInput c s p).halfB = p.halfB ∧ (scaledInput c s p).halfC = p.halfC := ⟨rfl, rfl, rfl, rfl, rfl⟩
        rw [h4, h6.1, h6.2.1, h6.2.2.1, h6.2.2.2.1, h6.2.2.2.2, diffMatProp_scaled, h5, totalEnergy_scaled,
          mul_div_assoc]

/-- One number for the whole list of moduli, for example a change of units from GPa to 10 GPa. -/
example : (scaledInput (1 / 10) 2 ⟨4, 4, 4, [1, 0, 0, 0, 0, 0], some [50], none, 16, false⟩) =
    ⟨4, 4, 4, [2, 0, 0, 0, 0, 0], some [5], none, 16, false⟩ := by
  simp [scaledInput]; norm_num

/-! ## The value of the energy -/

private theorem misfit_value (e : Fin 6 → ℝ) : misfitMatrix (List.ofFn e) = some (engineeringStrain e) := by
  unfold misfitMatrix
  simp only [List.ofFn_succ, List.ofFn_zero]
  simp only [List.getElem?_cons_zero, List.getElem?_cons_succ, Option.bind_eq_bind, Option.bind_some,
    Option.pure_def, Option.some.injEq]
  ext i j
  unfold engineeringStrain
  fin_cases i <;> fin_cases j <;> simp [vo] <;> ring_nf

private theorem shape_value {ft : Transform n} (hft : LawfulTransform ft) (ind : Fin n → ℝ) (x : Fin n) :
    (ft.ifft (ft.fft fun x => ((ind x : ℝ) : ℂ)) x / ((n : ℝ) : ℂ)).re = ind x := by
  have hn : (n : ℂ) ≠ 0 := by
    have : 0 < n := x.pos
    exact_mod_cast this.ne'
  rw [hft.inverse, Complex.ofReal_natCast, mul_comm, mul_div_assoc, div_self hn, mul_one, Complex.ofReal_re]

private theorem ellipsoid_value (place : Fin n → ℤ × ℤ × ℤ) (N : ℤ) (a b c : ℝ) :
    ellipsoid place N a b c = ellipsoidIndicator place (N.tdiv 2) a b c := by
  funext x
  unfold ellipsoid ellipsoidVoxel ellipsoidIndicator
  simp only [div_pow, Int.cast_sub]

private theorem engineering_symm (e : Fin 6 → ℝ) (i j : Fin 3) : engineeringStrain e i j = engineeringStrain e j i := by
  fin_cases i <;> fin_cases j <;> rfl

private theorem strains_value {dims : List ℕ} (h : ∀ d ∈ dims, 0 < d) (r : Rank4) (inc : Option Rank4) (b : Bool)
    (hb : inc = none ∨ b = false) (misfit : Mat3) (hm : ∀ i j, misfit i j = misfit j i) (ind : Fin dims.prod → ℝ)
    (h01 : ∀ x, ind x = 0 ∨ ind x = 1) (x : Fin dims.prod) :
    inclusionStrains (dftTransform dims) r inc b misfit ind x =
      eps dims r.get (r.contractLast misfit) ind x - ind x • misfit := by
  unfold inclusionStrains
  have hc : ¬ (inc.isSome ∧ b = true) := by
    rcases hb with rfl | rfl <;> simp
  have hmm : ∀ (F : Fin 3 → Fin 3 → ℝ), (∀ i j, F i j = F j i) → ∀ a b, F (min a b) (max a b) = F a b := by
    intro F hF a b
    rcases le_total a b with hab | hab
    · rw [min_eq_left hab, max_eq_right hab]
    · rw [min_eq_right hab, max_eq_left hab, hF]
  have hre : ∀ i j, realStrain (dftTransform dims) (displacements (dftTransform dims) r (misfitForce
      (dftTransform dims) r misfit ((dftTransform dims).fft fun x => ((ind x : ℝ) : ℂ)))) i j x =
        eps dims r.get (r.contractLast misfit) ind x i j := by
    intro i j
    unfold eps ftStrain realStrain
    rw [Matrix.of_apply, Complex.div_natCast_re]
    rfl
  ext a b
  rw [show (fun x => ((dftTransform dims).ifft ((dftTransform dims).fft fun x => ((ind x : ℝ) : ℂ)) x /
    ((dims.prod : ℝ) : ℂ)).re) = ind from funext fun x => shape_value (dft_lawful h) ind x]
  unfold correctedDisplacements
  rw [if_neg hc]
  unfold elasticStrain
  simp only [Matrix.of_apply]
  rw [hre, hmm _ (fun i j => eps_symm r.get _ ind x i j), hmm (fun i j => misfit i j) hm]
  rw [Matrix.sub_apply, Matrix.smul_apply, smul_eq_mul]
  rcases h01 x with e | e <;> rw [e] <;> norm_num

private theorem indicator_01 (place : Fin n → ℤ × ℤ × ℤ) (m : ℤ) (a b c : ℝ) (x : Fin n) :
    ellipsoidIndicator place m a b c x = 0 ∨ ellipsoidIndicator place m a b c x = 1 := by
  unfold ellipsoidIndicator
  split_ifs <;> simp

private theorem volume_value (a b c : ℝ) : 4 * Real.pi * a * b * c / 3 = ellipsoidVolume a b c := by
  unfold ellipsoidVolume; ring

private theorem get_value {V : Matrix (Fin 6) (Fin 6) ℝ} {r : Rank4} (h : fromFlatVoigt (flat6 V) = some r) :
    r.get = voigtTensor V := by
  obtain ⟨r', h', hg⟩ := c54_value V
  obtain rfl : r' = r := Option.some.inj (h'.symm.trans h)
  funext ⟨i, j, k, l⟩
  exact hg i j k l

private theorem energy_add (a b : Idx4 → ℝ) (e : Mat3) :
    energyDensity a e + energyDensity (fun t => b t - a t) e = energyDensity b e := by
  simp only [energyDensity_eq, ← mul_add, ← Finset.sum_add_distrib]
  refine congrArg (fun z : ℝ => 1 / 2 * z) (Finset.sum_congr rfl fun t _ => ?_)
  ring

private theorem zero_energy (e : Mat3) : energyDensity newRank4.get e = 0 := by
  rw [energyDensity_eq]
  simp [newRank4, Rank4.get]

private theorem half_value (N : ℕ) : (N : ℤ).tdiv 2 = (N : ℤ) / 2 := Int.tdiv_eq_ediv_of_nonneg (by omega)

private theorem good_cube {N : ℕ} (hN : 0 < N) : GoodDims (intDims [N, N, N]) := by
  refine ⟨Or.inr rfl, ?_⟩
  intro d hd
  simp only [intDims, List.map_cons, List.map_nil, List.mem_cons, List.not_mem_nil, or_false, or_self] at hd
  rw [hd]
  exact Int.ofNat_lt.mpr hN

private theorem layout_cube {N : ℕ} : LayoutOk [N, N, N] := Or.inr (Or.inr (Or.inr (Or.inr ⟨rfl, rfl⟩)))

private theorem odd_cube {N : ℕ} (hN : N % 2 = 1) : OddSides [N, N, N] := by
  intro d hd
  simp only [List.mem_cons, List.not_mem_nil, or_false] at hd
  omega

private theorem small_cube {N : ℕ} (hs : N ≤ 10 ^ 9) : ∀ d ∈ [N, N, N], d ≤ 10 ^ 9 := by
  intro d hd
  simp only [List.mem_cons, List.not_mem_nil, or_false] at hd
  omega

private theorem short_voigt (v : List ℝ) (h : v.length ≤ 36) : ∃ r, fromFlatVoigt v = some r := by
  unfold fromFlatVoigt
  have hx : ∀ x ∈ v.zipIdx, x.2 < 36 := by
    rintro ⟨x, k⟩ hx
    have := (List.mem_zipIdx' hx).1
    simp only; omega
  generalize newRank4 = r at *
  generalize v.zipIdx = l at hx
  induction l generalizing r with
  | nil => exact ⟨r, rfl⟩
  | cons x l ih =>
    rw [List.foldlM_cons]
    have h1 : x.2 / 6 < 6 := by have := hx x (by simp); omega
    have h2 : x.2 % 6 < 6 := by omega
    obtain ⟨i1, e1⟩ : ∃ i, voigtMap (x.2 / 6) = some i := by
      unfold voigtMap
      exact ⟨_, List.getElem?_eq_getElem (by simpa using h1)⟩
    obtain ⟨i2, e2⟩ : ∃ i, voigtMap (x.2 % 6) = some i := by
      unfold voigtMap
      exact ⟨_, List.getElem?_eq_getElem (by simpa using h2)⟩
    unfold voigtStep
    simp only [e1, e2, Option.bind_eq_bind, Option.bind_some, Option.pure_def]
    exact ih _ fun y hy => hx y (by simp [hy])

/-- A pair of directions with a Voigt number. -/
private def pairOf (p : Fin 6) : Fin 3 × Fin 3 := ![(0, 0), (1, 1), (2, 2), (1, 2), (0, 2), (0, 1)] p

/-- C119: if the indicator of the ellipsoid has no content at the highest frequency, then without moduli of the inclusion the result is the elastic energy of the ellipsoid with the misfit
strain, the least one over all displacement fields, divided by the volume of the ellipsoid. -/
theorem c119_homogeneous_quiet {N : ℕ} (hN : 0 < N) (hs : N ≤ 10 ^ 9) (place : Fin [N, N, N].prod → ℤ × ℤ × ℤ)
    (a b c : ℝ) (e : Fin 6 → ℝ) (V : Matrix (Fin 6) (Fin 6) ℝ) (hV : StableMaterial (voigtTensor V)) (flag : Bool)
    (hqq : Quiet [N, N, N] (ellipsoidIndicator place (N / 2) a b c)) :
    ∃ E, IsElasticEnergy [N, N, N] (voigtTensor V) (engineeringStrain e)
        (ellipsoidIndicator place (N / 2) a b c) E ∧
      calculateStrainEnergy (dftTransform [N, N, N]) place
        ⟨a, b, c, List.ofFn e, some (flat6 V), none, N, flag⟩ = some (E / ellipsoidVolume a b c) := by
  obtain ⟨r, hr, -⟩ := c54_value V
  rw [← get_value hr] at hV ⊢
  have hg := good_cube hN
  refine ⟨_, eps_isLeast hg layout_cube (small_cube hs) r hV (engineeringStrain e)
    (ellipsoidIndicator place (N / 2) a b c) hqq, ?_⟩
  unfold calculateStrainEnergy
  simp only [Option.getD_some, hr, misfit_value, inclusionConstants, Option.bind_eq_bind, Option.bind_some,
    Option.pure_def, Option.isSome_some, ellipsoid_value, diffMatProp, totalEnergy, if_true, volume_value, half_value]
  simp only [strains_value (pos_of_goodDims hg) r none flag (Or.inl rfl) _ (engineering_symm e) _
    (indicator_01 place (N / 2) a b c), zero_energy, Finset.sum_const_zero, add_zero]

/-- C119: in particular with an odd number of nodes to a side. -/
theorem c119_homogeneous {N : ℕ} (hN : N % 2 = 1) (hs : N ≤ 10 ^ 9) (place : Fin [N, N, N].prod → ℤ × ℤ × ℤ)
    (a b c : ℝ) (e : Fin 6 → ℝ) (V : Matrix (Fin 6) (Fin 6) ℝ) (hV : StableMaterial (voigtTensor V)) (flag : Bool) :
    ∃ E, IsElasticEnergy [N, N, N] (voigtTensor V) (engineeringStrain e)
        (ellipsoidIndicator place (N / 2) a b c) E ∧
      calculateStrainEnergy (dftTransform [N, N, N]) place
        ⟨a, b, c, List.ofFn e, some (flat6 V), none, N, flag⟩ = some (E / ellipsoidVolume a b c) :=
  c119_homogeneous_quiet (by omega) hs place a b c e V hV flag (quiet_of_odd (good_cube (by omega)) (odd_cube hN) _)

/-- C119: with any number of nodes to a side the result is the energy of a displacement field, and so never below the
elastic energy of the ellipsoid, divided by the volume of the ellipsoid. -/
theorem c119_upper {N : ℕ} (hN : 0 < N) (hs : N ≤ 10 ^ 9) (place : Fin [N, N, N].prod → ℤ × ℤ × ℤ)
    (a b c : ℝ) (e : Fin 6 → ℝ) (V : Matrix (Fin 6) (Fin 6) ℝ) (hV : StableMaterial (voigtTensor V)) (flag : Bool) :
    ∃ E W, IsElasticEnergy [N, N, N] (voigtTensor V) (engineeringStrain e)
        (ellipsoidIndicator place (N / 2) a b c) E ∧ E ≤ W ∧
      calculateStrainEnergy (dftTransform [N, N, N]) place
        ⟨a, b, c, List.ofFn e, some (flat6 V), none, N, flag⟩ = some (W / ellipsoidVolume a b c) := by
  obtain ⟨r, hr, -⟩ := c54_value V
  rw [← get_value hr] at hV ⊢
  have hg := good_cube hN
  have hE := least_isLeast hg layout_cube (small_cube hs) r hV (engineeringStrain e)
    (ellipsoidIndicator place (N / 2) a b c)
  refine ⟨_, ∑ x, energyDensity r.get (eps [N, N, N] r.get (r.contractLast (engineeringStrain e))
    (ellipsoidIndicator place (N / 2) a b c) x - ellipsoidIndicator place (N / 2) a b c x • engineeringStrain e), hE,
    hE.2 ⟨dispField [N, N, N] r.get (r.contractLast (engineeringStrain e)) (ellipsoidIndicator place (N / 2) a b c), ?_⟩, ?_⟩
  · simp only [eps_eq_symGrad_any hg layout_cube (small_cube hs)]
  unfold calculateStrainEnergy
  simp only [Option.getD_some, hr, misfit_value, inclusionConstants, Option.bind_eq_bind, Option.bind_some,
    Option.pure_def, Option.isSome_some, ellipsoid_value, diffMatProp, totalEnergy, if_true, volume_value, half_value]
  simp only [strains_value (pos_of_goodDims hg) r none flag (Or.inl rfl) _ (engineering_symm e) _
    (indicator_01 place (N / 2) a b c), zero_energy, Finset.sum_const_zero, add_zero]

/-- C119: with moduli of the inclusion and without correction the displacement is still that of the matrix
moduli, and the energy of the whole domain, also outside of the inclusion, is taken with the moduli of the
inclusion. -/
theorem c119_inclusion_quiet {N : ℕ} (hN : 0 < N) (hs : N ≤ 10 ^ 9) (place : Fin [N, N, N].prod → ℤ × ℤ × ℤ)
    (a b c : ℝ) (e : Fin 6 → ℝ) (V W : Matrix (Fin 6) (Fin 6) ℝ) (hV : StableMaterial (voigtTensor V))
    (hqq : Quiet [N, N, N] (ellipsoidIndicator place (N / 2) a b c)) :
    ∃ u, Relaxed [N, N, N] (voigtTensor V) (engineeringStrain e) (ellipsoidIndicator place (N / 2) a b c) u ∧
      calculateStrainEnergy (dftTransform [N, N, N]) place
        ⟨a, b, c, List.ofFn e, some (flat6 V), some (flat6 W), N, false⟩ =
        some ((∑ x, energyDensity (voigtTensor W) (symGrad [N, N, N] u x -
          ellipsoidIndicator place (N / 2) a b c x • engineeringStrain e)) / ellipsoidVolume a b c) := by
  obtain ⟨r, hr, -⟩ := c54_value V
  obtain ⟨q, hq, -⟩ := c54_value W
  rw [← get_value hr] at hV ⊢
  rw [← get_value hq]
  have hg := good_cube hN
  have hE := eps_isLeast hg layout_cube (small_cube hs) r hV (engineeringStrain e)
    (ellipsoidIndicator place (N / 2) a b c) hqq
  simp only [← eps_eq_symGrad hg layout_cube (small_cube hs) _ _ _ hqq] at hE
  refine ⟨_, hE, ?_⟩
  unfold calculateStrainEnergy
  simp only [Option.getD_some, hr, hq, misfit_value, inclusionConstants, Option.bind_eq_bind, Option.bind_some,
    Option.pure_def, Option.isSome_some, ellipsoid_value, diffMatProp, totalEnergy, if_true, volume_value, half_value,
    Option.map_some]
  simp only [strains_value (pos_of_goodDims hg) r (some q) false (Or.inr rfl) _ (engineering_symm e) _
    (indicator_01 place (N / 2) a b c), ← Finset.sum_add_distrib]
  simp only [eps_eq_symGrad hg layout_cube (small_cube hs) _ _ _ hqq]
  refine congrArg (fun z : ℝ => some (z / ellipsoidVolume a b c)) (Finset.sum_congr rfl fun x _ => ?_)
  exact energy_add r.get q.get _

/-- C119: in particular with an odd number of nodes to a side. -/
theorem c119_inclusion {N : ℕ} (hN : N % 2 = 1) (hs : N ≤ 10 ^ 9) (place : Fin [N, N, N].prod → ℤ × ℤ × ℤ)
    (a b c : ℝ) (e : Fin 6 → ℝ) (V W : Matrix (Fin 6) (Fin 6) ℝ) (hV : StableMaterial (voigtTensor V)) :
    ∃ u, Relaxed [N, N, N] (voigtTensor V) (engineeringStrain e) (ellipsoidIndicator place (N / 2) a b c) u ∧
      calculateStrainEnergy (dftTransform [N, N, N]) place
        ⟨a, b, c, List.ofFn e, some (flat6 V), some (flat6 W), N, false⟩ =
        some ((∑ x, energyDensity (voigtTensor W) (symGrad [N, N, N] u x -
          ellipsoidIndicator place (N / 2) a b c x • engineeringStrain e)) / ellipsoidVolume a b c) :=
  c119_inclusion_quiet (by omega) hs place a b c e V W hV (quiet_of_odd (good_cube (by omega)) (odd_cube hN) _)

/-- A sphere of radius four in a cube with 15 nodes to a side, of a material with the moduli of an isotropic
one. -/
example : ∃ V : Matrix (Fin 6) (Fin 6) ℝ, StableMaterial (voigtTensor V) := by
  refine ⟨Matrix.of fun p q => (isotropic 60 (1 / 3)).get ((pairOf p).1, (pairOf p).2, (pairOf q).1, (pairOf q).2), ?_⟩
  have : voigtTensor (Matrix.of fun p q => (isotropic 60 (1 / 3)).get ((pairOf p).1, (pairOf p).2, (pairOf q).1,
      (pairOf q).2)) = (isotropic 60 (1 / 3)).get := by
    funext ⟨i, j, k, l⟩
    obtain ⟨a, b, -⟩ := c53_symmetries 60 (1 / 3)
    have hp : ∀ i j, pairOf (vo i j) = (i, j) ∨ pairOf (vo i j) = (j, i) := by decide
    unfold voigtTensor
    rw [Matrix.of_apply]
    dsimp only
    rcases hp i j with e | e <;> rcases hp k l with e' | e' <;> rw [e, e']
    · exact b i j k l
    · exact a i j k l
    · exact (a i j l k).trans (b i j k l)
  rw [this]
  exact c103_isotropic (by norm_num) (by norm_num) (by norm_num)

/-- C119: the result for moduli of the inclusion that are `f` times those of the matrix, without correction, is
`f` times the one without moduli of the inclusion. -/
theorem c119_proportional {ft : Transform n} (place : Fin n → ℤ × ℤ × ℤ) (p : StrainEnergyInput)
    (v : List ℝ) (hv : p.matPropMatrix = some v) (f : ℝ) :
    calculateStrainEnergy ft place { p with matPropInc := some (v.map fun x : ℝ => f * x), applyPerturbation := false } =
      (calculateStrainEnergy ft place { p with matPropInc := none }).map fun E => f * E := by
  unfold calculateStrainEnergy
  simp only [hv, Option.getD_some, inclusionConstants, fromFlatVoigt_scaled]
  cases fromFlatVoigt v with
  | none => rfl
  | some r =>
    cases misfitMatrix p.misfit with
    | none => rfl
    | some m =>
      simp only [Option.map_some, Option.bind_eq_bind, Option.bind_some, Option.pure_def, Option.isSome_some,
        totalEnergy, if_true]
      have h1 : ∀ (b : Bool) (ind : Fin n → ℝ), inclusionStrains ft r (some (scaled f r)) false m ind =
          inclusionStrains ft r none b m ind := by
        intro b ind
        unfold inclusionStrains correctedDisplacements
        simp
      rw [h1 p.applyPerturbation]
      simp only [diffMatProp, zero_energy, Finset.sum_const_zero, add_zero, ← Finset.sum_add_distrib]
      have h2 : ∀ e, energyDensity r.get e + energyDensity (Rank4.get ⟨fun i => (scaled f r).data i - r.data i⟩) e =
          f * energyDensity r.get e := by
        intro e
        refine (energy_add r.get (scaled f r).get e).trans ?_
        have := energyDensity_scaled f 1 r e
        rwa [one_smul, one_pow, mul_one] at this
      simp only [h2, ← Finset.mul_sum, mul_div_assoc]

private theorem diff_same (r : Rank4) : diffMatProp r (some r) = newRank4 := by simp [diffMatProp, newRank4]

private theorem corrected_same {ft : Transform n} (hft : LawfulTransform ft) (r : Rank4) (b : Bool) (m : Mat3)
    (shape : Fin n → ℝ) (u : Fin n → Fin 3 → ℂ) : correctedDisplacements ft r (some r) b m shape u = u := by
  unfold correctedDisplacements
  split_ifs
  · rw [diff_same]
    have h2 : perturbedForces ft m u shape newRank4 = fun _ _ => 0 := by
      have := perturbedForces_scaled hft 0 1 m u shape newRank4
      have hz : scaled 0 newRank4 = newRank4 := by simp [scaled, newRank4]
      rw [hz, one_smul] at this
      simpa using this
    rw [h2]
    funext k c
    rw [show displacements ft r (fun _ _ => 0) k c = 0 from congrFun (displacement_zero r.get (ft.freq k)) c, add_zero]
  · rfl

/-- C119: an inclusion with the moduli of the matrix has the energy of one without own moduli, with and without
correction. -/
theorem c119_same {ft : Transform n} (hft : LawfulTransform ft) (place : Fin n → ℤ × ℤ × ℤ) (p : StrainEnergyInput)
    (b : Bool) : p.matPropMatrix.isSome →
    calculateStrainEnergy ft place { p with matPropInc := p.matPropMatrix, applyPerturbation := b } =
      calculateStrainEnergy ft place { p with matPropInc := none } := by
  intro hv
  obtain ⟨v, hv⟩ := Option.isSome_iff_exists.mp hv
  unfold calculateStrainEnergy
  simp only [hv, Option.getD_some, inclusionConstants]
  cases fromFlatVoigt v with
  | none => simp
  | some r =>
    cases misfitMatrix p.misfit with
    | none => simp
    | some m =>
      simp only [Option.map_some, Option.bind_eq_bind, Option.bind_some, Option.pure_def, Option.isSome_some,
        totalEnergy, if_true]
      have h1 : ∀ (ind : Fin n → ℝ), inclusionStrains ft r (some r) b m ind =
          inclusionStrains ft r none p.applyPerturbation m ind := by
        intro ind
        unfold inclusionStrains
        dsimp only
        rw [corrected_same hft]
        unfold correctedDisplacements
        rw [if_neg (by simp)]
      rw [h1, diff_same]
      rfl

/-- C119: an empty list of moduli for the inclusion makes the energy vanish when nothing is corrected. -/
theorem c119_empty (ft : Transform n) (place : Fin n → ℤ × ℤ × ℤ) (p : StrainEnergyInput)
    {v : List ℝ} (hv : p.matPropMatrix = some v) (hl : v.length ≤ 36) (e : Fin 6 → ℝ) :
    calculateStrainEnergy ft place
      { p with misfit := List.ofFn e, matPropInc := some [], applyPerturbation := false } = some 0 := by
  unfold calculateStrainEnergy
  obtain ⟨r, hr⟩ := short_voigt v hl
  simp only [hv, Option.getD_some, inclusionConstants, misfit_value, hr, Option.bind_eq_bind, Option.bind_some,
    Option.pure_def, Option.isSome_some, totalEnergy, if_true]
  have : fromFlatVoigt [] = some newRank4 := rfl
  simp only [this, Option.map_some, Option.bind_some, diffMatProp, ← Finset.sum_add_distrib]
  have h2 : ∀ e, energyDensity r.get e + energyDensity (Rank4.get ⟨fun i => newRank4.data i - r.data i⟩) e = 0 :=
    fun e => (energy_add r.get newRank4.get e).trans (zero_energy e)
  simp only [h2, Finset.sum_const_zero, zero_div]

/-- C119: there is a result exactly when the misfit strain has at least six entries and there are at most 36
moduli of the matrix and of the inclusion. -/
theorem c119_defined (ft : Transform n) (place : Fin n → ℤ × ℤ × ℤ) (p : StrainEnergyInput) :
    (calculateStrainEnergy ft place p).isSome ↔ 6 ≤ p.misfit.length ∧ (p.matPropMatrix.getD []).length ≤ 36 ∧
      (p.matPropInc.getD []).length ≤ 36 := by
  have hm : (misfitMatrix p.misfit).isSome ↔ 6 ≤ p.misfit.length := by
    unfold misfitMatrix
    rcases p.misfit with _ | ⟨_, _ | ⟨_, _ | ⟨_, _ | ⟨_, _ | ⟨_, _ | ⟨_, l⟩⟩⟩⟩⟩⟩ <;> simp
  have hv : ∀ v : List ℝ, (fromFlatVoigt v).isSome ↔ v.length ≤ 36 := by
    intro v
    constructor
    · intro h
      by_contra hl
      rw [c54_too_long v (by omega)] at h
      simp at h
    · intro h
      obtain ⟨r, hr⟩ := short_voigt v h
      rw [hr]; rfl
  have hi : (inclusionConstants p).isSome ↔ (p.matPropInc.getD []).length ≤ 36 := by
    unfold inclusionConstants
    cases p.matPropInc with
    | none => simp
    | some v => simpa using hv v
  rw [← hm, ← hv, ← hi]
  unfold calculateStrainEnergy
  cases misfitMatrix p.misfit <;> cases fromFlatVoigt (p.matPropMatrix.getD []) <;>
    cases inclusionConstants p <;> simp

/-! ## The ellipsoid -/

/-- C119: the ellipsoid: the middle voxel belongs to it, it is symmetric with respect to the middle voxel and
growing half axes never remove a voxel. -/
theorem c119_ellipsoid (N : ℤ) (hN : 0 ≤ N) {a b c : ℝ} (ha : 0 < a) (hb : 0 < b) (hc : 0 < c) :
    ellipsoidVoxel N a b c (N / 2, N / 2, N / 2) = 1 ∧
    (∀ x y z, ellipsoidVoxel N a b c (2 * (N / 2) - x, y, z) = ellipsoidVoxel N a b c (x, y, z) ∧
      ellipsoidVoxel N a b c (x, 2 * (N / 2) - y, z) = ellipsoidVoxel N a b c (x, y, z) ∧
      ellipsoidVoxel N a b c (x, y, 2 * (N / 2) - z) = ellipsoidVoxel N a b c (x, y, z)) ∧
    (∀ x : ℤ, (ellipsoidVoxel N a b c (N / 2 + x, N / 2, N / 2) = 1 ↔ |(x : ℝ)| ≤ a) ∧
      (ellipsoidVoxel N a b c (N / 2, N / 2 + x, N / 2) = 1 ↔ |(x : ℝ)| ≤ b) ∧
      (ellipsoidVoxel N a b c (N / 2, N / 2, N / 2 + x) = 1 ↔ |(x : ℝ)| ≤ c)) ∧
    ∀ a' b' c', a ≤ a' → b ≤ b' → c ≤ c' → ∀ t, ellipsoidVoxel N a b c t ≤ ellipsoidVoxel N a' b' c' t := by
  have hd : N.tdiv 2 = N / 2 := Int.tdiv_eq_ediv_of_nonneg hN
  refine ⟨?_, ?_, ?_, ?_⟩
  · simp [ellipsoidVoxel, hd]
  · intro x y z
    have hf : ∀ (u : ℤ) (w : ℝ), ((((2 * (N / 2) - u - N / 2 : ℤ) : ℤ) : ℝ) / w) ^ 2 =
        ((((u - N / 2 : ℤ) : ℤ) : ℝ) / w) ^ 2 := by
      intro u w
      rw [show 2 * (N / 2) - u - N / 2 = -(u - N / 2) by ring, Int.cast_neg, neg_div, neg_sq]
    refine ⟨?_, ?_, ?_⟩ <;> simp only [ellipsoidVoxel, hd, hf]
  · intro x
    have h1 : ∀ {w : ℝ}, 0 < w → (((((N / 2 + x - N / 2 : ℤ) : ℤ) : ℝ) / w) ^ 2 ≤ 1 ↔ |(x : ℝ)| ≤ w) := by
      intro w hw
      rw [add_sub_cancel_left, sq_le_one_iff_abs_le_one, abs_div, abs_of_pos hw, div_le_one hw]
    unfold ellipsoidVoxel
    simp only [hd, sub_self, Int.cast_zero, zero_div]
    rw [← h1 ha, ← h1 hb, ← h1 hc]
    refine ⟨?_, ?_, ?_⟩ <;> split_ifs with h <;> simpa using h
  · intro a' b' c' h1 h2 h3 t
    have hm : ∀ (u : ℝ) {w w' : ℝ}, 0 < w → w ≤ w' → (u / w') ^ 2 ≤ (u / w) ^ 2 := by
      intro u w w' h h'
      rw [div_pow, div_pow]
      exact div_le_div_of_nonneg_left (sq_nonneg u) (by positivity) (by nlinarith)
    unfold ellipsoidVoxel
    simp only
    split_ifs with g1 g2 g2
    · exact le_rfl
    · exact absurd ((add_le_add (add_le_add (hm _ ha h1) (hm _ hb h2)) (hm _ hc h3)).trans g1) g2
    · norm_num
    · exact le_rfl

end Gopf.Props
