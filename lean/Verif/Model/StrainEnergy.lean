import Verif.Model.LinElast

/-!
# Model of the strain energy of an ellipsoidal inclusion

`elasticity/shapes.go` and `elasticity/strainEnergyCLI.go`. The transform comes from another module
(gosfft): it is an arbitrary transform with arbitrary frequencies, and the place of a node in its data
is an arbitrary function; the theorems say what they assume about them.
-/

namespace Gopf.Elasticity
open Pf

/-- `FourierTransform`, elasticity/perturbation.go:13-19; data of `n` nodes, three dimensions. -/
structure Transform (n : ℕ) where
  fft : Data n → Data n
  ifft : Data n → Data n
  freq : Fin n → Fin 3 → ℝ

open Classical in
/-- The value of one voxel of `Ellipsoid`, elasticity/shapes.go:16-22, and of the same loop
elasticity/strainEnergyCLI.go:43-50. -/
noncomputable def ellipsoidVoxel (N : ℤ) (a b c : ℝ) (p : ℤ × ℤ × ℤ) : ℝ :=
  let x : ℝ := ((p.1 - N.tdiv 2 : ℤ) : ℝ)
  let y : ℝ := ((p.2.1 - N.tdiv 2 : ℤ) : ℝ)
  let z : ℝ := ((p.2.2 - N.tdiv 2 : ℤ) : ℝ)
  let value := (x / a) ^ 2 + (y / b) ^ 2 + (z / c) ^ 2
  if value ≤ 1 then 1 else 0

/-- `Ellipsoid`, elasticity/shapes.go:11-27; `place` gives the voxel of a node. -/
noncomputable def ellipsoid {n : ℕ} (place : Fin n → ℤ × ℤ × ℤ) (N : ℤ) (a b c : ℝ) : Fin n → ℝ :=
  fun x => ellipsoidVoxel N a b c (place x)

/-- `StrainEnergyInput`, elasticity/strainEnergyCLI.go:12-21; `none` is a nil slice. -/
structure StrainEnergyInput where
  halfA : ℝ
  halfB : ℝ
  halfC : ℝ
  misfit : List ℝ
  matPropMatrix : Option (List ℝ)
  matPropInc : Option (List ℝ)
  domainSize : ℤ
  applyPerturbation : Bool

/-- The misfit strain, elasticity/strainEnergyCLI.go:27-36; too short a list panics. -/
noncomputable def misfitMatrix (v : List ℝ) : Option Mat3 := do
  let m0 ← v[0]?
  let m1 ← v[1]?
  let m2 ← v[2]?
  let m5 ← v[5]?
  let m4 ← v[4]?
  let m3 ← v[3]?
  return !![m0, 0.5 * m5, 0.5 * m4; 0.5 * m5, m1, 0.5 * m3; 0.5 * m4, 0.5 * m3, m2]

/-- The displacements for a force, elasticity/linearElasticity.go:31-66, at all nodes. -/
noncomputable def displacements {n : ℕ} (ft : Transform n) (matProp : Rank4)
    (force : Fin n → Fin 3 → ℂ) : Fin n → Fin 3 → ℂ :=
  fun k => displacement (force k) (ft.freq k) matProp.get

/-- The force of the misfit strain at all nodes, elasticity/strainEnergyCLI.go:57-67; `ind` is the
transformed indicator. -/
noncomputable def misfitForce {n : ℕ} (ft : Transform n) (matProp : Rank4) (misfit : Mat3)
    (ind : Data n) : Fin n → Fin 3 → ℂ :=
  fun k c => effForce (matProp.contractLast misfit) c (ft.freq k) (ind k)

/-- The real strain of displacements, elasticity/strainEnergyCLI.go:104-107 and
elasticity/perturbation.go:44-49. -/
noncomputable def realStrain {n : ℕ} (ft : Transform n) (disp : Fin n → Fin 3 → ℂ) (i j : Fin 3)
    (x : Fin n) : ℝ :=
  (ft.ifft (fun k => strain (disp k) (ft.freq k) i j) x).re / (n : ℝ)

/-- `PerturbedForce` at all nodes, elasticity/perturbation.go:30-65. -/
noncomputable def perturbedForces {n : ℕ} (ft : Transform n) (misfit : Mat3)
    (disp : Fin n → Fin 3 → ℂ) (shape : Fin n → ℝ) (matProp : Rank4) : Fin n → Fin 3 → ℂ :=
  fun k => perturbedForce matProp.get (ft.freq k) fun i j =>
    ft.fft (fun x => (((misfit i j - realStrain ft disp i j x) * shape x : ℝ) : ℂ)) k

/-- `propInc.Data[i] - matPropMatrix.Data[i]`, elasticity/strainEnergyCLI.go:76-81, and the zero tensor
when no constants are given for the inclusion. -/
def diffMatProp (matProp : Rank4) (inc : Option Rank4) : Rank4 :=
  match inc with
  | none => newRank4
  | some r => ⟨fun i => r.data i - matProp.data i⟩

/-- The displacements with the correction, elasticity/strainEnergyCLI.go:83-94. -/
noncomputable def correctedDisplacements {n : ℕ} (ft : Transform n) (matProp : Rank4)
    (inc : Option Rank4) (perturb : Bool) (misfit : Mat3) (shape : Fin n → ℝ)
    (disp : Fin n → Fin 3 → ℂ) : Fin n → Fin 3 → ℂ :=
  if inc.isSome ∧ perturb = true then fun k c => disp k c +
    displacements ft matProp (perturbedForces ft misfit disp shape (diffMatProp matProp inc)) k c
  else disp

/-- The strain relative to the one without stress, elasticity/strainEnergyCLI.go:102-116. -/
noncomputable def elasticStrain {n : ℕ} (ft : Transform n) (misfit : Mat3) (shape : Fin n → ℝ)
    (disp : Fin n → Fin 3 → ℂ) (x : Fin n) : Mat3 := Matrix.of fun a b =>
  let i := min a b
  let j := max a b
  let re := realStrain ft disp i j x
  if shape x > 1 / 2 then re - misfit i j else re

/-- The elastic strains at the nodes, elasticity/strainEnergyCLI.go:39-116; the indicator is transformed
forth and back. -/
noncomputable def inclusionStrains {n : ℕ} (ft : Transform n) (matProp : Rank4) (inc : Option Rank4)
    (perturb : Bool) (misfit : Mat3) (indicator : Fin n → ℝ) : Fin n → Mat3 :=
  let ind := ft.fft fun x => ((indicator x : ℝ) : ℂ)
  let disp := displacements ft matProp (misfitForce ft matProp misfit ind)
  let shape : Fin n → ℝ := fun x => (ft.ifft ind x / ((n : ℝ) : ℂ)).re
  elasticStrain ft misfit shape (correctedDisplacements ft matProp inc perturb misfit shape disp)

/-- The sum of the energies, elasticity/strainEnergyCLI.go:96, 117-125. The condition of line 121 looks at
the constants of the matrix. -/
noncomputable def totalEnergy {n : ℕ} (given : Bool) (matProp diff : Rank4) (strains : Fin n → Mat3) : ℝ :=
  let energy := ∑ x, energyDensity matProp.get (strains x)
  if given then energy + ∑ x, energyDensity diff.get (strains x) else energy

/-- The constants of the inclusion, elasticity/strainEnergyCLI.go:77-78. -/
noncomputable def inclusionConstants (p : StrainEnergyInput) : Option (Option Rank4) :=
  match p.matPropInc with
  | none => some none
  | some v => (fromFlatVoigt v).map some

/-- `CalculateStrainEnergy`, elasticity/strainEnergyCLI.go:25-128. -/
noncomputable def calculateStrainEnergy {n : ℕ} (ft : Transform n) (place : Fin n → ℤ × ℤ × ℤ)
    (p : StrainEnergyInput) : Option ℝ := do
  let matProp ← fromFlatVoigt (p.matPropMatrix.getD [])
  let misfit ← misfitMatrix p.misfit
  let inc ← inclusionConstants p
  let strains := inclusionStrains ft matProp inc p.applyPerturbation misfit
    (ellipsoid place p.domainSize p.halfA p.halfB p.halfC)
  let energy := totalEnergy p.matPropMatrix.isSome matProp (diffMatProp matProp inc) strains
  let vol := 4 * Real.pi * p.halfA * p.halfB * p.halfC / 3
  return energy / vol

end Gopf.Elasticity
