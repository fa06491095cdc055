import Mathlib.Data.Real.Basic
import Mathlib.Data.Complex.Basic
import Mathlib.Data.List.FinRange
import Mathlib.Data.Matrix.Basic
import Mathlib.LinearAlgebra.Matrix.Notation
import Mathlib.LinearAlgebra.Matrix.NonsingularInverse
import Mathlib.Analysis.SpecialFunctions.Trigonometric.Basic

/-!
# Model of package `elasticity`

The `Data` slice of a `Rank4` has 81 entries (`NewRank4`). gonum matrices of size 3×3 are Mathlib
matrices.
-/

namespace Gopf.Elasticity

/-- A position `(i, j, k, l)`. The arguments of `At`, elasticity/rank4.go:27-29. -/
abbrev Idx4 := Fin 3 × Fin 3 × Fin 3 × Fin 3

/-- 3x3 `mat.Dense`, for instance elasticity/rank4.go:37-60. -/
abbrev Mat3 := Matrix (Fin 3) (Fin 3) ℝ

/-- `Rank4`, elasticity/rank4.go:10-12. -/
structure Rank4 where
  data : Fin 81 → ℝ

/-- `NewRank4`, elasticity/rank4.go:15-19. -/
def newRank4 : Rank4 := ⟨fun _ => 0⟩

/-- `index`, elasticity/rank4.go:22-24. -/
def index (i j k l : ℕ) : ℕ := i * 27 + j * 9 + k * 3 + l

/-- `index` for indices below three. elasticity/rank4.go:22-24. -/
def indexF (t : Idx4) : Fin 81 :=
  ⟨index t.1 t.2.1 t.2.2.1 t.2.2.2, by
    obtain ⟨⟨i, hi⟩, ⟨j, hj⟩, ⟨k, hk⟩, ⟨l, hl⟩⟩ := t
    simp only [index]; omega⟩

/-- `At`, elasticity/rank4.go:27-29, for indices below three. -/
def Rank4.get (r : Rank4) (t : Idx4) : ℝ := r.data (indexF t)

/-- `Set`, elasticity/rank4.go:32-34, for indices below three. -/
def Rank4.set (r : Rank4) (t : Idx4) (v : ℝ) : Rank4 := ⟨Function.update r.data (indexF t) v⟩

/-- The four nested loops over 0, 1, 2. For instance elasticity/linearElasticity.go:88-96. -/
def loops : List Idx4 :=
  (List.finRange 3).flatMap fun i => (List.finRange 3).flatMap fun j =>
    (List.finRange 3).flatMap fun k => (List.finRange 3).map fun l => (i, j, k, l)

/-- `Rotate`, elasticity/rank4.go:37-59. -/
def Rank4.rotate (r : Rank4) (rot : Mat3) : Rank4 :=
  loops.foldl (fun out t =>
    loops.foldl (fun (out : Rank4) u =>
      out.set t (out.get t + rot t.1 u.1 * rot t.2.1 u.2.1 * rot t.2.2.1 u.2.2.1 * rot t.2.2.2 u.2.2.2 *
        r.get u)) out) newRank4

/-- `ContractLast`, elasticity/rank4.go:62-75. -/
def Rank4.contractLast (r : Rank4) (tensor : Mat3) : Mat3 :=
  loops.foldl (fun (out : Mat3) t =>
    out.updateRow t.1 (Function.update (out t.1) t.2.1
      (out t.1 t.2.1 + r.get t * tensor t.2.2.1 t.2.2.2))) 0

/-- `Shear`, elasticity/rank4.go:79-81. -/
noncomputable def shear (bulkMod poisson : ℝ) : ℝ :=
  3 * bulkMod * (1 - 2 * poisson) / (2 * (1 + poisson))

/-- `Isotropic`, elasticity/rank4.go:84-109, with the shear modulus as an argument. -/
noncomputable def isotropicOf (bulkMod shear : ℝ) : Rank4 :=
  loops.foldl (fun (r : Rank4) t =>
    let value : ℝ := 0
    let value := if t.1 = t.2.1 ∧ t.2.2.1 = t.2.2.2 then value + (bulkMod - 2 * shear / 3) else value
    let value := if t.1 = t.2.2.1 ∧ t.2.1 = t.2.2.2 then value + shear else value
    let value := if t.1 = t.2.2.2 ∧ t.2.1 = t.2.2.1 then value + shear else value
    r.set t value) newRank4

/-- `Isotropic`, elasticity/rank4.go:84-109. -/
noncomputable def isotropic (bulkMod poisson : ℝ) : Rank4 := isotropicOf bulkMod (shear bulkMod poisson)

/-- `CubicMaterial`, elasticity/rank4.go:113-128. -/
def cubicMaterial (c11 c12 c44 : ℝ) : Rank4 :=
  let r := (List.finRange 3).foldl (fun (r : Rank4) i => r.set (i, i, i, i) c11) newRank4
  (List.finRange 3).foldl (fun (r : Rank4) i =>
    ((List.finRange 3).filter (i < ·)).foldl (fun (r : Rank4) j =>
      let r := r.set (i, i, j, j) c12
      let r := r.set (j, j, i, i) c12
      let r := r.set (i, j, i, j) c44
      r.set (j, i, j, i) c44) r) r

/-- `voigtMap`, elasticity/rank4.go:135-141. A missing key gives a nil slice, whose use panics. -/
def voigtMap (q : ℕ) : Option (Fin 3 × Fin 3) :=
  ([(0, 0), (1, 1), (2, 2), (1, 2), (0, 2), (0, 1)] : List (Fin 3 × Fin 3))[q]?

/-- The body of the loop elasticity/rank4.go:143-153. -/
def voigtStep (r : Rank4) (x : ℝ × ℕ) : Option Rank4 := do
  let i1 ← voigtMap (x.2 / 6)
  let i2 ← voigtMap (x.2 % 6)
  let r := r.set (i1.1, i1.2, i2.1, i2.2) x.1
  let r := r.set (i1.1, i1.2, i2.2, i2.1) x.1
  let r := r.set (i1.2, i1.1, i2.1, i2.2) x.1
  return r.set (i1.2, i1.1, i2.2, i2.1) x.1

/-- `FromFlatVoigt`, elasticity/rank4.go:131-154. -/
def fromFlatVoigt (voigt : List ℝ) : Option Rank4 := voigt.zipIdx.foldlM voigtStep newRank4

/-- `RotationMatrix`, elasticity/rank4.go:158-182. -/
noncomputable def rotationMatrix (angle : ℝ) (axis : ℤ) : Mat3 :=
  let c := Real.cos angle
  let s := Real.sin angle
  if axis = 0 then !![1, 0, 0; 0, c, s; 0, -s, c]
  else if axis = 1 then !![c, 0, s; 0, 1, 0; -s, 0, c]
  else if axis = 2 then !![c, s, 0; -s, c, 0; 0, 0, 1]
  else 0

/-- `DisplacementMatrixElement`, elasticity/linearElasticity.go:16-24. -/
noncomputable def dispElem (m n : Fin 3) (freq : Fin 3 → ℝ) (matProp : Idx4 → ℝ) : ℝ :=
  ((List.finRange 3).foldl (fun (elem : ℝ) j =>
    (List.finRange 3).foldl (fun (elem : ℝ) l => elem + matProp (m, j, n, l) * freq j * freq l) elem) 0) *
    (2 * Real.pi) ^ 2

/-- The tolerance of `Displacements` and `Strain`. elasticity/linearElasticity.go:38, 69. -/
noncomputable def tol : ℝ := 1 / 10 ^ 10

/-- The body of the loop of `Displacements`, elasticity/linearElasticity.go:41-66, for one node. gonum's
`Solve` is multiplication by the inverse matrix; its result for a singular matrix is not modelled. -/
noncomputable def displacement (force : Fin 3 → ℂ) (f : Fin 3 → ℝ) (matProp : Idx4 → ℝ) : Fin 3 → ℂ :=
  if |f 0| < tol ∧ |f 1| < tol ∧ |f 2| < tol then fun _ => 0
  else
    let matrix : Mat3 := Matrix.of fun j k => dispElem j k f matProp
    let re := matrix⁻¹.mulVec fun j => (force j).re
    let im := matrix⁻¹.mulVec fun j => (force j).im
    fun j => ⟨re j, im j⟩

/-- The frequency component used by `Strain`, elasticity/linearElasticity.go:77-82. -/
noncomputable def noNyquist (x : ℝ) : ℝ := if abs (abs x - 1 / 2) < tol then 0 else x

/-- The body of the loop of `Strain`, elasticity/linearElasticity.go:73-84, for one node. -/
noncomputable def strain (disp : Fin 3 → ℂ) (f : Fin 3 → ℝ) (m n : Fin 3) : ℂ :=
  Complex.I * ((Real.pi * noNyquist (f n) : ℝ) : ℂ) * disp m +
    Complex.I * ((Real.pi * noNyquist (f m) : ℝ) : ℂ) * disp n

/-- `EnergyDensity`, elasticity/linearElasticity.go:86-98. -/
noncomputable def energyDensity (matProp : Idx4 → ℝ) (e : Mat3) : ℝ :=
  1 / 2 * loops.foldl (fun (res : ℝ) t => res + matProp t * e t.1 t.2.1 * e t.2.2.1 t.2.2.2) 0

/-- The body of the loop of `EffectiveForce.Get`, elasticity/effectiveForce.go:26-35, for one node of a
three dimensional domain. -/
noncomputable def effForce (stress : Mat3) (comp : Fin 3) (k : Fin 3 → ℝ) (indicator : ℂ) : ℂ :=
  (List.finRange 3).foldl (fun (acc : ℂ) j =>
    acc + Complex.I * ((-(stress comp j) * 2 * Real.pi * k j : ℝ) : ℂ) * indicator) 0

/-- The loop elasticity/perturbation.go:52-59 for the bin with frequency `f` of a three dimensional
domain: the amount subtracted from `force[comp]` for the pair `(i, j)`, `s` being the transformed
product of shape function and strain difference. -/
noncomputable def perturbedPart (matProp : Idx4 → ℝ) (f : Fin 3 → ℝ) (comp i j : Fin 3) (s : ℂ) : ℂ :=
  let factor : ℝ := if i ≠ j then 2 else 1
  (List.finRange 3).foldl (fun (acc : ℂ) q =>
    acc + Complex.I * ((2 * Real.pi * factor * matProp (comp, q, i, j) * f comp : ℝ) : ℂ) * s) 0

/-- `PerturbedForce`, elasticity/perturbation.go:30-65, for one bin of a three dimensional domain. -/
noncomputable def perturbedForce (matProp : Idx4 → ℝ) (f : Fin 3 → ℝ) (S : Fin 3 → Fin 3 → ℂ)
    (comp : Fin 3) : ℂ :=
  (List.finRange 3).foldl (fun (acc : ℂ) i =>
    ((List.finRange 3).filter (i ≤ ·)).foldl (fun (acc : ℂ) j =>
      acc - perturbedPart matProp f comp i j (S i j)) acc) 0

end Gopf.Elasticity
