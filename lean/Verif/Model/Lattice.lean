import Verif.Model.Miller
import Verif.Model.Product
import Mathlib.LinearAlgebra.Matrix.NonsingularInverse
import Mathlib.Analysis.SpecialFunctions.Trigonometric.Basic
import Mathlib.Analysis.SpecialFunctions.Pow.Real
import Mathlib.Data.List.Sort

/-!
# Model of `pfc/lattice.go`, `pfc/ideal.go` and `pfc/initialGuessExplorer.go`

`mat.Dense` is Mathlib's `Matrix`, `mat.Det` is `Matrix.det`, `Inverse` is the matrix inverse (gonum
returns an error for singular matrices, which the code ignores; theorems assume the cell to be regular).
-/

namespace Gopf.Pfc

/-- `Cell.Volume`, pfc/lattice.go:19-21. -/
noncomputable def volume {n : ℕ} (C : Matrix (Fin n) (Fin n) ℝ) : ℝ := C.det

/-- `Cell.Reciprocal`, pfc/lattice.go:78-91. -/
noncomputable def reciprocal {n : ℕ} (C : Matrix (Fin n) (Fin n) ℝ) : Matrix (Fin n) (Fin n) ℝ :=
  Matrix.of fun j i => 2 * Real.pi * C⁻¹ i j

/-- The combination of columns computed by `HKLVector`, pfc/lattice.go:31-41, and again by
`ChangeHKLVector`, pfc/lattice.go:57-69. The matrix has `k + 2` columns. -/
noncomputable def hklVector {k : ℕ} (B : Matrix (Fin (k + 2)) (Fin (k + 2)) ℝ) (m : Miller)
    (i : Fin (k + 2)) : ℝ :=
  let res := (m.H : ℝ) * B i 0 + (m.K : ℝ) * B i 1
  if k + 2 = 3 then res + (m.L : ℝ) * B i 2 else res

/-- `CellChange`, pfc/lattice.go:47-53. -/
noncomputable def cellChange {n : ℕ} (B dC : Matrix (Fin n) (Fin n) ℝ) : Matrix (Fin n) (Fin n) ℝ :=
  (-1 / (2 * Real.pi)) • (B * dC * B)

/-- `ChangeHKLVector`, pfc/lattice.go:57-69. -/
noncomputable def changeHKLVector {k : ℕ} (B : Matrix (Fin (k + 2)) (Fin (k + 2)) ℝ) (m : Miller)
    (dC : Matrix (Fin (k + 2)) (Fin (k + 2)) ℝ) (i : Fin (k + 2)) : ℝ :=
  hklVector (cellChange B dC) m i

/-- `FCC`, pfc/lattice.go:94-107. -/
noncomputable def fcc (a : ℝ) : Matrix (Fin 3) (Fin 3) ℝ :=
  !![a / 2, 0, a / 2; a / 2, a / 2, 0; 0, a / 2, a / 2]

/-- `SC3D`, pfc/lattice.go:111-119. -/
def sc3D (a : ℝ) : Matrix (Fin 3) (Fin 3) ℝ := !![a, 0, 0; 0, a, 0; 0, 0, a]

/-- `BCC`, pfc/lattice.go:122-138. -/
noncomputable def bcc (a : ℝ) : Matrix (Fin 3) (Fin 3) ℝ :=
  !![a / 2, -a / 2, a / 2; a / 2, a / 2, -a / 2; a / 2, a / 2, a / 2]

/-- `SC2D`, pfc/lattice.go:141-148. -/
def sc2D (a : ℝ) : Matrix (Fin 2) (Fin 2) ℝ := !![a, 0; 0, a]

/-- `Triangular2D`, pfc/lattice.go:152-161. -/
noncomputable def triangular2D (a : ℝ) : Matrix (Fin 2) (Fin 2) ℝ := !![a, a / 2; 0, a / 2]

/-- Length of the cross product of two vectors, pfc/lattice.go:198-203. -/
noncomputable def crossLength (v w : ℝ × ℝ × ℝ) : ℝ :=
  let x := v.2.1 * w.2.2 - v.2.2 * w.2.1
  let y := v.2.2 * w.1 - v.1 * w.2.2
  let z := v.1 * w.2.1 - v.2.1 * w.1
  Real.sqrt (x * x + y * y + z * z)

/-- `CubicUnitCellDensity`, pfc/lattice.go:165-205; `none` is the panic. -/
noncomputable def cubicUnitCellDensity (m : Miller) : Option ℝ :=
  match ([m.at 0, m.at 1, m.at 2] : List Int).insertionSort (· ≤ ·) with
  | [p, q, r] =>
    if p = 0 ∧ q = 0 then some 1
    else if p = 1 then
      let v2 : ℝ × ℝ × ℝ := (0 - 1, 1 / (q : ℝ) - 0, 0 - 0)
      let v3 : ℝ × ℝ × ℝ := (0 - 1, 0 - 0, 1 / (r : ℝ) - 0)
      some (1 / crossLength v3 v2)
    else if p = 0 then
      let v2 : ℝ × ℝ × ℝ := (0, 1 / (q : ℝ), 0)
      let v3 : ℝ × ℝ × ℝ := (0 - 0, 0 - v2.2.1, 1 / (r : ℝ) - 0)
      some (1 / crossLength v3 (1, 0, 0))
    else none
  | _ => none

/-! ## `pfc/ideal.go` -/

/-- `IdealMix`, pfc/ideal.go:20-23. -/
structure IdealMix where
  C3 : ℝ
  C4 : ℝ

/-- `QuadraticPrefactor`, pfc/ideal.go:36-38. -/
noncomputable def IdealMix.quadraticPrefactor (_ : IdealMix) : ℝ := 0.5

/-- `ThirdOrderPrefactor`, pfc/ideal.go:42-44. -/
noncomputable def IdealMix.thirdOrderPrefactor (im : IdealMix) : ℝ := -im.C3 / 6

/-- `FourthOrderPrefactor`, pfc/ideal.go:48-50. -/
noncomputable def IdealMix.fourthOrderPrefactor (im : IdealMix) : ℝ := im.C4 / 12

/-- `Eval`, pfc/ideal.go:26-28. -/
noncomputable def IdealMix.eval (im : IdealMix) (n : ℝ) : ℝ :=
  im.quadraticPrefactor * n * n + im.thirdOrderPrefactor * n * n * n +
    im.fourthOrderPrefactor * n * n * n * n

/-- `Deriv`, pfc/ideal.go:31-33. -/
noncomputable def IdealMix.deriv (im : IdealMix) (n : ℝ) : ℝ :=
  2 * im.quadraticPrefactor * n + 3 * im.thirdOrderPrefactor * n * n +
    4 * im.fourthOrderPrefactor * n * n * n

/-! ## `pfc/initialGuessExplorer.go` -/

/-- `HyperOctantExplorer`, pfc/initialGuessExplorer.go:22-28. `prod` is `none` while its `End` is nil. -/
structure HyperOctant where
  x0 : List ℚ
  prod : Option Pfutil.Product

/-- `HyperOctantExplorer.Next`, pfc/initialGuessExplorer.go:31-50. Outer `none`: panic. -/
def HyperOctant.next (h : HyperOctant) : Option (Option (List ℚ) × HyperOctant) := do
  let prod := h.prod.getD (Pfutil.newProduct (h.x0.map fun _ => (2 : Int)))
  let (comb, prod') ← prod.next
  match comb with
  | none => return (none, { h with prod := some prod' })
  | some c =>
    if c.length < h.x0.length then none else
    return (some (h.x0.zipWith (fun (x : ℚ) (ci : Int) => (2 * (ci : ℚ) - 1) * x) c),
      { h with prod := some prod' })

/-- The loop `for x0 := initGuess.Next(); x0 != nil; x0 = initGuess.Next()`, pfc/mode_solver.go:309: the
start points seen by its body. -/
def HyperOctant.forLoop : ℕ → HyperOctant → Option (List (List ℚ))
  | 0, _ => none
  | fuel + 1, h => do
    let (r, h') ← h.next
    match r with
    | none => return []
    | some t =>
      let ts ← HyperOctant.forLoop fuel h'
      return t :: ts

/-- `SinglePointExplorer`, pfc/initialGuessExplorer.go:56-59. -/
structure SinglePoint where
  x0 : List ℚ
  nextCalled : Bool

/-- `SinglePointExplorer.Next`, pfc/initialGuessExplorer.go:63-69. -/
def SinglePoint.next (s : SinglePoint) : Option (List ℚ) × SinglePoint :=
  if !s.nextCalled then (some s.x0, { s with nextCalled := true }) else (none, s)

end Gopf.Pfc
