import Verif.Model.Crystal

/-!
# Model of the example program `examples/buildCrystals/main.go`

The files are not modelled: the grids that are written are returned.
-/

namespace Gopf.Pfc
open Pfutil

/-- The columns of the basis, examples/buildCrystals/main.go:19-20. -/
noncomputable def exampleBasis : List (Fin 2 → ℝ) := [![0, 0], ![1 / 2, 1 / 2]]

/-- `SingleCrystal`, examples/buildCrystals/main.go:15-34. -/
noncomputable def singleCrystal : Option (Grid ℝ) := do
  let grid ← newGrid [512, 512]
  buildCrystal (sc2D 32) exampleBasis (gaussianKernel 4) grid

/-- `main`, examples/buildCrystals/main.go:36-48: the two grids that are written. -/
noncomputable def buildCrystals : Option (Grid ℝ × Grid ℝ) := do
  let grid ← singleCrystal
  let boundary ← tiltGB grid (15 * Real.pi / 180)
  return (grid, boundary)

end Gopf.Pfc
