import Verif.Model.Assemble
import Verif.Model.Register
import Verif.Model.Dft
import Mathlib.Analysis.SpecialFunctions.Trigonometric.Basic

/-!
# Model of the example program `examples/heterogeneousNucleation/main.go`

The weight `theta`, the constants `rho` and `gamma` and the radii are parameters of the definitions; the values that are
written in the program are `nucleationTheta`, `nucleationRho`, `nucleationGamma` and the default radii 4 and 8. Loops
that write every node of an array once are written as functions of the node. Flags, files and the monitor are not
modelled; the stepper itself is in `Model/Sdd.lean`.
-/

namespace Gopf.Pf
open Pfutil

/-- `theta`, examples/heterogeneousNucleation/main.go:15-19. -/
noncomputable def nucleationTheta (x y : ℝ) : ℝ :=
  let v := Real.tanh ((x + 0.2 * Real.cos (4 * Real.pi * y)) / 0.01)
  let gamma := 0.99
  1 - gamma + gamma * v ^ 4

/-- `position`, examples/heterogeneousNucleation/main.go:21-26, for `pfutil.Pos([]int{N, N}, i)` written out (row
`i / N`, column `i % N`, see `position_pos`). -/
noncomputable def nucleationPosition (i N : ℕ) : ℝ × ℝ :=
  let pos0 : ℕ := i / N
  let pos1 : ℕ := i % N
  ((pos0 : ℝ) / (N : ℝ) - 0.5, (pos1 : ℝ) / (N : ℝ) - 0.5)

/-- `rho`, examples/heterogeneousNucleation/main.go:97. -/
noncomputable def nucleationRho : ℝ := 0.05

/-- `gamma`, examples/heterogeneousNucleation/main.go:98. -/
noncomputable def nucleationGamma : ℝ := 0.5

/-- `SpatialVaryingLap.Construct`, examples/heterogeneousNucleation/main.go:35-58. The frequencies are those of the
transform, not the ones handed to the term. -/
noncomputable def spatialVaryingLap (theta : ℝ → ℝ → ℝ) (gamma : ℝ) (N : ℕ) : BTerm [N, N].prod := fun b _ _ =>
  let work : Data [N, N].prod := fun i => b "phi".toList i
  let work := lapEval 1 (freqOf [N, N]) work
  let work := divRealScalar (ifft [N, N] work) ([N, N].prod : ℕ)
  let work : Data [N, N].prod := fun i =>
    let p := nucleationPosition i.val N
    work i * ((gamma * theta p.1 p.2 : ℝ) : ℂ)
  fft [N, N] work

/-- The function registered as `MINUS_CHEM_POT`, examples/heterogeneousNucleation/main.go:115-120. -/
noncomputable def minusChemPot (theta : ℝ → ℝ → ℝ) (rho : ℝ) (N : ℕ) (b : Bricks [N, N].prod) : Data [N, N].prod := fun i =>
  let phi := b "phi".toList i
  let p := nucleationPosition i.val N
  (1 - phi * phi) * (phi + ((3 * rho / 4 : ℝ) : ℂ)) * ((theta p.1 p.2 : ℝ) : ℂ)

/-- `insertSemiCircle`, examples/heterogeneousNucleation/main.go:64-73: the value at every node. -/
noncomputable def insertSemiCircle (R c0 c1 : ℝ) (N : ℕ) (i : ℕ) : ℝ :=
  let p := nucleationPosition i N
  let rSq := (p.1 - c0) * (p.1 - c0) + (p.2 - c1) * (p.2 - c1)
  if rSq < R * R ∧ p.1 ≥ c0 then 1 else -1

/-- `insertTorus`, examples/heterogeneousNucleation/main.go:75-83: the value at every node, `array` being the values
before. -/
noncomputable def insertTorus (array : ℕ → ℝ) (R1 R2 c0 c1 : ℝ) (N : ℕ) (i : ℕ) : ℝ :=
  let p := nucleationPosition i N
  let rSq := (p.1 - c0) * (p.1 - c0) + (p.2 - c1) * (p.2 - c1)
  if rSq ≥ R1 * R1 ∧ rSq ≤ R2 * R2 ∧ p.1 ≥ c0 then 1 else array i

/-- The initial field, examples/heterogeneousNucleation/main.go:109-110. -/
noncomputable def nucleationStart (innerR outerR : ℝ) (N : ℕ) : ℕ → ℝ :=
  let R := 0.5 * (innerR + outerR)
  insertSemiCircle R (-0.2) 0 N

/-- The vector handed to `SetInitialOrientation`, examples/heterogeneousNucleation/main.go:111-112. -/
noncomputable def nucleationOrientation (innerR outerR : ℝ) (N : ℕ) : ℕ → ℝ :=
  insertTorus (fun _ => 0) innerR outerR (-0.2) 0 N

/-- The model before the equation is added, examples/heterogeneousNucleation/main.go:105, 114-121. -/
noncomputable def nucleationModel (theta : ℝ → ℝ → ℝ) (rho gamma : ℝ) (N : ℕ) : Option (EqModel [N, N].prod) :=
  ((EqModel.empty.addField "phi".toList).registerFunction "MINUS_CHEM_POT".toList (minusChemPot theta rho N)).registerExplicit
    "SPATIAL_LAP".toList (spatialVaryingLap theta gamma N)

/-- The equation, examples/heterogeneousNucleation/main.go:123. -/
def nucleationEquation : Str := "dphi/dt = MINUS_CHEM_POT + SPATIAL_LAP".toList

end Gopf.Pf
