import Verif.Model.Assemble

/-!
# Model of the example program `examples/solverStability/main.go`

The constant in front of the Laplacian is a parameter; `stabilityGamma` is the value that is written there. The random
start (any start is allowed) and the print-out are not modelled, nor is the test for NaN: exact numbers have none.
-/

namespace Gopf.Pf

variable {n : ℕ}

/-- The value of `gamma`, examples/solverStability/main.go:35. -/
noncomputable def stabilityGamma : ℝ := 2 / 100

/-- `DerivChemPot`, examples/solverStability/main.go:15-18: the value at every node. -/
noncomputable def derivChemPot (b : Bricks n) : Data n := fun i =>
  let x := b "conc".toList i;
  -(x * x * x - x)

/-- The model before the equation is added, examples/solverStability/main.go:25, 35-40. -/
noncomputable def stabilityModel (n : ℕ) : EqModel n :=
  ((EqModel.empty.addScalar "gamma".toList).addField "conc".toList).registerFunction "CHEMPOT".toList derivChemPot

/-- The values of the scalars, examples/solverStability/main.go:35-36. -/
noncomputable def stabilityScalars (gamma : ℝ) (x : Str) : ℂ := if x = "gamma".toList then (gamma : ℂ) else 0

/-- The equation, examples/solverStability/main.go:41. -/
def stabilityEquation : Str := "dconc/dt = CHEMPOT + gamma*LAP conc".toList

end Gopf.Pf
