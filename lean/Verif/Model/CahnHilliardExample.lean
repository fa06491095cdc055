import Verif.Model.Parser

/-!
# Model of the example program `examples/cahnHilliard/main.go`

The domain, the time step and the coefficient of the gradient are parameters; in the program they are 128 by 128 nodes,
0.1 and 2 (lines 12-14, 27). Random numbers, writing files and `Summarize` are not modelled: the field at the start is
given, with the range of line 22 as `CahnHilliardStart`.
-/

namespace Gopf.Pf

variable {n : ℕ}

/-- The scalars and the field, examples/cahnHilliard/main.go:26-33. -/
def cahnHilliardModel (n : ℕ) : EqModel n :=
  (((EqModel.empty (n := n)).addScalar "gamma".toList).addScalar "m1".toList).addField "conc".toList

/-- The equation, examples/cahnHilliard/main.go:34. -/
def cahnHilliardText : Str := "dconc/dt = LAP conc^3 + m1*LAP conc + m1*gamma*LAP^2 conc".toList

/-- The values of the scalars, examples/cahnHilliard/main.go:26-27. -/
noncomputable def cahnHilliardScalars (gamma : ℝ) (name : Str) : ℂ :=
  if name = "gamma".toList then (gamma : ℂ) else if name = "m1".toList then -1 else 0

/-- The values at the start, examples/cahnHilliard/main.go:19-23: `2 r - 1` with `r` at least zero and below one. -/
def CahnHilliardStart (u : Data n) : Prop := ∀ x, (u x).im = 0 ∧ -1 ≤ (u x).re ∧ (u x).re < 1

end Gopf.Pf
