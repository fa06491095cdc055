import Verif.Model.Assemble

/-!
# White noise

Model of `WhiteNoise` (pf/noise.go) and of steps of a model in which a registered function draws random numbers. The
numbers returned by `rand.NormFloat64` are an argument: a step is given what is drawn in it.
-/

namespace Gopf.Pf
open Pfutil

variable {nf nd n : ℕ} {dims : List ℕ}

/-- `WhiteNoise.Generate` with Strength `strength`, where `ξ` is what `rand.NormFloat64` returns. pf/noise.go:20-23. -/
noncomputable def whiteNoise (strength ξ : ℝ) : ℂ := ((ξ * Real.sqrt (2 * strength) : ℝ) : ℂ)

/-- `RegisterFunction(name, noise.Generate)`, pf/model.go:400-412. What the function returns is not a function of the
bricks; it is given separately to each step (`drawn`), and the function registered here stands for these values. -/
def EqModel.registerNoise (m : EqModel n) (name : Str) : EqModel n := m.registerFunction name fun b => b name

/-- The model in a step in which the derived field `d` is filled with the numbers `η`: `Update` calls the function for
every node. pf/model.go:77-80, 237-241. -/
def Model.drawn (m : Model nf nd n) (d : Fin nd) (η : Data n) : Model nf nd n :=
  { m with calcs := Function.update m.calcs d fun _ => η }

/-- `Euler.Propagate`, pf/euler.go:54-58, where the step `j` draws `η j`. -/
noncomputable def noisyPropagate (m : Model nf nd dims.prod) (d : Fin nd) (η : ℕ → Data dims.prod) (steps : ℕ)
    (p : Stepper dims.prod × Store nf nd dims.prod) : Stepper dims.prod × Store nf nd dims.prod :=
  (List.range steps).foldl (fun p j => eulerStep (m.drawn d (η j)) p) p

end Gopf.Pf
