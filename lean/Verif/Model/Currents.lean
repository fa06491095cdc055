import Verif.Model.Prepare
import Verif.Model.WhiteNoise

/-!
# Conservative noise in a simulation

Model of steps of a model with `ConservativeNoise` (pf/noise.go). As for `WhiteNoise`, the numbers returned by
`rand.NormFloat64` are an argument: a step is given what is drawn in it.
-/

namespace Gopf.Pf
open Pfutil

variable {n : ℕ} {dims : List ℕ}

/-- What the currents are filled with in one step: `Calc` of the component `comp` writes `noise comp`.
pf/noise.go:90-97. -/
def currentDraws (uniquePrefix dim : ℕ) (noise : ℕ → Data n) (name : Str) : Option (Data n) :=
  ((List.range dim).map fun comp => (currentName uniquePrefix comp, noise comp)).lookup name

/-- The model in a step in which the derived fields with the given names are filled with the given numbers
(pf/model.go:237-241). The calculators registered under these names stand for these values. -/
def Bench.drawn (b : Bench n) (rhs : Fin b.fields.length → BuiltRHS n) (draws : Str → Option (Data n)) :
    Model b.fields.length b.derived.length n :=
  { b.toModel rhs with calcs := fun d st => (draws (b.derived[d]).1).getD ((b.toModel rhs).calcs d st) }

/-- Registration of the currents of conservative noise: together, by `RegisterExplicitTerm(name, noise,
noise.RequiredDerivedFields(n))` (pf/model.go:336-345, 362-366), or one at a time, by `RegisterDerivedField`
(pf/model.go:414-418). -/
def Bench.registerCurrents (b : Bench n) (together : Bool) (uniquePrefix dim : ℕ) : Bench n :=
  if together then b.registerDerivedFields (requiredDerivedFields uniquePrefix dim fun _ _ => 0)
  else (requiredDerivedFields uniquePrefix dim fun _ _ => 0).foldl (fun b f => b.registerDerivedField f.1 f.2) b

/-- `Euler.Propagate`, pf/euler.go:54-58, where in the step `j` the component `comp` of the current draws
`noise j comp`. -/
noncomputable def Bench.noisyPropagate (b : Bench dims.prod) (rhs : Fin b.fields.length → BuiltRHS dims.prod)
    (uniquePrefix dim : ℕ) (noise : ℕ → ℕ → Data dims.prod) (steps : ℕ)
    (p : Stepper dims.prod × Store b.fields.length b.derived.length dims.prod) :
    Stepper dims.prod × Store b.fields.length b.derived.length dims.prod :=
  (List.range steps).foldl (fun p j => eulerStep (b.drawn rhs (currentDraws uniquePrefix dim (noise j))) p) p

end Gopf.Pf
