import Verif.Model.Volume
import Verif.Model.LinElast
import Verif.Model.Register
import Verif.Model.Assemble

/-!
# Model of the example program `examples/strain_single_precipitate/main.go`

The domain, the constants, the stiffness and the misfit are parameters; the values that are written in the program are
`precipitateConstants`, a domain of 64 by 64 nodes, `precipitateStiffness` and `precipitateMisfit`. Writing files and
`Summarize` are not modelled.
-/

namespace Gopf.Pf
open Pfutil

variable {n : ℕ}

/-- `H`, examples/strain_single_precipitate/main.go:15-17. -/
def precipitateH (x : ℝ) : ℝ := 3 * x * x - 2 * x * x * x

/-- `dHdx`, examples/strain_single_precipitate/main.go:20-22. -/
def precipitateDH (x : ℝ) : ℝ := 6 * x - 6 * x * x

/-- `dLandaudx`, examples/strain_single_precipitate/main.go:30-32. -/
def precipitateDLandau (x : ℝ) : ℝ := 2 * x - 6 * x * x + 4 * x * x * x

/-- `ModelFunctions`, examples/strain_single_precipitate/main.go:36-41, with the scalar `kappa` (line 87) and the time
step (line 67). -/
structure Precipitate where
  A : ℝ
  B : ℝ
  W : ℝ
  M : ℝ
  kappa : ℝ
  dt : ℝ

/-- The values, examples/strain_single_precipitate/main.go:67, 87, 93-98. -/
noncomputable def precipitateConstants : Precipitate := ⟨1 / 10, 1 / 10, 1 / 10, 1, 1 / 10, 1 / 10⟩

/-- The stiffness, examples/strain_single_precipitate/main.go:111. -/
def precipitateStiffness : Elasticity.Rank4 := Elasticity.cubicMaterial 110 60 30

/-- The misfit, examples/strain_single_precipitate/main.go:110. -/
noncomputable def precipitateMisfit : Elasticity.Mat3 := !![5 / 100, 0, 0; 0, -1 / 100, 0; 0, 0, 0]

/-- `ChemicalPotential`, examples/strain_single_precipitate/main.go:45-50. -/
noncomputable def precipitateChemPot (p : Precipitate) (b : Bricks n) : Data n := fun i =>
  let conc := (b "conc".toList i).re
  let x := (b "phase".toList i).re
  let dfdc : ℂ := ((p.A * conc * (1 - precipitateH x) - p.B * (1 - conc) * precipitateH x : ℝ) : ℂ) * (p.M : ℂ);
  -dfdc

/-- `DerivPhase`, examples/strain_single_precipitate/main.go:53-58. -/
noncomputable def precipitateDerivPhase (p : Precipitate) (b : Bricks n) : Data n := fun i =>
  let conc := (b "conc".toList i).re
  let x := (b "phase".toList i).re
  let val : ℝ := -0.5 * p.A * conc ^ 2 * precipitateDH x + 0.5 * p.B * (1 - conc) ^ 2 * precipitateDH x +
    p.W * precipitateDLandau x;
  -(val : ℂ)

/-- `SmearingDeriv`, examples/strain_single_precipitate/main.go:61-64. -/
noncomputable def precipitateSmearing (b : Bricks n) : Data n := fun i =>
  let x := (b "phase".toList i).re
  ((precipitateDH x : ℝ) : ℂ)

/-- The initial value of both fields, examples/strain_single_precipitate/main.go:76-84, on a domain of `M` by `M` nodes:
a square in the middle. -/
def precipitateSquare (M : ℕ) (i : ℕ) : ℝ :=
  let r := i / M
  let c := i % M
  if r > 3 * M / 8 ∧ r < 5 * M / 8 ∧ c > 3 * M / 8 ∧ c < 5 * M / 8 then 1 else 0

/-- The closure of `VolumeConservingLP.Construct`, pf/volumeConserving.go:19-28, as registered under
`CONSERVE_PREC_VOL`, examples/strain_single_precipitate/main.go:106-107. -/
noncomputable def precipitateConserve (lp : VolumeLP) : BTerm n := fun b _ _ i =>
  b "SMEARING_DERIV".toList i * (lp.multiplier : ℂ)

/-- The closure of `HomogeneousModulusLinElast.Construct`, pf/homoLinElast.go:47-99, as registered under `LIN_ELAST`,
examples/strain_single_precipitate/main.go:112-113. It reads no brick. -/
noncomputable def precipitateElastic {dims : List ℕ} (el : HomoLinElast dims.prod) : BTerm dims.prod := fun _ _ _ => el.construct

/-- The model before the equations are added, examples/strain_single_precipitate/main.go:71-113. The two explicit terms
have a state that changes from step to step: the closures read it when they are evaluated. -/
noncomputable def precipitateModel (dims : List ℕ) (p : Precipitate) (lp : VolumeLP) (el : HomoLinElast dims.prod) :
    Option (EqModel dims.prod) :=
  let m := ((EqModel.empty.addScalar "kappa".toList).addField "conc".toList).addField "phase".toList
  let m := m.registerFunction "CHEMICALPOT".toList (precipitateChemPot p)
  let m := m.registerFunction "DERIV_PHASE_ORDER".toList (precipitateDerivPhase p)
  let m := m.registerFunction "SMEARING_DERIV".toList precipitateSmearing
  (m.registerExplicit "CONSERVE_PREC_VOL".toList (precipitateConserve lp)).bind fun m =>
    m.registerExplicit "LIN_ELAST".toList (precipitateElastic el)

/-- The equations, examples/strain_single_precipitate/main.go:115-116. -/
def precipitateEquations : List Str :=
  ["dconc/dt = CHEMICALPOT + kappa*LAP conc".toList,
   "dphase/dt = DERIV_PHASE_ORDER + LIN_ELAST + kappa*LAP phase + CONSERVE_PREC_VOL".toList]

/-- The fields, the stepper and the state of the two terms between two steps. -/
structure PrecipitateState (dims : List ℕ) where
  lp : VolumeLP
  el : HomoLinElast dims.prod
  stepper : Stepper dims.prod
  conc : Data dims.prod
  phase : Data dims.prod

/-- The state before the first step, examples/strain_single_precipitate/main.go:72-112, 119, for any initial fields. -/
noncomputable def precipitateInit (dims : List ℕ) (p : Precipitate) (r : Elasticity.Rank4) (misfit : Elasticity.Mat3)
    (conc phase : Data dims.prod) : PrecipitateState dims :=
  ⟨newVolumeLP p.dt, newHomogeneousModulus dims.prod r misfit, ⟨p.dt, freqOf dims, none, 0⟩, conc, phase⟩

/-- One round of `Solver.Propagate`, pf/solver.go:70-83: a step of the Euler stepper and `OnStepFinished` of both
terms. The derived fields are computed anew in every step, their values before it do not matter. -/
noncomputable def precipitateRound {dims : List ℕ} (p : Precipitate) (zero : Fin dims.prod) (S : PrecipitateState dims) :
    Option (PrecipitateState dims) :=
  let c : Str → ℂ := fun _ => (p.kappa : ℂ)
  (precipitateModel dims p S.lp S.el).bind fun m0 =>
  (precipitateEquations.foldlM EqModel.addEquation m0).bind fun m =>
  (m.assemble c).map fun M =>
    let st : Store m.fields.length m.derived.length dims.prod :=
      ⟨fun j => if m.fields[j] = "conc".toList then S.conc else S.phase, fun _ _ => 0⟩
    let q := eulerStep M (S.stepper, st)
    let b := m.brick c q.2
    ⟨S.lp.finished zero (b "phase".toList) (b "SMEARING_DERIV".toList), S.el.onStepFinished (b "phase".toList), q.1,
      b "conc".toList, b "phase".toList⟩

/-- `k` rounds, pf/solver.go:71. -/
noncomputable def precipitateRounds {dims : List ℕ} (p : Precipitate) (zero : Fin dims.prod) :
    ℕ → PrecipitateState dims → Option (PrecipitateState dims)
  | 0, S => some S
  | k + 1, S => (precipitateRounds p zero k S).bind (precipitateRound p zero)

end Gopf.Pf
