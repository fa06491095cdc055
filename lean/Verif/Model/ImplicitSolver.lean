import Verif.Model.ImplicitEuler

/-!
# Model of the non-linear solver at work in `pf/implicitEuler.go`

`Model/ImplicitEuler.lean` hands a function to the solver. In the code this function works on the memory of the model:
every evaluation overwrites the fields and derived fields, and the next evaluation finds what the last one left. Here
the solver (package gononlin) is any program that evaluates its function at points of its choice, each of which may
depend on all earlier results.
-/

namespace Gopf.Pf
open Pfutil

variable {nf nd : ℕ} {dims : List ℕ}

/-- A program that evaluates a function and returns a point, in place of `NewtonKrylov.Solve`,
pf/implicitEuler.go:201. -/
inductive SolverProg
  | done (x : SolverVec ℝ)
  | eval (x : SolverVec ℝ) (next : SolverVec ℝ → SolverProg)

/-- What the program returns for a function without memory. -/
def SolverProg.result (F : SolverVec ℝ → SolverVec ℝ) : SolverProg → SolverVec ℝ
  | .done x => x
  | .eval x next => (next (F x)).result F

/-- The memory of the model after an evaluation, pf/implicitEuler.go:68-72 (the rest of `updateEquation` changes
neither fields nor derived fields). -/
noncomputable def evalStore (m : Model nf nd dims.prod) (st : Store nf nd dims.prod) (x : SolverVec ℝ) :
    Store nf nd dims.prod := ieFft m { st with fields := vec2fields x st.fields }

/-- The program at work on the memory of the model, pf/implicitEuler.go:190-201. -/
noncomputable def SolverProg.run (m : Model nf nd dims.prod) (s : Stepper dims.prod) (rhsPrev : SolverVec ℂ)
    (orig : Fin nf → Data dims.prod) : SolverProg → Store nf nd dims.prod → Store nf nd dims.prod × SolverVec ℝ
  | .done x, st => (st, x)
  | .eval x next, st =>
    (next (updateEquation m s rhsPrev orig st x fun _ => 0)).run m s rhsPrev orig (evalStore m st x)

/-- `ImplicitEuler.Step`, pf/implicitEuler.go:165-207, with the solver at work on the memory of the model. -/
noncomputable def ieStepIn (prog : SolverVec ℝ → SolverProg) (m : Model nf nd dims.prod)
    (p : Stepper dims.prod × Store nf nd dims.prod) : Stepper dims.prod × Store nf nd dims.prod :=
  let st1 := ieFft m p.2
  let orig := st1.fields
  let rhsPrev := collectRHS m p.1 st1
  let st3 := eulerStepAt m p.1 p.1.getTime (ifftFields st1)
  let r := (prog (fields2vec st3.fields fun _ => 0)).run m p.1 rhsPrev orig st3
  ({ p.1 with currentStep := p.1.currentStep + 1 }, { r.1 with fields := vec2fields r.2 r.1.fields })

/-- Several steps, pf/solver.go:69-84. -/
noncomputable def ieRunIn (prog : SolverVec ℝ → SolverProg) (m : Model nf nd dims.prod) (k : ℕ)
    (p : Stepper dims.prod × Store nf nd dims.prod) : Stepper dims.prod × Store nf nd dims.prod :=
  (List.range k).foldl (fun p _ => ieStepIn prog m p) p

/-- Several steps with a solver that gets a function without memory. -/
noncomputable def ieRun (solve : (SolverVec ℝ → SolverVec ℝ) → SolverVec ℝ → SolverVec ℝ)
    (m : Model nf nd dims.prod) (k : ℕ) (p : Stepper dims.prod × Store nf nd dims.prod) :
    Stepper dims.prod × Store nf nd dims.prod :=
  (List.range k).foldl (fun p _ => ieStep solve m p) p

end Gopf.Pf
