import Verif.Model.Stepper

/-!
# Model of `pf/monitor.go` and of the user's calls to `pf/solver.go`

A session is a sequence of calls made on one solver. Callbacks and registered terms are left out here (they are
in `Model/Solver.lean`).
-/

namespace Gopf.Pf
open Pfutil

variable {nf nd n : ℕ} {dims : List ℕ}

/-- What a name in `Model.Bricks` stands for, pf/model.go:80-108, 141-149, 415-418. -/
inductive BrickRef (nf nd : ℕ)
  | field (i : Fin nf)
  | derived (d : Fin nd)
  | scalar (c : ℂ)

/-- The data a `Get` reads, pf/model.go:23-25, 71-73. `none`: index out of range. -/
def dataAt (x : Data n) (i : ℤ) : Option ℂ :=
  if h : 0 ≤ i ∧ i.toNat < n then some (x ⟨i.toNat, h.2⟩) else none

/-- `Get` of the three kinds of bricks, pf/model.go:23-25, 71-73, 106-108. -/
def BrickRef.get (st : Store nf nd n) (i : ℤ) : BrickRef nf nd → Option ℂ
  | .field j => dataAt (st.fields j) i
  | .derived d => dataAt (st.derived d) i
  | .scalar c => some c

/-- `PointMonitor`, pf/monitor.go:9-14. -/
structure PointMonitor where
  data : List ℝ
  site : ℤ
  field : Str

/-- `NewPointMonitor`, pf/monitor.go:17-24. -/
def newPointMonitor (site : ℤ) (field : Str) : PointMonitor := ⟨[], site, field⟩

/-- `PointMonitor.Add`, pf/monitor.go:27-30. A name that is not in the map gives a nil brick. -/
noncomputable def PointMonitor.add (bricks : Str → Option (BrickRef nf nd)) (st : Store nf nd n) (p : PointMonitor) :
    Option PointMonitor := do
  let b ← bricks p.field
  let z ← b.get st p.site
  return { p with data := p.data ++ [z.re] }

/-- The steppers known to `SetStepper`, pf/solver.go:88-103. -/
inductive StepperKind
  | euler
  | rk4

/-- The part of `Solver` that changes during a session, pf/solver.go:29-37. -/
structure SolverState (nf nd : ℕ) (dims : List ℕ) where
  dt : ℝ
  kind : StepperKind
  stepper : Stepper dims.prod
  store : Store nf nd dims.prod
  monitors : List PointMonitor

/-- `NewSolver`, pf/solver.go:40-61: the data of the fields as slices; panics if one has the wrong length. -/
noncomputable def newSolver (dims : List ℕ) (dt : ℝ) (fields : Fin nf → List ℂ) (derived : Fin nd → Data dims.prod) :
    Option (SolverState nf nd dims) :=
  if h : ∀ i, (fields i).length = dims.prod then
    some ⟨dt, .euler, ⟨dt, freqOf dims, none, 0⟩, ⟨fun i j => (fields i).get (Fin.cast (h i).symm j), derived⟩, []⟩
  else none

/-- `Stepper.Step`, pf/solver.go:72. -/
noncomputable def SolverState.step (m : Model nf nd dims.prod) (s : SolverState nf nd dims) : SolverState nf nd dims :=
  let p := match s.kind with
    | .euler => eulerStep m (s.stepper, s.store)
    | .rk4 => rk4Step m (s.stepper, s.store)
  { s with stepper := p.1, store := p.2 }

/-- `Propagate`, pf/solver.go:69-84. -/
noncomputable def SolverState.propagate (m : Model nf nd dims.prod) (nsteps : ℤ) (s : SolverState nf nd dims) :
    SolverState nf nd dims :=
  (List.range nsteps.toNat).foldl (fun s _ => s.step m) s

/-- `SetStepper`, pf/solver.go:88-103. -/
noncomputable def SolverState.setStepper (name : Str) (s : SolverState nf nd dims) : Option (SolverState nf nd dims) :=
  if name = "euler".toList then
    some { s with kind := .euler, stepper := ⟨s.dt, freqOf dims, none, 0⟩ }
  else if name = "rk4".toList then
    some { s with kind := .rk4, stepper := ⟨s.dt, freqOf dims, none, 0⟩ }
  else none

/-- The updates of the monitors, pf/solver.go:115-117. -/
noncomputable def SolverState.runMonitors (bricks : Str → Option (BrickRef nf nd)) (s : SolverState nf nd dims) :
    Option (SolverState nf nd dims) := do
  let ms ← s.monitors.mapM (PointMonitor.add bricks s.store)
  return { s with monitors := ms }

/-- One epoch of `Solve`, pf/solver.go:107-119. -/
noncomputable def SolverState.epoch (m : Model nf nd dims.prod) (bricks : Str → Option (BrickRef nf nd)) (nsteps : ℤ)
    (s : SolverState nf nd dims) : Option (SolverState nf nd dims) :=
  (s.propagate m nsteps).runMonitors bricks

/-- `Solve`, pf/solver.go:106-120. -/
noncomputable def SolverState.solve (m : Model nf nd dims.prod) (bricks : Str → Option (BrickRef nf nd))
    (nepochs nsteps : ℤ) (s : SolverState nf nd dims) : Option (SolverState nf nd dims) :=
  (List.range nepochs.toNat).foldlM (fun s _ => s.epoch m bricks nsteps) s

/-- The calls a user can make. -/
inductive SolverCall
  | addMonitor (site : ℤ) (field : Str)
  | setStepper (name : Str)
  | setFilter (filter : ℝ → ℝ)
  | propagate (nsteps : ℤ)
  | solve (nepochs nsteps : ℤ)

/-- One call: `AddMonitor` of a new point monitor (pf/solver.go:123-125), `SetStepper`, `Stepper.SetFilter`
(pf/euler.go:62-64, pf/rk4.go:138-140), `Propagate`, `Solve`. -/
noncomputable def SolverState.call (m : Model nf nd dims.prod) (bricks : Str → Option (BrickRef nf nd))
    (s : SolverState nf nd dims) : SolverCall → Option (SolverState nf nd dims)
  | .addMonitor site field => some { s with monitors := s.monitors ++ [newPointMonitor site field] }
  | .setStepper name => s.setStepper name
  | .setFilter filter => some { s with stepper := { s.stepper with filter := some filter } }
  | .propagate nsteps => some (s.propagate m nsteps)
  | .solve nepochs nsteps => s.solve m bricks nepochs nsteps

/-- A session. -/
noncomputable def SolverState.session (m : Model nf nd dims.prod) (bricks : Str → Option (BrickRef nf nd))
    (calls : List SolverCall) (s : SolverState nf nd dims) : Option (SolverState nf nd dims) :=
  calls.foldlM (fun s c => s.call m bricks c) s

end Gopf.Pf
