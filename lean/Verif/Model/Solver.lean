import Verif.Model.Stepper

/-!
# Model of `pf/solver.go`

`σ` is everything the stepper, the terms, the callbacks and the monitors can change. Calls made by the
solver are recorded in a log. Callbacks that alter the solver itself (its lists of callbacks and
monitors, its stepper) are not modelled.
-/

namespace Gopf.Pf

/-- The calls made by the solver. Terms are identified by registry (implicit, explicit, mixed) and name,
callbacks and monitors by their position in the list. pf/solver.go:70-84, 106-120. -/
inductive Event
  | step
  | notified (registry : Fin 3) (name : Str) (t : ℝ)
  | callback (idx : ℕ) (epoch : ℤ)
  | monitor (idx : ℕ)

/-- `Solver`, pf/solver.go:29-37, together with the stepper (pf/solver.go:15-19) and the term
registries of the model. `order` is the order in which Go iterates over a map; it may be different
each time. -/
structure Solver (σ : Type) where
  step : σ → σ
  getTime : σ → ℝ
  terms : Fin 3 → List Str
  order : ℕ → List Str → List Str
  onStepFinished : Fin 3 → Str → ℝ → σ → σ
  callbacks : List (ℤ → σ → σ)
  monitors : List (σ → σ)
  startEpoch : ℤ

variable {σ : Type}

/-- Lines 74-76 (and 77-79, 80-82) of pf/solver.go: notify all terms of one registry. pf/solver.go:74-82. -/
def Solver.notify (s : Solver σ) (t : ℝ) (r : Fin 3) (w : σ × List Event) : σ × List Event :=
  (s.order w.2.length (s.terms r)).foldl
    (fun w name => (s.onStepFinished r name t w.1, w.2 ++ [.notified r name t])) w

/-- One iteration of `Propagate`, pf/solver.go:70-84. -/
def Solver.oneStep (s : Solver σ) (w : σ × List Event) : σ × List Event :=
  let w1 : σ × List Event := (s.step w.1, w.2 ++ [.step])
  let t := s.getTime w1.1
  s.notify t 2 (s.notify t 1 (s.notify t 0 w1))

/-- `Propagate`, pf/solver.go:70-84. -/
def Solver.propagate (s : Solver σ) (nsteps : ℕ) (w : σ × List Event) : σ × List Event :=
  (List.range nsteps).foldl (fun w _ => s.oneStep w) w

/-- The calls of the callbacks, pf/solver.go:110-112. -/
def Solver.runCallbacks (s : Solver σ) (epoch : ℤ) (w : σ × List Event) : σ × List Event :=
  (s.callbacks.zipIdx).foldl (fun w cb => (cb.1 epoch w.1, w.2 ++ [.callback cb.2 epoch])) w

/-- The updates of the monitors, pf/solver.go:115-117. -/
def Solver.runMonitors (s : Solver σ) (w : σ × List Event) : σ × List Event :=
  (s.monitors.zipIdx).foldl (fun w mo => (mo.1 w.1, w.2 ++ [.monitor mo.2])) w

/-- `Solve`, pf/solver.go:106-120. -/
def Solver.solve (s : Solver σ) (nepochs nsteps : ℕ) (w : σ × List Event) : σ × List Event :=
  (List.range nepochs).foldl
    (fun w (i : ℕ) => s.runMonitors (s.runCallbacks ((i : ℤ) + s.startEpoch) (s.propagate nsteps w))) w

end Gopf.Pf
