import Mathlib.Data.List.Basic
import Mathlib.Data.List.Lex

/-!
# Specification vocabulary: what a log of saves says about a simulation and time step
-/

namespace Gopf.Spec

/-- One save: simulation, time step, and the named arrays. -/
structure Save (V : Type) where
  sim : Int
  ts : Int
  fs : List (List Char × List (V × V))

variable {V : Type}

/-- The arrays saved for a simulation, time step and name, oldest first. -/
def savedUnder (log : List (Save V)) (sim ts : Int) (nm : List Char) : List (List (V × V)) :=
  (log.flatMap fun e => if e.sim = sim ∧ e.ts = ts then e.fs else []).filterMap
    fun f => if f.1 = nm then some f.2 else none

/-- `L` is what should be loaded: names in strictly increasing order, exactly the names that were
saved, each with the real parts of the array saved last. -/
def IsSnapshot [Zero V] (log : List (Save V)) (sim ts : Int) (L : List (List Char × List (V × V))) :
    Prop :=
  (L.map Prod.fst).Pairwise (· < ·) ∧
  ∀ nm data, (nm, data) ∈ L ↔ ∃ d, (savedUnder log sim ts nm).getLast? = some d ∧
    data = d.map fun v => (v.1, 0)

end Gopf.Spec
