import Verif.Model.Sdd
import Verif.Model.FileIO

/-!
# Model of what the shrinking dimer stepper reports (`pf/sdd.go`)

The monitor, its log file, the file with the orientation, and the checks at the beginning of `Step`.
-/

namespace Gopf.Pf
open Pfutil
open scoped BigOperators

variable {nf nd : ℕ} {dims : List ℕ}

/-- `SDDMonitor`, pf/sdd.go:26-52, without the log file. -/
structure SDDMonitor where
  maxForce : ℝ
  forcePowerSpectrum : ℝ
  maxTorque : ℝ
  fieldNorm : ℝ
  fieldNormChange : ℝ

/-- `FieldNorm`, pf/sdd.go:377-386. -/
noncomputable def sddFieldNorm {n : ℕ} (fields : Fin nf → Data n) : ℝ :=
  ∑ i, ∑ j, ‖fields i j‖ * ‖fields i j‖

/-- The loops that look for the largest value, starting from zero: pf/sdd.go:226-232, 286-291. -/
noncomputable def largest (l : List ℝ) : ℝ := l.foldl (fun m x => if x > m then x else m) 0

/-- `diff` in line 227 of pf/sdd.go: what a step changes of the transformed fields, per unit of time.
`origField` is the transform of the undisplaced field, pf/sdd.go:207. -/
noncomputable def SDD.forceOn (s : SDD nf dims.prod) (m : Model nf nd dims.prod) (st : Store nf nd dims.prod)
    (i : Fin nf) (k : Fin dims.prod) : ℝ :=
  ‖((s.stepFields m st).1.fields i k - (s.dimerStores m st).2.2.fields i k) / (s.dt : ℂ)‖

/-- The assignments to `sdd.Monitor` in `Step`, pf/sdd.go:165-167, 202-203, 226-237, 285-291. -/
noncomputable def SDD.monitorStep (s : SDD nf dims.prod) (m : Model nf nd dims.prod)
    (st : Store nf nd dims.prod) (mon : SDDMonitor) : SDDMonitor :=
  let r := s.stepFields m st
  let torque := s.torque m r.1 r.2.1 r.2.2
  let fnorm := sddFieldNorm st.fields
  let power := ∑ i, ∑ k, s.forceOn m st i k * s.forceOn m st i k / (dims.prod : ℝ)
  { fieldNormChange := mon.fieldNorm - fnorm
    fieldNorm := fnorm
    maxForce := largest ((List.finRange nf).flatMap fun i => (List.finRange dims.prod).map fun k => s.forceOn m st i k)
    forcePowerSpectrum := Real.sqrt (power / ((nf * dims.prod : ℕ) : ℝ))
    maxTorque := largest ((List.finRange nf).flatMap fun i => (List.finRange dims.prod).map fun j =>
      |(torque i j).re|) }

/-- The stepper with all that changes in it. -/
structure SDDRun (nf : ℕ) (dims : List ℕ) where
  sdd : SDD nf dims.prod
  initialized : Bool
  monitor : SDDMonitor

/-- `NewSDD`, pf/sdd.go:122-130; fields not mentioned there are zero. -/
noncomputable def newSDD (nf : ℕ) (dims : List ℕ) (freq : Frequency dims.prod) : SDDRun nf dims :=
  { sdd := { tauOrientation := 1, tauDimerLength := 1, alpha := 0.5, dt := 0, currentStep := 0,
             minDimerLength := 0, initDimerLength := 0, orientation := fun _ _ => 0, freq := freq }
    initialized := false
    monitor := ⟨0, 0, 0, 0, 0⟩ }

/-- `Init`, pf/sdd.go:389-407. -/
noncomputable def SDDRun.init (r : SDDRun nf dims) (init final : Fin nf → Data dims.prod) : SDDRun nf dims :=
  { r with sdd := r.sdd.init init final, initialized := true }

/-- `SetInitialOrientation`, pf/sdd.go:412-426: panics for another length. -/
noncomputable def SDDRun.setInitialOrientation (r : SDDRun nf dims) (orient : List ℝ) :
    Option (SDDRun nf dims) :=
  if orient.length ≠ nf * dims.prod then none
  else some { r with
    sdd := r.sdd.setOrientation fun i j => orient.getD (i.val * dims.prod + j.val) 0
    initialized := true }

/-- `SetFilter`, pf/sdd.go:430-432: always panics. -/
def SDDRun.setFilter (_r : SDDRun nf dims) (_filter : ℝ → ℝ) : Option (SDDRun nf dims) := none

/-- `Step`, pf/sdd.go:159-301, with the checks in lines 160-163 and 132-136 and the monitor. -/
noncomputable def SDDRun.step (m : Model nf nd dims.prod) (p : SDDRun nf dims × Store nf nd dims.prod) :
    Option (SDDRun nf dims × Store nf nd dims.prod) :=
  if p.1.initialized = false then none
  else if p.1.sdd.dt < 1 / 10 ^ 16 then none
  else
    let q := SDD.step m (p.1.sdd, p.2)
    some ({ p.1 with sdd := q.1, monitor := p.1.sdd.monitorStep m p.2 p.1.monitor }, q.2)

/-- A number of steps. -/
noncomputable def SDDRun.steps (m : Model nf nd dims.prod) :
    ℕ → SDDRun nf dims × Store nf nd dims.prod → Option (SDDRun nf dims × Store nf nd dims.prod)
  | 0, p => some p
  | k + 1, p => (SDDRun.step m p).bind (SDDRun.steps m k)

/-- The header of the log, pf/sdd.go:67. -/
def sddLogHeader : List Str :=
  ["MaxForce".toList, "MaxTorque".toList, "ForcePowerSpect".toList, "FieldNorm".toList,
    "FieldNormChange".toList]

/-- A record of the log, pf/sdd.go:75-81. `fmt` is `%f` on floats. -/
def SDDMonitor.record (fmt : ℝ → Str) (mon : SDDMonitor) : List Str :=
  [fmt mon.maxForce, fmt mon.maxTorque, fmt mon.forcePowerSpectrum, fmt mon.fieldNorm,
    fmt mon.fieldNormChange]

/-- `Log`, pf/sdd.go:56-83: the records of the log file before and after a call; without a file nothing
happens. -/
def SDDMonitor.log (fmt : ℝ → Str) (mon : SDDMonitor) : Option (List (List Str)) → Option (List (List Str))
  | none => none
  | some file => some ((if file = [] then [sddLogHeader] else file) ++ [mon.record fmt])

/-- The slice expression `l[a:b]` of pf/sdd.go:442 (the array has no spare capacity). -/
def rowSlice (l : List ℚ) (a b : Int) : Option (List ℚ) :=
  if 0 ≤ a ∧ a ≤ b ∧ b ≤ (l.length : Int) then some ((l.drop a.toNat).take (b - a).toNat) else none

/-- `SaveOrientation`, pf/sdd.go:435-444, on the flat array: what is passed to `SaveCsv`, `none` if the
division or a slice panics. -/
def orientationColumns (orientation : List ℚ) (dims : List Int) : Option (List (Str × List ℚ)) :=
  let numNodes := prodInt dims
  if numNodes = 0 then none
  else
    let numFields := Int.tdiv orientation.length numNodes
    (List.range numFields.toNat).mapM fun i : ℕ =>
      (rowSlice orientation ((i : Int) * numNodes) (((i : Int) + 1) * numNodes)).map fun c =>
        ("orientation".toList ++ fmtInt (i : Int), c)

/-- The file written by `SaveOrientation`, pf/sdd.go:446. -/
def saveOrientation (orientation : List ℚ) (dims : List Int) : Option (Option (List (List Str))) := do
  let data ← orientationColumns orientation dims
  saveCsv data dims

end Gopf.Pf
