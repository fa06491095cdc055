import Verif.Model.Stepper

/-!
# Model of the memory behind the fields: `NewField` of `pf/model.go` and the steppers in place

`NewField` keeps the slice it is given (pf/model.go:53), `AddField` and `m.Fields` hold slice headers,
and the steppers change the numbers behind them in place. Here the memory is a sequence of cells that
hold complex numbers, and a slice is the number of its first cell; all slices have the length of the
grid. As in the rest of the model, a calculator of a derived field reads everything before it writes.
-/

namespace Gopf.Pf
open Pfutil

/-- The cells of the memory behind the slices of pf/model.go:18 and pf/model.go:65. -/
abbrev Mem := ℕ → ℂ

variable {nf nd n : ℕ}

/-- The numbers of the slice that starts at cell `a`. Reading `f.Data`, pf/model.go:23-25. -/
def readMem (n : ℕ) (h : Mem) (a : ℕ) : Data n := fun j => h (a + j.val)

/-- Overwriting all numbers of the slice that starts at cell `a`, as `copy(f.Data, d)` does, pf/rk4.go:63. -/
def writeMem (h : Mem) (a : ℕ) (d : Data n) : Mem := fun c =>
  if hc : a ≤ c ∧ c < a + n then d ⟨c - a, by omega⟩ else h c

/-- Where the data of the fields and of the derived fields begin: the slice headers in `m.Fields` and
`m.DerivedFields`, pf/model.go:116-117. -/
structure Places (nf nd : ℕ) where
  fields : Fin nf → ℕ
  derived : Fin nd → ℕ

/-- What the bricks give access to, pf/model.go:118. -/
def view (n : ℕ) (P : Places nf nd) (h : Mem) : Store nf nd n :=
  ⟨fun i => readMem n h (P.fields i), fun d => readMem n h (P.derived d)⟩

/-- `SyncDerivedFields`, pf/model.go:234-241. -/
def syncMem (m : Model nf nd n) (P : Places nf nd) (h : Mem) : Mem :=
  (List.finRange nd).foldl (fun h d => writeMem h (P.derived d) (m.calcs d (view n P h))) h

/-- A loop that transforms the data of each field in place: pf/euler.go:19-21, pf/euler.go:42-45,
pf/rk4.go:32-34, pf/rk4.go:70-73, pf/rk4.go:117-119. -/
def eachField (P : Places nf nd) (f : Fin nf → Data n → Data n) (h : Mem) : Mem :=
  (List.finRange nf).foldl (fun h i => writeMem h (P.fields i) (f i (readMem n h (P.fields i)))) h

/-- A loop that transforms the data of each derived field in place: pf/euler.go:22-24,
pf/rk4.go:88-90, pf/rk4.go:120-122. -/
def eachDerived (P : Places nf nd) (f : Data n → Data n) (h : Mem) : Mem :=
  (List.finRange nd).foldl (fun h d => writeMem h (P.derived d) (f (readMem n h (P.derived d)))) h

/-- Body of the loop over the equations, pf/euler.go:27-39: `d[j] = …` and the filter change the data
of the field in place. -/
noncomputable def eulerFieldMem (m : Model nf nd n) (s : Stepper n) (t : ℝ) (P : Places nf nd) (h : Mem)
    (i : Fin nf) : Mem :=
  let rhs := m.getRHS i (view n P h) s.freq t
  let denum := m.getDenum i (view n P h) s.freq t
  let d : Data n := fun j =>
    (readMem n h (P.fields i) j + (s.dt : ℂ) * rhs j) / (1 - (s.dt : ℂ) * denum j)
  writeMem h (P.fields i) (optFilter s.filter s.freq d)

variable {dims : List ℕ}

/-- `IFFT` followed by `DivRealScalar`, pf/euler.go:43-44. -/
noncomputable def backward (dims : List ℕ) (d : Data dims.prod) : Data dims.prod :=
  divRealScalar (ifft dims d) (dims.prod : ℕ)

/-- `Euler.Step`, pf/euler.go:16-47. -/
noncomputable def eulerStepMem (m : Model nf nd dims.prod) (P : Places nf nd)
    (p : Stepper dims.prod × Mem) : Stepper dims.prod × Mem :=
  let h1 := eachDerived P (fft dims) (eachField P (fun _ => fft dims) (syncMem m P p.2))
  let h2 := (List.finRange nf).foldl (eulerFieldMem m p.1 p.1.getTime P) h1
  ({ p.1 with currentStep := p.1.currentStep + 1 }, eachField P (fun _ => backward dims) h2)

/-- Loop of `correction` over the fields, pf/rk4.go:103-114. -/
noncomputable def rk4FieldMem (m : Model nf nd dims.prod) (s : Stepper dims.prod)
    (k : Fin nf → Data dims.prod) (factor : ℝ) (P : Places nf nd) (h : Mem) (i : Fin nf) : Mem :=
  let denum := m.getDenum i (view dims.prod P h) s.freq s.getTime
  let d : Data dims.prod := fun j =>
    (readMem dims.prod h (P.fields i) j + ((factor * s.dt : ℝ) : ℂ) * k i j) /
      (1 - ((factor * s.dt : ℝ) : ℂ) * denum j)
  writeMem h (P.fields i) (backward dims d)

/-- `correction`, pf/rk4.go:101-127. `GetRHS` returns a new slice (pf/model.go:284). -/
noncomputable def rk4CorrectionMem (m : Model nf nd dims.prod) (s : Stepper dims.prod)
    (k : Fin nf → Data dims.prod) (factor : ℝ) (P : Places nf nd) (h : Mem) :
    Mem × (Fin nf → Data dims.prod) :=
  let h1 := (List.finRange nf).foldl (rk4FieldMem m s k factor P) h
  let h2 := eachDerived P (fft dims) (eachField P (fun _ => fft dims) (syncMem m P h1))
  (h2, fun i => m.getRHS i (view dims.prod P h2) s.freq s.getTime)

/-- Last loop of `RK4.Step`, pf/rk4.go:57-68. -/
noncomputable def rk4LastMem (m : Model nf nd dims.prod) (s : Stepper dims.prod)
    (final : Fin nf → Data dims.prod) (P : Places nf nd) (h : Mem) (i : Fin nf) : Mem :=
  let denum := m.getDenum i (view dims.prod P h) s.freq s.getTime
  let d : Data dims.prod := fun j => final i j / (1 - (s.dt : ℂ) * denum j)
  writeMem h (P.fields i) (optFilter s.filter s.freq d)

/-- `RK4.Step`, pf/rk4.go:29-74. `initial`, `final` and `kFactor` are copies (pf/rk4.go:40-42) in new
slices that nobody else knows; the fields of the model are set back to `initial` by copying
(pf/rk4.go:82). -/
noncomputable def rk4StepMem (m : Model nf nd dims.prod) (P : Places nf nd)
    (p : Stepper dims.prod × Mem) : Stepper dims.prod × Mem :=
  let s := p.1
  let h0 := eachField P (fun _ => fft dims) (syncMem m P p.2)
  let initial : Fin nf → Data dims.prod := fun i => readMem dims.prod h0 (P.fields i)
  let h1 := eachDerived P (fft dims) h0
  let k1 : Fin nf → Data dims.prod := fun i => m.getRHS i (view dims.prod P h1) s.freq s.getTime
  let final1 := rk4Accumulate s initial k1 (1 / 6)
  let c2 := rk4CorrectionMem m s k1 0.5 P (eachField P (fun i _ => initial i) h1)
  let final2 := rk4Accumulate s final1 c2.2 (1 / 3)
  let c3 := rk4CorrectionMem m s c2.2 0.5 P (eachField P (fun i _ => initial i) c2.1)
  let final3 := rk4Accumulate s final2 c3.2 (1 / 3)
  let c4 := rk4CorrectionMem m s c3.2 1 P (eachField P (fun i _ => initial i) c3.1)
  let final4 := rk4Accumulate s final3 c4.2 (1 / 6)
  let h5 := eachField P (fun i _ => initial i) c4.1
  let h6 := (List.finRange nf).foldl (rk4LastMem m s final4 P) h5
  (s, eachField P (fun _ => backward dims) h6)

/-- The memory together with the first cell that was not handed out yet: `make`, pf/model.go:48. -/
structure Arena where
  mem : Mem
  next : ℕ

/-- `make([]complex128, n)`: new cells, all zero. pf/model.go:48, pf/model.go:187, pf/model.go:403. -/
def Arena.make (A : Arena) (n : ℕ) : Arena × ℕ :=
  (⟨writeMem A.mem A.next (fun _ : Fin n => 0), A.next + n⟩, A.next)

/-- `NewField` for a grid with `n` nodes, pf/model.go:44-57: without data a new slice is made, with
data the slice (its first cell and its length) is kept, and a wrong length panics. -/
def Arena.newField (A : Arena) (n : ℕ) (data : Option (ℕ × ℕ)) : Option (Arena × ℕ) :=
  match data with
  | none => some (A.make n)
  | some (a, len) => if len = n then some (A, a) else none

/-- `Field.Copy`, pf/model.go:28-32. -/
def Arena.copyField (A : Arena) (n : ℕ) (a : ℕ) : Arena × ℕ :=
  let q := A.make n
  (⟨writeMem q.1.mem q.2 (readMem n q.1.mem a), q.1.next⟩, q.2)

/-- Several calls of `NewField`, one after the other; the places of the new fields. pf/model.go:44-57. -/
def Arena.newFields (n : ℕ) : List (Option (ℕ × ℕ)) → Arena → Option (Arena × List ℕ)
  | [], A => some (A, [])
  | data :: rest, A => do
    let q ← A.newField n data
    let r ← Arena.newFields n rest q.1
    return (r.1, q.2 :: r.2)

end Gopf.Pf
