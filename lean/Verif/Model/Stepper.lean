import Verif.Model.Dft
import Verif.Model.Prefix
import Mathlib.Logic.Function.Basic
import Mathlib.Data.List.FinRange

/-!
# Model of `pf/model.go` (evaluation), `pf/euler.go` and `pf/rk4.go`

A model has `nf` fields (one equation each) and `nd` derived fields on `n` nodes. The data arrays are
exact complex numbers. A term closure reads the bricks when it is evaluated, so it is a function of
the store. Terms are modelled as stateless (terms that keep internal state, such as noise, are not).
-/

namespace Gopf.Pf
open Pfutil

/-- The data behind `m.Fields` and `m.DerivedFields` (pf/model.go:116-117), which is also what the
bricks give access to. -/
structure Store (nf nd n : ℕ) where
  fields : Fin nf → Data n
  derived : Fin nd → Data n

/-- A term as built by `Build`: a closure over the bricks. The elements of pf/model.go:286. -/
abbrev STerm (nf nd n : ℕ) := Store nf nd n → Term n

/-- `Source`, pf/sourceTerm.go:14-17. -/
structure Source where
  pos : List ℝ
  f : ℝ → ℝ

/-- `pfutil.Dot`, pfutil/sliceOperations.go, for slices of equal length. pfutil/sliceOperations.go:52-58. -/
def dotR (a b : List ℝ) : ℝ := (List.zipWith (fun x y : ℝ => x * y) a b).sum

/-- `Source.Eval`, pf/sourceTerm.go:25-30. -/
noncomputable def Source.eval {n : ℕ} (s : Source) : Term n := fun freq t i =>
  (s.f t : ℂ) * Complex.exp (-(Complex.I * ((2 * Real.pi * dotR (freq i) s.pos : ℝ) : ℂ)))

/-- The evaluated part of `Model`, pf/model.go:115-126: calculators of the derived fields, the parsed
right-hand sides `RHS` (pf/rhsBuilder.go:19-22), the sources of each equation and the modifiers
(pf/model.go:109-112). -/
structure Model (nf nd n : ℕ) where
  calcs : Fin nd → Store nf nd n → Data n
  terms : Fin nf → List (STerm nf nd n)
  denum : Fin nf → List (STerm nf nd n)
  sources : Fin nf → List Source
  modifiers : List (ℕ × (Data n → Data n))

variable {nf nd n : ℕ}

/-- `pfutil.ElemwiseAdd`. pfutil/sliceOperations.go:20-24. -/
def elemwiseAdd (a b : Data n) : Data n := fun i => a i + b i

/-- Lines 284-294 of `GetRHS`, pf/model.go: terms, then sources, before the modifiers. pf/model.go:284-294. -/
noncomputable def Model.rawRHS (m : Model nf nd n) (i : Fin nf) (st : Store nf nd n)
    (freq : Frequency n) (t : ℝ) : Data n :=
  (m.sources i).foldl (fun data s => elemwiseAdd data (s.eval freq t))
    ((m.terms i).foldl (fun data f => elemwiseAdd data (f st freq t)) (fun _ => 0))

/-- `GetRHS`, pf/model.go:283-303. -/
noncomputable def Model.getRHS (m : Model nf nd n) (i : Fin nf) (st : Store nf nd n)
    (freq : Frequency n) (t : ℝ) : Data n :=
  m.modifiers.foldl (fun data md => if md.1 = i.val then md.2 data else data) (m.rawRHS i st freq t)

/-- `GetDenum`, pf/model.go:306-314. -/
def Model.getDenum (m : Model nf nd n) (i : Fin nf) (st : Store nf nd n)
    (freq : Frequency n) (t : ℝ) : Data n :=
  (m.denum i).foldl (fun data f => elemwiseAdd data (f st freq t)) (fun _ => 0)

/-- `AddSource`, pf/model.go:152-154. -/
def Model.addSource (m : Model nf nd n) (eqNo : Fin nf) (s : Source) : Model nf nd n :=
  { m with sources := Function.update m.sources eqNo (m.sources eqNo ++ [s]) }

/-- `RegisterRHSModifier`, pf/model.go:473-478. -/
def Model.registerRHSModifier (m : Model nf nd n) (eqNo : ℕ) (f : Data n → Data n) : Model nf nd n :=
  { m with modifiers := m.modifiers ++ [(eqNo, f)] }

/-- `SyncDerivedFields`, pf/model.go:234-241: the derived fields are recomputed one after the other. -/
def Model.sync (m : Model nf nd n) (st : Store nf nd n) : Store nf nd n :=
  (List.finRange nd).foldl
    (fun s d => { s with derived := Function.update s.derived d (m.calcs d s) }) st

/-- `ApplyModalFilter`, pf/util.go:125-132. -/
noncomputable def applyModalFilter (filter : ℝ → ℝ) (freq : Frequency n) (data : Data n) : Data n :=
  fun i => data i * (filter (Real.sqrt (dotR (freq i) (freq i)) * 2 / Real.pi) : ℂ)

/-- The optional filter of a stepper (pf/euler.go:36-38, pf/rk4.go:65-67). -/
noncomputable def optFilter (filter : Option (ℝ → ℝ)) (freq : Frequency n) (data : Data n) : Data n :=
  match filter with
  | some f => applyModalFilter f freq data
  | none => data

/-- `DivRealScalar`. pfutil/sliceOperations.go:34-40. -/
noncomputable def divRealScalar (data : Data n) (r : ℝ) : Data n := fun i => data i / (r : ℂ)

variable {dims : List ℕ}

/-- Transform of all fields (pf/euler.go:19-21). -/
noncomputable def fftFields (st : Store nf nd dims.prod) : Store nf nd dims.prod :=
  { st with fields := fun i => fft dims (st.fields i) }

/-- Transform of all derived fields (pf/euler.go:22-24). -/
noncomputable def fftDerived (st : Store nf nd dims.prod) : Store nf nd dims.prod :=
  { st with derived := fun i => fft dims (st.derived i) }

/-- Normalised inverse transform of all fields (pf/euler.go:42-45). -/
noncomputable def ifftFields (st : Store nf nd dims.prod) : Store nf nd dims.prod :=
  { st with fields := fun i => divRealScalar (ifft dims (st.fields i)) (dims.prod : ℕ) }

/-- `FFTWWrapper.Freq` as the frequency function handed to the terms (pfutil/fftWrap.go:57-74). -/
noncomputable def freqOf (dims : List ℕ) : Frequency dims.prod := fun k =>
  ((Pfutil.freq (dims.map Int.ofNat) (k.val : Int)).getD []).map fun q : ℚ => (q : ℝ)

/-- A stepper: its time step, filter, and the counter `CurrentStep` (pf/euler.go:6-11,
pf/rk4.go:8-13). The transform is given by the side lengths and the frequency function. -/
structure Stepper (n : ℕ) where
  dt : ℝ
  freq : Frequency n
  filter : Option (ℝ → ℝ)
  currentStep : ℕ

/-- `GetTime`, pf/euler.go:50-52, pf/rk4.go:143-145. -/
def Stepper.getTime (s : Stepper n) : ℝ := s.currentStep * s.dt

/-- Body of the loop over the equations, pf/euler.go:27-39, for equation `i`. -/
noncomputable def eulerField (m : Model nf nd n) (s : Stepper n) (t : ℝ) (st : Store nf nd n)
    (i : Fin nf) : Store nf nd n :=
  let rhs := m.getRHS i st s.freq t
  let denum := m.getDenum i st s.freq t
  let d : Data n := fun j => (st.fields i j + (s.dt : ℂ) * rhs j) / (1 - (s.dt : ℂ) * denum j)
  { st with fields := Function.update st.fields i (optFilter s.filter s.freq d) }

/-- `Euler.Step`, pf/euler.go:16-47, without the counter. -/
noncomputable def eulerStepAt (m : Model nf nd dims.prod) (s : Stepper dims.prod) (t : ℝ)
    (st : Store nf nd dims.prod) : Store nf nd dims.prod :=
  let st1 := fftDerived (fftFields (m.sync st))
  ifftFields ((List.finRange nf).foldl (eulerField m s t) st1)

/-- `Euler.Step`, pf/euler.go:16-47. -/
noncomputable def eulerStep (m : Model nf nd dims.prod)
    (p : Stepper dims.prod × Store nf nd dims.prod) : Stepper dims.prod × Store nf nd dims.prod :=
  ({ p.1 with currentStep := p.1.currentStep + 1 }, eulerStepAt m p.1 p.1.getTime p.2)

/-- `Euler.Propagate`, pf/euler.go:55-59. -/
noncomputable def eulerPropagate (m : Model nf nd dims.prod) (nsteps : ℕ)
    (p : Stepper dims.prod × Store nf nd dims.prod) : Stepper dims.prod × Store nf nd dims.prod :=
  (List.range nsteps).foldl (fun p _ => eulerStep m p) p

/-- `PrepareNextCorrection`, pf/rk4.go:77-84: the accumulated result. (The fields of the model are
reset to the initial ones, see `rk4Stage`.) -/
noncomputable def rk4Accumulate (s : Stepper n) (final k : Fin nf → Data n) (factor : ℝ) :
    Fin nf → Data n :=
  fun i j => final i j + ((factor * s.dt : ℝ) : ℂ) * k i j

/-- Loop of `correction` over the fields, pf/rk4.go:103-114, for field `i`: the update in Fourier
space followed by the normalised inverse transform. -/
noncomputable def rk4Field (m : Model nf nd dims.prod) (s : Stepper dims.prod) (k : Fin nf → Data dims.prod)
    (factor : ℝ) (st : Store nf nd dims.prod) (i : Fin nf) : Store nf nd dims.prod :=
  let denum := m.getDenum i st s.freq s.getTime
  let d : Data dims.prod := fun j =>
    (st.fields i j + ((factor * s.dt : ℝ) : ℂ) * k i j) / (1 - ((factor * s.dt : ℝ) : ℂ) * denum j)
  { st with fields := Function.update st.fields i (divRealScalar (ifft dims d) (dims.prod : ℕ)) }

/-- `correction`, pf/rk4.go:101-127: the store it leaves behind and the new slopes. -/
noncomputable def rk4Correction (m : Model nf nd dims.prod) (s : Stepper dims.prod)
    (k : Fin nf → Data dims.prod) (factor : ℝ) (st : Store nf nd dims.prod) :
    Store nf nd dims.prod × (Fin nf → Data dims.prod) :=
  let st1 := (List.finRange nf).foldl (rk4Field m s k factor) st
  let st2 := fftDerived (fftFields (m.sync st1))
  (st2, fun i => m.getRHS i st2 s.freq s.getTime)

/-- `RK4.Step`, pf/rk4.go:29-74. -/
noncomputable def rk4StepStore (m : Model nf nd dims.prod) (s : Stepper dims.prod)
    (st : Store nf nd dims.prod) : Store nf nd dims.prod :=
  let st0 := fftFields (m.sync st)
  let initial := st0.fields
  -- firstCorrection, pf/rk4.go:87-96
  let st1 := fftDerived st0
  let k1 : Fin nf → Data dims.prod := fun i => m.getRHS i st1 s.freq s.getTime
  let final1 := rk4Accumulate s initial k1 (1 / 6)
  let c2 := rk4Correction m s k1 0.5 { st1 with fields := initial }
  let final2 := rk4Accumulate s final1 c2.2 (1 / 3)
  let c3 := rk4Correction m s c2.2 0.5 { c2.1 with fields := initial }
  let final3 := rk4Accumulate s final2 c3.2 (1 / 3)
  let c4 := rk4Correction m s c3.2 1 { c3.1 with fields := initial }
  let final4 := rk4Accumulate s final3 c4.2 (1 / 6)
  let st5 : Store nf nd dims.prod := { c4.1 with fields := initial }
  -- pf/rk4.go:57-68
  let st6 := (List.finRange nf).foldl (fun (stc : Store nf nd dims.prod) i =>
    let denum := m.getDenum i stc s.freq s.getTime
    let d : Data dims.prod := fun j => final4 i j / (1 - (s.dt : ℂ) * denum j)
    { stc with fields := Function.update stc.fields i (optFilter s.filter s.freq d) }) st5
  ifftFields st6

/-- `RK4.Step` as a stepper, pf/rk4.go:29-74: the counter is not touched. -/
noncomputable def rk4Step (m : Model nf nd dims.prod)
    (p : Stepper dims.prod × Store nf nd dims.prod) : Stepper dims.prod × Store nf nd dims.prod :=
  (p.1, rk4StepStore m p.1 p.2)

/-- `RK4.Propagate`, pf/rk4.go:129-135: here the counter is incremented. -/
noncomputable def rk4Propagate (m : Model nf nd dims.prod) (nsteps : ℕ)
    (p : Stepper dims.prod × Store nf nd dims.prod) : Stepper dims.prod × Store nf nd dims.prod :=
  (List.range nsteps).foldl (fun p _ =>
    let q := rk4Step m p
    ({ q.1 with currentStep := q.1.currentStep + 1 }, q.2)) p

end Gopf.Pf
