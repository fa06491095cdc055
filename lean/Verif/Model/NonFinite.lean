import Verif.Model.Stepper

/-!
# The Euler and RK4 steppers with numbers that may fail to be finite

The models of `Model/Stepper.lean` compute with exact complex numbers, where a division by zero gives zero. Here a
value is a complex number or `none`: a number both parts of which are infinite or not a number (NaN). This is what
Go's complex division returns for a division by zero, whatever the numerator is (runtime/complex.go: each part is an
infinity times a part of the numerator, or NaN). Sums and products with `none` are `none`; a transform of an array
that holds one `none` is `none` everywhere, because every entry of it is a sum with every entry of the array. The
quotient of a number and `none` (0 or NaN in Go) is `none` here; no theorem depends on it.

What the terms, the registered functions and the calculators of derived fields return if they are given such values is
not known in general: a model is given by arbitrary functions here, and theorems ask that they agree with a model of
`Model/Stepper.lean` on finite values.
-/

namespace Gopf.Pf
open Pfutil

variable {nf nd n : ℕ}

/-- An array of numbers that may fail to be finite. Fields at pf/model.go:31-34. -/
abbrev EData (n : ℕ) := Fin n → Option ℂ

/-- An array of finite numbers. Fields at pf/model.go:31-34. -/
def finData (d : Data n) : EData n := fun i => some (d i)

/-- As `Store`, pf/model.go:116-117. -/
structure EStore (nf nd n : ℕ) where
  fields : Fin nf → EData n
  derived : Fin nd → EData n

/-- A store of finite numbers. pf/model.go:116-117. -/
def Store.toE (st : Store nf nd n) : EStore nf nd n :=
  ⟨fun i => finData (st.fields i), fun d => finData (st.derived d)⟩

/-- As `Model`, pf/model.go:115-126: the calculators of the derived fields, `GetRHS` (pf/model.go:283-303) and
`GetDenum` (pf/model.go:306-314). -/
structure EModel (nf nd n : ℕ) where
  calcs : Fin nd → EStore nf nd n → EData n
  getRHS : Fin nf → EStore nf nd n → Frequency n → ℝ → EData n
  getDenum : Fin nf → EStore nf nd n → Frequency n → ℝ → EData n

/-- `SyncDerivedFields`, pf/model.go:234-241. -/
def EModel.sync (m : EModel nf nd n) (st : EStore nf nd n) : EStore nf nd n :=
  (List.finRange nd).foldl
    (fun (s : EStore nf nd n) d => { s with derived := Function.update s.derived d (m.calcs d s) }) st

/-- `a + c*b`, the sums of pf/euler.go:33, pf/rk4.go:80, 107. -/
noncomputable def axpyE (c : ℂ) (a b : Option ℂ) : Option ℂ := a.bind fun x => b.map fun y => x + c * y

open Classical in
/-- `a / (1 - c*b)`, the quotients of pf/euler.go:33, pf/rk4.go:61, 111. -/
noncomputable def divideE (c : ℂ) (a b : Option ℂ) : Option ℂ :=
  a.bind fun x => b.bind fun y => if 1 - c * y = 0 then none else some (x / (1 - c * y))

open Classical in
/-- A transform of an array, pfutil/fftWrap.go:28-41. -/
noncomputable def transformE (f : Data n → Data n) (d : EData n) : EData n :=
  if ∀ k, d k ≠ none then finData (f fun k => (d k).getD 0) else fun _ => none

/-- `ApplyModalFilter`, pf/util.go:125-132, if there is a filter (pf/euler.go:36-38, pf/rk4.go:65-67). -/
noncomputable def optFilterE (filter : Option (ℝ → ℝ)) (freq : Frequency n) (data : EData n) : EData n :=
  match filter with
  | some f => fun i => (data i).map fun x : ℂ => x * (f (Real.sqrt (dotR (freq i) (freq i)) * 2 / Real.pi) : ℂ)
  | none => data

/-- `DivRealScalar` with the number of nodes, pfutil/sliceOperations.go:34-40. -/
noncomputable def divRealScalarE (data : EData n) (r : ℝ) : EData n := fun i => (data i).map fun x : ℂ => x / (r : ℂ)

variable {dims : List ℕ}

/-- Transform of all fields (pf/euler.go:19-21). -/
noncomputable def fftFieldsE (st : EStore nf nd dims.prod) : EStore nf nd dims.prod :=
  { st with fields := fun i => transformE (fft dims) (st.fields i) }

/-- Transform of all derived fields (pf/euler.go:22-24). -/
noncomputable def fftDerivedE (st : EStore nf nd dims.prod) : EStore nf nd dims.prod :=
  { st with derived := fun i => transformE (fft dims) (st.derived i) }

/-- Normalised inverse transform of one field (pf/euler.go:43-44, pf/rk4.go:71-72, 113-114). -/
noncomputable def backE (d : EData dims.prod) : EData dims.prod :=
  divRealScalarE (transformE (ifft dims) d) (dims.prod : ℕ)

/-- Normalised inverse transform of all fields (pf/euler.go:42-45). -/
noncomputable def ifftFieldsE (st : EStore nf nd dims.prod) : EStore nf nd dims.prod :=
  { st with fields := fun i => backE (st.fields i) }

/-- Body of the loop over the equations, pf/euler.go:27-39, for equation `i`. -/
noncomputable def eulerFieldE (m : EModel nf nd n) (s : Stepper n) (t : ℝ) (st : EStore nf nd n)
    (i : Fin nf) : EStore nf nd n :=
  let rhs := m.getRHS i st s.freq t
  let denum := m.getDenum i st s.freq t
  let d : EData n := fun j => divideE (s.dt : ℂ) (axpyE (s.dt : ℂ) (st.fields i j) (rhs j)) (denum j)
  { st with fields := Function.update st.fields i (optFilterE s.filter s.freq d) }

/-- `Euler.Step`, pf/euler.go:16-47. -/
noncomputable def eulerStepE (m : EModel nf nd dims.prod)
    (p : Stepper dims.prod × EStore nf nd dims.prod) : Stepper dims.prod × EStore nf nd dims.prod :=
  ({ p.1 with currentStep := p.1.currentStep + 1 },
    ifftFieldsE ((List.finRange nf).foldl (eulerFieldE m p.1 p.1.getTime) (fftDerivedE (fftFieldsE (m.sync p.2)))))

/-- `Euler.Propagate`, pf/euler.go:55-59. -/
noncomputable def eulerPropagateE (m : EModel nf nd dims.prod) (nsteps : ℕ)
    (p : Stepper dims.prod × EStore nf nd dims.prod) : Stepper dims.prod × EStore nf nd dims.prod :=
  (List.range nsteps).foldl (fun p _ => eulerStepE m p) p

/-- `PrepareNextCorrection`, pf/rk4.go:77-84, as `rk4Accumulate`. -/
noncomputable def rk4AccumulateE (s : Stepper n) (final k : Fin nf → EData n) (factor : ℝ) : Fin nf → EData n :=
  fun i j => axpyE ((factor * s.dt : ℝ) : ℂ) (final i j) (k i j)

/-- Loop of `correction` over the fields, pf/rk4.go:103-114, for field `i`. -/
noncomputable def rk4FieldE (m : EModel nf nd dims.prod) (s : Stepper dims.prod) (k : Fin nf → EData dims.prod)
    (factor : ℝ) (st : EStore nf nd dims.prod) (i : Fin nf) : EStore nf nd dims.prod :=
  let denum := m.getDenum i st s.freq s.getTime
  let d : EData dims.prod := fun j => divideE ((factor * s.dt : ℝ) : ℂ)
    (axpyE ((factor * s.dt : ℝ) : ℂ) (st.fields i j) (k i j)) (denum j)
  { st with fields := Function.update st.fields i (backE d) }

/-- `correction`, pf/rk4.go:101-127. -/
noncomputable def rk4CorrectionE (m : EModel nf nd dims.prod) (s : Stepper dims.prod)
    (k : Fin nf → EData dims.prod) (factor : ℝ) (st : EStore nf nd dims.prod) :
    EStore nf nd dims.prod × (Fin nf → EData dims.prod) :=
  let st1 := (List.finRange nf).foldl (rk4FieldE m s k factor) st
  let st2 := fftDerivedE (fftFieldsE (m.sync st1))
  (st2, fun i => m.getRHS i st2 s.freq s.getTime)

/-- The last loop over the fields, pf/rk4.go:58-68, for field `i`. -/
noncomputable def rk4LastE (m : EModel nf nd n) (s : Stepper n) (final : Fin nf → EData n) (st : EStore nf nd n)
    (i : Fin nf) : EStore nf nd n :=
  let denum := m.getDenum i st s.freq s.getTime
  let d : EData n := fun j => divideE (s.dt : ℂ) (final i j) (denum j)
  { st with fields := Function.update st.fields i (optFilterE s.filter s.freq d) }

/-- `RK4.Step`, pf/rk4.go:29-74. -/
noncomputable def rk4StepE (m : EModel nf nd dims.prod)
    (p : Stepper dims.prod × EStore nf nd dims.prod) : Stepper dims.prod × EStore nf nd dims.prod :=
  let s := p.1
  let st0 := fftFieldsE (m.sync p.2)
  let initial := st0.fields
  let st1 := fftDerivedE st0
  let k1 : Fin nf → EData dims.prod := fun i => m.getRHS i st1 s.freq s.getTime
  let final1 := rk4AccumulateE s initial k1 (1 / 6)
  let c2 := rk4CorrectionE m s k1 0.5 { st1 with fields := initial }
  let final2 := rk4AccumulateE s final1 c2.2 (1 / 3)
  let c3 := rk4CorrectionE m s c2.2 0.5 { c2.1 with fields := initial }
  let final3 := rk4AccumulateE s final2 c3.2 (1 / 3)
  let c4 := rk4CorrectionE m s c3.2 1 { c3.1 with fields := initial }
  let final4 := rk4AccumulateE s final3 c4.2 (1 / 6)
  let st5 : EStore nf nd dims.prod := { c4.1 with fields := initial }
  (s, ifftFieldsE ((List.finRange nf).foldl (rk4LastE m s final4) st5))

/-- `RK4.Propagate`, pf/rk4.go:129-135. -/
noncomputable def rk4PropagateE (m : EModel nf nd dims.prod) (nsteps : ℕ)
    (p : Stepper dims.prod × EStore nf nd dims.prod) : Stepper dims.prod × EStore nf nd dims.prod :=
  (List.range nsteps).foldl (fun p _ =>
    let q := rk4StepE m p
    ({ q.1 with currentStep := q.1.currentStep + 1 }, q.2)) p

end Gopf.Pf
