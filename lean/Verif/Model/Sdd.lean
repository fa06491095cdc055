import Verif.Model.Stepper
import Mathlib.Analysis.SpecialFunctions.Log.Basic

/-!
# Model of `pf/sdd.go` (shrinking dimer dynamics)

The flat arrays of length `NumNodes*len(Fields)` of the code are indexed by pairs (field, node) here:
position `i*NumNodes + j` of the code is `(i, j)`. The quantities stored in `Monitor` and the log file
are modelled in `Model/SddMonitor.lean` (nothing reads them back).
-/

namespace Gopf.Pf
open Pfutil
open scoped BigOperators

/-- `SDD`, pf/sdd.go:86-119, without the monitor. `freq` stands for `sdd.ft.Freq`. -/
structure SDD (nf n : ℕ) where
  tauOrientation : ℝ
  tauDimerLength : ℝ
  alpha : ℝ
  dt : ℝ
  currentStep : ℕ
  minDimerLength : ℝ
  initDimerLength : ℝ
  orientation : Fin nf → Fin n → ℝ
  freq : Frequency n

variable {nf nd n : ℕ} {ι : Type} [Fintype ι]

/-- `householder`, pf/sdd.go:313-324, for arrays indexed by `ι`. -/
noncomputable def householder (data ftOrientation : ι → ℂ) (sigma : ℝ) (numNodes : ℕ) : ι → ℂ :=
  let dataDotOrientation : ℂ :=
    (∑ i, data i * (starRingEnd ℂ) (ftOrientation i)) / ((numNodes : ℝ) : ℂ)
  fun i => data i - (sigma : ℂ) * ftOrientation i * dataDotOrientation

/-- `diagonalShermannMorrison`, pf/sdd.go:452-456. -/
structure DiagonalSM (ι : Type) where
  invDiagonal : ι → ℂ
  u : ι → ℂ
  v : ι → ℂ

/-- `diagonalShermannMorrison.dot`, pf/sdd.go:459-470. -/
noncomputable def DiagonalSM.dot (dsm : DiagonalSM ι) (vec : ι → ℂ) : ι → ℂ :=
  let denum : ℂ := 1 + ∑ i, dsm.u i * dsm.invDiagonal i * dsm.v i
  let vDotInvDDotVec : ℂ := ∑ i, dsm.v i * dsm.invDiagonal i * vec i
  fun i => dsm.invDiagonal i * vec i - dsm.invDiagonal i * dsm.u i * vDotInvDDotVec / denum

/-- `householderDenum`, pf/sdd.go:327-343 (`data` and `ftOrientation` have length `n`). -/
noncomputable def householderDenum (dt : ℝ) (data ftOrientation : Data n) (sigma : ℝ) :
    DiagonalSM (Fin n) :=
  { invDiagonal := fun i => 1 / (1 - (dt : ℂ) * data i)
    v := fun i => (sigma : ℂ) * data i * (dt : ℂ) * (starRingEnd ℂ) (ftOrientation i) / ((n : ℝ) : ℂ)
    u := ftOrientation }

/-- `ShiftFieldsAlongDimer`, pf/sdd.go:347-355. -/
noncomputable def SDD.shiftFieldsAlongDimer (s : SDD nf n) (st : Store nf nd n) (scale : ℝ) :
    Store nf nd n :=
  { st with fields := fun i j => st.fields i j + ((scale * s.orientation i j : ℝ) : ℂ) }

/-- `GetTime`, pf/sdd.go:358-360. -/
def SDD.getTime (s : SDD nf n) : ℝ := s.currentStep * s.dt

/-- `DimerLength`, pf/sdd.go:363-369. -/
noncomputable def SDD.dimerLength (s : SDD nf n) (t : ℝ) : ℝ :=
  let l := s.initDimerLength * Real.exp (-t / s.tauDimerLength)
  if l < s.minDimerLength then s.minDimerLength else l

/-- `RequiredDimerLengthTime`, pf/sdd.go:372-374. -/
noncomputable def SDD.requiredDimerLengthTime (s : SDD nf n) (l : ℝ) : ℝ :=
  s.tauDimerLength * Real.log (s.initDimerLength / l)

/-- The common part of `Init` (pf/sdd.go:389-407) and `SetInitialOrientation` (pf/sdd.go:412-426):
the initial length is the length of the vector, the orientation is the normalised vector. -/
noncomputable def SDD.setOrientation (s : SDD nf n) (orient : Fin nf → Fin n → ℝ) : SDD nf n :=
  let len := Real.sqrt (∑ i, ∑ j, orient i j * orient i j)
  { s with initDimerLength := len, orientation := fun i j => orient i j / len }

/-- `Init`, pf/sdd.go:389-407. -/
noncomputable def SDD.init (s : SDD nf n) (init final : Fin nf → Data n) : SDD nf n :=
  s.setOrientation fun i j => (final i j - init i j).re

variable {dims : List ℕ}

/-- `SDD.fft`, pf/sdd.go:140-148. -/
noncomputable def sddFft (m : Model nf nd dims.prod) (st : Store nf nd dims.prod) :
    Store nf nd dims.prod := fftDerived (fftFields (m.sync st))

/-- `extractRHS`, pf/sdd.go:303-308. -/
noncomputable def SDD.extractRHS (s : SDD nf n) (m : Model nf nd n) (st : Store nf nd n) :
    Fin nf → Data n := fun i => m.getRHS i st s.freq s.getTime

/-- The transformed orientation, pf/sdd.go:169-176. -/
noncomputable def SDD.ftOrientation (s : SDD nf dims.prod) : Fin nf → Data dims.prod :=
  fun i => fft dims fun j => (s.orientation i j : ℂ)

/-- Body of the loop over the fields, pf/sdd.go:206-225, for field `i`. Note `rhsStart[j]`, not
`rhsStart[i*NumNodes+j]`, in line 212: the entries of the first field are used for every field. -/
noncomputable def SDD.stepField (s : SDD nf dims.prod) (m : Model nf nd dims.prod)
    (rhsStart rhsEnd : Fin nf → Data dims.prod) (st : Store nf nd dims.prod) (i : Fin nf) :
    Store nf nd dims.prod :=
  let first : Fin nf := ⟨0, i.pos⟩
  let work : Data dims.prod := fun j =>
    (s.alpha : ℂ) * rhsStart first j + ((1 - s.alpha : ℝ) : ℂ) * rhsEnd first j
  let activeFtOrient := s.ftOrientation i
  let work := householder work activeFtOrient 2 dims.prod
  let d : Data dims.prod := fun j => st.fields i j + (s.dt : ℂ) * work j
  let denum := m.getDenum i { st with fields := Function.update st.fields i d } s.freq s.getTime
  let dsm := householderDenum s.dt denum activeFtOrient 2
  { st with fields := Function.update st.fields i (dsm.dot d) }

/-- The stores at the two ends of the dimer and back at its centre, all transformed,
pf/sdd.go:182-196. -/
noncomputable def SDD.dimerStores (s : SDD nf dims.prod) (m : Model nf nd dims.prod)
    (st : Store nf nd dims.prod) :
    Store nf nd dims.prod × Store nf nd dims.prod × Store nf nd dims.prod :=
  let l := s.dimerLength s.getTime
  let st1 := sddFft m (s.shiftFieldsAlongDimer st (-0.5 * l))
  let st2 := sddFft m (s.shiftFieldsAlongDimer (ifftFields st1) l)
  let st3 := sddFft m (s.shiftFieldsAlongDimer (ifftFields st2) (-0.5 * l))
  (st1, st2, st3)

/-- The fields after the loop (still transformed) and the two forces, pf/sdd.go:178-233. -/
noncomputable def SDD.stepFields (s : SDD nf dims.prod) (m : Model nf nd dims.prod)
    (st : Store nf nd dims.prod) :
    Store nf nd dims.prod × (Fin nf → Data dims.prod) × (Fin nf → Data dims.prod) :=
  let ds := s.dimerStores m st
  let rhsStart := s.extractRHS m ds.1
  let rhsEnd := s.extractRHS m ds.2.1
  ((List.finRange nf).foldl (s.stepField m rhsStart rhsEnd) ds.2.2, rhsStart, rhsEnd)

/-- The projected torque in real space, pf/sdd.go:240-272. -/
noncomputable def SDD.torque (s : SDD nf dims.prod) (m : Model nf nd dims.prod)
    (st : Store nf nd dims.prod) (rhsStart rhsEnd : Fin nf → Data dims.prod) :
    Fin nf → Data dims.prod :=
  let l := s.dimerLength s.getTime
  let t0 : Fin nf × Fin dims.prod → ℂ := fun p => rhsStart p.1 p.2 - rhsEnd p.1 p.2
  let t1 : Fin nf × Fin dims.prod → ℂ := fun p =>
    t0 p - m.getDenum p.1 st s.freq s.getTime p.2 * s.ftOrientation p.1 p.2 * (l : ℂ)
  let t2 := householder t1 (fun p : Fin nf × Fin dims.prod => s.ftOrientation p.1 p.2) 1 dims.prod
  fun i => divRealScalar (ifft dims fun j => t2 (i, j)) (dims.prod : ℕ)

/-- Update and normalisation of the orientation, pf/sdd.go:284-297. -/
noncomputable def SDD.updateOrientation (s : SDD nf n) (torque : Fin nf → Data n) :
    Fin nf → Fin n → ℝ :=
  let o1 : Fin nf → Fin n → ℝ := fun i j => s.orientation i j -
    s.dt * (torque i j).re / (s.dimerLength s.getTime * s.tauOrientation)
  let length := Real.sqrt (∑ i, ∑ j, o1 i j * o1 i j)
  fun i j => o1 i j / length

/-- `Step`, pf/sdd.go:159-301, for an initialised stepper with a positive time step (otherwise the
code panics). -/
noncomputable def SDD.step (m : Model nf nd dims.prod) (p : SDD nf dims.prod × Store nf nd dims.prod) :
    SDD nf dims.prod × Store nf nd dims.prod :=
  let r := p.1.stepFields m p.2
  let torque := p.1.torque m r.1 r.2.1 r.2.2
  ({ p.1 with orientation := p.1.updateOrientation torque, currentStep := p.1.currentStep + 1 },
    ifftFields r.1)

end Gopf.Pf
