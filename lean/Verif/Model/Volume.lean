import Verif.Model.Stepper

/-!
# Model of `pf/volumeConserving.go`
-/

namespace Gopf.Pf

variable {nf nd n : ℕ} {dims : List ℕ}

/-- `VolumeConservingLP`, pf/volumeConserving.go:8-16. The field and the indicator (a derived field) are
given by their numbers instead of their names. -/
structure VolumeLP where
  multiplier : ℝ
  currentIntegral : ℝ
  dt : ℝ
  isFirstUpdate : Bool

/-- `NewVolumeConservingLP`, pf/volumeConserving.go:53-61. -/
def newVolumeLP (dt : ℝ) : VolumeLP := ⟨0, 0, dt, true⟩

/-- `VolumeConservingLP.Construct`, pf/volumeConserving.go:19-28, for a known indicator. -/
def VolumeLP.term (v : VolumeLP) (indicator : Fin nd) : STerm nf nd n := fun st _ _ i =>
  st.derived indicator i * (v.multiplier : ℂ)

/-- `VolumeConservingLP.OnStepFinished`, pf/volumeConserving.go:31-51, for a domain with at least one
node (`zero` is node number 0) and `NumNodes` equal to the number of nodes; `field` and `indicator` are the bricks. -/
noncomputable def VolumeLP.finished (v : VolumeLP) (zero : Fin n) (field indicator : Data n) : VolumeLP :=
  let fieldIntegral : ℝ := (List.finRange n).foldl (fun acc i => acc + (field i).re) 0
  let indicatorIntegral : ℝ := (indicator zero).re
  if v.isFirstUpdate then { v with currentIntegral := fieldIntegral, isFirstUpdate := false }
  else
    let deltaI := fieldIntegral - v.currentIntegral
    { v with
      currentIntegral := fieldIntegral
      multiplier := v.multiplier - deltaI / (v.dt * indicatorIntegral) }

/-- The same with the bricks looked up (pf/volumeConserving.go:34, 40). -/
noncomputable def VolumeLP.onStepFinished (v : VolumeLP) (field : Fin nf) (indicator : Fin nd) (zero : Fin n)
    (st : Store nf nd n) : VolumeLP := v.finished zero (st.fields field) (st.derived indicator)

/-- The model with the term added to the equation of the field, with operator prefixes as in
`Build`, pf/rhsBuilder.go:41-42. The closure reads the multiplier when it is evaluated. -/
noncomputable def withVolume (m : Model nf nd n) (field : Fin nf) (indicator : Fin nd) (prefixes : List Str)
    (v : VolumeLP) : Model nf nd n :=
  let more : STerm nf nd n := fun st => constructFunc (v.term indicator st) prefixes
  { m with terms := Function.update m.terms field (m.terms field ++ [more]) }

/-- One round of `Solver.Propagate`, pf/solver.go:70-83: a step of the (Euler) stepper and the call of
`OnStepFinished`. -/
noncomputable def volumeStep (m : Model nf nd dims.prod) (field : Fin nf) (indicator : Fin nd)
    (prefixes : List Str) (zero : Fin dims.prod)
    (p : VolumeLP × Stepper dims.prod × Store nf nd dims.prod) :
    VolumeLP × Stepper dims.prod × Store nf nd dims.prod :=
  let q := eulerStep (withVolume m field indicator prefixes p.1) p.2
  (p.1.onStepFinished field indicator zero q.2, q)

end Gopf.Pf
