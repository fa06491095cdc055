import Verif.Model.Terms
import Verif.Model.Elasticity

/-!
# Model of further predefined terms: squared gradients and linear elasticity

`pf/squareGradientTerm.go`, `pf/homoLinElast.go` and `HomogeneousModulusEnergy` of
`elasticity/linearElasticity.go`. The transforms held by these types are the discrete Fourier transform
of the domain.
-/

namespace Gopf.Pf
open Pfutil

/-! ## `pf/squareGradientTerm.go` -/

/-- The closure returned by `SquaredGradient.Construct`, pf/squareGradientTerm.go:38-65; `brick` is the
transformed field and the frequencies have as many components as the domain has dimensions. Power two of
`cmplx.Pow` is a product. -/
noncomputable def squaredGradient (dims : List ℕ) (factor : ℝ) (brick : Data dims.prod) :
    Term dims.prod := fun freq _ =>
  (List.range dims.length).foldl (fun (field : Data dims.prod) (d : ℕ) =>
    let work : Data dims.prod := fun i =>
      let f := fcomp (freq i) d
      let f := if |f - 1 / 2| < 1 / 10 ^ 10 then 0 else f
      brick i * (Complex.I * ((2 * Real.pi * f : ℝ) : ℂ))
    let work := ifft dims work
    let work : Data dims.prod := fun i => (work i / ((dims.prod : ℕ) : ℂ)) ^ 2
    let work := fft dims work
    fun i => field i + work i * (factor : ℂ)) fun _ => 0

/-! ## `pf/homoLinElast.go` -/

/-- `Indicator`, pf/homoLinElast.go:10-12. -/
def phaseIndicator (x : ℝ) : ℝ := 3 * x * x - 2 * x * x * x

/-- `IndicatorDeriv`, pf/homoLinElast.go:15-17. -/
def phaseIndicatorDeriv (x : ℝ) : ℝ := 6 * x - 6 * x * x

/-- `HomogeneousModulusLinElast`, pf/homoLinElast.go:33-43, without the names, functions and sizes that
are the same for all instances. -/
structure HomoLinElast (n : ℕ) where
  field : Fin n → ℝ
  misfit : Elasticity.Mat3
  effStress : Elasticity.Mat3
  matProp : Elasticity.Rank4

/-- `NewHomogeneousModolus`, pf/homoLinElast.go:137-150, with `NewEffectiveForceFromMisfit`,
elasticity/effectiveForce.go:17-21. -/
def newHomogeneousModulus (n : ℕ) (matProp : Elasticity.Rank4) (misfit : Elasticity.Mat3) :
    HomoLinElast n :=
  ⟨fun _ => 0, misfit, matProp.contractLast misfit, matProp⟩

/-- `Freq`, pf/homoLinElast.go:103-111: frequencies are filled up with zeros to length three. -/
noncomputable def freq3 (dims : List ℕ) (k : Fin dims.prod) : Fin 3 → ℝ :=
  fun c => fcomp (freqOf dims k) c

/-- The loop variable runs over the dimensions of the domain, pf/homoLinElast.go:69-70, 120. -/
def axes (dims : List ℕ) : List (Fin 3) := (List.finRange 3).filter fun c => c.val < dims.length

/-- `Force`, pf/homoLinElast.go:114-127. -/
noncomputable def HomoLinElast.force {dims : List ℕ} (h : HomoLinElast dims.prod)
    (indicator : Data dims.prod) (k : Fin dims.prod) : Fin 3 → ℂ := fun c =>
  if c ∈ axes dims then Elasticity.effForce h.effStress c (freq3 dims k) (indicator k) else 0

/-- The closure returned by `Construct`, pf/homoLinElast.go:47-99. -/
noncomputable def HomoLinElast.construct {dims : List ℕ} (h : HomoLinElast dims.prod) : Data dims.prod :=
  let work := fft dims fun i => ((phaseIndicator (h.field i) : ℝ) : ℂ)
  let force := h.force work
  let disp : Fin dims.prod → Fin 3 → ℂ := fun k =>
    Elasticity.displacement (force k) (freq3 dims k) h.matProp.get
  let work : Data dims.prod := fun i => ((phaseIndicatorDeriv (h.field i) : ℝ) : ℂ)
  let A := h.matProp.contractLast h.misfit
  let field : Data dims.prod := (axes dims).foldl (fun (field : Data dims.prod) (i : Fin 3) =>
    ((axes dims).filter (i ≤ ·)).foldl (fun (field : Data dims.prod) (j : Fin 3) =>
      let strains := ifft dims fun k => Elasticity.strain (disp k) (freq3 dims k) i j
      let strains := divRealScalar strains (dims.prod : ℕ)
      let strains := fft dims fun x => strains x * work x
      let factor : ℝ := if i ≠ j then 2 else 1
      fun k => field k + ((factor * A i j : ℝ) : ℂ) * strains k) field) fun _ => 0
  let eDensity := Elasticity.energyDensity h.matProp.get h.misfit
  let work := fft dims fun i => ((phaseIndicator (h.field i) * phaseIndicatorDeriv (h.field i) : ℝ) : ℂ)
  fun k => field k - ((2 * eDensity : ℝ) : ℂ) * work k

/-- `OnStepFinished`, pf/homoLinElast.go:130-134; `brick` is the field of the term. -/
def HomoLinElast.onStepFinished {n : ℕ} (h : HomoLinElast n) (brick : Data n) : HomoLinElast n :=
  { h with field := fun i => (brick i).re }

end Gopf.Pf

namespace Gopf.Elasticity
open Pfutil Pf

/-- `HomogeneousModulusEnergy`, elasticity/linearElasticity.go:101-165, of a real indicator. All force
components are calculated, the frequencies are filled up with zeros (lines 121-131; components of the
force beyond the dimension of the domain contribute zero to the loop of `Get`). The indicator that is
compared with one half is the given one, as transform and inverse transform cancel. -/
noncomputable def homogeneousModulusEnergy (dims : List ℕ) (indicator : Fin dims.prod → ℝ)
    (misfit : Mat3) (matProp : Rank4) : ℝ :=
  let volume := ∑ i, indicator i
  let ind := fft dims fun i => ((indicator i : ℝ) : ℂ)
  let disp : Fin dims.prod → Fin 3 → ℂ := fun k =>
    displacement (fun c => effForce (matProp.contractLast misfit) c (freq3 dims k) (ind k))
      (freq3 dims k) matProp.get
  let strains : Fin dims.prod → Mat3 := fun x => Matrix.of fun a b =>
    let i := min a b
    let j := max a b
    let re := (ifft dims (fun k => strain (disp k) (freq3 dims k) i j) x).re / (dims.prod : ℕ)
    if indicator x > 1 / 2 then re - misfit i j else re
  (∑ x, energyDensity matProp.get (strains x)) / volume

end Gopf.Elasticity
