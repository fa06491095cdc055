import Verif.Model.Stepper
import Mathlib.Analysis.SpecialFunctions.Trigonometric.Arctan
import Mathlib.Analysis.SpecialFunctions.Pow.Real

/-!
# Model of the predefined terms of package `pf`

Bricks handed to `Construct` are Fourier transformed; they are given here by their data. A frequency
that is too short (Go would panic) reads as zero; the frequencies of the library have as many entries as
the domain has dimensions.
-/

namespace Gopf.Pf
open Pfutil

variable {n : ℕ}

/-- `f[c]`. Used for instance at pf/tensorialHessian.go:49, 56. -/
def fcomp (f : List ℝ) (c : ℕ) : ℝ := f.getD c 0

/-! ## `pf/boundTransform.go` -/

/-- `BoundTransform`, pf/boundTransform.go:9-12. -/
structure BoundTransform where
  min : ℝ
  max : ℝ

/-- `Forward`, pf/boundTransform.go:15-17. -/
noncomputable def BoundTransform.forward (b : BoundTransform) (x : ℝ) : ℝ :=
  b.min + (b.max - b.min) * (Real.arctan x / Real.pi + 1 / 2)

/-- `Backward`, pf/boundTransform.go:20-22. -/
noncomputable def BoundTransform.backward (b : BoundTransform) (y : ℝ) : ℝ :=
  Real.tan (Real.pi * (y - b.min) / (b.max - b.min) - 1 / 2 * Real.pi)

/-! ## `pf/negative_value_penalty.go` -/

/-- `Penalty`, pf/negative_value_penalty.go:15-21. The exponent is positive; `math.Pow` with an integer
exponent is a product. -/
noncomputable def penalty (prefactor : ℝ) (exponent : ℕ) (x : ℝ) : ℝ :=
  if x > 0 then 0 else -2 * prefactor * exponent * x ^ (exponent - 1)

/-! ## `pf/tensorialHessian.go` -/

/-- `GetCoeff`, pf/tensorialHessian.go:65-71. -/
def hessCoeff (K : List ℝ) (i j : ℕ) : Option ℝ :=
  let d := if K.length = 9 then 3 else 2
  K[i * d + j]?

/-- Lines 44-59 of `TensorialHessian.Construct`: the value at one frequency. pf/tensorialHessian.go:38-62. -/
noncomputable def hessEval (K : List ℝ) (f : List ℝ) : Option ℝ := do
  let dim := f.length
  let diag ← (List.range dim).foldlM (fun (acc : ℝ) (j : ℕ) => do
    let k ← hessCoeff K j j
    return acc + (-4 * Real.pi * Real.pi * fcomp f j * fcomp f j * k)) 0
  (List.range dim).foldlM (fun (acc : ℝ) (j : ℕ) =>
    (List.range' (j + 1) (dim - (j + 1))).foldlM (fun (acc : ℝ) (k : ℕ) => do
      let c ← hessCoeff K j k
      return acc + (-8 * Real.pi * Real.pi * fcomp f j * fcomp f k * c)) acc) diag

/-! ## `pf/noise.go` -/

/-- The closure returned by `ConservativeNoise.Construct`, pf/noise.go:60-77; `current` are the bricks
of the current components. -/
noncomputable def conservativeNoise (dim : ℕ) (current : ℕ → Data n) : Term n := fun freq _ i =>
  (List.range dim).foldl (fun (acc : ℂ) (comp : ℕ) =>
    let f := fcomp (freq i) comp
    if abs (abs f - 1 / 2) > 1 / 10 ^ 6 then
      acc + Complex.I * ((2 * Real.sin (Real.pi * f) : ℝ) : ℂ) * current comp i
    else acc) 0

/-! ## `pf/gradientCalculator.go` -/

/-- `GradientCalculator.Calculate`, pf/gradientCalculator.go:19-31. -/
noncomputable def gradCalculate (dims : List ℕ) (comp : ℕ) (keepNyquist : Bool)
    (indata : Data dims.prod) : Data dims.prod :=
  let ft := fft dims indata
  let scaled : Data dims.prod := fun i =>
    let f := fcomp (freqOf dims i) comp
    let f := if |f - 1 / 2| < 1 / 10 ^ 10 ∧ keepNyquist = false then 0 else f
    ft i * (Complex.I * ((2 * Real.pi * f : ℝ) : ℂ))
  divRealScalar (ifft dims scaled) (dims.prod : ℕ)

/-- The closure returned by `DivGrad.Construct`, pf/gradientCalculator.go:94-106; `flux` are the
transformed products `F · ∂_d field`. -/
noncomputable def divGrad (dim : ℕ) (flux : ℕ → Data n) : Term n := fun freq _ i =>
  (List.range dim).foldl (fun (acc : ℂ) (d : ℕ) =>
    acc + Complex.I * ((2 * Real.pi * fcomp (freq i) d : ℝ) : ℂ) * flux d i) 0

/-- `DivGrad` as a whole, pf/gradientCalculator.go:69-105: `PrepareModel` registers the products of `F`
and the gradient of the field as derived fields, which the stepper transforms. -/
noncomputable def divGradTerm (dims : List ℕ) (F field : Data dims.prod) : Term dims.prod :=
  divGrad dims.length fun d => fft dims fun x => F x * gradCalculate dims d false field x

/-- `Advection`, pf/advection.go:50-96: the derived field registered by `PrepareModel`, transformed by
the stepper, with the sign of `Construct`. -/
noncomputable def advection (dims : List ℕ) (velocity : ℕ → Data dims.prod) (field : Data dims.prod) :
    Data dims.prod :=
  let vDotGrad : Data dims.prod := fun x => (List.range dims.length).foldl (fun (acc : ℂ) (d : ℕ) =>
    acc + velocity d x * gradCalculate dims d false field x) 0
  fun i => -fft dims vDotGrad i

/-- The closure returned by `WeightedLaplacian.Construct`, pf/gradientCalculator.go:127-160. -/
noncomputable def weightedLaplacian (dims : List ℕ) (field prefactor : Data dims.prod) :
    Term dims.prod := fun freq _ =>
  let lap := divRealScalar (ifft dims (lapEval 1 freq field)) (dims.prod : ℕ)
  let work := divRealScalar (ifft dims prefactor) (dims.prod : ℕ)
  fft dims fun x => lap x * work x

/-! ## `pf/chargeTransport.go` -/

/-- `voigtIndex`, pf/chargeTransport.go:151-171. -/
def voigtIndex (i j dim : ℕ) : ℕ :=
  if dim = 2 then (([[0, 2], [2, 1]] : List (List ℕ)).getD i []).getD j 0
  else (([[0, 5, 4], [5, 1, 3], [4, 3, 2]] : List (List ℕ)).getD i []).getD j 0

/-- Lines 65-79 of `ChargeTransport.current`: minus the `d`-th component of the electric field.
pf/chargeTransport.go:65-79. -/
noncomputable def effField (dims : List ℕ) (ext : List ℝ) (density : Data dims.prod) (d : ℕ) :
    Data dims.prod :=
  let spec : Data dims.prod := fun i =>
    let k := freqOf dims i
    if abs (abs (fcomp k d) - 1 / 2) > 1 / 10 ^ 10 then
      density i * (Complex.I * ((fcomp k d / (2 * Real.pi * dotR k k + 1 / 10 ^ 16) : ℝ) : ℂ))
    else 0
  fun i => divRealScalar (ifft dims spec) (dims.prod : ℕ) i - ((fcomp ext d : ℝ) : ℂ)

/-- `ChargeTransport.current`, pf/chargeTransport.go:56-92: component `d2` at every node. -/
noncomputable def chargeCurrent (dims : List ℕ) (sigma : Fin dims.prod → List ℝ) (ext : List ℝ)
    (density : Data dims.prod) (d2 : ℕ) : Data dims.prod := fun i =>
  (List.range dims.length).foldl (fun (acc : ℂ) (d : ℕ) =>
    acc + (((sigma i).getD (voigtIndex d d2 dims.length) 0 : ℝ) : ℂ) * effField dims ext density d i) 0

/-- The closure returned by `ChargeTransport.Construct`, pf/chargeTransport.go:95-119. -/
noncomputable def chargeTransport (dims : List ℕ) (sigma : Fin dims.prod → List ℝ) (ext : List ℝ)
    (density : Data dims.prod) : Data dims.prod := fun i =>
  (List.range dims.length).foldl (fun (acc : ℂ) (d2 : ℕ) =>
    let k := fcomp (freqOf dims i) d2
    if abs (abs k - 1 / 2) > 1 / 10 ^ 10 then
      acc + Complex.I * ((2 * Real.pi * k : ℝ) : ℂ) * fft dims (chargeCurrent dims sigma ext density d2) i
    else acc) 0

/-- `Current`, pf/chargeTransport.go:125-146, for a density given in real space. -/
noncomputable def currentOf (dims : List ℕ) (sigma : Fin dims.prod → List ℝ) (ext : List ℝ)
    (density : Data dims.prod) (d : ℕ) (i : Fin dims.prod) : ℝ :=
  -(chargeCurrent dims sigma ext (fft dims density) d i).re

/-! ## `pf/spectralViscosity.go` -/

/-- `interpolant`, pf/spectralViscosity.go:31-40. -/
noncomputable def interpolant (f peak : ℝ) : ℝ :=
  if f < 1 / 3 * peak then 0
  else if f > peak then 1
  else
    let x := 3 / 2 * (f - 1 / 3 * peak) / peak
    2 * x * x - 3 * x * x * x

/-- The closure returned by `SpectralViscosity.Construct`, pf/spectralViscosity.go:44-53. -/
noncomputable def spectralViscosity (eps threshold : ℝ) (power : ℕ) : Term n := fun freq _ i =>
  let fRad := Real.sqrt (dotR (freq i) (freq i))
  ((-eps * interpolant fRad threshold * fRad ^ power : ℝ) : ℂ)

/-! ## `pf/pairCorrelationTerm.go` -/

/-- The closure returned by `PairCorrlationTerm.Construct`, pf/pairCorrelationTerm.go:37-50; `corr` is
the pair correlation function in reciprocal space. -/
noncomputable def pairCorrTerm (corr : ℝ → ℝ) (prefactor : ℝ) (laplacian : Bool) : Term n :=
  fun freq _ =>
  let out : Data n := fun i =>
    -(((prefactor * corr (2 * Real.pi * Real.sqrt (dotR (freq i) (freq i))) : ℝ)) : ℂ)
  if laplacian then lapEval 1 freq out else out

/-- The closure returned by `ExplicitPairCorrelationTerm.Construct`, pf/pairCorrelationTerm.go:91-105. -/
noncomputable def explicitPairCorrTerm (corr : ℝ → ℝ) (prefactor : ℝ) (laplacian : Bool)
    (brick : Data n) : Term n := fun freq _ =>
  let out : Data n := fun i =>
    -(((prefactor * corr (2 * Real.pi * Real.sqrt (dotR (freq i) (freq i))) : ℝ)) : ℂ) * brick i
  if laplacian then lapEval 1 freq out else out

/-- `PairCorrlationTerm.GetEnergy`, pf/pairCorrelationTerm.go:58-80. -/
noncomputable def pairCorrEnergy (dims : List ℕ) (corr : ℝ → ℝ) (prefactor : ℝ) (b : Data dims.prod) :
    ℝ :=
  let ft := fft dims b
  let scaled : Data dims.prod := fun i =>
    ft i * ((prefactor * corr (2 * Real.pi * Real.sqrt (dotR (freqOf dims i) (freqOf dims i))) : ℝ) : ℂ)
  let field := divRealScalar (ifft dims scaled) (dims.prod : ℕ);
  -1 / 2 * ((List.finRange dims.prod).foldl (fun (acc : ℝ) i => acc + (field i * b i).re) (0 : ℝ))

end Gopf.Pf
