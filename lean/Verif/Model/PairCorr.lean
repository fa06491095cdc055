import Verif.Model.Terms
import Verif.Model.Lattice

/-!
# Pair correlation functions, the ideal mixture term and two-phase correlation

`pfc/pairCorrelation.go`, `pfc/twoPhaseCorrFunc.go` and the ideal mixture part of
`pf/pairCorrelationTerm.go`. Reals instead of floats. A division by a zero width (NaN in Go) is zero
here; the theorems that could notice ask for widths different from zero.
-/

namespace Gopf.Pfc
open Pf Pfutil

/-- `Peak`, pfc/pairCorrelation.go:8-13. -/
structure Peak where
  planeDensity : ℝ
  location : ℝ
  width : ℝ
  numPlanes : ℤ

/-- The value a single peak contributes, pfc/pairCorrelation.go:30-31. -/
noncomputable def peakValue (effTemp : ℝ) (peak : Peak) (k : ℝ) : ℝ :=
  let prefactor := Real.exp (-effTemp * effTemp * k * k / (2 * peak.planeDensity * (peak.numPlanes : ℝ)))
  prefactor * Real.exp (-0.5 * ((k - peak.location) / peak.width) ^ 2)

/-- `ReciprocalSpacePairCorrelation.Eval`, pfc/pairCorrelation.go:27-37. -/
noncomputable def pairCorrEval (effTemp : ℝ) (peaks : List Peak) (k : ℝ) : ℝ :=
  peaks.foldl (fun (result : ℝ) peak =>
    if peakValue effTemp peak k > result then peakValue effTemp peak k else result) 0

/-- `SquareLattice2D`, pfc/pairCorrelation.go:42-58. -/
noncomputable def squareLattice2D (width a : ℝ) : List Peak :=
  let a2 := a / Real.sqrt 2
  [{ planeDensity := 1, numPlanes := 4, width := width, location := 2 * Real.pi / a },
   { planeDensity := 1 / Real.sqrt 2, numPlanes := 4, width := width, location := 2 * Real.pi / a2 }]

/-- `TriangularLattice2D`, pfc/pairCorrelation.go:61-70. -/
noncomputable def triangularLattice2D (width a : ℝ) : List Peak :=
  [{ planeDensity := 2, numPlanes := 3, width := width, location := 2 * Real.pi / a }]

/-! ## `pfc/twoPhaseCorrFunc.go` -/

/-- `Indicator`, pfc/twoPhaseCorrFunc.go:9-16. -/
noncomputable def indicator (x : ℝ) : ℝ :=
  if x < 0 then 0 else if x > 1 then 1 else 3 * x * x - 2 * x * x * x

/-- `IndicatorDeriv`, pfc/twoPhaseCorrFunc.go:18-23. -/
noncomputable def indicatorDeriv (x : ℝ) : ℝ :=
  if x < 0 ∨ x > 1 then 0 else 6 * x - 6 * x * x

/-- `TwoPhaseCorrFunc.Evaluate`, pfc/twoPhaseCorrFunc.go:37-69. The transform works in place, so the
result is paired with the final content of the caller's array `cFT`; `none` is the panic of line 39.
`corrFunc1`, `corrFunc1FT` and `C_eff` are the same array, which is read at index `i` before it is
written at `i`. -/
noncomputable def twoPhaseEvaluate {dims : List ℕ} (corrFunc : List (ℝ → ℝ)) (cFT : Data dims.prod) :
    Option (Data dims.prod × Data dims.prod) :=
  match corrFunc with
  | [c1, c2] =>
    let k : Fin dims.prod → ℝ := fun i => 2 * Real.pi * Real.sqrt (dotR (freqOf dims i) (freqOf dims i))
    let corrFunc1FT : Data dims.prod := fun i => ((c1 (k i) : ℝ) : ℂ)
    let corrFunc2FT : Data dims.prod := fun i => ((c2 (k i) : ℝ) : ℂ)
    let corrFunc1 := divRealScalar (ifft dims corrFunc1FT) (dims.prod : ℕ)
    let corrFunc2 := divRealScalar (ifft dims corrFunc2FT) (dims.prod : ℕ)
    let conc := divRealScalar (ifft dims cFT) (dims.prod : ℕ)
    some (fun i => ((indicator (conc i).re : ℝ) : ℂ) * corrFunc1 i +
      ((1 - indicator (conc i).re : ℝ) : ℂ) * corrFunc2 i, conc)
  | _ => none

/-- `TwoPhaseCorrFunc.EvaluateFT`, pfc/twoPhaseCorrFunc.go:71-75. -/
noncomputable def twoPhaseEvaluateFT {dims : List ℕ} (corrFunc : List (ℝ → ℝ)) (cFT : Data dims.prod) :
    Option (Data dims.prod × Data dims.prod) := do
  let r ← twoPhaseEvaluate corrFunc cFT
  return (fft dims r.1, r.2)

end Gopf.Pfc

namespace Gopf.Pf
open Pfutil Pfc

variable {n : ℕ}

/-- `IdealMixtureTerm.Eval`, pf/pairCorrelationTerm.go:120-123, at every node of the brick `b`. -/
noncomputable def idealMixEval (im : IdealMix) (prefactor : ℝ) (b : Data n) : Data n := fun i =>
  ((prefactor * im.deriv (b i).re : ℝ) : ℂ)

/-- The closure returned by `IdealMixtureTerm.ConstructLinear`, pf/pairCorrelationTerm.go:126-137. -/
noncomputable def idealMixLinear (prefactor : ℝ) (laplacian : Bool) : Term n := fun freq _ =>
  let field : Data n := fun _ => (prefactor : ℂ)
  if laplacian then lapEval 1 freq field else field

/-- `Calc` of `IdealMixtureTerm.DerivedField`, pf/pairCorrelationTerm.go:145-157. -/
noncomputable def idealMixDerivedField (im : IdealMix) (b : Data n) : Data n := fun i =>
  let v := (b i).re
  ((3 * im.thirdOrderPrefactor * v * v + 4 * im.fourthOrderPrefactor * v * v * v : ℝ) : ℂ)

/-- The closure returned by `IdealMixtureTerm.ConstructNonLinear`, pf/pairCorrelationTerm.go:160-177;
`brick` is the registered derived field (`none`: not registered, panic). -/
noncomputable def idealMixNonLinear (laplacian : Bool) (brick : Option (Data n)) :
    Option (Term n) := do
  let b ← brick
  return fun freq _ => if laplacian then lapEval 1 freq b else b

/-- `IdealMixtureTerm.GetEnergy`, pf/pairCorrelationTerm.go:185-193. -/
noncomputable def idealMixEnergy (im : IdealMix) (prefactor : ℝ) (b : Data n) : ℝ :=
  (List.finRange n).foldl (fun (acc : ℝ) i => acc + prefactor * im.eval (b i).re) 0

end Gopf.Pf
