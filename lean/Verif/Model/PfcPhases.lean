import Verif.Model.PairCorr
import Verif.Model.Register
import Verif.Model.Assemble
import Verif.Model.FileIO
import Verif.Model.Affine

/-!
# Model of the example program for phase field crystals (examples/pfcPhases/main.go)

The parameters of the energy are variables; `pfcProgram` has the values of the program. Random numbers are not part of the
model: the initial field is any field. The line appended to `pfcPhasesEnergies.csv` (lines 108-120) is not modelled.
-/

namespace Gopf.Pf
open Pfutil Pfc

variable {n : ℕ}

/-- `IdealMixtureTerm.nonLinearDerivedFieldName`, pf/pairCorrelationTerm.go:139-141. -/
def idealMixName (field : Str) : Str := "ideal_mixture_".toList ++ field ++ "_nonlin".toList

/-- `registerDerivedFields`, pf/model.go:335-345, for a single derived field that is calculated from the bricks. -/
def EqModel.registerCalculated (m : EqModel n) (name : Str) (f : Bricks n → Data n) : EqModel n :=
  if m.isFieldName name then m else m.registerFunction name f

/-- The two closures of `IdealMixtureTerm`, pf/pairCorrelationTerm.go:126-177, in a model in which its derived field is
registered. -/
noncomputable def idealMixTerms (field : Str) (prefactor : ℝ) (laplacian : Bool) : BTerm n × BTerm n :=
  (fun _ => idealMixLinear prefactor laplacian,
   fun b freq _ => if laplacian then lapEval 1 freq (b (idealMixName field)) else b (idealMixName field))

/-- The parameters of the energy, examples/pfcPhases/main.go:62-82. -/
structure PfcParams where
  ideal : IdealMix
  effTemp : ℝ
  peaks : List Peak

/-- The values of the program, examples/pfcPhases/main.go:34, 42, 62-82. -/
noncomputable def pfcProgram (effTemp : ℝ) : PfcParams :=
  { ideal := ⟨1, 1⟩, effTemp := effTemp, peaks := squareLattice2D 0.02 16 }

/-- `PairCorrFunc.Eval` of the program, examples/pfcPhases/main.go:64-67. -/
noncomputable def PfcParams.corr (p : PfcParams) : ℝ → ℝ := pairCorrEval p.effTemp p.peaks

/-- The model before the equation is added, examples/pfcPhases/main.go:84-88. -/
noncomputable def pfcModel (p : PfcParams) (n : ℕ) : Option (EqModel n) := do
  let m := (EqModel.empty (n := n)).addField "density".toList
  let m := m.registerFunction "IDEAL".toList fun b => idealMixEval p.ideal 1 (b "density".toList)
  let m ← m.registerImplicit "EXCESS".toList fun _ => pairCorrTerm p.corr 1 true
  let m ← m.registerMixed "IDEAL".toList (idealMixTerms "density".toList 1 true)
  return m.registerCalculated (idealMixName "density".toList) fun b => idealMixDerivedField p.ideal (b "density".toList)

/-- The equation, examples/pfcPhases/main.go:89. -/
def pfcEquation : Str := "ddensity/dt = IDEAL + EXCESS".toList

/-- `EnergyObserver.Calculate`, examples/pfcPhases/main.go:25-31: the value of `LastEnergy`. -/
noncomputable def pfcObserver (dims : List ℕ) (p : PfcParams) (density : Data dims.prod) : ℝ :=
  (idealMixEnergy p.ideal 1 density + pairCorrEnergy dims p.corr 1 density) / (dims.prod : ℕ)

/-- The prefix of the data files, examples/pfcPhases/main.go:40. The conversion of the temperature precedes the
multiplication. -/
noncomputable def pfcPrefix (effTemp meanDensity : ℝ) : Str :=
  "pfc_".toList ++ fmtInt (truncInt effTemp * 1000) ++ "_".toList ++ fmtInt (truncInt (meanDensity * 1000))

/-- The file read when a run is continued, examples/pfcPhases/main.go:50. -/
noncomputable def pfcRestartFile (effTemp meanDensity : ℝ) (start : Int) : Str :=
  "data/".toList ++ pfcPrefix effTemp meanDensity ++ "_density_".toList ++ fmtInt (start - 1) ++ ".bin".toList

/-- The name of a data file written by a run, examples/pfcPhases/main.go:94 and pf/fileIO.go:59. -/
noncomputable def pfcDataFile (folder : Str) (effTemp meanDensity : ℝ) (epoch : Int) : Str :=
  binName (folder ++ pfcPrefix effTemp meanDensity) "density".toList epoch

/-- The name of the XDMF file, examples/pfcPhases/main.go:105. -/
noncomputable def pfcMetaFile (folder : Str) (effTemp meanDensity : ℝ) : Str :=
  folder ++ "pfc_".toList ++ fmtInt (truncInt (effTemp * 1000)) ++ "_".toList ++
    fmtInt (truncInt (meanDensity * 1000)) ++ ".xdmf".toList

end Gopf.Pf
