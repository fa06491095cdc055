import Verif.Model.Parser

/-!
# Model of the registration of names and terms and of the checks made by `Init` (pf/model.go,
pf/userDefinedTerm.go)
-/

namespace Gopf.Pf

/-- `panicOnPrefixInName`, pf/model.go:480-485. (`log.Fatalf` ends the program: `none`.) It is called by
`NewField` (line 45), `NewScalar` (93), `registerTerm` (323), `RegisterMixedTerm` (370) and
`RegisterFunction` (401). -/
def checkName (name : Str) : Option Unit :=
  if 0 < (getKnownPrefixes name).length then none else some ()

/-- `pfutil.CmplxEqualApprox`, pfutil/sliceOperations.go:6-17, for slices of equal length. -/
def cmplxEqualApprox {n : ℕ} (a b : Data n) (tol : ℝ) : Prop :=
  ∀ i, ¬ (|(a i).re - (b i).re| > tol ∨ |(a i).im - (b i).im| > tol)

/-- `perturbedBrick`, pf/userDefinedTerm.go:101-109, for all bricks (lines 82-88). -/
noncomputable def perturbedBricks {n : ℕ} (b : Bricks n) : Bricks n := fun name i => b name i + (0.2 : ℝ)

/-- `isImplicit`, pf/userDefinedTerm.go:78-97. -/
noncomputable def isImplicit {n : ℕ} (t : BTerm n) (b : Bricks n) (freq : Frequency n) : Prop :=
  cmplxEqualApprox (t b freq 0) (t (perturbedBricks b) freq 0) (1 / 10 ^ 10)

/-- The frequency handed to `isImplicit` by `Init`, pf/model.go:253-255. -/
noncomputable def probeFreq (n : ℕ) : Frequency n := fun _ => [0.4, 0.4]

namespace EqModel
variable {n : ℕ}

/-- `RegisterImplicitTerm`, pf/model.go:347-351, without additional derived fields. An entry of the map
is replaced, that is hidden by the new one. -/
def registerImplicit (m : EqModel n) (name : Str) (t : BTerm n) : Option (EqModel n) :=
  (checkName name).map fun _ => { m with implicitTerms := (name, t) :: m.implicitTerms }

/-- `RegisterExplicitTerm`, pf/model.go:353-364, without additional derived fields. -/
def registerExplicit (m : EqModel n) (name : Str) (t : BTerm n) : Option (EqModel n) :=
  (checkName name).map fun _ => { m with explicitTerms := (name, t) :: m.explicitTerms }

/-- `RegisterMixedTerm`, pf/model.go:366-373, without additional derived fields. -/
def registerMixed (m : EqModel n) (name : Str) (t : BTerm n × BTerm n) : Option (EqModel n) :=
  (checkName name).map fun _ => { m with mixedTerms := (name, t) :: m.mixedTerms }

/-- The check of `Init`, pf/model.go:251-260 (it panics unless this holds). `lookup` gives the entries
of the map that are not hidden. -/
def implicitChecked (m : EqModel n) (b : Bricks n) : Prop :=
  ∀ name t, m.implicitTerms.lookup name = some t → isImplicit t b (probeFreq n)

/-- The text captured by `(.*?)/dt` at the beginning of a text without line breaks: everything before the
first `/dt`. The pattern pf/model.go:442. -/
def beforeDt (s : Str) : Option Str :=
  if "/dt".toList.isPrefixOf s then some []
  else match s with
    | [] => none
    | x :: xs => (beforeDt xs).map fun r => x :: r

/-- The capture of the leftmost match of `d(.*?)/dt`, pf/model.go:442. -/
def leibnizCapture : Str → Option Str
  | [] => none
  | x :: xs =>
    if x = 'd' then
      match beforeDt xs with
      | some r => some r
      | none => leibnizCapture xs
    else leibnizCapture xs

/-- `EqNumber`, pf/model.go:441-455. (`none`: panic.) -/
def eqNumber (m : EqModel n) (name : Str) : Option ℕ :=
  m.equations.findIdx? fun eq => decide (leibnizCapture eq = some name)

end EqModel

end Gopf.Pf
