import Verif.Model.Assemble

/-!
# Model of the example program `examples/kks/main.go`

The constants of the program are a parameter; `kksConstants` has the values that are written there. Writing files, the
random start (any start is allowed) and `Summarize` are not modelled.
-/

namespace Gopf.Pf

variable {n : ℕ}

/-- The constants, examples/kks/main.go:11-17. -/
structure Kks where
  c0 : ℝ
  c1 : ℝ
  l : ℝ
  w : ℝ
  f0 : ℝ
  m : ℝ
  dt : ℝ

/-- Their values, examples/kks/main.go:11-17. -/
noncomputable def kksConstants : Kks := ⟨5 / 100, 95 / 100, 2, 1, 1, 1, 1 / 100⟩

/-- `H`, examples/kks/main.go:22-31, as a function of `x`. -/
noncomputable def kksH (x : ℝ) : ℝ := if x > 1 then 1 else if x > 0 then 3 * x * x - 2 * x * x * x else 0

/-- `Hderiv`, examples/kks/main.go:34-40. -/
noncomputable def kksHderiv (phi : ℝ) : ℝ := if phi > 0 ∧ phi < 1 then 6 * phi - 6 * phi * phi else 0

/-- `Gderiv`, examples/kks/main.go:43-49. -/
noncomputable def kksGderiv (p : Kks) (phi : ℝ) : ℝ :=
  p.w * (if phi > 0 ∧ phi < 1 then 2 * phi - 6 * phi * phi + 4 * phi * phi * phi else 0)

/-- `H` as it is registered, examples/kks/main.go:22-31 and 84: the value at every node. -/
noncomputable def kksInterpolant (b : Bricks n) : Data n := fun i => (kksH (b "phi".toList i).re : ℂ)

/-- `PhiRHS`, examples/kks/main.go:52-61 and 85. -/
noncomputable def kksPhiRHS (p : Kks) (b : Bricks n) : Data n := fun i =>
  let phi := (b "phi".toList i).re
  let conc := (b "conc".toList i).re
  let hprime := kksHderiv phi
  let dc := p.c0 - p.c1
  let h := (kksInterpolant b i).re
  let val := kksGderiv p phi + p.f0 * hprime * dc * (conc - p.c0 + h * dc)
  ((-val : ℝ) : ℂ)

/-- The model before the equations are added, examples/kks/main.go:74-85. -/
noncomputable def kksModel (p : Kks) (n : ℕ) : EqModel n :=
  let m := (EqModel.empty.addField "conc".toList).addField "phi".toList
  let m := ((m.addScalar "c0minusc1".toList).addScalar "twof0M".toList).addScalar "gamma".toList
  (m.registerFunction "INTERPOLANT".toList kksInterpolant).registerFunction "PHI_RHS".toList (kksPhiRHS p)

/-- The values of the scalars, examples/kks/main.go:77-79. -/
noncomputable def kksScalars (p : Kks) (x : Str) : ℂ :=
  if x = "c0minusc1".toList then ((p.c0 - p.c1 : ℝ) : ℂ)
  else if x = "twof0M".toList then ((2 * p.f0 * p.m : ℝ) : ℂ)
  else if x = "gamma".toList then ((2 * p.w / p.l : ℝ) : ℂ)
  else 0

/-- The equations, examples/kks/main.go:87-88. -/
def kksEquations : List Str :=
  ["dconc/dt = twof0M*LAP conc + LAP*twof0M*c0minusc1*INTERPOLANT".toList,
   "dphi/dt = PHI_RHS + gamma*LAP*phi".toList]

end Gopf.Pf
