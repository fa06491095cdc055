import Verif.Model.Affine
import Mathlib.Analysis.SpecialFunctions.Gamma.Basic

/-!
# Model of `pf/vandeven.go`

`math.Gamma` is the Gamma function and `math.Pow` with a natural exponent a power. Orders are positive
(for order zero the prefactor of the code is not a number).
-/

namespace Gopf.Pf
open Pfutil

/-- Lines 17-25 of `NewVandeven`, pf/vandeven.go:14-28: the entry `i` of the table. -/
noncomputable def vandevenEntry (order : ℕ) : ℕ → ℝ
  | 0 => 1
  | i + 1 =>
    let prefactor := Real.Gamma ((2 * order : ℕ) : ℝ) / (Real.Gamma (order : ℝ) * Real.Gamma (order : ℝ))
    let dx : ℝ := 1 / 999
    let x := ((i + 1 : ℕ) : ℝ) * dx
    let i2 := (x * (1 - x)) ^ (order - 1)
    let x1 := x - dx
    let i1 := (x1 * (1 - x1)) ^ (order - 1)
    vandevenEntry order i - prefactor * (1 / 2) * (i1 + i2) * dx

/-- `NewVandeven`, pf/vandeven.go:14-28: the table `Data`. -/
noncomputable def newVandeven (order : ℕ) : List ℝ := (List.range 1000).map (vandevenEntry order)

/-- `Vandeven.Eval`, pf/vandeven.go:30-40. An empty table or a negative index panics. -/
noncomputable def vandevenEval (data : List ℝ) (x : ℝ) : Option ℝ := do
  let N : ℝ := ((data.length : ℤ) - 1 : ℤ)
  let idx := truncInt (x * N)
  if idx ≥ (data.length : ℤ) - 1 then
    data[data.length - 1]?
  else if idx < 0 then none
  else do
    let y0 ← data[idx.toNat]?
    let y1 ← data[idx.toNat + 1]?
    let dx := 1 / N
    let dy := y1 - y0
    let x0 := (idx : ℝ) * dx
    return y0 + (x - x0) * dy / dx

end Gopf.Pf
