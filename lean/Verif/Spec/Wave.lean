import Mathlib.Data.Rat.Defs
import Mathlib.Algebra.BigOperators.Group.List.Basic
import Mathlib.Analysis.SpecialFunctions.Complex.Circle

/-!
# Specification vocabulary: plane waves
-/

namespace Gopf.Spec

/-- Scalar product of a frequency and an integer position. -/
def dot (f : List ℚ) (p : List Int) : ℚ := (List.zipWith (fun (a : ℚ) (b : Int) => a * b) f p).sum

/-- The plane wave `exp(2 π i f·p)`. -/
noncomputable def wave (f : List ℚ) (p : List Int) : ℂ :=
  Complex.exp (2 * Real.pi * Complex.I * ((dot f p : ℚ) : ℂ))

/-- Domains for which the storage order of the library (depth slowest) and row-major order describe
the same transform: all 2D domains, and 3D domains that agree with their cyclic shift once sides of
length one are dropped. -/
def LayoutOk : List Nat → Prop
  | [_, _] => True
  | [a, b, c] => c = 1 ∨ (a = 1 ∧ b = 1) ∨ (a = 1 ∧ b = c) ∨ (b = 1 ∧ a = c) ∨ (a = b ∧ b = c)
  | _ => False

end Gopf.Spec
