import Mathlib.Analysis.Calculus.Deriv.Basic
import Mathlib.Analysis.Complex.Basic

/-!
# Specification vocabulary: exact solutions of linear equations over one time step
-/

namespace Gopf.Spec

/-- `y1` is the value at time `dt` of the exact solution of `y' = A y + g` with `y(0) = y0`, where `g`
goes linearly from `N0` at time zero to `N1` at time `dt`. -/
def IsExactStep (dt : ℝ) (A N0 N1 y0 y1 : ℂ) : Prop :=
  ∃ y : ℝ → ℂ, y 0 = y0 ∧ y dt = y1 ∧
    ∀ τ : ℝ, HasDerivAt y (A * y τ + (N0 + (N1 - N0) * ((τ / dt : ℝ) : ℂ))) τ

end Gopf.Spec
