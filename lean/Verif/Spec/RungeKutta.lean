import Mathlib.Algebra.Module.Basic
import Mathlib.Analysis.Complex.Basic

/-!
# Specification vocabulary: the classical fourth order Runge-Kutta method
-/

namespace Gopf.Spec

/-- One step of the classical Runge-Kutta method for `dy/dt = G y`. -/
noncomputable def rungeKutta4 {V : Type} [AddCommGroup V] [Module ℂ V] (G : V → V) (dt : ℂ) (y : V) : V :=
  let k1 := G y
  let k2 := G (y + (dt / 2) • k1)
  let k3 := G (y + (dt / 2) • k2)
  let k4 := G (y + dt • k3)
  y + (dt / 6) • (k1 + (2 : ℂ) • k2 + (2 : ℂ) • k3 + k4)

/-- One step of the Runge-Kutta method for `dy/dt = G y + A y` that treats `A y` implicitly: the state from which a
slope is computed, and the result, are divided by `1 - c A`. All operations are componentwise. -/
noncomputable def rungeKutta4Implicit {ι κ : Type} (G : (ι → κ → ℂ) → ι → κ → ℂ) (A : ι → κ → ℂ) (dt : ℂ)
    (y : ι → κ → ℂ) : ι → κ → ℂ :=
  let k1 := G y
  let k2 := G ((y + (dt / 2) • k1) / (1 - (dt / 2) • A))
  let k3 := G ((y + (dt / 2) • k2) / (1 - (dt / 2) • A))
  let k4 := G ((y + dt • k3) / (1 - dt • A))
  (y + (dt / 6) • (k1 + (2 : ℂ) • k2 + (2 : ℂ) • k3 + k4)) / (1 - dt • A)

end Gopf.Spec
