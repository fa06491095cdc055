import Mathlib.LinearAlgebra.Matrix.Notation
import Mathlib.Data.Real.Basic

/-!
# Specification vocabulary: points of space and affine maps
-/

namespace Gopf.Spec

/-- Coordinate `r` of the image of the point `(x, y, z)` under the affine map with matrix `m`. -/
def imageCoord (m : Matrix (Fin 4) (Fin 4) ℝ) (r : Fin 4) (x y z : ℝ) : ℝ :=
  m r 0 * x + m r 1 * y + m r 2 * z + m r 3

/-- The last row of the matrix of an affine map. -/
def IsAffine (m : Matrix (Fin 4) (Fin 4) ℝ) : Prop :=
  m 3 0 = 0 ∧ m 3 1 = 0 ∧ m 3 2 = 0 ∧ m 3 3 = 1

/-- The map sends the plane `z = 0` to itself. -/
def KeepsPlane (m : Matrix (Fin 4) (Fin 4) ℝ) : Prop :=
  ∀ x y, imageCoord m 2 x y 0 = 0

/-- Squared Euclidean distance. -/
def distSq (a b : List ℝ) : ℝ := (List.zipWith (fun x y => (x - y) ^ 2) a b).sum

end Gopf.Spec
