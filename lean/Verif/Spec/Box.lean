import Mathlib.Data.List.Basic
import Mathlib.Algebra.BigOperators.Group.List.Basic

/-!
# Specification vocabulary: integer boxes
-/

namespace Gopf.Spec

/-- The position `p` lies inside the box with side lengths `dims`. -/
def InBox (dims p : List Int) : Prop := List.Forall₂ (fun d x => 0 ≤ x ∧ x < d) dims p

/-- Number of nodes of a box. -/
def numNodes (dims : List Int) : Int := dims.prod

/-- A 2D or 3D box with positive side lengths. -/
def GoodDims (dims : List Int) : Prop :=
  (dims.length = 2 ∨ dims.length = 3) ∧ ∀ d ∈ dims, 0 < d

/-- All tuples below the bounds, last index fastest. -/
def allTuples : List Nat → List (List Int)
  | [] => [[]]
  | n :: ns => (List.range n).flatMap fun (i : Nat) => (allTuples ns).map fun t => (i : Int) :: t

end Gopf.Spec
