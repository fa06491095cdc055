import Verif.Spec.Box
import Mathlib.Algebra.BigOperators.Group.List.Basic
import Mathlib.Algebra.Field.Defs

/-!
# Specification vocabulary: shift windows on the torus
-/

namespace Gopf.Spec

/-- All integer shift vectors of dimension `d` with entries between `-c` and `c`. -/
def window (d : Nat) (c : Int) : List (List Int) :=
  (allTuples (List.replicate d (2 * c + 1).toNat)).map fun t => t.map fun x => x - c

/-- The in-range position congruent to `p + s` modulo the side lengths. -/
def torusShift (dims p s : List Int) : List Int :=
  List.zipWith (fun x d => x % d) (List.zipWith (· + ·) p s) dims

/-- Total weight of a kernel over the window with half-width `c`. -/
def windowWeight {K : Type} [Field K] (value : List Int → K) (d : Nat) (c : Int) : K :=
  ((window d c).map value).sum

end Gopf.Spec
