import Verif.Spec.Box

/-!
# Specification vocabulary: distances on a periodic box
-/

namespace Gopf.Spec

/-- Squared distance between `p` and the image of `q` translated by `-z` boxes. -/
def imageDistSq : List Int → List Int → List Int → List Int → Int
  | d :: ds, a :: as, b :: bs, z :: zs => (a - b + z * d) ^ 2 + imageDistSq ds as bs zs
  | _, _, _, _ => 0

/-- `m` is the minimum of the squared distances between `p` and all periodic images of `q`. -/
def IsTorusDistSq (dims p q : List Int) (m : Int) : Prop :=
  (∃ z, z.length = dims.length ∧ m = imageDistSq dims p q z) ∧
  ∀ z, z.length = dims.length → m ≤ imageDistSq dims p q z

end Gopf.Spec
