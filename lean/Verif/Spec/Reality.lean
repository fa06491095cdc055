import Verif.Model.Stepper

/-!
# Specification vocabulary: real fields and conjugate symmetric spectra
-/

namespace Gopf.Spec

/-- A field with vanishing imaginary part. -/
def IsReal {n : ℕ} (data : Fin n → ℂ) : Prop := ∀ x, (data x).im = 0

/-- A spectrum whose value at the conjugate node (`ConjugateNode` of the library) is the complex
conjugate of its value at the node. -/
def Hermitian (dims : List ℕ) (data : Fin dims.prod → ℂ) : Prop :=
  ∀ b c : Fin dims.prod, Pfutil.conjugateNode (dims.map Int.ofNat) (b.val : Int) = some (c.val : Int) →
    data c = (starRingEnd ℂ) (data b)

end Gopf.Spec
