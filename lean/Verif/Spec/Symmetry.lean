import Verif.Model.Dft
import Mathlib.Logic.Equiv.Defs

/-!
# Specification vocabulary: symmetries of a periodic grid
-/

namespace Gopf.Spec

/-- Coordinate `j` of node `x`, as given by `Pos` of the library. -/
def coord (dims : List ℕ) (x : ℕ) (j : ℕ) : ℤ := ((Pfutil.pos (dims.map Int.ofNat) (x : ℤ)).getD []).getD j 0

/-- A translation, a reflection, an exchange of axes of the same length, or any combination of these: coordinate
`j` of the image is `sign j` times coordinate `axis j`, plus `offset j`. -/
structure GridSymmetry (dims : List ℕ) where
  axis : Equiv.Perm (Fin dims.length)
  sides : ∀ j, dims[axis j] = dims[j]
  sign : Fin dims.length → ℤ
  unit : ∀ j, sign j = 1 ∨ sign j = -1
  offset : Fin dims.length → ℤ

/-- `τ` takes every node to its image, with periodic boundaries. -/
def GridSymmetry.Moves {dims : List ℕ} (g : GridSymmetry dims) (τ : Equiv.Perm (Fin dims.prod)) : Prop :=
  ∀ (x : Fin dims.prod) (j : Fin dims.length),
    coord dims (τ x).val j.val ≡ g.sign j * coord dims x.val (g.axis j).val + g.offset j [ZMOD dims[j]]

/-- Every node is moved by the same offsets. -/
def translation (dims : List ℕ) (offset : Fin dims.length → ℤ) : GridSymmetry dims where
  axis := Equiv.refl _
  sides := fun _ => rfl
  sign := fun _ => 1
  unit := fun _ => Or.inl rfl
  offset := offset

/-- The axes in `flipped` are reversed. -/
def reflection (dims : List ℕ) (flipped : Fin dims.length → Bool) : GridSymmetry dims where
  axis := Equiv.refl _
  sides := fun _ => rfl
  sign := fun j => if flipped j then -1 else 1
  unit := fun j => by cases flipped j <;> simp
  offset := fun _ => 0

/-- The axes are exchanged. -/
def exchange (dims : List ℕ) (axis : Equiv.Perm (Fin dims.length)) (sides : ∀ j, dims[axis j] = dims[j]) :
    GridSymmetry dims where
  axis := axis
  sides := sides
  sign := fun _ => 1
  unit := fun _ => Or.inl rfl
  offset := fun _ => 0

end Gopf.Spec
