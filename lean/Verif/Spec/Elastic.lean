import Verif.Model.LinElast

/-!
# Specification of the elastic energy of a region with a misfit strain
-/

namespace Gopf.Spec
open Pfutil Pf Elasticity
open scoped BigOperators

/-- The strain of a displacement field: the symmetric part of its gradient, with the derivatives of the
gradient calculator. (In two dimensions nothing depends on the third coordinate.) -/
noncomputable def symGrad (dims : List ℕ) (u : Fin 3 → Fin dims.prod → ℝ) (x : Fin dims.prod) : Mat3 :=
  Matrix.of fun i j =>
    ((gradCalculate dims j false (fun y => (u i y : ℂ)) x).re +
      (gradCalculate dims i false (fun y => (u j y : ℂ)) x).re) / 2

/-- `E` is the elastic energy of the indicator `h`: the least value, over all displacement fields, of the
energy of the difference of the strain and the misfit strain of the region. -/
def IsElasticEnergy (dims : List ℕ) (c : Idx4 → ℝ) (misfit : Mat3) (h : Fin dims.prod → ℝ) (E : ℝ) : Prop :=
  IsLeast {W : ℝ | ∃ u : Fin 3 → Fin dims.prod → ℝ,
    W = ∑ x, energyDensity c (symGrad dims u x - h x • misfit)} E

/-- The stiffness has the symmetries of an elastic material and every symmetric strain costs energy. -/
structure StableMaterial (c : Idx4 → ℝ) : Prop where
  minorLeft : ∀ i j k l, c (j, i, k, l) = c (i, j, k, l)
  minorRight : ∀ i j k l, c (i, j, l, k) = c (i, j, k, l)
  major : ∀ i j k l, c (k, l, i, j) = c (i, j, k, l)
  positive : ∀ e : Mat3, e.transpose = e → e ≠ 0 → 0 < energyDensity c e

/-- The indicator has no content in the bins whose wave vector has the highest frequency of an axis, one half. There are
such bins only along axes with an even number of nodes. -/
def Quiet (dims : List ℕ) (g : Fin dims.prod → ℝ) : Prop :=
  ∀ (k : Fin dims.prod) (a : Fin 3), freq3 dims k a = 1 / 2 → fft dims (fun x => (g x : ℂ)) k = 0

end Gopf.Spec
