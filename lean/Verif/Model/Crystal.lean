import Verif.Model.Affine
import Verif.Model.Product
import Verif.Model.Lattice

/-!
# Model of `pfc/periodicFieldInit.go` and the grid operations it uses

`float64` is `ℝ`. `Solve` with a regular matrix is the multiplication with its inverse (theorems assume a
regular cell).
-/

namespace Gopf.Pfutil
namespace Grid
variable {α : Type}

/-- The source position of `Rotate2D` for the node at `(p0, p1)`, pfutil/grid.go:114-126. -/
noncomputable def rotSource (d0 d1 : Int) (angle : ℝ) (p0 p1 : Int) : List Int :=
  let cosa := Real.cos (-angle)
  let sina := Real.sin (-angle)
  let p0 := p0 - d0.tdiv 2
  let p1 := p1 - d1.tdiv 2
  let r0 := truncInt ((p0 : ℝ) * cosa + (p1 : ℝ) * sina)
  let r1 := truncInt ((p1 : ℝ) * cosa - (p0 : ℝ) * sina)
  [r0 + d0.tdiv 2, r1 + d1.tdiv 2]

/-- The value `Rotate2D` stores for node `i`, pfutil/grid.go:116-128. -/
noncomputable def rotNode (g : Grid α) (d0 d1 : Int) (angle : ℝ) (i : ℕ) : Option α := do
  let p ← g.pos (i : Int)
  match p with
  | [p0, p1] => do
    let r ← wrap (rotSource d0 d1 angle p0 p1) g.dims
    let j ← g.index r
    goGet g.data j
  | _ => none

/-- `Grid.Rotate2D`, pfutil/grid.go:106-130. All nodes read the copy of the data made before the loop. -/
noncomputable def rotate2D (g : Grid α) (angle : ℝ) : Option (Grid α) :=
  match g.dims with
  | [d0, d1] => do
    let data ← (List.range g.data.length).mapM (g.rotNode d0 d1 angle)
    return ⟨g.dims, data⟩
  | _ => none

/-- `Grid.Copy`, pfutil/grid.go:26-34; values do not share memory in the model. -/
def copy (g : Grid α) : Grid α := ⟨g.dims, g.data⟩

end Grid
end Gopf.Pfutil

namespace Gopf.Pfc
open Pfutil

/-- `TiltGB`, pfc/periodicFieldInit.go:190-205. -/
noncomputable def tiltGB {α : Type} (g : Grid α) (angle : ℝ) : Option (Grid α) :=
  match g.dims with
  | [d0, d1] => do
    let cpy ← g.copy.rotate2D (angle / 2)
    let g ← g.rotate2D (-angle / 2)
    (List.range (d0.tdiv 2).toNat).foldlM (fun (g : Grid α) (ix : ℕ) =>
      (List.range d1.toNat).foldlM (fun (g : Grid α) (iy : ℕ) => do
        let v ← cpy.get [(ix : Int), (iy : Int)]
        g.set [(ix : Int), (iy : Int)] v) g) g
  | _ => none

/-- `AtomicKernel`, pfc/periodicFieldInit.go:22-29. -/
structure AtomicKernel where
  eval : ℝ → ℝ
  cutoff : ℝ

/-- `GaussianKernel`, pfc/periodicFieldInit.go:80-94. -/
noncomputable def gaussianKernel (width : ℝ) : AtomicKernel where
  eval := fun x => Real.exp (-((x / width) ^ 2) / 2)
  cutoff := 3 * width

/-- `CircleKernel`, pfc/periodicFieldInit.go:97-113. -/
noncomputable def circleKernel (radius : ℝ) : AtomicKernel where
  eval := fun x => if 0 ≤ x ∧ x < radius + 1 then 1 else 0
  cutoff := radius

/-- The tuples seen by a loop over a product iterator; the fuel is one more than the number of tuples, so that
`none` means a panic or an endless loop. The loops pfc/periodicFieldInit.go:50, 159, 172. -/
def productLoop (ends : List Int) : Option (List (List Int)) :=
  Product.forLoop ((prodInt ends).toNat + 1) (newProduct ends)

/-- An index tuple as a vector. Conversions at pfc/periodicFieldInit.go:159-163, 172-176. -/
def vecOf {n : ℕ} (l : List Int) : Fin n → ℝ := fun i => ((l.getD i 0 : Int) : ℝ)

/-- `CornersScaledCrd`, pfc/periodicFieldInit.go:35-64: the columns of the returned matrix. -/
noncomputable def cornersScaledCrd {n : ℕ} (C : Matrix (Fin n) (Fin n) ℝ) (dims : List Int) :
    Option (List (Fin n → ℝ)) := do
  let idx ← productLoop (List.replicate n 2)
  return idx.map fun l => C⁻¹.mulVec fun i => ((dims.getD i 0 * l.getD i 0 : Int) : ℝ)

open Classical in
/-- The comparison `point.AtVec(i)+threshold > float64(domainSize[i])`, pfc/periodicFieldInit.go:72; a threshold that
is not a number (`none`) makes it false. -/
noncomputable def tooFar (x : ℝ) (threshold : Option ℝ) (d : Int) : Bool :=
  match threshold with
  | some t => decide (x + t > (d : ℝ))
  | none => false

open Classical in
/-- `isInsideBox`, pfc/periodicFieldInit.go:69-76. -/
noncomputable def isInsideBox {n : ℕ} (point : Fin n → ℝ) (dims : List Int) (threshold : Option ℝ) : Bool :=
  (List.finRange n).all fun i => ¬ (point i < 0 ∨ tooFar (point i) threshold (dims.getD i 0) = true)

open Classical in
/-- `math.Pow(vol, 1.0/3.0)`, pfc/periodicFieldInit.go:157: not a number (`none`) for negative volumes, that is for
left-handed cells. -/
noncomputable def cubeRoot (vol : ℝ) : Option ℝ := if vol < 0 then none else some (vol ^ ((1 : ℝ) / 3))

/-- The loop for the smallest and the largest entry, pfc/periodicFieldInit.go:126-136. -/
noncomputable def minMax (first : ℝ) (data : List ℝ) : ℝ × ℝ :=
  data.foldl (fun (m : ℝ × ℝ) x => (if x < m.1 then x else m.1, if x > m.2 then x else m.2)) (first, first)

/-- The origins of the unit cells that pass the test of `BuildCrystal`, pfc/periodicFieldInit.go:125-166
(with the smallest scaled coordinate `minval` as the first component). -/
noncomputable def crystalOrigins {n : ℕ} (C : Matrix (Fin n) (Fin n) ℝ) (dims : List Int) :
    Option (ℝ × List (Fin n → ℝ)) := do
  let corners ← cornersScaledCrd C dims
  let data := corners.flatMap fun c => (List.finRange n).map c
  let first ← data.head?
  let (minval, maxval) := minMax first data
  let rng := maxval - minval
  let idx ← productLoop (List.replicate n (truncInt rng + 1))
  let L := (cubeRoot (volume C)).map fun r => r / 2
  return (minval, (idx.map fun l => C.mulVec fun i => vecOf l i + minval).filter fun o => isInsideBox o dims L)

/-- `BuildCrystal`, pfc/periodicFieldInit.go:124-186; `basis` holds the columns of the basis. -/
noncomputable def buildCrystal {n : ℕ} (C : Matrix (Fin n) (Fin n) ℝ) (basis : List (Fin n → ℝ))
    (kernel : AtomicKernel) (grid : Grid ℝ) : Option (Grid ℝ) := do
  let (_, origins) ← crystalOrigins C grid.dims
  origins.foldlM (fun (g : Grid ℝ) (origin : Fin n → ℝ) =>
    basis.foldlM (fun (g : Grid ℝ) (b : Fin n → ℝ) => do
      let nodes ← productLoop (List.replicate n (truncInt (2 * kernel.cutoff)))
      nodes.foldlM (fun (g : Grid ℝ) (pos : List Int) => do
        let delta : Fin n → ℝ := fun k => vecOf pos k - kernel.cutoff + 1 / 2
        let shifted := (List.finRange n).map fun k => truncInt (delta k + origin k + C.mulVec b k)
        let distSq := ((List.finRange n).map fun k => delta k ^ 2).foldl (· + ·) 0
        let p ← wrap shifted g.dims
        g.set p (kernel.eval (Real.sqrt distSq))) g) g) grid

end Gopf.Pfc
