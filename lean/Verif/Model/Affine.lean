import Verif.Model.Index
import Mathlib.LinearAlgebra.Matrix.Notation
import Mathlib.Analysis.SpecialFunctions.Trigonometric.Basic
import Mathlib.Data.Rat.Floor

/-!
# Model of `pfutil/affine.go` and `pfutil/shapes.go`

`float64` is `ℝ`. gonum's `Mul` and `MulVec` are matrix products (gonum copies its arguments when
they alias the receiver).
-/

namespace Gopf.Pfutil

/-- `Affine`, pfutil/affine.go:11-13. -/
abbrev Affine := Matrix (Fin 4) (Fin 4) ℝ

/-- The vector filled at pfutil/affine.go:17-21. -/
def homogeneous (pos : List ℝ) : Fin 4 → ℝ := fun i => if i = 3 then 1 else pos.getD i 0

/-- `Affine.Apply`, pfutil/affine.go:16-26; positions longer than four make `SetVec` panic. -/
noncomputable def Affine.apply (a : Affine) (pos : List ℝ) : Option (List ℝ) :=
  if pos.length ≤ 4 then
    some (((List.finRange 4).map (a.mulVec (homogeneous pos))).take pos.length)
  else none

/-- `Affine.Append`, pfutil/affine.go:31-33 (returns the new matrix). -/
noncomputable def Affine.append (a other : Affine) : Affine := other * a

/-- `Identity`, pfutil/affine.go:43-49. -/
def identity : Affine := Matrix.of fun i j => if i = j then 1 else 0

/-- `Translation`, pfutil/affine.go:52-59; a vector longer than four panics. The entry (3,3) is set
last. -/
def translation (vec : List ℝ) : Option Affine :=
  if vec.length ≤ 4 then
    some <| Matrix.of fun i j => if i = 3 ∧ j = 3 then 1
      else if j = 3 ∧ i.val < vec.length then vec.getD i 0
      else if i = j then 1 else 0
  else none

/-- `Scaling`, pfutil/affine.go:62-69; a vector longer than four panics. -/
def scaling (vec : List ℝ) : Option Affine :=
  if vec.length ≤ 4 then
    some <| Matrix.of fun i j => if i = 3 ∧ j = 3 then 1
      else if i = j then vec.getD i 0 else 0
  else none

/-- `RotZ`, pfutil/affine.go:78-90. -/
noncomputable def rotZ (angle : ℝ) : Affine :=
  !![Real.cos angle, -Real.sin angle, 0, 0;
     Real.sin angle, Real.cos angle, 0, 0;
     0, 0, 1, 0;
     0, 0, 0, 1]

/-- `RotY`, pfutil/affine.go:99-111. -/
noncomputable def rotY (angle : ℝ) : Affine :=
  !![Real.cos angle, 0, Real.sin angle, 0;
     0, 1, 0, 0;
     -Real.sin angle, 0, Real.cos angle, 0;
     0, 0, 0, 1]

/-- `RotX`, pfutil/affine.go:120-132. -/
noncomputable def rotX (angle : ℝ) : Affine :=
  !![1, 0, 0, 0;
     0, Real.cos angle, -Real.sin angle, 0;
     0, Real.sin angle, Real.cos angle, 0;
     0, 0, 0, 1]

/-- `Shape`, pfutil/shapes.go:6-12, with `BoundingBox`, pfutil/shapes.go:15-18; `none` is a panic of
the method. -/
structure Shape where
  interior : List ℝ → Option Bool
  bboxMin : List Int
  bboxMax : List Int

/-- `BoundingBox.check`, pfutil/shapes.go:20-29: true if it does not panic. -/
def Shape.check (s : Shape) : Bool :=
  s.bboxMin.length = 3 ∧ s.bboxMax.length = 3 ∧
    (List.zip s.bboxMin s.bboxMax).all fun (a, b) => a ≤ b

open Classical in
/-- `Box.InteriorPoint`, pfutil/shapes.go:37-48. -/
noncomputable def boxInterior (diagonal pos : List ℝ) : Option Bool :=
  if pos.length > diagonal.length then none
  else some ((List.zip pos diagonal).all fun (x, d) => ¬ (x > d / 2 ∨ x < -d / 2))

/-- Go's conversion of a float to an int: truncation towards zero. Used at pfutil/shapes.go:58-59, 81-82,
pfutil/grid.go:123-124 and pfc/periodicFieldInit.go:142, 152, 176. -/
noncomputable def truncInt (x : ℝ) : Int := if 0 ≤ x then ⌊x⌋ else ⌈x⌉

/-- `Box.BBox`, pfutil/shapes.go:51-62: missing entries are 0; a diagonal with more than three
entries panics (`none`). -/
noncomputable def boxBBox (diagonal : List ℝ) : Option (List Int × List Int) :=
  if diagonal.length ≤ 3 then
    some ((diagonal.map fun d => -truncInt (d / 2) - 1) ++ List.replicate (3 - diagonal.length) 0,
      (diagonal.map fun d => truncInt (d / 2) + 1) ++ List.replicate (3 - diagonal.length) 0)
  else none

open Classical in
/-- `Ball.InteriorPoint`, pfutil/shapes.go:71-77; `Dot`, pfutil/sliceOperations.go. -/
noncomputable def ballInterior (radius : ℝ) (pos : List ℝ) : Option Bool :=
  some (decide ((pos.map fun x => x * x).foldl (· + ·) 0 < radius * radius))

/-- `Ball.BBox`, pfutil/shapes.go:80-92. -/
noncomputable def ballBBox (radius : ℝ) : List Int × List Int :=
  (List.replicate 3 (-truncInt radius - 1), List.replicate 3 (truncInt radius + 1))

/-- `for j := range pos { floatPos[j] = float64(pos[j]) }`, pfutil/shapes.go:111-113. -/
def overwrite (floatPos : List ℝ) (pos : List Int) : List ℝ :=
  pos.map (fun (x : Int) => (x : ℝ)) ++ floatPos.drop pos.length

/-- The loop of `Draw`, pfutil/shapes.go:109-118. `floatPos` is the scratch vector that is declared
outside the loop. -/
noncomputable def drawLoop (s : Shape) (dims : List Int) (t : Affine) (value : ℝ) :
    List ℝ → Nat → List ℝ → Option (List ℝ)
  | [], _, _ => some []
  | x :: rest, i, floatPos => do
    let p ← pos dims (i : Int)
    let fp ← Affine.apply t (overwrite floatPos p)
    let ins ← s.interior (fp.take dims.length)
    let rest' ← drawLoop s dims t value rest (i + 1) fp
    return (if ins then value else x) :: rest'

/-- `Draw`, pfutil/shapes.go:98-118. The nil transformation is `identity`. Result: the new data. -/
noncomputable def draw (s : Shape) (g : Grid ℝ) (t : Option Affine) (value : ℝ) : Option (List ℝ) :=
  if s.check then drawLoop s g.dims (t.getD identity) value g.data 0 (List.replicate 3 0) else none

end Gopf.Pfutil
