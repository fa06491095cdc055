import Verif.Model.Affine
import Verif.Model.Blur

/-!
# Model of the example program `examples/drawing/main.go`

Writing the file is not modelled here (`SaveCsv` is in `Verif.Model.FileIO`).
-/

namespace Gopf.Pfutil

/-- `Box` as a `Shape`, pfutil/shapes.go:32-62; `BBox` panics if there are more than three sides. -/
noncomputable def boxShape (diagonal : List ℝ) : Option Shape := do
  let b ← boxBBox diagonal
  return ⟨boxInterior diagonal, b.1, b.2⟩

/-- `Ball` as a `Shape`, pfutil/shapes.go:66-92. -/
noncomputable def ballShape (radius : ℝ) : Shape := ⟨ballInterior radius, (ballBBox radius).1, (ballBBox radius).2⟩

/-- A figure: the shape and the transformation passed to `Draw`. examples/drawing/main.go:23, 28, 33, 39, 44, 49. -/
abbrev Figure := Shape × Affine

/-- Calls of `Draw` with the same value one after the other, examples/drawing/main.go:16-49. -/
noncomputable def drawFigures (value : ℝ) (figures : List Figure) (g : Grid ℝ) : Option (Grid ℝ) :=
  figures.foldlM (fun (g : Grid ℝ) (f : Figure) =>
    (draw f.1 g (some f.2) value).map fun (data : List ℝ) => (⟨g.dims, data⟩ : Grid ℝ)) g

/-- The six figures, examples/drawing/main.go:16-49. -/
noncomputable def exampleFigures : Option (List Figure) := do
  let square ← boxShape [30, 30]
  let t1 ← translation [-25, -25]
  let t2 ← translation [-35, -70]
  let t3 ← translation [-35, -110]
  let s3 ← scaling [1, 2]
  let t4 ← translation [-85, -25]
  let s4 ← scaling [1, 2]
  let circle := ballShape 15
  let t5 ← translation [-85, -65]
  let t6 ← translation [-85, -110]
  let s6 ← scaling [2, 1]
  return [(square, t1), (square, t2.append (rotZ (Real.pi / 4))), (square, t3.append s3),
    (square, (t4.append (rotZ (Real.pi / 4))).append s4), (circle, t5), (circle, t6.append s6)]

/-- `main`, examples/drawing/main.go:12-52: what is handed to `SaveCsv`. -/
noncomputable def drawingExample : Option (List ℝ) := do
  let grid ← newGrid [128, 128]
  let figures ← exampleFigures
  let drawn ← drawFigures 1 figures grid
  blur drawn.data drawn.dims (boxKernel ℝ 3)

end Gopf.Pfutil
