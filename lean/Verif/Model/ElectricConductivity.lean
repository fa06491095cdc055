import Verif.Model.Terms
import Verif.Model.Register
import Verif.Model.Assemble
import Verif.Model.Blur
import Verif.Model.Voronoi
import Mathlib.LinearAlgebra.Matrix.Notation
import Mathlib.Analysis.SpecialFunctions.Trigonometric.Basic

/-!
# Model of the example program `examples/electricConductivity/main.go`

The conductivity, the external field and the grid are parameters of the model of the simulation. The constant `N` of the program
(16) is a parameter where this costs nothing. The fields of the grains are kept as lists of real numbers; the program stores them
as complex numbers with imaginary part zero and reads the real part. The database and the csv file are not modelled.
-/

namespace Gopf.Pf
open Pfutil

/-- The model before the equation is added, examples/electricConductivity/main.go:131-140. The frequencies handed to the term
are those of the transform, as `NewSolver` makes them. -/
noncomputable def conductionModel (dims : List ℕ) (sigma : Fin dims.prod → List ℝ) (ext : List ℝ) : Option (EqModel dims.prod) :=
  (EqModel.empty.addField "density".toList).registerExplicit "MINUS_DIV_CURRENT".toList fun b _ _ =>
    chargeTransport dims sigma ext (b "density".toList)

/-- The equation, examples/electricConductivity/main.go:141. -/
def conductionEquation : Str := "ddensity/dt = MINUS_DIV_CURRENT".toList

/-- `rotMatrix`, examples/electricConductivity/main.go:53-60. -/
noncomputable def rotMatrix (angle : ℝ) : Matrix (Fin 2) (Fin 2) ℝ :=
  !![Real.cos angle, Real.sin angle; -Real.sin angle, Real.cos angle]

/-- `RotateConductivity`, examples/electricConductivity/main.go:30-34. -/
noncomputable def rotateConductivity (ref rot : Matrix (Fin 2) (Fin 2) ℝ) : List ℝ :=
  let res := rot * ref * rot.transpose
  [res 0 0, res 1 1, res 0 1]

/-- The loop of `Conductivity`, examples/electricConductivity/main.go:40-46: the sum of the tensors and the total weight. Fewer
rotations than grains, or a field with too few values, make the program panic. -/
noncomputable def conductivitySum (ref : Matrix (Fin 2) (Fin 2) ℝ) (i : ℕ) :
    List (List ℝ) → List (Matrix (Fin 2) (Fin 2) ℝ) → List ℝ × ℝ → Option (List ℝ × ℝ)
  | [], _, acc => some acc
  | _ :: _, [], _ => none
  | g :: gs, r :: rs, acc => do
    let v ← g[i]?
    conductivitySum ref i gs rs (List.zipWith (fun s t => s + v * t) acc.1 (rotateConductivity ref r), acc.2 + v)

open Classical in
/-- `Conductivity`, examples/electricConductivity/main.go:37-51. If the weights add up to zero the program divides zero by zero;
the model then has no value. -/
noncomputable def grainConductivity (grains : List (List ℝ)) (ref : Matrix (Fin 2) (Fin 2) ℝ)
    (rots : List (Matrix (Fin 2) (Fin 2) ℝ)) (i : ℕ) : Option (List ℝ) := do
  let acc ← conductivitySum ref i grains rots ([0, 0, 0], 0)
  if acc.2 = 0 then none else return acc.1.map fun s => s / acc.2

/-- The number of grains, examples/electricConductivity/main.go:65-70. -/
def countGrains (voronoi : List Int) : Int := voronoi.foldl (fun n v => if v > n then v else n) 0

/-- Marking the nodes of a grain, examples/electricConductivity/main.go:76-80, for lists of the same length. -/
def markGrain (voronoi : List Int) (grain : ℕ) (work : List ℝ) : List ℝ :=
  List.zipWith (fun l w => if l = (grain : Int) then 1 else w) voronoi work

/-- The loop over the grains, examples/electricConductivity/main.go:74-86. The work array is not cleared between the grains. -/
noncomputable def grainLoop (N : ℕ) (voronoi : List Int) : List ℕ → List ℝ → Option (List (List ℝ))
  | [], _ => some []
  | g :: gs, work => do
    let blurred ← blur (markGrain voronoi g work) [N, N] (boxKernel ℝ 8)
    let rest ← grainLoop N voronoi gs blurred
    return blurred :: rest

/-- `GetFields`, examples/electricConductivity/main.go:64-88. -/
noncomputable def getFields (N : ℕ) (voronoi : List Int) : Option (List (List ℝ)) :=
  grainLoop N voronoi (List.range (countGrains voronoi).toNat) (List.replicate (N * N) 0)

/-- The points, examples/electricConductivity/main.go:95-103. -/
def voronoiPts : List (List Int) := [[10, 10], [5, 50], [70, 40], [40, 70], [20, 100], [100, 20], [50, 30]]

/-- The grain of every node, examples/electricConductivity/main.go:106-113, `N` is 16. -/
def exampleGrains : Option (List Int) := do
  let nodes ← voronoiPts.mapM (nodeIdx [16, 16])
  voronoi nodes (16 * 16) [16, 16]

/-- The conductivity without rotation, examples/electricConductivity/main.go:122. -/
noncomputable def refConductivity : Matrix (Fin 2) (Fin 2) ℝ := !![1, 0; 0, 3]

/-- The rotations, examples/electricConductivity/main.go:123-129. -/
noncomputable def exampleRotations : List (Matrix (Fin 2) (Fin 2) ℝ) :=
  (List.range voronoiPts.length).map fun i => rotMatrix (i * Real.pi / 9)

end Gopf.Pf
