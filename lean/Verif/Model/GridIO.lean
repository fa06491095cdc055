import Verif.Model.FileIO

/-!
# Model of the conversions of `pfutil/grid.go` and of the views of `pfutil/sliceWrappers.go`

Complex numbers are pairs of real and imaginary part. As in `Verif.Model.FileIO` a file is the list of its records: the
text consists of digits, points, signs, letters, commas and line ends only, so the reader of package encoding/csv
returns the texts between the commas.
-/

namespace Gopf
open Pf

namespace Pfutil.Grid

/-- `ToComplex`, pfutil/grid.go:59-65. -/
def toComplex (g : Grid ℚ) : List (ℚ × ℚ) := g.data.map fun x => (x, 0)

/-- `FromComplex`, pfutil/grid.go:68-72: it writes to `Data` as many entries as it is given. -/
def fromComplex (g : Grid ℚ) (carray : List (ℚ × ℚ)) : Option (Grid ℚ) :=
  (carray.zipIdx.foldlM (fun (d : List ℚ) (c : (ℚ × ℚ) × ℕ) => goSet d (c.2 : Int) c.1.1) g.data).map fun d => ⟨g.dims, d⟩

/-- The line of node `i`, pfutil/grid.go:93-100. -/
def csvLine (g : Grid ℚ) (i : ℕ) : Option (List Str) := do
  let p ← g.pos (i : Int)
  let posString ← (List.range g.dims.length).mapM fun j : ℕ => (goGet p (j : Int)).map fmtInt
  let v ← goGet g.data (i : Int)
  return posString ++ [fmtF v]

/-- `SaveCsv`, pfutil/grid.go:80-102: the records, `none` if it panics. -/
def saveCsv (g : Grid ℚ) : Option (List (List Str)) :=
  let header := if g.dims.length = 3 then ["x".toList, "y".toList, "z".toList, "value".toList]
    else ["x".toList, "y".toList, "value".toList]
  ((List.range g.data.length).mapM g.csvLine).map fun rows => header :: rows

end Pfutil.Grid

namespace Pfutil

/-- `Get` of a `RealPartSlice` of the array, pfutil/sliceWrappers.go:38-45. -/
def realPartGet (s : List (ℚ × ℚ)) (i : Int) : Option ℚ := (goGet s i).map (·.1)

/-- `Set` of a `RealPartSlice` of the array, pfutil/sliceWrappers.go:38-40, 48-50. -/
def realPartSet (s : List (ℚ × ℚ)) (i : Int) (v : ℚ) : Option (List (ℚ × ℚ)) := do
  let c ← goGet s i
  goSet s i (v, c.2)

/-- `Len`, pfutil/sliceWrappers.go:53-55. -/
def realPartLen (s : List (ℚ × ℚ)) : Int := s.length

end Pfutil
end Gopf
