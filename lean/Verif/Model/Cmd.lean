import Verif.Model.Index
import Verif.Model.SortFactors
import Verif.Model.Database
import Verif.Model.Format
import Mathlib.Data.List.Dedup
import Mathlib.Data.List.GetD
import Mathlib.Data.List.Lattice
import Mathlib.Logic.Function.Basic

/-!
# Model of the command line tools `cmd/contour.go`, `cmd/lineplot.go`, `cmd/comment.go`,
`cmd/info.go`, `cmd/list.go`, `cmd/attr.go` and the time series part of `cmd/export.go`

Strings are ASCII, so bytes are characters. What the tools print is modelled without the padding and
the table borders. `V` is the type of a `float64`.
-/

namespace Gopf.Cmd

open Pf (Str)

variable {V : Type}

/-! ## Tables of positions and values -/

/-- `DataRow`, cmd/contour.go:149-152. -/
structure DataRow (V : Type) where
  x : Int
  y : Int
  z : Int
  value : V

/-- `HeatMapData`, cmd/contour.go:155-159. -/
structure HeatMapData (V : Type) where
  rows : List (DataRow V)
  index : List Int
  nx : Int
  ny : Int

/-- The maxima found by the loop cmd/contour.go:168-177. -/
def maxCoord (l : List Int) : Int := l.foldl (fun (m x : Int) => if x > m then x else m) 0

/-- `index`, cmd/contour.go:189-191. -/
def heatIndex (x y nx : Int) : Int := y * nx + x

/-- `NewHeatMapData`, cmd/contour.go:162-187. -/
def newHeatMapData (rows : List (DataRow V)) : Option (HeatMapData V) := do
  let nx := maxCoord (rows.map (·.x)) + 1
  let ny := maxCoord (rows.map (·.y)) + 1
  let index ← rows.zipIdx.foldlM (fun (l : List Int) (r : DataRow V × ℕ) =>
    goSet l (heatIndex r.1.x r.1.y nx) (r.2 : Int)) (List.replicate rows.length 0)
  return ⟨rows, index, nx, ny⟩

/-- `HeatMapData.Z`, cmd/contour.go:209-211. -/
def HeatMapData.zValue (h : HeatMapData V) (c r : Int) : Option V :=
  (goGet h.rows (heatIndex c r h.nx)).map (·.value)

/-- `numSet`, cmd/lineplot.go:136-150. -/
def numSet (x y z : Int) : Int :=
  (if x ≠ -1 then 1 else 0) + (if y ≠ -1 then 1 else 0) + (if z ≠ -1 then 1 else 0)

/-- `includeRow`, cmd/lineplot.go:163-177. -/
def includeRow (row : DataRow V) (x y z : Int) : Bool :=
  (if x ≠ -1 then decide (row.x = x) else true) &&
  (if y ≠ -1 then decide (row.y = y) else true) &&
  (if z ≠ -1 then decide (row.z = z) else true)

/-- `absissaIndex`, cmd/lineplot.go:180-190. -/
def absissaIndex (x y : Int) : ℕ := if x = -1 then 0 else if y = -1 then 1 else 2

/-- `lineData`, cmd/lineplot.go:192-205: the loop runs from the last row to the first. -/
def lineData (rows : List (DataRow V)) (x y z : Int) : List (Int × V) :=
  rows.reverse.foldl (fun (acc : List (Int × V)) (r : DataRow V) =>
    if includeRow r x y z then acc ++ [([r.x, r.y, r.z].getD (absissaIndex x y) 0, r.value)] else acc) []

/-! ## Comments -/

/-- `CommentWidth`, cmd/util.go:18. -/
def commentWidth : ℕ := 96

/-- Go's `s[a:b]`. Used at cmd/comment.go:104-118. -/
def goSlice (s : Str) (a b : ℕ) : Option Str :=
  if a ≤ b ∧ b ≤ s.length then some ((s.drop a).take (b - a)) else none

/-- `closestWhiteSpace`, cmd/util.go:46-53. -/
def closestWhiteSpace (line : Str) : ℕ → Option ℕ
  | 0 => do
    let _ ← line[0]?
    return 0
  | i + 1 => do
    let c ← line[i + 1]?
    if c = ' ' then return i + 1 else closestWhiteSpace line i

/-- The loop over the lines of one comment in `printAllComments`, cmd/comment.go:104-118. -/
def commentLoop (comment : Str) : ℕ → ℕ → Option (List Str)
  | 0, _ => some []
  | n + 1, start =>
    if start + commentWidth > comment.length then do
      let cur ← goSlice comment start comment.length
      let rest ← commentLoop comment n start
      return cur :: rest
    else do
      let e ← closestWhiteSpace comment (start + commentWidth)
      let cur ← goSlice comment start e
      let rest ← commentLoop comment n (e + 1)
      return cur :: rest

/-- The lines printed for one comment by `printAllComments`, cmd/comment.go:101-118. -/
def commentLines (comment : Str) : Option (List Str) :=
  commentLoop comment (comment.length / commentWidth + 1) 0

/-- The loop of `showComments`, cmd/list.go:127-139: the variable `comment` outlives the iteration. `q`
returns the comments stored for a simulation. -/
def showCommentsLoop (q : Int → List Str) : List Int → Str → List (Int × Str)
  | [], _ => []
  | v :: vs, comment =>
    let comment := (q v).foldl (fun _ c => c) comment
    (v, comment) :: showCommentsLoop q vs comment

/-- `showComments`, cmd/list.go:96-140: what is printed for the listed simulations. -/
def showComments (q : Int → List Str) (simIds : List Int) : List (Int × Str) :=
  showCommentsLoop q simIds []

/-! ## Wrapped tables -/

/-- The pieces cut by the loops of `printList`, cmd/info.go:163-179, and `listAttributes`,
cmd/attr.go:164-170. -/
def chunks {α : Type} (width : ℕ) (l : List α) : List (List α) :=
  (List.range (l.length / width + 1)).map fun i : ℕ =>
    if (i + 1) * width > l.length then l.drop (i * width)
    else (l.drop (i * width)).take ((i + 1) * width - i * width)

/-- `ValueWidth`, cmd/info.go:28. -/
def valueWidth : ℕ := 60

/-- The text `printList` wraps, `strings.Join(array, ", ")`, cmd/info.go:164. -/
def listText (array : List Str) : Str := [',', ' '].intercalate array

/-- The value column printed by `printList`, cmd/info.go:163-179. -/
def printList (array : List Str) : List Str := chunks valueWidth (listText array)

/-- `MaxCols`, cmd/util.go:15. -/
def maxCols : ℕ := 10

/-- The headers of the tables printed by `listAttributes`, cmd/attr.go:163-170; `keys` is the slice
made from the set of names. -/
def attributeTables (keys : List Str) : List (List Str) := chunks maxCols keys

/-! ## Time series -/

/-- A row of table `timeseries`, pf/database.go:133-136. -/
structure SeriesRow (V : Type) where
  key : Str
  value : V
  timestep : Int
  simID : Int

/-- The rows inserted by `FieldDB.TimeSeries`, pf/database.go:318-343, one transaction; `data` is the
map in the order in which it is traversed. -/
def timeSeriesRows (simID timestep : Int) (data : List (Str × V)) : List (SeriesRow V) :=
  data.map fun kv => ⟨kv.1, kv.2, timestep, simID⟩

/-- The rows of one simulation. `WHERE simID = ?`, cmd/export.go:123-185. -/
def selectSeries (table : List (SeriesRow V)) (simid : Int) : List (SeriesRow V) :=
  table.filter fun r => decide (r.simID = simid)

/-- Loop of `exportTimeseries` over the rows, cmd/export.go:162-165. -/
def fillSeries [Zero V] (n : ℕ) (rows : List (SeriesRow V)) : Option (List (Str → V)) :=
  rows.foldlM (fun (data : List (Str → V)) (r : SeriesRow V) => do
    let m ← goGet data r.timestep
    goSet data r.timestep (Function.update m r.key r.value)) (List.replicate n fun _ => 0)

/-- `exportTimeseries`, cmd/export.go:123-185: the header and the records. `order` is the order in
which `SELECT DISTINCT` returns the keys. -/
def exportTimeseries [Zero V] (order : List Str → List Str) (table : List (SeriesRow V))
    (simid : Int) : Option (List Str × List (List V)) := do
  let rows := selectSeries table simid
  let keys := order (rows.map (·.key)).dedup
  let maxStep := Pf.maxOrZero (rows.map (·.timestep))
  let n : Int := maxStep + 1
  if n < 0 then none
  else
    let data ← fillSeries n.toNat rows
    return (keys, data.map fun m => keys.map m)

/-! ## Exporting every step -/

/-- `allTimeSteps`, cmd/export.go:282-296, with `SELECT DISTINCT` as in `exportFieldData`. -/
def allTimeSteps (db : Pf.DB V) (simid : Int) : List Int :=
  ((db.fields.filter fun r => decide (r.simID = simid)).map (·.timestep)).dedup

/-- The loop for flag `--all`, cmd/export.go:92-97: the files written with their contents, `none` as
contents where nothing is written. -/
def exportAll [Zero V] (order : List Str → List Str) (db : Pf.DB V) (simid : Int) (outfile : Str) :
    Option (List (Str × Option (List Str × List (List Int × List V)))) :=
  (allTimeSteps db simid).mapM fun step : Int => do
    let c ← Pf.exportFieldData order db step simid
    return (outfile ++ Pf.fmtInt step ++ ".csv".toList, c)

end Gopf.Cmd
