import Verif.Model.Cmd
import Verif.Model.FileIO

/-!
# Model of the plotting commands, from the file to the picture: `cmd/contour.go` and `cmd/lineplot.go`

A CSV file is the list of its records, the first one being the header (`Model/FileIO.lean`). `none` is a
panic or an end of the program through `log.Fatalf`. Colours are values of an arbitrary type. The colour
map of gonum/plot is a function of its lower end, its upper end and the value; `none` stands for the error
it returns. Axes, labels, the colour bar and the encoding of the picture are not modelled.
-/

namespace Gopf.Cmd

open Pf (Str fmtInt parseFloat)

/-- The digits of a number without sign (package strconv, used at cmd/contour.go:256-269). -/
def atoiDigits (s : Str) : Option ℕ :=
  if s ≠ [] ∧ s.all Char.isDigit then some (Nat.ofDigitChars 10 s 0) else none

/-- `strconv.Atoi` (package strconv, used at cmd/contour.go:256-269), for numbers that fit into an
`int`. -/
def atoi : Str → Option Int
  | '-' :: s => (atoiDigits s).map fun n : ℕ => -(n : Int)
  | '+' :: s => (atoiDigits s).map fun n : ℕ => (n : Int)
  | s => (atoiDigits s).map fun n : ℕ => (n : Int)

/-- `getColIndex`, cmd/contour.go:213-225. -/
def getColIndex (header : List Str) (column : Str) : ℕ :=
  if column = [] then 3
  else match header.findIdx? (fun v => v == column) with
  | some i => i
  | none => 3

/-- One record of `readData`, cmd/contour.go:256-281. -/
def readRow (idx : ℕ) (record : List Str) : Option (DataRow ℚ) := do
  let x ← (goGet record 0).bind atoi
  let y ← (goGet record 1).bind atoi
  let z ← (goGet record 2).bind atoi
  let value ← (goGet record (idx : Int)).bind parseFloat
  return ⟨x, y, z, value⟩

/-- `readData`, cmd/contour.go:227-283. The reader refuses records of another length than the header. -/
def readData (file : List (List Str)) (column : Str) : Option (List (DataRow ℚ)) :=
  match file with
  | [] => none
  | header :: records =>
    if header.length < 4 then none
    else records.mapM fun r =>
      if r.length ≠ header.length then none else readRow (getColIndex header column) r

/-- `dataRange`, cmd/contour.go:285-298. -/
def dataRange (records : List (DataRow ℚ)) : Option (ℚ × ℚ) :=
  (goGet records 0).map fun first =>
    records.foldl (fun (w : ℚ × ℚ) (row : DataRow ℚ) =>
      (if row.value < w.1 then row.value else w.1, if row.value > w.2 then row.value else w.2))
      (first.value, first.value)

/-- The pixels set by `fillImage`, cmd/contour.go:315-334, in the order in which they are set: column,
row, colour. -/
def fillImage {C : Type} (data : HeatMapData ℚ) (colour : ℚ → Option C) :
    Option (List ((ℕ × ℕ) × C)) :=
  ((List.range data.nx.toNat).flatMap fun i => (List.range data.ny.toNat).map fun j => (i, j)).mapM
    fun p => (((data.zValue (p.1 : Int) (p.2 : Int)).bind colour).map fun c => (p, c))

/-- What the contour command draws: the title, the size of the picture, the pixels and the ends of the
colour bar. cmd/contour.go:75-110. -/
structure Contour (C : Type) where
  title : Str
  width : Int
  height : Int
  pixels : List ((ℕ × ℕ) × C)
  low : ℚ
  high : ℚ

/-- The contour command, cmd/contour.go:54-110, with the colour map `cmap lower upper value`. -/
def contour {C : Type} (cmap : ℚ → ℚ → ℚ → Option C) (file : List (List Str)) (column : Str) :
    Option (Contour C) := do
  let header ← file.head?
  let title ← goGet header (getColIndex header column : ℕ)
  let rows ← readData file title
  let range ← dataRange rows
  let data ← newHeatMapData rows
  let rng := range.2 - range.1
  let low := range.1 - 1 / 20 * rng
  let high := range.2 + 1 / 20 * rng
  let pixels ← fillImage data (cmap low high)
  return ⟨title, data.nx, data.ny, pixels, low, high⟩

/-- The points of one curve of the lineplot command, cmd/lineplot.go:110-121. A line without points makes
`plotter.NewLine` return an error and no line, and the next statement panics. -/
def curve (file : List (List Str)) (x y z : Int) (name : Str) : Option (Str × List (Int × ℚ)) := do
  let rows ← readData file name
  let data := lineData rows x y z
  if data = [] then none else some (name, data)

/-- The fields to plot, cmd/lineplot.go:96-106: `fields` is what `GetString("fields")` returns. -/
def plottedFields (fields : Str) (header : List Str) : Option (List Str) :=
  if fields = [] then (if 3 ≤ header.length then some (header.drop 3) else none)
  else some ((fields.splitOn ',').drop 4)

/-- The flags of the lineplot command that hold texts, by name, with their values,
cmd/lineplot.go:155-157. -/
def lineplotFlags (fname data out : Str) : List (Str × Str) :=
  [("fname".toList, fname), ("data".toList, data), ("out".toList, out)]

/-- `GetString` (package pflag, used at cmd/lineplot.go:56-96): the value of a flag; the empty text (and
an error, which line 96 ignores) if there is no such flag. -/
def getString (flags : List (Str × Str)) (name : Str) : Str := (flags.lookup name).getD []

/-- The lineplot command, cmd/lineplot.go:55-130: the curves with their names, `none` if it stops. -/
def lineplot (fname : Str) (file : List (List Str)) (data out : Str) (x y z : Int) :
    Option (List (Str × List (Int × ℚ))) := do
  if fname = [] ∨ numSet x y z ≠ 2 then none
  else
    let header ← file.head?
    let names ← plottedFields (getString (lineplotFlags fname data out) "fields".toList) header
    names.mapM (curve file x y z)

end Gopf.Cmd
