import Verif.Model.Format
import Verif.Model.Database

/-!
# Model of `pf/fileIO.go` and `pf/xdmf.go`

A file is a list of bytes, a file system a map from names to files. Errors of the operating system do
not occur. A `float64` in a raw file is its bit pattern (`math.Float64bits`), 64 bits. CSV files are
lists of records (`encoding/csv` is taken to return the records that were written, which its
documentation promises for texts without carriage returns). The XML text of meta files
is in `Verif.Model.Markup`.
-/

namespace Gopf.Pf
open Pfutil

/-- A byte of a file, pf/fileIO.go:87-95. -/
abbrev Byte := BitVec 8
/-- The bits of a `float64`, pf/fileIO.go:87-95. -/
abbrev Word := BitVec 64

/-- `binary.BigEndian.PutUint64` (package encoding/binary, used through `binary.Write` in
pf/fileIO.go:94). -/
def putUint64 (v : Word) : List Byte :=
  [(v >>> 56).setWidth 8, (v >>> 48).setWidth 8, (v >>> 40).setWidth 8, (v >>> 32).setWidth 8,
   (v >>> 24).setWidth 8, (v >>> 16).setWidth 8, (v >>> 8).setWidth 8, v.setWidth 8]

/-- `binary.BigEndian.Uint64` (package encoding/binary, used through `binary.Read` in
pf/fileIO.go:81) on the first eight bytes; missing bytes count as zero and do not occur. -/
def uint64 (b : List Byte) : Word :=
  (b.getD 7 0).setWidth 64 ||| (b.getD 6 0).setWidth 64 <<< 8 ||| (b.getD 5 0).setWidth 64 <<< 16 |||
  (b.getD 4 0).setWidth 64 <<< 24 ||| (b.getD 3 0).setWidth 64 <<< 32 |||
  (b.getD 2 0).setWidth 64 <<< 40 ||| (b.getD 1 0).setWidth 64 <<< 48 |||
  (b.getD 0 0).setWidth 64 <<< 56

/-- Contents written by `SaveFloat64`, pf/fileIO.go:87-95. -/
def saveFloat64 (data : List Word) : List Byte := data.flatMap putUint64

/-- `binary.Read` into a slice of `n` words, pf/fileIO.go:81. -/
def readWords : ℕ → List Byte → List Word
  | 0, _ => []
  | n + 1, bs => uint64 bs :: readWords n (bs.drop 8)

/-- `LoadFloat64`, pf/fileIO.go:66-83. -/
def loadFloat64 (file : List Byte) : List Word := readWords (file.length / 8) file

/-- The name built in lines 31 and 59 of pf/fileIO.go and line 155 of pf/xdmf.go. pf/fileIO.go:31, 59 and
pf/xdmf.go:155. -/
def binName (pfx name : Str) (epoch : Int) : Str :=
  pfx ++ '_' :: name ++ '_' :: fmtInt epoch ++ ['.', 'b', 'i', 'n']

/-- The files by name, pf/fileIO.go:57-62. -/
abbrev FS := Str → Option (List Byte)

/-- `Float64IO.SaveFields`, pf/fileIO.go:57-62, with `SaveReal`, pf/model.go:35-41: `fields` are the
names and the real parts. -/
def float64IO (pfx : Str) (fields : List (Str × List Word)) (epoch : Int) (fs : FS) : FS :=
  fields.foldl (fun (fs : FS) (f : Str × List Word) =>
    Function.update fs (binName pfx f.1 epoch) (some (saveFloat64 f.2))) fs

/-! ## CSV -/

/-- Lines 194-208 of `SaveCsv`: the records, and the scratch slice `pos`. pf/fileIO.go:194-208. -/
def csvLoop (data : List (Str × List ℚ)) (domainSize : List Int) (nodes : List ℕ) :
    Option (List Int × List (List Str)) :=
  nodes.foldlM (fun (w : List Int × List (List Str)) (i : ℕ) => do
    let position ← pos domainSize (i : Int)
    let p := goCopy w.1 position
    let vals ← data.mapM fun f => (goGet f.2 (i : Int)).map fmtF
    return (p, w.2 ++ [p.map fmtInt ++ vals])) ([0, 0, 0], [])

/-- `SaveCsv`, pf/fileIO.go:163-209: the records, `none` if it panics, `some none` if no file is
written. The empty domain size stands for `nil`. -/
def saveCsv (data : List (Str × List ℚ)) (domainSize : List Int) :
    Option (Option (List (List Str))) :=
  if domainSize = [] then none
  else match data with
  | [] => some none
  | d :: _ =>
    if prodInt domainSize ≠ (d.2.length : Int) then none
    else do
      let w ← csvLoop data domainSize (List.range d.2.length)
      return some ((["X".toList, "Y".toList, "Z".toList] ++ data.map (·.1)) :: w.2)

/-- One record of `LoadCSV`, pf/fileIO.go:146-149 (a text that is no number counts as 0). -/
def csvAppend (fields : List (Str × List (ℚ × ℚ))) (record : List Str) :
    Option (List (Str × List (ℚ × ℚ))) :=
  fields.zipIdx.mapM fun f => do
    let text ← goGet record ((f.2 + 3 : ℕ) : Int)
    return (f.1.1, f.1.2 ++ [((parseFloat text).getD 0, 0)])

/-- `LoadCSV`, pf/fileIO.go:117-151. Records of another length than the header end the program. -/
def loadCsv : List (List Str) → Option (List (Str × List (ℚ × ℚ)))
  | [] => none
  | header :: records =>
    if header.length < 3 then none
    else records.foldlM (fun (fields : List (Str × List (ℚ × ℚ))) (r : List Str) =>
      if r.length ≠ header.length then none else csvAppend fields r)
      ((header.drop 3).map fun n => (n, []))

/-! ## Grey values -/

/-- `MaxReal`, pfutil/sliceOperations.go:61-69, on the real parts. -/
def maxReal (data : List ℚ) : Option ℚ :=
  (data[0]?).map fun a => data.foldl (fun m x => if x > m then x else m) a

/-- `MinReal`, pfutil/sliceOperations.go:72-80, on the real parts. -/
def minReal (data : List ℚ) : Option ℚ :=
  (data[0]?).map fun a => data.foldl (fun m x => if x < m then x else m) a

/-- Conversion of a float to `uint8`: truncation; outside of -1 < x < 256 the result is up to the Go
implementation, here `none`. Used at pf/util.go:108-117. -/
def toUint8 (x : ℚ) : Option ℕ :=
  if -1 < x ∧ x < 256 then some ⌊x⌋.toNat else none

/-- `RealPartAsUint8`, pf/util.go:108-117, on the real parts. -/
def realPartAsUint8 (data : List ℚ) (min max : ℚ) : Option (List ℕ) :=
  let max := if |max - min| < 1 / 10 ^ 10 then min + 1 else max
  data.mapM fun x => toUint8 (255 * (x - min) / (max - min))

/-- The bytes written by `Uint8IO.SaveFields` for one field, pf/fileIO.go:32-34. -/
def uint8Rep (data : List ℚ) : Option (List ℕ) := do
  let min ← minReal data
  let max ← maxReal data
  realPartAsUint8 data min max

/-! ## Meta file -/

/-- What `CreateXDMF` writes for one epoch: the name of the grid, and per attribute its name, the shape and
the file. pf/xdmf.go:134-158. -/
structure XdmfGrid where
  name : Str
  attributes : List (Str × Str × Str)

/-- Dimension text, pf/xdmf.go:87-95. -/
def xdmfDims : List Int → Option Str
  | [a, b] => some (fmtInt a ++ ' ' :: fmtInt b)
  | [a, b, c] => some (fmtInt a ++ ' ' :: fmtInt b ++ ' ' :: fmtInt c)
  | _ => none

/-- The loop of `CreateXDMF` over the epochs, pf/xdmf.go:134-158; the constant items of the file are
left out. -/
def createXdmf (fieldNames : List Str) (pfx : Str) (num : ℕ) (domainSize : List Int) :
    Option (List XdmfGrid) := do
  let dimensions ← xdmfDims domainSize
  return (List.range num).map fun (i : ℕ) =>
    { name := 'T' :: fmtInt ((i : Int) + 1)
      attributes := fieldNames.map fun n => (n, dimensions, binName pfx n (i : Int)) }

end Gopf.Pf
