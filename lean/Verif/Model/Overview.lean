import Verif.Model.Attr
import Verif.Model.Database
import Verif.Model.Cmd

/-!
# Model of the commands that give an overview of a database

`cmd/list.go`, `cmd/time.go`, `cmd/info.go`, the newest simulation of `cmd/util.go` and the creation time
of `pf/database.go`. SQLite is modelled as in `Verif.Model.Database`; the result of `ORDER BY` is any
ordered arrangement of the rows.
-/

namespace Gopf.Cmd

open Pf (Str)

/-- Decimal digits with leading zeros. Part of SQLite's `datetime`, used at pf/database.go:148. -/
def padDigits : ℕ → ℕ → Str
  | 0, _ => []
  | k + 1, n => padDigits k (n / 10) ++ [Nat.digitChar (n % 10)]

/-- A local time as calendar and clock show it. The value of `datetime('now', 'localtime')`,
pf/database.go:148. -/
structure Moment where
  year : ℕ
  month : ℕ
  day : ℕ
  hour : ℕ
  minute : ℕ
  second : ℕ

/-- `datetime('now', 'localtime')` of SQLite: `YYYY-MM-DD HH:MM:SS`. pf/database.go:148. -/
def datetime (t : Moment) : Str :=
  padDigits 4 t.year ++ '-' :: (padDigits 2 t.month ++ '-' :: (padDigits 2 t.day ++ ' ' ::
    (padDigits 2 t.hour ++ ':' :: (padDigits 2 t.minute ++ ':' :: padDigits 2 t.second))))

/-- Table `simIDs`, pf/database.go:85: id and creation time. -/
abbrev SimTable := List (Int × Str)

/-- The insertion of a new id, pf/database.go:142-152. The column is `UNIQUE` and the error is ignored. -/
def registerSim (rows : SimTable) (draw : Int) (now : Moment) : SimTable :=
  if draw ∈ rows.map (·.1) then rows else rows ++ [(draw, datetime now)]

/-- `SELECT simID,creationTime FROM simIds ORDER BY creationTime DESC LIMIT max`, cmd/list.go:80-82,
113-115 and cmd/util.go:30: `res` can be the result. A negative limit is none. -/
def IsNewest (rows : SimTable) (max : Int) (res : SimTable) : Prop :=
  ∃ sorted : SimTable, sorted.Perm rows ∧ sorted.Pairwise (fun a b => ¬ a.2 < b.2) ∧
    res = if max < 0 then sorted else sorted.take max.toNat

/-- The remark of `showSimulationIds` and `showComments`, cmd/list.go:76-78, 106-108. -/
def showingRemark (rows : SimTable) (max : Int) : Option (Int × Int) :=
  if max < (rows.length : Int) then some (max, (rows.length : Int)) else none

/-- `newestSimulationID`, cmd/util.go:29-41; `res` is the result of the query. -/
def newestSimulationID (res : SimTable) : Int := res.foldl (fun (_ : Int) (r : Int × Str) => r.1) 0

/-- `gopf db time`, cmd/time.go:35-45: the printed id and time; `res` is the result of the query for the
newest simulation. -/
def timeCmd (rows : SimTable) (res : SimTable) (simid : Int) : Int × Str :=
  let simid := if simid < 0 then newestSimulationID res else simid
  (simid, ((rows.filter fun r => decide (r.1 = simid)).map (·.2)).foldl (fun _ t => t) [])

/-- What `gopf db info` shows. cmd/info.go:141-153. -/
structure Info where
  numCalc : ℕ
  dims : Int × Int × Int
  fields : List Str
  attributes : List Str
  series : List Str

/-- `gopf db info`, cmd/info.go:52-138. `series` is the table of time series. `order` is the order in which `SELECT
DISTINCT` returns its rows; `MAX` of an empty table is `NULL`, which is not scanned. -/
def infoCmd {V : Type} (order : List Str → List Str) (sims : SimTable) (db : Pf.DB V) (attrs : AttrDB V)
    (series : List (SeriesRow V)) : Info where
  numCalc := sims.length
  dims := (Pf.maxOrZero (db.positions.map fun row => row.getD 0 0) + 1,
    Pf.maxOrZero (db.positions.map fun row => row.getD 1 0) + 1,
    Pf.maxOrZero (db.positions.map fun row => row.getD 2 0) + 1)
  fields := order (db.fields.map (·.name)).dedup
  attributes := order (attrs.numbers.map (·.key)).dedup ++ order (attrs.texts.map (·.key)).dedup
  series := order (series.map (·.key)).dedup

/-- `%-*s` of package fmt, cmd/info.go:143-146. -/
def padRight (width : ℕ) (s : Str) : Str := s ++ List.replicate (width - s.length) ' '

/-- `%*s` and `%*d` of package fmt, cmd/info.go:145-146. -/
def padLeft (width : ℕ) (s : Str) : Str := List.replicate (width - s.length) ' ' ++ s

/-- `DescWidth`, cmd/info.go:31. -/
def descWidth : ℕ := 16

/-- `| %-*s | %*s |`, cmd/info.go:145-146, 177. -/
def infoLine (desc value : Str) : Str :=
  "| ".toList ++ padRight descWidth desc ++ " | ".toList ++ padLeft valueWidth value ++ " |".toList

/-- `dimString`, cmd/info.go:157-159. -/
def dimString (d : Int × Int × Int) : Str :=
  "(".toList ++ Pf.fmtInt d.1 ++ ", ".toList ++ Pf.fmtInt d.2.1 ++ ", ".toList ++ Pf.fmtInt d.2.2 ++ ")".toList

/-- The lines printed by `printList`, cmd/info.go:161-179: only the first has the description. -/
def listLines (name : Str) (array : List Str) : List Str :=
  (printList array).zipIdx.map fun c => infoLine (if c.2 > 0 then [] else name) c.1

/-- `singleLine`, cmd/util.go:21-27. -/
def singleLine (length : ℕ) : Str := List.replicate length '-'

/-- The lines printed by `gopf db info`, cmd/info.go:140-153. -/
def infoLines (i : Info) : List Str :=
  let width := descWidth + valueWidth + 7
  [singleLine width,
    "| ".toList ++ padRight descWidth "Desc.".toList ++ " | ".toList ++ padRight valueWidth "Value".toList ++ " |".toList,
    singleLine width, infoLine "Num calc.".toList (Pf.fmtInt i.numCalc), infoLine "Dims".toList (dimString i.dims)] ++
    listLines "Fields".toList i.fields ++ listLines "Attributes".toList i.attributes ++
    listLines "Timeseries".toList i.series ++ [singleLine width]

end Gopf.Cmd
