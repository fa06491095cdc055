import Verif.Model.Index
import Verif.Model.SortFactors
import Mathlib.Data.List.Dedup
import Mathlib.Logic.Function.Basic

/-!
# Model of `pf/database.go` and of the field export in `cmd/export.go`

SQLite is modelled by its tables. Assumptions about it: a committed transaction is atomic and durable,
an unfinished one leaves no trace; `INTEGER PRIMARY KEY` columns count 1, 2, 3, … in insertion order
(nothing is ever deleted); a query without `ORDER BY` returns the rows in insertion order; errors of
the database engine itself do not occur. `V` is the type of a `float64`; a `complex128` is a pair.
-/

namespace Gopf.Pf

/-- A row of table `fields`, pf/database.go:97-101; its `id` is its place in the table plus one. -/
structure FieldRow (V : Type) where
  name : Str
  value : V
  positionId : Int
  timestep : Int
  simID : Int

/-- The tables used here, pf/database.go:85-106. Row `k` of `positions` has `id` `k+1`. -/
structure DB (V : Type) where
  positions : List (List Int)
  fields : List (FieldRow V)
  simIDs : List Int

/-- `FieldDB`, pf/database.go:67-80, without the connection. -/
structure FieldDB where
  domainSize : List Int
  simID : Int
  initialized : Bool

/-- What is saved of a field: its name and its data. The argument of `SaveFields`, pf/database.go:231. -/
abbrev FieldData (V : Type) := Str × List (V × V)

variable {V : Type}

/-- `initialize`, pf/database.go:84-156. `draw` is the random number of line 145. If that number is
taken, the insertion in line 152 fails (column `simID` is `UNIQUE`) and the error is ignored. -/
def dbInitialize (c : FieldDB) (draw : Int) (db : DB V) : FieldDB × DB V :=
  if c.simID = 0 then
    ({ c with simID := draw, initialized := true },
      if draw ∈ db.simIDs then db else { db with simIDs := db.simIDs ++ [draw] })
  else ({ c with initialized := true }, db)

/-- `positionTableIsPopulated`, pf/database.go:159-169. -/
def positionTableIsPopulated (db : DB V) : Bool := db.positions.length > 1

/-- Go's `copy(dst, src)`. Used at pf/database.go:180-195 and pf/fileIO.go:199. -/
def goCopy {α : Type} (dst src : List α) : List α :=
  (src.take dst.length) ++ dst.drop src.length

/-- Loop of `populatePositionsTable`, pf/database.go:180-195: the scratch slice `pos3` and the rows
inserted so far. -/
def populateLoop (domainSize : List Int) (nodes : List ℕ) :
    Option (List Int × List (List Int)) :=
  nodes.foldlM (fun (acc : List Int × List (List Int)) (i : ℕ) => do
    let p ← Pfutil.pos domainSize (i : Int)
    let scratch := goCopy acc.1 p
    return (scratch, acc.2 ++ [scratch])) ([0, 0, 0], [])

/-- `populatePositionsTable`, pf/database.go:172-197: one transaction. -/
def populatePositionsTable (c : FieldDB) (db : DB V) : Option (DB V) := do
  let r ← populateLoop c.domainSize (List.range (Pfutil.prodInt c.domainSize).toNat)
  return { db with positions := db.positions ++ r.2 }

/-- `SELECT MAX(column)` scanned into an `int` that is zero before: an empty table gives `NULL`, the scan
fails and the error is ignored. Used at pf/database.go:347-371, 421-428 and cmd/export.go:269-280. -/
def maxOrZero (l : List Int) : Int := (l.max?).getD 0

/-- `domainSizeOk`, pf/database.go:347-371; the columns are X, Y, Z, a fourth one panics. -/
def domainSizeOk (c : FieldDB) (db : DB V) : Option Bool :=
  if c.domainSize.length > 3 then none
  else some ((c.domainSize.zipIdx).all fun (d : Int × ℕ) =>
    maxOrZero (db.positions.map fun row => row.getD d.2 0) = d.1 - 1)

/-- The rows inserted by `insertRealPart`, pf/database.go:209-225. -/
def rowsOf (simID timestep : Int) (f : FieldData V) : List (FieldRow V) :=
  f.2.zipIdx.map fun v => ⟨f.1, v.1.1, (v.2 : Int), timestep, simID⟩

/-- `insertRealPart`, pf/database.go:200-227: one transaction. -/
def insertRealPart (c : FieldDB) (timestep : Int) (f : FieldData V) (db : DB V) : Option (DB V) := do
  let ok ← domainSizeOk c db
  if !ok then none
  else if (f.2.length : Int) ≠ Pfutil.prodInt c.domainSize then none
  else some { db with fields := db.fields ++ rowsOf c.simID timestep f }

/-- Loop of `SaveFields` over the fields, pf/database.go:240-242: the states committed on the way and
the final state. -/
def insertAll (c : FieldDB) (timestep : Int) : List (FieldData V) → DB V → List (DB V) × Option (DB V)
  | [], db => ([], some db)
  | f :: fs, db =>
    match insertRealPart c timestep f db with
    | none => ([], none)
    | some db1 => (db1 :: (insertAll c timestep fs db1).1, (insertAll c timestep fs db1).2)

/-- Lines 236-238 of `SaveFields`. pf/database.go:236-238. -/
def ensurePositions (c : FieldDB) (db : DB V) : Option (DB V) :=
  if positionTableIsPopulated db then some db else populatePositionsTable c db

/-- Lines 232-234 of `SaveFields` (and of the other writing methods). pf/database.go:232-234. -/
def ensureInitialized (c : FieldDB) (draw : Int) (db : DB V) : FieldDB × DB V :=
  if c.initialized then (c, db) else dbInitialize c draw db

/-- `SaveFields`, pf/database.go:231-243: the states committed on the way and, unless it panics, the
final state. -/
def saveFields (c : FieldDB) (draw timestep : Int) (fs : List (FieldData V)) (db : DB V) :
    List (DB V) × Option (FieldDB × DB V) :=
  match ensurePositions (ensureInitialized c draw db).1 (ensureInitialized c draw db).2 with
  | none => ([db, (ensureInitialized c draw db).2], none)
  | some db2 =>
    (db :: (ensureInitialized c draw db).2 :: db2 ::
      (insertAll (ensureInitialized c draw db).1 timestep fs db2).1,
     (insertAll (ensureInitialized c draw db).1 timestep fs db2).2.map
      fun db3 => ((ensureInitialized c draw db).1, db3))

/-- `ORDER BY name` (binary collation) after `SELECT DISTINCT name`. The query at pf/database.go:376-392 and
cmd/export.go:187-266. -/
def sortedDistinct (names : List Str) : List Str := sortStrings names.dedup

/-- The rows of one simulation and time step. The query at pf/database.go:400-409 and cmd/export.go:222-238.
-/
def selectRows (db : DB V) (simID timestep : Int) : List (FieldRow V) :=
  db.fields.filter fun r => decide (r.simID = simID) && decide (r.timestep = timestep)

variable [Zero V]

/-- The loop of `Load` over the rows, pf/database.go:406-409. The Go map from names to fields is a
function here; every name that occurs has been put in the map before (line 398-400). -/
def fillFields (numNodes : ℕ) (rows : List (FieldRow V)) : Option (Str → List (V × V)) :=
  rows.foldlM (fun (m : Str → List (V × V)) (r : FieldRow V) => do
    let d ← goSet (m r.name) r.positionId (r.value, 0)
    return Function.update m r.name d) (fun _ => List.replicate numNodes (0, 0))

/-- `Load`, pf/database.go:376-416. -/
def load (db : DB V) (simID timestep : Int) : Option (List (FieldData V)) := do
  let rows := selectRows db simID timestep
  let names := sortedDistinct (rows.map (·.name))
  let m ← fillFields db.positions.length rows
  return names.map fun nm => (nm, m nm)

/-- `SELECT MAX(timestep) FROM fields WHERE simID=?`, pf/database.go:421-428 and
cmd/export.go:269-280. -/
def largestTimestep (db : DB V) (simID : Int) : Int :=
  maxOrZero ((db.fields.filter fun r => decide (r.simID = simID)).map (·.timestep))

/-- `LoadLast`, pf/database.go:420-430. -/
def loadLast (db : DB V) (simID : Int) : Option (List (FieldData V)) :=
  load db simID (largestTimestep db simID)

/-- The loop of `exportFieldData` over the rows, cmd/export.go:222-238. -/
def fillRecords (numNodes : ℕ) (rows : List (FieldRow V)) : Option (List (Str → V)) :=
  rows.foldlM (fun (data : List (Str → V)) (r : FieldRow V) => do
    let m ← goGet data r.positionId
    goSet data r.positionId (Function.update m r.name r.value)) (List.replicate numNodes fun _ => 0)

/-- `exportFieldData`, cmd/export.go:187-266: the names in the header and the records; `some none`
when there is nothing to export. `order` is the order in which `SELECT DISTINCT` returns the names. -/
def exportFieldData (order : List Str → List Str) (db : DB V) (ts simid : Int) :
    Option (Option (List Str × List (List Int × List V))) :=
  let ts := if ts < 0 then largestTimestep db simid else ts
  let rows := selectRows db simid ts
  if rows.length = 0 then some none
  else do
    let keys := order (rows.map (·.name)).dedup
    let data ← fillRecords db.positions.length rows
    return some (keys, (db.positions.zip data).map fun pd => (pd.1, keys.map pd.2))

end Gopf.Pf
