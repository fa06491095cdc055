import Verif.Model.Cmd

/-!
# Model of simulation attributes and comments: `FieldDB.SetAttr`, `SetTextAttr`, `Comment`
(pf/database.go), `cmd/attr.go`, `cmd/comment.go` and the simulation ids of `cmd/list.go`

SQLite is modelled as in `Verif.Model.Database`. `A` is the type of the values of a table.
-/

namespace Gopf.Cmd

open Pf (Str)

variable {V A : Type}

/-- A row of `simAttributes` (`A` a number), pf/database.go:108-113, or of `simTextAttributes` (`A` a text),
pf/database.go:124-131. -/
structure AttrRow (A : Type) where
  key : Str
  value : A
  simID : Int

/-- The rows inserted by `SetAttr`, pf/database.go:260-286, and `SetTextAttr`, pf/database.go:289-315, one
transaction; `attr` is the map in the order in which it is traversed. -/
def attrRows (simID : Int) (attr : List (Str × A)) : List (AttrRow A) :=
  attr.map fun kv => ⟨kv.1, kv.2, simID⟩

/-- The two tables. pf/database.go:108-113, 124-131. -/
structure AttrDB (V : Type) where
  numbers : List (AttrRow V)
  texts : List (AttrRow Str)

/-- `SetAttr`, pf/database.go:260-286. -/
def AttrDB.setAttr (db : AttrDB V) (simID : Int) (attr : List (Str × V)) : AttrDB V :=
  { db with numbers := db.numbers ++ attrRows simID attr }

/-- `SetTextAttr`, pf/database.go:289-315. -/
def AttrDB.setTextAttr (db : AttrDB V) (simID : Int) (attr : List (Str × Str)) : AttrDB V :=
  { db with texts := db.texts ++ attrRows simID attr }

/-- The maps `kvp` and `header` of `listAttributes`, cmd/attr.go:118-125: the keys of `kvp`, the keys of
`header` and the entries of the maps in `kvp`. -/
structure AttrMap where
  ids : List Int
  keys : List Str
  cell : Int → Str → Option Str

/-- The body of the loops cmd/attr.go:131-138, 154-161. -/
def AttrMap.put (m : AttrMap) (simID : Int) (key : Str) (value : Str) : AttrMap where
  ids := if simID ∈ m.ids then m.ids else m.ids ++ [simID]
  keys := if key ∈ m.keys then m.keys else m.keys ++ [key]
  cell := Function.update m.cell simID (Function.update (m.cell simID) key (some value))

/-- The loops cmd/attr.go:131-138, 154-161; `fmt` is the formatting of a value. -/
def AttrMap.fill (fmt : A → Str) (m : AttrMap) (rows : List (AttrRow A)) : AttrMap :=
  rows.foldl (fun (m : AttrMap) (r : AttrRow A) => m.put r.simID r.key (fmt r.value)) m

/-- `WHERE simId=?`, cmd/attr.go:108, 146, 199, 217. -/
def ofSim (rows : List (AttrRow A)) (simID : Int) : List (AttrRow A) :=
  rows.filter fun r => decide (r.simID = simID)

/-- The numbers read by `listAttributes`, cmd/attr.go:107-111. -/
def numbersRead (db : AttrDB V) (simID : Int) : List (AttrRow V) :=
  if simID > 0 then ofSim db.numbers simID else db.numbers

/-- The texts read by `listAttributes`, cmd/attr.go:143-147. -/
def textsRead (db : AttrDB V) (simID : Int) : List (AttrRow Str) :=
  if simID < 0 then db.texts else ofSim db.texts simID

/-- The maps after both loops of `listAttributes`, cmd/attr.go:104-161. `fmtNum` is `%f`. -/
def attrMap (fmtNum : V → Str) (db : AttrDB V) (simID : Int) : AttrMap :=
  ((⟨[], [], fun _ _ => none⟩ : AttrMap).fill fmtNum (numbersRead db simID)).fill id (textsRead db simID)

/-- `listAttributes`, cmd/attr.go:104-193: the printed tables, each with its header and its lines (id and
cells). `orderIds` and `orderKeys` are the orders in which the maps are traversed (the order of the ids
is taken to be the same for all tables). -/
def listAttributes (orderIds : List Int → List Int) (orderKeys : List Str → List Str)
    (fmtNum : V → Str) (db : AttrDB V) (simID : Int) : List (List Str × List (Int × List Str)) :=
  let m := attrMap fmtNum db simID
  (attributeTables (orderKeys m.keys)).map fun header : List Str =>
    (header, (orderIds m.ids).map fun i : Int => (i, header.map fun k : Str => (m.cell i k).getD []))

/-- The rows read by `listSingleAttribute`, cmd/attr.go:198-202, 216-220. -/
def namedRows (rows : List (AttrRow A)) (simID : Int) (name : Str) : List (AttrRow A) :=
  rows.filter fun r => decide (r.key = name) && (if simID > 0 then decide (r.simID = simID) else true)

/-- The second loop of `listSingleAttribute`, cmd/attr.go:222-226. `Scan` writes its columns into `value` and
`simID` from left to right and stops at the first that cannot be converted (`parse` is the conversion of
a text to a number); `txtValue` is never written. -/
def textLoop (parse : Str → Option V) : List (AttrRow Str) → Int → List (Int × Str)
  | [], _ => []
  | r :: rs, simID =>
    let simID := if (parse r.value).isSome then r.simID else simID
    (simID, []) :: textLoop parse rs simID

/-- `listSingleAttribute`, cmd/attr.go:195-227: the printed ids and values. -/
def listSingleAttribute (fmtNum : V → Str) (parse : Str → Option V) (db : AttrDB V) (simID : Int)
    (name : Str) : List (Int × Str) :=
  let nums := namedRows db.numbers simID name
  let last := nums.foldl (fun (_ : Int) (r : AttrRow V) => r.simID) 0
  nums.map (fun r => (r.simID, fmtNum r.value)) ++ textLoop parse (namedRows db.texts simID name) last

/-- `listUniqueAttributes`, cmd/attr.go:87-100: `UNION` removes duplicates and sorts. -/
def listUniqueAttributes (db : AttrDB V) : List Str :=
  Pf.sortStrings (db.numbers.map (·.key) ++ db.texts.map (·.key)).dedup

/-! ## Comments -/

/-- `strings.ReplaceAll(comment, "\n", " ")`, pf/database.go:247. -/
def oneLine (comment : Str) : Str := comment.map fun ch => if ch = '\n' then ' ' else ch

/-- `FieldDB.Comment`, pf/database.go:246-257, on the rows of table `comments`. -/
def addComment (rows : List (Int × Str)) (simID : Int) (comment : Str) : List (Int × Str) :=
  rows ++ [(simID, oneLine comment)]

/-- The update of `gopf db comment --new`, cmd/comment.go:59-66. -/
def updateComment (rows : List (Int × Str)) (simID : Int) (new : Str) : List (Int × Str) :=
  rows.map fun r => if r.1 = simID then (r.1, new) else r

/-- `SELECT value FROM comments WHERE simId=?`, cmd/comment.go:68 and cmd/list.go:125. -/
def commentsOf (rows : List (Int × Str)) (simID : Int) : List Str :=
  (rows.filter fun r => decide (r.1 = simID)).map (·.2)

/-- The comment shown by `gopf db comment --simid`, cmd/comment.go:68-77. -/
def shownComment (rows : List (Int × Str)) (simID : Int) : Str :=
  (commentsOf rows simID).foldl (fun _ c => c) []

/-- What the command prints. cmd/comment.go:54-78. -/
inductive CommentOutput where
  /-- cmd/comment.go:54-57 -/
  | all (rows : List (Int × Str))
  /-- cmd/comment.go:66 -/
  | updated (simID : Int)
  /-- cmd/comment.go:77 -/
  | comment (simID : Int) (text : Str)

/-- `gopf db comment --simid --new`, cmd/comment.go:30-80: the table afterwards and the output. -/
def commentCmd (rows : List (Int × Str)) (simID : Int) (new : Str) :
    List (Int × Str) × CommentOutput :=
  if simID < 0 then (rows, .all rows)
  else if new ≠ [] then (updateComment rows simID new, .updated simID)
  else (rows, .comment simID (shownComment rows simID))

end Gopf.Cmd
