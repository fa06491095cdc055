import Mathlib.Data.List.Basic
import Mathlib.Data.Int.DivMod

/-!
# Model of `pfutil/indexPositionConversion.go`, `Wrap`, `ProdInt` and `Grid`

Go `int` is `Int` (no 64-bit wrap-around); a run-time panic is `none`.
-/

namespace Gopf

/-- Go's integer `/`: panics on a zero divisor, truncates towards zero. Used for instance at
pfutil/indexPositionConversion.go:23-34. -/
def goDiv (a b : Int) : Option Int := if b = 0 then none else some (a.tdiv b)

/-- Go's integer `%`: panics on a zero divisor, sign of the dividend. Used at
pfutil/indexPositionConversion.go:23-34. -/
def goMod (a b : Int) : Option Int := if b = 0 then none else some (a.tmod b)

/-- Reading a slice at an `int` index: panics out of range. Used for instance at pfutil/grid.go:52-54. -/
def goGet {α : Type} (l : List α) (i : Int) : Option α :=
  if 0 ≤ i then l[i.toNat]? else none

/-- Writing a slice at an `int` index: panics out of range. Used for instance at pfutil/grid.go:47-49. -/
def goSet {α : Type} (l : List α) (i : Int) (v : α) : Option (List α) :=
  if 0 ≤ i ∧ i < l.length then some (l.set i.toNat v) else none

namespace Pfutil

/-- `nodeIdx2`, pfutil/indexPositionConversion.go:4-6. -/
def nodeIdx2 (d1 i0 i1 : Int) : Int := i0 * d1 + i1

/-- `nodeIdx3`, pfutil/indexPositionConversion.go:9-11. -/
def nodeIdx3 (d0 d1 i0 i1 i2 : Int) : Int := i2 * d0 * d1 + i0 * d1 + i1

/-- `NodeIdx`, pfutil/indexPositionConversion.go:14-21; `none` is the explicit panic. -/
def nodeIdx (domainSize idx : List Int) : Option Int :=
  match domainSize, idx with
  | [_, d1], [i0, i1] => some (nodeIdx2 d1 i0 i1)
  | [d0, d1, _], [i0, i1, i2] => some (nodeIdx3 d0 d1 i0 i1 i2)
  | _, _ => none

/-- `pos3`, pfutil/indexPositionConversion.go:23-28. -/
def pos3 (d0 d1 n : Int) : Option (List Int) := do
  let col ← goMod n d1
  let q ← goDiv n d1
  let row ← goMod q d0
  let depth ← goDiv n (d0 * d1)
  return [row, col, depth]

/-- `pos2`, pfutil/indexPositionConversion.go:30-34. -/
def pos2 (d1 n : Int) : Option (List Int) := do
  let col ← goMod n d1
  let row ← goDiv n d1
  return [row, col]

/-- `Pos`, pfutil/indexPositionConversion.go:37-44; `none` is the explicit panic or a
division by zero. -/
def pos (domainSize : List Int) (n : Int) : Option (List Int) :=
  match domainSize with
  | [_, d1] => pos2 d1 n
  | [d0, d1, _] => pos3 d0 d1 n
  | _ => none

/-- `ProdInt`, pfutil/sliceOperations.go:43-49. -/
def prodInt (a : List Int) : Int := a.foldl (fun res x => res * x) 1

/-- One iteration of the loop of `Wrap`, pfutil/sliceOperations.go:90-98. -/
def wrap1 (p d : Int) : Option Int := do
  let p' ← if p < 0 then (do
      let factor ← goDiv (-p) d
      return p + (factor + 1) * d)
    else some p
  goMod p' d

/-- `Wrap`, pfutil/sliceOperations.go:90-98. The slice is updated in place; the model returns
the updated slice. A domain with fewer entries than the position panics (index out of range);
surplus domain entries are ignored. -/
def wrap : List Int → List Int → Option (List Int)
  | [], _ => some []
  | _ :: _, [] => none
  | p :: ps, d :: ds => do
    let r ← wrap1 p d
    let rs ← wrap ps ds
    return r :: rs

/-- `Grid`, pfutil/grid.go:12-15. The data type is arbitrary: the methods modelled here only
move values. -/
structure Grid (α : Type) where
  dims : List Int
  data : List α

/-- `NewGrid`, pfutil/grid.go:18-23; a negative number of nodes makes `make` panic. -/
def newGrid {α : Type} [Zero α] (dims : List Int) : Option (Grid α) :=
  if 0 ≤ prodInt dims then some ⟨dims, List.replicate (prodInt dims).toNat 0⟩ else none

namespace Grid
variable {α : Type}

/-- `Grid.Index`, pfutil/grid.go:37-39. -/
def index (g : Grid α) (p : List Int) : Option Int := nodeIdx g.dims p

/-- `Grid.Pos`, pfutil/grid.go:42-44. -/
def pos (g : Grid α) (i : Int) : Option (List Int) := Pfutil.pos g.dims i

/-- `Grid.Set`, pfutil/grid.go:47-49. -/
def set (g : Grid α) (p : List Int) (v : α) : Option (Grid α) := do
  let i ← g.index p
  let d ← goSet g.data i v
  return ⟨g.dims, d⟩

/-- `Grid.Get`, pfutil/grid.go:52-54. -/
def get (g : Grid α) (p : List Int) : Option α := do
  let i ← g.index p
  goGet g.data i

end Grid
end Pfutil
end Gopf
