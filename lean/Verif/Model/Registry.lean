import Verif.Model.Text

/-!
# Model of the registration of derived fields in `pf/model.go`

Go pointers are modelled by addresses into a heap. `go.mod` declares go 1.13, so a `for _, f := range`
loop has one variable `f` that every iteration overwrites.
-/

namespace Gopf.Pf

/-- `DerivedField`, pf/model.go:63-67, with abstract contents `α` (the data and the calculator). -/
structure DerivedField (α : Type) where
  name : Str
  content : α

/-- The part of `Model` (pf/model.go:115-126) that deals with names: the names of the fields, the
registered derived fields, and `Bricks`, a map from names to addresses of derived fields. -/
structure Registry (α : Type) where
  fieldNames : List Str
  derived : List (DerivedField α)
  bricks : Str → Option Nat
  heap : List (DerivedField α)

namespace Registry
variable {α : Type}

/-- `IsFieldName`, pf/model.go:208-224. -/
def isFieldName (r : Registry α) (name : Str) : Bool :=
  r.fieldNames.contains name || (r.derived.map DerivedField.name).contains name

/-- Reading `m.Bricks[name]` (a pointer) and following it. pf/model.go:119. -/
def lookup (r : Registry α) (name : Str) : Option (DerivedField α) :=
  match r.bricks name with
  | some a => r.heap[a]?
  | none => none

/-- One iteration of the loop of `registerDerivedFields`, pf/model.go:336-345. `addr` is the address
of the loop variable. -/
def registerOne (addr : Nat) (r : Registry α) (f : DerivedField α) : Registry α :=
  let r1 := { r with heap := r.heap.set addr f }
  if r1.isFieldName f.name then r1
  else { r1 with derived := r1.derived ++ [f]
                 bricks := fun s => if s = f.name then some addr else r1.bricks s }

/-- `registerDerivedFields`, pf/model.go:336-345. The loop variable is a fresh cell; its value before
the first iteration is never observed, the model initialises it with the first element. -/
def registerDerivedFields (r : Registry α) : List (DerivedField α) → Registry α
  | [] => r
  | f :: fs => (f :: fs).foldl (registerOne r.heap.length) { r with heap := r.heap ++ [f] }

/-- `RegisterDerivedField`, pf/model.go:415-418: the parameter `d` is a fresh variable per call. -/
def registerDerivedField (r : Registry α) (d : DerivedField α) : Registry α :=
  { r with derived := r.derived ++ [d]
           heap := r.heap ++ [d]
           bricks := fun s => if s = d.name then some r.heap.length else r.bricks s }

end Registry
end Gopf.Pf
