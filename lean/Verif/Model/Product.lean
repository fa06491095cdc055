import Verif.Model.Index

/-!
# Model of the product iterator, `pfutil/iterators.go`
-/

namespace Gopf.Pfutil

/-- `Product`, pfutil/iterators.go:12-16. -/
structure Product where
  ends : List Int
  current : List Int
  isFirst : Bool

/-- `NewProduct`, pfutil/iterators.go:19-25. -/
def newProduct (ends : List Int) : Product :=
  ⟨ends, List.replicate ends.length 0, true⟩

/-- The carry loop, pfutil/iterators.go:37-43. The argument `k` is the loop variable plus one.
The flag tells whether the loop returned from the function (line 40). -/
def carryLoop (ends : List Int) : Nat → List Int → Option (List Int × Bool)
  | 0, c => some (c, false)
  | i + 1, c => do
    let ci ← c[i]?
    let ei ← ends[i]?
    if ci + 1 < ei then
      return (c.set i (ci + 1), true)
    else
      carryLoop ends i (c.set i 0)

/-- `Product.Next`, pfutil/iterators.go:28-52. Outer `none`: panic; inner `none`: the returned
slice is nil. The returned slice aliases the iterator's state in Go; callers that keep it across
calls are outside this model. -/
def Product.next (p : Product) : Option (Option (List Int) × Product) :=
  if p.isFirst then
    some (some p.current, { p with isFirst := false })
  else do
    let n := p.current.length
    if n = 0 then none else
    let x ← p.current[n - 1]?
    let e ← p.ends[p.ends.length - 1]?
    let c := p.current.set (n - 1) (x + 1)
    let (c, returned) ←
      if x + 1 = e then carryLoop p.ends (n - 1) (c.set (n - 1) 0)
      else some (c, false)
    let p' := { p with current := c }
    if returned then
      return (some c, p')
    else if c.any (fun y => y ≠ 0) then
      return (some c, p')
    else
      return (none, p')

/-- The results of the first `n` calls of `Next` and the final state. pfutil/iterators.go:28-52. -/
def Product.calls : Nat → Product → Option (List (Option (List Int)) × Product)
  | 0, p => some ([], p)
  | n + 1, p => do
    let (r, p') ← p.next
    let (rs, p'') ← Product.calls n p'
    return (r :: rs, p'')

/-- The loop `for pos := prod.Next(); pos != nil; pos = prod.Next()` used by the callers: the tuples seen by
the loop body. At most `fuel` calls are made; running out of fuel is `none`, so a `some` result shows that the
loop terminates. For instance pfutil/blur.go:57. -/
def Product.forLoop : Nat → Product → Option (List (List Int))
  | 0, _ => none
  | fuel + 1, p => do
    let (r, p') ← p.next
    match r with
    | none => return []
    | some t =>
      let ts ← Product.forLoop fuel p'
      return t :: ts

end Gopf.Pfutil
