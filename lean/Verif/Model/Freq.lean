import Verif.Model.Index
import Mathlib.Data.Rat.Defs
import Mathlib.Algebra.Order.Ring.Abs
import Mathlib.Algebra.Order.Ring.Rat
import Mathlib.Algebra.Field.Rat

/-!
# Model of the index arithmetic of `pfutil/fftWrap.go` and of the frequency iterators of `pf/util.go`

Frequencies are exact rationals.
-/

namespace Gopf.Pfutil

/-- `col`, pfutil/fftWrap.go:42-44. -/
def col (dims : List Int) (i : Int) : Option Int := do
  let d1 ← dims[1]?
  goMod i d1

/-- `row`, pfutil/fftWrap.go:47-49. -/
def row (dims : List Int) (i : Int) : Option Int := do
  let d0 ← dims[0]?
  let d1 ← dims[1]?
  let q ← goDiv i d1
  goMod q d0

/-- `depth`, pfutil/fftWrap.go:52-54. -/
def depth (dims : List Int) (i : Int) : Option Int := do
  let d0 ← dims[0]?
  let d1 ← dims[1]?
  goDiv i (d0 * d1)

/-- The loop pfutil/fftWrap.go:68-72. -/
def foldFreq (x : ℚ) : ℚ := if x > 1 / 2 then x - 1 else x

/-- The block pfutil/fftWrap.go:64-67: entries from the third on. -/
def thirdFreq (dims : List Int) (i : Int) : Option (List ℚ) :=
  match (dims[2]? : Option Int) with
  | none => some []
  | some d2 => (depth dims i).map fun d : Int =>
      ((d : ℚ) / d2) :: List.replicate (dims.length - 3) 0

/-- `Freq`, pfutil/fftWrap.go:57-74. More than three dimensions leave the surplus entries at zero;
fewer than two panic. -/
def freq (dims : List Int) (i : Int) : Option (List ℚ) := do
  let c ← col dims i
  let r ← row dims i
  let d0 : Int ← (dims[0]? : Option Int)
  let d1 : Int ← (dims[1]? : Option Int)
  let res : List ℚ := [(r : ℚ) / d0, (c : ℚ) / d1]
  let extra ← thirdFreq dims i
  return (res ++ extra).map foldFreq

/-- The block pfutil/fftWrap.go:89-92. -/
def conjDepth (dims : List Int) (i : Int) : Option Int :=
  if dims.length = 3 then (do
    let d ← depth dims i
    let d2 ← dims[2]?
    goMod (d2 - d) d2)
  else some 0

/-- `ConjugateNode`, pfutil/fftWrap.go:78-95. -/
def conjugateNode (dims : List Int) (i : Int) : Option Int := do
  let c ← col dims i
  let r ← row dims i
  let d0 ← dims[0]?
  let d1 ← dims[1]?
  let conjC ← goMod (d1 - c) d1
  let conjR ← goMod (d0 - r) d0
  let conjD ← conjDepth dims i
  return conjD * d0 * d1 + conjR * d1 + conjC

end Gopf.Pfutil

namespace Gopf.Pf

/-- The tolerance `1e-10` of pf/util.go:238,271. -/
def freqTol : ℚ := 1 / 10 ^ 10

/-- `includeFreq`, pf/util.go:237-247. -/
def includeFreq (f : List ℚ) : Nat → Option Bool
  | 0 => do
    let x ← f[0]?
    return decide (x > -freqTol)
  | s + 1 => do
    let x ← f[s + 1]?
    if |x| < freqTol ∨ |x| > 1 / 2 - freqTol then includeFreq f s
    else return decide (x > -freqTol)

/-- The acceptance test of `UniqueFreqIterator.Next`, pf/util.go:223-235. An empty frequency makes
Go index at -1, i.e. panic. -/
def uniqueTest (f : List ℚ) : Option Bool :=
  if f.length = 0 then none else includeFreq f (f.length - 1)

/-- The acceptance test of `RealAmplitudeIterator.Next`, pf/util.go:273-282. -/
def realAmpTest (f : List ℚ) : Option Bool :=
  some (f.foldl (fun all x => if |x| > freqTol ∧ |x| < 1 / 2 - freqTol then false else all) true)

/-- The common loop of the two iterators, pf/util.go:223-235 and 270-289: starting at `next`, look
for an index accepted by the test. The result is the returned index (or -1) and the new value of
`next`, which is left alone when the iterator is exhausted. `n` is the number of indices left. -/
def iterLoop (freq : Nat → Option (List ℚ)) (test : List ℚ → Option Bool) (start : Nat) :
    Nat → Nat → Option (Int × Nat)
  | 0, _ => some (-1, start)
  | n + 1, i => do
    let f ← freq i
    let ok ← test f
    if ok then return ((i : Int), i + 1) else iterLoop freq test start n (i + 1)

/-- One call of `Next`, pf/util.go:223-235 and 270-289; `fin` is the field `End`. -/
def iterNext (freq : Nat → Option (List ℚ)) (test : List ℚ → Option Bool) (fin next : Nat) :
    Option (Int × Nat) :=
  iterLoop freq test next (fin - next) next

/-- Results of `k` successive calls of `Next`. The way callers use pf/util.go:223-235, 270-289. -/
def iterCalls (freq : Nat → Option (List ℚ)) (test : List ℚ → Option Bool) (fin : Nat) :
    Nat → Nat → Option (List Int)
  | 0, _ => some []
  | k + 1, next => do
    let (r, next') ← iterNext freq test fin next
    let rs ← iterCalls freq test fin k next'
    return r :: rs

end Gopf.Pf

