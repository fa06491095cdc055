import Verif.Model.Product
import Mathlib.Algebra.Field.Defs

/-!
# Model of `pfutil/blur.go`

Values live in an arbitrary field `K` (exact arithmetic instead of `float64`).
-/

namespace Gopf.Pfutil

/-- `BlurKernel`, pfutil/blur.go:4-12. -/
structure BlurKernel (K : Type) where
  value : List Int → K
  cutoff : Int

/-- `BoxKernel`, pfutil/blur.go:15-33: `Cutoff` is lines 20-22, `Value` lines 25-32. -/
def boxKernel (K : Type) [Zero K] [One K] (width : Int) : BlurKernel K where
  value x := if x.any (fun xi => xi > width || xi < -width) then 0 else 1
  cutoff := width.tdiv 2 + 1

/-- The body of the product loop, pfutil/blur.go:58-65: the contribution of one tuple `p` to
`newValue` and `kernelIntegral`. -/
def blurTerm {K : Type} [Field K] (dims : List Int) (dataCpy : List K) (kernel : BlurKernel K)
    (center : List Int) (p : List Int) : Option (K × K) := do
  let shift := p.map (fun x => x - kernel.cutoff)
  let shifted ← wrap (List.zipWith (· + ·) center shift) dims
  let idx ← nodeIdx dims shifted
  let v ← goGet dataCpy idx
  return (v * kernel.value shift, kernel.value shift)

/-- The accumulation over all tuples, pfutil/blur.go:55-66. -/
def blurAccumulate {K : Type} [Field K] (dims : List Int) (dataCpy : List K) (kernel : BlurKernel K)
    (center : List Int) : List (List Int) → K × K → Option (K × K)
  | [], acc => some acc
  | p :: ps, acc => do
    let t ← blurTerm dims dataCpy kernel center p
    blurAccumulate dims dataCpy kernel center ps (acc.1 + t.1, acc.2 + t.2)

/-- The new value of node `i`, pfutil/blur.go:53-67. A vanishing kernel integral gives NaN or an
infinity in Go; the theorems assume that it does not vanish. -/
def blurNode {K : Type} [Field K] (dims : List Int) (dataCpy : List K) (kernel : BlurKernel K)
    (i : Nat) : Option K := do
  let ends := List.replicate dims.length (2 * kernel.cutoff + 1)
  let center ← pos dims i
  let tuples ← Product.forLoop ((prodInt ends).toNat + 1) (newProduct ends)
  let acc ← blurAccumulate dims dataCpy kernel center tuples (0, 0)
  return acc.1 / acc.2

/-- `Blur`, pfutil/blur.go:38-68. Reads go to the copy of the data made first, so the nodes are
independent. -/
def blur {K : Type} [Field K] (data : List K) (dims : List Int) (kernel : BlurKernel K) :
    Option (List K) :=
  (List.range data.length).mapM (blurNode dims data kernel)

end Gopf.Pfutil
