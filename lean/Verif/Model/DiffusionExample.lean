import Verif.Model.Session
import Verif.Model.Parser

/-!
# Model of `examples/diffusion/main.go` and `examples/database/main.go`

Sums, quotients and roots are exact. Saving to files and the database itself are not part of this file
(see `Model/Database.lean`).
-/

namespace Gopf.Cmd
open Pf Pfutil

variable {nf nd n : ℕ}

/-- The equation of both programs, examples/diffusion/main.go:24, examples/database/main.go:113. -/
def diffusionEquation : Str := "dconc/dt = LAP conc".toList

/-- The field and the equation, examples/diffusion/main.go:17-18, 23-24, examples/database/main.go:106, 111-113. -/
def exampleDiffusion (n : ℕ) : Option (EqModel n) :=
  ((EqModel.empty (n := n)).addField "conc".toList).addEquation diffusionEquation

/-- The start of the diffusion program: zero but for a one in the middle, examples/diffusion/main.go:18-22. -/
noncomputable def diffusionStart (nx ny : ℕ) : Option (ℤ × List ℂ) := do
  let center ← nodeIdx [(nx : ℤ), (ny : ℤ)] [Int.tdiv nx 2, Int.tdiv ny 2]
  let data ← goSet (List.replicate (nx * ny) (0 : ℂ)) center 1
  return (center, data)

/-- The diffusion program for a domain of any size, any time step and any number of epochs and steps,
examples/diffusion/main.go:12-39. The program has `nx = ny = 128`, `dt = 0.1` and ten epochs of ten steps. -/
noncomputable def diffusionProgram (nx ny : ℕ) (dt : ℝ) (epochs steps : ℤ) (m : Model nf nd [nx, ny].prod)
    (bricks : Str → Option (BrickRef nf nd)) (derived : Fin nd → Data [nx, ny].prod) :
    Option (SolverState nf nd [nx, ny]) := do
  let (center, data) ← diffusionStart nx ny
  let s ← newSolver [nx, ny] dt (fun _ => data) derived
  s.session m bricks [.addMonitor center "conc".toList, .solve epochs steps]

/-- `CircleMonitor`, examples/database/main.go:17-22. -/
structure CircleMonitor where
  radius : ℤ
  x : ℤ
  y : ℤ
  name : Str

/-- The integers a loop `for i := lo; i < hi; i++` visits, examples/database/main.go:34-35. -/
def loopRange (lo hi : ℤ) : List ℤ := (List.range (hi - lo).toNat).map fun i : ℕ => lo + (i : ℤ)

/-- The body of the loops of `Eval`: the sum, the sum of squares and the number of nodes so far,
examples/database/main.go:36-44. -/
noncomputable def circleNode (cm : CircleMonitor) (u : Data n) (domainSize : List ℤ) (acc : ℝ × ℝ × ℕ) (ix iy : ℤ) :
    Option (ℝ × ℝ × ℕ) :=
  let x := ix - cm.x
  let y := iy - cm.y
  if x * x + y * y < cm.radius * cm.radius then do
    let idx ← nodeIdx domainSize [ix, iy]
    let z ← dataAt u idx
    return (acc.1 + z.re, acc.2.1 + z.re ^ 2, acc.2.2 + 1)
  else some acc

/-- The loops of `Eval`, examples/database/main.go:32-46. -/
noncomputable def circleSums (cm : CircleMonitor) (u : Data n) (domainSize : List ℤ) : Option (ℝ × ℝ × ℕ) :=
  (loopRange (cm.x - cm.radius) (cm.x + cm.radius)).foldlM (fun acc (ix : ℤ) =>
    (loopRange (cm.y - cm.radius) (cm.y + cm.radius)).foldlM (fun acc (iy : ℤ) => circleNode cm u domainSize acc ix iy) acc)
    (0, 0, 0)

/-- `CircleMonitor.Eval`, examples/database/main.go:31-50: the mean and the standard deviation. The outer `none` is
a panic, the inner one the pair of NaN that dividing by zero nodes gives. -/
noncomputable def CircleMonitor.eval (cm : CircleMonitor) (u : Data n) (domainSize : List ℤ) :
    Option (Option (ℝ × ℝ)) := do
  let (mean, std, num) ← circleSums cm u domainSize
  if num = 0 then return none
  else return some (mean / num, Real.sqrt (std / num - mean / num * (mean / num)))

/-- The keys one monitor writes, examples/database/main.go:64-66. -/
noncomputable def writeMonitor (u : Data n) (domainSize : List ℤ) (data : Str → Option (Option ℝ)) (cm : CircleMonitor) :
    Option (Str → Option (Option ℝ)) := do
  let res ← cm.eval u domainSize
  return Function.update (Function.update data (cm.name ++ "_mean".toList) (some (res.map Prod.fst)))
    (cm.name ++ "_std".toList) (some (res.map Prod.snd))

/-- `DBWriter.Eval`, examples/database/main.go:61-75: the map handed to `TimeSeries` and whether the fields are
saved as well. -/
noncomputable def dbWriterEval (monitors : List CircleMonitor) (u : Data n) (domainSize : List ℤ) (timestep : ℤ) :
    Option ((Str → Option (Option ℝ)) × Bool) := do
  let data ← monitors.foldlM (writeMonitor u domainSize) fun _ => none
  return (data, decide (Int.tmod timestep 10 = 0))

/-- The monitors of the program, examples/database/main.go:125-138. -/
def exampleMonitors : List CircleMonitor :=
  [⟨5, 54, 54, "monitor5454".toList⟩, ⟨5, 72, 72, "monitor7272".toList⟩]

end Gopf.Cmd
