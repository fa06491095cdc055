import Verif.Model.Lattice
import Verif.Model.Format

/-!
# Model of `pfc/mode_solver.go` and `pfc/quadrature.go`

gonum's Gauss–Legendre rule is an arbitrary function giving location and weight of point `i`; gonum's
minimisers are arbitrary functions. Go maps are association lists with distinct keys; the iteration
order of Go maps is not specified, the results below are sums or maxima, which do not depend on it in
exact arithmetic. Amplitude slices are functions of the mode number, together with the number of modes.
-/

namespace Gopf.Pfc
open Pf (Str fmtInt)

/-- `ModeDensity`, pfc/mode_solver.go:30-47. -/
noncomputable def modeDensity (m : Miller) (pos : List ℝ) : ℝ :=
  (equivalentMiller m).foldl (fun (density : ℝ) e =>
    if pos.length = 2 ∧ e.L ≠ 0 then density
    else
      let arg := (e.H : ℝ) * pos.getD 0 0 + (e.K : ℝ) * pos.getD 1 0
      let arg := if pos.length = 3 then arg + (e.L : ℝ) * pos.getD 2 0 else arg
      density + Real.cos (2 * Real.pi * arg)) 0

/-- `QuadSquare`, pfc/quadrature.go:8-19. -/
noncomputable def quadSquare (rule : ℕ → ℝ × ℝ) (n : ℕ) (f : ℝ → ℝ → ℝ) : ℝ :=
  (List.range n).foldl (fun (I : ℝ) i => (List.range n).foldl (fun (I : ℝ) j =>
    I + (rule i).2 * (rule j).2 * f (rule i).1 (rule j).1) I) 0

/-- `QuadCube`, pfc/quadrature.go:24-38. -/
noncomputable def quadCube (rule : ℕ → ℝ × ℝ) (n : ℕ) (f : ℝ → ℝ → ℝ → ℝ) : ℝ :=
  (List.range n).foldl (fun (I : ℝ) i => (List.range n).foldl (fun (I : ℝ) j =>
    (List.range n).foldl (fun (I : ℝ) k =>
      I + (rule i).2 * (rule j).2 * (rule k).2 * f (rule i).1 (rule j).1 (rule k).1) I) I) 0

/-- The integrands pfc/mode_solver.go:70-78 and 83-91. -/
noncomputable def integrand (millers : List Miller) (powers : List ℕ) (pos : List ℝ) : ℝ :=
  (List.range powers.length).foldl (fun (res : ℝ) mode =>
    if powers.getD mode 0 ≠ 0 then
      res * modeDensity (millers.getD mode ⟨0, 0, 0⟩) pos ^ powers.getD mode 0
    else res) 1

/-- `UnitcellIntegral`, pfc/mode_solver.go:64-93; `none` is the panic. -/
noncomputable def unitcellIntegral (millers : List Miller) (dim : ℕ) (rule : ℕ → ℕ → ℝ × ℝ)
    (powers : List ℕ) (order : ℕ) : Option ℝ :=
  if powers.length ≠ millers.length then none
  else if dim = 2 then
    some (quadSquare (rule order) order fun sx sy => integrand millers powers [sx, sy])
  else
    some (quadCube (rule order) order fun sx sy sz => integrand millers powers [sx, sy, sz])

/-- `freeEnergyTerm`, pfc/mode_solver.go:97-100. -/
structure FTerm where
  powers : List ℕ
  coeff : ℝ

/-- `Power`, pfc/mode_solver.go:103-109. -/
def FTerm.power (t : FTerm) : ℕ := t.powers.foldl (fun p x => p + x) 0

/-- `power2key`, pfc/mode_solver.go:115-123. -/
def power2key (powers : List ℕ) : Str :=
  powers.zipIdx.foldl (fun (key : Str) (e : ℕ × ℕ) =>
    if e.1 ≠ 0 then key ++ 'm' :: (fmtInt e.2 ++ 'p' :: fmtInt e.1) else key) []

/-- A map from keys to terms. `map[string]freeEnergyTerm`, pfc/mode_solver.go:138-166. -/
abbrev TermMap := List (Str × FTerm)

/-- `m[k]`. pfc/mode_solver.go:154. -/
def TermMap.get (m : TermMap) (k : Str) : Option FTerm := (m.find? fun e => e.1 = k).map Prod.snd

/-- `m[k] = v`. pfc/mode_solver.go:159, 161. -/
def TermMap.put (m : TermMap) (k : Str) (v : FTerm) : TermMap :=
  if m.any fun e => e.1 = k then m.map fun e => if e.1 = k then (k, v) else e else m ++ [(k, v)]

/-- The counting loop pfc/mode_solver.go:146-149; `none` is an index out of range. -/
def countPowers (numModes : ℕ) (idx : List Int) : Option (List ℕ) :=
  idx.foldlM (fun (powers : List ℕ) (i : Int) =>
    if 0 ≤ i ∧ i.toNat < powers.length then some (powers.modify i.toNat (· + 1)) else none)
    (List.replicate numModes 0)

/-- The body of the loop pfc/mode_solver.go:145-166. -/
noncomputable def buildStep (millers : List Miller) (dim : ℕ) (rule : ℕ → ℕ → ℝ × ℝ) (order : ℕ)
    (terms : TermMap) (idx : List Int) : Option TermMap := do
  let powers ← countPowers millers.length idx
  let integral ← unitcellIntegral millers dim rule powers order
  let key := power2key powers
  match terms.get key with
  | some val => return terms.put key ⟨powers, val.coeff + integral⟩
  | none => return terms.put key ⟨powers, integral⟩

/-- `build`, pfc/mode_solver.go:137-168. -/
noncomputable def build (millers : List Miller) (dim : ℕ) (rule : ℕ → ℕ → ℝ × ℝ) (power order : ℕ) :
    Option TermMap := do
  let idxs ← Pfutil.Product.forLoop (millers.length ^ power + 1)
    (Pfutil.newProduct (List.replicate power (millers.length : Int)))
  idxs.foldlM (buildStep millers dim rule order) []

/-- `mergeTerms`, pfc/mode_solver.go:171-175. -/
noncomputable def mergeTerms (dst src : TermMap) : TermMap :=
  src.foldl (fun (d : TermMap) e => d.put e.1 e.2) dst

/-- `tmp.Coeff *= c` for all entries, pfc/mode_solver.go:194-203. -/
noncomputable def scaleTerms (c : ℝ) (m : TermMap) : TermMap :=
  m.map fun e => (e.1, { e.2 with coeff := e.2.coeff * c })

/-- pfc/mode_solver.go:211-216. -/
noncomputable def maxCoeff (m : TermMap) : ℝ :=
  m.foldl (fun (c : ℝ) e => if |e.2.coeff| > c then |e.2.coeff| else c) 0

/-- pfc/mode_solver.go:218-222. -/
noncomputable def keepTerms (m : TermMap) : TermMap :=
  m.filter fun e => |e.2.coeff| > 1e-4 * maxCoeff m

/-- All terms before the small ones are dropped, pfc/mode_solver.go:190-208. -/
noncomputable def allTerms (im : IdealMix) (millers : List Miller) (dim : ℕ) (rule : ℕ → ℕ → ℝ × ℝ) :
    Option TermMap := do
  let t3 ← build millers dim rule 3 32
  let t4 ← build millers dim rule 4 32
  return mergeTerms (mergeTerms [] (scaleTerms im.thirdOrderPrefactor t3))
    (scaleTerms im.fourthOrderPrefactor t4)

/-- `Func`, pfc/mode_solver.go:227-237. -/
noncomputable def costFunc (n : ℕ) (terms : TermMap) (amp : ℕ → ℝ) : ℝ :=
  terms.foldl (fun (tot : ℝ) e =>
    tot + (List.range n).foldl (fun (p : ℝ) j => p * amp j ^ e.2.powers.getD j 0) 1 * e.2.coeff) 0

/-- `Grad`, pfc/mode_solver.go:240-259. -/
noncomputable def costGrad (n : ℕ) (terms : TermMap) (amp : ℕ → ℝ) (dir : ℕ) : ℝ :=
  terms.foldl (fun (g : ℝ) e =>
    if e.2.powers.getD dir 0 = 0 then g
    else
      g + (List.range n).foldl (fun (p : ℝ) j =>
        if j = dir then p * ((e.2.powers.getD dir 0 : ℕ) * amp j ^ (e.2.powers.getD dir 0 - 1))
        else p * amp j ^ e.2.powers.getD j 0) 1 * e.2.coeff) 0

/-- The value set by `Hess` for `dir1 ≤ dir2`, pfc/mode_solver.go:266-290. -/
noncomputable def costHessValue (n : ℕ) (terms : TermMap) (amp : ℕ → ℝ) (dir1 dir2 : ℕ) : ℝ :=
  terms.foldl (fun (v : ℝ) e =>
    v + (List.range n).foldl (fun (p : ℝ) j =>
      if j = dir1 ∧ j = dir2 then
        if e.2.powers.getD j 0 < 2 then p * 0
        else p * ((e.2.powers.getD j 0 : ℕ) * ((e.2.powers.getD j 0 : ℕ) - 1) *
          amp j ^ (e.2.powers.getD j 0 - 2))
      else if j = dir1 ∨ j = dir2 then
        if e.2.powers.getD j 0 = 0 then p * 0
        else p * ((e.2.powers.getD j 0 : ℕ) * amp j ^ (e.2.powers.getD j 0 - 1))
      else p * amp j ^ e.2.powers.getD j 0) 1 * e.2.coeff) 0

/-- The matrix after `Hess`, pfc/mode_solver.go:262-293: `SetSym` writes both elements. -/
noncomputable def costHess (n : ℕ) (terms : TermMap) (amp : ℕ → ℝ) (i j : ℕ) : ℝ :=
  costHessValue n terms amp (min i j) (max i j)

/-- Selection of the result, pfc/mode_solver.go:305-318. `minimize` stands for gonum's minimiser: energy
and amplitudes of the local minimum it reports for a start point. -/
noncomputable def selectBest (n : ℕ) (minimize : List ℚ → ℝ × List ℝ) (starts : List (List ℚ)) : ℝ × List ℝ :=
  starts.foldl (fun (r : ℝ × List ℝ) x0 =>
    let opt := minimize x0
    if opt.1 < r.1 then opt else r) (0, List.replicate n 0)

/-! ## Fitting elastic properties -/

/-- `BulkModWeight`, pfc/mode_solver.go:461-477. -/
noncomputable def bulkModWeight {n : ℕ} (m : Miller) (Q : Matrix (Fin n) (Fin n) ℝ) : ℝ :=
  let weight : ℝ := (List.finRange n).foldl (fun (w : ℝ) (i : Fin n) => w + (m.at i.val : ℝ) * Q i i * (m.at i.val : ℝ)) 0
  let weight := (List.finRange n).foldl (fun (w : ℝ) (i : Fin n) =>
    ((List.finRange n).filter fun j : Fin n => i.val + 1 ≤ j.val).foldl (fun (w : ℝ) (j : Fin n) =>
      w + 2 * (m.at i.val : ℝ) * Q i j * (m.at j.val : ℝ)) w) weight
  weight / 9

/-- `ShearModWeight`, pfc/mode_solver.go:484-500. -/
noncomputable def shearModWeight {n : ℕ} (m : Miller) (Q : Matrix (Fin n) (Fin n) ℝ) : ℝ :=
  let weight : ℝ := (List.finRange n).foldl (fun (w : ℝ) (i : Fin n) => w + (m.at i.val : ℝ) * Q i i * (m.at i.val : ℝ)) 0
  let weight := (List.finRange n).foldl (fun (w : ℝ) (i : Fin n) =>
    ((List.finRange n).filter fun j : Fin n => i.val + 1 ≤ j.val).foldl (fun (w : ℝ) (j : Fin n) =>
      let w := w - (m.at i.val : ℝ) * Q i j * (m.at j.val : ℝ)
      w + 3 * (m.at j.val : ℝ) * Q i i * (m.at j.val : ℝ)) w) weight
  weight / 15

/-- `AreaModulusWeight`, pfc/mode_solver.go:506-511. The matrix has at least two rows. -/
noncomputable def areaModulusWeight {k : ℕ} (m : Miller) (Q : Matrix (Fin (k + 2)) (Fin (k + 2)) ℝ) : ℝ :=
  let m0 : ℝ := m.at 0
  let m1 : ℝ := m.at 1
  let weight := m0 * Q 0 0 * m0 + m1 * Q 1 1 * m1 + 2 * m0 * Q 0 1 * m1
  weight / 4

/-- `XYPlaneShearWeight`, pfc/mode_solver.go:520-525. -/
noncomputable def xyPlaneShearWeight {k : ℕ} (m : Miller) (Q : Matrix (Fin (k + 2)) (Fin (k + 2)) ℝ) : ℝ :=
  let m0 : ℝ := m.at 0
  let m1 : ℝ := m.at 1
  let weight := m0 * Q 0 0 * m0 + m1 * Q 1 1 * m1 - 2 * m0 * Q 0 1 * m1 + 4 * m0 * Q 1 1 * m0
  weight / 8

/-- `Func` of `MatchElasticProp`, pfc/mode_solver.go:398-412. A property is its target value and the
weights of the modes. -/
noncomputable def fitFunc (n : ℕ) (props : List (ℝ × (ℕ → ℝ))) (penalty : ℝ) (x : ℕ → ℝ) : ℝ :=
  let value : ℝ := props.foldl (fun (value : ℝ) p =>
    value + (p.1 - (List.range n).foldl (fun (pred : ℝ) i => pred + x i * x i * p.2 i) 0) ^ 2) 0
  (List.range n).foldl (fun (value : ℝ) i => value + penalty * x i * x i * x i * x i) value

/-- `Grad` of `MatchElasticProp`, pfc/mode_solver.go:413-430, component `j`. -/
noncomputable def fitGrad (n : ℕ) (props : List (ℝ × (ℕ → ℝ))) (penalty : ℝ) (x : ℕ → ℝ) (j : ℕ) : ℝ :=
  let g : ℝ := props.foldl (fun (g : ℝ) p =>
    g - 4 * (p.1 - (List.range n).foldl (fun (pred : ℝ) i => pred + x i * x i * p.2 i) 0) * x j * p.2 j) 0
  g + 4 * penalty * x j * x j * x j

/-- The start vector of `MatchElasticProp`, pfc/mode_solver.go:433-438; `none` is an index out of
range. -/
def fitStart (n : ℕ) : Option (List ℚ) :=
  let initX : List ℚ := List.replicate n 1
  if 0 < n then
    let initX := initX.set 0 1
    if 1 < n then some (initX.set 1 (1 / 100)) else none
  else none

/-- One width of `PeakWidths`, pfc/mode_solver.go:545-548. -/
noncomputable def peakWidth (m : Miller) (dim : Int) (a amp : ℝ) : Option ℝ :=
  (numEquivalent m dim).map fun k : ℕ => Real.sqrt (0.5 * (k : ℝ)) * |a / amp|

end Gopf.Pfc
