import Verif.Model.Text
import Mathlib.Analysis.SpecialFunctions.Sqrt
import Mathlib.Analysis.SpecialFunctions.Trigonometric.Basic
import Mathlib.Analysis.Complex.Basic

/-!
# Model of the operator prefixes of `pf/rhsBuilder.go` and of `pf/diffOp.go`
-/

namespace Gopf.Pf

/-- `knownPrefixes`, pf/rhsBuilder.go:244-252. -/
def knownPrefixes : List Str := ["-".toList, "LAP^4".toList, "LAP^2".toList, "LAP".toList, "*".toList]

/-- `recursiveRemove`, pf/rhsBuilder.go:274-287. (An empty prefix would recurse for ever in Go; the
model stops peeling there. The list of known prefixes has no empty one.) -/
def recursiveRemove (prefixes : List Str) (str : Str) : Str :=
  match prefixes with
  | [] => str
  | p :: ps =>
    if h : p.isPrefixOf str ∧ p ≠ [] then recursiveRemove knownPrefixes (str.drop p.length)
    else recursiveRemove ps str
termination_by (str.length, prefixes.length)
decreasing_by
  · obtain ⟨h1, h2⟩ := h
    left
    have h3 := (List.isPrefixOf_iff_prefix.mp h1).length_le
    have _ : 0 < p.length := List.length_pos_iff.mpr h2
    rw [List.length_drop]; omega
  · right; simp

/-- `removeKnownPrefixes`, pf/rhsBuilder.go:254-257. -/
def removeKnownPrefixes (str : Str) : Str := recursiveRemove knownPrefixes str

/-- The loop of `getKnownPrefixes`, pf/rhsBuilder.go:259-272: the list of prefixes still to be tried
and the rest of the text. -/
def getPrefixesLoop (prefixes : List Str) (str : Str) : List Str :=
  match prefixes with
  | [] => []
  | p :: ps =>
    if h : p.isPrefixOf str ∧ p ≠ [] then p :: getPrefixesLoop knownPrefixes (str.drop p.length)
    else getPrefixesLoop ps str
termination_by (str.length, prefixes.length)
decreasing_by
  · obtain ⟨h1, h2⟩ := h
    left
    have h3 := (List.isPrefixOf_iff_prefix.mp h1).length_le
    have _ : 0 < p.length := List.length_pos_iff.mpr h2
    rw [List.length_drop]; omega
  · right; simp

/-- `getKnownPrefixes`, pf/rhsBuilder.go:259-272. -/
def getKnownPrefixes (str : Str) : List Str := getPrefixesLoop knownPrefixes str

/-- Transformed data on `n` nodes. The slices handed to terms, for instance pf/diffOp.go:24-30. -/
abbrev Data (n : ℕ) := Fin n → ℂ

/-- `Frequency`, pf/diffOp.go:10. -/
abbrev Frequency (n : ℕ) := Fin n → List ℝ

/-- `Term`, pf/rhsBuilder.go:16. The array passed to a term is overwritten, so a term is modelled by
the values it writes. -/
abbrev Term (n : ℕ) := Frequency n → ℝ → Data n

/-- `floats.Norm(f, 2)` of gonum. Used at pf/diffOp.go:27. -/
noncomputable def norm2 (f : List ℝ) : ℝ := Real.sqrt (f.map fun x => x ^ 2).sum

/-- The multiplier of `LaplacianN.Eval`, pf/diffOp.go:27. -/
noncomputable def lapFactor (power : ℤ) (f : List ℝ) : ℂ :=
  (((-(2 * Real.pi * norm2 f) ^ 2) ^ power : ℝ) : ℂ)

/-- `LaplacianN.Eval`, pf/diffOp.go:25-30. -/
noncomputable def lapEval {n : ℕ} (power : ℤ) (freq : Frequency n) (ft : Data n) : Data n :=
  fun i => ft i * lapFactor power (freq i)

/-- `flipSign`, pf/rhsBuilder.go:193-197. -/
def flipSign {n : ℕ} (data : Data n) : Data n := fun i => data i * (-1)

/-- `constructFunc`, pf/rhsBuilder.go:199-242. The unrecognised prefixes (default branch) are only
logged. -/
noncomputable def constructFunc {n : ℕ} (term : Term n) : List Str → Term n
  | [] => term
  | p :: ps =>
    let f : Term n :=
      if p = "-".toList then fun freq t => flipSign (term freq t)
      else if p = "LAP^4".toList then fun freq t => lapEval 4 freq (term freq t)
      else if p = "LAP^2".toList then fun freq t => lapEval 2 freq (term freq t)
      else if p = "LAP".toList then fun freq t => lapEval 1 freq (term freq t)
      else term
    constructFunc f ps

end Gopf.Pf
