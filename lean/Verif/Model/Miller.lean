import Mathlib.Data.Int.Notation
import Mathlib.Data.List.Basic
import Mathlib.Data.Nat.Factorial.Basic

/-!
# Model of `pfc/miller.go`
-/

namespace Gopf.Pfc

/-- `Miller`, pfc/miller.go:4-6. -/
structure Miller where
  H : Int
  K : Int
  L : Int
deriving DecidableEq

/-- `At`, pfc/miller.go:15-22. -/
def Miller.at (m : Miller) (i : ℕ) : Int := if i = 0 then m.H else if i = 1 then m.K else m.L

/-- `factorial`, pfc/miller.go:25-31. -/
def factorial (n : ℕ) : ℕ := (List.range' 1 n).foldl (fun f i => f * i) 1

/-- `abs`, pfc/miller.go:34-39. -/
def iabs (x : Int) : Int := if x < 0 then -x else x

/-- `NumEquivalent3D`, pfc/miller.go:42-69. -/
def numEquivalent3D (m : Miller) : ℕ :=
  let numEq := 1
  let numEq := if m.H ≠ 0 then numEq * 2 else numEq
  let numEq := if m.K ≠ 0 then numEq * 2 else numEq
  let numEq := if m.L ≠ 0 then numEq * 2 else numEq
  let numEqual := 1
  let numEqual := if iabs m.K = iabs m.H then numEqual + 1 else numEqual
  let numEqual := if iabs m.L = iabs m.K then numEqual + 1 else numEqual
  let numPerm := factorial 3 / factorial numEqual
  numEq * numPerm

/-- The values of a loop `for sgn := -1; sgn <= max; sgn += 2` where `max` is 0 for a zero index and 1
otherwise, pfc/miller.go:143-160. -/
def signs (x : Int) : List Int := if x = 0 then [-1] else [-1, 1]

/-- `EquivalentMillerNoPermutations`, pfc/miller.go:137-171. -/
def equivalentNoPerm (m : Miller) : List Miller :=
  (signs m.H).flatMap fun sH => (signs m.K).flatMap fun sK => (signs m.L).map fun sL =>
    ⟨sH * m.H, sK * m.K, sL * m.L⟩

/-- `permutations`, pfc/miller.go:96-103. -/
def permutations : List (List ℕ) := [[0, 1, 2], [0, 2, 1], [2, 0, 1], [2, 1, 0], [1, 2, 0], [1, 0, 2]]

/-- The list before the duplicates are removed, pfc/miller.go:104-116. -/
def allSigned (m : Miller) : List Miller :=
  permutations.flatMap fun p =>
    equivalentNoPerm ⟨m.at (p.getD 0 0), m.at (p.getD 1 0), m.at (p.getD 2 0)⟩

/-- `res[j], res[end-1] = res[end-1], res[j]; end--` on the part of the slice from `j` on, seen from behind
position `j`: the last element moves to position `j`. pfc/miller.go:125-127. -/
def moveLast {α : Type} (l : List α) : List α :=
  match l.getLast? with
  | none => []
  | some x => x :: l.dropLast

theorem moveLast_length {α : Type} (l : List α) : (moveLast l).length = l.length := by
  unfold moveLast
  cases h : l.getLast? with
  | none => rw [List.getLast?_eq_none_iff] at h; simp [h]
  | some x =>
    have : l ≠ [] := by rintro rfl; simp at h
    have := List.length_pos_iff.mpr this
    simp; omega

/-- The inner loop pfc/miller.go:122-129 for the element `x` at position `i`. The slice between `i` and
`end` is `seen ++ rest`, `rest` starting at position `j`. -/
def dedupInner (x : Miller) (seen rest : List Miller) : List Miller :=
  match rest with
  | [] => seen
  | y :: ys => if x = y then dedupInner x seen (moveLast ys) else dedupInner x (seen ++ [y]) ys
termination_by rest.length
decreasing_by all_goals simp [moveLast_length]

theorem dedupInner_length (x : Miller) (seen rest : List Miller) :
    (dedupInner x seen rest).length ≤ seen.length + rest.length := by
  induction h : rest.length generalizing seen rest with
  | zero =>
    obtain rfl := List.length_eq_zero_iff.mp h
    rw [dedupInner]; simp
  | succ n ih =>
    cases rest with
    | nil => simp at h
    | cons y ys =>
      have hy : ys.length = n := by simpa using h
      rw [dedupInner]
      split
      · have := ih seen (moveLast ys) (by rw [moveLast_length, hy])
        omega
      · have := ih (seen ++ [y]) ys hy
        simp at this; omega

/-- The outer loop pfc/miller.go:119-131. -/
def dedup (l : List Miller) : List Miller :=
  match l with
  | [] => []
  | x :: t => x :: dedup (dedupInner x [] t)
termination_by l.length
decreasing_by
  have := dedupInner_length x [] t
  simp at this ⊢; omega

/-- `EquivalentMiller`, pfc/miller.go:94-135. -/
def equivalentMiller (m : Miller) : List Miller := dedup (allSigned m)

/-- `NumEquivalent2D`, pfc/miller.go:72-80. -/
def numEquivalent2D (m : Miller) : ℕ :=
  (equivalentMiller m).foldl (fun (num : ℕ) e => if e.L = 0 then num + 1 else num) 0

/-- `NumEquivalent`, pfc/miller.go:83-92. -/
def numEquivalent (m : Miller) (dim : Int) : Option ℕ :=
  if dim = 2 then some (numEquivalent2D m) else if dim = 3 then some (numEquivalent3D m) else none

end Gopf.Pfc
