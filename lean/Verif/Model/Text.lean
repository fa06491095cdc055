import Mathlib.Data.List.Basic
import Mathlib.Data.List.Count
import Mathlib.Tactic.Linarith

/-!
# Model of the text splitting of `pf/util.go`

Go strings are lists of characters (the code is byte based; for ASCII text, which is what equations
consist of, the two agree).
-/

namespace Gopf.Pf

/-- Text. For instance the argument of pf/util.go:154. -/
abbrev Str := List Char

/-- `strings.Split(s, sep)` of the standard library for a separator of one character. Used at pf/util.go:184,
297, pf/rhsBuilder.go:27 and pf/model.go:166, 173. -/
def goSplit (c : Char) : Str → List Str
  | [] => [[]]
  | x :: xs =>
    if x = c then [] :: goSplit c xs
    else match goSplit c xs with
      | [] => [[x]]
      | h :: t => (x :: h) :: t

/-- `removeEmpty`, pf/util.go:202-210. -/
def removeEmpty (l : List Str) : List Str := l.filter fun s => !s.isEmpty

/-- `SubStringDelimiter`, pf/util.go:136-139; the delimiter is empty or one character. -/
structure SubDelim where
  sub : Str
  delim : Option Char
deriving DecidableEq, Repr

/-- `getFirstDelimiter`, pf/util.go:143-150, for delimiters of one character: the first character if
it is a delimiter. Indexing an empty string panics if there is a delimiter to compare with. -/
def getFirstDelimiter (value : Str) (delims : List Char) : Option (Option Char) :=
  match value, delims with
  | _, [] => some none
  | [], _ :: _ => none
  | x :: _, _ :: _ => some (if x ∈ delims then some x else none)

/-- Number of delimiter characters of a text. Part of the loop pf/util.go:167-198. -/
def nDelims (delims : List Char) (s : Str) : Nat := s.countP (fun c => delims.contains c)

/-- Termination measure of the work queue. Part of the loop pf/util.go:167-198. -/
def queueSize (delims : List Char) (q : List SubDelim) : Nat :=
  (q.map fun i => 2 * nDelims delims i.sub + 1).sum

theorem goSplit_ne_nil (c : Char) (s : Str) : goSplit c s ≠ [] := by
  cases s with
  | nil => simp [goSplit]
  | cons x xs =>
    simp only [goSplit]
    split_ifs
    · simp
    · cases h : goSplit c xs <;> simp

/-- Splitting on `c` consumes the occurrences of `c`. -/
theorem goSplit_measure (delims : List Char) (c : Char) (hc : c ∈ delims) : ∀ s : Str,
    ((goSplit c s).map fun x => 2 * nDelims delims x + 1).sum + s.count c =
      2 * nDelims delims s + 1
  | [] => by simp [goSplit, nDelims]
  | x :: xs => by
    have ih := goSplit_measure delims c hc xs
    simp only [goSplit]
    split_ifs with h
    · subst h
      have h1 : nDelims delims (x :: xs) = nDelims delims xs + 1 := by simp [nDelims, hc]
      simp only [List.map_cons, List.sum_cons, List.count_cons_self, h1]
      have : nDelims delims [] = 0 := rfl
      omega
    · cases hs : goSplit c xs with
      | nil => exact absurd hs (goSplit_ne_nil c xs)
      | cons a t =>
        rw [hs] at ih
        have hcount : (x :: xs).count c = xs.count c := by simp [h]
        simp only [List.map_cons, List.sum_cons, hcount] at ih ⊢
        have h1 : ∀ l, nDelims delims (x :: l) = nDelims delims l +
            (if delims.contains x then 1 else 0) := by
          intro l; simp [nDelims, List.countP_cons]
        rw [h1 a, h1 xs]
        omega

theorem removeEmpty_measure (delims : List Char) : ∀ l : List Str,
    ((removeEmpty l).map fun x => 2 * nDelims delims x + 1).sum ≤
      (l.map fun x => 2 * nDelims delims x + 1).sum
  | [] => by simp [removeEmpty]
  | a :: l => by
    have ih := removeEmpty_measure delims l
    simp only [removeEmpty] at ih
    simp only [removeEmpty, List.filter_cons]
    split_ifs <;> simp only [List.map_cons, List.sum_cons] <;> omega

theorem split_size (delims : List Char) (c : Char) (hc : c ∈ delims) (s : Str) (h : c ∈ s) :
    ((removeEmpty (goSplit c s)).map fun x => 2 * nDelims delims x + 1).sum <
      2 * nDelims delims s + 1 := by
  have h1 := goSplit_measure delims c hc s
  have h2 := removeEmpty_measure delims (goSplit c s)
  have h3 : 0 < s.count c := List.count_pos_iff.mpr h
  omega

/-- The loop of `SplitOnMany`, pf/util.go:167-197. `queue` is the work queue and `out` the list
`substrings`. An item that contains a delimiter (`ContainsAny`) is split on the first delimiter (in the order of the
list) that it contains; `splits[0]` panics if nothing is left. -/
def splitLoop (delims : List Char) (queue out : List SubDelim) : Option (List SubDelim) :=
  match queue with
  | [] => some out
  | item :: rest =>
    match hd : delims.find? fun d => item.sub.contains d with
    | none => splitLoop delims rest (out ++ [item])
    | some c =>
      match hs : removeEmpty (goSplit c item.sub) with
      | [] => none
      | s0 :: more =>
        splitLoop delims
          (rest ++ (⟨s0, item.delim⟩ :: more.map fun s => ⟨s, some c⟩)) out
termination_by queueSize delims queue
decreasing_by
  · simp [queueSize]
  · have hmem := List.mem_of_find?_eq_some hd
    have hcont := List.find?_some hd
    have := split_size delims c hmem item.sub (by simpa using hcont)
    rw [hs] at this
    simp only [queueSize, List.map_append, List.map_cons, List.sum_append, List.sum_cons,
      List.map_map, Function.comp_def] at this ⊢
    omega

/-- `SplitOnMany`, pf/util.go:154-199, for delimiters of one character. -/
def splitOnMany (value : Str) (delims : List Char) : Option (List SubDelim) := do
  let d ← getFirstDelimiter value delims
  splitLoop delims [⟨value, d⟩] []

end Gopf.Pf
