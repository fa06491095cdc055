import Verif.Model.Text

/-!
# Model of the part of Go's `regexp` and `strings` used by the equation parser

The patterns of `pf/rhsBuilder.go` and `pf/util.go` are sequences of single character classes, each
with an optional repetition, and anchors. Matching is leftmost-first (the semantics of `regexp`),
written as the backtracking matcher that defines it.
-/

namespace Gopf.Pf

/-- A piece of a pattern: `^`, one character of a class, any number of them (`*`, greedy), or an optional one
(`?`, greedy). Patterns of this form: pf/util.go:23-95, pf/rhsBuilder.go:70-155. -/
inductive Atom
  | bol
  | one (p : Char → Bool)
  | star (p : Char → Bool)
  | opt (p : Char → Bool)

/-- A pattern. Patterns of this form: pf/util.go:23-95, pf/rhsBuilder.go:70-155. -/
abbrev Pattern := List Atom

/-- Match of a pattern at the beginning of `s`; the result is the rest of the text. `start` tells if this is
the beginning of the whole text. Used at pf/util.go:23-95, pf/rhsBuilder.go:70-155. -/
def matchHere : Pattern → Bool → Str → Option Str
  | [], _, s => some s
  | .bol :: as, start, s => if start then matchHere as start s else none
  | .one p :: as, _, s =>
    match s with
    | [] => none
    | x :: xs => if p x then matchHere as false xs else none
  | .opt p :: as, start, s =>
    match s with
    | [] => matchHere as start []
    | x :: xs =>
      if p x then
        match matchHere as false xs with
        | some r => some r
        | none => matchHere as start (x :: xs)
      else matchHere as start (x :: xs)
  | .star p :: as, start, s =>
    match s with
    | [] => matchHere as start []
    | x :: xs =>
      if p x then
        match matchHere (.star p :: as) false xs with
        | some r => some r
        | none => matchHere as start (x :: xs)
      else matchHere as start (x :: xs)
termination_by as _ s => as.length + s.length

/-- The leftmost match: the text before it, the matched text and the text after it. Used at pf/util.go:23-95,
pf/rhsBuilder.go:70-155. -/
def findFrom (as : Pattern) (start : Bool) (s : Str) : Option (Str × Str × Str) :=
  match matchHere as start s with
  | some rest => some ([], s.take (s.length - rest.length), rest)
  | none =>
    match s with
    | [] => none
    | x :: xs => (findFrom as false xs).map fun r => (x :: r.1, r.2)
termination_by s.length

/-- `FindString`: the leftmost match, or the empty text. Used at pf/util.go:23-95, pf/rhsBuilder.go:70-155. -/
def findString (as : Pattern) (s : Str) : Str :=
  match findFrom as true s with
  | some r => r.2.1
  | none => []

/-- The loop of `FindAllString` (`allMatches` in the standard library). `s` is the text from the current
position on, `start` tells if this is position 0, and `afterMatch` if the previous match ended at this
position. An empty match there is not delivered; after an empty match the position advances by one character.
Used at pf/util.go:23-95, pf/rhsBuilder.go:70-155. -/
def findAllLoop (as : Pattern) (start afterMatch : Bool) (s : Str) : List Str :=
  match findFrom as start s with
  | none => []
  | some (pre, m, rest) =>
    if pre.length + m.length = 0 then
      let more := match s with
        | [] => []
        | _ :: xs => findAllLoop as false false xs
      if afterMatch then more else m :: more
    else if _h : rest.length < s.length then
      m :: findAllLoop as false true rest
    else []  -- not reachable: `s = pre ++ m ++ rest`
termination_by s.length

/-- `FindAllString(s, -1)`, and the texts of `FindAllStringSubmatch` and `FindAllStringIndex`. Used at
pf/util.go:23-95, pf/rhsBuilder.go:70-155. -/
def findAll (as : Pattern) (s : Str) : List Str := findAllLoop as true false s

/-- The class of a character of a pattern: `.` matches everything, a letter, a digit or `_` itself. Used at
pf/util.go:23 and pf/rhsBuilder.go:70, 82, 90. -/
def charClass (c : Char) : Option (Char → Bool) :=
  if c = '.' then some fun _ => true
  else if c.isAlphanum || c = '_' then some fun x => x = c
  else none

/-- `regexp.MustCompile` of a text of letters, digits, `_`, `.`, `^` and `*` (a name, or the name of a
derived field). Other characters and misplaced `*` are not modelled (`none`; the latter panic in Go). Used at
pf/util.go:23 and pf/rhsBuilder.go:70, 82, 90. -/
def compileText : Str → Option Pattern
  | [] => some []
  | c :: '*' :: rest =>
    match charClass c, compileText rest with
    | some p, some as => some (.star p :: as)
    | _, _ => none
  | '^' :: rest => (compileText rest).map fun as => .bol :: as
  | c :: rest =>
    match charClass c, compileText rest with
    | some p, some as => some (.one p :: as)
    | _, _ => none

/-- `strings.Contains(s, sub)`. Used at pf/util.go:86, 92 and pf/rhsBuilder.go:153. -/
def contains (sub : Str) : Str → Bool
  | [] => sub.isPrefixOf []
  | x :: xs => sub.isPrefixOf (x :: xs) || contains sub xs

/-- `strings.Replace(s, old, "", -1)` for a non-empty `old`. Used at pf/util.go:88 and pf/rhsBuilder.go:47. -/
def removeAll (old : Str) (s : Str) : Str :=
  if _h : old.isPrefixOf s ∧ old ≠ [] then removeAll old (s.drop old.length)
  else match s with
    | [] => []
    | x :: xs => x :: removeAll old xs
termination_by s.length
decreasing_by
  · obtain ⟨h1, h2⟩ := _h
    have h3 := (List.isPrefixOf_iff_prefix.mp h1).length_le
    have _ : 0 < old.length := List.length_pos_iff.mpr h2
    rw [List.length_drop]; omega
  · simp

end Gopf.Pf
