import Mathlib.Data.List.Basic

/-!
# Specification vocabulary: sums of signed terms
-/

namespace Gopf.Spec

/-- A sum written as text: an optional sign, a term, then (sign, term) pairs. -/
structure SignedSum where
  lead : Option Char
  head : List Char
  tail : List (Char × List Char)

/-- The pairs after the first term, as text. -/
def renderTail : List (Char × List Char) → List Char
  | [] => []
  | (c, t) :: l => c :: (t ++ renderTail l)

/-- The sum as text. -/
def SignedSum.render (s : SignedSum) : List Char := s.lead.toList ++ s.head ++ renderTail s.tail

/-- A term: non-empty and free of signs. -/
def IsTerm (signs : List Char) (t : List Char) : Prop := t ≠ [] ∧ ∀ c ∈ t, c ∉ signs

/-- All terms are terms, all signs are signs. -/
def SignedSum.WellFormed (signs : List Char) (s : SignedSum) : Prop :=
  (∀ c ∈ s.lead, c ∈ signs) ∧ IsTerm signs s.head ∧ ∀ p ∈ s.tail, p.1 ∈ signs ∧ IsTerm signs p.2

/-- The terms with the sign in front of them. -/
def SignedSum.terms (s : SignedSum) : List (List Char × Option Char) :=
  (s.head, s.lead) :: s.tail.map fun p => (p.2, some p.1)

end Gopf.Spec
