import Verif.Spec.Equation
import Mathlib.Data.List.Lex

/-!
# Specification vocabulary: the meaning of a product written as text
-/

namespace Gopf.Spec

/-- The factors of a product whose names are in a list. -/
def factorsIn (names : List (List Char)) (items : List Item) : List Factor :=
  (items.filterMap Item.fac).filter fun f => f.name ∈ names

/-- The power of a Laplacian; 1 if none is written. -/
def lapValue : Option (List Char) → ℕ
  | none => 1
  | some k => Nat.ofDigitChars 10 k 0

/-- The powers of the Laplacians in a product. -/
def laplacians (items : List Item) : List ℕ := items.filterMap fun i => i.lap.map lapValue

/-- The canonical text of a product of factors: the texts of the factors in ascending order. -/
def CanonicalProduct (D : List Char) (fs : List Factor) : Prop :=
  ∃ ts, ts.Perm (fs.map Factor.text) ∧ ts.Pairwise (· ≤ ·) ∧ D = List.intercalate ['*'] ts

/-- The sign a delimiter stands for. -/
def signOf (delim : Option Char) : ℤ := if delim = some '-' then -1 else 1

/-- The conditions under which a product is read correctly. The items are well-formed; there is at most
one Laplacian; no name in front of it contains `LA`; and when the items are put in ascending order, the
items that name fields and functions stand next to each other, only the first of them carries a
Laplacian, and the order is also the one without the Laplacian. -/
structure Readable (N : Names) (items : List Item) : Prop where
  wf : ∀ i ∈ items, i.WellFormed N
  oneLap : (laplacians items).length ≤ 1
  lapFirst : ∀ pre i post, items = pre ++ i :: post → i.lap ≠ none →
    ∀ j ∈ pre, ∀ f ∈ j.fac, ¬ ['L', 'A'] <:+: f.name
  together : ∃ pre V post : List Item, (pre ++ (V ++ post)).Perm items ∧
    ((pre ++ (V ++ post)).map Item.text).Pairwise (· ≤ ·) ∧
    (∀ i ∈ pre ++ post, ∀ f ∈ i.fac, f.name ∉ N.varying) ∧
    (∀ i ∈ V, ∃ f ∈ i.fac, f.name ∈ N.varying) ∧
    (∀ i ∈ V.tail, i.lap = none) ∧
    (V.map fun i => facText i.fac).Pairwise (· ≤ ·)

/-- A term of a polynomial right-hand side: a readable product of scalars, an optional Laplacian, and
either fields, each written once, or a single function without a power. A field power that is 1 up to
1e-10 is exactly 1. -/
structure Monomial (N : Names) (items : List Item) : Prop where
  readable : Readable N items
  once : ∀ g ∈ N.fields, (occurrences g items).length ≤ 1
  kind : (factorsIn N.functions items = [] ∧ factorsIn N.fields items ≠ []) ∨
    ∃ g ∈ N.functions, factorsIn N.varying items = [⟨g, none⟩]
  exactOne : ∀ f ∈ factorsIn N.fields items, |f.power - 1| < 1 / 10 ^ 10 → f.power = 1

/-- An equation for a field: the right-hand side is a sum of products with signs. -/
structure Equation where
  field : List Char
  lead : Option Char
  head : List Item
  tail : List (Char × List Item)

/-- The products with the sign in front of them. -/
def Equation.terms (eq : Equation) : List (List Item × Option Char) :=
  (eq.head, eq.lead) :: eq.tail.map fun p => (p.2, some p.1)

/-- The right-hand side as text. -/
def Equation.sum (eq : Equation) : SignedSum :=
  ⟨eq.lead, productText eq.head, eq.tail.map fun p => (p.1, productText p.2)⟩

/-- The equation as text, without spaces: `dconc/dt=...`. -/
def Equation.text (eq : Equation) : List Char :=
  'd' :: (eq.field ++ ['/', 'd', 't', '='] ++ eq.sum.render)

/-- A polynomial equation: the signs are `+` and `-`, the field is a field of the model and the terms
are monomials. -/
structure Equation.Polynomial (N : Names) (eq : Equation) : Prop where
  field : eq.field ∈ N.fields
  lead : ∀ c ∈ eq.lead, c = '+' ∨ c = '-'
  signs : ∀ p ∈ eq.tail, p.1 = '+' ∨ p.1 = '-'
  monomials : ∀ p ∈ eq.terms, Monomial N p.1

end Gopf.Spec
