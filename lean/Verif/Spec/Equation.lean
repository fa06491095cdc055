import Verif.Spec.Terms
import Mathlib.Analysis.SpecialFunctions.Pow.Complex
import Mathlib.Data.List.Infix

/-!
# Specification vocabulary: equations written as text

A term is a product of items joined by `*`. An item is a name with an optional power, a Laplacian
(`LAP`, `LAP^2`), or a Laplacian written directly in front of a field (`LAP conc^3`).
-/

namespace Gopf.Spec

/-- A power written in digits with an optional fractional part: `2`, `0.5`. -/
structure Exponent where
  int : List Char
  frac : Option (List Char)
deriving DecidableEq

/-- The fractional part as text. -/
def fracText : Option (List Char) → List Char
  | none => []
  | some f => '.' :: f

/-- The value of the fractional part. -/
def fracValue : Option (List Char) → ℚ
  | none => 0
  | some f => (Nat.ofDigitChars 10 f 0 : ℕ) / 10 ^ f.length

/-- The power as text. -/
def Exponent.text (e : Exponent) : List Char := e.int ++ fracText e.frac

/-- The number. -/
def Exponent.value (e : Exponent) : ℚ := (Nat.ofDigitChars 10 e.int 0 : ℕ) + fracValue e.frac

/-- There is at least one digit, and there are only digits. -/
def Exponent.WellFormed (e : Exponent) : Prop :=
  e.int ≠ [] ∧ (∀ c ∈ e.int, c.isDigit) ∧ ∀ f ∈ e.frac, ∀ c ∈ f, c.isDigit

/-- A name with an optional power. -/
structure Factor where
  name : List Char
  exp : Option Exponent
deriving DecidableEq

/-- The power as text, with the `^`. -/
def powerText (e : Option Exponent) : List Char :=
  match e with
  | none => []
  | some e => '^' :: e.text

/-- The factor as text. -/
def Factor.text (f : Factor) : List Char := f.name ++ powerText f.exp

/-- The power of a factor; 1 if none is written. -/
def Factor.power (f : Factor) : ℚ :=
  match f.exp with
  | none => 1
  | some e => e.value

/-- An item of a product: a Laplacian with an optional integer power, a factor, or both. -/
structure Item where
  lap : Option (Option (List Char))
  fac : Option Factor
deriving DecidableEq

/-- The Laplacian as text. -/
def lapText (l : Option (Option (List Char))) : List Char :=
  match l with
  | none => []
  | some none => ['L', 'A', 'P']
  | some (some k) => ['L', 'A', 'P', '^'] ++ k

/-- The factor as text, if there is one. -/
def facText (f : Option Factor) : List Char :=
  match f with
  | none => []
  | some f => f.text

/-- The item as text. -/
def Item.text (i : Item) : List Char := lapText i.lap ++ facText i.fac

/-- The name in an item. -/
def Item.name? (i : Item) : Option (List Char) := i.fac.map Factor.name

/-- A product as text. -/
def productText (items : List Item) : List Char := List.intercalate ['*'] (items.map Item.text)

/-- Letters, digits and underscore. -/
def IdentChar (c : Char) : Prop := c.isAlphanum = true ∨ c = '_'

/-- A name: a letter followed by letters, digits and underscores. -/
def IsIdent (s : List Char) : Prop := (∃ c t, s = c :: t ∧ c.isAlpha = true) ∧ ∀ c ∈ s, IdentChar c

/-- The names of a model. -/
structure Names where
  fields : List (List Char)
  functions : List (List Char)
  scalars : List (List Char)

/-- Names that stand for values that vary in space. -/
def Names.varying (N : Names) : List (List Char) := N.fields ++ N.functions

/-- All names. -/
def Names.all (N : Names) : List (List Char) := N.varying ++ N.scalars

/-- The condition on names under which the parser can tell them apart. Names are identifiers, all
different, and do not contain the word reserved for the Laplacian. Names of fields and functions have at
least three letters, and even without its last letter such a name occurs neither in another name nor
in the reserved word, nor in the reserved word followed by the name of another field or function. -/
structure Names.WellNamed (N : Names) : Prop where
  ident : ∀ x ∈ N.all, IsIdent x
  nodup : N.all.Nodup
  noLap : ∀ x ∈ N.all, ¬ ['L', 'A', 'P'] <:+: x
  long : ∀ g ∈ N.varying, 3 ≤ g.length
  sepLap : ∀ g ∈ N.varying, ¬ g.dropLast <:+: ['L', 'A', 'P']
  sepVarying : ∀ g ∈ N.varying, ∀ f ∈ N.varying, g ≠ f → ¬ g.dropLast <:+: ['L', 'A', 'P'] ++ f
  sepScalar : ∀ g ∈ N.varying, ∀ x ∈ N.scalars, ¬ g.dropLast <:+: x

/-- A well-formed item: something is written, powers are numbers, the name is known, and a Laplacian is
directly attached only to a field or function, whose name does not begin with `A` or `P`. -/
structure Item.WellFormed (N : Names) (i : Item) : Prop where
  some_part : i.lap ≠ none ∨ i.fac ≠ none
  exp : ∀ f ∈ i.fac, ∀ e ∈ f.exp, e.WellFormed
  lapPow : ∀ k, i.lap = some (some k) → k ≠ [] ∧ ∀ c ∈ k, c.isDigit
  known : ∀ f ∈ i.fac, f.name ∈ N.all
  attached : ∀ f ∈ i.fac, i.lap ≠ none → f.name ∈ N.varying ∧ f.name.head? ≠ some 'A' ∧
    f.name.head? ≠ some 'P'

/-- The items that name `g`. -/
def occurrences (g : List Char) (items : List Item) : List Item :=
  items.filter fun i => i.name? = some g

/-- The product is linear in `field`: the field occurs exactly once, its power is 1 (up to 1e-10), and
none of the `others` occurs. -/
def LinearIn (field : List Char) (others : List (List Char)) (items : List Item) : Prop :=
  (occurrences field items).length = 1 ∧
  (∀ g ∈ others, g ≠ field → occurrences g items = []) ∧
  ∀ i ∈ occurrences field items, ∀ f ∈ i.fac, |f.power - 1| < 1 / 10 ^ 10

/-- A text that spells a product of at least one field with powers: the names of the derived fields the
parser makes. A single name without a power is not among them. -/
def IsProductName (N : Names) (s : List Char) : Prop :=
  ∃ fs : List Factor, s = List.intercalate ['*'] (fs.map Factor.text) ∧ fs ≠ [] ∧
    (∀ f ∈ fs, f.name ∈ N.varying ∧ ∀ e ∈ f.exp, e.WellFormed) ∧ ∀ g, fs ≠ [⟨g, none⟩]

end Gopf.Spec
