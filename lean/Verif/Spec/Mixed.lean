import Verif.Spec.Monomial

/-!
# Specification vocabulary: equations with products and named terms
-/

namespace Gopf.Spec

/-- A term of an equation: a product, or the name of a registered term with operators in front. -/
inductive Summand
  | product (items : List Item)
  | registered (ops : List (List Char)) (name : List Char)

/-- The term as text. -/
def Summand.text : Summand → List Char
  | .product items => productText items
  | .registered ops name => ops.flatten ++ name

/-- An equation for a field: the right-hand side is a sum of terms with signs. -/
structure MixedEquation where
  field : List Char
  lead : Option Char
  head : Summand
  tail : List (Char × Summand)

/-- The terms with the sign in front of them. -/
def MixedEquation.terms (eq : MixedEquation) : List (Summand × Option Char) :=
  (eq.head, eq.lead) :: eq.tail.map fun p => (p.2, some p.1)

/-- The right-hand side as text. -/
def MixedEquation.sum (eq : MixedEquation) : SignedSum :=
  ⟨eq.lead, eq.head.text, eq.tail.map fun p => (p.1, p.2.text)⟩

/-- The equation as text, without spaces. -/
def MixedEquation.text (eq : MixedEquation) : List Char :=
  'd' :: (eq.field ++ ['/', 'd', 't', '='] ++ eq.sum.render)

/-- The equation without the registered terms, written as a list of products with signs. -/
def MixedEquation.products (eq : MixedEquation) : List (List Item × Option Char) :=
  eq.terms.filterMap fun p => match p.1 with
    | .product items => some (items, p.2)
    | .registered _ _ => none

end Gopf.Spec
