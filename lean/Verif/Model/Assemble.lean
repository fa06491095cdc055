import Verif.Model.Parser
import Verif.Model.Stepper

/-!
# Model of the connection between the parser and the steppers

`Init` (pf/model.go:243-248) stores what `Build` returns; `GetRHS` and `GetDenum` (pf/model.go:283-314)
evaluate it. The closures made by `Build` look up the bricks by name.
-/

namespace Gopf.Pf
namespace EqModel
variable {n : ℕ}

/-- `m.Bricks[x].Get` (pf/model.go:118): fields and derived fields share their data with the bricks,
anything else is a scalar with a fixed value. (A map has one entry for each name; the model looks at the
fields first.) -/
def brick (m : EqModel n) (c : Str → ℂ) (st : Store m.fields.length m.derived.length n) : Bricks n := fun x =>
  if h : m.fields.idxOf x < m.fields.length then st.fields ⟨_, h⟩
  else if h : (m.derived.map Prod.fst).idxOf x < m.derived.length then st.derived ⟨_, h⟩
  else fun _ => c x

/-- The model after `Init`, without sources and modifiers. `none` if an equation cannot be parsed or if
there are fewer equations than fields (`GetRHS` then indexes out of range, pf/model.go:286). -/
noncomputable def assemble (m : EqModel n) (c : Str → ℂ) : Option (Model m.fields.length m.derived.length n) :=
  match m.initRHS with
  | none => none
  | some Rs =>
    if h : m.fields.length ≤ Rs.length then
      some { calcs := fun d st => (m.derived[d]).2.eval (m.brick c st)
             terms := fun i => (Rs[i]'(i.2.trans_le h)).terms.map fun f st => f (m.brick c st)
             denum := fun i => (Rs[i]'(i.2.trans_le h)).denum.map fun f st => f (m.brick c st)
             sources := fun _ => []
             modifiers := [] }
    else none

end EqModel
end Gopf.Pf
