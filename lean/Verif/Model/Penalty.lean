import Verif.Model.Terms
import Verif.Model.Assemble

/-!
# Model of `NegativeValuePenalty` as a registered function, `pf/negative_value_penalty.go`

`Penalty` itself is `penalty` in `Verif.Model.Terms`.
-/

namespace Gopf.Pf

variable {n : ℕ}

/-- `NegativeValuePenalty`, pf/negative_value_penalty.go:8-12. -/
structure NegativeValuePenalty where
  prefactor : ℝ
  exponent : ℕ
  field : Str

/-- `Evaluate`, pf/negative_value_penalty.go:24-26: only the real part of the field is used. -/
noncomputable def NegativeValuePenalty.evaluate (p : NegativeValuePenalty) (b : Bricks n) : Data n := fun i =>
  ((penalty p.prefactor p.exponent (b p.field i).re : ℝ) : ℂ)

/-- `NewDefaultNegativeValuePenalty`, pf/negative_value_penalty.go:33-39. -/
def newDefaultNegativeValuePenalty (field : Str) : NegativeValuePenalty := ⟨1500, 3, field⟩

/-- A model with one field, and the penalty registered for it under some name with `RegisterFunction`,
pf/model.go:141-144, 400-418. -/
noncomputable def penaltyModel (n : ℕ) (p : NegativeValuePenalty) (name : Str) : EqModel n :=
  (EqModel.empty.addField p.field).registerFunction name p.evaluate

end Gopf.Pf
