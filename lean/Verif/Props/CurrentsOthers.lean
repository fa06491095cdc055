import Verif.Props.Currents
import Verif.Props.DerivedOrder

/-!
# C129: the other derived fields of a model with conservative noise
-/

namespace Gopf.Props
open Spec Pfutil Pf

variable {n : ℕ}

theorem currentDraws_other {u dim : ℕ} {name : Str} (h : ∀ c < dim, name ≠ currentName u c) (noise : ℕ → Data n) :
    currentDraws u dim noise name = none := by
  unfold currentDraws
  rw [List.lookup_eq_none_iff]
  intro p hp
  obtain ⟨c, hc, rfl⟩ := List.mem_map.mp hp
  simpa using h c (List.mem_range.mp hc)

/-- C129: if every derived field uses only fields and derived fields registered before it, the noise is written to the currents
and to nothing else: every other derived field is what its function gives for the fields and the derived fields of the step, the noise
among them. -/
theorem c129_others (b : Bench n) (rhs : Fin b.fields.length → BuiltRHS n) (h : InOrder (b.toModel rhs)) (u dim : ℕ)
    (noise : ℕ → Data n) (st : Store b.fields.length b.derived.length n) (d : Fin b.derived.length) :
    (∀ c < dim, (b.derived[d]).1 = currentName u c →
      ((b.drawn rhs (currentDraws u dim noise)).sync st).derived d = noise c) ∧
    ((∀ c < dim, (b.derived[d]).1 ≠ currentName u c) →
      ((b.drawn rhs (currentDraws u dim noise)).sync st).derived d =
        (b.toModel rhs).calcs d ((b.drawn rhs (currentDraws u dim noise)).sync st)) := by
  have hin : InOrder (b.drawn rhs (currentDraws u dim noise)) := by
    intro d st st' h1 h2
    show (currentDraws u dim noise (b.derived[d]).1).getD _ = (currentDraws u dim noise (b.derived[d]).1).getD _
    rw [h d st st' h1 h2]
  refine ⟨fun c hc e => ?_, fun e => ?_⟩
  · rw [c157_values _ hin]
    show (currentDraws u dim noise (b.derived[d]).1).getD _ = _
    rw [e, currentDraws_own hc]
    rfl
  · refine (c157_values _ hin st d).trans ?_
    show (currentDraws u dim noise (b.derived[d]).1).getD _ = _
    rw [currentDraws_other e]
    rfl

/-- A model with a current and a function of the field. -/
example (conc g : Str) (hg : g ≠ currentName 7 0) : ∃ b : Bench 12, ∃ d e : Fin b.derived.length,
    (b.derived[d]).1 = currentName 7 0 ∧ ∀ c < 1, (b.derived[e]).1 ≠ currentName 7 c := by
  refine ⟨((Bench.empty.addField conc).registerDerivedField g (reader conc)).registerDerivedField (currentName 7 0) (fun _ => fun _ => 0),
    ⟨1, (by decide : 1 < 2)⟩, ⟨0, (by decide : 0 < 2)⟩, rfl, fun c hc => ?_⟩
  obtain rfl : c = 0 := by omega
  exact hg

end Gopf.Props
