import Verif.Props.ImplicitSolver

/-!
# C158: what the implicit stepper leaves in the derived fields
-/

namespace Gopf.Props
open Spec Pfutil Pf

variable {nf nd : ℕ} {dims : List ℕ}

/-- The last point at which the program evaluates its function, if there is one. -/
def lastTried (F : SolverVec ℝ → SolverVec ℝ) : SolverProg → Option (SolverVec ℝ)
  | .done _ => none
  | .eval x next => some ((lastTried F (next (F x))).getD x)

/-- The fields a point of the solver stands for: one after the other, node by node. -/
def fieldsOf (x : SolverVec ℝ) (i : Fin nf) (j : Fin dims.prod) : ℂ := ((x (i.val * dims.prod + j.val) : ℝ) : ℂ)

theorem vec2fields_fieldsOf (x : SolverVec ℝ) (f : Fin nf → Data dims.prod) : vec2fields x f = fieldsOf x := by
  funext i j
  rw [vec2fields_apply x f (i, j)]
  rfl

theorem run_memory (m : Model nf nd dims.prod) (h : InOrder m) (s : Stepper dims.prod) (rhsPrev : SolverVec ℂ)
    (orig : Fin nf → Data dims.prod) (st0 : Store nf nd dims.prod) (prog : SolverProg) : ∀ st,
    (lastTried (fun x => updateEquation m s rhsPrev orig st0 x fun _ => 0) prog = none → (prog.run m s rhsPrev orig st).1 = st) ∧
    ∀ y, lastTried (fun x => updateEquation m s rhsPrev orig st0 x fun _ => 0) prog = some y →
      (prog.run m s rhsPrev orig st).1 = evalStore m st0 y := by
  induction prog with
  | done x => exact fun st => ⟨fun _ => rfl, fun y hy => by simp [lastTried] at hy⟩
  | eval x next ih =>
    intro st
    refine ⟨fun hy => by simp [lastTried] at hy, fun y hy => ?_⟩
    unfold SolverProg.run
    rw [(c158_function m h s rhsPrev orig st st0 x fun _ => 0).1]
    obtain ⟨i1, i2⟩ := ih (updateEquation m s rhsPrev orig st0 x fun _ => 0) (evalStore m st x)
    unfold lastTried at hy
    cases e : lastTried (fun x => updateEquation m s rhsPrev orig st0 x fun _ => 0)
        (next (updateEquation m s rhsPrev orig st0 x fun _ => 0)) with
    | none =>
      rw [i1 e, (c158_function m h s rhsPrev orig st st0 x fun _ => 0).2]
      rw [e, Option.getD_none, Option.some.injEq] at hy
      rw [hy]
    | some z =>
      rw [i2 z e]
      rw [e, Option.getD_some, Option.some.injEq] at hy
      rw [hy]

/-- C158: after a step the derived fields of the model are neither those of the fields the step returns nor node values: they are
the transforms of the derived fields of the last point the solver tried. The fields are the point the solver returns. -/
theorem c158_left_behind (prog : SolverVec ℝ → SolverProg) (m : Model nf nd dims.prod) (h : InOrder m) (s : Stepper dims.prod)
    (st : Store nf nd dims.prod) (any : Fin nd → Data dims.prod) (y : SolverVec ℝ)
    (hy : lastTried (ieProblem m s st fun _ => 0).1 (prog (fields2vec (ieProblem m s st fun _ => 0).2.fields fun _ => 0)) = some y) :
    (∀ d, (ieStepIn prog m (s, st)).2.derived d = fft dims ((m.sync ⟨fieldsOf y, any⟩).derived d)) ∧
    (ieStepIn prog m (s, st)).2.fields = fieldsOf ((prog (fields2vec (ieProblem m s st fun _ => 0).2.fields fun _ => 0)).result
      (ieProblem m s st fun _ => 0).1) := by
  constructor
  · intro d
    have e := (run_memory m h s (collectRHS m s (ieFft m st)) (ieFft m st).fields (ieProblem m s st fun _ => 0).2
      (prog (fields2vec (ieProblem m s st fun _ => 0).2.fields fun _ => 0)) (ieProblem m s st fun _ => 0).2).2 y hy
    have e2 : (ieStepIn prog m (s, st)).2.derived d = (evalStore m (ieProblem m s st fun _ => 0).2 y).derived d := by
      rw [← e]
      rfl
    rw [e2]
    unfold evalStore ieFft
    rw [vec2fields_fieldsOf, c157_unique m h _ _ any]
    rfl
  · have e := (c158_refines prog m h 1 (s, st)).2
    have e1 : (ieRunIn prog m 1 (s, st)) = ieStepIn prog m (s, st) := rfl
    have e2 : (ieRun (fun F x0 => (prog x0).result F) m 1 (s, st)) = ieStep (fun F x0 => (prog x0).result F) m (s, st) := rfl
    rw [e1, e2] at e
    rw [e]
    exact vec2fields_fieldsOf _ _

/-- The solver of the example above tries the guess minus its residual last, and returns another point. -/
example (F : SolverVec ℝ → SolverVec ℝ) (x0 : SolverVec ℝ) :
    lastTried F (.eval x0 fun r => .eval (fun j => x0 j - r j) fun r' => .done fun j => x0 j - r j - r' j) =
      some fun j => x0 j - F x0 j := rfl

end Gopf.Props
