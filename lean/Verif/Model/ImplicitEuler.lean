import Verif.Model.Stepper

/-!
# Model of `pf/implicitEuler.go`

The Newton-Krylov method (package gononlin) is not modelled: it is a parameter `solve` that maps a
function and a starting point to some point. Evaluating the function overwrites the fields and the
derived fields of the model; every evaluation starts by setting all of them again, so the model
evaluates the function always on the store that the explicit predictor leaves behind (`c158_refines`).
`homotopyUpdate` and `isImag` are never called and are not modelled.
-/

namespace Gopf.Pf
open Pfutil

variable {nf nd n : ℕ}

/-- A vector handed to the non-linear solver. It has `nf * n` entries (`x0`, pf/implicitEuler.go:168);
the model leaves the entries beyond that alone. -/
abbrev SolverVec (K : Type) := ℕ → K

/-- `fieldData2vec`, pf/implicitEuler.go:52-56, called with `out[offset:]`. -/
def fieldData2vec (data : Data n) (offset : ℕ) (out : SolverVec ℝ) : SolverVec ℝ :=
  (List.finRange n).foldl (fun out (j : Fin n) => Function.update out (offset + j.val) (data j).re) out

/-- `fields2vec`, pf/implicitEuler.go:46-50. -/
def fields2vec (fields : Fin nf → Data n) (out : SolverVec ℝ) : SolverVec ℝ :=
  (List.finRange nf).foldl (fun out (i : Fin nf) => fieldData2vec (fields i) (i.val * n) out) out

/-- `vec2fields`, pf/implicitEuler.go:58-66; the state is the counter and the fields. -/
def vec2fields (vec : SolverVec ℝ) (fields : Fin nf → Data n) : Fin nf → Data n :=
  ((List.finRange nf).foldl (fun (p : ℕ × (Fin nf → Data n)) (i : Fin nf) =>
    (List.finRange n).foldl (fun (p : ℕ × (Fin nf → Data n)) (j : Fin n) =>
      (p.1 + 1, Function.update p.2 i (Function.update (p.2 i) j ((vec p.1 : ℝ) : ℂ)))) p) (0, fields)).2

/-- `nonlinearIntegral`, pf/implicitEuler.go:151-162. -/
noncomputable def nonlinearIntegral (dt : ℝ) (denum rhs rhsPrev : ℂ) : ℂ :=
  let a := rhsPrev
  let b := (rhs - rhsPrev) / (dt : ℂ)
  let f := Complex.exp (denum * (dt : ℂ))
  if ‖denum‖ < 1 / 10 ^ 5 then 1 / 2 * (dt : ℂ) * (rhs + rhsPrev * f)
  else a * (f - 1) / denum + b * (f - denum * (dt : ℂ) - 1) / (denum * denum)

variable {dims : List ℕ}

/-- `ImplicitEuler.fft`, pf/implicitEuler.go:102-110. -/
noncomputable def ieFft (m : Model nf nd dims.prod) (st : Store nf nd dims.prod) :
    Store nf nd dims.prod := fftDerived (fftFields (m.sync st))

/-- `GetTime`, pf/implicitEuler.go:97-99. -/
def ieTime {n : ℕ} (s : Stepper n) : ℝ := s.dt * s.currentStep

/-- The result written by `updateEquation`, pf/implicitEuler.go:68-94. -/
noncomputable def updateEquation (m : Model nf nd dims.prod) (s : Stepper dims.prod)
    (rhsPrev : SolverVec ℂ) (orig : Fin nf → Data dims.prod) (st : Store nf nd dims.prod)
    (newFields out : SolverVec ℝ) : SolverVec ℝ :=
  let st1 := ieFft m { st with fields := vec2fields newFields st.fields }
  (List.finRange nf).foldl (fun out (i : Fin nf) =>
    let rhs := m.getRHS i st1 s.freq (ieTime s)
    let denum := m.getDenum i st1 s.freq (ieTime s)
    let r : Data dims.prod := fun j =>
      let factor := Complex.exp (denum j * (s.dt : ℂ))
      let integral := nonlinearIntegral s.dt (denum j) (rhs j) (rhsPrev (i.val * dims.prod + j.val))
      st1.fields i j - (orig i j * factor + integral)
    fieldData2vec (divRealScalar (ifft dims r) (dims.prod : ℕ)) (i.val * dims.prod) out) out

/-- `rhsPrev` of `Step`, pf/implicitEuler.go:172-177: the right-hand sides copied one after the other. -/
noncomputable def collectRHS (m : Model nf nd n) (s : Stepper n) (st : Store nf nd n) : SolverVec ℂ :=
  (List.finRange nf).foldl (fun out (i : Fin nf) =>
    (List.finRange n).foldl (fun (out : SolverVec ℂ) (j : Fin n) =>
      Function.update out (i.val * n + j.val) (m.getRHS i st s.freq (ieTime s) j)) out) (fun _ => 0)

/-- The equation handed to the non-linear solver in `Step`, pf/implicitEuler.go:166-194: the function
`problem.F` and the starting point `x0`. `zeros` is the content of the array `out` the solver passes. -/
noncomputable def ieProblem (m : Model nf nd dims.prod) (s : Stepper dims.prod)
    (st : Store nf nd dims.prod) (zeros : SolverVec ℝ) :
    (SolverVec ℝ → SolverVec ℝ) × Store nf nd dims.prod :=
  let st1 := ieFft m st
  let orig := st1.fields
  let rhsPrev := collectRHS m s st1
  let st2 := ifftFields st1
  let st3 := eulerStepAt m s s.getTime st2
  (fun x => updateEquation m s rhsPrev orig st3 x zeros, st3)

/-- `ImplicitEuler.Step`, pf/implicitEuler.go:165-207. -/
noncomputable def ieStep (solve : (SolverVec ℝ → SolverVec ℝ) → SolverVec ℝ → SolverVec ℝ)
    (m : Model nf nd dims.prod) (p : Stepper dims.prod × Store nf nd dims.prod) :
    Stepper dims.prod × Store nf nd dims.prod :=
  let pr := ieProblem m p.1 p.2 (fun _ => 0)
  let x := solve pr.1 (fields2vec pr.2.fields (fun _ => 0))
  ({ p.1 with currentStep := p.1.currentStep + 1 },
    { pr.2 with fields := vec2fields x pr.2.fields })

end Gopf.Pf
