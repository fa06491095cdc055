import Verif.Model.ImplicitSolver
import Verif.Proofs.ImplicitEuler
import Verif.Props.DerivedOrder

/-!
# C158: the function the implicit stepper hands to its solver
-/

namespace Gopf.Props
open Spec Pfutil Pf
open scoped BigOperators

variable {nf nd n : ℕ} {dims : List ℕ}

/-! ### A function of its argument -/

private theorem vec2fields_any (x : SolverVec ℝ) (f f' : Fin nf → Data n) : vec2fields x f = vec2fields x f' := by
  funext i j
  rw [vec2fields_apply x f (i, j), vec2fields_apply x f' (i, j)]

/-- C158: if every derived field uses only fields and derived fields registered before it, the function handed to the
solver gives the same, and leaves the same behind, whatever was in the memory of the model. -/
theorem c158_function (m : Model nf nd dims.prod) (h : InOrder m) (s : Stepper dims.prod) (rhsPrev : SolverVec ℂ)
    (orig : Fin nf → Data dims.prod) (st st' : Store nf nd dims.prod) (x out : SolverVec ℝ) :
    updateEquation m s rhsPrev orig st x out = updateEquation m s rhsPrev orig st' x out ∧
    evalStore m st x = evalStore m st' x := by
  have e : evalStore m st x = evalStore m st' x := by
    unfold evalStore ieFft
    rw [vec2fields_any x st.fields st'.fields, c157_unique m h _ st.derived st'.derived]
  refine ⟨?_, e⟩
  unfold evalStore at e
  unfold updateEquation
  rw [e]

/-- C158: it also does not matter what was in the array for the result: all of its entries are set. -/
theorem c158_out (m : Model nf nd dims.prod) (s : Stepper dims.prod) (rhsPrev : SolverVec ℂ)
    (orig : Fin nf → Data dims.prod) (st : Store nf nd dims.prod) (x out out' : SolverVec ℝ) (j : ℕ)
    (hj : j < nf * dims.prod) :
    updateEquation m s rhsPrev orig st x out j = updateEquation m s rhsPrev orig st x out' j := by
  have hN : 0 < dims.prod := Nat.pos_of_ne_zero (by rintro h; rw [h] at hj; simp at hj)
  have e : j = flatIdx ((⟨j / dims.prod, Nat.div_lt_of_lt_mul (by rwa [mul_comm])⟩ : Fin nf),
      (⟨j % dims.prod, Nat.mod_lt _ hN⟩ : Fin dims.prod)) := by
    unfold flatIdx
    exact (Nat.div_add_mod' j dims.prod).symm
  rw [e, updateEquation_apply, updateEquation_apply]

private theorem run_result (m : Model nf nd dims.prod) (h : InOrder m) (s : Stepper dims.prod) (rhsPrev : SolverVec ℂ)
    (orig : Fin nf → Data dims.prod) (st0 : Store nf nd dims.prod) (prog : SolverProg) :
    ∀ st, (prog.run m s rhsPrev orig st).2 =
      prog.result fun x => updateEquation m s rhsPrev orig st0 x fun _ => 0 := by
  induction prog with
  | done x => intro st; rfl
  | eval x next ih =>
    intro st
    unfold SolverProg.run SolverProg.result
    rw [ih, (c158_function m h s rhsPrev orig st st0 x fun _ => 0).1]

private theorem ieStepIn_fields (prog : SolverVec ℝ → SolverProg) (m : Model nf nd dims.prod) (h : InOrder m)
    (s : Stepper dims.prod) (st st' : Store nf nd dims.prod) (hf : st.fields = st'.fields) :
    (ieStepIn prog m (s, st)).1 = (ieStep (fun F x0 => (prog x0).result F) m (s, st')).1 ∧
    (ieStepIn prog m (s, st)).2.fields = (ieStep (fun F x0 => (prog x0).result F) m (s, st')).2.fields := by
  have hs : m.sync st = m.sync st' := by
    cases st
    cases st'
    simp only at hf
    rw [hf]
    exact c157_unique m h _ _ _
  refine ⟨rfl, ?_⟩
  unfold ieStepIn ieStep ieProblem ieFft
  dsimp only
  rw [hs, run_result m h _ _ _ (eulerStepAt m s s.getTime (ifftFields (fftDerived (fftFields (m.sync st')))))]
  exact vec2fields_any _ _ _

/-- C158: then the steps are those with a function without memory (C76), for every solver that finds its way by
evaluating the function, and for any number of steps. -/
theorem c158_refines (prog : SolverVec ℝ → SolverProg) (m : Model nf nd dims.prod) (h : InOrder m) (k : ℕ)
    (p : Stepper dims.prod × Store nf nd dims.prod) :
    (ieRunIn prog m k p).1 = (ieRun (fun F x0 => (prog x0).result F) m k p).1 ∧
    (ieRunIn prog m k p).2.fields = (ieRun (fun F x0 => (prog x0).result F) m k p).2.fields := by
  induction k with
  | zero => exact ⟨rfl, rfl⟩
  | succ k ih =>
    unfold ieRunIn ieRun at ih ⊢
    rw [List.range_succ, List.foldl_append, List.foldl_append]
    simp only [List.foldl_cons, List.foldl_nil]
    generalize (List.range k).foldl (fun p _ => ieStepIn prog m p) p = q at ih ⊢
    generalize (List.range k).foldl (fun p _ => ieStep (fun F x0 => (prog x0).result F) m p) p = q' at ih ⊢
    obtain ⟨s, st⟩ := q
    obtain ⟨s', st'⟩ := q'
    obtain ⟨h1, h2⟩ := ih
    dsimp only at h1 h2
    rw [h1]
    exact ieStepIn_fields prog m h s' st st' h2

/-- C158: this includes all models whose derived fields read fields only, as those made from the text of equations. -/
theorem c158_fields_only (m : Model nf nd n) (h : FieldsOnly m) : InOrder m := fun d st st' hf _ => h d st st' hf

/-- A solver that follows its results: evaluate at the guess, evaluate at the guess minus the residual, return the
latter minus its residual. -/
example : ∃ prog : SolverVec ℝ → SolverProg, ∀ F x0, (prog x0).result F =
    fun j => x0 j - F x0 j - F (fun j => x0 j - F x0 j) j :=
  ⟨fun x0 => .eval x0 fun r => .eval (fun j => x0 j - r j) fun r' => .done fun j => x0 j - r j - r' j, fun _ _ => rfl⟩

example (conc g h : Str) (hne : g ≠ h) (rhs : Fin (readerLast [4, 3].prod conc g h).fields.length → BuiltRHS [4, 3].prod) :
    InOrder ((readerLast [4, 3].prod conc g h).toModel rhs) := c157_in_order conc g h hne rhs

/-! ### Not a function of its argument -/

/-- A function `g` that returns `h`, which is registered later and is the field. -/
def copyLast (n : ℕ) (conc g h : Str) : Bench n :=
  ((Bench.empty.addField conc).registerDerivedField g (reader h)).registerDerivedField h (reader conc)

private theorem copy_residual (hpos : ∀ d ∈ dims, 0 < d) (conc g h : Str) (hgh : g ≠ h) (hcg : conc ≠ g)
    (hch : conc ≠ h) (rhs : Fin (copyLast dims.prod conc g h).fields.length → BuiltRHS dims.prod)
    (hr : EquationIs (copyLast dims.prod conc g h) g rhs) (s : Stepper dims.prod) (rhsPrev : SolverVec ℂ)
    (orig : Fin (copyLast dims.prod conc g h).fields.length → Data dims.prod)
    (st : Store (copyLast dims.prod conc g h).fields.length (copyLast dims.prod conc g h).derived.length dims.prod)
    (x out : SolverVec ℝ) : ∃ c : ℂ, ∀ y : SolverVec ℝ,
    updateEquation ((copyLast dims.prod conc g h).toModel rhs) s rhsPrev orig
        (evalStore ((copyLast dims.prod conc g h).toModel rhs) st y) x out 0 =
      (c - (s.dt / 2 : ℂ) * ∑ j : Fin dims.prod, ((y j.val : ℝ) : ℂ)).re := by
  have hN : 0 < dims.prod := Nat.pos_of_ne_zero (by
    rw [Ne, List.prod_eq_zero_iff]; intro hm; exact absurd (hpos 0 hm) (by omega))
  have hNC : ((dims.prod : ℕ) : ℂ) ≠ 0 := Nat.cast_ne_zero.mpr hN.ne'
  have hlg : (copyLast dims.prod conc g h).bricks.lookup g = some (.derived 0) := by
    show List.lookup g ((h, Ref.derived 1) :: (g, Ref.derived 0) :: _) = _
    have : (g == h) = false := by simpa using hgh
    rw [List.lookup_cons, this, List.lookup_cons]
    simp
  have hlh : (copyLast dims.prod conc g h).bricks.lookup h = some (.derived 1) := by
    show List.lookup h ((h, Ref.derived 1) :: _) = _
    rw [List.lookup_cons]
    simp
  have hlc : (copyLast dims.prod conc g h).bricks.lookup conc = some (.field 0) := by
    show List.lookup conc ((h, Ref.derived 1) :: (g, Ref.derived 0) :: (conc, Ref.field 0) :: []) = _
    have h1 : (conc == h) = false := by simpa using hch
    have h2 : (conc == g) = false := by simpa using hcg
    rw [List.lookup_cons, h1, List.lookup_cons, h2, List.lookup_cons]
    simp
  have hsync1 : ∀ st, (((copyLast dims.prod conc g h).toModel rhs).sync st).derived ⟨1, (by decide : 1 < 2)⟩ =
      st.fields ⟨0, (by decide : 0 < 1)⟩ := by
    intro st
    rw [sync_derived]
    show (copyLast dims.prod conc g h).named _ conc = _
    unfold Bench.named
    rw [hlc]
    rfl
  have hsync0 : ∀ st, (((copyLast dims.prod conc g h).toModel rhs).sync st).derived ⟨0, (by decide : 0 < 2)⟩ =
      st.derived ⟨1, (by decide : 1 < 2)⟩ := by
    intro st
    rw [sync_derived]
    show (copyLast dims.prod conc g h).named _ h = _
    unfold Bench.named
    rw [hlh]
    show (midSync _ st ⟨0, (by decide : 0 < 2)⟩).derived ⟨1, (by decide : 1 < 2)⟩ = _
    unfold midSync
    dsimp only
    rw [if_neg (by rw [Fin.lt_def]; show ¬(1 : ℕ) < 0; omega)]
  obtain ⟨bb, hbb⟩ : ∃ bb : Data dims.prod, fft dims bb = fun k : Fin dims.prod =>
      fft dims (vec2fields x st.fields ⟨0, (by decide : 0 < 1)⟩) k -
        (orig ⟨0, (by decide : 0 < 1)⟩ k + 1 / 2 * (s.dt : ℂ) * rhsPrev k.val) := ⟨_, fft_surjective hpos _⟩
  refine ⟨bb ⟨0, hN⟩, fun y => ?_⟩
  have e0 : (0 : ℕ) = flatIdx ((⟨0, (by decide : 0 < 1)⟩ : Fin (copyLast dims.prod conc g h).fields.length),
      (⟨0, hN⟩ : Fin dims.prod)) := by
    unfold flatIdx
    simp
  have hev : (evalStore ((copyLast dims.prod conc g h).toModel rhs) st y).derived ⟨1, (by decide : 1 < 2)⟩ =
      fft dims (vec2fields y st.fields ⟨0, (by decide : 0 < 1)⟩) := by
    show fft dims ((((copyLast dims.prod conc g h).toModel rhs).sync _).derived ⟨1, (by decide : 1 < 2)⟩) = _
    rw [hsync1]
  generalize evalStore ((copyLast dims.prod conc g h).toModel rhs) st y = st' at hev ⊢
  have hres : residualSpectrum ((copyLast dims.prod conc g h).toModel rhs) s rhsPrev orig
      (ieFft ((copyLast dims.prod conc g h).toModel rhs) { st' with fields := vec2fields x st'.fields })
      ⟨0, (by decide : 0 < 1)⟩ = fft dims fun z => bb z - (s.dt / 2 : ℂ) *
        fft dims (vec2fields y st.fields ⟨0, (by decide : 0 < 1)⟩) z := by
    funext k
    rw [fft_sub, fft_smul, hbb]
    unfold residualSpectrum
    have hd : ((copyLast dims.prod conc g h).toModel rhs).getDenum ⟨0, (by decide : 0 < 1)⟩
        (ieFft ((copyLast dims.prod conc g h).toModel rhs) { st' with fields := vec2fields x st'.fields }) s.freq
        (ieTime s) k = 0 := by
      rw [c21_denum]
      show (((rhs _).denum.map _).map _).sum = _
      rw [(hr _).1]
      rfl
    have hg : ((copyLast dims.prod conc g h).toModel rhs).getRHS ⟨0, (by decide : 0 < 1)⟩
        (ieFft ((copyLast dims.prod conc g h).toModel rhs) { st' with fields := vec2fields x st'.fields }) s.freq
        (ieTime s) k = fft dims (fft dims (vec2fields y st.fields ⟨0, (by decide : 0 < 1)⟩)) k := by
      rw [c21_rhs]
      show (((rhs _).terms.map _).map _).sum + 0 = _
      rw [List.map_map, add_zero]
      refine ((hr _).2 ((copyLast dims.prod conc g h).named _) s.freq (ieTime s) k).trans ?_
      unfold Bench.named
      rw [hlg]
      show fft dims ((((copyLast dims.prod conc g h).toModel rhs).sync _).derived ⟨0, (by decide : 0 < 2)⟩) k = _
      rw [hsync0]
      show fft dims (st'.derived _) k = _
      rw [hev]
    have hf : (ieFft ((copyLast dims.prod conc g h).toModel rhs)
        { st' with fields := vec2fields x st'.fields }).fields ⟨0, (by decide : 0 < 1)⟩ =
        fft dims (vec2fields x st.fields ⟨0, (by decide : 0 < 1)⟩) := by
      rw [vec2fields_any x st.fields st'.fields]
      exact spectral_fields _ _ _
    rw [hd, hg, hf]
    unfold nonlinearIntegral
    dsimp only
    rw [if_pos (by rw [norm_zero]; norm_num)]
    simp only [zero_mul, Complex.exp_zero, mul_one, zero_add]
    ring
  refine (congrArg (updateEquation _ s rhsPrev orig st' x out) e0).trans ?_
  rw [updateEquation_apply, hres]
  unfold divRealScalar
  dsimp only
  rw [ifft_fft hpos, Complex.ofReal_natCast, mul_div_cancel_left₀ _ hNC, fft_zero_bin _ _ rfl]
  congr 4
  funext j
  rw [vec2fields_apply y st.fields (⟨0, (by decide : 0 < 1)⟩, j)]
  unfold flatIdx
  simp

/-- C158: with the equation `dconc/dt = g` what the function handed to the solver gives for `x` depends on the point
where it was evaluated before. -/
theorem c158_history (hpos : ∀ d ∈ dims, 0 < d) (conc g h : Str) (hgh : g ≠ h) (hcg : conc ≠ g) (hch : conc ≠ h)
    (rhs : Fin (copyLast dims.prod conc g h).fields.length → BuiltRHS dims.prod)
    (hr : EquationIs (copyLast dims.prod conc g h) g rhs) (s : Stepper dims.prod) (rhsPrev : SolverVec ℂ)
    (orig : Fin (copyLast dims.prod conc g h).fields.length → Data dims.prod)
    (st : Store (copyLast dims.prod conc g h).fields.length (copyLast dims.prod conc g h).derived.length dims.prod)
    (x y y' out : SolverVec ℝ) :
    updateEquation ((copyLast dims.prod conc g h).toModel rhs) s rhsPrev orig
        (evalStore ((copyLast dims.prod conc g h).toModel rhs) st y) x out 0 -
      updateEquation ((copyLast dims.prod conc g h).toModel rhs) s rhsPrev orig
        (evalStore ((copyLast dims.prod conc g h).toModel rhs) st y') x out 0 =
      -(s.dt / 2) * ∑ j : Fin dims.prod, (y j.val - y' j.val) := by
  obtain ⟨c, hc⟩ := copy_residual hpos conc g h hgh hcg hch rhs hr s rhsPrev orig st x out
  rw [hc y, hc y', Finset.sum_sub_distrib]
  have e : ((s.dt : ℂ) / 2) = ((s.dt / 2 : ℝ) : ℂ) := by push_cast; ring
  have e2 : ∀ w : SolverVec ℝ, (∑ j : Fin dims.prod, ((w j.val : ℝ) : ℂ)) = ((∑ j : Fin dims.prod, w j.val : ℝ) : ℂ) :=
    fun w => by rw [Complex.ofReal_sum]
  rw [e, e2, e2, ← Complex.ofReal_mul, ← Complex.ofReal_mul, Complex.sub_re, Complex.sub_re, Complex.ofReal_re,
    Complex.ofReal_re]
  ring

example : "conc".toList ≠ "GFUN".toList ∧ "conc".toList ≠ "HFUN".toList ∧ "GFUN".toList ≠ "HFUN".toList := by decide

end Gopf.Props
