import Verif.Props.Prepare
import Verif.Props.Uniform

/-!
# C157: functions that use other functions
-/

namespace Gopf.Spec
open Pf

/-- Every derived field is computed from fields and from derived fields registered before it. -/
def InOrder {nf nd n : ℕ} (m : Model nf nd n) : Prop :=
  ∀ (d : Fin nd) (st st' : Store nf nd n), st.fields = st'.fields → (∀ e < d, st.derived e = st'.derived e) →
    m.calcs d st = m.calcs d st'

end Gopf.Spec

namespace Gopf.Props
open Spec Pfutil Pf
open scoped BigOperators

variable {nf nd n : ℕ} {dims : List ℕ}

/-! ### Registered in the right order -/

/-- C157: if every derived field uses only fields and derived fields registered before it, then after
`SyncDerivedFields` every derived field is what its function gives for the present values of all of them. -/
theorem c157_values (m : Model nf nd n) (h : InOrder m) (st : Store nf nd n) (d : Fin nd) :
    (m.sync st).derived d = m.calcs d (m.sync st) := by
  rw [sync_derived]
  refine h d _ _ (sync_fields m st).symm fun e he => ?_
  unfold midSync
  exact if_pos he

/-- C157: these values are determined by the fields; it does not matter what was in the derived fields before. -/
theorem c157_unique (m : Model nf nd n) (h : InOrder m) (fields : Fin nf → Data n) (D D' : Fin nd → Data n) :
    m.sync ⟨fields, D⟩ = m.sync ⟨fields, D'⟩ := by
  have key : ∀ k : ℕ, ∀ d : Fin nd, d.val < k → (m.sync ⟨fields, D⟩).derived d = (m.sync ⟨fields, D'⟩).derived d := by
    intro k
    induction k with
    | zero => intro d hd; omega
    | succ k ih =>
      intro d hd
      rw [c157_values m h, c157_values m h]
      exact h d _ _ (by rw [sync_fields, sync_fields]) fun e he => ih e (by have := Fin.lt_def.mp he; omega)
  have e1 := sync_fields m ⟨fields, D⟩
  have e2 := sync_fields m ⟨fields, D'⟩
  have e3 : (m.sync ⟨fields, D⟩).derived = (m.sync ⟨fields, D'⟩).derived := funext fun d => key (d.val + 1) d (by omega)
  generalize m.sync ⟨fields, D⟩ = x at e1 e3 ⊢
  generalize m.sync ⟨fields, D'⟩ = y at e2 e3 ⊢
  cases x
  cases y
  simp only at e1 e2 e3
  rw [e1, e2, e3]

/-- C157: the fields after any number of steps are determined by the fields at the start. -/
theorem c157_history (m : Model nf nd dims.prod) (h : InOrder m) (s : Stepper dims.prod)
    (fields : Fin nf → Data dims.prod) (D D' : Fin nd → Data dims.prod) (k : ℕ) :
    (eulerPropagate m k (s, ⟨fields, D⟩)).2.fields = (eulerPropagate m k (s, ⟨fields, D'⟩)).2.fields ∧
    (rk4Propagate m k (s, ⟨fields, D⟩)).2.fields = (rk4Propagate m k (s, ⟨fields, D'⟩)).2.fields := by
  cases k with
  | zero => exact ⟨rfl, rfl⟩
  | succ k =>
    have hs := c157_unique m h fields D D'
    constructor
    · unfold eulerPropagate
      rw [List.range_succ_eq_map, List.foldl_cons, List.foldl_cons]
      have : eulerStep m (s, ⟨fields, D⟩) = eulerStep m (s, ⟨fields, D'⟩) := by
        unfold eulerStep eulerStepAt
        dsimp only
        rw [hs]
      rw [this]
    · unfold rk4Propagate
      rw [List.range_succ_eq_map, List.foldl_cons, List.foldl_cons]
      have : rk4Step m (s, ⟨fields, D⟩) = rk4Step m (s, ⟨fields, D'⟩) := by
        unfold rk4Step rk4StepStore
        dsimp only
        rw [hs]
      dsimp only
      rw [this]

/-! ### Registered in another order -/

private theorem left_fold (m : Model nf nd n) (s : Stepper n) (t : ℝ) (l : List (Fin nf)) (st : Store nf nd n) :
    (l.foldl (eulerField m s t) st).derived = st.derived := by
  induction l generalizing st with
  | nil => rfl
  | cons a l ih => rw [List.foldl_cons, ih]; rfl

private theorem left_euler (m : Model nf nd dims.prod) (s : Stepper dims.prod) (t : ℝ) (st : Store nf nd dims.prod)
    (e : Fin nd) : (eulerStepAt m s t st).derived e = fft dims ((m.sync st).derived e) := by
  unfold eulerStepAt ifftFields
  dsimp only
  rw [left_fold]
  rfl

/-- C157: what a function sees. In the step after a step of the Euler method: the present fields, the present values of
the derived fields registered before it, and of itself and those registered after it the transform of the values they
had in the step before. In the first step the latter are what `Init` left. -/
theorem c157_seen (m : Model nf nd dims.prod) (s : Stepper dims.prod) (t : ℝ) (st : Store nf nd dims.prod) (d : Fin nd) :
    (m.sync st).derived d =
      m.calcs d ⟨st.fields, fun e => if e < d then (m.sync st).derived e else st.derived e⟩ ∧
    ∀ st', st' = eulerStepAt m s t st → (m.sync st').derived d =
      m.calcs d ⟨st'.fields, fun e => if e < d then (m.sync st').derived e else fft dims ((m.sync st).derived e)⟩ := by
  refine ⟨sync_derived m st d, ?_⟩
  rintro st' rfl
  rw [sync_derived]
  unfold midSync
  congr 2
  funext e
  rw [left_euler]

private theorem left_rk (m : Model nf nd n) (s : Stepper n) (final : Fin nf → Data n) (l : List (Fin nf))
    (st : Store nf nd n) :
    (l.foldl (fun (stc : Store nf nd n) i =>
      let denum := m.getDenum i stc s.freq s.getTime
      let d : Data n := fun j => final i j / (1 - (s.dt : ℂ) * denum j)
      { stc with fields := Function.update stc.fields i (optFilter s.filter s.freq d) }) st).derived = st.derived := by
  induction l generalizing st with
  | nil => rfl
  | cons a l ih => rw [List.foldl_cons, ih]

/-- C157: the same for the Runge-Kutta method: what is left in the derived fields is the transform of the values in
the last stage. -/
theorem c157_seen_rk4 (m : Model nf nd dims.prod) (s : Stepper dims.prod) (st : Store nf nd dims.prod) :
    ∃ st4 : Store nf nd dims.prod, ∀ st', st' = rk4StepStore m s st → ∀ d, (m.sync st').derived d =
      m.calcs d ⟨st'.fields, fun e => if e < d then (m.sync st').derived e else fft dims ((m.sync st4).derived e)⟩ := by
  have : ∃ st4 : Store nf nd dims.prod, ∀ e, (rk4StepStore m s st).derived e = fft dims ((m.sync st4).derived e) := by
    unfold rk4StepStore rk4Correction ifftFields
    dsimp only
    rw [left_rk]
    exact ⟨_, fun e => rfl⟩
  obtain ⟨st4, h4⟩ := this
  refine ⟨st4, ?_⟩
  rintro st' rfl d
  rw [sync_derived]
  unfold midSync
  congr 2
  funext e
  rw [h4]

/-! ### A function that uses another one -/

/-- A function that returns what another brick holds, at every node. -/
def reader (h : Str) : Calculator n := fun _ u => u h

/-- A function that is one everywhere. -/
def one : Calculator n := fun _ _ _ => 1

/-- The one that uses the other registered first. -/
def readerFirst (n : ℕ) (conc g h : Str) : Bench n :=
  ((Bench.empty.addField conc).registerDerivedField g (reader h)).registerDerivedField h one

/-- The one that uses the other registered last. -/
def readerLast (n : ℕ) (conc g h : Str) : Bench n :=
  ((Bench.empty.addField conc).registerDerivedField h one).registerDerivedField g (reader h)

/-- What `NewSolver` makes of a field: `Init` computes the derived fields once, from zeros. -/
def started (b : Bench n) (rhs : Fin b.fields.length → BuiltRHS n) (fields : Fin b.fields.length → Data n) :
    Store b.fields.length b.derived.length n :=
  (b.toModel rhs).sync ⟨fields, fun _ _ => 0⟩

/-- The equation `dconc/dt = g`. -/
def EquationIs (b : Bench n) (g : Str) (rhs : Fin b.fields.length → BuiltRHS n) : Prop :=
  ∀ i, (rhs i).denum = [] ∧ ∀ u freq t k, ((rhs i).terms.map fun f => f u freq t k).sum = u g k

/-- One step without filter adds `dt` times what the name stands for. -/
private theorem step_adds (hpos : ∀ d ∈ dims, 0 < d) (b : Bench dims.prod) (g : Str)
    (rhs : Fin b.fields.length → BuiltRHS dims.prod) (hr : EquationIs b g rhs) (d : ℕ) (hd : d < b.derived.length)
    (hg : b.bricks.lookup g = some (.derived d)) (s : Stepper dims.prod) (hs : s.filter = none) (t : ℝ)
    (st : Store b.fields.length b.derived.length dims.prod) (i : Fin b.fields.length) (x : Fin dims.prod) :
    (eulerStepAt (b.toModel rhs) s t st).fields i x =
      st.fields i x + (s.dt : ℂ) * ((b.toModel rhs).sync st).derived ⟨d, hd⟩ x := by
  obtain ⟨st', h1, h2⟩ := c121_step hpos b rhs i (hr i).1 (fun u _ _ => u g) (hr i).2 s t st
  have hn : b.named st' g = fft dims (((b.toModel rhs).sync st).derived ⟨d, hd⟩) := by
    unfold Bench.named
    rw [hg]
    unfold Bench.read
    dsimp only
    rw [dif_pos hd, h1]
    rfl
  rw [hs, hn] at h2
  have := fft_injective hpos (b := fun x => st.fields i x + (s.dt : ℂ) * ((b.toModel rhs).sync st).derived ⟨d, hd⟩ x)
    (a := (eulerStepAt (b.toModel rhs) s t st).fields i) (by
      rw [h2]
      funext k
      rw [fft_add, fft_smul]
      rfl)
  exact congrFun this x

private theorem run_succ (m : Model nf nd dims.prod) (k : ℕ) (p : Stepper dims.prod × Store nf nd dims.prod) :
    eulerPropagate m (k + 1) p = eulerStep m (eulerPropagate m k p) := by
  unfold eulerPropagate
  rw [List.range_succ, List.foldl_append]
  rfl

private theorem run_stepper (m : Model nf nd dims.prod) (k : ℕ) (p : Stepper dims.prod × Store nf nd dims.prod) :
    (eulerPropagate m k p).1.filter = p.1.filter ∧ (eulerPropagate m k p).1.dt = p.1.dt := by
  induction k with
  | zero => exact ⟨rfl, rfl⟩
  | succ k ih => rw [run_succ]; exact ih

/-- C157: `dconc/dt = g`, where `g` returns what `h` is and `h` is one. Registered in the order `h`, `g` the field grows
by `dt` in every step. -/
theorem c157_right_order (hpos : ∀ d ∈ dims, 0 < d) (conc g h : Str) (hne : g ≠ h)
    (rhs : Fin (readerLast dims.prod conc g h).fields.length → BuiltRHS dims.prod)
    (hr : EquationIs (readerLast dims.prod conc g h) g rhs) (s : Stepper dims.prod) (hs : s.filter = none)
    (fields : Fin (readerLast dims.prod conc g h).fields.length → Data dims.prod) (k : ℕ)
    (i : Fin (readerLast dims.prod conc g h).fields.length) (x : Fin dims.prod) :
    (eulerPropagate ((readerLast dims.prod conc g h).toModel rhs) k
      (s, started (readerLast dims.prod conc g h) rhs fields)).2.fields i x = fields i x + k * (s.dt : ℂ) := by
  have hlook : (readerLast dims.prod conc g h).bricks.lookup g = some (.derived 1) := by
    show List.lookup g ((g, Ref.derived 1) :: _) = _
    rw [List.lookup_cons]
    simp
  have hlook2 : (readerLast dims.prod conc g h).bricks.lookup h = some (.derived 0) := by
    show List.lookup h ((g, Ref.derived 1) :: (h, Ref.derived 0) :: _) = _
    have : (h == g) = false := by simpa using hne.symm
    rw [List.lookup_cons, this, List.lookup_cons]
    simp
  have hval : ∀ st, (((readerLast dims.prod conc g h).toModel rhs).sync st).derived ⟨1, (by decide : 1 < 2)⟩ =
      fun _ => 1 := by
    intro st
    rw [sync_derived]
    show (readerLast dims.prod conc g h).named _ h = _
    unfold Bench.named
    rw [hlook2]
    show (midSync _ st ⟨1, (by decide : 1 < 2)⟩).derived ⟨0, (by decide : 0 < 2)⟩ = _
    unfold midSync
    dsimp only
    rw [if_pos (by rw [Fin.lt_def]; show (0 : ℕ) < 1; omega), sync_derived]
    rfl
  induction k with
  | zero =>
    show (started _ rhs fields).fields i x = _
    unfold started
    rw [sync_fields]
    simp
  | succ k ih =>
    obtain ⟨h1, h2⟩ := run_stepper ((readerLast dims.prod conc g h).toModel rhs) k
      (s, started (readerLast dims.prod conc g h) rhs fields)
    rw [run_succ]
    unfold eulerStep
    dsimp only
    rw [step_adds hpos _ g rhs hr 1 (by decide : 1 < 2) hlook _ (h1.trans hs), ih, hval, h2]
    push_cast
    ring

/-- C157: registered in the order `g`, `h` the field grows by `dt` in the first step only; in every further step
it grows by `dt` times the number of nodes in the first node, and not at all elsewhere. -/
theorem c157_wrong_order (hpos : ∀ d ∈ dims, 0 < d) (conc g h : Str) (hne : g ≠ h)
    (rhs : Fin (readerFirst dims.prod conc g h).fields.length → BuiltRHS dims.prod)
    (hr : EquationIs (readerFirst dims.prod conc g h) g rhs) (s : Stepper dims.prod) (hs : s.filter = none)
    (fields : Fin (readerFirst dims.prod conc g h).fields.length → Data dims.prod) (k : ℕ)
    (i : Fin (readerFirst dims.prod conc g h).fields.length) (x : Fin dims.prod) :
    (eulerPropagate ((readerFirst dims.prod conc g h).toModel rhs) (k + 1)
      (s, started (readerFirst dims.prod conc g h) rhs fields)).2.fields i x =
      fields i x + (s.dt : ℂ) + k * (if x.val = 0 then (dims.prod : ℂ) * (s.dt : ℂ) else 0) := by
  have hlook : (readerFirst dims.prod conc g h).bricks.lookup g = some (.derived 0) := by
    show List.lookup g ((h, Ref.derived 1) :: (g, Ref.derived 0) :: _) = _
    have : (g == h) = false := by simpa using hne
    rw [List.lookup_cons, this, List.lookup_cons]
    simp
  have hlook2 : (readerFirst dims.prod conc g h).bricks.lookup h = some (.derived 1) := by
    show List.lookup h ((h, Ref.derived 1) :: _) = _
    rw [List.lookup_cons]
    simp
  have hone : ∀ st, (((readerFirst dims.prod conc g h).toModel rhs).sync st).derived ⟨1, (by decide : 1 < 2)⟩ =
      fun _ => 1 := by
    intro st
    rw [sync_derived]
    rfl
  have hval : ∀ st, (((readerFirst dims.prod conc g h).toModel rhs).sync st).derived ⟨0, (by decide : 0 < 2)⟩ =
      st.derived ⟨1, (by decide : 1 < 2)⟩ := by
    intro st
    rw [sync_derived]
    show (readerFirst dims.prod conc g h).named _ h = _
    unfold Bench.named
    rw [hlook2]
    show (midSync _ st ⟨0, (by decide : 0 < 2)⟩).derived ⟨1, (by decide : 1 < 2)⟩ = _
    unfold midSync
    dsimp only
    rw [if_neg (by rw [Fin.lt_def]; show ¬(1 : ℕ) < 0; omega)]
  have hleft : ∀ k : ℕ, (eulerPropagate ((readerFirst dims.prod conc g h).toModel rhs) (k + 1)
      (s, started (readerFirst dims.prod conc g h) rhs fields)).2.derived ⟨1, (by decide : 1 < 2)⟩ =
      fft dims (fun _ => 1) := by
    intro k
    rw [run_succ]
    unfold eulerStep
    dsimp only
    rw [left_euler, hone]
  induction k with
  | zero =>
    show (eulerStep _ _).2.fields i x = _
    unfold eulerStep
    dsimp only
    rw [step_adds hpos _ g rhs hr 0 (by decide : 0 < 2) hlook _ hs, hval]
    unfold started
    rw [sync_fields, hone]
    simp
  | succ k ih =>
    obtain ⟨h1, h2⟩ := run_stepper ((readerFirst dims.prod conc g h).toModel rhs) (k + 1)
      (s, started (readerFirst dims.prod conc g h) rhs fields)
    rw [run_succ]
    unfold eulerStep
    dsimp only
    rw [step_adds hpos _ g rhs hr 0 (by decide : 0 < 2) hlook _ (h1.trans hs), ih, hval, hleft, h2, fft_const hpos]
    push_cast
    split_ifs
    · ring
    · ring

/-- The field and the two functions as the parser of equations sees them. -/
def textModel (n : ℕ) (F G : Bricks n → Data n) : EqModel n :=
  ((EqModel.empty.addField "conc".toList).registerFunction "GFUN".toList F).registerFunction "HFUN".toList G

private theorem loop_same {n' : ℕ} (m : EqModel n) (m' : EqModel n') (hf : ∀ x, m.isFieldName x = m'.isFieldName x)
    (hb : ∀ x, m.isBrickName x = m'.isBrickName x) (l : List Str) (acc : List (Str × ℚ)) :
    concreteLoop m l acc = concreteLoop m' l acc := by
  induction l generalizing acc with
  | nil => rfl
  | cons s ss ih =>
    unfold concreteLoop EqModel.validName
    simp only [hf, hb, ih]

private def plainText : EqModel 1 := textModel 1 (fun _ _ => 0) fun _ _ => 0

private def readEq : Bool :=
  (goSplit '=' "dconc/dt=GFUN".toList == ["dconc/dt".toList, "GFUN".toList]) &&
  (fieldNameFromLeibniz "dconc/dt".toList == some "conc".toList) &&
  ((splitOnMany "GFUN".toList ['+', '-']).map (List.map fun x => (x.sub, x.delim)) == some [("GFUN".toList, none)]) &&
  (isBilinear "GFUN".toList "conc".toList plainText.allFieldNames == some false) &&
  ((concreteTerm "GFUN".toList none plainText).map (fun c => (c.sign, c.scalars, c.field, c.lap)) ==
    some (1, [], "GFUN".toList, none))

private theorem readEq_true : readEq = true := by decide +kernel

/-- C157: the text `dconc/dt=GFUN` gives this equation. -/
theorem c157_text (F G : Bricks n → Data n) : ∃ R, build "dconc/dt=GFUN".toList (textModel n F G) = some R ∧
    ∀ b : Bench n, EquationIs b "GFUN".toList fun _ => R := by
  have h := readEq_true
  unfold readEq at h
  simp only [Bool.and_eq_true, beq_iff_eq] at h
  obtain ⟨⟨⟨⟨h1, h2⟩, h3⟩, h4⟩, h5⟩ := h
  have hg : ("GFUN".toList : Str) ≠ [] := by decide
  have hc : concreteTerm "GFUN".toList none (textModel n F G) = concreteTerm "GFUN".toList none plainText := by
    unfold concreteTerm
    rw [loop_same (textModel n F G) plainText (fun _ => rfl) fun _ => rfl]
    rfl
  have ha : (textModel n F G).allFieldNames = plainText.allFieldNames := rfl
  generalize ("GFUN".toList : Str) = g at *
  generalize ("dconc/dt=GFUN".toList : Str) = eq at *
  generalize ("dconc/dt".toList : Str) = lhs at *
  generalize ("conc".toList : Str) = conc at h2 h4
  rw [Option.map_eq_some_iff] at h3 h5
  obtain ⟨ts, hts, h3⟩ := h3
  obtain ⟨c, hcc, h5⟩ := h5
  simp only [Prod.mk.injEq] at h5
  obtain ⟨c1, c2, c3, c4⟩ := h5
  obtain ⟨x, rfl⟩ : ∃ x, ts = [x] := by
    have := congrArg List.length h3
    simp only [List.length_map, List.length_singleton] at this
    exact List.length_eq_one_iff.mp this
  simp only [List.map_cons, List.map_nil, List.cons.injEq, Prod.mk.injEq, and_true] at h3
  refine ⟨⟨[c.eval], []⟩, ?_, ?_⟩
  · unfold build
    rw [h1]
    dsimp only
    rw [h2, hts]
    show ([x].foldlM (buildTerm (textModel n F G) conc) ⟨[], []⟩ : Option (BuiltRHS n)) = _
    simp only [List.foldlM_cons, List.foldlM_nil]
    have : buildTerm (textModel n F G) conc ⟨[], []⟩ x = some ⟨[c.eval], []⟩ := by
      unfold buildTerm
      have e1 : ∀ y, (textModel n F G).implicitTerms.lookup y = none := fun _ => rfl
      have e2 : ∀ y, (textModel n F G).explicitTerms.lookup y = none := fun _ => rfl
      have e3 : ∀ y, (textModel n F G).mixedTerms.lookup y = none := fun _ => rfl
      dsimp only
      rw [e1, e2, e3, h3.1, h3.2, ha, h4, hc, hcc]
      rfl
    rw [this]
    rfl
  · intro b i
    refine ⟨rfl, fun u freq t k => ?_⟩
    simp only [List.map_cons, List.map_nil, List.sum_cons, List.sum_nil, add_zero]
    unfold Concrete.eval
    rw [c4, c2, c1, c3]
    simp [hg]

/-- Such a start: two functions, one equation, on a grid with 12 nodes. -/
example : ∃ R, build "dconc/dt=GFUN".toList (textModel [4, 3].prod (fun u => u "HFUN".toList) fun _ _ => 1) = some R ∧
    (∀ b : Bench [4, 3].prod, EquationIs b "GFUN".toList fun _ => R) ∧ "GFUN".toList ≠ "HFUN".toList := by
  obtain ⟨R, h1, h2⟩ := c157_text (n := [4, 3].prod) (fun u => u "HFUN".toList) fun _ _ => 1
  exact ⟨R, h1, h2, by decide⟩

/-- In the right order the hypothesis of `c157_values` holds. -/
theorem c157_in_order (conc g h : Str) (hne : g ≠ h)
    (rhs : Fin (readerLast n conc g h).fields.length → BuiltRHS n) :
    InOrder ((readerLast n conc g h).toModel rhs) := by
  intro d st st' hf hd
  have hlook2 : (readerLast n conc g h).bricks.lookup h = some (.derived 0) := by
    show List.lookup h ((g, Ref.derived 1) :: (h, Ref.derived 0) :: _) = _
    have : (h == g) = false := by simpa using hne.symm
    rw [List.lookup_cons, this, List.lookup_cons]
    simp
  obtain ⟨d, hlt⟩ := d
  have hd2 : d < 2 := hlt
  match d, hlt, hd, hd2 with
  | 0, _, _, _ => rfl
  | 1, hlt, hd, _ =>
    show (readerLast n conc g h).named st h = (readerLast n conc g h).named st' h
    unfold Bench.named
    rw [hlook2]
    show st.derived ⟨0, (by decide : 0 < 2)⟩ = st'.derived ⟨0, (by decide : 0 < 2)⟩
    exact hd _ (by rw [Fin.lt_def]; show (0 : ℕ) < 1; omega)

end Gopf.Props
