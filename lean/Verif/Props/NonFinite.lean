import Verif.Model.NonFinite
import Verif.Props.Stability
import Verif.Props.Growth

/-!
# C155: when a simulation divides by zero
-/

namespace Gopf.Props
open Spec Pf Pfutil

variable {nf nd n : ℕ} {dims : List ℕ}

/-- `E` does with finite numbers what `m` does. -/
structure Extends (E : EModel nf nd n) (m : Model nf nd n) : Prop where
  calcs : ∀ d st, E.calcs d st.toE = finData (m.calcs d st)
  rhs : ∀ i (st : Store nf nd n) freq t, E.getRHS i st.toE freq t = finData (m.getRHS i st freq t)
  denum : ∀ i (st : Store nf nd n) freq t, E.getDenum i st.toE freq t = finData (m.getDenum i st freq t)

/-- All numbers of the array fail to be finite. -/
def NowhereFinite (d : EData n) : Prop := ∀ x, d x = none

/-! ### Finite numbers stay exact -/

theorem transformE_fin (f : Data n → Data n) (d : Data n) : transformE f (finData d) = finData (f d) := by
  unfold transformE
  rw [if_pos fun k => by simp [finData]]
  rfl

theorem optFilterE_fin (filter : Option (ℝ → ℝ)) (freq : Frequency n) (d : Data n) :
    optFilterE filter freq (finData d) = finData (optFilter filter freq d) := by
  cases filter <;> rfl

theorem backE_fin (d : Data dims.prod) : backE (finData d) = finData (divRealScalar (ifft dims d) (dims.prod : ℕ)) := by
  unfold backE
  rw [transformE_fin]
  rfl

theorem update_fin {ι : Type} [DecidableEq ι] (f : ι → Data n) (i : ι) (d : Data n) :
    Function.update (fun j => finData (f j)) i (finData d) = fun j => finData (Function.update f i d j) := by
  funext j
  by_cases h : j = i
  · subst h; simp
  · simp [Function.update_of_ne h]

theorem sync_fin {E : EModel nf nd n} {m : Model nf nd n} (hE : Extends E m) (st : Store nf nd n) :
    E.sync st.toE = (m.sync st).toE := by
  unfold EModel.sync Model.sync
  generalize List.finRange nd = l
  induction l generalizing st with
  | nil => rfl
  | cons d l ih =>
    rw [List.foldl_cons, List.foldl_cons, ← ih]
    congr 1
    simp only [Store.toE, EStore.mk.injEq, true_and]
    have := hE.calcs d st
    simp only [Store.toE] at this
    rw [this, update_fin]

theorem fftFieldsE_fin (st : Store nf nd dims.prod) : fftFieldsE st.toE = (fftFields st).toE := by
  simp only [fftFieldsE, fftFields, Store.toE, transformE_fin]

theorem fftDerivedE_fin (st : Store nf nd dims.prod) : fftDerivedE st.toE = (fftDerived st).toE := by
  simp only [fftDerivedE, fftDerived, Store.toE, transformE_fin]

theorem ifftFieldsE_fin (st : Store nf nd dims.prod) : ifftFieldsE st.toE = (ifftFields st).toE := by
  simp only [ifftFieldsE, ifftFields, Store.toE, backE_fin]

theorem divideE_fin {c y : ℂ} (h : 1 - c * y ≠ 0) (x : ℂ) : divideE c (some x) (some y) = some (x / (1 - c * y)) := by
  simp [divideE, h]

theorem axpyE_fin (c x y : ℂ) : axpyE c (some x) (some y) = some (x + c * y) := rfl

theorem foldl_fin {f : EStore nf nd n → Fin nf → EStore nf nd n} {g : Store nf nd n → Fin nf → Store nf nd n}
    (h : ∀ st i, f st.toE i = (g st i).toE) (l : List (Fin nf)) (st : Store nf nd n) :
    l.foldl f st.toE = (l.foldl g st).toE := by
  induction l generalizing st with
  | nil => rfl
  | cons i l ih => rw [List.foldl_cons, List.foldl_cons, h, ih]

/-- The denominators are constants, none of which makes `1 - a D` zero. -/
def Regular (m : Model nf nd n) (freq : Frequency n) (a : ℝ) : Prop :=
  ∀ i st t k, 1 - (a : ℂ) * m.getDenum i st freq t k ≠ 0

theorem eulerStepE_fin {E : EModel nf nd dims.prod} {m : Model nf nd dims.prod} (hE : Extends E m)
    {s : Stepper dims.prod} (hs : Regular m s.freq s.dt) (st : Store nf nd dims.prod) :
    eulerStepE E (s, st.toE) = ((eulerStep m (s, st)).1, (eulerStep m (s, st)).2.toE) := by
  unfold eulerStepE eulerStep eulerStepAt
  dsimp only
  rw [sync_fin hE, fftFieldsE_fin, fftDerivedE_fin, foldl_fin (g := eulerField m s s.getTime), ifftFieldsE_fin]
  intro st i
  unfold eulerFieldE eulerField
  dsimp only
  rw [hE.rhs, hE.denum]
  have e : (fun j => divideE (s.dt : ℂ) (axpyE (s.dt : ℂ) (st.toE.fields i j) (finData (m.getRHS i st s.freq s.getTime) j))
      (finData (m.getDenum i st s.freq s.getTime) j)) = finData fun j =>
        (st.fields i j + (s.dt : ℂ) * m.getRHS i st s.freq s.getTime j) / (1 - (s.dt : ℂ) * m.getDenum i st s.freq s.getTime j) := by
    funext j
    simp only [Store.toE, finData, axpyE_fin]
    exact divideE_fin (hs i st _ j) _
  rw [e, optFilterE_fin]
  simp only [Store.toE, EStore.mk.injEq, and_true]
  exact update_fin _ _ _

theorem accumulate_fin (s : Stepper n) (a b : Fin nf → Data n) (c : ℝ) :
    rk4AccumulateE s (fun i => finData (a i)) (fun i => finData (b i)) c = fun i => finData (rk4Accumulate s a b c i) := rfl

theorem correction_fin {E : EModel nf nd dims.prod} {m : Model nf nd dims.prod} (hE : Extends E m)
    {s : Stepper dims.prod} {factor : ℝ} (hs : Regular m s.freq (factor * s.dt)) (k : Fin nf → Data dims.prod)
    (st : Store nf nd dims.prod) :
    rk4CorrectionE E s (fun i => finData (k i)) factor st.toE =
      ((rk4Correction m s k factor st).1.toE, fun i => finData ((rk4Correction m s k factor st).2 i)) := by
  unfold rk4CorrectionE rk4Correction
  dsimp only
  have e0 : ∀ (st : Store nf nd dims.prod) (i : Fin nf),
      rk4FieldE E s (fun i => finData (k i)) factor st.toE i = (rk4Field m s k factor st i).toE := by
    intro st i
    unfold rk4FieldE rk4Field
    dsimp only
    rw [hE.denum]
    have e : (fun j => divideE ((factor * s.dt : ℝ) : ℂ) (axpyE ((factor * s.dt : ℝ) : ℂ) (st.toE.fields i j) (finData (k i) j))
        (finData (m.getDenum i st s.freq s.getTime) j)) = finData fun j =>
          (st.fields i j + ((factor * s.dt : ℝ) : ℂ) * k i j) /
            (1 - ((factor * s.dt : ℝ) : ℂ) * m.getDenum i st s.freq s.getTime j) := by
      funext j
      simp only [Store.toE, finData, axpyE_fin]
      exact divideE_fin (hs i st _ j) _
    rw [e, backE_fin]
    simp only [Store.toE, EStore.mk.injEq, and_true]
    exact update_fin _ _ _
  rw [foldl_fin e0, sync_fin hE, fftFieldsE_fin, fftDerivedE_fin]
  simp only [hE.rhs]

theorem rk4StepE_fin {E : EModel nf nd dims.prod} {m : Model nf nd dims.prod} (hE : Extends E m)
    {s : Stepper dims.prod} (hs : Regular m s.freq s.dt) (hh : Regular m s.freq (0.5 * s.dt)) (st : Store nf nd dims.prod) :
    rk4StepE E (s, st.toE) = ((rk4Step m (s, st)).1, (rk4Step m (s, st)).2.toE) := by
  have hs1 : Regular m s.freq (1 * s.dt) := by rw [one_mul]; exact hs
  have ec : ∀ (f : Fin nf → Data dims.prod) (st : Store nf nd dims.prod),
      (⟨fun i => finData (f i), st.toE.derived⟩ : EStore nf nd dims.prod) = (⟨f, st.derived⟩ : Store nf nd dims.prod).toE :=
    fun _ _ => rfl
  unfold rk4StepE rk4Step rk4StepStore
  dsimp only
  simp only [sync_fin hE, fftFieldsE_fin, fftDerivedE_fin, hE.rhs]
  generalize fftFields (m.sync st) = st0
  have ei : st0.toE.fields = fun i => finData (st0.fields i) := rfl
  simp only [ei, accumulate_fin, ec, correction_fin hE hh, correction_fin hE hs1]
  rw [foldl_fin, ifftFieldsE_fin]
  intro st i
  unfold rk4LastE
  dsimp only
  rw [hE.denum]
  generalize rk4Accumulate s _ _ _ i = final
  have e : (fun j => divideE (s.dt : ℂ) (finData final j) (finData (m.getDenum i st s.freq s.getTime) j)) =
      finData fun j => final j / (1 - (s.dt : ℂ) * m.getDenum i st s.freq s.getTime j) := by
    funext j
    exact divideE_fin (hs i st _ j) _
  rw [e, optFilterE_fin]
  simp only [Store.toE, EStore.mk.injEq, and_true]
  exact update_fin _ _ _

/-! ### Numbers that are not finite -/

theorem transformE_none {f : Data n → Data n} {d : EData n} (h : ∃ k, d k = none) : NowhereFinite (transformE f d) := by
  intro x
  unfold transformE
  rw [if_neg]
  obtain ⟨k, hk⟩ := h
  exact fun hc => hc k hk

theorem backE_none {d : EData dims.prod} (h : ∃ k, d k = none) : NowhereFinite (backE d) := by
  intro x
  unfold backE divRealScalarE
  rw [transformE_none h x]
  rfl

theorem optFilterE_none {filter : Option (ℝ → ℝ)} {freq : Frequency n} {d : EData n} {k : Fin n} (h : d k = none) :
    optFilterE filter freq d k = none := by
  cases filter with
  | none => exact h
  | some f => simp [optFilterE, h]

theorem axpyE_none (c : ℂ) (b : Option ℂ) : axpyE c none b = none := rfl

theorem divideE_none (c : ℂ) (b : Option ℂ) : divideE c none b = none := rfl

theorem divideE_zero {c y : ℂ} (h : 1 - c * y = 0) (a : Option ℂ) : divideE c a (some y) = none := by
  cases a <;> simp [divideE, h]

/-- What a loop that replaces one field after the other leaves in field `i`: what was put there in its turn, when it
still had its first content. -/
theorem foldl_update {f : EStore nf nd n → Fin nf → EStore nf nd n} (g : EStore nf nd n → Fin nf → EData n)
    (hf : ∀ st i, f st i = { st with fields := Function.update st.fields i (g st i) }) (st : EStore nf nd n) (i : Fin nf) :
    ∃ st' : EStore nf nd n, st'.fields i = st.fields i ∧ ((List.finRange nf).foldl f st).fields i = g st' i := by
  have key : ∀ (l : List (Fin nf)) (st : EStore nf nd n), l.Nodup →
      (i ∉ l → (l.foldl f st).fields i = st.fields i) ∧
      (i ∈ l → ∃ st' : EStore nf nd n, st'.fields i = st.fields i ∧ (l.foldl f st).fields i = g st' i) := by
    intro l
    induction l with
    | nil => intro st _; exact ⟨fun _ => rfl, fun h => absurd h (by simp)⟩
    | cons j l ih =>
      intro st hnd
      rw [List.nodup_cons] at hnd
      obtain ⟨ih1, ih2⟩ := ih (f st j) hnd.2
      have hne : i ≠ j → (f st j).fields i = st.fields i := by
        intro h
        rw [hf]
        exact Function.update_of_ne h _ _
      constructor
      · intro h
        rw [List.mem_cons, not_or] at h
        rw [List.foldl_cons, ih1 h.2, hne h.1]
      · intro h
        rw [List.foldl_cons]
        rcases List.mem_cons.mp h with rfl | h'
        · refine ⟨st, rfl, ?_⟩
          rw [ih1 hnd.1, hf]
          exact Function.update_self _ _ _
        · obtain ⟨st', h1, h2⟩ := ih2 h'
          refine ⟨st', ?_, h2⟩
          rw [h1]
          apply hne
          rintro rfl
          exact hnd.1 h'
  exact (key _ st (List.nodup_finRange nf)).2 (List.mem_finRange i)

/-- What an Euler step makes of field `i`. -/
theorem eulerStepE_field (E : EModel nf nd dims.prod) (s : Stepper dims.prod) (st : EStore nf nd dims.prod) (i : Fin nf) :
    ∃ st' : EStore nf nd dims.prod, st'.fields i = transformE (fft dims) ((E.sync st).fields i) ∧
      (eulerStepE E (s, st)).2.fields i = backE (optFilterE s.filter s.freq fun j =>
        divideE (s.dt : ℂ) (axpyE (s.dt : ℂ) (st'.fields i j) (E.getRHS i st' s.freq s.getTime j))
          (E.getDenum i st' s.freq s.getTime j)) := by
  obtain ⟨st', h1, h2⟩ := foldl_update (f := eulerFieldE E s s.getTime) (fun st' i => optFilterE s.filter s.freq fun j =>
    divideE (s.dt : ℂ) (axpyE (s.dt : ℂ) (st'.fields i j) (E.getRHS i st' s.freq s.getTime j))
      (E.getDenum i st' s.freq s.getTime j)) (fun _ _ => rfl) (fftDerivedE (fftFieldsE (E.sync st))) i
  refine ⟨st', h1, ?_⟩
  unfold eulerStepE ifftFieldsE
  dsimp only
  rw [h2]

theorem last_field (E : EModel nf nd n) (s : Stepper n) (final : Fin nf → EData n) (st : EStore nf nd n) (i : Fin nf) :
    ∃ st' : EStore nf nd n, ((List.finRange nf).foldl (rk4LastE E s final) st).fields i =
      optFilterE s.filter s.freq fun j => divideE (s.dt : ℂ) (final i j) (E.getDenum i st' s.freq s.getTime j) := by
  obtain ⟨st', -, h⟩ := foldl_update (f := rk4LastE E s final) (fun st' i => optFilterE s.filter s.freq fun j =>
    divideE (s.dt : ℂ) (final i j) (E.getDenum i st' s.freq s.getTime j)) (fun _ _ => rfl) st i
  exact ⟨st', h⟩

/-- What an RK4 step makes of field `i`. -/
theorem rk4StepE_field (E : EModel nf nd dims.prod) (s : Stepper dims.prod) (st : EStore nf nd dims.prod) (i : Fin nf) :
    ∃ (st' : EStore nf nd dims.prod) (k1 k2 k3 k4 : EData dims.prod),
      (rk4StepE E (s, st)).2.fields i = backE (optFilterE s.filter s.freq fun j =>
        divideE (s.dt : ℂ) (axpyE ((1 / 6 * s.dt : ℝ) : ℂ) (axpyE ((1 / 3 * s.dt : ℝ) : ℂ) (axpyE ((1 / 3 * s.dt : ℝ) : ℂ)
          (axpyE ((1 / 6 * s.dt : ℝ) : ℂ) (transformE (fft dims) ((E.sync st).fields i) j) (k1 j)) (k2 j)) (k3 j)) (k4 j))
          (E.getDenum i st' s.freq s.getTime j)) := by
  unfold rk4StepE
  dsimp only
  generalize rk4CorrectionE E s _ 1 _ = c4
  generalize rk4CorrectionE E s (rk4CorrectionE E s _ 0.5 _).2 0.5 _ = c3
  generalize rk4CorrectionE E s _ 0.5 _ = c2
  obtain ⟨st', h2⟩ := last_field E s (rk4AccumulateE s (rk4AccumulateE s (rk4AccumulateE s (rk4AccumulateE s
    (fftFieldsE (E.sync st)).fields (fun i => E.getRHS i (fftDerivedE (fftFieldsE (E.sync st))) s.freq s.getTime) (1 / 6))
      c2.2 (1 / 3)) c3.2 (1 / 3)) c4.2 (1 / 6)) ⟨(fftFieldsE (E.sync st)).fields, c4.1.derived⟩ i
  refine ⟨st', E.getRHS i (fftDerivedE (fftFieldsE (E.sync st))) s.freq s.getTime, c2.2 i, c3.2 i, c4.2 i, ?_⟩
  unfold ifftFieldsE
  dsimp only
  rw [h2]
  rfl

/-- The derived fields are computed without touching the fields. -/
theorem syncE_fields (E : EModel nf nd n) (st : EStore nf nd n) : (E.sync st).fields = st.fields := by
  unfold EModel.sync
  generalize List.finRange nd = l
  induction l generalizing st with
  | nil => rfl
  | cons d l ih => rw [List.foldl_cons, ih]

/-- C155: one number of a field that is not finite spoils the field: after a step of either stepper no number of it is
finite, whatever the model, the time step and the filter are. -/
theorem c155_spreads (E : EModel nf nd dims.prod) (s : Stepper dims.prod) (st : EStore nf nd dims.prod) (i : Fin nf)
    (h : ∃ x, st.fields i x = none) :
    NowhereFinite ((eulerStepE E (s, st)).2.fields i) ∧ NowhereFinite ((rk4StepE E (s, st)).2.fields i) := by
  obtain ⟨x, hx⟩ := h
  have ht : NowhereFinite (transformE (fft dims) ((E.sync st).fields i)) := transformE_none ⟨x, by rw [syncE_fields]; exact hx⟩
  constructor
  · obtain ⟨st', h1, h2⟩ := eulerStepE_field E s st i
    rw [h2]
    refine backE_none ⟨x, optFilterE_none ?_⟩
    rw [h1, ht x, axpyE_none, divideE_none]
  · obtain ⟨st', k1, k2, k3, k4, h2⟩ := rk4StepE_field E s st i
    rw [h2]
    refine backE_none ⟨x, optFilterE_none ?_⟩
    rw [ht x, axpyE_none, axpyE_none, axpyE_none, axpyE_none, divideE_none]

/-! ### Runs -/

theorem eulerPropagateE_succ (E : EModel nf nd dims.prod) (steps : ℕ) (p : Stepper dims.prod × EStore nf nd dims.prod) :
    eulerPropagateE E (steps + 1) p = eulerStepE E (eulerPropagateE E steps p) := by
  unfold eulerPropagateE
  rw [List.range_succ, List.foldl_append]
  rfl

theorem rk4PropagateE_succ (E : EModel nf nd dims.prod) (steps : ℕ) (p : Stepper dims.prod × EStore nf nd dims.prod) :
    rk4PropagateE E (steps + 1) p =
      ({ (rk4StepE E (rk4PropagateE E steps p)).1 with
          currentStep := (rk4StepE E (rk4PropagateE E steps p)).1.currentStep + 1 },
        (rk4StepE E (rk4PropagateE E steps p)).2) := by
  unfold rk4PropagateE
  rw [List.range_succ, List.foldl_append]
  rfl

/-- A stepper keeps its time step, frequencies and filter. -/
theorem propagateE_stepper (E : EModel nf nd dims.prod) (steps : ℕ) (s : Stepper dims.prod) (st : EStore nf nd dims.prod) :
    ((eulerPropagateE E steps (s, st)).1.dt = s.dt ∧ (eulerPropagateE E steps (s, st)).1.freq = s.freq) ∧
    ((rk4PropagateE E steps (s, st)).1.dt = s.dt ∧ (rk4PropagateE E steps (s, st)).1.freq = s.freq) := by
  induction steps with
  | zero => exact ⟨⟨rfl, rfl⟩, ⟨rfl, rfl⟩⟩
  | succ steps ih =>
    rw [eulerPropagateE_succ, rk4PropagateE_succ]
    exact ih

theorem eulerPropagate_stepper (m : Model nf nd dims.prod) (steps : ℕ) (s : Stepper dims.prod) (st : Store nf nd dims.prod) :
    ((eulerPropagate m steps (s, st)).1.dt = s.dt ∧ (eulerPropagate m steps (s, st)).1.freq = s.freq) ∧
    ((rk4Propagate m steps (s, st)).1.dt = s.dt ∧ (rk4Propagate m steps (s, st)).1.freq = s.freq) := by
  induction steps with
  | zero => exact ⟨⟨rfl, rfl⟩, ⟨rfl, rfl⟩⟩
  | succ steps ih =>
    unfold eulerPropagate rk4Propagate
    rw [List.range_succ, List.foldl_append, List.foldl_append]
    exact ih

/-- C155: as long as no denominator `1 - dt D` vanishes (for RK4 also none of `1 - dt D / 2`), all numbers stay finite
and are those of the exact computation. All theorems about `eulerPropagate` and `rk4Propagate` hold for such runs. -/
theorem c155_exact {E : EModel nf nd dims.prod} {m : Model nf nd dims.prod} (hE : Extends E m) (s : Stepper dims.prod)
    (hs : Regular m s.freq s.dt) (st : Store nf nd dims.prod) (steps : ℕ) :
    eulerPropagateE E steps (s, st.toE) =
      ((eulerPropagate m steps (s, st)).1, (eulerPropagate m steps (s, st)).2.toE) ∧
    (Regular m s.freq (0.5 * s.dt) → rk4PropagateE E steps (s, st.toE) =
      ((rk4Propagate m steps (s, st)).1, (rk4Propagate m steps (s, st)).2.toE)) := by
  induction steps with
  | zero => exact ⟨rfl, fun _ => rfl⟩
  | succ steps ih =>
    obtain ⟨⟨e1, e2⟩, ⟨r1, r2⟩⟩ := eulerPropagate_stepper m steps s st
    have hes : eulerPropagate m (steps + 1) (s, st) = eulerStep m (eulerPropagate m steps (s, st)) := by
      unfold eulerPropagate
      rw [List.range_succ, List.foldl_append]
      rfl
    have hrs : rk4Propagate m (steps + 1) (s, st) =
        ({ (rk4Step m (rk4Propagate m steps (s, st))).1 with
          currentStep := (rk4Step m (rk4Propagate m steps (s, st))).1.currentStep + 1 },
        (rk4Step m (rk4Propagate m steps (s, st))).2) := by
      unfold rk4Propagate
      rw [List.range_succ, List.foldl_append]
      rfl
    rw [eulerPropagateE_succ, rk4PropagateE_succ, ih.1, hes, hrs]
    constructor
    · exact eulerStepE_fin hE (by rw [e1, e2]; exact hs) _
    · intro hh
      rw [ih.2 hh, rk4StepE_fin hE (by rw [r1, r2]; exact hs) (by rw [r1, r2]; exact hh)]

/-- C155: if the denominator of one wave of a field vanishes, no number of the field is finite after the first step and
ever after, with either stepper, whatever the start and the other equations are. -/
theorem c155_breaks (E : EModel nf nd dims.prod) (s : Stepper dims.prod) (i : Fin nf) (k : Fin dims.prod) (D : ℂ)
    (hD : ∀ st t, E.getDenum i st s.freq t k = some D) (h0 : 1 - (s.dt : ℂ) * D = 0) (st : EStore nf nd dims.prod)
    (steps : ℕ) (hsteps : 0 < steps) :
    NowhereFinite ((eulerPropagateE E steps (s, st)).2.fields i) ∧
    NowhereFinite ((rk4PropagateE E steps (s, st)).2.fields i) := by
  obtain ⟨q, rfl⟩ := Nat.exists_eq_succ_of_ne_zero hsteps.ne'
  rw [Nat.succ_eq_add_one, eulerPropagateE_succ, rk4PropagateE_succ]
  obtain ⟨⟨e1, e2⟩, ⟨r1, r2⟩⟩ := propagateE_stepper E q s st
  constructor
  · generalize eulerPropagateE E q (s, st) = p at e1 e2 ⊢
    obtain ⟨s', st1⟩ := p
    dsimp only at e1 e2
    obtain ⟨st', -, h2⟩ := eulerStepE_field E s' st1 i
    rw [h2]
    refine backE_none ⟨k, optFilterE_none ?_⟩
    rw [e1, e2, hD, divideE_zero h0]
  · generalize rk4PropagateE E q (s, st) = p at r1 r2 ⊢
    obtain ⟨s', st1⟩ := p
    dsimp only at r1 r2
    obtain ⟨st', k1, k2, k3, k4, h2⟩ := rk4StepE_field E s' st1 i
    dsimp only
    rw [h2]
    refine backE_none ⟨k, optFilterE_none ?_⟩
    rw [r1, r2, hD, divideE_zero h0]

/-! ### Equations given as text -/

/-- The implicit part reads no field. -/
def DenumReadsNothing (E : EModel nf nd n) : Prop := ∀ i st st' freq t, E.getDenum i st freq t = E.getDenum i st' freq t

theorem denum_const {E : EModel nf nd n} {m : Model nf nd n} (hE : Extends E m) (hd : DenumReadsNothing E) (i : Fin nf)
    (st : EStore nf nd n) (freq : Frequency n) (t : ℝ) :
    E.getDenum i st freq t = finData (m.getDenum i ⟨fun _ _ => 0, fun _ _ => 0⟩ freq t) := by
  rw [hd i st (Store.toE ⟨fun _ _ => 0, fun _ _ => 0⟩), hE.denum]

private theorem one_sub_eq {a : ℝ} {z : ℂ} : 1 - (a : ℂ) * z = 0 ↔ a * z = 1 := by
  rw [sub_eq_zero]
  exact eq_comm

/-- C155: when simulations of equations given as text divide by zero. If `dt r` is never one, `r` being the rate of a wave
in the terms of an equation that are linear in its field only, an Euler run is the exact one; an RK4 run is if `dt r` is
also never two. If `dt r` is one for one wave of one field, no number of that field is finite after the first step and
ever after, with either stepper. -/
theorem c155_text (N : Names) (hN : N.WellNamed)
    (m0 : EqModel dims.prod) (h0 : StartsAs N m0) (heq : m0.equations = [])
    (eqs : List Equation) (hq : ∀ eq ∈ eqs, eq.Polynomial N ∧ Unregistered m0 eq)
    (hcount : N.fields.length ≤ eqs.length)
    (ss : List Str) (hs : ss.map (fun s => s.filter fun c => c ≠ ' ') = eqs.map Equation.text) (c : Str → ℂ) :
    ∃ m M, ss.foldlM EqModel.addEquation m0 = some m ∧ m.fields = N.fields ∧ m.assemble c = some M ∧
      ∀ E : EModel m.fields.length m.derived.length dims.prod, Extends E M → DenumReadsNothing E →
      ∀ s : Stepper dims.prod,
        ((∀ (i : Fin m.fields.length) (eq : Equation), eqs[i.val]? = some eq → ∀ k,
            (s.dt : ℂ) * implicitRate N c s.freq eq k ≠ 1) →
          ∀ st steps, eulerPropagateE E steps (s, st.toE) =
            ((eulerPropagate M steps (s, st)).1, (eulerPropagate M steps (s, st)).2.toE)) ∧
        ((∀ (i : Fin m.fields.length) (eq : Equation), eqs[i.val]? = some eq → ∀ k,
            (s.dt : ℂ) * implicitRate N c s.freq eq k ≠ 1 ∧ (s.dt : ℂ) * implicitRate N c s.freq eq k ≠ 2) →
          ∀ st steps, rk4PropagateE E steps (s, st.toE) =
            ((rk4Propagate M steps (s, st)).1, (rk4Propagate M steps (s, st)).2.toE)) ∧
        ∀ (i : Fin m.fields.length) (eq : Equation), eqs[i.val]? = some eq → ∀ k,
          (s.dt : ℂ) * implicitRate N c s.freq eq k = 1 → ∀ st steps, 0 < steps →
            NowhereFinite ((eulerPropagateE E steps (s, st)).2.fields i) ∧
            NowhereFinite ((rk4PropagateE E steps (s, st)).2.fields i) := by
  obtain ⟨m, M, h1, hg, h3, -, -, h6⟩ := text_shape N hN m0 h0 heq eqs hq hcount ss hs c
  refine ⟨m, M, h1, hg.fields, h3, ?_⟩
  intro E hE hd s
  have hrate : ∀ (i : Fin m.fields.length), ∃ eq, eqs[i.val]? = some eq ∧
      ∀ st freq t k, M.getDenum i st freq t k = implicitRate N c freq eq k := by
    intro i
    obtain ⟨eq, hi, -, hD⟩ := h6 i
    refine ⟨eq, hi, fun st freq t k => ?_⟩
    rw [hD]
    exact implicit_eq N c (fun y _ => c y) (fun _ _ => rfl) freq eq k
  have hreg : (∀ (i : Fin m.fields.length) (eq : Equation), eqs[i.val]? = some eq → ∀ k,
      (s.dt : ℂ) * implicitRate N c s.freq eq k ≠ 1) → Regular M s.freq s.dt := by
    intro h i st t k
    obtain ⟨eq, hi, hr⟩ := hrate i
    rw [hr, Ne, one_sub_eq]
    exact h i eq hi k
  refine ⟨fun h st steps => (c155_exact hE s (hreg h) st steps).1, fun h st steps => ?_, ?_⟩
  · refine (c155_exact hE s (hreg fun i eq hi k => (h i eq hi k).1) st steps).2 ?_
    intro i st t k
    obtain ⟨eq, hi, hr⟩ := hrate i
    rw [hr]
    have h2 := (h i eq hi k).2
    intro hc
    apply h2
    rw [sub_eq_zero] at hc
    have e : ((0.5 * s.dt : ℝ) : ℂ) = (s.dt : ℂ) / 2 := by push_cast; ring
    rw [e] at hc
    linear_combination (-2 : ℂ) * hc
  · intro i eq hi k hk st steps hsteps
    obtain ⟨eq', hi', hr⟩ := hrate i
    rw [hi] at hi'
    obtain rfl := Option.some.inj hi'
    refine c155_breaks E s i k (implicitRate N c s.freq eq k) (fun st t => ?_) (one_sub_eq.mpr hk) st steps hsteps
    rw [denum_const hE hd, finData, hr]

/-- C155: there are only finitely many time steps for which a simulation on a given grid divides by zero, and none of
them is positive if no rate has a positive real part. -/
theorem c155_time_steps {ι : Type} [Finite ι] (rate : ι → Fin n → ℂ) :
    {dt : ℝ | ∃ i k, (dt : ℂ) * rate i k = 1 ∨ (dt : ℂ) * rate i k = 2}.Finite ∧
    ((∀ i k, (rate i k).re ≤ 0) → ∀ dt : ℝ, 0 ≤ dt → ∀ i k, (dt : ℂ) * rate i k ≠ 1 ∧ (dt : ℂ) * rate i k ≠ 2) := by
  constructor
  · have hsub : {dt : ℝ | ∃ i k, (dt : ℂ) * rate i k = 1 ∨ (dt : ℂ) * rate i k = 2} ⊆
        Set.range (fun q : ι × Fin n => (1 / rate q.1 q.2).re) ∪ Set.range (fun q : ι × Fin n => (2 / rate q.1 q.2).re) := by
      rintro dt ⟨i, k, h⟩
      have hne : rate i k ≠ 0 := by
        intro hc
        rcases h with h | h <;> simp [hc] at h
      rcases h with h | h
      · left
        exact ⟨(i, k), by dsimp only; rw [← h, mul_div_cancel_right₀ _ hne, Complex.ofReal_re]⟩
      · right
        exact ⟨(i, k), by dsimp only; rw [← h, mul_div_cancel_right₀ _ hne, Complex.ofReal_re]⟩
    exact ((Set.finite_range _).union (Set.finite_range _)).subset hsub
  · intro hr dt hdt i k
    have h1 : ((dt : ℂ) * rate i k).re ≤ 0 := by
      rw [Complex.re_ofReal_mul]
      exact mul_nonpos_of_nonneg_of_nonpos hdt (hr i k)
    constructor
    · intro hc
      rw [hc, Complex.one_re] at h1
      linarith
    · intro hc
      rw [hc] at h1
      norm_num at h1

open Classical in
/-- The model in which everything but the implicit part is spoilt by one number that is not finite. -/
noncomputable def strictModel (m : Model nf nd n) : EModel nf nd n :=
  let clean : EStore nf nd n → Prop := fun st => (∀ i x, st.fields i x ≠ none) ∧ ∀ d x, st.derived d x ≠ none
  let back : EStore nf nd n → Store nf nd n := fun st =>
    ⟨fun i x => (st.fields i x).getD 0, fun d x => (st.derived d x).getD 0⟩
  { calcs := fun d st => if clean st then finData (m.calcs d (back st)) else fun _ => none
    getRHS := fun i st freq t => if clean st then finData (m.getRHS i (back st) freq t) else fun _ => none
    getDenum := fun i _ freq t => finData (m.getDenum i ⟨fun _ _ => 0, fun _ _ => 0⟩ freq t) }

/-- It meets the hypotheses of the theorems above if the implicit part of the model reads no field. -/
theorem strictModel_extends (m : Model nf nd n) (hm : ∀ i st st' freq t, m.getDenum i st freq t = m.getDenum i st' freq t) :
    Extends (strictModel m) m ∧ DenumReadsNothing (strictModel m) := by
  refine ⟨⟨?_, ?_, ?_⟩, fun _ _ _ _ _ => rfl⟩
  · intro d st
    exact if_pos ⟨fun i x => by simp [Store.toE, finData], fun i x => by simp [Store.toE, finData]⟩
  · intro i st freq t
    exact if_pos ⟨fun i x => by simp [Store.toE, finData], fun i x => by simp [Store.toE, finData]⟩
  · intro i st freq t
    dsimp only [strictModel]
    rw [hm i _ st]

theorem grow_implicit (c : Str → ℂ) (freq : Frequency n) (k : Fin n) : implicitRate concNames c freq growEquation k = 1 := by
  have e : implicitRate concNames c freq growEquation k = growthRate concNames c freq growEquation k := by
    rw [← implicit_eq concNames c (fun y _ => c y) (fun _ _ => rfl)]
    exact linear_rate grow_linear k
  rw [e, grow_rate]
  simp

/-- C155: `dconc/dt = conc` with the time step one: after one step no number of the field is finite, whatever the
start; with any other time step Euler runs stay exact, and RK4 runs do for any time step but one and two. -/
theorem c155_example (h : ∀ d ∈ dims, 0 < d) :
    ∃ m M, ["dconc/dt = conc".toList].foldlM EqModel.addEquation
        ((EqModel.empty (n := dims.prod)).addField "conc".toList) = some m ∧ m.assemble (fun _ => 0) = some M ∧
      Extends (strictModel M) M ∧ ∀ (s : Stepper dims.prod) (i : Fin m.fields.length),
        (s.dt = 1 → ∀ st steps, 0 < steps →
          NowhereFinite ((eulerPropagateE (strictModel M) steps (s, st)).2.fields i) ∧
          NowhereFinite ((rk4PropagateE (strictModel M) steps (s, st)).2.fields i)) ∧
        (s.dt ≠ 1 → ∀ st steps, eulerPropagateE (strictModel M) steps (s, st.toE) =
          ((eulerPropagate M steps (s, st)).1, (eulerPropagate M steps (s, st)).2.toE)) ∧
        (s.dt ≠ 1 → s.dt ≠ 2 → ∀ st steps, rk4PropagateE (strictModel M) steps (s, st.toE) =
          ((rk4Propagate M steps (s, st)).1, (rk4Propagate M steps (s, st)).2.toE)) := by
  have hq : ∀ eq ∈ [growEquation], eq.Polynomial concNames ∧
      Unregistered ((EqModel.empty (n := dims.prod)).addField "conc".toList) eq := by
    intro eq heq
    obtain rfl := List.mem_singleton.mp heq
    exact ⟨grow_polynomial, fun _ _ => ⟨rfl, rfl⟩⟩
  obtain ⟨m, M, h1, h2, h3, h4⟩ := c155_text concNames conc_wellNamed
    ((EqModel.empty (n := dims.prod)).addField "conc".toList) ⟨rfl, rfl, fun x => Iff.rfl⟩ rfl [growEquation]
    hq (by decide) ["dconc/dt = conc".toList] (by decide) fun _ => 0
  obtain ⟨m', M', h1', -, h3', -, -, h6⟩ := text_shape concNames conc_wellNamed
    ((EqModel.empty (n := dims.prod)).addField "conc".toList) ⟨rfl, rfl, fun x => Iff.rfl⟩ rfl [growEquation]
    hq (by decide) ["dconc/dt = conc".toList] (by decide) fun _ => 0
  rw [h1] at h1'
  obtain rfl := Option.some.inj h1'
  rw [h3] at h3'
  obtain rfl := Option.some.inj h3'
  obtain ⟨hE, hd⟩ := strictModel_extends M (by
    intro i st st' freq t
    obtain ⟨eq, -, -, hD⟩ := h6 i
    funext k
    rw [hD, hD])
  refine ⟨m, M, h1, h3, hE, ?_⟩
  intro s i
  obtain ⟨k1, k2, k3⟩ := h4 (strictModel M) hE hd s
  have hi : ∀ i : Fin m.fields.length, i.val = 0 := by
    intro i
    have h5 := i.2
    have h6 : m.fields.length = 1 := by rw [h2]; rfl
    omega
  have hone : ∀ (i : Fin m.fields.length) (eq : Equation), [growEquation][i.val]? = some eq → eq = growEquation := by
    intro i eq he
    rw [hi i] at he
    exact (Option.some.inj he).symm
  have hp : 0 < dims.prod := List.prod_pos h
  refine ⟨fun hdt st steps hsteps => ?_, fun hdt => k1 ?_, fun hdt hdt2 => k2 ?_⟩
  · refine k3 i growEquation (by rw [hi i]; rfl) ⟨0, hp⟩ ?_ st steps hsteps
    rw [grow_implicit, hdt]
    simp
  · intro i eq he k
    rw [hone i eq he, grow_implicit, mul_one]
    exact_mod_cast hdt
  · intro i eq he k
    rw [hone i eq he, grow_implicit, mul_one]
    exact ⟨by exact_mod_cast hdt, by exact_mod_cast hdt2⟩

example : ∀ d ∈ ([4, 6] : List ℕ), 0 < d := by decide

end Gopf.Props
