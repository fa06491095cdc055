import Verif.Model.Session
import Verif.Props.ConvergeRk

/-!
# C113: sessions with one solver
-/

namespace Gopf.Props
open Pf Pfutil Converge

variable {nf nd : ℕ} {dims : List ℕ}

/-! ## Specification -/

/-- The number of time steps a call asks for. -/
def stepsAsked : SolverCall → ℕ
  | .propagate n => n.toNat
  | .solve e n => e.toNat * n.toNat
  | _ => 0

/-- The steps asked for since the stepper was chosen for the last time. -/
def stepsSinceChoice (calls : List SolverCall) : ℕ :=
  calls.foldl (fun k c => match c with
    | .setStepper _ => 0
    | c => k + stepsAsked c) 0

/-- The stepper chosen last; the Euler stepper if none was chosen. -/
def chosenStepper (calls : List SolverCall) : Str :=
  calls.foldl (fun name c => match c with
    | .setStepper nm => nm
    | _ => name) "euler".toList

/-- The filter set last since the stepper was chosen. -/
def currentFilter (calls : List SolverCall) : Option (ℝ → ℝ) :=
  calls.foldl (fun f c => match c with
    | .setStepper _ => none
    | .setFilter g => some g
    | _ => f) none

/-- The fields after `n` steps of the present stepper. -/
noncomputable def storeAfter (m : Model nf nd dims.prod) (s : SolverState nf nd dims) (n : ℕ) : Store nf nd dims.prod :=
  (match s.kind with
    | .euler => (eulerStep m)^[n] (s.stepper, s.store)
    | .rk4 => (rk4Step m)^[n] (s.stepper, s.store)).2

/-- The states at the ends of the epochs of one call. -/
noncomputable def epochEnds (m : Model nf nd dims.prod) (s : SolverState nf nd dims) :
    SolverCall → List (Store nf nd dims.prod)
  | .solve e n => (List.range e.toNat).map fun k => storeAfter m s ((k + 1) * n.toNat)
  | _ => []

/-- The states at the ends of the epochs of a session. -/
noncomputable def sessionEnds (m : Model nf nd dims.prod) (bricks : Str → Option (BrickRef nf nd)) :
    SolverState nf nd dims → List SolverCall → List (Store nf nd dims.prod)
  | _, [] => []
  | s, c :: cs => epochEnds m s c ++ ((s.call m bricks c).map fun s' => sessionEnds m bricks s' cs).getD []

/-- A monitor that can be read: the name is known and the site is a node. -/
def Readable (bricks : Str → Option (BrickRef nf nd)) (n : ℕ) (p : PointMonitor) : Prop :=
  ∃ b, bricks p.field = some b ∧ ((∃ c, b = .scalar c) ∨ (0 ≤ p.site ∧ p.site < n))

/-! ## Proof -/

/-- The stepper and the store together. -/
noncomputable def pairAfter (m : Model nf nd dims.prod) (s : SolverState nf nd dims) (n : ℕ) :
    Stepper dims.prod × Store nf nd dims.prod :=
  match s.kind with
    | .euler => (eulerStep m)^[n] (s.stepper, s.store)
    | .rk4 => (rk4Step m)^[n] (s.stepper, s.store)

theorem steps_eq (m : Model nf nd dims.prod) (s : SolverState nf nd dims) (n : ℕ) :
    (List.range n).foldl (fun s _ => s.step m) s =
      { s with stepper := (pairAfter m s n).1, store := (pairAfter m s n).2 } := by
  induction n with
  | zero =>
    obtain ⟨dt, kind, stp, st, mons⟩ := s
    cases kind <;> rfl
  | succ n ih =>
    rw [List.range_succ, List.foldl_append, ih]
    obtain ⟨dt, kind, stp, st, mons⟩ := s
    cases kind <;>
      simp only [List.foldl_cons, List.foldl_nil, SolverState.step, pairAfter, Function.iterate_succ_apply', Prod.mk.eta]

theorem propagate_eq (m : Model nf nd dims.prod) (s : SolverState nf nd dims) (n : ℤ) :
    s.propagate m n =
      { s with stepper := (pairAfter m s n.toNat).1, store := (pairAfter m s n.toNat).2 } :=
  steps_eq m s n.toNat

theorem store_after (m : Model nf nd dims.prod) (s : SolverState nf nd dims) (n : ℕ) :
    (pairAfter m s n).2 = storeAfter m s n := by
  unfold pairAfter storeAfter
  rfl

theorem pairAfter_add (m : Model nf nd dims.prod) (s : SolverState nf nd dims) (a b : ℕ) (mons : List PointMonitor) :
    pairAfter m { s with stepper := (pairAfter m s a).1, store := (pairAfter m s a).2, monitors := mons } b =
      pairAfter m s (a + b) := by
  obtain ⟨dt, kind, stp, st, mons⟩ := s
  cases kind <;> simp only [pairAfter, Prod.mk.eta, Nat.add_comm a b, Function.iterate_add_apply]

theorem dataAt_some {n : ℕ} (x : Data n) (i : ℤ) (h0 : 0 ≤ i) (h1 : i < n) :
    ∃ h : i.toNat < n, dataAt x i = some (x ⟨i.toNat, h⟩) := by
  have : i.toNat < n := by omega
  exact ⟨this, dif_pos ⟨h0, this⟩⟩

/-- Reading succeeds exactly for readable monitors. -/
theorem add_some (bricks : Str → Option (BrickRef nf nd)) {n : ℕ} (st : Store nf nd n) (p : PointMonitor) :
    (∃ p', p.add bricks st = some p') ↔ Readable bricks n p := by
  unfold PointMonitor.add Readable
  cases hb : bricks p.field with
  | none => simp
  | some b =>
    simp only [Option.some.injEq, exists_eq_left']
    have hd : ∀ x : Data n, (∃ z, dataAt x p.site = some z) ↔ 0 ≤ p.site ∧ p.site < n := by
      intro x
      unfold dataAt
      split_ifs with h
      · simp only [Option.some.injEq, exists_eq', true_iff]; omega
      · simp only [exists_false, false_iff]; omega
    cases b with
    | field i =>
      simp only [BrickRef.get, reduceCtorEq, exists_false, false_or, ← hd (st.fields i)]
      cases hx : dataAt (st.fields i) p.site <;> simp [hx]
    | derived d =>
      simp only [BrickRef.get, reduceCtorEq, exists_false, false_or, ← hd (st.derived d)]
      cases hx : dataAt (st.derived d) p.site <;> simp [hx]
    | scalar c => simp [BrickRef.get]

/-- What reading a monitor changes. -/
theorem add_spec (bricks : Str → Option (BrickRef nf nd)) {n : ℕ} (st : Store nf nd n) (p p' : PointMonitor)
    (h : p.add bricks st = some p') :
    ∃ b z, bricks p.field = some b ∧ b.get st p.site = some z ∧ p' = { p with data := p.data ++ [z.re] } := by
  unfold PointMonitor.add at h
  cases hb : bricks p.field with
  | none => rw [hb] at h; cases h
  | some b =>
    rw [hb] at h
    cases hz : b.get st p.site with
    | none => simp [hz] at h
    | some z =>
      simp only [hz, Option.bind_eq_bind, Option.bind_some] at h
      exact ⟨b, z, rfl, hz, (Option.some.inj h).symm⟩

theorem forall₂_of_mapM {α β : Type} (f : α → Option β) : ∀ (l : List α) (l' : List β), l.mapM f = some l' →
    List.Forall₂ (fun a b => f a = some b) l l'
  | [], l', h => by
    simp only [List.mapM_nil] at h
    obtain rfl := Option.some.inj h
    exact .nil
  | a :: l, l', h => by
    rw [List.mapM_cons] at h
    simp only [Option.bind_eq_bind, Option.bind_eq_some_iff] at h
    obtain ⟨b, hb, bs, hbs, e⟩ := h
    obtain rfl := Option.some.inj e
    exact .cons hb (forall₂_of_mapM f l bs hbs)

theorem mapM_isSome {α β : Type} (f : α → Option β) : ∀ l : List α, (∃ l', l.mapM f = some l') ↔
    ∀ a ∈ l, ∃ b, f a = some b
  | [] => by simp
  | a :: l => by
    rw [List.mapM_cons, List.forall_mem_cons, ← mapM_isSome f l]
    simp only [Option.bind_eq_bind, Option.bind_eq_some_iff]
    constructor
    · rintro ⟨l', b, hb, bs, hbs, -⟩
      exact ⟨⟨b, hb⟩, bs, hbs⟩
    · rintro ⟨⟨b, hb⟩, bs, hbs⟩
      exact ⟨_, b, hb, bs, hbs, rfl⟩

/-- `q` is `p` with the readings of a brick in the states `sts` appended. -/
def Appended (bricks : Str → Option (BrickRef nf nd)) {n : ℕ} (sts : List (Store nf nd n)) (p q : PointMonitor) : Prop :=
  q.site = p.site ∧ q.field = p.field ∧
    ∃ zs : List ℂ, List.Forall₂ (fun st z => ∃ b, bricks p.field = some b ∧ b.get st p.site = some z) sts zs ∧
      q.data = p.data ++ zs.map Complex.re

theorem Appended.refl (bricks : Str → Option (BrickRef nf nd)) {n : ℕ} (p : PointMonitor) :
    Appended bricks ([] : List (Store nf nd n)) p p := ⟨rfl, rfl, [], .nil, by simp⟩

theorem Appended.trans {bricks : Str → Option (BrickRef nf nd)} {n : ℕ} {a b : List (Store nf nd n)}
    {p q r : PointMonitor} (h1 : Appended bricks a p q) (h2 : Appended bricks b q r) : Appended bricks (a ++ b) p r := by
  obtain ⟨s1, f1, z1, w1, d1⟩ := h1
  obtain ⟨s2, f2, z2, w2, d2⟩ := h2
  refine ⟨s2.trans s1, f2.trans f1, z1 ++ z2, ?_, ?_⟩
  · rw [s1, f1] at w2
    exact List.rel_append w1 w2
  · rw [d2, d1, List.map_append, List.append_assoc]

/-- One epoch. -/
theorem epoch_spec (m : Model nf nd dims.prod) (bricks : Str → Option (BrickRef nf nd)) (n : ℤ)
    (s s' : SolverState nf nd dims) (h : s.epoch m bricks n = some s') :
    s' = { s with stepper := (pairAfter m s n.toNat).1, store := (pairAfter m s n.toNat).2, monitors := s'.monitors } ∧
      List.Forall₂ (Appended bricks [storeAfter m s n.toNat]) s.monitors s'.monitors := by
  unfold SolverState.epoch SolverState.runMonitors at h
  rw [propagate_eq] at h
  dsimp only at h
  simp only [Option.bind_eq_bind, Option.bind_eq_some_iff] at h
  obtain ⟨ms, hms, e⟩ := h
  obtain rfl := Option.some.inj e
  refine ⟨rfl, ?_⟩
  refine (forall₂_of_mapM _ _ _ hms).imp ?_
  intro p q hq
  rw [store_after] at hq
  obtain ⟨b, z, hb, hz, rfl⟩ := add_spec bricks _ p q hq
  exact ⟨rfl, rfl, [z], .cons ⟨b, hb, hz⟩ .nil, by simp⟩

theorem solve_spec (m : Model nf nd dims.prod) (bricks : Str → Option (BrickRef nf nd)) (n : ℤ)
    (s : SolverState nf nd dims) (k : ℕ) :
    ∀ s', (List.range k).foldlM (fun s _ => s.epoch m bricks n) s = some s' →
    s' = { s with stepper := (pairAfter m s (k * n.toNat)).1, store := (pairAfter m s (k * n.toNat)).2,
                  monitors := s'.monitors } ∧
      List.Forall₂ (Appended bricks ((List.range k).map fun j => storeAfter m s ((j + 1) * n.toNat)))
        s.monitors s'.monitors := by
  induction k with
  | zero =>
    intro s' h
    simp only [List.range_zero, List.foldlM_nil] at h
    obtain rfl := Option.some.inj h
    refine ⟨?_, ?_⟩
    · rw [Nat.zero_mul]
      obtain ⟨dt, kind, stp, st, mons⟩ := s
      cases kind <;> rfl
    · exact List.forall₂_same.mpr fun p _ => Appended.refl bricks p
  | succ k ih =>
    intro s' h
    rw [List.range_succ, List.foldlM_append] at h
    simp only [Option.bind_eq_bind, Option.bind_eq_some_iff, List.foldlM_cons, List.foldlM_nil] at h
    obtain ⟨s1, h1, s2, h2, h3⟩ := h
    obtain rfl := Option.some.inj h3
    obtain ⟨e1, m1⟩ := ih s1 h1
    obtain ⟨e2, m2⟩ := epoch_spec m bricks n s1 s2 h2
    have hp : pairAfter m s1 n.toNat = pairAfter m s ((k + 1) * n.toNat) := by
      rw [e1, pairAfter_add, Nat.succ_mul]
    refine ⟨?_, ?_⟩
    · rw [e2, hp, e1]
    · rw [← store_after, hp, store_after] at m2
      rw [List.range_succ, List.map_append, List.map_cons, List.map_nil]
      generalize (List.range k).map (fun j => storeAfter m s ((j + 1) * n.toNat)) = sts at m1 ⊢
      clear e1 e2 hp h1 h2 ih
      generalize s.monitors = l0 at m1 ⊢
      generalize s1.monitors = l1 at m1 m2
      generalize s2.monitors = l2 at m2 ⊢
      induction m1 generalizing l2 with
      | nil => cases m2; exact .nil
      | cons a _ ih => cases m2 with
        | cons b c => exact .cons (a.trans b) (ih _ c)

/-- The effect of one call on everything but the monitors. -/
theorem call_spec (m : Model nf nd dims.prod) (bricks : Str → Option (BrickRef nf nd)) (c : SolverCall)
    (s s' : SolverState nf nd dims) (h : s.call m bricks c = some s') :
    ∃ added : List PointMonitor, ∃ old : List PointMonitor, s'.monitors = old ++ added ∧
      List.Forall₂ (Appended bricks (epochEnds m s c)) s.monitors old ∧
      added = (match c with
        | .addMonitor site field => [newPointMonitor site field]
        | _ => []) := by
  cases c with
  | addMonitor site field =>
    obtain rfl := Option.some.inj h
    exact ⟨_, s.monitors, rfl, List.forall₂_same.mpr fun p _ => Appended.refl bricks p, rfl⟩
  | setStepper name =>
    refine ⟨[], s.monitors, ?_, List.forall₂_same.mpr fun p _ => Appended.refl bricks p, rfl⟩
    simp only [SolverState.call, SolverState.setStepper] at h
    split_ifs at h <;> obtain rfl := Option.some.inj h <;> simp
  | setFilter filter =>
    obtain rfl := Option.some.inj h
    exact ⟨[], s.monitors, by simp, List.forall₂_same.mpr fun p _ => Appended.refl bricks p, rfl⟩
  | propagate n =>
    obtain rfl := Option.some.inj h
    refine ⟨[], s.monitors, ?_, List.forall₂_same.mpr fun p _ => Appended.refl bricks p, rfl⟩
    rw [propagate_eq]
    simp
  | solve e n =>
    obtain ⟨-, h2⟩ := solve_spec m bricks n s e.toNat s' h
    exact ⟨[], s'.monitors, by simp, h2, rfl⟩

/-- The old monitors after a session. -/
theorem session_monitors (m : Model nf nd dims.prod) (bricks : Str → Option (BrickRef nf nd)) :
    ∀ (calls : List SolverCall) (s s' : SolverState nf nd dims), s.session m bricks calls = some s' →
      ∃ old added, s'.monitors = old ++ added ∧
        List.Forall₂ (Appended bricks (sessionEnds m bricks s calls)) s.monitors old := by
  intro calls
  induction calls with
  | nil =>
    intro s s' h
    obtain rfl := Option.some.inj h
    exact ⟨s.monitors, [], by simp, List.forall₂_same.mpr fun p _ => Appended.refl bricks p⟩
  | cons c cs ih =>
    intro s s' h
    unfold SolverState.session at h
    rw [List.foldlM_cons] at h
    simp only [Option.bind_eq_bind, Option.bind_eq_some_iff] at h
    obtain ⟨s1, h1, h2⟩ := h
    obtain ⟨added, old, e, ho, -⟩ := call_spec m bricks c s s1 h1
    obtain ⟨old', added', e', ho'⟩ := ih s1 s' h2
    rw [e] at ho'
    have hends : sessionEnds m bricks s (c :: cs) = epochEnds m s c ++ sessionEnds m bricks s1 cs := by
      simp only [sessionEnds, h1, Option.map_some, Option.getD_some]
    rw [hends]
    generalize s.monitors = l0 at ho ⊢
    generalize sessionEnds m bricks s1 cs = sts at ho' ⊢
    rw [e']
    clear e' e
    induction ho generalizing old' with
    | nil => exact ⟨[], old' ++ added', by simp, .nil⟩
    | cons a _ ih2 =>
      cases ho' with
      | cons b c =>
        obtain ⟨o, ad, e, hf⟩ := ih2 _ c
        exact ⟨_ :: o, ad, by rw [List.cons_append, e]; rfl, .cons (a.trans b) hf⟩

/-! ## C113 -/

/-- C113: what a monitor records. If a monitor of a field is added and the session goes on with any calls, its
data afterwards are the real parts of the field at the site at the ends of the epochs solved since, one number
for each epoch, whatever steppers, filters and further monitors are set in between. -/
theorem c113_monitor (m : Model nf nd dims.prod) (bricks : Str → Option (BrickRef nf nd)) (s s1 s' : SolverState nf nd dims)
    (name : Str) (i : Fin nf) (hname : bricks name = some (.field i)) (x : Fin dims.prod)
    (hadd : s.call m bricks (.addMonitor (x.val : ℤ) name) = some s1) (calls : List SolverCall)
    (h : s1.session m bricks calls = some s') :
    ∃ p, s'.monitors[s.monitors.length]? = some p ∧ p.site = x.val ∧ p.field = name ∧
      p.data = (sessionEnds m bricks s1 calls).map fun st => (st.fields i x).re := by
  obtain rfl := Option.some.inj hadd
  obtain ⟨old, added, e, hf⟩ := session_monitors m bricks calls _ s' h
  dsimp only at hf
  generalize sessionEnds m bricks _ calls = sts at hf ⊢
  have hlen := hf.length_eq
  rw [List.length_append, List.length_singleton] at hlen
  have hlt : s.monitors.length < old.length := by omega
  have hget := (List.forall₂_iff_get.mp hf).2 s.monitors.length (by simp) hlt
  simp only [List.get_eq_getElem, List.getElem_append_right (le_refl s.monitors.length), Nat.sub_self,
    List.getElem_cons_zero] at hget
  obtain ⟨hs, hfl, zs, hz, hd⟩ := hget
  refine ⟨old[s.monitors.length], ?_, hs, hfl, ?_⟩
  · rw [e, List.getElem?_append_left hlt, List.getElem?_eq_getElem hlt]
  · rw [hd]
    have hz' : zs = sts.map fun st => st.fields i x := by
      clear hd hf hs hfl hlen
      induction hz with
      | nil => rfl
      | cons a _ ih =>
        obtain ⟨b, hb, hg⟩ := a
        simp only [newPointMonitor] at hb hg
        rw [hname] at hb
        obtain rfl := Option.some.inj hb
        obtain ⟨_, hx⟩ := dataAt_some _ (x.val : ℤ) (by omega) (by exact_mod_cast x.2)
        rw [BrickRef.get, hx] at hg
        rw [List.map_cons, ← ih, ← Option.some.inj hg]
        rfl
    rw [hz', List.map_map]
    simp [newPointMonitor, Function.comp_def]

/-- C113: the monitor of a derived field does not record the derived field. After a step of the Euler stepper the
data of a derived field are the Fourier coefficients it had before the step. -/
theorem c113_derived (m : Model nf nd dims.prod) (hd : FieldsOnly m) (s : Stepper dims.prod)
    (st : Store nf nd dims.prod) (d : Fin nd) :
    (eulerStep m (s, st)).2.derived d = fft dims (m.calcs d st) := by
  have hloop : ∀ (l : List (Fin nf)) (st1 : Store nf nd dims.prod) t,
      (l.foldl (eulerField m s t) st1).derived = st1.derived := by
    intro l
    induction l with
    | nil => intro st1 t; rfl
    | cons i l ih => intro st1 t; rw [List.foldl_cons, ih]; rfl
  show (ifftFields _).derived d = _
  simp only [ifftFields, hloop, fftDerived, fftFields]
  rw [sync_eq hd]

/-- C113: when solving panics. -/
theorem c113_panics (m : Model nf nd dims.prod) (bricks : Str → Option (BrickRef nf nd)) (e n : ℤ)
    (s : SolverState nf nd dims) :
    s.call m bricks (.solve e n) = none ↔ 0 < e ∧ ∃ p ∈ s.monitors, ¬ Readable bricks dims.prod p := by
  have hep : ∀ s : SolverState nf nd dims, s.epoch m bricks n = none ↔ ∃ p ∈ s.monitors, ¬ Readable bricks dims.prod p := by
    intro s
    have hmm : s.epoch m bricks n = none ↔
        ¬ ∃ l, s.monitors.mapM (PointMonitor.add bricks (s.propagate m n).store) = some l := by
      unfold SolverState.epoch SolverState.runMonitors
      have hmon : (s.propagate m n).monitors = s.monitors := by rw [propagate_eq]
      rw [hmon]
      cases hx : s.monitors.mapM (PointMonitor.add bricks (s.propagate m n).store) <;> simp
    rw [hmm, mapM_isSome]
    simp only [add_some]
    push Not
    rfl
  have hread : ∀ (s s' : SolverState nf nd dims), s.epoch m bricks n = some s' →
      ((∃ p ∈ s'.monitors, ¬ Readable bricks dims.prod p) ↔ ∃ p ∈ s.monitors, ¬ Readable bricks dims.prod p) := by
    intro s s' h
    have hn : ¬ ∃ p ∈ s.monitors, ¬ Readable bricks dims.prod p := by
      rw [← hep, h]; simp
    have hs := (epoch_spec m bricks n s s' h).2
    refine iff_of_false ?_ hn
    push Not at hn ⊢
    generalize s.monitors = l at hs hn
    generalize s'.monitors = l' at hs ⊢
    induction hs with
    | nil => simp
    | cons a _ ih =>
      rw [List.forall_mem_cons] at hn ⊢
      refine ⟨?_, ih hn.2⟩
      obtain ⟨h1, h2, -⟩ := a
      obtain ⟨b, hb⟩ := hn.1
      exact ⟨b, by rw [h1, h2]; exact hb⟩
  show (List.range e.toNat).foldlM (fun s _ => s.epoch m bricks n) s = none ↔ _
  have hfold : ∀ (l : List ℕ) (s : SolverState nf nd dims),
      l.foldlM (fun (s : SolverState nf nd dims) _ => s.epoch m bricks n) s = none ↔
        l ≠ [] ∧ ∃ p ∈ s.monitors, ¬ Readable bricks dims.prod p := by
    intro l
    induction l with
    | nil => intro s; simp
    | cons a l ih =>
      intro s
      rw [List.foldlM_cons]
      cases hx : s.epoch m bricks n with
      | none =>
        have := (hep s).mp hx
        simp [this]
      | some s1 =>
        have hn : ¬ ∃ p ∈ s.monitors, ¬ Readable bricks dims.prod p := by
          rw [← hep, hx]; simp
        show List.foldlM _ s1 l = none ↔ _
        rw [ih, hread s s1 hx]
        exact iff_of_false (fun h => hn h.2) (fun h => hn h.2)
  rw [hfold]
  have : List.range e.toNat ≠ [] ↔ 0 < e := by
    rw [Ne, List.range_eq_nil]; omega
  rw [this]

/-- C113: solving is propagating. `Solve(e, n)` leaves the fields, the derived fields and the stepper as
`Propagate(e n)` does, and propagating in two parts is propagating in one. -/
theorem c113_split (m : Model nf nd dims.prod) (bricks : Str → Option (BrickRef nf nd)) (s s' : SolverState nf nd dims)
    (e n : ℤ) (h : s.call m bricks (.solve e n) = some s') (a b : ℕ) :
    s'.store = (s.propagate m ((e.toNat * n.toNat : ℕ) : ℤ)).store ∧
    s'.stepper = (s.propagate m ((e.toNat * n.toNat : ℕ) : ℤ)).stepper ∧
    (s.propagate m (a : ℤ)).propagate m (b : ℤ) = s.propagate m ((a + b : ℕ) : ℤ) := by
  have h1 := (solve_spec m bricks n s e.toNat s' h).1
  refine ⟨?_, ?_, ?_⟩
  · rw [h1, propagate_eq, Int.toNat_natCast]
  · rw [h1, propagate_eq, Int.toNat_natCast]
  · simp only [propagate_eq, Int.toNat_natCast, pairAfter_add]

/-- C113: choosing a stepper. Only the two documented names are accepted; the new stepper starts at time zero and
without a filter, and nothing else changes. -/
theorem c113_choice (m : Model nf nd dims.prod) (bricks : Str → Option (BrickRef nf nd)) (s : SolverState nf nd dims)
    (name : Str) :
    (s.call m bricks (.setStepper name) = none ↔ name ≠ "euler".toList ∧ name ≠ "rk4".toList) ∧
    ∀ s', s.call m bricks (.setStepper name) = some s' →
      s'.stepper.getTime = 0 ∧ s'.stepper.filter = none ∧ s'.stepper.dt = s.dt ∧ s'.store = s.store ∧
      s'.monitors = s.monitors ∧ (name = "euler".toList → s'.kind = .euler) ∧ (name = "rk4".toList → s'.kind = .rk4) := by
  refine ⟨?_, ?_⟩
  · simp only [SolverState.call, SolverState.setStepper]
    split_ifs with h1 h2
    · exact iff_of_false (by simp) fun h => h.1 h1
    · exact iff_of_false (by simp) fun h => h.2 h2
    · exact iff_of_true rfl ⟨h1, h2⟩
  · intro s' h
    simp only [SolverState.call, SolverState.setStepper] at h
    split_ifs at h with h1 h2
    · obtain rfl := Option.some.inj h
      refine ⟨by simp [Stepper.getTime], rfl, rfl, rfl, rfl, fun _ => rfl, fun h3 => ?_⟩
      rw [h1] at h3
      exact absurd h3 (by decide)
    · obtain rfl := Option.some.inj h
      exact ⟨by simp [Stepper.getTime], rfl, rfl, rfl, rfl, fun h3 => absurd h3 h1, fun _ => rfl⟩

/-- The stepper of a state fits to the calls that led to it. -/
def FitsCalls (dt : ℝ) (calls : List SolverCall) (s : SolverState nf nd dims) : Prop :=
  s.dt = dt ∧ s.stepper.dt = dt ∧ s.stepper.freq = freqOf dims ∧
    ((chosenStepper calls = "euler".toList ∧ s.kind = .euler ∧ s.stepper.currentStep = stepsSinceChoice calls) ∨
     (chosenStepper calls = "rk4".toList ∧ s.kind = .rk4 ∧ s.stepper.currentStep = 0))

theorem euler_pair (m : Model nf nd dims.prod) (n : ℕ) (p : Stepper dims.prod × Store nf nd dims.prod) :
    ((eulerStep m)^[n] p).1 = { p.1 with currentStep := p.1.currentStep + n } := by
  induction n with
  | zero => rfl
  | succ n ih =>
    rw [Function.iterate_succ_apply', eulerStep, ih]
    rfl

theorem rk4_pair (m : Model nf nd dims.prod) (n : ℕ) (p : Stepper dims.prod × Store nf nd dims.prod) :
    ((rk4Step m)^[n] p).1 = p.1 := by
  induction n with
  | zero => rfl
  | succ n ih =>
    rw [Function.iterate_succ_apply', rk4Step]
    exact ih

theorem fits_step (m : Model nf nd dims.prod) {dt : ℝ} {calls : List SolverCall} {s : SolverState nf nd dims}
    (h : FitsCalls dt calls s) (n : ℕ) (c : SolverCall) (hc : ∀ nm, c ≠ .setStepper nm) (hn : stepsAsked c = n)
    (mons : List PointMonitor) :
    FitsCalls dt (calls ++ [c])
      { s with stepper := (pairAfter m s n).1, store := (pairAfter m s n).2, monitors := mons } := by
  have e1 : chosenStepper (calls ++ [c]) = chosenStepper calls := by
    unfold chosenStepper
    rw [List.foldl_append]
    cases c <;> first | rfl | exact absurd rfl (hc _)
  have e2 : stepsSinceChoice (calls ++ [c]) = stepsSinceChoice calls + n := by
    unfold stepsSinceChoice
    rw [List.foldl_append, ← hn]
    cases c <;> first | rfl | exact absurd rfl (hc _)
  obtain ⟨h1, h2, h3, h4⟩ := h
  obtain ⟨dt', kind, stp, st, ms⟩ := s
  dsimp only at h1 h2 h3 h4
  rcases h4 with ⟨h5, rfl, h6⟩ | ⟨h5, rfl, h6⟩
  · refine ⟨h1, ?_, ?_, Or.inl ⟨by rw [e1]; exact h5, rfl, ?_⟩⟩ <;> simp only [pairAfter, euler_pair]
    · exact h2
    · exact h3
    · rw [e2, h6]
  · refine ⟨h1, ?_, ?_, Or.inr ⟨by rw [e1]; exact h5, rfl, ?_⟩⟩ <;> simp only [pairAfter, rk4_pair]
    · exact h2
    · exact h3
    · exact h6

theorem fits_call (m : Model nf nd dims.prod) (bricks : Str → Option (BrickRef nf nd)) {dt : ℝ} {calls : List SolverCall}
    {s s' : SolverState nf nd dims} (h : FitsCalls dt calls s) (c : SolverCall) (hc : s.call m bricks c = some s') :
    FitsCalls dt (calls ++ [c]) s' := by
  have h0 : ∀ mons, ({ s with stepper := (pairAfter m s 0).1, store := (pairAfter m s 0).2, monitors := mons } :
      SolverState nf nd dims) = { s with monitors := mons } := by
    intro mons
    obtain ⟨dt', kind, stp, st, ms⟩ := s
    cases kind <;> rfl
  cases c with
  | addMonitor site field =>
    obtain rfl := Option.some.inj hc
    have := fits_step m h 0 (.addMonitor site field) (by simp) rfl (s.monitors ++ [newPointMonitor site field])
    rw [h0] at this
    exact this
  | setFilter filter =>
    obtain rfl := Option.some.inj hc
    have := fits_step m h 0 (.setFilter filter) (by simp) rfl s.monitors
    rw [h0] at this
    exact this
  | propagate n =>
    obtain rfl := Option.some.inj hc
    rw [propagate_eq]
    exact fits_step m h n.toNat (.propagate n) (by simp) rfl s.monitors
  | solve e n =>
    rw [(solve_spec m bricks n s e.toNat s' hc).1]
    exact fits_step m h (e.toNat * n.toNat) (.solve e n) (by simp) rfl s'.monitors
  | setStepper name =>
    have e1 : chosenStepper (calls ++ [.setStepper name]) = name := by
      unfold chosenStepper
      rw [List.foldl_append]
      rfl
    have e2 : stepsSinceChoice (calls ++ [.setStepper name]) = 0 := by
      unfold stepsSinceChoice
      rw [List.foldl_append]
      rfl
    simp only [SolverState.call, SolverState.setStepper] at hc
    split_ifs at hc with h1 h2
    · obtain rfl := Option.some.inj hc
      exact ⟨h.1, h.1, rfl, Or.inl ⟨by rw [e1, h1], rfl, by rw [e2]⟩⟩
    · obtain rfl := Option.some.inj hc
      exact ⟨h.1, h.1, rfl, Or.inr ⟨by rw [e1, h2], rfl, rfl⟩⟩

theorem fits_session (m : Model nf nd dims.prod) (bricks : Str → Option (BrickRef nf nd)) {dt : ℝ} :
    ∀ (calls before : List SolverCall) (s s' : SolverState nf nd dims), FitsCalls dt before s →
      s.session m bricks calls = some s' → FitsCalls dt (before ++ calls) s' := by
  intro calls
  induction calls with
  | nil =>
    intro before s s' h hs
    obtain rfl := Option.some.inj hs
    rw [List.append_nil]
    exact h
  | cons c cs ih =>
    intro before s s' h hs
    unfold SolverState.session at hs
    rw [List.foldlM_cons] at hs
    simp only [Option.bind_eq_bind, Option.bind_eq_some_iff] at hs
    obtain ⟨s1, h1, h2⟩ := hs
    have := ih (before ++ [c]) s1 s' (fits_call m bricks h c h1) h2
    rw [List.append_assoc] at this
    exact this

/-- C113: a new solver. The data of every field must have as many elements as the domain has nodes; then the
solver holds them, uses the Euler stepper and is at time zero. -/
theorem c113_new (dt : ℝ) (fields : Fin nf → List ℂ) (derived : Fin nd → Data dims.prod) :
    (newSolver dims dt fields derived = none ↔ ∃ i, (fields i).length ≠ dims.prod) ∧
    ∀ s, newSolver dims dt fields derived = some s →
      (∀ i, List.ofFn (s.store.fields i) = fields i) ∧ s.stepper.getTime = 0 ∧ s.kind = .euler ∧ s.monitors = [] := by
  unfold newSolver
  refine ⟨?_, ?_⟩
  · split_ifs with h
    · simp [h]
    · simpa using h
  · intro s hs
    split_ifs at hs with h
    obtain rfl := Option.some.inj hs
    refine ⟨fun i => ?_, by simp [Stepper.getTime], rfl, rfl⟩
    apply List.ext_getElem
    · simp [h i]
    · intro j h1 h2
      simp

/-- C113: the time. After any session with a new solver the reported time is the time step times the number of
steps since a stepper was chosen for the last time, if that was the Euler stepper (or none was chosen), and
zero if it was the RK4 stepper. -/
theorem c113_time (m : Model nf nd dims.prod) (bricks : Str → Option (BrickRef nf nd)) (dt : ℝ) (fields : Fin nf → List ℂ)
    (derived : Fin nd → Data dims.prod) (s s' : SolverState nf nd dims)
    (hs : newSolver dims dt fields derived = some s) (calls : List SolverCall)
    (h : s.session m bricks calls = some s') :
    (chosenStepper calls = "euler".toList ∧ s'.stepper.getTime = stepsSinceChoice calls * dt) ∨
    (chosenStepper calls = "rk4".toList ∧ s'.stepper.getTime = 0) := by
  have h0 : FitsCalls dt [] s := by
    unfold newSolver at hs
    split_ifs at hs with hl
    obtain rfl := Option.some.inj hs
    exact ⟨rfl, rfl, rfl, Or.inl ⟨rfl, rfl, rfl⟩⟩
  obtain ⟨-, h2, -, h4⟩ := fits_session m bricks calls [] s s' h0 h
  rw [List.nil_append] at h4
  rcases h4 with ⟨h5, -, h6⟩ | ⟨h5, -, h6⟩
  · exact Or.inl ⟨h5, by rw [Stepper.getTime, h2, h6]⟩
  · exact Or.inr ⟨h5, by rw [Stepper.getTime, h6]; simp⟩

theorem filter_call (m : Model nf nd dims.prod) (bricks : Str → Option (BrickRef nf nd)) {calls : List SolverCall}
    {s s' : SolverState nf nd dims} (h : s.stepper.filter = currentFilter calls) (c : SolverCall)
    (hc : s.call m bricks c = some s') : s'.stepper.filter = currentFilter (calls ++ [c]) := by
  have hp : ∀ n, (pairAfter m s n).1.filter = s.stepper.filter := by
    intro n
    unfold pairAfter
    cases s.kind with
    | euler => simp only [euler_pair]
    | rk4 => simp only [rk4_pair]
  unfold currentFilter at h ⊢
  rw [List.foldl_append]
  cases c with
  | addMonitor site field => obtain rfl := Option.some.inj hc; exact h
  | setFilter filter => obtain rfl := Option.some.inj hc; rfl
  | propagate n =>
    obtain rfl := Option.some.inj hc
    rw [propagate_eq]
    exact (hp _).trans h
  | solve e n =>
    rw [(solve_spec m bricks n s e.toNat s' hc).1]
    exact (hp _).trans h
  | setStepper name =>
    exact ((c113_choice m bricks s name).2 s' hc).2.1

/-- C113: the next step. After any session with a new solver, a further step is a step of the stepper chosen last,
with the time step and the frequencies of the solver, at the time since the choice (zero for RK4), with the filter
set last since the choice. -/
theorem c113_next (m : Model nf nd dims.prod) (bricks : Str → Option (BrickRef nf nd)) (dt : ℝ) (fields : Fin nf → List ℂ)
    (derived : Fin nd → Data dims.prod) (s s' : SolverState nf nd dims)
    (hs : newSolver dims dt fields derived = some s) (calls : List SolverCall)
    (h : s.session m bricks calls = some s') :
    (s'.propagate m 1).store =
      if chosenStepper calls = "rk4".toList then (rk4Step m (⟨dt, freqOf dims, currentFilter calls, 0⟩, s'.store)).2
      else (eulerStep m (⟨dt, freqOf dims, currentFilter calls, stepsSinceChoice calls⟩, s'.store)).2 := by
  have h0 : FitsCalls dt [] s ∧ s.stepper.filter = currentFilter [] := by
    unfold newSolver at hs
    split_ifs at hs with hl
    obtain rfl := Option.some.inj hs
    exact ⟨⟨rfl, rfl, rfl, Or.inl ⟨rfl, rfl, rfl⟩⟩, rfl⟩
  obtain ⟨-, h2, h3, h4⟩ := fits_session m bricks calls [] s s' h0.1 h
  have hf : ∀ (calls before : List SolverCall) (s s' : SolverState nf nd dims),
      s.stepper.filter = currentFilter before → s.session m bricks calls = some s' →
      s'.stepper.filter = currentFilter (before ++ calls) := by
    intro calls
    induction calls with
    | nil =>
      intro before s s' h hs
      obtain rfl := Option.some.inj hs
      rw [List.append_nil]
      exact h
    | cons c cs ih =>
      intro before s s' h hs
      unfold SolverState.session at hs
      rw [List.foldlM_cons] at hs
      simp only [Option.bind_eq_bind, Option.bind_eq_some_iff] at hs
      obtain ⟨s1, h1, h2⟩ := hs
      have := ih (before ++ [c]) s1 s' (filter_call m bricks h c h1) h2
      rw [List.append_assoc] at this
      exact this
  have h5 := hf calls [] s s' h0.2 h
  rw [List.nil_append] at h4 h5
  rw [propagate_eq]
  obtain ⟨dt', kind, ⟨sdt, freq, filter, c⟩, st, ms⟩ := s'
  dsimp only at h2 h3 h4 h5
  subst h2 h3 h5
  rcases h4 with ⟨h6, rfl, rfl⟩ | ⟨h6, rfl, rfl⟩
  · rw [if_neg (by rw [h6]; decide)]
    rfl
  · rw [if_pos h6]
    rfl

/-- A call that does not choose another stepper or a filter. -/
def KeepsEuler : SolverCall → Prop
  | .setStepper name => name = "euler".toList
  | .setFilter _ => False
  | _ => True

/-- The equations do not depend on time. -/
def TimeFree (freq : Frequency dims.prod) (m : Model nf nd dims.prod) : Prop :=
  ∀ i st t, m.getRHS i st freq t = m.getRHS i st freq 0 ∧ m.getDenum i st freq t = m.getDenum i st freq 0

theorem eulerStepAt_timeFree (m : Model nf nd dims.prod) (s s' : Stepper dims.prod) (hm : TimeFree s.freq m)
    (h1 : s'.dt = s.dt) (h2 : s'.freq = s.freq) (h3 : s'.filter = s.filter) (t t' : ℝ) (st : Store nf nd dims.prod) :
    eulerStepAt m s t st = eulerStepAt m s' t' st := by
  have : eulerField m s t = eulerField m s' t' := by
    funext st i
    unfold eulerField
    rw [h1, h2, h3, (hm i st t).1, (hm i st t').1, (hm i st t).2, (hm i st t').2]
  unfold eulerStepAt
  rw [this]

theorem iterate_timeFree (m : Model nf nd dims.prod) (s : Stepper dims.prod) (hm : TimeFree s.freq m)
    (st : Store nf nd dims.prod) (n : ℕ) :
    ((eulerStep m)^[n] (s, st)).2 = (eulerStepAt m s 0)^[n] st := by
  induction n with
  | zero => rfl
  | succ n ih =>
    rw [Function.iterate_succ_apply', Function.iterate_succ_apply', ← ih, eulerStep]
    have hp := euler_pair m n (s, st)
    exact (eulerStepAt_timeFree m s _ hm (by rw [hp]) (by rw [hp]) (by rw [hp]) 0 _ _).symm

/-- C113: choosing the Euler stepper again in the middle of a run changes nothing if the equations do not depend
on time: after any session that only propagates, solves, adds monitors and chooses the Euler stepper, the fields
are those of one run with all the steps. -/
theorem c113_choose_again (m : Model nf nd dims.prod) (hm : TimeFree (freqOf dims) m)
    (bricks : Str → Option (BrickRef nf nd)) (dt : ℝ) (fields : Fin nf → List ℂ)
    (derived : Fin nd → Data dims.prod) (s s' : SolverState nf nd dims)
    (hs : newSolver dims dt fields derived = some s) (calls : List SolverCall) (hk : ∀ c ∈ calls, KeepsEuler c)
    (h : s.session m bricks calls = some s') :
    s'.store = (s.propagate m (((calls.map stepsAsked).sum : ℕ) : ℤ)).store := by
  have key : ∀ (calls : List SolverCall) (s s' : SolverState nf nd dims), s.kind = .euler → s.dt = dt →
      s.stepper.dt = dt → s.stepper.freq = freqOf dims → s.stepper.filter = none → (∀ c ∈ calls, KeepsEuler c) →
      s.session m bricks calls = some s' →
      s'.store = (eulerStepAt m ⟨dt, freqOf dims, none, 0⟩ 0)^[(calls.map stepsAsked).sum] s.store := by
    intro calls
    induction calls with
    | nil =>
      intro s s' _ _ _ _ _ _ h
      obtain rfl := Option.some.inj h
      rfl
    | cons c cs ih =>
      intro s s' h1 h2 h3 h4 h5 hk h
      unfold SolverState.session at h
      rw [List.foldlM_cons] at h
      simp only [Option.bind_eq_bind, Option.bind_eq_some_iff] at h
      obtain ⟨s1, hc, hcs⟩ := h
      have hstep : ∀ n, ((eulerStep m)^[n] (s.stepper, s.store)).2 =
          (eulerStepAt m ⟨dt, freqOf dims, none, 0⟩ 0)^[n] s.store := by
        intro n
        rw [iterate_timeFree m s.stepper (by rw [h4]; exact hm)]
        congr 1
        funext st
        exact eulerStepAt_timeFree m _ _ (by rw [h4]; exact hm) h3.symm h4.symm h5.symm 0 0 st
      have hpair : ∀ n, (pairAfter m s n).2 = (eulerStepAt m ⟨dt, freqOf dims, none, 0⟩ 0)^[n] s.store ∧
          (pairAfter m s n).1.dt = dt ∧ (pairAfter m s n).1.freq = freqOf dims ∧ (pairAfter m s n).1.filter = none := by
        intro n
        unfold pairAfter
        rw [h1]
        refine ⟨hstep n, ?_⟩
        rw [euler_pair]
        exact ⟨h3, h4, h5⟩
      have one : s1.kind = .euler ∧ s1.dt = dt ∧ s1.stepper.dt = dt ∧ s1.stepper.freq = freqOf dims ∧
          s1.stepper.filter = none ∧
          s1.store = (eulerStepAt m ⟨dt, freqOf dims, none, 0⟩ 0)^[stepsAsked c] s.store := by
        have hkc := hk c (by simp)
        cases c with
        | addMonitor site field =>
          obtain rfl := Option.some.inj hc
          exact ⟨h1, h2, h3, h4, h5, rfl⟩
        | setFilter filter => exact hkc.elim
        | propagate n =>
          obtain rfl := Option.some.inj hc
          rw [propagate_eq]
          obtain ⟨p1, p2, p3, p4⟩ := hpair n.toNat
          exact ⟨h1, h2, p2, p3, p4, p1⟩
        | solve e n =>
          rw [(solve_spec m bricks n s e.toNat s1 hc).1]
          obtain ⟨p1, p2, p3, p4⟩ := hpair (e.toNat * n.toNat)
          exact ⟨h1, h2, p2, p3, p4, p1⟩
        | setStepper name =>
          simp only [SolverState.call, SolverState.setStepper, if_pos (show name = "euler".toList from hkc)] at hc
          obtain rfl := Option.some.inj hc
          exact ⟨rfl, h2, h2, rfl, rfl, rfl⟩
      obtain ⟨q1, q2, q3, q4, q5, q6⟩ := one
      rw [ih s1 s' q1 q2 q3 q4 q5 (fun c hc => hk c (by simp [hc])) hcs, q6, ← Function.iterate_add_apply,
        List.map_cons, List.sum_cons, Nat.add_comm]
  unfold newSolver at hs
  split_ifs at hs with hl
  obtain rfl := Option.some.inj hs
  rw [key calls _ s' rfl rfl rfl rfl rfl hk h, propagate_eq, Int.toNat_natCast]
  exact (iterate_timeFree m ⟨dt, freqOf dims, none, 0⟩ hm _ _).symm

/-! ### Equations that depend on time -/

theorem ramp_rhs' (freq : Frequency [1].prod) (i : Fin 1) (st : Store 1 0 [1].prod) (t : ℝ) (k : Fin [1].prod) :
    ramp2Model.getRHS i st freq t k = 2 * t := by
  rw [c21_rhs]
  cases hf : freq k <;> simp [ramp2Model, Source.eval, dotR, hf]

theorem ramp_euler (dt : ℝ) (freq : Frequency [1].prod) (c : ℕ) (st : Store 1 0 [1].prod) :
    eulerStep ramp2Model (⟨dt, freq, none, c⟩, st) =
      (⟨dt, freq, none, c + 1⟩,
        ⟨fun _ x => st.fields 0 x + ((2 * c * dt ^ 2 : ℝ) : ℂ), fun d => d.elim0⟩) := by
  obtain ⟨st', -, h2, h3⟩ := eulerStep_store (dims := [1]) (by simp) ramp2Model ⟨dt, freq, none, c⟩ (c * dt) st 0
  have hx : ∀ x, (eulerStepAt ramp2Model ⟨dt, freq, none, c⟩ (c * dt) st).fields 0 x =
      st.fields 0 x + ((2 * c * dt ^ 2 : ℝ) : ℂ) := by
    intro x
    have h4 := congrFun h3 x
    rw [fft_one] at h4
    simp only [optFilter, ramp_rhs', c21_denum, fft_one] at h4
    refine h4.trans ?_
    simp only [ramp2Model, List.map_nil, List.sum_nil, mul_zero, sub_zero, div_one]
    push_cast
    ring
  show (_, eulerStepAt ramp2Model ⟨dt, freq, none, c⟩ (c * dt) st) = _
  refine Prod.ext rfl ?_
  have : ∀ a b : Store 1 0 [1].prod, (∀ x, a.fields 0 x = b.fields 0 x) → a = b := by
    rintro ⟨f, d⟩ ⟨f', d'⟩ h
    congr
    · funext i x
      rw [Subsingleton.elim i 0]
      exact h x
    · funext d
      exact d.elim0
  exact this _ _ hx

/-- C113: for equations that depend on time, choosing the Euler stepper again changes the result. With the source
`2 t` four steps give `12 dt ^ 2`; if the same stepper is chosen again after two of them, they give `4 dt ^ 2`. -/
theorem c113_choose_again_time (bricks : Str → Option (BrickRef 1 0)) (dt : ℝ) :
    ∃ s s1 s2 : SolverState 1 0 [1], newSolver [1] dt (fun _ => [0]) (fun d => d.elim0) = some s ∧
      s.session ramp2Model bricks [.propagate 4] = some s1 ∧
      s.session ramp2Model bricks [.propagate 2, .setStepper "euler".toList, .propagate 2] = some s2 ∧
      (∀ x, s1.store.fields 0 x = ((12 * dt ^ 2 : ℝ) : ℂ)) ∧ ∀ x, s2.store.fields 0 x = ((4 * dt ^ 2 : ℝ) : ℂ) := by
  have hlen : ∀ i : Fin 1, ([0] : List ℂ).length = [1].prod := by intro i; rfl
  have hnew : newSolver (nf := 1) (nd := 0) [1] dt (fun _ => [0]) (fun d => d.elim0) = some _ := dif_pos hlen
  have h0 : ∀ x : Fin [1].prod, ([0] : List ℂ).get (Fin.cast (hlen 0).symm x) = 0 := by
    intro x
    have := x.2
    simp at this
    simp
  refine ⟨_, _, _, hnew, rfl, rfl, ?_, ?_⟩
  · intro x
    rw [propagate_eq]
    simp only [pairAfter, show (4 : ℤ).toNat = 4 from rfl, Function.iterate_succ, Function.comp_apply,
      Function.iterate_zero, id_eq, ramp_euler, h0]
    push_cast
    ring
  · intro x
    simp only [propagate_eq, pairAfter, show (2 : ℤ).toNat = 2 from rfl, Function.iterate_succ, Function.comp_apply,
      Function.iterate_zero, id_eq, ramp_euler, h0]
    push_cast
    ring

/-! ### The conditions are met -/

/-- The name of the only field. -/
def oneName (name : Str) : Option (BrickRef 1 1) :=
  if name = "conc".toList then some (.field 0) else if name = "conc2".toList then some (.derived 0) else none

/-- A session with a monitor: the hypotheses of `c113_monitor`, `c113_time` and `c113_choose_again` are met. -/
example : ∃ s s1 s' : SolverState 1 1 [1], newSolver [1] 1 (fun _ => [1]) (fun _ _ => 0) = some s ∧
    s.call squareModel oneName (.addMonitor ((⟨0, by decide⟩ : Fin [1].prod).val : ℤ) "conc".toList) = some s1 ∧
    oneName "conc".toList = some (.field 0) ∧
    s1.session squareModel oneName [.solve 2 3, .setStepper "euler".toList, .propagate 1, .solve 1 1] = some s' ∧
    (∀ c ∈ [SolverCall.solve 2 3, .setStepper "euler".toList, .propagate 1, .solve 1 1], KeepsEuler c) ∧
    (sessionEnds squareModel oneName s1
      [.solve 2 3, .setStepper "euler".toList, .propagate 1, .solve 1 1]).length = 3 := by
  have hlen : ∀ i : Fin 1, ([1] : List ℂ).length = [1].prod := by intro i; rfl
  have hnew : newSolver (nf := 1) (nd := 1) [1] 1 (fun _ => [1]) (fun _ _ => 0) = some _ := dif_pos hlen
  have hok : ∀ (e n : ℤ) (s : SolverState 1 1 [1]), (∀ p ∈ s.monitors, p.site = 0 ∧ p.field = "conc".toList) →
      ∃ s', s.call squareModel oneName (.solve e n) = some s' ∧
        ∀ p ∈ s'.monitors, p.site = 0 ∧ p.field = "conc".toList := by
    intro e n s hs
    cases hc : s.call squareModel oneName (.solve e n) with
    | none =>
      obtain ⟨-, p, hp, hr⟩ := (c113_panics squareModel oneName e n s).mp hc
      obtain ⟨h1, h2⟩ := hs p hp
      exact absurd ⟨.field 0, by rw [h2]; rfl, Or.inr ⟨by rw [h1], by rw [h1]; decide⟩⟩ hr
    | some s' =>
      refine ⟨s', rfl, ?_⟩
      have h2 := (solve_spec squareModel oneName n s e.toNat s' hc).2
      generalize s.monitors = l at h2 hs
      generalize s'.monitors = l' at h2 ⊢
      induction h2 with
      | nil => simp
      | cons a _ ih =>
        rw [List.forall_mem_cons] at hs ⊢
        exact ⟨⟨a.1.trans hs.1.1, a.2.1.trans hs.1.2⟩, ih hs.2⟩
  obtain ⟨s2, h2, m2⟩ := hok 2 3 (SolverState.mk 1 .euler ⟨1, freqOf [1], none, 0⟩
    ⟨fun i j => ([1] : List ℂ).get (Fin.cast (hlen i).symm j), fun _ _ => 0⟩
    [newPointMonitor 0 "conc".toList]) (by
      intro p hp
      rw [List.mem_singleton] at hp
      rw [hp]
      exact ⟨rfl, rfl⟩)
  obtain ⟨s3, h3, m3⟩ : ∃ s3, s2.call squareModel oneName (.setStepper "euler".toList) = some s3 ∧
      s3.monitors = s2.monitors := ⟨_, rfl, rfl⟩
  obtain ⟨s4, h4, m4⟩ : ∃ s4, s3.call squareModel oneName (.propagate 1) = some s4 ∧
      s4.monitors = s3.monitors := ⟨_, rfl, by rw [propagate_eq]⟩
  obtain ⟨s5, h5, -⟩ := hok 1 1 s4 (by rw [m4, m3]; exact m2)
  have key : ∀ s1 : SolverState 1 1 [1], s1.call squareModel oneName (.solve 2 3) = some s2 →
      s1.session squareModel oneName [.solve 2 3, .setStepper "euler".toList, .propagate 1, .solve 1 1] = some s5 ∧
      (sessionEnds squareModel oneName s1
        [.solve 2 3, .setStepper "euler".toList, .propagate 1, .solve 1 1]).length = 3 := by
    intro s1 h1
    constructor
    · unfold SolverState.session
      simp only [List.foldlM_cons, List.foldlM_nil, h1, h3, h4, h5, Option.bind_eq_bind, Option.bind_some]
      rfl
    · simp only [sessionEnds, h1, h3, h4, h5, Option.map_some, Option.getD_some, epochEnds, List.length_append,
        List.length_map, List.length_range, List.length_nil]
      rfl
  exact ⟨_, _, s5, hnew, rfl, rfl, (key _ h2).1, by simp [KeepsEuler], (key _ h2).2⟩

end Gopf.Props
