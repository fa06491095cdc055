import Verif.Props.RealSession

/-!
# C122: continuing a run from saved fields
-/

namespace Gopf.Props
open Pf Pfutil Spec Converge

variable {nf nd : ℕ} {dims : List ℕ}

/-! ## Specification -/

/-- The data of a field with the imaginary parts dropped, which is what is saved. -/
noncomputable def savedData (x : Data dims.prod) : List ℂ := (List.ofFn x).map fun z => ((z.re : ℝ) : ℂ)

/-- The fields at the ends of the epochs of a session. -/
noncomputable def epochFields (m : Model nf nd dims.prod) (bricks : Str → Option (BrickRef nf nd))
    (s : SolverState nf nd dims) (calls : List SolverCall) : List (Fin nf → Data dims.prod) :=
  (sessionEnds m bricks s calls).map fun st => st.fields

/-! ## Proof -/

theorem sync_congr {m : Model nf nd dims.prod} (hd : FieldsOnly m) {st st' : Store nf nd dims.prod}
    (h : st.fields = st'.fields) : m.sync st = m.sync st' := by
  rw [sync_eq hd, sync_eq hd, h]
  congr 1
  funext d
  exact hd d st st' h

/-- Two solvers that do the same from now on. -/
structure Twin (m : Model nf nd dims.prod) (s s' : SolverState nf nd dims) : Prop where
  dt : s'.dt = s.dt
  kind : s'.kind = s.kind
  stepper : s'.stepper = s.stepper ∨ (TimeFree (freqOf dims) m ∧ s.kind = .euler ∧ s'.stepper.dt = s.stepper.dt ∧
    s.stepper.freq = freqOf dims ∧ s'.stepper.freq = freqOf dims ∧ s'.stepper.filter = s.stepper.filter)
  fields : s'.store.fields = s.store.fields
  monitors : ∀ q ∈ s'.monitors, ∃ p ∈ s.monitors, q.site = p.site ∧ q.field = p.field

theorem Twin.step {m : Model nf nd dims.prod} (hd : FieldsOnly m) {s s' : SolverState nf nd dims} (h : Twin m s s') :
    Twin m (s.step m) (s'.step m) := by
  obtain ⟨dt, kind, stp, st, ms⟩ := s
  obtain ⟨dt', kind', stp', st', ms'⟩ := s'
  obtain ⟨h1, h2, h3, h4, h5⟩ := h
  dsimp only at h1 h2 h3 h4 h5
  subst h1 h2
  have hsync := sync_congr hd h4
  rcases h3 with rfl | ⟨a, rfl, b, c, d, e⟩
  · refine ⟨rfl, rfl, Or.inl ?_, ?_, h5⟩
    · cases kind' <;> rfl
    · cases kind' with
      | euler => simp only [SolverState.step, eulerStep, eulerStepAt, hsync]
      | rk4 => simp only [SolverState.step, rk4Step, rk4StepStore, hsync]
  · refine ⟨rfl, rfl, Or.inr ⟨a, rfl, b, c, d, e⟩, ?_, h5⟩
    simp only [SolverState.step, eulerStep]
    rw [← eulerStepAt_timeFree m stp stp' (by rw [c]; exact a) b (d.trans c.symm) e stp.getTime]
    simp only [eulerStepAt, hsync]

theorem Twin.propagate {m : Model nf nd dims.prod} (hd : FieldsOnly m) {s s' : SolverState nf nd dims}
    (h : Twin m s s') (n : ℤ) : Twin m (s.propagate m n) (s'.propagate m n) := by
  unfold SolverState.propagate
  induction n.toNat with
  | zero => exact h
  | succ k ih =>
    simp only [List.range_succ, List.foldl_append, List.foldl_cons, List.foldl_nil]
    exact ih.step hd

theorem Twin.storeAfter {m : Model nf nd dims.prod} (hd : FieldsOnly m) {s s' : SolverState nf nd dims}
    (h : Twin m s s') (n : ℕ) : (storeAfter m s' n).fields = (storeAfter m s n).fields := by
  have := (h.propagate hd (n : ℤ)).fields
  rw [propagate_eq, propagate_eq, Int.toNat_natCast] at this
  rw [← store_after, ← store_after]
  exact this

theorem Twin.epoch {m : Model nf nd dims.prod} (hd : FieldsOnly m) (bricks : Str → Option (BrickRef nf nd))
    {s s' r : SolverState nf nd dims} (h : Twin m s s') (n : ℤ) (hr : s.epoch m bricks n = some r) :
    ∃ r', s'.epoch m bricks n = some r' ∧ Twin m r r' := by
  have h' := h.propagate hd n
  unfold SolverState.epoch SolverState.runMonitors at hr ⊢
  simp only [Option.bind_eq_bind, Option.bind_eq_some_iff] at hr
  obtain ⟨l, hl, e⟩ := hr
  obtain rfl := Option.some.inj e
  have hall := forall₂_of_mapM _ _ _ hl
  have hmem : ∀ p ∈ (s.propagate m n).monitors, Readable bricks dims.prod p ∧ ∃ p' ∈ l, p'.site = p.site ∧ p'.field = p.field := by
    intro p hp
    clear hl e
    generalize (s.propagate m n).monitors = l0 at hall hp
    induction hall with
    | nil => cases hp
    | cons a _ ih =>
      rcases List.mem_cons.mp hp with rfl | hp
      · obtain ⟨b, z, -, -, e⟩ := add_spec _ _ _ _ a
        exact ⟨(add_some bricks _ _).mp ⟨_, a⟩, _, List.mem_cons_self, by rw [e], by rw [e]⟩
      · obtain ⟨i1, p', hp', i2⟩ := ih hp
        exact ⟨i1, p', by simp [hp'], i2⟩
  obtain ⟨l', hl'⟩ := (mapM_isSome (PointMonitor.add bricks (s'.propagate m n).store) (s'.propagate m n).monitors).mpr (by
    intro q hq
    obtain ⟨p, hp, e1, e2⟩ := h'.monitors q hq
    refine (add_some bricks _ q).mpr ?_
    obtain ⟨b, hb, hb'⟩ := (hmem p hp).1
    exact ⟨b, by rw [e2]; exact hb, by rw [e1]; exact hb'⟩)
  rw [hl']
  refine ⟨_, rfl, h'.dt, h'.kind, h'.stepper, h'.fields, ?_⟩
  have hall' := forall₂_of_mapM _ _ _ hl'
  have hback : ∀ q' ∈ l', ∃ q ∈ (s'.propagate m n).monitors, q'.site = q.site ∧ q'.field = q.field := by
    intro q' hq'
    generalize (s'.propagate m n).monitors = l0 at hall'
    clear hl'
    induction hall' with
    | nil => cases hq'
    | cons a _ ih =>
      rcases List.mem_cons.mp hq' with rfl | hq'
      · obtain ⟨b, z, -, -, e⟩ := add_spec _ _ _ _ a
        exact ⟨_, List.mem_cons_self, by rw [e], by rw [e]⟩
      · obtain ⟨q, hq, i2⟩ := ih hq'
        exact ⟨q, by simp [hq], i2⟩
  intro q' hq'
  obtain ⟨q, hq, e1, e2⟩ := hback q' hq'
  obtain ⟨p, hp, e3, e4⟩ := h'.monitors q hq
  obtain ⟨-, p', hp', e5, e6⟩ := hmem p hp
  exact ⟨p', hp', by rw [e1, e3, e5], by rw [e2, e4, e6]⟩

theorem Twin.call {m : Model nf nd dims.prod} (hd : FieldsOnly m) (bricks : Str → Option (BrickRef nf nd))
    {s s' r : SolverState nf nd dims} (h : Twin m s s') (c : SolverCall) (hr : s.call m bricks c = some r) :
    ∃ r', s'.call m bricks c = some r' ∧ Twin m r r' := by
  cases c with
  | addMonitor site field =>
    obtain rfl := Option.some.inj hr
    refine ⟨_, rfl, h.dt, h.kind, h.stepper, h.fields, ?_⟩
    intro q hq
    rcases List.mem_append.mp hq with hq | hq
    · obtain ⟨p, hp, e⟩ := h.monitors q hq
      exact ⟨p, List.mem_append_left _ hp, e⟩
    · exact ⟨q, List.mem_append_right _ hq, rfl, rfl⟩
  | setStepper name =>
    simp only [SolverState.call, SolverState.setStepper] at hr ⊢
    split_ifs at hr ⊢ with h1 h2
    · obtain rfl := Option.some.inj hr
      exact ⟨_, rfl, h.dt, rfl, Or.inl (by rw [h.dt]), h.fields, h.monitors⟩
    · obtain rfl := Option.some.inj hr
      exact ⟨_, rfl, h.dt, rfl, Or.inl (by rw [h.dt]), h.fields, h.monitors⟩
  | setFilter filter =>
    obtain rfl := Option.some.inj hr
    refine ⟨_, rfl, h.dt, h.kind, ?_, h.fields, h.monitors⟩
    rcases h.stepper with e | ⟨a, b, c, d, e, -⟩
    · exact Or.inl (by dsimp only; rw [e])
    · exact Or.inr ⟨a, b, c, d, e, rfl⟩
  | propagate n =>
    obtain rfl := Option.some.inj hr
    exact ⟨_, rfl, h.propagate hd n⟩
  | solve e n =>
    simp only [SolverState.call, SolverState.solve] at hr ⊢
    generalize e.toNat = k at hr ⊢
    induction k generalizing r with
    | zero =>
      obtain rfl := Option.some.inj hr
      exact ⟨_, rfl, h⟩
    | succ k ih =>
      rw [List.range_succ, List.foldlM_append] at hr ⊢
      simp only [Option.bind_eq_bind, Option.bind_eq_some_iff, List.foldlM_cons, List.foldlM_nil] at hr ⊢
      obtain ⟨s1, h1, s2, h2, h3⟩ := hr
      obtain rfl := Option.some.inj h3
      obtain ⟨s1', h1', t1⟩ := ih h1
      obtain ⟨s2', h2', t2⟩ := t1.epoch hd bricks n h2
      exact ⟨s2', ⟨s1', h1', s2', h2', rfl⟩, t2⟩

theorem session_cons (m : Model nf nd dims.prod) (bricks : Str → Option (BrickRef nf nd)) (c : SolverCall)
    (cs : List SolverCall) (s r : SolverState nf nd dims) (h : s.session m bricks (c :: cs) = some r) :
    ∃ s1, s.call m bricks c = some s1 ∧ s1.session m bricks cs = some r ∧
      sessionEnds m bricks s (c :: cs) = epochEnds m s c ++ sessionEnds m bricks s1 cs := by
  unfold SolverState.session at h
  rw [List.foldlM_cons] at h
  simp only [Option.bind_eq_bind, Option.bind_eq_some_iff] at h
  obtain ⟨s1, h1, h2⟩ := h
  exact ⟨s1, h1, h2, by simp only [sessionEnds, h1, Option.map_some, Option.getD_some]⟩

theorem session_cons_mk (m : Model nf nd dims.prod) (bricks : Str → Option (BrickRef nf nd)) (c : SolverCall)
    (cs : List SolverCall) (s s1 r : SolverState nf nd dims) (h1 : s.call m bricks c = some s1)
    (h2 : s1.session m bricks cs = some r) : s.session m bricks (c :: cs) = some r := by
  unfold SolverState.session at h2 ⊢
  rw [List.foldlM_cons, h1]
  exact h2

theorem Twin.session {m : Model nf nd dims.prod} (hd : FieldsOnly m) (bricks : Str → Option (BrickRef nf nd)) :
    ∀ (calls : List SolverCall) (s s' r : SolverState nf nd dims), Twin m s s' → s.session m bricks calls = some r →
    ∃ r', s'.session m bricks calls = some r' ∧ Twin m r r' ∧
      epochFields m bricks s' calls = epochFields m bricks s calls := by
  intro calls
  induction calls with
  | nil =>
    intro s s' r h hr
    obtain rfl := Option.some.inj hr
    exact ⟨_, rfl, h, rfl⟩
  | cons c cs ih =>
    intro s s' r h hr
    obtain ⟨s1, h1, h2, e⟩ := session_cons m bricks c cs s r hr
    obtain ⟨s1', h1', t1⟩ := h.call hd bricks c h1
    obtain ⟨r', h2', t2, e2⟩ := ih s1 s1' r t1 h2
    have hr' := session_cons_mk m bricks c cs s' s1' r' h1' h2'
    obtain ⟨s1'', h1'', -, e'⟩ := session_cons m bricks c cs s' r' hr'
    rw [h1'] at h1''
    obtain rfl := Option.some.inj h1''
    refine ⟨r', hr', t2, ?_⟩
    unfold epochFields at e2 ⊢
    rw [e, e', List.map_append, List.map_append, e2]
    congr 1
    cases c with
    | solve k n =>
      simp only [epochEnds, List.map_map]
      apply List.map_congr_left
      intro j _
      exact h.storeAfter hd _
    | _ => rfl

/-- The monitors added by a call. -/
def monitorAdded : SolverCall → Option (ℤ × Str)
  | .addMonitor site field => some (site, field)
  | _ => none

theorem session_sites (m : Model nf nd dims.prod) (bricks : Str → Option (BrickRef nf nd)) :
    ∀ (calls : List SolverCall) (s r : SolverState nf nd dims), s.session m bricks calls = some r →
    r.monitors.map (fun p => (p.site, p.field)) =
      s.monitors.map (fun p => (p.site, p.field)) ++ calls.filterMap monitorAdded := by
  intro calls
  induction calls with
  | nil =>
    intro s r h
    obtain rfl := Option.some.inj h
    simp
  | cons c cs ih =>
    intro s r h
    obtain ⟨s1, h1, h2, -⟩ := session_cons m bricks c cs s r h
    obtain ⟨added, old, e, ho, ha⟩ := call_spec m bricks c s s1 h1
    have hold : old.map (fun p => (p.site, p.field)) = s.monitors.map (fun p => (p.site, p.field)) := by
      clear e ha
      generalize s.monitors = l at ho ⊢
      induction ho with
      | nil => rfl
      | cons a _ ih => rw [List.map_cons, List.map_cons, ih, a.1, a.2.1]
    rw [ih s1 r h2, e, List.map_append, hold, List.append_assoc]
    congr 1
    rw [ha]
    cases c with
    | addMonitor site field => rfl
    | setStepper name => rw [List.filterMap_cons_none (by rfl)]; rfl
    | setFilter f => rw [List.filterMap_cons_none (by rfl)]; rfl
    | propagate n => rw [List.filterMap_cons_none (by rfl)]; rfl
    | solve a b => rw [List.filterMap_cons_none (by rfl)]; rfl

/-- A session without time steps leaves the fields alone. -/
theorem session_idle (m : Model nf nd dims.prod) (bricks : Str → Option (BrickRef nf nd)) :
    ∀ (calls : List SolverCall) (s r : SolverState nf nd dims), (∀ c ∈ calls, stepsAsked c = 0) →
    s.session m bricks calls = some r → r.store = s.store := by
  have h0 : ∀ s : SolverState nf nd dims, (pairAfter m s 0).2 = s.store := by
    intro s
    unfold pairAfter
    cases s.kind <;> rfl
  intro calls
  induction calls with
  | nil =>
    intro s r _ h
    obtain rfl := Option.some.inj h
    rfl
  | cons c cs ih =>
    intro s r hk h
    obtain ⟨s1, h1, h2, -⟩ := session_cons m bricks c cs s r h
    rw [ih s1 r (fun c hc => hk c (by simp [hc])) h2]
    have hc := hk c (by simp)
    cases c with
    | addMonitor site field => obtain rfl := Option.some.inj h1; rfl
    | setFilter filter => obtain rfl := Option.some.inj h1; rfl
    | setStepper name =>
      simp only [SolverState.call, SolverState.setStepper] at h1
      split_ifs at h1 <;> obtain rfl := Option.some.inj h1 <;> rfl
    | propagate n =>
      obtain rfl := Option.some.inj h1
      simp only [stepsAsked] at hc
      rw [propagate_eq, hc]
      exact h0 s
    | solve e n =>
      simp only [stepsAsked] at hc
      rw [(solve_spec m bricks n s e.toNat s1 h1).1, hc]
      exact h0 s

theorem new_fits {dt : ℝ} {fields : Fin nf → List ℂ} {derived : Fin nd → Data dims.prod} {s : SolverState nf nd dims}
    (hs : newSolver dims dt fields derived = some s) : FitsCalls dt [] s ∧ s.stepper.filter = currentFilter [] := by
  unfold newSolver at hs
  split_ifs at hs with hl
  obtain rfl := Option.some.inj hs
  exact ⟨⟨rfl, rfl, rfl, Or.inl ⟨rfl, rfl, rfl⟩⟩, rfl⟩

theorem filter_session (m : Model nf nd dims.prod) (bricks : Str → Option (BrickRef nf nd)) :
    ∀ (calls before : List SolverCall) (s s' : SolverState nf nd dims),
      s.stepper.filter = currentFilter before → s.session m bricks calls = some s' →
      s'.stepper.filter = currentFilter (before ++ calls) := by
  intro calls
  induction calls with
  | nil =>
    intro before s s' h hs
    obtain rfl := Option.some.inj hs
    rw [List.append_nil]
    exact h
  | cons c cs ih =>
    intro before s s' h hs
    obtain ⟨s1, h1, h2, -⟩ := session_cons m bricks c cs s s' hs
    have := ih (before ++ [c]) s1 s' (filter_call m bricks h c h1) h2
    rw [List.append_assoc] at this
    exact this

/-- What a new solver with the saved data must be told so that it can continue a run: no time steps, the same
stepper, the same filter, and no monitors the old one did not have. -/
structure SetsUp (calls setup : List SolverCall) : Prop where
  idle : ∀ c ∈ setup, stepsAsked c = 0
  stepper : chosenStepper setup = chosenStepper calls
  filter : currentFilter setup = currentFilter calls
  monitors : ∀ site field, SolverCall.addMonitor site field ∈ setup → SolverCall.addMonitor site field ∈ calls

theorem savedData_real {x : Data dims.prod} (h : IsReal x) : savedData x = List.ofFn x := by
  unfold savedData
  rw [List.map_ofFn]
  congr 1
  funext k
  exact Complex.ext rfl (by simpa using (h k).symm)

theorem restart_twin (m : Model nf nd dims.prod) (bricks : Str → Option (BrickRef nf nd)) (dt : ℝ)
    (fields : Fin nf → List ℂ) (derived derived' : Fin nd → Data dims.prod) (s s' r1 s1 : SolverState nf nd dims)
    (hs : newSolver dims dt fields derived = some s) (calls setup : List SolverCall)
    (hr1 : s.session m bricks calls = some r1) (hreal : ∀ i, IsReal (r1.store.fields i))
    (htime : TimeFree (freqOf dims) m ∨ chosenStepper calls = "rk4".toList)
    (hs' : newSolver dims dt (fun i => savedData (r1.store.fields i)) derived' = some s')
    (hset : SetsUp calls setup) (h1 : s'.session m bricks setup = some s1) : Twin m r1 s1 := by
  obtain ⟨f1, f2⟩ := new_fits hs
  obtain ⟨g1, g2⟩ := new_fits hs'
  obtain ⟨a1, a2, a3, a4⟩ := fits_session m bricks calls [] s r1 f1 hr1
  obtain ⟨b1, b2, b3, b4⟩ := fits_session m bricks setup [] s' s1 g1 h1
  have a5 := filter_session m bricks calls [] s r1 f2 hr1
  have b5 := filter_session m bricks setup [] s' s1 g2 h1
  rw [List.nil_append] at a4 b4 a5 b5
  have hfilter : s1.stepper.filter = r1.stepper.filter := by rw [a5, b5, hset.filter]
  have hfields : s1.store.fields = r1.store.fields := by
    rw [session_idle m bricks setup s' s1 hset.idle h1]
    have := ((c113_new (dims := dims) dt (fun i => savedData (r1.store.fields i)) derived').2 s' hs').1
    funext i
    have hi := this i
    rw [savedData_real (hreal i)] at hi
    exact List.ofFn_injective hi
  have hmon : ∀ q ∈ s1.monitors, ∃ p ∈ r1.monitors, q.site = p.site ∧ q.field = p.field := by
    have e1 := session_sites m bricks calls s r1 hr1
    have e2 := session_sites m bricks setup s' s1 h1
    rw [((c113_new (dims := dims) dt fields derived).2 s hs).2.2.2, List.map_nil, List.nil_append] at e1
    rw [((c113_new (dims := dims) dt _ derived').2 s' hs').2.2.2, List.map_nil, List.nil_append] at e2
    intro q hq
    have h2 : (q.site, q.field) ∈ setup.filterMap monitorAdded := by
      rw [← e2]
      exact List.mem_map.mpr ⟨q, hq, rfl⟩
    obtain ⟨c, hc, e⟩ := List.mem_filterMap.mp h2
    have hc' : c = .addMonitor q.site q.field := by
      cases c with
      | addMonitor site field =>
        simp only [monitorAdded, Option.some.injEq, Prod.mk.injEq] at e
        rw [e.1, e.2]
      | _ => simp [monitorAdded] at e
    rw [hc'] at hc
    have h3 : (q.site, q.field) ∈ calls.filterMap monitorAdded :=
      List.mem_filterMap.mpr ⟨_, hset.monitors _ _ hc, rfl⟩
    rw [← e1] at h3
    obtain ⟨p, hp, e⟩ := List.mem_map.mp h3
    simp only [Prod.mk.injEq] at e
    exact ⟨p, hp, e.1.symm, e.2.symm⟩
  rw [hset.stepper] at b4
  rcases a4 with ⟨c1, c2, c3⟩ | ⟨c1, c2, c3⟩
  · rcases b4 with ⟨d1, d2, d3⟩ | ⟨d1, d2, d3⟩
    · refine ⟨b1.trans a1.symm, d2.trans c2.symm, Or.inr ⟨?_, c2, b2.trans a2.symm, a3, b3, hfilter⟩, hfields, hmon⟩
      rcases htime with h | h
      · exact h
      · rw [c1] at h
        exact absurd h (by decide)
    · rw [c1] at d1
      exact absurd d1 (by decide)
  · rcases b4 with ⟨d1, d2, d3⟩ | ⟨d1, d2, d3⟩
    · rw [c1] at d1
      exact absurd d1 (by decide)
    · refine ⟨b1.trans a1.symm, d2.trans c2.symm, Or.inl ?_, hfields, hmon⟩
      obtain ⟨dt1, kind1, ⟨sdt1, freq1, filter1, n1⟩, st1, ms1⟩ := r1
      obtain ⟨dt2, kind2, ⟨sdt2, freq2, filter2, n2⟩, st2, ms2⟩ := s1
      dsimp only at a2 a3 b2 b3 c3 d3 hfilter ⊢
      rw [a2, a3, b2, b3, c3, d3, hfilter]

/-! ## C122 -/

/-- C122: a run that is interrupted and continued from the saved real parts of the fields goes on as if it had not
been interrupted. The fields are real, the equations do not depend on time (or the RK4 stepper was chosen), and the
new solver has been told the stepper and the filter. Then every session the old solver could go on with succeeds
on the new one, ends with the same fields, and has the same fields at the end of each epoch. -/
theorem c122_restart (m : Model nf nd dims.prod) (hd : FieldsOnly m) (bricks : Str → Option (BrickRef nf nd)) (dt : ℝ)
    (fields : Fin nf → List ℂ) (derived derived' : Fin nd → Data dims.prod) (s r1 r2 : SolverState nf nd dims)
    (hs : newSolver dims dt fields derived = some s) (calls1 calls2 setup : List SolverCall)
    (h1 : s.session m bricks calls1 = some r1) (h2 : r1.session m bricks calls2 = some r2)
    (hreal : ∀ i, IsReal (r1.store.fields i))
    (htime : TimeFree (freqOf dims) m ∨ chosenStepper calls1 = "rk4".toList) (hset : SetsUp calls1 setup) :
    ∃ s', newSolver dims dt (fun i => savedData (r1.store.fields i)) derived' = some s' ∧
      ∀ s1, s'.session m bricks setup = some s1 → ∃ r', s1.session m bricks calls2 = some r' ∧
        r'.store.fields = r2.store.fields ∧ epochFields m bricks s1 calls2 = epochFields m bricks r1 calls2 := by
  have hlen : ∀ i, (savedData (r1.store.fields i)).length = dims.prod := by
    intro i
    simp [savedData]
  refine ⟨_, dif_pos hlen, fun s1 hs1 => ?_⟩
  have ht := restart_twin m bricks dt fields derived derived' s _ r1 s1 hs calls1 setup h1 hreal htime (dif_pos hlen)
    hset hs1
  obtain ⟨r', hr', t, e⟩ := Twin.session hd bricks calls2 r1 s1 r2 ht h2
  exact ⟨r', hr', t.fields, e⟩

/-- C122: the monitors. A monitor of a field or a scalar in the continued run records what the same monitor of the
uninterrupted run records from then on. -/
theorem c122_monitor (m : Model nf nd dims.prod) (hd : FieldsOnly m) (bricks : Str → Option (BrickRef nf nd)) (dt : ℝ)
    (fields : Fin nf → List ℂ) (derived derived' : Fin nd → Data dims.prod) (s s' s1 r1 r2 r' : SolverState nf nd dims)
    (hs : newSolver dims dt fields derived = some s) (calls1 calls2 setup : List SolverCall)
    (h1 : s.session m bricks calls1 = some r1) (h2 : r1.session m bricks calls2 = some r2)
    (hreal : ∀ i, IsReal (r1.store.fields i))
    (htime : TimeFree (freqOf dims) m ∨ chosenStepper calls1 = "rk4".toList) (hset : SetsUp calls1 setup)
    (hs' : newSolver dims dt (fun i => savedData (r1.store.fields i)) derived' = some s')
    (hs1 : s'.session m bricks setup = some s1) (hr' : s1.session m bricks calls2 = some r')
    (j k : ℕ) (p q : PointMonitor) (hp : r1.monitors[k]? = some p) (hq : s1.monitors[j]? = some q)
    (hsite : q.site = p.site) (hfield : q.field = p.field) (hder : ∀ d, bricks p.field ≠ some (.derived d)) :
    ∃ p' q' new, r2.monitors[k]? = some p' ∧ r'.monitors[j]? = some q' ∧
      p'.data = p.data ++ new ∧ q'.data = q.data ++ new := by
  have ht := restart_twin m bricks dt fields derived derived' s s' r1 s1 hs calls1 setup h1 hreal htime hs' hset hs1
  obtain ⟨r'', hr'', -, e⟩ := Twin.session hd bricks calls2 r1 s1 r2 ht h2
  have get : ∀ (l l' : List PointMonitor) (sts : List (Store nf nd dims.prod)), List.Forall₂ (Appended bricks sts) l l' →
      ∀ (k : ℕ) (p : PointMonitor), l[k]? = some p → ∃ p', l'[k]? = some p' ∧ Appended bricks sts p p' := by
    intro l l' sts h
    induction h with
    | nil => intro k p h; simp at h
    | cons a _ ih =>
      intro k p hk
      cases k with
      | zero =>
        simp only [List.getElem?_cons_zero, Option.some.injEq] at hk
        subst hk
        exact ⟨_, by simp, a⟩
      | succ k =>
        simp only [List.getElem?_cons_succ] at hk ⊢
        exact ih k p hk
  obtain ⟨o1, ad1, e1, f1⟩ := session_monitors m bricks calls2 r1 r2 h2
  obtain ⟨o2, ad2, e2, f2⟩ := session_monitors m bricks calls2 s1 r' hr'
  obtain ⟨p', hp', -, -, zs, hz, hpd⟩ := get _ _ _ f1 k p hp
  obtain ⟨q', hq', -, -, ws, hw, hqd⟩ := get _ _ _ f2 j q hq
  have hzw : zs = ws := by
    unfold epochFields at e
    rw [hsite, hfield] at hw
    clear hpd hqd f1 f2 hr'' h2 hr'
    generalize sessionEnds m bricks r1 calls2 = a at e hz
    generalize sessionEnds m bricks s1 calls2 = b at e hw
    induction hz generalizing b ws with
    | nil =>
      rw [List.map_nil, List.map_eq_nil_iff] at e
      subst e
      cases hw
      rfl
    | cons x _ ih =>
      cases hw with
      | nil => cases e
      | cons y hw =>
        simp only [List.map_cons, List.cons.injEq] at e
        obtain ⟨b1, hb1, hx⟩ := x
        obtain ⟨b2, hb2, hy⟩ := y
        rw [hb1] at hb2
        obtain rfl := Option.some.inj hb2
        rw [ih _ _ e.2 hw]
        congr 1
        cases b1 with
        | field i =>
          rw [BrickRef.get] at hx hy
          rw [e.1, hx] at hy
          exact Option.some.inj hy
        | scalar c =>
          rw [BrickRef.get] at hx hy
          rw [hx] at hy
          exact Option.some.inj hy
        | derived d => exact absurd hb1 (hder d)
  refine ⟨p', q', zs.map Complex.re, ?_, ?_, hpd, by rw [hqd, hzw]⟩
  · have hlt := (List.getElem?_eq_some_iff.mp hp').1
    rw [e1, List.getElem?_append_left hlt, hp']
  · have hlt := (List.getElem?_eq_some_iff.mp hq').1
    rw [e2, List.getElem?_append_left hlt, hq']

/-- C122, from the text of the equations: with real scalars, whole powers and functions that are real where the
fields are, a run from real fields can be interrupted after any session and continued from the saved fields. -/
theorem c122_text (h : GoodDims (intDims dims)) (hl : LayoutOk dims) (N : Names) (hN : N.WellNamed)
    (m0 : EqModel dims.prod) (h0 : StartsAs N m0) (heq : m0.equations = [])
    (hfun : ∀ p ∈ m0.derived, ReadsFields N p.2 ∧ RealFunction p.2)
    (eqs : List Equation) (hq : ∀ eq ∈ eqs, eq.Polynomial N ∧ Unregistered m0 eq)
    (hcount : N.fields.length ≤ eqs.length)
    (ss : List Str) (hs : ss.map (fun s => s.filter fun c => c ≠ ' ') = eqs.map Equation.text) (c : Str → ℂ)
    (hc : ∀ x ∈ N.scalars, (c x).im = 0) (hpow : ∀ eq ∈ eqs, Equation.RealPowers N c eq) :
    ∃ m M, ss.foldlM EqModel.addEquation m0 = some m ∧ m.fields = N.fields ∧ m.assemble c = some M ∧
      ∀ (bricks : Str → Option (BrickRef m.fields.length m.derived.length)) (dt : ℝ)
        (fields : Fin m.fields.length → List ℂ) (derived derived' : Fin m.derived.length → Data dims.prod)
        (s r1 r2 : SolverState m.fields.length m.derived.length dims),
      newSolver dims dt fields derived = some s → (∀ i, IsReal (s.store.fields i)) →
      ∀ calls1 calls2 setup : List SolverCall, s.session M bricks calls1 = some r1 →
      r1.session M bricks calls2 = some r2 → SetsUp calls1 setup →
      ∃ s', newSolver dims dt (fun i => savedData (r1.store.fields i)) derived' = some s' ∧
        ∀ s1, s'.session M bricks setup = some s1 → ∃ r', s1.session M bricks calls2 = some r' ∧
          r'.store.fields = r2.store.fields ∧ epochFields M bricks s1 calls2 = epochFields M bricks r1 calls2 := by
  obtain ⟨m, M, h1, h2, h3, h4, h5⟩ := text_realRates h N hN m0 h0 heq hfun eqs hq hcount ss hs c hc hpow
  refine ⟨m, M, h1, h2, h3, ?_⟩
  intro bricks dt fields derived derived' s r1 r2 hnew hst calls1 calls2 setup hr1 hr2 hset
  exact c122_restart M h4.fieldsOnly bricks dt fields derived derived' s r1 r2 hnew calls1 calls2 setup hr1 hr2
    (c117_session h hl h4 bricks dt fields derived s r1 hnew hst calls1 hr1) (Or.inl h5) hset

/-- C122: the condition on time is needed. With the source `2 t` and the Euler stepper two steps, an interruption and
two more steps give `4 dt ^ 2`, and four steps without an interruption give `12 dt ^ 2`: the clock of the new solver
starts at zero. -/
theorem c122_time (bricks : Str → Option (BrickRef 1 0)) (dt : ℝ) :
    ∃ s r1 r2 s' r' : SolverState 1 0 [1], newSolver [1] dt (fun _ => [0]) (fun d => d.elim0) = some s ∧
      s.session ramp2Model bricks [.propagate 2] = some r1 ∧ r1.session ramp2Model bricks [.propagate 2] = some r2 ∧
      (∀ i, IsReal (r1.store.fields i)) ∧ FieldsOnly ramp2Model ∧ SetsUp [.propagate 2] [] ∧
      newSolver [1] dt (fun i => savedData (r1.store.fields i)) (fun d => d.elim0) = some s' ∧
      s'.session ramp2Model bricks [.propagate 2] = some r' ∧
      (∀ x, r2.store.fields 0 x = ((12 * dt ^ 2 : ℝ) : ℂ)) ∧ ∀ x, r'.store.fields 0 x = ((4 * dt ^ 2 : ℝ) : ℂ) := by
  have start : ∀ (fields : Fin 1 → List ℂ), (∀ i, (fields i).length = [1].prod) →
      ∃ s : SolverState 1 0 [1], newSolver [1] dt fields (fun d => d.elim0) = some s ∧ s.kind = .euler ∧
        s.stepper = ⟨dt, freqOf [1], none, 0⟩ ∧ ∀ i, List.ofFn (s.store.fields i) = fields i := by
    intro fields hl
    refine ⟨_, dif_pos hl, rfl, rfl, ?_⟩
    exact ((c113_new (dims := [1]) (nd := 0) dt fields (fun d => d.elim0)).2 _ (dif_pos hl)).1
  have two : ∀ (s : SolverState 1 0 [1]) (v : ℂ) (c : ℕ), s.kind = .euler → s.stepper = ⟨dt, freqOf [1], none, c⟩ →
      (∀ x, s.store.fields 0 x = v) →
      (∀ x, (s.propagate ramp2Model 2).store.fields 0 x = v + (((4 * c + 2) * dt ^ 2 : ℝ) : ℂ)) ∧
        (s.propagate ramp2Model 2).kind = .euler ∧
        (s.propagate ramp2Model 2).stepper = ⟨dt, freqOf [1], none, c + 2⟩ := by
    intro s v c hk hs hv
    obtain ⟨dt', kind, stp, st, ms⟩ := s
    dsimp only at hk hs hv
    subst hk hs
    rw [propagate_eq]
    simp only [pairAfter, show (2 : ℤ).toNat = 2 from rfl, Function.iterate_succ, Function.comp_apply,
      Function.iterate_zero, id_eq, ramp_euler, hv]
    refine ⟨fun x => ?_, trivial, trivial⟩
    push_cast
    ring
  obtain ⟨s, hs, k1, k2, k3⟩ := start (fun _ => [0]) (fun _ => rfl)
  have h0 : ∀ x, s.store.fields 0 x = 0 := by
    intro x
    have : s.store.fields 0 x ∈ List.ofFn (s.store.fields 0) := List.mem_ofFn.mpr ⟨x, rfl⟩
    rw [k3 0] at this
    simpa using this
  obtain ⟨a1, a2, a3⟩ := two s 0 0 k1 k2 h0
  obtain ⟨b1, b2, b3⟩ := two _ _ _ a2 a3 a1
  have hreal : ∀ i, IsReal ((s.propagate ramp2Model 2).store.fields i) := by
    intro i x
    rw [Subsingleton.elim i 0, a1 x, zero_add, Complex.ofReal_im]
  obtain ⟨s', hs', l1, l2, l3⟩ := start (fun i => savedData ((s.propagate ramp2Model 2).store.fields i))
    (fun i => by simp [savedData])
  have hback := l3 0
  rw [savedData_real (hreal 0)] at hback
  have hback' := List.ofFn_injective hback
  obtain ⟨c1, -, -⟩ := two s' _ 0 l1 l2 (fun x => (congrFun hback' x).trans (a1 x))
  refine ⟨s, _, _, s', _, hs, rfl, rfl, hreal, fun d => d.elim0, ⟨by simp, rfl, rfl, by simp⟩, hs', rfl, ?_, ?_⟩
  · intro x
    refine (b1 x).trans ?_
    push_cast
    ring
  · intro x
    refine (c1 x).trans ?_
    push_cast
    ring

/-! ### The conditions are met -/

/-- Sessions and what a new solver must be told after them. -/
example : SetsUp [.setStepper "rk4".toList, .setFilter fun _ => 1, .addMonitor 3 "conc".toList, .solve 10 5]
      [.setStepper "rk4".toList, .setFilter fun _ => 1, .addMonitor 3 "conc".toList] ∧
    SetsUp [.addMonitor 3 "conc".toList, .solve 10 5] [] ∧
    ¬ SetsUp [.setStepper "rk4".toList, .solve 10 5] [] := by
  refine ⟨⟨?_, by decide, rfl, ?_⟩, ⟨by simp, rfl, rfl, by simp⟩, fun h => ?_⟩
  · intro c hc
    simp only [List.mem_cons, List.not_mem_nil, or_false] at hc
    rcases hc with rfl | rfl | rfl <;> rfl
  · intro site field hc
    simp only [List.mem_cons, List.not_mem_nil, or_false, reduceCtorEq, false_or] at hc
    simp [hc]
  · have := h.stepper
    revert this
    decide

/-- The hypotheses of `c122_text` on the equations are met by `dconc/dt = LAPconc^2 - LAPconc`, see also
`Props/Symmetry.lean` and `Props/RealSession.lean`; those of `c122_restart` and `c122_monitor` then follow. A run
with a monitor of the field. -/
example (M : Model 1 1 [4, 4].prod) (dt : ℝ) (s : SolverState 1 1 [4, 4])
    (hs : newSolver [4, 4] dt (fun _ => List.replicate 16 1) (fun _ _ => 0) = some s) :
    ∃ r1 r2, s.session M oneName [.addMonitor 3 "conc".toList, .propagate 10] = some r1 ∧
      r1.session M oneName [.propagate 7] = some r2 ∧ (r1.monitors.map fun p => p.site) = [3] := by
  refine ⟨_, _, rfl, rfl, ?_⟩
  rw [propagate_eq]
  have := ((c113_new (dims := [4, 4]) dt _ _).2 s hs).2.2.2
  simp [this, newPointMonitor]

end Gopf.Props
