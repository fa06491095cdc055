import Verif.Model.Solver
import Mathlib.Tactic.Ring

/-!
# C26, C28, C29: time, schedule and notifications
-/

namespace Gopf.Props
open Pf

variable {σ : Type}

/-- Everything but notifications. -/
def Event.isSchedule : Event → Bool
  | .notified _ _ _ => false
  | _ => true

/-- Order of map iteration is a permutation of the keys. -/
def FairOrder (s : Solver σ) : Prop := ∀ k l, (s.order k l).Perm l

private theorem foldl_log {α β : Type} (f : β → σ → σ) (e : β → Event) (l : List β) :
    ∀ w : σ × List Event, (l.foldl (fun w b => (f b w.1, w.2 ++ [e b])) w).2 = w.2 ++ l.map e := by
  induction l with
  | nil => intro w; simp
  | cons b l ih => intro w; rw [List.foldl_cons, ih]; simp

private theorem notify_log (s : Solver σ) (t : ℝ) (r : Fin 3) (w : σ × List Event) :
    (s.notify t r w).2 = w.2 ++ (s.order w.2.length (s.terms r)).map fun nm => .notified r nm t :=
  foldl_log (α := Unit) (fun nm st => s.onStepFinished r nm t st) (fun nm => .notified r nm t) _ w

/-- The notifications that are due after a step ending at time `t`. -/
def dueNotifications (s : Solver σ) (t : ℝ) : List Event :=
  ((s.terms 0).map fun nm => Event.notified 0 nm t) ++ ((s.terms 1).map fun nm => .notified 1 nm t) ++
    ((s.terms 2).map fun nm => .notified 2 nm t)

private theorem oneStep_log (s : Solver σ) (h : FairOrder s) (w : σ × List Event) :
    ∃ notes, (s.oneStep w).2 = w.2 ++ .step :: notes ∧
      notes.Perm (dueNotifications s (s.getTime (s.step w.1))) := by
  unfold Solver.oneStep
  dsimp only
  have hn : ∀ t r (w : σ × List Event), ∃ l, (s.notify t r w).2 = w.2 ++ l ∧
      l.Perm ((s.terms r).map fun nm => .notified r nm t) := fun t r w =>
    ⟨_, notify_log s t r w, (h _ _).map _⟩
  obtain ⟨l0, e0, p0⟩ := hn (s.getTime (s.step w.1)) 0 (s.step w.1, w.2 ++ [.step])
  obtain ⟨l1, e1, p1⟩ := hn (s.getTime (s.step w.1)) 1 (s.notify (s.getTime (s.step w.1)) 0
    (s.step w.1, w.2 ++ [.step]))
  obtain ⟨l2, e2, p2⟩ := hn (s.getTime (s.step w.1)) 2 (s.notify (s.getTime (s.step w.1)) 1
    (s.notify (s.getTime (s.step w.1)) 0 (s.step w.1, w.2 ++ [.step])))
  refine ⟨l0 ++ l1 ++ l2, by rw [e2, e1, e0]; simp, ?_⟩
  exact (p0.append p1).append p2

/-- C29: after every single step every registered term is notified exactly once (the notifications
after a step are a permutation of one per registered term), and the time passed is the stepper's
time after that step. Here `states` lists the states right after each step. -/
theorem c29_notifications (s : Solver σ) (h : FairOrder s) (nsteps : ℕ) (w : σ × List Event) :
    ∃ blocks : List (σ × List Event), blocks.length = nsteps ∧
      (s.propagate nsteps w).2 = w.2 ++ (blocks.map fun b => Event.step :: b.2).flatten ∧
      ∀ b ∈ blocks, b.2.Perm (dueNotifications s (s.getTime b.1)) := by
  unfold Solver.propagate
  induction nsteps with
  | zero => exact ⟨[], rfl, by simp, by simp⟩
  | succ k ih =>
    obtain ⟨blocks, hl, hlog, hb⟩ := ih
    rw [List.range_succ, List.foldl_append, List.foldl_cons, List.foldl_nil]
    generalize (List.range k).foldl (fun w _ => s.oneStep w) w = w1 at *
    obtain ⟨notes, hn, hp⟩ := oneStep_log s h w1
    refine ⟨blocks ++ [(s.step w1.1, notes)], by simp [hl], ?_, ?_⟩
    · rw [hn, hlog]; simp
    · intro b hbm
      rcases List.mem_append.mp hbm with h1 | h1
      · exact hb b h1
      · obtain rfl := List.mem_singleton.mp h1
        exact hp

/-- C29: with a stepper whose time advances by `dt` per step, and terms that do not interfere with
the stepper's time, the `k`-th block of notifications carries the time `t0 + (k+1) dt`. -/
theorem c29_times (s : Solver σ) (h : FairOrder s) (dt : ℝ)
    (hstep : ∀ x, s.getTime (s.step x) = s.getTime x + dt)
    (hterm : ∀ r nm t x, s.getTime (s.onStepFinished r nm t x) = s.getTime x)
    (nsteps : ℕ) (w : σ × List Event) :
    s.getTime (s.propagate nsteps w).1 = s.getTime w.1 + nsteps * dt ∧
    ∃ blocks : List (List Event), blocks.length = nsteps ∧
      (s.propagate nsteps w).2 = w.2 ++ (blocks.map fun b => Event.step :: b).flatten ∧
      ∀ (k : ℕ) (hk : k < blocks.length),
        (blocks[k]).Perm (dueNotifications s (s.getTime w.1 + (k + 1) * dt)) := by
  have hnot : ∀ t r (w : σ × List Event), s.getTime (s.notify t r w).1 = s.getTime w.1 := by
    intro t r w
    unfold Solver.notify
    generalize s.order _ _ = l
    induction l generalizing w with
    | nil => rfl
    | cons nm l ih => rw [List.foldl_cons, ih]; exact hterm r nm t w.1
  unfold Solver.propagate
  induction nsteps with
  | zero => exact ⟨by simp, [], rfl, by simp, by simp⟩
  | succ k ih =>
    obtain ⟨htime, blocks, hl, hlog, hb⟩ := ih
    rw [List.range_succ, List.foldl_append, List.foldl_cons, List.foldl_nil]
    generalize (List.range k).foldl (fun w _ => s.oneStep w) w = w1 at *
    obtain ⟨notes, hn, hp⟩ := oneStep_log s h w1
    have ht : s.getTime (s.oneStep w1).1 = s.getTime w1.1 + dt := by
      unfold Solver.oneStep
      dsimp only
      rw [hnot, hnot, hnot]
      exact hstep w1.1
    refine ⟨by rw [ht, htime]; push_cast; ring, blocks ++ [notes], by simp [hl], ?_, ?_⟩
    · rw [hn, hlog]; simp
    · intro j hj
      by_cases hjk : j < blocks.length
      · rw [List.getElem_append_left hjk]; exact hb j hjk
      · have hj' : j = blocks.length := by simp at hj; omega
        subst hj'
        rw [List.getElem_append_right (le_refl _)]
        simp only [Nat.sub_self, List.getElem_cons_zero]
        rw [hstep, htime] at hp
        rw [hl]
        convert hp using 2
        ring

private theorem zipIdx_log {β : Type} (f : β → σ → σ) (e : ℕ → Event) (l : List β)
    (w : σ × List Event) :
    ((l.zipIdx).foldl (fun w b => (f b.1 w.1, w.2 ++ [e b.2])) w).2 =
      w.2 ++ (List.range l.length).map e := by
  have := foldl_log (α := Unit) (fun (b : β × ℕ) st => f b.1 st) (fun b => e b.2) l.zipIdx w
  rw [this]
  congr 1
  rw [show (fun b : β × ℕ => e b.2) = e ∘ Prod.snd from rfl, ← List.map_map, List.zipIdx_map_snd]
  simp [List.range_eq_range']

/-- C28: apart from notifications, `Solve(nepochs, nsteps)` makes exactly these calls, in this order:
for each epoch `nsteps` steps, then every callback once with epoch number `StartEpoch + epoch`, then
every monitor once. -/
theorem c28_schedule (s : Solver σ) (h : FairOrder s) (nepochs nsteps : ℕ) (w : σ × List Event) :
    ∃ log, (s.solve nepochs nsteps w).2 = w.2 ++ log ∧
      log.filter Event.isSchedule = (List.range nepochs).flatMap fun (e : ℕ) =>
        List.replicate nsteps Event.step ++
          (List.range s.callbacks.length).map (fun j => Event.callback j (s.startEpoch + e)) ++
          (List.range s.monitors.length).map Event.monitor := by
  unfold Solver.solve
  induction nepochs with
  | zero => exact ⟨[], by simp, by simp⟩
  | succ k ih =>
    obtain ⟨log, h1, h2⟩ := ih
    rw [List.range_succ, List.foldl_append, List.foldl_cons, List.foldl_nil]
    generalize (List.range k).foldl _ w = w1 at h1 ⊢
    obtain ⟨blocks, hl, hlog, hb⟩ := c29_notifications s h nsteps w1
    unfold Solver.runMonitors Solver.runCallbacks
    have hmo := fun w => zipIdx_log (σ := σ) (fun (mo : σ → σ) st => mo st) Event.monitor s.monitors w
    have hcb := fun w => zipIdx_log (σ := σ) (fun (cb : ℤ → σ → σ) st => cb ((k : ℤ) + s.startEpoch) st)
      (fun j => Event.callback j ((k : ℤ) + s.startEpoch)) s.callbacks w
    rw [hmo, hcb, hlog, h1]
    refine ⟨log ++ _, by simp only [List.append_assoc]; rfl, ?_⟩
    rw [List.flatMap_append, List.filter_append, h2]
    congr 1
    simp only [List.flatMap_cons, List.flatMap_nil, List.append_nil, List.filter_append,
      List.append_assoc]
    have hf : ∀ (bl : List (σ × List Event)), (∀ b ∈ bl, b.2.Perm (dueNotifications s (s.getTime b.1))) →
        (bl.map fun b => Event.step :: b.2).flatten.filter Event.isSchedule =
          List.replicate bl.length Event.step := by
      intro bl
      induction bl with
      | nil => intro _; rfl
      | cons b bl ihb =>
        intro hbl
        have hn : b.2.filter Event.isSchedule = [] := by
          rw [List.filter_eq_nil_iff]
          intro e he
          have := (hbl b (by simp)).mem_iff.mp he
          simp only [dueNotifications, List.mem_append, List.mem_map] at this
          rcases this with (⟨nm, -, rfl⟩ | ⟨nm, -, rfl⟩) | ⟨nm, -, rfl⟩ <;> simp [Event.isSchedule]
        rw [List.map_cons, List.flatten_cons, List.filter_append, ihb fun c hc => hbl c (by simp [hc]),
          List.filter_cons]
        simp [Event.isSchedule, hn, List.replicate_succ]
    rw [hf blocks hb, hl]
    congr 1
    have hall : ∀ (l : List Event), (∀ e ∈ l, Event.isSchedule e = true) →
        l.filter Event.isSchedule = l := fun l hl => List.filter_eq_self.mpr hl
    rw [hall, hall]
    · congr 2
      funext j
      rw [add_comm]
    · intro e he
      obtain ⟨j, -, rfl⟩ := List.mem_map.mp he
      rfl
    · intro e he
      obtain ⟨j, -, rfl⟩ := List.mem_map.mp he
      rfl

/-- A solver with two callbacks, a monitor, an explicit term and a state that counts steps. -/
def demoSolver : Solver ℕ :=
  { step := (· + 1), getTime := fun n => n, terms := fun r => if r = 1 then ["F".toList] else []
    order := fun _ l => l.reverse, onStepFinished := fun _ _ _ x => x
    callbacks := [fun _ x => x, fun _ x => x], monitors := [id], startEpoch := 5 }

example : FairOrder demoSolver ∧
    (∀ x, demoSolver.getTime (demoSolver.step x) = demoSolver.getTime x + 1) ∧
    (demoSolver.solve 2 3 (0, [])).1 = 6 :=
  ⟨fun _ l => l.reverse_perm, fun x => by simp [demoSolver], rfl⟩

/-! ## C26 -/

variable {nf nd : ℕ} {dims : List ℕ}

/-- A solver that drives a stepper: terms are stateless, no callbacks or monitors. -/
def solverWith (stp : Stepper dims.prod × Store nf nd dims.prod → Stepper dims.prod × Store nf nd dims.prod)
    (terms : Fin 3 → List Str) (order : ℕ → List Str → List Str) :
    Solver (Stepper dims.prod × Store nf nd dims.prod) :=
  { step := stp, getTime := fun p => p.1.getTime, terms := terms, order := order
    onStepFinished := fun _ _ _ x => x, callbacks := [], monitors := [], startEpoch := 0 }

private theorem propagate_state (stp : Stepper dims.prod × Store nf nd dims.prod → _)
    (terms : Fin 3 → List Str) (order : ℕ → List Str → List Str) (nsteps : ℕ)
    (w : (Stepper dims.prod × Store nf nd dims.prod) × List Event) :
    ((solverWith stp terms order).propagate nsteps w).1 = stp^[nsteps] w.1 := by
  have hnot : ∀ t r w, ((solverWith (dims := dims) (nf := nf) (nd := nd) stp terms order).notify t r w).1 =
      w.1 := by
    intro t r w
    unfold Solver.notify
    generalize (solverWith stp terms order).order _ _ = l
    induction l generalizing w with
    | nil => rfl
    | cons nm l ih => rw [List.foldl_cons, ih]; rfl
  unfold Solver.propagate
  induction nsteps with
  | zero => rfl
  | succ k ih =>
    rw [List.range_succ, List.foldl_append, List.foldl_cons, List.foldl_nil,
      Function.iterate_succ_apply', ← ih]
    unfold Solver.oneStep
    dsimp only
    rw [hnot, hnot, hnot]
    rfl

/-- C26: driven by the solver, the Euler stepper evaluates step `k` at time `k dt` and reports
`n dt` after `n` steps (counted from the initial counter `c0`). -/
theorem c26_euler (m : Model nf nd dims.prod) (terms : Fin 3 → List Str)
    (order : ℕ → List Str → List Str) (s : Stepper dims.prod) (st : Store nf nd dims.prod)
    (n : ℕ) (log : List Event) :
    let after := ((solverWith (eulerStep m) terms order).propagate n ((s, st), log)).1
    after.1.getTime = (s.currentStep + n) * s.dt ∧
    after.2 = (List.range n).foldl
      (fun st (k : ℕ) => eulerStepAt m s ((s.currentStep + k) * s.dt) st) st := by
  intro after
  have key : ∀ n : ℕ, (eulerStep m)^[n] (s, st) =
      ({ s with currentStep := s.currentStep + n }, (List.range n).foldl
        (fun st (k : ℕ) => eulerStepAt m s ((s.currentStep + k) * s.dt) st) st) := by
    intro n
    induction n with
    | zero => rfl
    | succ k ih =>
      rw [Function.iterate_succ_apply', ih, List.range_succ, List.foldl_append]
      simp only [eulerStep, List.foldl_cons, List.foldl_nil, Stepper.getTime]
      push_cast
      rfl
  have : after = _ := (propagate_state (eulerStep m) terms order n ((s, st), log)).trans (key n)
  rw [this]
  refine ⟨?_, rfl⟩
  simp [Stepper.getTime]

/-- C26: driven by the solver, RK4 reports its initial time for ever, and all steps are evaluated
with that time. -/
theorem c26_rk4_stuck (m : Model nf nd dims.prod) (terms : Fin 3 → List Str)
    (order : ℕ → List Str → List Str) (s : Stepper dims.prod) (st : Store nf nd dims.prod)
    (n : ℕ) (log : List Event) :
    let after := ((solverWith (rk4Step m) terms order).propagate n ((s, st), log)).1
    after.1 = s ∧ after.1.getTime = s.currentStep * s.dt ∧ after.2 = (rk4StepStore m s)^[n] st := by
  intro after
  have key : ∀ n : ℕ, (rk4Step m)^[n] (s, st) = (s, (rk4StepStore m s)^[n] st) := by
    intro n
    induction n with
    | zero => rfl
    | succ k ih => rw [Function.iterate_succ_apply', ih, Function.iterate_succ_apply']; rfl
  have : after = _ := (propagate_state (rk4Step m) terms order n ((s, st), log)).trans (key n)
  rw [this]
  exact ⟨rfl, rfl, rfl⟩

/-- C26: with `RK4.Propagate` instead of the solver the time does advance. -/
theorem c26_rk4_propagate (m : Model nf nd dims.prod) (s : Stepper dims.prod)
    (st : Store nf nd dims.prod) (n : ℕ) :
    (rk4Propagate m n (s, st)).1.getTime = (s.currentStep + n) * s.dt := by
  have key : ∀ n : ℕ, (rk4Propagate m n (s, st)).1 = { s with currentStep := s.currentStep + n } := by
    intro n
    unfold rk4Propagate
    induction n with
    | zero => rfl
    | succ k ih =>
      rw [List.range_succ, List.foldl_append, List.foldl_cons, List.foldl_nil]
      simp only [rk4Step] at ih ⊢
      rw [ih]
      rfl
  rw [key]
  simp [Stepper.getTime]

end Gopf.Props
