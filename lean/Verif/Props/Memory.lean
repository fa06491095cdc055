import Verif.Model.Memory
import Verif.Proofs.Hermitian

/-!
# C156 Whose memory the fields live in
-/

namespace Gopf.Spec

/-- Two slices of length `n` have no cell in common. -/
def Apart (n a b : ℕ) : Prop := a + n ≤ b ∨ b + n ≤ a

/-- All fields and derived fields have their own memory. -/
structure Separate (n : ℕ) {nf nd : ℕ} (P : Pf.Places nf nd) : Prop where
  fields : ∀ i j, i ≠ j → Apart n (P.fields i) (P.fields j)
  derived : ∀ i j, i ≠ j → Apart n (P.derived i) (P.derived j)
  both : ∀ i d, Apart n (P.fields i) (P.derived d)

/-- The cell belongs to none of the fields and derived fields. -/
def Foreign (n : ℕ) {nf nd : ℕ} (P : Pf.Places nf nd) (c : ℕ) : Prop :=
  (∀ i, ¬ (P.fields i ≤ c ∧ c < P.fields i + n)) ∧ ∀ d, ¬ (P.derived d ≤ c ∧ c < P.derived d + n)

end Gopf.Spec

namespace Gopf.Pf
open Spec Pfutil

variable {nf nd n : ℕ}

theorem read_write (h : Mem) (a : ℕ) (d : Data n) : readMem n (writeMem h a d) a = d := by
  funext j
  unfold readMem writeMem
  rw [dif_pos ⟨by omega, by omega⟩]
  congr 1
  apply Fin.ext
  simp

theorem read_write_apart {a b : ℕ} (hab : Apart n a b) (h : Mem) (d : Data n) :
    readMem n (writeMem h a d) b = readMem n h b := by
  funext j
  unfold readMem writeMem
  rw [dif_neg]
  unfold Apart at hab
  omega

theorem write_foreign {a c : ℕ} (hc : ¬ (a ≤ c ∧ c < a + n)) (h : Mem) (d : Data n) :
    writeMem h a d c = h c := by
  unfold writeMem
  rw [dif_neg hc]

theorem Apart.symm {a b : ℕ} (h : Apart n a b) : Apart n b a := Or.symm h

theorem view_write_field {P : Places nf nd} (hP : Separate n P) (h : Mem) (i : Fin nf) (d : Data n) :
    view n P (writeMem h (P.fields i) d) =
      { view n P h with fields := Function.update (view n P h).fields i d } := by
  unfold view
  congr 1
  · funext j
    dsimp only
    by_cases hj : j = i
    · subst hj
      rw [Function.update_self, read_write]
    · rw [Function.update_of_ne hj]
      exact read_write_apart (hP.fields i j (Ne.symm hj)) _ _
  · funext j
    exact read_write_apart (hP.both i j) _ _

theorem view_write_derived {P : Places nf nd} (hP : Separate n P) (h : Mem) (i : Fin nd) (d : Data n) :
    view n P (writeMem h (P.derived i) d) =
      { view n P h with derived := Function.update (view n P h).derived i d } := by
  unfold view
  congr 1
  · funext j
    exact read_write_apart (hP.both j i).symm _ _
  · funext j
    dsimp only
    by_cases hj : j = i
    · subst hj
      rw [Function.update_self, read_write]
    · rw [Function.update_of_ne hj]
      exact read_write_apart (hP.derived i j (Ne.symm hj)) _ _

theorem view_sync {P : Places nf nd} (hP : Separate n P) (m : Model nf nd n) (h : Mem) :
    view n P (syncMem m P h) = m.sync (view n P h) := by
  unfold syncMem Model.sync
  exact (List.foldl_hom (view n P) (fun h d => (view_write_derived hP h d _).symm)).symm

/-- Updating every entry of a list without repetition. -/
theorem foldl_update {ι α : Type} [DecidableEq ι] (f : ι → α → α) : ∀ (l : List ι), l.Nodup → ∀ (u : ι → α),
    l.foldl (fun u i => Function.update u i (f i (u i))) u = fun i => if i ∈ l then f i (u i) else u i
  | [], _, u => by simp
  | i :: l, hl, u => by
    rw [List.foldl_cons, foldl_update f l (List.nodup_cons.mp hl).2]
    have hi := (List.nodup_cons.mp hl).1
    funext j
    by_cases hj : j = i
    · subst hj
      rw [if_neg hi, if_pos (List.mem_cons_self), Function.update_self]
    · rw [Function.update_of_ne hj]
      by_cases hjl : j ∈ l
      · rw [if_pos hjl, if_pos (List.mem_cons_of_mem _ hjl)]
      · rw [if_neg hjl, if_neg (by simp [hj, hjl])]

theorem view_eachField {P : Places nf nd} (hP : Separate n P) (f : Fin nf → Data n → Data n) (h : Mem) :
    view n P (eachField P f h) =
      { view n P h with fields := fun i => f i ((view n P h).fields i) } := by
  unfold eachField
  rw [← List.foldl_hom (view n P)
    (g₁ := fun h i => writeMem h (P.fields i) (f i (readMem n h (P.fields i))))
    (g₂ := fun (s : Store nf nd n) i =>
      { s with fields := Function.update s.fields i (f i (s.fields i)) })
    (fun h i => (view_write_field hP h i _).symm)]
  have key : ∀ (l : List (Fin nf)) (s : Store nf nd n), l.foldl (fun (s : Store nf nd n) i =>
      { s with fields := Function.update s.fields i (f i (s.fields i)) }) s =
      { s with fields := l.foldl (fun u i => Function.update u i (f i (u i))) s.fields } := by
    intro l
    induction l with
    | nil => intro s; rfl
    | cons i l ih => intro s; rw [List.foldl_cons, ih]; rfl
  rw [key, foldl_update _ _ (List.nodup_finRange nf)]
  simp only [List.mem_finRange, if_true]

theorem view_eachDerived {P : Places nf nd} (hP : Separate n P) (f : Data n → Data n) (h : Mem) :
    view n P (eachDerived P f h) =
      { view n P h with derived := fun i => f ((view n P h).derived i) } := by
  unfold eachDerived
  rw [← List.foldl_hom (view n P)
    (g₁ := fun h i => writeMem h (P.derived i) (f (readMem n h (P.derived i))))
    (g₂ := fun (s : Store nf nd n) i =>
      { s with derived := Function.update s.derived i (f (s.derived i)) })
    (fun h i => (view_write_derived hP h i _).symm)]
  have key : ∀ (l : List (Fin nd)) (s : Store nf nd n), l.foldl (fun (s : Store nf nd n) i =>
      { s with derived := Function.update s.derived i (f (s.derived i)) }) s =
      { s with derived := l.foldl (fun u i => Function.update u i (f (u i))) s.derived } := by
    intro l
    induction l with
    | nil => intro s; rfl
    | cons i l ih => intro s; rw [List.foldl_cons, ih]; rfl
  rw [key, foldl_update (fun _ => f) _ (List.nodup_finRange nd)]
  simp only [List.mem_finRange, if_true]

variable {dims : List ℕ}

theorem view_eulerField {P : Places nf nd} (hP : Separate n P) (m : Model nf nd n) (s : Stepper n) (t : ℝ)
    (h : Mem) (i : Fin nf) :
    view n P (eulerFieldMem m s t P h i) = eulerField m s t (view n P h) i :=
  view_write_field hP h i _

theorem view_rk4Field {P : Places nf nd} (hP : Separate dims.prod P) (m : Model nf nd dims.prod)
    (s : Stepper dims.prod) (k : Fin nf → Data dims.prod) (factor : ℝ) (h : Mem) (i : Fin nf) :
    view dims.prod P (rk4FieldMem m s k factor P h i) = rk4Field m s k factor (view dims.prod P h) i :=
  view_write_field hP h i _

theorem view_transforms {P : Places nf nd} (hP : Separate dims.prod P) (h : Mem) :
    view dims.prod P (eachDerived P (fft dims) (eachField P (fun _ => fft dims) h)) =
      fftDerived (fftFields (view dims.prod P h)) := by
  rw [view_eachDerived hP, view_eachField hP]
  rfl

theorem view_rk4Correction {P : Places nf nd} (hP : Separate dims.prod P) (m : Model nf nd dims.prod)
    (s : Stepper dims.prod) (k : Fin nf → Data dims.prod) (factor : ℝ) (h : Mem) :
    view dims.prod P (rk4CorrectionMem m s k factor P h).1 =
        (rk4Correction m s k factor (view dims.prod P h)).1 ∧
      (rk4CorrectionMem m s k factor P h).2 = (rk4Correction m s k factor (view dims.prod P h)).2 := by
  have e : view dims.prod P (rk4CorrectionMem m s k factor P h).1 =
      (rk4Correction m s k factor (view dims.prod P h)).1 := by
    unfold rk4CorrectionMem rk4Correction
    dsimp only
    rw [view_transforms hP, view_sync hP,
      ← List.foldl_hom (view dims.prod P) (fun h i => (view_rk4Field hP m s k factor h i).symm)]
  refine ⟨e, ?_⟩
  unfold rk4CorrectionMem rk4Correction at e ⊢
  dsimp only at e ⊢
  rw [e]

theorem foldl_foreign {ι : Type} {g : Mem → ι → Mem} {c : ℕ} (hg : ∀ h i, g h i c = h c) :
    ∀ (l : List ι) (h : Mem), l.foldl g h c = h c
  | [], _ => rfl
  | i :: l, h => by rw [List.foldl_cons, foldl_foreign hg l, hg]

theorem sync_foreign {P : Places nf nd} {c : ℕ} (hc : Foreign n P c) (m : Model nf nd n) (h : Mem) :
    syncMem m P h c = h c := foldl_foreign (fun _ d => write_foreign (hc.2 d) _ _) _ _

theorem eachField_foreign {P : Places nf nd} {c : ℕ} (hc : Foreign n P c) (f : Fin nf → Data n → Data n)
    (h : Mem) : eachField P f h c = h c := foldl_foreign (fun _ i => write_foreign (hc.1 i) _ _) _ _

theorem eachDerived_foreign {P : Places nf nd} {c : ℕ} (hc : Foreign n P c) (f : Data n → Data n)
    (h : Mem) : eachDerived P f h c = h c := foldl_foreign (fun _ d => write_foreign (hc.2 d) _ _) _ _

theorem rk4Correction_foreign {P : Places nf nd} {c : ℕ} (hc : Foreign dims.prod P c)
    (m : Model nf nd dims.prod) (s : Stepper dims.prod) (k : Fin nf → Data dims.prod) (factor : ℝ) (h : Mem) :
    (rk4CorrectionMem m s k factor P h).1 c = h c := by
  unfold rk4CorrectionMem
  dsimp only
  rw [eachDerived_foreign hc, eachField_foreign hc, sync_foreign hc]
  exact foldl_foreign (fun _ i => write_foreign (hc.1 i) _ _) _ _

/-- The new places are pairwise apart exactly if the given slices are, the slices that were given are
kept, and memory that was handed out before is not changed. -/
theorem newFields_spec : ∀ (datas : List (Option (ℕ × ℕ))) (A : Arena),
    (∀ q, some q ∈ datas → q.2 = n ∧ q.1 + n ≤ A.next) →
    ∃ B places, Arena.newFields n datas A = some (B, places) ∧ places.length = datas.length ∧
      A.next ≤ B.next ∧ (∀ c < A.next, B.mem c = A.mem c) ∧
      (∀ (i : ℕ) (q : ℕ × ℕ), datas[i]? = some (some q) → places[i]? = some q.1) ∧
      (∀ (i : ℕ), datas[i]? = some none → ∃ a, places[i]? = some a ∧ A.next ≤ a ∧ a + n ≤ B.next ∧
        readMem n B.mem a = fun _ => 0) ∧
      (∀ a ∈ places, (∃ q, some q ∈ datas ∧ q.1 = a) ∨ A.next ≤ a) ∧
      (places.Pairwise (Apart n) ↔ (datas.filterMap id).Pairwise fun p q => Apart n p.1 q.1)
  | [], A, _ => ⟨A, [], rfl, rfl, le_refl _, fun _ _ => rfl, by simp, by simp, by simp, by simp⟩
  | some q :: rest, A, h => by
    obtain ⟨B, places, e, hlen, hnext, hmem, hsome, hnone, hold, hpair⟩ := newFields_spec rest A
      fun q hq => h q (List.mem_cons_of_mem _ hq)
    have hq := h q List.mem_cons_self
    refine ⟨B, q.1 :: places, ?_, by simp [hlen], hnext, hmem, ?_, ?_, ?_, ?_⟩
    · rw [Arena.newFields]
      have : A.newField n (some q) = some (A, q.1) := by
        unfold Arena.newField; exact if_pos hq.1
      rw [this]
      simp [e]
    · intro i p hp
      cases i with
      | zero => simp at hp; subst hp; simp
      | succ i => simpa using hsome i p (by simpa using hp)
    · intro i hi
      cases i with
      | zero => simp at hi
      | succ i => simpa using hnone i (by simpa using hi)
    · intro a ha
      rcases List.mem_cons.mp ha with rfl | ha
      · exact Or.inl ⟨q, List.mem_cons_self, rfl⟩
      · rcases hold a ha with ⟨p, hp, e⟩ | hge
        · exact Or.inl ⟨p, List.mem_cons_of_mem _ hp, e⟩
        · exact Or.inr hge
    · have hf : (some q :: rest).filterMap id = q :: rest.filterMap id := rfl
      rw [hf, List.pairwise_cons, List.pairwise_cons, hpair]
      refine and_congr_left fun _ => ⟨fun hall p hp => ?_, fun hall a ha => ?_⟩
      · have hp' : some p ∈ rest := by simpa using hp
        obtain ⟨i, hi, hip⟩ := List.mem_iff_getElem.mp hp'
        have := hsome i p (by rw [List.getElem?_eq_getElem hi, hip])
        exact hall p.1 (List.mem_of_getElem? this)
      · rcases hold a ha with ⟨p, hp, rfl⟩ | hge
        · exact hall p (by simpa using hp)
        · left; omega
  | none :: rest, A, h => by
    obtain ⟨B, places, e, hlen, hnext, hmem, hsome, hnone, hold, hpair⟩ := newFields_spec rest (A.make n).1
      fun q hq => ⟨(h q (List.mem_cons_of_mem _ hq)).1,
        (h q (List.mem_cons_of_mem _ hq)).2.trans (Nat.le_add_right _ _)⟩
    have hn : (A.make n).1.next = A.next + n := rfl
    rw [hn] at hnext hmem hnone hold
    refine ⟨B, A.next :: places, ?_, by simp [hlen], by omega, ?_, ?_, ?_, ?_, ?_⟩
    · rw [Arena.newFields]
      have : A.newField n none = some ((A.make n).1, A.next) := rfl
      rw [this]
      simp [e]
    · intro c hc
      rw [hmem c (by omega)]
      exact write_foreign (a := A.next) (n := n) (by omega) A.mem (fun _ => 0)
    · intro i p hp
      cases i with
      | zero => simp at hp
      | succ i => simpa using hsome i p (by simpa using hp)
    · intro i hi
      cases i with
      | zero =>
        refine ⟨A.next, rfl, le_refl _, hnext, ?_⟩
        have : readMem n B.mem A.next = readMem n (A.make n).1.mem A.next := by
          funext j
          exact hmem _ (by omega)
        rw [this]
        exact read_write A.mem A.next (fun _ : Fin n => (0 : ℂ))
      | succ i =>
        obtain ⟨a, e, h1, h2, h3⟩ := hnone i (by simpa using hi)
        exact ⟨a, by simpa using e, by omega, h2, h3⟩
    · intro a ha
      rcases List.mem_cons.mp ha with rfl | ha
      · exact Or.inr (le_refl _)
      · rcases hold a ha with ⟨p, hp, e⟩ | hge
        · exact Or.inl ⟨p, List.mem_cons_of_mem _ hp, e⟩
        · exact Or.inr (by omega)
    · have hf : (none :: rest).filterMap id = rest.filterMap (id : Option (ℕ × ℕ) → _) := rfl
      rw [hf, List.pairwise_cons, ← hpair]
      refine ⟨fun hh => hh.2, fun hh => ⟨fun a ha => ?_, hh⟩⟩
      rcases hold a ha with ⟨p, hp, rfl⟩ | hge
      · have := (h p (List.mem_cons_of_mem _ hp)).2
        right; omega
      · left; omega

end Gopf.Pf

namespace Gopf.Props
open Spec Pfutil Pf

variable {nf nd n : ℕ} {dims : List ℕ}

/-- C156: if all fields have their own memory, then an Euler step leaves in the memory of each of them
what the step computes. -/
theorem c156_euler {P : Places nf nd} (hP : Separate dims.prod P) (m : Model nf nd dims.prod)
    (s : Stepper dims.prod) (h : Mem) :
    (eulerStepMem m P (s, h)).1 = (eulerStep m (s, view dims.prod P h)).1 ∧
      view dims.prod P (eulerStepMem m P (s, h)).2 = (eulerStep m (s, view dims.prod P h)).2 := by
  refine ⟨rfl, ?_⟩
  unfold eulerStepMem eulerStep eulerStepAt
  dsimp only
  rw [view_eachField hP, ← List.foldl_hom (view dims.prod P)
    (fun h i => (view_eulerField hP m s s.getTime h i).symm), view_transforms hP, view_sync hP]
  rfl

/-- C156: the same for an RK4 step. -/
theorem c156_rk4 {P : Places nf nd} (hP : Separate dims.prod P) (m : Model nf nd dims.prod)
    (s : Stepper dims.prod) (h : Mem) :
    (rk4StepMem m P (s, h)).1 = (rk4Step m (s, view dims.prod P h)).1 ∧
      view dims.prod P (rk4StepMem m P (s, h)).2 = (rk4Step m (s, view dims.prod P h)).2 := by
  refine ⟨rfl, ?_⟩
  unfold rk4StepMem rk4Step rk4StepStore
  dsimp only
  have hlast : ∀ (final : Fin nf → Data dims.prod) (h : Mem) (l : List (Fin nf)),
      view dims.prod P (l.foldl (rk4LastMem m s final P) h) =
      l.foldl (fun (stc : Store nf nd dims.prod) (i : Fin nf) =>
        ({ stc with fields := Function.update stc.fields i (optFilter s.filter s.freq fun j =>
          final i j / (1 - (s.dt : ℂ) * m.getDenum i stc s.freq s.getTime j)) } :
          Store nf nd dims.prod)) (view dims.prod P h) :=
    fun final h l => (List.foldl_hom (view dims.prod P) fun h i => (view_write_field hP h i _).symm).symm
  have hset : ∀ (initial : Fin nf → Data dims.prod) h, view dims.prod P (eachField P (fun i _ => initial i) h) =
      { view dims.prod P h with fields := initial } := fun initial h => view_eachField hP _ h
  have h0 : view dims.prod P (eachField P (fun _ => fft dims) (syncMem m P h)) =
      fftFields (m.sync (view dims.prod P h)) := by
    rw [view_eachField hP, view_sync hP]; rfl
  have h1 : view dims.prod P (eachDerived P (fft dims) (eachField P (fun _ => fft dims) (syncMem m P h))) =
      fftDerived (fftFields (m.sync (view dims.prod P h))) := by
    rw [view_transforms hP, view_sync hP]
  have hi : (fun i => readMem dims.prod (eachField P (fun _ => fft dims) (syncMem m P h)) (P.fields i)) =
      (fftFields (m.sync (view dims.prod P h))).fields := by
    rw [← h0]; rfl
  rw [view_eachField hP, hlast]
  simp only [hi, h1, hset, (view_rk4Correction hP m s _ _ _).1, (view_rk4Correction hP m s _ _ _).2]
  rfl

/-- C156: memory that does not belong to a field or derived field is not changed by a step. -/
theorem c156_foreign {P : Places nf nd} {c : ℕ} (hc : Foreign dims.prod P c) (m : Model nf nd dims.prod)
    (s : Stepper dims.prod) (h : Mem) :
    (eulerStepMem m P (s, h)).2 c = h c ∧ (rk4StepMem m P (s, h)).2 c = h c := by
  constructor
  · unfold eulerStepMem
    dsimp only
    rw [eachField_foreign hc]
    refine (foldl_foreign (fun _ i => write_foreign (hc.1 i) _ _) _ _).trans ?_
    rw [eachDerived_foreign hc,
      eachField_foreign hc, sync_foreign hc]
  · unfold rk4StepMem
    dsimp only
    rw [eachField_foreign hc]
    refine (foldl_foreign (fun _ i => write_foreign (hc.1 i) _ _) _ _).trans ?_
    rw [eachField_foreign hc, rk4Correction_foreign hc,
      eachField_foreign hc, rk4Correction_foreign hc, eachField_foreign hc, rk4Correction_foreign hc,
      eachField_foreign hc, eachDerived_foreign hc, eachField_foreign hc, sync_foreign hc]

/-- C156: after any number of steps with either stepper the memory of each field holds what the run
computes, and all other memory is as it was. -/
theorem c156_run {P : Places nf nd} (hP : Separate dims.prod P) (m : Model nf nd dims.prod)
    (s : Stepper dims.prod) (h : Mem) (k : ℕ) :
    view dims.prod P ((eulerStepMem m P)^[k] (s, h)).2 = ((eulerStep m)^[k] (s, view dims.prod P h)).2 ∧
    view dims.prod P ((rk4StepMem m P)^[k] (s, h)).2 = ((rk4Step m)^[k] (s, view dims.prod P h)).2 ∧
    ∀ c, Foreign dims.prod P c → ((eulerStepMem m P)^[k] (s, h)).2 c = h c ∧
      ((rk4StepMem m P)^[k] (s, h)).2 c = h c := by
  have he : ∀ k, ((eulerStepMem m P)^[k] (s, h)).1 = ((eulerStep m)^[k] (s, view dims.prod P h)).1 ∧
      view dims.prod P ((eulerStepMem m P)^[k] (s, h)).2 = ((eulerStep m)^[k] (s, view dims.prod P h)).2 := by
    intro k
    induction k with
    | zero => exact ⟨rfl, rfl⟩
    | succ k ih =>
      rw [Function.iterate_succ_apply', Function.iterate_succ_apply']
      have e := c156_euler hP m ((eulerStepMem m P)^[k] (s, h)).1 ((eulerStepMem m P)^[k] (s, h)).2
      rw [ih.1, ih.2] at e
      rw [← ih.1] at e
      rw [Prod.mk.eta] at e
      rw [ih.1, Prod.mk.eta] at e
      exact e
  have hr : ∀ k, ((rk4StepMem m P)^[k] (s, h)).1 = ((rk4Step m)^[k] (s, view dims.prod P h)).1 ∧
      view dims.prod P ((rk4StepMem m P)^[k] (s, h)).2 = ((rk4Step m)^[k] (s, view dims.prod P h)).2 := by
    intro k
    induction k with
    | zero => exact ⟨rfl, rfl⟩
    | succ k ih =>
      rw [Function.iterate_succ_apply', Function.iterate_succ_apply']
      have e := c156_rk4 hP m ((rk4StepMem m P)^[k] (s, h)).1 ((rk4StepMem m P)^[k] (s, h)).2
      rw [ih.1, ih.2] at e
      rw [← ih.1] at e
      rw [Prod.mk.eta] at e
      rw [ih.1, Prod.mk.eta] at e
      exact e
  refine ⟨(he k).2, (hr k).2, fun c hc => ⟨?_, ?_⟩⟩
  · induction k with
    | zero => rfl
    | succ k ih => rw [Function.iterate_succ_apply', (c156_foreign hc m _ _).1, ih]
  · induction k with
    | zero => rfl
    | succ k ih => rw [Function.iterate_succ_apply', (c156_foreign hc m _ _).2, ih]

/-- The value two transforms in a row put at the mirrored node. -/
theorem fft_conj (hg : GoodDims (intDims dims)) (hl : LayoutOk dims) (d : Data dims.prod)
    {a c : Fin dims.prod} (hc : conjugateNode (intDims dims) (a.val : Int) = some (c.val : Int)) :
    fft dims d c = ifft dims d a := by
  unfold fft ifft
  refine Finset.sum_congr rfl fun x _ => ?_
  congr 1
  have e := hermitian_fft hg hl (data := Pi.single x 1)
    (fun y => by by_cases hy : y = x <;> simp [hy]) a c hc
  rw [fft_single, fft_single, cis_conj, neg_neg] at e
  rw [e, phase_symm]

/-- C156: two fields that share their memory. Both have an equation without explicit terms, so that they
should only be damped, bin for bin. Instead the *node values* are damped: the value at a node is divided
by the factors that belong to the mirrored node taken as a bin. -/
theorem c156_shared (hg : GoodDims (intDims dims)) (hl : LayoutOk dims) (m : Model 2 0 dims.prod)
    (P : Places 2 0) (hP : P.fields 0 = P.fields 1) (s : Stepper dims.prod) (hf : s.filter = none)
    (A : Fin 2 → Data dims.prod) (hrhs : ∀ i st, m.getRHS i st s.freq s.getTime = fun _ => 0)
    (hden : ∀ i st, m.getDenum i st s.freq s.getTime = A i) (h : Mem) (a c : Fin dims.prod)
    (hc : conjugateNode (intDims dims) (a.val : Int) = some (c.val : Int)) (i : Fin 2) :
    readMem dims.prod (eulerStepMem m P (s, h)).2 (P.fields i) a =
      readMem dims.prod h (P.fields i) a / ((1 - (s.dt : ℂ) * A 0 c) * (1 - (s.dt : ℂ) * A 1 c)) := by
  have hpos := pos_of_goodDims hg
  have hN : ((dims.prod : ℕ) : ℂ) ≠ 0 := prod_ne_zero hpos
  have hall : ∀ i, P.fields i = P.fields 0 := by
    intro i
    match i with
    | 0 => rfl
    | 1 => exact hP.symm
  have htwo : List.finRange 2 = [0, 1] := rfl
  have heach : ∀ (f : Data dims.prod → Data dims.prod) (h : Mem),
      readMem dims.prod (eachField P (fun _ => f) h) (P.fields 0) = f (f (readMem dims.prod h (P.fields 0))) := by
    intro f h
    unfold eachField
    rw [htwo]
    simp only [List.foldl_cons, List.foldl_nil, hall, read_write]
  have hfield : ∀ (h : Mem) (i : Fin 2), readMem dims.prod (eulerFieldMem m s s.getTime P h i) (P.fields 0) =
      fun j => readMem dims.prod h (P.fields 0) j / (1 - (s.dt : ℂ) * A i j) := by
    intro h i
    unfold eulerFieldMem
    dsimp only
    rw [hall i, read_write, hrhs, hden, hf]
    unfold optFilter
    funext j
    simp
  rw [hall i]
  unfold eulerStepMem
  dsimp only
  rw [heach, htwo, List.foldl_cons, List.foldl_cons, List.foldl_nil, hfield, hfield]
  have hsync : syncMem m P h = h := rfl
  have hder : ∀ h, eachDerived P (fft dims) h = h := fun h => rfl
  rw [hsync, hder, heach]
  generalize readMem dims.prod h (P.fields 0) = x
  have hlin : backward dims (backward dims fun j => fft dims (fft dims x) j / (1 - (s.dt : ℂ) * A 0 j) /
      (1 - (s.dt : ℂ) * A 1 j)) a = ifft dims (ifft dims fun j => fft dims (fft dims x) j /
      (1 - (s.dt : ℂ) * A 0 j) / (1 - (s.dt : ℂ) * A 1 j)) a / (dims.prod : ℕ) / (dims.prod : ℕ) := by
    generalize (fun j => fft dims (fft dims x) j / (1 - (s.dt : ℂ) * A 0 j) / (1 - (s.dt : ℂ) * A 1 j)) = y
    unfold backward divRealScalar
    rw [Complex.ofReal_natCast]
    congr 1
    generalize ifft dims y = z
    unfold ifft
    rw [div_eq_mul_inv, Finset.sum_mul]
    refine Finset.sum_congr rfl fun k _ => ?_
    ring
  rw [hlin, ← fft_conj hg hl _ hc, fft_ifft hpos, fft_conj hg hl _ hc, ifft_fft hpos]
  field_simp

/-- C156: `NewField` with data of the right length uses the memory of the caller, with data of another
length it panics. -/
theorem c156_new_field (A : Arena) (n a len : ℕ) :
    (len = n → A.newField n (some (a, len)) = some (A, a)) ∧
      (len ≠ n → A.newField n (some (a, len)) = none) := by
  constructor
  · intro h
    unfold Arena.newField
    exact if_pos h
  · intro h
    unfold Arena.newField
    exact if_neg h

/-- C156: a copy of a field has the same numbers in memory of its own; everything handed out before is
unchanged. -/
theorem c156_copy (A : Arena) (n a : ℕ) (ha : a + n ≤ A.next) :
    readMem n (A.copyField n a).1.mem (A.copyField n a).2 = readMem n A.mem a ∧
      (∀ c < A.next, (A.copyField n a).1.mem c = A.mem c) ∧
      ∀ b, b + n ≤ A.next → Apart n b (A.copyField n a).2 := by
  have hmake : ∀ c < A.next, (A.make n).1.mem c = A.mem c := fun c hc =>
    write_foreign (a := A.next) (n := n) (by omega) A.mem (fun _ => 0)
  refine ⟨?_, fun c hc => ?_, fun b hb => Or.inl hb⟩
  · unfold Arena.copyField
    dsimp only
    rw [read_write]
    funext j
    exact hmake _ (by omega)
  · unfold Arena.copyField
    dsimp only
    rw [write_foreign (by have : (A.make n).2 = A.next := rfl; omega), hmake c hc]

/-- C156: fields made from slices that have no cell in common. The data that is handed to `NewField` is the
initial value of the field, and at any time the caller's slice holds the values of the field: after `k`
steps with either stepper those of the run. A field made without data starts with zeros. -/
theorem c156_user (datas : List (Option (ℕ × ℕ))) (A : Arena)
    (hd : ∀ q, some q ∈ datas → q.2 = dims.prod ∧ q.1 + dims.prod ≤ A.next)
    (hap : (datas.filterMap id).Pairwise fun p q => Apart dims.prod p.1 q.1)
    (m : Model datas.length nd dims.prod) (s : Stepper dims.prod) :
    ∃ (B : Arena) (places : List ℕ) (P : Places datas.length nd),
      Arena.newFields dims.prod (datas ++ List.replicate nd none) A = some (B, places) ∧
      (∀ i : Fin datas.length, places[i.val]? = some (P.fields i)) ∧
      (∀ d : Fin nd, places[datas.length + d.val]? = some (P.derived d)) ∧
      Separate dims.prod P ∧
      (∀ i : Fin datas.length, datas[i] = none → (view dims.prod P B.mem).fields i = fun _ => 0) ∧
      ∀ (i : Fin datas.length) (q : ℕ × ℕ), datas[i] = some q →
        (view dims.prod P B.mem).fields i = readMem dims.prod A.mem q.1 ∧
        ∀ k, readMem dims.prod ((eulerStepMem m P)^[k] (s, B.mem)).2 q.1 =
            ((eulerStep m)^[k] (s, view dims.prod P B.mem)).2.fields i ∧
          readMem dims.prod ((rk4StepMem m P)^[k] (s, B.mem)).2 q.1 =
            ((rk4Step m)^[k] (s, view dims.prod P B.mem)).2.fields i := by
  obtain ⟨B, places, e, hlen, hnext, hmem, hsome, hnone, hold, hpair⟩ :=
    newFields_spec (n := dims.prod) (datas ++ List.replicate nd none) A (by
      intro q hq
      rcases List.mem_append.mp hq with hq | hq
      · exact hd q hq
      · exact absurd (List.eq_of_mem_replicate hq) (by simp))
  have hlen' : places.length = datas.length + nd := by rw [hlen]; simp
  have hp : places.Pairwise (Apart dims.prod) := by
    rw [hpair, List.filterMap_append]
    have : (List.replicate nd (none : Option (ℕ × ℕ))).filterMap id = [] := by
      rw [List.filterMap_eq_nil_iff]
      intro a ha
      exact List.eq_of_mem_replicate ha
    rw [this, List.append_nil]
    exact hap
  have hget : ∀ i j (hi : i < places.length) (hj : j < places.length), i ≠ j →
      Apart dims.prod places[i] places[j] := by
    intro i j hi hj hij
    rcases Nat.lt_or_gt_of_ne hij with h | h
    · exact List.pairwise_iff_getElem.mp hp i j hi hj h
    · exact (List.pairwise_iff_getElem.mp hp j i hj hi h).symm
  let P : Places datas.length nd :=
    ⟨fun i => places[i.val]'(by omega), fun d => places[datas.length + d.val]'(by omega)⟩
  have hP : Separate dims.prod P :=
    ⟨fun i j hij => hget _ _ _ _ (fun h => hij (Fin.ext h)),
      fun i j hij => hget _ _ _ _ (fun h => hij (Fin.ext (by omega))),
      fun i d => hget _ _ _ _ (by omega)⟩
  have hdata : ∀ i : Fin datas.length, (datas ++ List.replicate nd none)[i.val]? = some datas[i] := by
    intro i
    rw [List.getElem?_append_left i.2, List.getElem?_eq_getElem i.2]
    rfl
  refine ⟨B, places, P, e, fun i => List.getElem?_eq_getElem _, fun d => List.getElem?_eq_getElem _, hP, ?_, ?_⟩
  · intro i hi
    obtain ⟨a, ha, -, -, hz⟩ := hnone i.val (by rw [hdata i, hi])
    rw [List.getElem?_eq_getElem (by omega)] at ha
    have : P.fields i = a := Option.some.inj ha
    change readMem dims.prod B.mem (P.fields i) = _
    rw [this, hz]
  · intro i q hi
    have ha := hsome i.val q (by rw [hdata i, hi])
    rw [List.getElem?_eq_getElem (by omega)] at ha
    have hPi : P.fields i = q.1 := Option.some.inj ha
    have hq := hd q (by rw [← hi]; exact List.getElem_mem _)
    refine ⟨?_, fun k => ?_⟩
    · change readMem dims.prod B.mem (P.fields i) = _
      rw [hPi]
      funext j
      exact hmem _ (by omega)
    · have hr := c156_run hP m s B.mem k
      rw [← hr.1, ← hr.2.1, ← hPi]
      exact ⟨rfl, rfl⟩

/-- C156: two fields made from overlapping slices do not have their own memory. -/
theorem c156_overlap (datas : List (Option (ℕ × ℕ))) (A : Arena)
    (hd : ∀ q, some q ∈ datas → q.2 = n ∧ q.1 + n ≤ A.next)
    (hap : ¬ (datas.filterMap id).Pairwise fun p q => Apart n p.1 q.1) :
    ∃ B places, Arena.newFields n datas A = some (B, places) ∧ ¬ places.Pairwise (Apart n) := by
  obtain ⟨B, places, e, -, -, -, -, -, -, hpair⟩ := newFields_spec datas A hd
  exact ⟨B, places, e, fun h => hap (hpair.mp h)⟩

/-- C156: two fields with diffusion equations, `dx/dt = D*LAP x`, that share their memory. After a step
the value at a node is divided by `(1 + dt D (2 pi |f|)^2)^2`, where `f` is the frequency with the number
of that node: a uniform field does not stay uniform. -/
theorem c156_shared_diffusion (hg : GoodDims (intDims dims)) (hl : LayoutOk dims) (m : Model 2 0 dims.prod)
    (P : Places 2 0) (hP : P.fields 0 = P.fields 1) (s : Stepper dims.prod)
    (hf : s.filter = none) (D : ℝ) (hrhs : ∀ i st, m.getRHS i st s.freq s.getTime = fun _ => 0)
    (hden : ∀ i st k, m.getDenum i st s.freq s.getTime k =
      ((-(D * (2 * Real.pi) ^ 2 * ((freqOf dims k).map fun x => x ^ 2).sum) : ℝ) : ℂ))
    (h : Mem) (a : Fin dims.prod) (i : Fin 2) :
    readMem dims.prod (eulerStepMem m P (s, h)).2 (P.fields i) a =
      readMem dims.prod h (P.fields i) a /
        ((1 + s.dt * (D * (2 * Real.pi) ^ 2 * ((freqOf dims a).map fun x => x ^ 2).sum) : ℝ) : ℂ) ^ 2 := by
  obtain ⟨c, hc⟩ := conj_exists hg a
  rw [c156_shared hg hl m P hP s hf (fun _ k =>
    ((-(D * (2 * Real.pi) ^ 2 * ((freqOf dims k).map fun x => x ^ 2).sum) : ℝ) : ℂ)) hrhs
    (fun i st => funext (hden i st)) h a c hc i, freq_sq_conj hg hc]
  congr 1
  push_cast
  ring

/-- C156: in particular a uniform field is changed at every node whose number is that of a non-zero
frequency, while the node with number zero keeps its value. -/
theorem c156_shared_uniform (hg : GoodDims (intDims dims)) (hl : LayoutOk dims) (m : Model 2 0 dims.prod)
    (P : Places 2 0) (hP : P.fields 0 = P.fields 1) (s : Stepper dims.prod)
    (hf : s.filter = none) (D : ℝ) (hD : 0 < s.dt * D)
    (hrhs : ∀ i st, m.getRHS i st s.freq s.getTime = fun _ => 0)
    (hden : ∀ i st k, m.getDenum i st s.freq s.getTime k =
      ((-(D * (2 * Real.pi) ^ 2 * ((freqOf dims k).map fun x => x ^ 2).sum) : ℝ) : ℂ))
    (h : Mem) (i : Fin 2) (v : ℂ) (hv : v ≠ 0) (hu : ∀ a, readMem dims.prod h (P.fields i) a = v)
    (a : Fin dims.prod) :
    readMem dims.prod (eulerStepMem m P (s, h)).2 (P.fields i) a = v ↔
      ((freqOf dims a).map fun x => x ^ 2).sum = 0 := by
  rw [c156_shared_diffusion hg hl m P hP s hf D hrhs hden h a i, hu]
  have hF : 0 ≤ ((freqOf dims a).map fun x => x ^ 2).sum :=
    List.sum_nonneg (by intro x hx; obtain ⟨y, -, rfl⟩ := List.mem_map.mp hx; exact sq_nonneg y)
  generalize ((freqOf dims a).map fun x => x ^ 2).sum = F at hF ⊢
  have hk : 0 ≤ s.dt * (D * (2 * Real.pi) ^ 2 * F) := by
    have : s.dt * (D * (2 * Real.pi) ^ 2 * F) = s.dt * D * ((2 * Real.pi) ^ 2 * F) := by ring
    rw [this]; positivity
  constructor
  · intro e
    by_contra hne
    have hFp : 0 < F := lt_of_le_of_ne hF (Ne.symm hne)
    have hk' : 0 < s.dt * (D * (2 * Real.pi) ^ 2 * F) := by
      have : s.dt * (D * (2 * Real.pi) ^ 2 * F) = s.dt * D * ((2 * Real.pi) ^ 2 * F) := by ring
      rw [this]; have := Real.pi_pos; positivity
    generalize s.dt * (D * (2 * Real.pi) ^ 2 * F) = K at hk' e
    have hK : ((1 + K : ℝ) : ℂ) ≠ 0 := by
      rw [Ne, Complex.ofReal_eq_zero]; linarith
    rw [div_eq_iff (pow_ne_zero 2 hK)] at e
    have e1 : ((1 + K : ℝ) : ℂ) ^ 2 = 1 := by
      have : v * (((1 + K : ℝ) : ℂ) ^ 2 - 1) = 0 := by rw [mul_sub, ← e]; ring
      rcases mul_eq_zero.mp this with h0 | h0
      · exact absurd h0 hv
      · exact sub_eq_zero.mp h0
    have e2 : (1 + K) ^ 2 = 1 := by exact_mod_cast e1
    have : K * (2 + K) = 0 := by linarith [e2, sq (1 + K), (by ring : (1 + K) ^ 2 = 1 + K * (2 + K))]
    rcases mul_eq_zero.mp this with h0 | h0
    · linarith
    · linarith
  · rintro rfl
    simp

/-- Two fields and a derived field one after the other on a grid with six nodes have their own memory;
two fields in the same cells do not. -/
example : Separate 6 (⟨fun i => 6 * i.val, fun _ => 12⟩ : Places 2 1) ∧
    ¬ Separate 6 (⟨fun i => 3 * i.val, fun _ => 12⟩ : Places 2 1) := by
  constructor
  · refine ⟨?_, ?_, ?_⟩
    · intro i j hij
      unfold Apart
      have : i.val ≠ j.val := fun h => hij (Fin.ext h)
      dsimp only
      omega
    · intro i j hij
      exact absurd (Subsingleton.elim i j) hij
    · intro i d
      unfold Apart
      dsimp only
      omega
  · intro h
    have := h.fields 0 1 (by decide)
    unfold Apart at this
    simp at this

/-- The hypotheses of `c156_shared_uniform` for the diffusion of two fields with one memory. -/
example : ∃ m : Model 2 0 [2, 2].prod,
    (∀ i st freq t, m.getRHS i st freq t = fun _ => 0) ∧
    ∀ i st t k, m.getDenum i st (freqOf [2, 2]) t k =
      ((-(1 * (2 * Real.pi) ^ 2 * ((freqOf [2, 2] k).map fun x => x ^ 2).sum) : ℝ) : ℂ) := by
  refine ⟨⟨fun d => d.elim0, fun _ => [], fun _ => [fun _ freq _ k =>
    ((-(1 * (2 * Real.pi) ^ 2 * ((freq k).map fun x => x ^ 2).sum) : ℝ) : ℂ)], fun _ => [], []⟩, ?_, ?_⟩
  · intro i st freq t
    rfl
  · intro i st t k
    unfold Model.getDenum elemwiseAdd
    simp only [List.foldl_cons, List.foldl_nil, zero_add]

end Gopf.Props
