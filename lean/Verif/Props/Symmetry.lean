import Verif.Proofs.Symmetry
import Verif.Props.ConvergeText
import Verif.Props.Session

/-!
# C114: symmetries of the grid
-/

namespace Gopf.Props
open Spec Pf Pfutil

variable {nf nd n : ℕ} {dims : List ℕ}

/-- The fields of the second store are those of the first one, moved by `τ`. -/
def Moved (τ : Equiv.Perm (Fin n)) (st st' : Store nf nd n) : Prop := ∀ i x, st'.fields i (τ x) = st.fields i x

/-- The square of a frequency. -/
noncomputable def freqSquare (freq : Frequency n) (k : Fin n) : ℝ := ((freq k).map fun x => x ^ 2).sum

/-- Bins are exchanged and multiplied by factors. -/
def Twisted (κ : Equiv.Perm (Fin n)) (w : Fin n → ℂ) (a b : Data n) : Prop := ∀ k, b k = w k * a (κ k)

/-- No node and no direction is special: derived fields are computed from the fields node by node, and the terms
multiply bins by factors that depend on the length of the frequency only. -/
structure Isotropic (freq : Frequency n) (m : Model nf nd n) : Prop where
  reads : FieldsOnly m
  nodes : ∀ (τ : Equiv.Perm (Fin n)) d (st st' : Store nf nd n), Moved τ st st' →
    ∀ x, m.calcs d st' (τ x) = m.calcs d st x
  explicit : ∀ (κ : Equiv.Perm (Fin n)) (w : Fin n → ℂ), (∀ k, freqSquare freq (κ k) = freqSquare freq k) →
    ∀ st st' : Store nf nd n, (∀ i, Twisted κ w (st.fields i) (st'.fields i)) →
    (∀ d, Twisted κ w (st.derived d) (st'.derived d)) →
    ∀ i t, Twisted κ w (m.getRHS i st freq t) (m.getRHS i st' freq t)
  implicit : ∀ i t (st st' : Store nf nd n) k k', freqSquare freq k = freqSquare freq k' →
    m.getDenum i st freq t k = m.getDenum i st' freq t k'

/-! ## Transforms -/

section
variable {τ κ : Equiv.Perm (Fin dims.prod)} {w : Fin dims.prod → ℂ}

/-- The relation between moved nodes and exchanged bins. -/
def Kernel (τ κ : Equiv.Perm (Fin dims.prod)) (w : Fin dims.prod → ℂ) : Prop :=
  ∀ k x, cis (-phase dims k.val (τ x).val) = w k * cis (-phase dims (κ k).val x.val)

theorem fft_moved (hK : Kernel τ κ w) {u u' : Data dims.prod} (hu : ∀ x, u' (τ x) = u x) :
    Twisted κ w (fft dims u) (fft dims u') := by
  intro k
  unfold fft
  rw [← Equiv.sum_comp τ, Finset.mul_sum]
  refine Finset.sum_congr rfl fun x _ => ?_
  rw [hu, hK]
  ring

theorem ifft_twisted (h : ∀ d ∈ dims, 0 < d) (hK : Kernel τ κ w) {Y Y' : Data dims.prod} (hY : Twisted κ w Y Y')
    (x : Fin dims.prod) : divRealScalar (ifft dims Y') (dims.prod : ℕ) (τ x) =
      divRealScalar (ifft dims Y) (dims.prod : ℕ) x := by
  obtain ⟨u, hu⟩ : ∃ u, fft dims u = Y := ⟨_, fft_surjective h Y⟩
  have h1 := fft_moved hK (u := u) (u' := fun y => u (τ.symm y)) (fun x => by simp)
  have h2 : fft dims (fun y => u (τ.symm y)) = Y' := by
    funext k
    rw [h1 k, hY k, hu]
  have hN := prod_ne_zero h
  simp only [divRealScalar, Complex.ofReal_natCast]
  rw [← h2, ← hu, ifft_fft h, ifft_fft h]
  simp

theorem dotR_self (l : List ℝ) : dotR l l = (l.map fun x => x ^ 2).sum := by
  unfold dotR
  congr 1
  induction l with
  | nil => rfl
  | cons a l ih => rw [List.zipWith_cons_cons, ih, List.map_cons, pow_two]

theorem filter_twisted {freq : Frequency n} {κ : Equiv.Perm (Fin n)} {w : Fin n → ℂ}
    (hf : ∀ k, freqSquare freq (κ k) = freqSquare freq k)
    (filter : Option (ℝ → ℝ)) {a b : Data n} (hab : Twisted κ w a b) :
    Twisted κ w (optFilter filter freq a) (optFilter filter freq b) := by
  cases filter with
  | none => exact hab
  | some f =>
    intro k
    have := hf k
    unfold freqSquare at this
    simp only [optFilter, applyModalFilter, dotR_self, hab k, this]
    ring

/-! ## The steps -/

variable {m : Model nf nd dims.prod}

theorem spectra_twisted (hK : Kernel τ κ w) {freq : Frequency dims.prod} (hm : Isotropic freq m)
    {st st' : Store nf nd dims.prod} (hst : Moved τ st st') :
    (∀ i, Twisted κ w ((fftDerived (fftFields (m.sync st))).fields i) ((fftDerived (fftFields (m.sync st'))).fields i)) ∧
    ∀ d, Twisted κ w ((fftDerived (fftFields (m.sync st))).derived d)
      ((fftDerived (fftFields (m.sync st'))).derived d) := by
  rw [sync_eq hm.reads, sync_eq hm.reads]
  exact ⟨fun i => fft_moved hK (hst i), fun d => fft_moved hK (hm.nodes τ d st st' hst)⟩

theorem euler_loop {s : Stepper dims.prod} (hm : Isotropic s.freq m)
    (hf : ∀ k, freqSquare s.freq (κ k) = freqSquare s.freq k) (t : ℝ) (l : List (Fin nf))
    {st st' : Store nf nd dims.prod} (h1 : ∀ i, Twisted κ w (st.fields i) (st'.fields i))
    (h2 : ∀ d, Twisted κ w (st.derived d) (st'.derived d)) (i : Fin nf) :
    Twisted κ w ((l.foldl (eulerField m s t) st).fields i) ((l.foldl (eulerField m s t) st').fields i) := by
  induction l generalizing st st' with
  | nil => exact h1 i
  | cons j l ih =>
    rw [List.foldl_cons, List.foldl_cons]
    refine ih ?_ h2
    intro i
    by_cases hij : i = j
    · subst hij
      simp only [eulerField, Function.update_self]
      apply filter_twisted hf
      intro k
      dsimp only
      rw [h1 i k, hm.explicit κ w hf st st' h1 h2 i t k, hm.implicit i t st' st k (κ k) (hf k).symm]
      ring
    · simp only [eulerField, Function.update_of_ne hij]
      exact h1 i

theorem euler_moved (h : ∀ d ∈ dims, 0 < d) (hK : Kernel τ κ w) {s : Stepper dims.prod} (hm : Isotropic s.freq m)
    (hf : ∀ k, freqSquare s.freq (κ k) = freqSquare s.freq k) (t : ℝ) {st st' : Store nf nd dims.prod}
    (hst : Moved τ st st') : Moved τ (eulerStepAt m s t st) (eulerStepAt m s t st') := by
  obtain ⟨h1, h2⟩ := spectra_twisted hK hm hst
  intro i x
  exact ifft_twisted h hK (euler_loop hm hf t _ h1 h2 i) x

theorem rk4_fields (s : Stepper dims.prod) {A : Fin nf → Data dims.prod}
    (hA : ∀ i st, m.getDenum i st s.freq s.getTime = A i) (k : Fin nf → Data dims.prod) (factor : ℝ)
    (st : Store nf nd dims.prod) (i : Fin nf) :
    ((List.finRange nf).foldl (rk4Field m s k factor) st).fields i = divRealScalar (ifft dims fun j =>
      (st.fields i j + ((factor * s.dt : ℝ) : ℂ) * k i j) / (1 - ((factor * s.dt : ℝ) : ℂ) * A i j)) (dims.prod : ℕ) := by
  let g : Store nf nd dims.prod → Fin nf → Data dims.prod := fun st i =>
    divRealScalar (ifft dims fun j => (st.fields i j + ((factor * s.dt : ℝ) : ℂ) * k i j) /
      (1 - ((factor * s.dt : ℝ) : ℂ) * m.getDenum i st s.freq s.getTime j)) (dims.prod : ℕ)
  obtain ⟨l1, l2, hl, hlt⟩ := finRange_split i
  have hnd := List.nodup_finRange nf
  have h3 := (foldl_update_fields g (List.finRange nf) hnd st).2.2 l1 i l2 hl
  have hl1nd : l1.Nodup := by
    rw [hl] at hnd; exact hnd.sublist (List.sublist_append_left _ _)
  have h2 := (foldl_update_fields g l1 hl1nd st).2.1 i (fun hm => absurd (hlt i hm) (lt_irrefl i))
  obtain ⟨stl, e2, e3⟩ : ∃ stl : Store nf nd dims.prod, stl.fields i = st.fields i ∧
      ((List.finRange nf).foldl (rk4Field m s k factor) st).fields i = g stl i := ⟨_, h2, h3⟩
  refine e3.trans ?_
  simp only [g, e2, hA]

theorem correction_twisted (h : ∀ d ∈ dims, 0 < d) (hK : Kernel τ κ w) {s : Stepper dims.prod}
    (hm : Isotropic s.freq m) (hf : ∀ k, freqSquare s.freq (κ k) = freqSquare s.freq k)
    {a a' : Fin nf → Data dims.prod} (ha : ∀ i, Twisted κ w (a i) (a' i)) (factor : ℝ)
    {st st' : Store nf nd dims.prod} (hst : ∀ i, Twisted κ w (st.fields i) (st'.fields i)) (i : Fin nf) :
    Twisted κ w ((rk4Correction m s a factor st).2 i) ((rk4Correction m s a' factor st').2 i) := by
  have hA : ∀ i (x : Store nf nd dims.prod), m.getDenum i x s.freq s.getTime = m.getDenum i st s.freq s.getTime :=
    fun i x => funext fun k => hm.implicit i _ x st k k rfl
  have hmv : Moved τ ((List.finRange nf).foldl (rk4Field m s a factor) st)
      ((List.finRange nf).foldl (rk4Field m s a' factor) st') := by
    intro i x
    rw [rk4_fields s hA, rk4_fields s hA]
    apply ifft_twisted h hK
    intro k
    dsimp only
    rw [hst i k, ha i k, hm.implicit i _ st st k (κ k) (hf k).symm]
    ring
  obtain ⟨h1, h2⟩ := spectra_twisted hK hm hmv
  exact hm.explicit κ w hf _ _ h1 h2 i _

/-- One of the later stages of an RK4 step: the accumulated result, the slopes and the derived fields. -/
noncomputable def stageOf (m : Model nf nd dims.prod) (s : Stepper dims.prod) (F : Fin nf → Data dims.prod)
    (factor weight : ℝ) (p : (Fin nf → Data dims.prod) × (Fin nf → Data dims.prod) × (Fin nd → Data dims.prod)) :
    (Fin nf → Data dims.prod) × (Fin nf → Data dims.prod) × (Fin nd → Data dims.prod) :=
  let c := rk4Correction m s p.2.1 factor ⟨F, p.2.2⟩
  (rk4Accumulate s p.1 c.2 weight, c.2, c.1.derived)

/-- The stages of an RK4 step. -/
noncomputable def stagesOf (m : Model nf nd dims.prod) (s : Stepper dims.prod) (st : Store nf nd dims.prod) :
    (Fin nf → Data dims.prod) × (Fin nf → Data dims.prod) × (Fin nd → Data dims.prod) :=
  let F := st.fields
  let k1 := fun i => m.getRHS i st s.freq s.getTime
  stageOf m s F 1 (1 / 6) (stageOf m s F 0.5 (1 / 3) (stageOf m s F 0.5 (1 / 3)
    (rk4Accumulate s F k1 (1 / 6), k1, st.derived)))

theorem rk4_stages (s : Stepper dims.prod) {A : Fin nf → Data dims.prod}
    (hA : ∀ i st, m.getDenum i st s.freq s.getTime = A i) (st : Store nf nd dims.prod) (i : Fin nf) :
    (rk4StepStore m s st).fields i = divRealScalar (ifft dims (optFilter s.filter s.freq fun j =>
      (stagesOf m s (fftDerived (fftFields (m.sync st)))).1 i j / (1 - (s.dt : ℂ) * A i j))) (dims.prod : ℕ) := by
  have last : ∀ (final : Fin nf → Data dims.prod) (x : Store nf nd dims.prod),
      ((List.finRange nf).foldl (fun (stc : Store nf nd dims.prod) i =>
        { stc with fields := Function.update stc.fields i (optFilter s.filter s.freq fun j =>
          final i j / (1 - (s.dt : ℂ) * m.getDenum i stc s.freq s.getTime j)) }) x).fields i =
      optFilter s.filter s.freq fun j => final i j / (1 - (s.dt : ℂ) * A i j) := by
    intro final x
    let g : Store nf nd dims.prod → Fin nf → Data dims.prod := fun stc i =>
      optFilter s.filter s.freq fun j => final i j / (1 - (s.dt : ℂ) * m.getDenum i stc s.freq s.getTime j)
    obtain ⟨l1, l2, hl, -⟩ := finRange_split i
    have h3 := (foldl_update_fields g (List.finRange nf) (List.nodup_finRange nf) x).2.2 l1 i l2 hl
    refine h3.trans ?_
    simp only [g, hA]
  exact congrArg (fun d => divRealScalar (ifft dims d) (dims.prod : ℕ)) (last _ _)

theorem stage_twisted (h : ∀ d ∈ dims, 0 < d) (hK : Kernel τ κ w) {s : Stepper dims.prod}
    (hm : Isotropic s.freq m) (hf : ∀ k, freqSquare s.freq (κ k) = freqSquare s.freq k)
    {F F' : Fin nf → Data dims.prod} (hF : ∀ i, Twisted κ w (F i) (F' i)) (factor weight : ℝ)
    {p p' : (Fin nf → Data dims.prod) × (Fin nf → Data dims.prod) × (Fin nd → Data dims.prod)}
    (hp : ∀ i, Twisted κ w (p.1 i) (p'.1 i) ∧ Twisted κ w (p.2.1 i) (p'.2.1 i)) (i : Fin nf) :
    Twisted κ w ((stageOf m s F factor weight p).1 i) ((stageOf m s F' factor weight p').1 i) ∧
      Twisted κ w ((stageOf m s F factor weight p).2.1 i) ((stageOf m s F' factor weight p').2.1 i) := by
  have hc := correction_twisted h hK hm hf (fun i => (hp i).2) factor (st := ⟨F, p.2.2⟩) (st' := ⟨F', p'.2.2⟩) hF i
  refine ⟨fun k => ?_, hc⟩
  have e1 := (hp i).1 k
  have e2 := hc k
  simp only [stageOf, rk4Accumulate, e1, e2]
  ring

theorem stages_twisted (h : ∀ d ∈ dims, 0 < d) (hK : Kernel τ κ w) {s : Stepper dims.prod}
    (hm : Isotropic s.freq m) (hf : ∀ k, freqSquare s.freq (κ k) = freqSquare s.freq k)
    {st st' : Store nf nd dims.prod} (h1 : ∀ i, Twisted κ w (st.fields i) (st'.fields i))
    (k1 : ∀ i, Twisted κ w (m.getRHS i st s.freq s.getTime) (m.getRHS i st' s.freq s.getTime)) (i : Fin nf) :
    Twisted κ w ((stagesOf m s st).1 i) ((stagesOf m s st').1 i) := by
  have h0 : ∀ i, Twisted κ w
      (rk4Accumulate s st.fields (fun i => m.getRHS i st s.freq s.getTime) (1 / 6) i)
      (rk4Accumulate s st'.fields (fun i => m.getRHS i st' s.freq s.getTime) (1 / 6) i) := by
    intro i k
    have e1 := h1 i k
    have e2 := k1 i k
    simp only [rk4Accumulate, e1, e2]
    ring
  exact (stage_twisted h hK hm hf h1 1 (1 / 6) (stage_twisted h hK hm hf h1 0.5 (1 / 3)
    (stage_twisted h hK hm hf h1 0.5 (1 / 3)
      (p := (rk4Accumulate s st.fields (fun i => m.getRHS i st s.freq s.getTime) (1 / 6),
        fun i => m.getRHS i st s.freq s.getTime, st.derived))
      (p' := (rk4Accumulate s st'.fields (fun i => m.getRHS i st' s.freq s.getTime) (1 / 6),
        fun i => m.getRHS i st' s.freq s.getTime, st'.derived)) fun i => ⟨h0 i, k1 i⟩)) i).1

theorem rk4_moved (h : ∀ d ∈ dims, 0 < d) (hK : Kernel τ κ w) {s : Stepper dims.prod} (hm : Isotropic s.freq m)
    (hf : ∀ k, freqSquare s.freq (κ k) = freqSquare s.freq k) {st st' : Store nf nd dims.prod}
    (hst : Moved τ st st') : Moved τ (rk4StepStore m s st) (rk4StepStore m s st') := by
  have hA : ∀ i (x : Store nf nd dims.prod), m.getDenum i x s.freq s.getTime = m.getDenum i st s.freq s.getTime :=
    fun i x => funext fun k => hm.implicit i _ x st k k rfl
  obtain ⟨h1, h2⟩ := spectra_twisted hK hm hst
  have k1 := hm.explicit κ w hf _ _ h1 h2
  intro i x
  rw [rk4_stages s hA, rk4_stages s hA]
  apply ifft_twisted h hK
  apply filter_twisted hf
  intro k
  have hfin := stages_twisted h hK hm hf h1 (fun i => k1 i s.getTime) i
  have e : (stagesOf m s (fftDerived (fftFields (m.sync st')))).1 i k =
      w k * (stagesOf m s (fftDerived (fftFields (m.sync st)))).1 i (κ k) := hfin k
  dsimp only
  rw [e, hm.implicit i _ st st k (κ k) (hf k).symm]
  ring
end

/-! ## C114 -/

/-- C114: every symmetry of the grid can be carried out. -/
theorem c114_exists (h : GoodDims (intDims dims)) (g : GridSymmetry dims) :
    ∃ τ : Equiv.Perm (Fin dims.prod), g.Moves τ := exists_moves h g

/-- C114: an Euler step of moved fields gives the moved result. -/
theorem c114_euler (h : GoodDims (intDims dims)) (hl : LayoutOk dims) (m : Model nf nd dims.prod)
    (hm : Isotropic (freqOf dims) m) (g : GridSymmetry dims) (τ : Equiv.Perm (Fin dims.prod)) (hτ : g.Moves τ)
    (s : Stepper dims.prod) (hs : s.freq = freqOf dims) (st st' : Store nf nd dims.prod) (hst : Moved τ st st') :
    Moved τ (eulerStep m (s, st)).2 (eulerStep m (s, st')).2 := by
  obtain ⟨κ, w, hK, -, hf⟩ := exists_bins h hl hτ
  rw [← hs] at hm
  exact euler_moved (pos_of_goodDims h) hK hm (fun k => by rw [hs]; exact hf k) _ hst

/-- C114: an RK4 step of moved fields gives the moved result. -/
theorem c114_rk4 (h : GoodDims (intDims dims)) (hl : LayoutOk dims) (m : Model nf nd dims.prod)
    (hm : Isotropic (freqOf dims) m) (g : GridSymmetry dims) (τ : Equiv.Perm (Fin dims.prod)) (hτ : g.Moves τ)
    (s : Stepper dims.prod) (hs : s.freq = freqOf dims) (st st' : Store nf nd dims.prod) (hst : Moved τ st st') :
    Moved τ (rk4Step m (s, st)).2 (rk4Step m (s, st')).2 := by
  obtain ⟨κ, w, hK, -, hf⟩ := exists_bins h hl hτ
  rw [← hs] at hm
  exact rk4_moved (pos_of_goodDims h) hK hm (fun k => by rw [hs]; exact hf k) hst

/-! ### Sessions -/

/-- Two solvers in the same state, up to the monitors and up to a movement of the fields. -/
structure SameUpTo (τ : Equiv.Perm (Fin dims.prod)) (s s' : SolverState nf nd dims) : Prop where
  dt : s'.dt = s.dt
  kind : s'.kind = s.kind
  stepper : s'.stepper = s.stepper
  freq : s.stepper.freq = freqOf dims
  store : Moved τ s.store s'.store

section
variable {m : Model nf nd dims.prod} {τ : Equiv.Perm (Fin dims.prod)} {g : GridSymmetry dims}
variable (h : GoodDims (intDims dims)) (hl : LayoutOk dims) (hm : Isotropic (freqOf dims) m) (hτ : g.Moves τ)
include h hl hm hτ

theorem same_step {s s' : SolverState nf nd dims} (hs : SameUpTo τ s s') : SameUpTo τ (s.step m) (s'.step m) := by
  obtain ⟨h1, h2, h3, h4, h5⟩ := hs
  unfold SolverState.step
  rw [h2, h3]
  cases s.kind with
  | euler => exact ⟨h1, rfl, rfl, h4, c114_euler h hl m hm g τ hτ _ h4 _ _ h5⟩
  | rk4 => exact ⟨h1, rfl, rfl, h4, c114_rk4 h hl m hm g τ hτ _ h4 _ _ h5⟩

theorem same_propagate (k : ℤ) {s s' : SolverState nf nd dims} (hs : SameUpTo τ s s') :
    SameUpTo τ (s.propagate m k) (s'.propagate m k) := by
  unfold SolverState.propagate
  generalize List.range k.toNat = l
  induction l generalizing s s' with
  | nil => exact hs
  | cons a l ih => exact ih (same_step h hl hm hτ hs)

theorem same_solve (bricks : Str → Option (BrickRef nf nd)) (e k : ℤ) {s s' r r' : SolverState nf nd dims}
    (hs : SameUpTo τ s s') (hr : s.solve m bricks e k = some r) (hr' : s'.solve m bricks e k = some r') :
    SameUpTo τ r r' := by
  unfold SolverState.solve at hr hr'
  generalize List.range e.toNat = l at hr hr'
  induction l generalizing s s' with
  | nil =>
    simp only [List.foldlM_nil, Option.pure_def, Option.some.injEq] at hr hr'
    subst hr hr'
    exact hs
  | cons a l ih =>
    rw [List.foldlM_cons, Option.bind_eq_bind, Option.bind_eq_some_iff] at hr hr'
    obtain ⟨t, ht, hr⟩ := hr
    obtain ⟨t', ht', hr'⟩ := hr'
    refine ih ?_ hr hr'
    unfold SolverState.epoch SolverState.runMonitors at ht ht'
    rw [Option.bind_eq_bind, Option.bind_eq_some_iff] at ht ht'
    obtain ⟨ms, -, ht⟩ := ht
    obtain ⟨ms', -, ht'⟩ := ht'
    simp only [Option.pure_def, Option.some.injEq] at ht ht'
    subst ht ht'
    obtain ⟨h1, h2, h3, h4, h5⟩ := same_propagate h hl hm hτ k hs
    exact ⟨h1, h2, h3, h4, h5⟩

theorem same_call (bricks : Str → Option (BrickRef nf nd)) (c : SolverCall) {s s' r r' : SolverState nf nd dims}
    (hs : SameUpTo τ s s') (hr : s.call m bricks c = some r) (hr' : s'.call m bricks c = some r') :
    SameUpTo τ r r' := by
  cases c with
  | addMonitor site field =>
    simp only [SolverState.call, Option.some.injEq] at hr hr'
    subst hr hr'
    exact ⟨hs.1, hs.2, hs.3, hs.4, hs.5⟩
  | setFilter filter =>
    simp only [SolverState.call, Option.some.injEq] at hr hr'
    subst hr hr'
    exact ⟨hs.1, hs.2, by rw [hs.3], hs.4, hs.5⟩
  | setStepper name =>
    simp only [SolverState.call, SolverState.setStepper] at hr hr'
    split_ifs at hr hr' <;>
    · simp only [Option.some.injEq] at hr hr'
      subst hr hr'
      exact ⟨hs.1, rfl, by rw [hs.1], rfl, hs.5⟩
  | propagate k =>
    simp only [SolverState.call, Option.some.injEq] at hr hr'
    subst hr hr'
    exact same_propagate h hl hm hτ k hs
  | solve e k => exact same_solve h hl hm hτ bricks e k hs hr hr'

end

/-- C114: after any sequence of calls, the fields that started from moved fields are the moved fields. -/
theorem c114_session (h : GoodDims (intDims dims)) (hl : LayoutOk dims) (m : Model nf nd dims.prod)
    (hm : Isotropic (freqOf dims) m) (g : GridSymmetry dims) (τ : Equiv.Perm (Fin dims.prod)) (hτ : g.Moves τ)
    (bricks : Str → Option (BrickRef nf nd)) (dt : ℝ) (fields fields' : Fin nf → List ℂ)
    (derived derived' : Fin nd → Data dims.prod) (s s' r r' : SolverState nf nd dims)
    (hs : newSolver dims dt fields derived = some s) (hs' : newSolver dims dt fields' derived' = some s')
    (hmv : Moved τ s.store s'.store) (calls : List SolverCall)
    (hr : s.session m bricks calls = some r) (hr' : s'.session m bricks calls = some r') :
    Moved τ r.store r'.store := by
  have h0 : SameUpTo τ s s' := by
    unfold newSolver at hs hs'
    split_ifs at hs hs'
    simp only [Option.some.injEq] at hs hs'
    subst hs hs'
    exact ⟨rfl, rfl, rfl, rfl, hmv⟩
  clear hs hs' hmv
  suffices SameUpTo τ r r' from this.store
  unfold SolverState.session at hr hr'
  induction calls generalizing s s' with
  | nil =>
    simp only [List.foldlM_nil, Option.pure_def, Option.some.injEq] at hr hr'
    subst hr hr'
    exact h0
  | cons c calls ih =>
    rw [List.foldlM_cons, Option.bind_eq_bind, Option.bind_eq_some_iff] at hr hr'
    obtain ⟨t, ht, hr⟩ := hr
    obtain ⟨t', ht', hr'⟩ := hr'
    exact ih t t' hr hr' (same_call h hl hm hτ bricks c h0 ht ht')

/-! ### Equations given as text -/

/-- A registered function is computed node by node. -/
def NodeByNode (c : Calc n) : Prop := ∃ φ : (Str → ℂ) → ℂ, ∀ (u : Bricks n) k, c.eval u k = φ fun x => u x k

theorem laplaceSymbol_square {f f' : List ℝ} (h : (f.map fun x => x ^ 2).sum = (f'.map fun x => x ^ 2).sum) :
    laplaceSymbol f = laplaceSymbol f' := by
  unfold laplaceSymbol
  rw [h]

/-- C114: a model made from the text of polynomial equations with functions computed node by node is isotropic. -/
theorem c114_text (N : Names) (hN : N.WellNamed) (m0 : EqModel n) (h0 : StartsAs N m0) (heq : m0.equations = [])
    (hfun : ∀ p ∈ m0.derived, ReadsFields N p.2 ∧ NodeByNode p.2)
    (eqs : List Equation) (hq : ∀ eq ∈ eqs, eq.Polynomial N ∧ Unregistered m0 eq)
    (hcount : N.fields.length ≤ eqs.length)
    (ss : List Str) (hs : ss.map (fun s => s.filter fun c => c ≠ ' ') = eqs.map Equation.text) (c : Str → ℂ)
    (freq : Frequency n) :
    ∃ m M, ss.foldlM EqModel.addEquation m0 = some m ∧ m.fields = N.fields ∧ m.assemble c = some M ∧
      Isotropic freq M := by
  obtain ⟨m, hadd, hg, -, ⟨l, hl, hl'⟩, -⟩ := add_all hN eqs ss m0 (grown_start hN h0) hq hs
  obtain ⟨m', Rs, hadd', hinit, hall⟩ := initRHS_shape N hN m0 h0 heq eqs hq ss hs
  rw [hadd] at hadd'
  obtain rfl := Option.some.inj hadd'
  have hlenE : m.fields.length ≤ eqs.length := by rw [hg.fields]; exact hcount
  have hRlen : m.fields.length ≤ Rs.length := by rw [← hall.length_eq]; exact hlenE
  refine ⟨m, _, hadd, hg.fields, by rw [EqModel.assemble, hinit]; simp only [dif_pos hRlen]; rfl, ?_⟩
  set M : Model m.fields.length m.derived.length n :=
    { calcs := fun d st => (m.derived[d]).2.eval (m.brick c st)
      terms := fun i => (Rs[i]'(i.2.trans_le hRlen)).terms.map fun f st => f (m.brick c st)
      denum := fun i => (Rs[i]'(i.2.trans_le hRlen)).denum.map fun f st => f (m.brick c st)
      sources := fun _ => []
      modifiers := [] } with hM
  have hR : ∀ i st t k, M.getRHS i st freq t k =
      ((Rs[i.val]'(i.2.trans_le hRlen)).terms.map fun f => f (m.brick c st) freq t k).sum := by
    intro i st t k
    rw [c21_rhs]
    simp [hM, Function.comp_def]
  have hD : ∀ i st t k, M.getDenum i st freq t k =
      ((Rs[i.val]'(i.2.trans_le hRlen)).denum.map fun f => f (m.brick c st) freq t k).sum := by
    intro i st t k
    rw [c21_denum]
    simp [hM, Function.comp_def]
  have hlt : ∀ i : Fin m.fields.length, i.val < eqs.length := fun i => i.2.trans_le hlenE
  have hshape := fun i : Fin m.fields.length =>
    (List.forall₂_iff_get.mp hall).2 i.val (hlt i) (i.2.trans_le hRlen)
  simp only [List.get_eq_getElem] at hshape
  have hsc : ∀ (st : Store m.fields.length m.derived.length n), ∀ x ∈ N.scalars,
      m.brick c st x = (fun y (_ : Fin n) => c y) x := fun st x hx => brick_scalar hN hg hx c st
  have hreads : ∀ p ∈ m.derived, ReadsFields N p.2 := fun p hp => calc_reads hg (fun p hp => (hfun p hp).1) hp
  have hnode : ∀ p ∈ m.derived, NodeByNode p.2 := by
    intro p hp
    rw [hl, List.mem_append] at hp
    rcases hp with hp | hp
    · exact (hfun p hp).2
    · obtain ⟨eq, -, q, -, hv⟩ := hl' p hp
      exact ⟨fun z => ((factorsIn N.fields q.1).map fun f => z f.name ^ ((f.power : ℚ) : ℂ)).prod,
        fun u k => by rw [hv]; rfl⟩
  have hfld : ∀ x ∈ N.fields, ∃ j : Fin m.fields.length, ∀ st, m.brick c st x = st.fields j := by
    intro x hx
    rw [← hg.fields] at hx
    obtain ⟨j, hj, rfl⟩ := List.getElem_of_mem hx
    exact ⟨⟨j, hj⟩, brick_field hN hg ⟨j, hj⟩ c⟩
  refine ⟨?_, ?_, ?_, ?_⟩
  · intro d st st' he
    refine hreads _ (List.getElem_mem d.2) _ _ (fun x hx => ?_) fun x hx => by rw [hsc st x hx, hsc st' x hx]
    obtain ⟨j, hj⟩ := hfld x hx
    rw [hj, hj, he]
  · intro τ d st st' hst x
    obtain ⟨φ, hφ⟩ := hnode _ (List.getElem_mem d.2)
    -- the moved bricks
    let v : Bricks n := fun y k => m.brick c st y (τ.symm k)
    have e1 : M.calcs d st' = (m.derived[d]).2.eval v := by
      refine hreads _ (List.getElem_mem d.2) _ _ (fun y hy => ?_) fun y hy => ?_
      · obtain ⟨j, hj⟩ := hfld y hy
        funext k
        have := hst j (τ.symm k)
        rw [Equiv.apply_symm_apply] at this
        simp only [v, hj, this]
      · simp only [v, hsc st y hy, hsc st' y hy]
    rw [e1]
    refine (hφ v (τ x)).trans ((congrArg φ ?_).trans (hφ (m.brick c st) x).symm)
    funext y
    simp [v]
  · intro κ w hf st st' h1 h2 i t k
    obtain ⟨⟨ts, hmem, hts⟩, -⟩ := hshape i
    rw [hR, hR, hts, hts, ← List.sum_map_mul_left]
    congr 1
    apply List.map_congr_left
    intro q hq
    have hb : m.brick c st' q.2 k = w k * m.brick c st q.2 (κ k) := by
      rcases List.mem_append.mp (hmem q hq).2 with hx | hx
      · rw [hg.fields] at hx
        obtain ⟨j, hj⟩ := hfld _ hx
        rw [hj, hj]
        exact h1 j k
      · obtain ⟨p, hp, hpx⟩ := List.mem_map.mp hx
        obtain ⟨d, hd, rfl⟩ := List.getElem_of_mem hp
        have e : ∀ st, m.brick c st q.2 = st.derived ⟨d, hd⟩ := by
          rw [← hpx]
          exact brick_derived hN hg ⟨d, hd⟩ c
        rw [e, e]
        exact h2 ⟨d, hd⟩ k
    rw [hb, explicitFactor_congr freq k (hsc st'), explicitFactor_congr freq (κ k) (hsc st)]
    have he : explicitFactor N (eqs[i.val]'(hlt i)).field (fun y (_ : Fin n) => c y) freq k q.1 =
        explicitFactor N (eqs[i.val]'(hlt i)).field (fun y (_ : Fin n) => c y) freq (κ k) q.1 := by
      unfold explicitFactor
      rw [laplaceSymbol_square (hf k)]
    rw [he]
    ring
  · intro i t st st' k k' hkk
    rw [hD, hD, (hshape i).2, (hshape i).2]
    congr 1
    apply List.map_congr_left
    intro q _
    rw [linearFactor_congr freq k (hsc st), linearFactor_congr freq k' (hsc st')]
    unfold linearFactor
    rw [laplaceSymbol_square hkk]

/-- C114, from the text of the equations to the fields: the equations are accepted, and whatever is asked from the
solver, moved initial fields give moved results. -/
theorem c114_equations (h : GoodDims (intDims dims)) (hl : LayoutOk dims) (N : Names) (hN : N.WellNamed)
    (m0 : EqModel dims.prod) (h0 : StartsAs N m0) (heq : m0.equations = [])
    (hfun : ∀ p ∈ m0.derived, ReadsFields N p.2 ∧ NodeByNode p.2)
    (eqs : List Equation) (hq : ∀ eq ∈ eqs, eq.Polynomial N ∧ Unregistered m0 eq)
    (hcount : N.fields.length ≤ eqs.length)
    (ss : List Str) (hs : ss.map (fun s => s.filter fun c => c ≠ ' ') = eqs.map Equation.text) (c : Str → ℂ) :
    ∃ m M, ss.foldlM EqModel.addEquation m0 = some m ∧ m.fields = N.fields ∧ m.assemble c = some M ∧
      ∀ (g : GridSymmetry dims) (τ : Equiv.Perm (Fin dims.prod)), g.Moves τ →
      ∀ (bricks : Str → Option (BrickRef m.fields.length m.derived.length)) (dt : ℝ)
        (fields fields' : Fin m.fields.length → List ℂ) (derived derived' : Fin m.derived.length → Data dims.prod)
        (s s' r r' : SolverState m.fields.length m.derived.length dims),
      newSolver dims dt fields derived = some s → newSolver dims dt fields' derived' = some s' →
      Moved τ s.store s'.store → ∀ calls : List SolverCall,
      s.session M bricks calls = some r → s'.session M bricks calls = some r' → Moved τ r.store r'.store := by
  obtain ⟨m, M, h1, h2, h3, h4⟩ := c114_text N hN m0 h0 heq hfun eqs hq hcount ss hs c (freqOf dims)
  exact ⟨m, M, h1, h2, h3, fun g τ hτ bricks dt f f' d d' s s' r r' a b hmv calls hr hr' =>
    c114_session h hl M h4 g τ hτ bricks dt f f' d d' s s' r r' a b hmv calls hr hr'⟩

/-! ### A source marks a node -/

/-- `dc/dt` is a source of constant strength at the origin. -/
noncomputable def originModel (n : ℕ) : Model 1 0 n :=
  { calcs := fun d => d.elim0
    terms := fun _ => []
    denum := fun _ => []
    sources := fun _ => [⟨[0, 0, 0], fun _ => 1⟩]
    modifiers := [] }

theorem dotR_zero (f : List ℝ) : dotR f [0, 0, 0] = 0 := by
  unfold dotR
  rcases f with _ | ⟨a, _ | ⟨b, _ | ⟨c, f⟩⟩⟩ <;> simp

theorem origin_rhs (i : Fin 1) (st : Store 1 0 n) (freq : Frequency n) (t : ℝ) (k : Fin n) :
    (originModel n).getRHS i st freq t k = 1 := by
  rw [c21_rhs]
  simp [originModel, Source.eval, dotR_zero]

/-- C114: with a source the statement is false, on every grid with more than one node: the field that is zero
everywhere is not changed by any translation, its successor is changed by some. -/
theorem c114_source (h : GoodDims (intDims dims)) (h1 : 1 < dims.prod) (dt : ℝ) (hdt : dt ≠ 0) :
    ∃ (a : Fin dims.length → ℤ) (τ : Equiv.Perm (Fin dims.prod)), (translation dims a).Moves τ ∧
      ∃ st : Store 1 0 dims.prod, Moved τ st st ∧
        ¬ Moved τ (eulerStep (originModel dims.prod) (⟨dt, freqOf dims, none, 0⟩, st)).2
          (eulerStep (originModel dims.prod) (⟨dt, freqOf dims, none, 0⟩, st)).2 := by
  have hpos := pos_of_goodDims h
  obtain ⟨a, τ, hτ, hxy⟩ := exists_translation h (⟨0, by omega⟩ : Fin dims.prod) ⟨1, h1⟩
  let st : Store 1 0 dims.prod := ⟨fun _ _ => 0, fun d => d.elim0⟩
  refine ⟨a, τ, hτ, st, fun _ _ => rfl, ?_⟩
  intro hmv
  have hstep := c22_euler hpos (originModel dims.prod) (fun d => d.elim0) 0 (c22_single_equation _ _)
    ⟨dt, freqOf dims, none, 0⟩ rfl st
  have hz : ∀ k, fft dims (st.fields 0) k = 0 := by
    intro k; simp [fft, st]
  have hfield : (eulerStep (originModel dims.prod) (⟨dt, freqOf dims, none, 0⟩, st)).2.fields 0 =
      fun x => (dt : ℂ) * (Pi.single (⟨0, by omega⟩ : Fin dims.prod) 1 : Fin dims.prod → ℂ) x := by
    apply fft_injective hpos
    funext k
    refine (hstep k).trans ?_
    rw [fft_smul, hz, origin_rhs, c21_denum, fft_single, phase_symm]
    dsimp only
    rw [phase_zero_left, neg_zero, cis_zero]
    simp [originModel]
  have := hmv 0 ⟨0, by omega⟩
  rw [hxy, hfield] at this
  have hne : (dt : ℂ) ≠ 0 := by exact_mod_cast hdt
  simp at this
  exact hne this.symm

/-! ### The conditions are met -/

/-- One field, `conc`. -/
def concNames : Names := ⟨["conc".toList], [], []⟩

theorem conc_wellNamed : concNames.WellNamed := by
  have hd := pair_wellNamed
  have hv : ∀ x ∈ concNames.varying, x ∈ pairNames.varying := by decide
  have ha : ∀ x ∈ concNames.all, x ∈ pairNames.all := by decide
  exact ⟨fun x hx => hd.ident x (ha x hx), by decide, fun x hx => hd.noLap x (ha x hx), fun x hx => hd.long x (hv x hx),
    fun x hx => hd.sepLap x (hv x hx), fun x hx y hy => hd.sepVarying x (hv x hx) y (hv y hy),
    fun x _ y hy => by simp [concNames] at hy⟩

theorem conc_lap (e : Option Exponent) (he : e = none ∨ e = some ⟨['2'], none⟩) :
    Monomial concNames [⟨some none, some ⟨"conc".toList, e⟩⟩] where
  readable :=
    { wf := by
        intro i hi
        obtain rfl := List.mem_singleton.mp hi
        refine ⟨by simp, ?_, by simp, by simp; decide, by simp; decide⟩
        rcases he with rfl | rfl <;> simp [Exponent.WellFormed]
      oneLap := by simp [laplacians]
      lapFirst := by
        intro pre i post h hl j hj
        cases pre with
        | nil => simp at hj
        | cons p pre => simp at h
      together := ⟨[], [⟨some none, some ⟨"conc".toList, e⟩⟩], [], by simp, by simp, by simp,
        by simp; decide, by simp, by simp⟩ }
  once := by
    intro x _
    exact (List.length_filter_le _ _)
  kind := Or.inl ⟨by simp [factorsIn, concNames], by rcases he with rfl | rfl <;> decide⟩
  exactOne := by
    intro f hf
    have : f = ⟨"conc".toList, e⟩ := by
      simpa using (List.mem_filter.mp hf).1
    subst this
    rcases he with rfl | rfl
    · intro _; decide +kernel
    · intro h
      have p1 : Factor.power ⟨"conc".toList, some ⟨['2'], none⟩⟩ = 2 := by decide +kernel
      rw [p1] at h
      norm_num at h

/-- `dconc/dt = LAPconc^2 - LAPconc`. -/
def spreadEquation : Equation := ⟨"conc".toList, none, [⟨some none, some ⟨"conc".toList, some ⟨['2'], none⟩⟩⟩],
  [('-', [⟨some none, some ⟨"conc".toList, none⟩⟩])]⟩

theorem spread_polynomial : Equation.Polynomial concNames spreadEquation := by
  refine ⟨by decide, by simp [spreadEquation], by simp [spreadEquation], ?_⟩
  intro p hp
  simp only [spreadEquation, Equation.terms, List.map_cons, List.map_nil, List.mem_cons, List.not_mem_nil,
    or_false] at hp
  rcases hp with rfl | rfl
  · exact conc_lap _ (Or.inr rfl)
  · exact conc_lap _ (Or.inl rfl)

example : concNames.WellNamed ∧ StartsAs concNames ((EqModel.empty (n := [4, 4].prod)).addField "conc".toList) ∧
    (∀ eq ∈ [spreadEquation], Equation.Polynomial concNames eq ∧
      Unregistered ((EqModel.empty (n := [4, 4].prod)).addField "conc".toList) eq) ∧
    concNames.fields.length ≤ [spreadEquation].length ∧
    ["dconc/dt = LAPconc^2 - LAPconc".toList].map (fun s => s.filter fun c => c ≠ ' ') =
      [spreadEquation].map Equation.text ∧
    GoodDims (intDims [4, 4]) ∧ LayoutOk [4, 4] ∧
    (exchange [4, 4] (Equiv.swap 0 1) (by decide)).axis 0 = 1 ∧
    (reflection [4, 4] fun _ => true).sign 0 = -1 := by
  refine ⟨conc_wellNamed, ⟨rfl, rfl, fun x => Iff.rfl⟩, ?_, by decide, by decide, ?_, ?_, by decide, by decide⟩
  · intro eq heq
    obtain rfl := List.mem_singleton.mp heq
    exact ⟨spread_polynomial, fun _ _ => ⟨rfl, rfl⟩⟩
  · simp [GoodDims, intDims]
  · simp [LayoutOk]

/-- A registered function as used in the theorem. -/
example : ReadsFields concNames (.function fun u k => Complex.exp (u "conc".toList k) : Calc n) ∧
    NodeByNode (.function fun u k => Complex.exp (u "conc".toList k) : Calc n) := by
  refine ⟨?_, fun z => Complex.exp (z "conc".toList), fun _ _ => rfl⟩
  intro u u' h _
  funext k
  simp only [Calc.eval, h "conc".toList (by decide)]

end Gopf.Props
