import Verif.Model.SddMonitor
import Verif.Props.SddLinear
import Verif.Props.FileIO

/-!
# C124: what the shrinking dimer stepper reports
-/

namespace Gopf.Props
open Spec Pf Pfutil Filter Topology
open scoped BigOperators

variable {nf nd : ℕ} {dims : List ℕ}

theorem foldl_largest (l : List ℝ) : ∀ m0 : ℝ,
    m0 ≤ l.foldl (fun m x => if x > m then x else m) m0 ∧
    (∀ x ∈ l, x ≤ l.foldl (fun m x => if x > m then x else m) m0) ∧
    (l.foldl (fun m x => if x > m then x else m) m0 = m0 ∨ l.foldl (fun m x => if x > m then x else m) m0 ∈ l) := by
  induction l with
  | nil => intro m0; simp
  | cons a l ih =>
    intro m0
    simp only [List.foldl_cons]
    obtain ⟨h1, h2, h3⟩ := ih (if a > m0 then a else m0)
    have hm : m0 ≤ if a > m0 then a else m0 := by split_ifs with h <;> linarith
    have ha : a ≤ if a > m0 then a else m0 := by split_ifs with h <;> linarith
    refine ⟨hm.trans h1, ?_, ?_⟩
    · intro x hx
      rcases List.mem_cons.mp hx with rfl | hx
      · exact ha.trans h1
      · exact h2 x hx
    · rcases h3 with h3 | h3
      · rw [h3]
        split_ifs
        · exact .inr List.mem_cons_self
        · exact .inl rfl
      · exact .inr (List.mem_cons_of_mem _ h3)

/-- The value of the maximum loops on numbers that are not negative. -/
theorem largest_spec {l : List ℝ} (hne : l ≠ []) (h0 : ∀ x ∈ l, 0 ≤ x) : largest l ∈ l ∧ ∀ x ∈ l, x ≤ largest l := by
  obtain ⟨h1, h2, h3⟩ := foldl_largest l 0
  refine ⟨?_, h2⟩
  rcases h3 with h3 | h3
  · obtain ⟨a, l', rfl⟩ := List.exists_cons_of_ne_nil hne
    have ha := h2 a List.mem_cons_self
    rw [h3] at ha
    have : a = 0 := le_antisymm ha (h0 a List.mem_cons_self)
    unfold largest
    rw [h3, ← this]
    exact List.mem_cons_self
  · exact h3

theorem mem_table {n : ℕ} (f : Fin nf → Fin n → ℝ) (x : ℝ) :
    x ∈ ((List.finRange nf).flatMap fun i => (List.finRange n).map fun k => f i k) ↔ ∃ i k, f i k = x := by
  simp [List.mem_flatMap]

theorem table_ne_nil {n : ℕ} (f : Fin nf → Fin n → ℝ) (i : Fin nf) (k : Fin n) :
    ((List.finRange nf).flatMap fun i => (List.finRange n).map fun k => f i k) ≠ [] :=
  List.ne_nil_of_mem ((mem_table f _).mpr ⟨i, k, rfl⟩)

/-- The rate at which a step changes field `i`. -/
noncomputable def rateOfChange (m : Model nf nd dims.prod) (s : SDD nf dims.prod) (st : Store nf nd dims.prod)
    (i : Fin nf) : Fin dims.prod → ℂ :=
  fun j => ((SDD.step m (s, st)).2.fields i j - st.fields i j) / (s.dt : ℂ)

theorem forceOn_eq (h : ∀ d ∈ dims, 0 < d) (m : Model nf nd dims.prod) (s : SDD nf dims.prod)
    (st : Store nf nd dims.prod) (i : Fin nf) (k : Fin dims.prod) :
    s.forceOn m st i k = ‖fft dims (rateOfChange m s st i) k‖ := by
  have e1 : (s.stepFields m st).1.fields i = fft dims ((SDD.step m (s, st)).2.fields i) :=
    (fft_ifftFields h _ i).symm
  have e2 := (c33_step h m s st i).2.2.1
  have e3 : rateOfChange m s st i = fun j => (s.dt : ℂ)⁻¹ *
      ((SDD.step m (s, st)).2.fields i j - st.fields i j) := by
    funext j; unfold rateOfChange; rw [div_eq_inv_mul]
  unfold SDD.forceOn
  rw [e1, e2, e3, fft_smul, fft_sub, div_eq_inv_mul]

/-- C124: the maximal force is the largest modulus among the Fourier coefficients of the rates at which
the step changes the fields. -/
theorem c124_max_force (h : ∀ d ∈ dims, 0 < d) (m : Model nf nd dims.prod) (s : SDD nf dims.prod)
    (st : Store nf nd dims.prod) (mon : SDDMonitor) (i₀ : Fin nf) :
    (∀ i k, ‖fft dims (rateOfChange m s st i) k‖ ≤ (s.monitorStep m st mon).maxForce) ∧
    ∃ i k, ‖fft dims (rateOfChange m s st i) k‖ = (s.monitorStep m st mon).maxForce := by
  have hN : 0 < dims.prod := by exact_mod_cast prod_pos_real h
  have e : (s.monitorStep m st mon).maxForce = largest ((List.finRange nf).flatMap fun i =>
      (List.finRange dims.prod).map fun k => ‖fft dims (rateOfChange m s st i) k‖) := by
    unfold SDD.monitorStep
    simp only [forceOn_eq h]
  obtain ⟨h1, h2⟩ := largest_spec (table_ne_nil (fun i k => ‖fft dims (rateOfChange m s st i) k‖) i₀ ⟨0, hN⟩)
    (fun x hx => by obtain ⟨i, k, rfl⟩ := (mem_table _ _).mp hx; exact norm_nonneg _)
  rw [e]
  exact ⟨fun i k => h2 _ ((mem_table _ _).mpr ⟨i, k, rfl⟩), (mem_table _ _).mp h1⟩

/-- C124: the "power spectrum of the force" is the root mean square of the rates of change, over all
fields and nodes, in real space. -/
theorem c124_power (h : ∀ d ∈ dims, 0 < d) (m : Model nf nd dims.prod) (s : SDD nf dims.prod)
    (st : Store nf nd dims.prod) (mon : SDDMonitor) :
    (s.monitorStep m st mon).forcePowerSpectrum =
      Real.sqrt ((∑ i, ∑ j, ‖rateOfChange m s st i j‖ ^ 2) / (nf * dims.prod)) := by
  have hN := prod_pos_real h
  have hrow : ∀ i : Fin nf, ∑ k, s.forceOn m st i k * s.forceOn m st i k / (dims.prod : ℝ) =
      ∑ j, ‖rateOfChange m s st i j‖ ^ 2 := by
    intro i
    have p := parseval h (rateOfChange m s st i) (rateOfChange m s st i)
    simp only [Complex.mul_conj, Complex.normSq_eq_norm_sq] at p
    rw [← Complex.ofReal_sum, ← Complex.ofReal_sum, ← Complex.ofReal_natCast, ← Complex.ofReal_mul,
      Complex.ofReal_inj] at p
    rw [← Finset.sum_div, div_eq_iff hN.ne', mul_comm, ← p]
    refine Finset.sum_congr rfl fun k _ => ?_
    rw [forceOn_eq h, sq]
  unfold SDD.monitorStep
  dsimp only
  rw [Finset.sum_congr rfl fun i _ => hrow i, Nat.cast_mul]

/-- C124: it vanishes exactly if the step changed nothing. -/
theorem c124_power_zero (h : ∀ d ∈ dims, 0 < d) (m : Model nf nd dims.prod) (s : SDD nf dims.prod)
    (hdt : s.dt ≠ 0) (st : Store nf nd dims.prod) (mon : SDDMonitor) :
    (s.monitorStep m st mon).forcePowerSpectrum = 0 ↔ (SDD.step m (s, st)).2.fields = st.fields := by
  have hN := prod_pos_real h
  have hdt' : (s.dt : ℂ) ≠ 0 := by exact_mod_cast hdt
  have h0 : 0 ≤ ∑ i, ∑ j, ‖rateOfChange m s st i j‖ ^ 2 :=
    Finset.sum_nonneg fun i _ => Finset.sum_nonneg fun j _ => sq_nonneg _
  rw [c124_power h, Real.sqrt_eq_zero (div_nonneg h0 (by positivity))]
  constructor
  · intro hz
    funext i j
    have hnf : (0 : ℝ) < nf := by exact_mod_cast i.pos
    rw [div_eq_zero_iff] at hz
    have hs := hz.resolve_right (mul_pos hnf hN).ne'
    rw [Finset.sum_eq_zero_iff_of_nonneg (fun i _ => Finset.sum_nonneg fun j _ => sq_nonneg _)] at hs
    have hs := hs i (Finset.mem_univ _)
    rw [Finset.sum_eq_zero_iff_of_nonneg (fun j _ => sq_nonneg _)] at hs
    have hs := hs j (Finset.mem_univ _)
    have hs : rateOfChange m s st i j = 0 := by simpa using hs
    unfold rateOfChange at hs
    rw [div_eq_zero_iff] at hs
    exact sub_eq_zero.mp (hs.resolve_right hdt')
  · intro he
    have : ∀ i j, rateOfChange m s st i j = 0 := by
      intro i j; unfold rateOfChange; rw [he]; simp
    simp [this]

/-- C124: the maximal torque is the largest modulus of the torque on the dimer, and with a unit
orientation it vanishes exactly if the step does not turn the dimer. -/
theorem c124_max_torque (h : ∀ d ∈ dims, 0 < d) (m : Model nf nd dims.prod) (s : SDD nf dims.prod)
    (st : Store nf nd dims.prod) (mon : SDDMonitor) (ho : normSqO s.orientation = 1) (hdt : s.dt ≠ 0)
    (hτ : s.tauOrientation ≠ 0) (hl : s.dimerLength s.getTime ≠ 0) :
    (s.monitorStep m st mon).maxTorque = 0 ↔ (SDD.step m (s, st)).1.orientation = s.orientation := by
  set tq := s.torque m (s.stepFields m st).1 (s.stepFields m st).2.1 (s.stepFields m st).2.2 with htq
  have horth := c30_torque h m s ho (s.stepFields m st).1 (s.stepFields m st).2.1 (s.stepFields m st).2.2
  rw [← htq] at horth
  have e0 : (s.monitorStep m st mon).maxTorque = largest ((List.finRange nf).flatMap fun i =>
      (List.finRange dims.prod).map fun j => |(tq i j).re|) := rfl
  have e1 : (SDD.step m (s, st)).1.orientation = s.updateOrientation tq := rfl
  have hz : (s.monitorStep m st mon).maxTorque = 0 ↔ ∀ i j, (tq i j).re = 0 := by
    rw [e0]
    obtain ⟨-, h2, h3⟩ := foldl_largest ((List.finRange nf).flatMap fun i =>
      (List.finRange dims.prod).map fun j => |(tq i j).re|) 0
    constructor
    · intro hm i j
      have := h2 _ ((mem_table (fun i j => |(tq i j).re|) _).mpr ⟨i, j, rfl⟩)
      unfold largest at hm
      rw [hm] at this
      exact abs_eq_zero.mp (le_antisymm this (abs_nonneg _))
    · intro ha
      rcases h3 with h3 | h3
      · exact h3
      · obtain ⟨i, j, hij⟩ := (mem_table (fun i j => |(tq i j).re|) _).mp h3
        unfold largest
        rw [← hij, ha i j, abs_zero]
  rw [hz, e1]
  set c := s.dt / (s.dimerLength s.getTime * s.tauOrientation) with hc
  have hc0 : c ≠ 0 := div_ne_zero hdt (mul_ne_zero hl hτ)
  have hupd : ∀ i j, s.updateOrientation tq i j = (s.orientation i j - c * (tq i j).re) /
      Real.sqrt (∑ i, ∑ j, (s.orientation i j - c * (tq i j).re) * (s.orientation i j - c * (tq i j).re)) := by
    intro i j
    unfold SDD.updateOrientation
    dsimp only
    simp only [hc, mul_div_right_comm]
  constructor
  · intro ha
    funext i j
    rw [hupd]
    simp only [ha, mul_zero, sub_zero]
    have : ∑ i, ∑ j, s.orientation i j * s.orientation i j = 1 := ho
    rw [this, Real.sqrt_one, div_one]
  · intro he
    set L := Real.sqrt (∑ i, ∑ j, (s.orientation i j - c * (tq i j).re) *
      (s.orientation i j - c * (tq i j).re)) with hL
    have hL0 : L ≠ 0 := by
      intro h0
      have : normSqO s.orientation = 0 := by
        unfold normSqO
        refine Finset.sum_eq_zero fun i _ => Finset.sum_eq_zero fun j _ => ?_
        rw [← he, hupd, h0]; simp
      rw [this] at ho
      exact zero_ne_one ho
    have hij : ∀ i j, s.orientation i j - c * (tq i j).re = L * s.orientation i j := by
      intro i j
      have := hupd i j
      rw [he, eq_div_iff hL0] at this
      rw [← this]; ring
    have hL1 : L = 1 := by
      have e2 : ∀ i j, s.orientation i j * s.orientation i j - c * ((tq i j).re * s.orientation i j) =
          L * (s.orientation i j * s.orientation i j) := by
        intro i j
        have := hij i j
        linear_combination s.orientation i j * this
      have e3 : ∑ i, ∑ j, (s.orientation i j * s.orientation i j - c * ((tq i j).re * s.orientation i j)) =
          ∑ i, ∑ j, L * (s.orientation i j * s.orientation i j) :=
        Finset.sum_congr rfl fun i _ => Finset.sum_congr rfl fun j _ => e2 i j
      simp only [Finset.sum_sub_distrib, ← Finset.mul_sum] at e3
      rw [horth] at e3
      have : ∑ i, ∑ j, s.orientation i j * s.orientation i j = 1 := ho
      rw [this] at e3
      linarith
    intro i j
    have := hij i j
    rw [hL1, one_mul] at this
    have h2 : c * (tq i j).re = 0 := by linarith
    exact (mul_eq_zero.mp h2).resolve_left hc0

/-- C124: the maximal torque is the largest modulus of the torque `t`: the vector orthogonal to the
orientation for which the new orientation is the direction of `orientation - dt t / (l τ)`. -/
theorem c124_torque (h : ∀ d ∈ dims, 0 < d) (m : Model nf nd dims.prod) (s : SDD nf dims.prod)
    (st : Store nf nd dims.prod) (mon : SDDMonitor) (ho : normSqO s.orientation = 1) (i₀ : Fin nf) :
    ∃ t : Fin nf → Fin dims.prod → ℝ, (∑ i, ∑ j, t i j * s.orientation i j = 0) ∧
      (∃ len : ℝ, 0 < len ∧ ∀ i j, len * (SDD.step m (s, st)).1.orientation i j =
        s.orientation i j - s.dt * t i j / (s.dimerLength s.getTime * s.tauOrientation)) ∧
      (∀ i j, |t i j| ≤ (s.monitorStep m st mon).maxTorque) ∧
      ∃ i j, |t i j| = (s.monitorStep m st mon).maxTorque := by
  have hN : 0 < dims.prod := by exact_mod_cast prod_pos_real h
  set tq := s.torque m (s.stepFields m st).1 (s.stepFields m st).2.1 (s.stepFields m st).2.2 with htq
  have horth := c30_torque h m s ho (s.stepFields m st).1 (s.stepFields m st).2.1 (s.stepFields m st).2.2
  rw [← htq] at horth
  have hu := c30_unit_invariant h m 1 s ho st
  rw [Function.iterate_one] at hu
  have e0 : (s.monitorStep m st mon).maxTorque = largest ((List.finRange nf).flatMap fun i =>
      (List.finRange dims.prod).map fun j => |(tq i j).re|) := rfl
  have e1 : ∀ i j, (SDD.step m (s, st)).1.orientation i j =
      (s.orientation i j - s.dt * (tq i j).re / (s.dimerLength s.getTime * s.tauOrientation)) /
      Real.sqrt (∑ i, ∑ j, (s.orientation i j - s.dt * (tq i j).re / (s.dimerLength s.getTime * s.tauOrientation)) *
        (s.orientation i j - s.dt * (tq i j).re / (s.dimerLength s.getTime * s.tauOrientation))) := fun i j => rfl
  obtain ⟨h1, h2⟩ := largest_spec (table_ne_nil (fun i j => |(tq i j).re|) i₀ ⟨0, hN⟩)
    (fun x hx => by obtain ⟨i, k, rfl⟩ := (mem_table _ _).mp hx; exact abs_nonneg _)
  generalize hL : Real.sqrt (∑ i, ∑ j, (s.orientation i j - s.dt * (tq i j).re /
    (s.dimerLength s.getTime * s.tauOrientation)) * (s.orientation i j - s.dt * (tq i j).re /
    (s.dimerLength s.getTime * s.tauOrientation))) = L at e1
  refine ⟨fun i j => (tq i j).re, horth, ⟨L, ?_, ?_⟩, ?_, ?_⟩
  · rw [← hL]
    refine lt_of_le_of_ne (Real.sqrt_nonneg _) fun h0 => ?_
    have : normSqO (SDD.step m (s, st)).1.orientation = 0 := by
      unfold normSqO
      refine Finset.sum_eq_zero fun i _ => Finset.sum_eq_zero fun j _ => ?_
      rw [e1, ← hL, ← h0]; simp
    rw [this] at hu
    exact zero_ne_one hu
  · intro i j
    rw [e1]
    refine mul_div_cancel₀ _ fun h0 => ?_
    have : normSqO (SDD.step m (s, st)).1.orientation = 0 := by
      unfold normSqO
      refine Finset.sum_eq_zero fun i _ => Finset.sum_eq_zero fun j _ => ?_
      rw [e1, h0]; simp
    rw [this] at hu
    exact zero_ne_one hu
  · intro i j
    rw [e0]
    exact h2 _ ((mem_table (fun i j => |(tq i j).re|) _).mpr ⟨i, j, rfl⟩)
  · rw [e0]
    exact (mem_table (fun i j => |(tq i j).re|) _).mp h1

/-- Steps of an initialised stepper. -/
theorem sddSteps_eq (m : Model nf nd dims.prod) : ∀ (k : ℕ) (r : SDDRun nf dims) (st : Store nf nd dims.prod),
    r.initialized = true → 1 / 10 ^ 16 ≤ r.sdd.dt →
    ∃ mon, SDDRun.steps m k (r, st) = some
      (⟨((SDD.step m)^[k] (r.sdd, st)).1, true, mon⟩, ((SDD.step m)^[k] (r.sdd, st)).2) ∧
      (k = 0 → mon = r.monitor) ∧
      ∀ k', k = k' + 1 → ∃ mon', SDDRun.steps m k' (r, st) = some
          (⟨((SDD.step m)^[k'] (r.sdd, st)).1, true, mon'⟩, ((SDD.step m)^[k'] (r.sdd, st)).2) ∧
        mon = ((SDD.step m)^[k'] (r.sdd, st)).1.monitorStep m ((SDD.step m)^[k'] (r.sdd, st)).2 mon' := by
  intro k
  induction k with
  | zero =>
    intro r st hi _
    obtain ⟨sdd, ini, mon⟩ := r
    simp only at hi
    subst hi
    exact ⟨mon, rfl, fun _ => rfl, fun k' hk => by omega⟩
  | succ k ih =>
    intro r st hi hdt
    have hstep : SDDRun.step m (r, st) = some (⟨(SDD.step m (r.sdd, st)).1, true,
        r.sdd.monitorStep m st r.monitor⟩, (SDD.step m (r.sdd, st)).2) := by
      unfold SDDRun.step
      rw [if_neg (by simp [hi]), if_neg (not_lt.mpr hdt)]
      simp [hi]
    obtain ⟨mon, h1, h2, h3⟩ := ih ⟨(SDD.step m (r.sdd, st)).1, true, r.sdd.monitorStep m st r.monitor⟩
      (SDD.step m (r.sdd, st)).2 rfl hdt
    refine ⟨mon, ?_, fun h => by omega, ?_⟩
    · change (SDDRun.step m (r, st)).bind (SDDRun.steps m k) = _
      rw [hstep]
      exact h1
    · intro k' hk'
      have hkk : k' = k := by omega
      subst hkk
      cases k' with
      | zero =>
        obtain ⟨sdd, ini, mon0⟩ := r
        simp only at hi
        subst hi
        exact ⟨mon0, rfl, h2 rfl⟩
      | succ k'' =>
        obtain ⟨mon', g1, g2⟩ := h3 k'' rfl
        refine ⟨mon', ?_, ?_⟩
        · change (SDDRun.step m (r, st)).bind (SDDRun.steps m k'') = _
          rw [hstep]
          exact g1
        · exact g2

/-- C124: the stepper as constructed cannot be used: it needs an orientation and a time step. With both
any number of steps can be taken, and they are those of the theorems on `SDD.step`. A filter can never
be set, an orientation of another length than the number of values of the fields neither. -/
theorem c124_ready (m : Model nf nd dims.prod) (freq : Frequency dims.prod) (st : Store nf nd dims.prod) :
    (∀ dt, SDDRun.step m ({ newSDD nf dims freq with sdd := { (newSDD nf dims freq).sdd with dt := dt } }, st) = none) ∧
    (∀ r : SDDRun nf dims, r.sdd.dt < 1 / 10 ^ 16 → SDDRun.step m (r, st) = none) ∧
    (∀ (r : SDDRun nf dims) (x y : Fin nf → Data dims.prod) (k : ℕ), 1 / 10 ^ 16 ≤ r.sdd.dt →
      ∃ mon, SDDRun.steps m k (r.init x y, st) = some
        (⟨((SDD.step m)^[k] (r.sdd.init x y, st)).1, true, mon⟩, ((SDD.step m)^[k] (r.sdd.init x y, st)).2)) ∧
    (∀ (r : SDDRun nf dims) (o : List ℝ), (r.setInitialOrientation o).isSome ↔ o.length = nf * dims.prod) ∧
    (∀ (r : SDDRun nf dims) f, r.setFilter f = none) := by
  refine ⟨fun dt => by simp [SDDRun.step, newSDD], ?_, ?_, ?_, fun r f => rfl⟩
  · intro r hr
    unfold SDDRun.step
    split_ifs <;> rfl
  · intro r x y k hdt
    obtain ⟨mon, h1, -⟩ := sddSteps_eq m k (r.init x y) st rfl hdt
    exact ⟨mon, h1⟩
  · intro r o
    unfold SDDRun.setInitialOrientation
    split_ifs with hc
    · simp [hc]
    · simp only [Option.isSome_some, true_iff]; exact not_not.mp hc

/-- C124: the norm reported after a step is the one of the fields before it (the sum of the squares),
and the change is the norm one step earlier minus that: positive when the norm falls. After the first
step of a new stepper it is minus the norm. -/
theorem c124_norm (m : Model nf nd dims.prod) (r : SDDRun nf dims) (hi : r.initialized = true)
    (hdt : 1 / 10 ^ 16 ≤ r.sdd.dt) (st : Store nf nd dims.prod) (k : ℕ) :
    ∃ q, SDDRun.steps m (k + 1) (r, st) = some q ∧
      q.1.monitor.fieldNorm = ∑ i, ∑ j, ‖((SDD.step m)^[k] (r.sdd, st)).2.fields i j‖ ^ 2 ∧
      (k = 0 → q.1.monitor.fieldNormChange = r.monitor.fieldNorm - ∑ i, ∑ j, ‖st.fields i j‖ ^ 2) ∧
      ∀ k', k = k' + 1 → q.1.monitor.fieldNormChange =
        (∑ i, ∑ j, ‖((SDD.step m)^[k'] (r.sdd, st)).2.fields i j‖ ^ 2) -
          ∑ i, ∑ j, ‖((SDD.step m)^[k] (r.sdd, st)).2.fields i j‖ ^ 2 := by
  have hn : ∀ f : Fin nf → Data dims.prod, sddFieldNorm f = ∑ i, ∑ j, ‖f i j‖ ^ 2 := by
    intro f; unfold sddFieldNorm; simp only [sq]
  obtain ⟨mon, h1, -, h3⟩ := sddSteps_eq m (k + 1) r st hi hdt
  obtain ⟨mon', g1, g2⟩ := h3 k rfl
  obtain ⟨mon1, f1, f2, f3⟩ := sddSteps_eq m k r st hi hdt
  have hm1 : mon1 = mon' := by
    rw [f1] at g1
    simpa using g1
  subst hm1
  refine ⟨_, h1, ?_, ?_, ?_⟩
  · rw [g2, ← hn]; rfl
  · intro hk
    subst hk
    rw [g2, f2 rfl, ← hn]; rfl
  · intro k' hk
    obtain ⟨mon2, -, e2⟩ := f3 k' hk
    rw [g2, ← hn, ← hn, e2]; rfl

/-- C124: near a saddle point with one growing wave the reported force tends to zero along the run. -/
theorem c124_settles (h : GoodDims (intDims dims)) (hl : LayoutOk dims) (m : Model 1 nd dims.prod)
    (r : SDDRun 1 dims) (a : Fin dims.prod → ℝ) (hm : LinearEquation m r.sdd.freq a)
    (st : Store 1 nd dims.prod) (hini : r.initialized = true) (ho : normSqO r.sdd.orientation = 1)
    (hi : 0 < r.sdd.initDimerLength) (hdt : 1 / 10 ^ 16 ≤ r.sdd.dt) (k₀ : Fin dims.prod) (hu : 0 < a k₀)
    (hk : r.sdd.dt * a k₀ ≠ 1) (hst : ∀ k, k ≠ k₀ → a k < 0)
    (hs : ∀ k, k ≠ k₀ → spectrumOf dims (r.sdd.orientation 0) k = 0) :
    ∃ q : ℕ → SDDRun 1 dims × Store 1 nd dims.prod,
      (∀ N, SDDRun.steps m (N + 1) (r, st) = some (q N)) ∧
      Tendsto (fun N => (q N).1.monitor.forcePowerSpectrum) atTop (𝓝 0) := by
  have hpos := pos_of_goodDims h
  have hdt0 : 0 < r.sdd.dt := lt_of_lt_of_le (by norm_num) hdt
  have hx := c123_saddle h hl m r.sdd a hm st ho hi hdt0 k₀ hu hk hst hs
  choose mon h1 h2 h3 using fun N => sddSteps_eq m (N + 1) r st hini hdt
  refine ⟨fun N => (⟨((SDD.step m)^[N + 1] (r.sdd, st)).1, true, mon N⟩, ((SDD.step m)^[N + 1] (r.sdd, st)).2),
    h1, ?_⟩
  have hval : ∀ N, (mon N).forcePowerSpectrum = Real.sqrt ((∑ i, ∑ j,
      ‖(((SDD.step m)^[N + 1] (r.sdd, st)).2.fields i j - ((SDD.step m)^[N] (r.sdd, st)).2.fields i j) /
        (r.sdd.dt : ℂ)‖ ^ 2) / ((1 : ℕ) * dims.prod)) := by
    intro N
    obtain ⟨mon', -, e⟩ := h3 N N rfl
    rw [e, c124_power hpos]
    unfold rateOfChange
    rw [Function.iterate_succ_apply', (iter_params m N (r.sdd, st)).1]
  have hlim : Tendsto (fun N => Real.sqrt ((∑ i, ∑ j,
      ‖(((SDD.step m)^[N + 1] (r.sdd, st)).2.fields i j - ((SDD.step m)^[N] (r.sdd, st)).2.fields i j) /
        (r.sdd.dt : ℂ)‖ ^ 2) / ((1 : ℕ) * dims.prod))) atTop (𝓝 0) := by
    have h0 : (0 : ℝ) = Real.sqrt ((∑ _i : Fin 1, ∑ _j : Fin dims.prod,
        ‖((0 : ℂ) - 0) / (r.sdd.dt : ℂ)‖ ^ 2) / ((1 : ℕ) * dims.prod)) := by simp
    rw [h0]
    refine (Real.continuous_sqrt.tendsto _).comp (Tendsto.div_const (tendsto_finsetSum _ fun i _ =>
      tendsto_finsetSum _ fun j _ => ?_) _)
    have hi0 : i = 0 := Subsingleton.elim _ _
    subst hi0
    exact (((((tendsto_add_atTop_iff_nat 1).mpr (hx j)).sub (hx j)).div_const _).norm).pow 2
  exact hlim.congr fun N => (hval N).symm

/-- C124: a log that starts with an empty file has the header and then one record per call, also over
several runs that write to it; to a file with contents only records are added. Without a file nothing
is written. -/
theorem c124_log (fmt : ℝ → Str) (mons : List SDDMonitor) (file : List (List Str)) :
    (mons.foldl (fun f mon => mon.log fmt f) (some []) = some (if mons = [] then [] else
      ["MaxForce".toList, "MaxTorque".toList, "ForcePowerSpect".toList, "FieldNorm".toList,
        "FieldNormChange".toList] :: mons.map fun mon =>
        [fmt mon.maxForce, fmt mon.maxTorque, fmt mon.forcePowerSpectrum, fmt mon.fieldNorm,
          fmt mon.fieldNormChange])) ∧
    (file ≠ [] → mons.foldl (fun f mon => mon.log fmt f) (some file) = some (file ++ mons.map fun mon =>
        [fmt mon.maxForce, fmt mon.maxTorque, fmt mon.forcePowerSpectrum, fmt mon.fieldNorm,
          fmt mon.fieldNormChange])) ∧
    mons.foldl (fun f mon => mon.log fmt f) none = none := by
  have hne : ∀ (mons : List SDDMonitor) (file : List (List Str)), file ≠ [] →
      mons.foldl (fun f mon => mon.log fmt f) (some file) = some (file ++ mons.map fun mon => mon.record fmt) := by
    intro mons
    induction mons with
    | nil => intro file _; simp
    | cons mon mons ih =>
      intro file hf
      rw [List.foldl_cons]
      change mons.foldl _ (some ((if file = [] then _ else file) ++ [mon.record fmt])) = _
      rw [if_neg hf, ih _ (by simp)]
      simp
  refine ⟨?_, fun hf => hne mons file hf, ?_⟩
  · cases mons with
    | nil => rfl
    | cons mon mons =>
      rw [List.foldl_cons]
      change mons.foldl _ (some ([sddLogHeader] ++ [mon.record fmt])) = _
      rw [hne _ _ (by simp), if_neg (by simp)]
      rfl
  · induction mons with
    | nil => rfl
    | cons mon mons ih => exact ih

theorem flatMap_rows (N : ℕ) : ∀ (n : ℕ) (l : List ℚ), l.length = n * N →
    ((List.range n).map fun i => (l.drop (i * N)).take N).flatten = l := by
  intro n
  induction n with
  | zero => intro l hl; simp at hl; simp [hl]
  | succ n ih =>
    intro l hl
    have := ih (l.drop N) (by rw [List.length_drop, hl, Nat.succ_mul]; omega)
    rw [List.range_succ_eq_map, List.map_cons, List.map_map, List.flatten_cons]
    have e : ((fun i => (l.drop (i * N)).take N) ∘ Nat.succ) = fun i => ((l.drop N).drop (i * N)).take N := by
      funext i
      simp only [Function.comp, List.drop_drop, Nat.succ_mul]
      rw [Nat.add_comm]
    rw [e, this]
    simp

theorem mapM_some_of {α β : Type} (l : List α) (f : α → Option β) (g : α → β) (h : ∀ a ∈ l, f a = some (g a)) :
    l.mapM f = some (l.map g) := by
  induction l with
  | nil => rfl
  | cons a l ih =>
    rw [List.mapM_cons, h a List.mem_cons_self, ih fun b hb => h b (List.mem_cons_of_mem _ hb)]
    rfl

/-- C124: the file of `SaveOrientation` has one column per field, named `orientation0`, `orientation1`,
..., and the columns read from it are, one after the other, the orientation up to six decimals. -/
theorem c124_save {dims : List Int} (hd : GoodDims dims) (n : ℕ) (hn : 0 < n) (o : List ℚ)
    (ho : (o.length : Int) = n * numNodes dims) :
    ∃ file fields, saveOrientation o dims = some (some file) ∧ loadCsv file = some fields ∧
      (fields.map (·.1)) = ((List.range n).map fun i : ℕ => "orientation".toList ++ fmtInt (i : Int)) ∧
      (∀ f ∈ fields, (f.2.length : Int) = numNodes dims) ∧
      List.Forall₂ (fun x y => |y.1 - x| ≤ 5 / 10 ^ 7 ∧ y.2 = 0) o (fields.flatMap (·.2)) := by
  have hpos : 0 < numNodes dims := by
    unfold numNodes
    exact List.prod_pos hd.2
  obtain ⟨N, hN⟩ : ∃ N : ℕ, numNodes dims = N := ⟨(numNodes dims).toNat, by omega⟩
  have hN0 : 0 < N := by omega
  have hlen : o.length = n * N := by rw [hN] at ho; exact_mod_cast ho
  have hcols : orientationColumns o dims = some ((List.range n).map fun i : ℕ =>
      ("orientation".toList ++ fmtInt (i : Int), (o.drop (i * N)).take N)) := by
    unfold orientationColumns
    have hp : prodInt dims = N := by rw [prodInt_eq]; exact hN
    dsimp only
    rw [hp, if_neg (by omega), hlen]
    have hq : (Int.tdiv ((n * N : ℕ) : Int) (N : Int)).toNat = n := by
      rw [Nat.cast_mul, Int.mul_tdiv_cancel _ (by omega)]; simp
    rw [hq]
    apply mapM_some_of
    intro i hi
    have hi := List.mem_range.mp hi
    have h1 : (i + 1) * N ≤ n * N := Nat.mul_le_mul_right _ hi
    have h1' : ((i : Int) + 1) * N ≤ (n : Int) * N := by exact_mod_cast h1
    have e1 : ((i : Int) * (N : Int)).toNat = i * N := by rw [← Nat.cast_mul]; exact Int.toNat_natCast _
    have e2 : (((i : Int) + 1) * (N : Int) - (i : Int) * (N : Int)).toNat = N := by
      rw [add_mul, one_mul, add_sub_cancel_left]; simp
    unfold rowSlice
    rw [if_pos ⟨by positivity, by rw [add_mul]; omega, by rw [hlen, Nat.cast_mul]; exact h1'⟩, e1, e2]
    rfl
  have hrow : ∀ i, i < n → ((o.drop (i * N)).take N).length = N := by
    intro i hi
    have h1 : (i + 1) * N ≤ n * N := Nat.mul_le_mul_right _ hi
    rw [Nat.succ_mul] at h1
    rw [List.length_take, List.length_drop, hlen]
    omega
  obtain ⟨file, fields, f1, f2, f3⟩ := c40_round_trip hd ((List.range n).map fun i : ℕ =>
      ("orientation".toList ++ fmtInt (i : Int), (o.drop (i * N)).take N)) (by simp; omega) (by
    intro f hf
    obtain ⟨i, hi, rfl⟩ := List.mem_map.mp hf
    rw [hN]
    exact_mod_cast hrow i (List.mem_range.mp hi))
  refine ⟨file, fields, ?_, f2, ?_, ?_, ?_⟩
  · unfold saveOrientation
    rw [hcols]
    exact f1
  · have e : ∀ (a : List (Str × List ℚ)) (b : List (Str × List (ℚ × ℚ))), List.Forall₂ (fun d f => f.1 = d.1 ∧
        List.Forall₂ (fun x y => |y.1 - x| ≤ 5 / 10 ^ 7 ∧ y.2 = 0) d.2 f.2) a b → b.map (·.1) = a.map (·.1) := by
      intro a b hab
      induction hab with
      | nil => rfl
      | cons h1 _ ih => simp [h1.1, ih]
    rw [e _ _ f3, List.map_map]
    rfl
  · intro f hf
    obtain ⟨i, hi, rfl⟩ := List.getElem_of_mem hf
    have hl := f3.length_eq
    have h2 := (List.forall₂_iff_get.mp f3).2 i (by omega) hi
    have h3 := h2.2.length_eq
    simp only [List.get_eq_getElem, List.getElem_map, List.getElem_range] at h3
    rw [List.length_map, List.length_range] at hl
    rw [← h3, hrow i (by omega), hN]
  · have e : ∀ (a : List (Str × List ℚ)) (b : List (Str × List (ℚ × ℚ))), List.Forall₂ (fun d f => f.1 = d.1 ∧
        List.Forall₂ (fun x y => |y.1 - x| ≤ 5 / 10 ^ 7 ∧ y.2 = 0) d.2 f.2) a b →
        List.Forall₂ (fun x y => |y.1 - x| ≤ 5 / 10 ^ 7 ∧ y.2 = 0) ((a.map (·.2)).flatten) (b.flatMap (·.2)) := by
      intro a b hab
      induction hab with
      | nil => exact .nil
      | cons h1 _ ih =>
        rw [List.map_cons, List.flatten_cons, List.flatMap_cons]
        exact List.rel_append h1.2 ih
    have := e _ _ f3
    rw [List.map_map] at this
    have e2 : ((fun f : Str × List ℚ => f.2) ∘ fun i : ℕ =>
      ("orientation".toList ++ fmtInt (i : Int), (o.drop (i * N)).take N)) = fun i => (o.drop (i * N)).take N := rfl
    rw [e2, flatMap_rows N n o hlen] at this
    exact this

/-- C124: an orientation read back and set again is the same one, but the dimer then has length one,
whatever its length was. -/
theorem c124_reload (r : SDDRun nf dims) (h : normSqO r.sdd.orientation = 1) (o : List ℝ)
    (hl : o.length = nf * dims.prod)
    (ho : ∀ i j, o.getD (i.val * dims.prod + j.val) 0 = r.sdd.orientation i j) :
    ∃ r', r.setInitialOrientation o = some r' ∧ r'.sdd.orientation = r.sdd.orientation ∧
      r'.sdd.initDimerLength = 1 ∧ r'.initialized = true := by
  unfold SDDRun.setInitialOrientation
  rw [if_neg (by simp [hl])]
  have hn : Real.sqrt (∑ i, ∑ j, r.sdd.orientation i j * r.sdd.orientation i j) = 1 := by
    have : ∑ i, ∑ j, r.sdd.orientation i j * r.sdd.orientation i j = 1 := h
    rw [this, Real.sqrt_one]
  refine ⟨_, rfl, ?_, ?_, rfl⟩
  · unfold SDD.setOrientation
    simp only [ho, hn, div_one]
  · unfold SDD.setOrientation
    simp only [ho, hn]

/-- The run from the uniform dimer meets the hypotheses of `c124_settles` and of the theorems before. -/
example (h : GoodDims (intDims dims)) (hl : LayoutOk dims) (st : Store 1 0 dims.prod) :
    ∃ q : ℕ → SDDRun 1 dims × Store 1 0 dims.prod,
      (∀ N, SDDRun.steps (saddleModel dims) (N + 1)
        ({ newSDD 1 dims (freqOf dims) with sdd := uniformDimer dims (1 / 10), initialized := true }, st) =
          some (q N)) ∧
      Tendsto (fun N => (q N).1.monitor.forcePowerSpectrum) atTop (𝓝 0) := by
  have hpos := pos_of_goodDims h
  have hN := prod_pos_real hpos
  refine c124_settles h hl _ _ _ (saddleModel_linear h hl) st rfl ?_ (by norm_num [uniformDimer])
    (by norm_num [uniformDimer]) ⟨0, by exact_mod_cast hN⟩ (by norm_num) (by norm_num [uniformDimer]) ?_ ?_
  · simp only [normSqO, uniformDimer, Finset.sum_const, Finset.card_univ, Fintype.card_fin]
    rw [div_mul_div_comm, Real.mul_self_sqrt hN.le]
    simp only [nsmul_eq_mul, Nat.cast_one, one_mul]
    field_simp
  · intro k hk
    have : k.val ≠ 0 := fun hv => hk (Fin.ext hv)
    simp [this]
  · intro k hk
    have : k.val ≠ 0 := fun hv => hk (Fin.ext hv)
    have e := fft_const hpos ((1 / Real.sqrt dims.prod : ℝ) : ℂ) k
    rw [if_neg this] at e
    exact e

example : GoodDims [2, 3] ∧ ((List.replicate 12 (1 / 4 : ℚ)).length : Int) = (2 : ℕ) * numNodes [2, 3] :=
  ⟨⟨by decide, by decide⟩, by decide⟩

example : ∃ (r : SDDRun 1 [2, 2]) (o : List ℝ), normSqO r.sdd.orientation = 1 ∧ o.length = 1 * [2, 2].prod ∧
    ∀ (i : Fin 1) (j : Fin [2, 2].prod), o.getD (i.val * [2, 2].prod + j.val) 0 = r.sdd.orientation i j := by
  refine ⟨{ newSDD 1 [2, 2] (fun _ => []) with
    sdd := { (newSDD 1 [2, 2] fun _ => []).sdd with orientation := fun _ _ => 1 / 2 } }, [1 / 2, 1 / 2, 1 / 2, 1 / 2],
    ?_, rfl, ?_⟩
  · change ∑ _i : Fin 1, ∑ _j : Fin 4, (1 / 2 : ℝ) * (1 / 2) = 1
    norm_num
  · intro i j
    have hi : i.val = 0 := by omega
    have hj : j.val < 4 := j.2
    rw [hi]
    interval_cases hjv : j.val <;> simp

end Gopf.Props
