import Verif.Model.Volume
import Verif.Props.Euler

/-!
# C100: the volume conserving Lagrange multiplier
-/

namespace Gopf.Props
open Gopf Gopf.Pf Gopf.Pfutil

variable {nf nd : ℕ} {dims : List ℕ}

/-- The total of a field. -/
noncomputable def totalOf (f : Fin nf) (st : Store nf nd dims.prod) : ℝ := ∑ x, (st.fields f x).re

/-- The total of a derived field computed from the fields. -/
noncomputable def indicatorOf (m : Model nf nd dims.prod) (d : Fin nd) (st : Store nf nd dims.prod) : ℝ :=
  ∑ x, (m.calcs d st x).re

/-- The rate at which the other terms of the equation change the total of the field. -/
noncomputable def driftOf (m : Model nf nd dims.prod) (f : Fin nf) (z : Fin dims.prod)
    (p : Stepper dims.prod × Store nf nd dims.prod) : ℝ :=
  (m.getRHS f ⟨fun j => fft dims (p.2.fields j), fun d => fft dims (m.calcs d p.2)⟩ p.1.freq
    (p.1.currentStep * p.1.dt) z).re

/-- What the theorems ask of the model and the stepper: the derived fields are functions of the fields,
the equation reads no field that is updated before it, has no modifiers, its implicit terms leave the mean
alone, and there is no filter. -/
structure VolumeSetting (m : Model nf nd dims.prod) (f : Fin nf) (z : Fin dims.prod)
    (s : Stepper dims.prod) : Prop where
  dims_pos : ∀ d ∈ dims, 0 < d
  fieldsOnly : FieldsOnly m
  reads : ReadsNoEarlierField m f
  modifiers : ∀ md ∈ m.modifiers, md.1 ≠ f.val
  denum : ∀ g ∈ m.denum f, ∀ st t, g st s.freq t z = 0
  zero : z.val = 0
  filter : s.filter = none

/-- The change of the total in one step. -/
private theorem total_step {m : Model nf nd dims.prod} {f : Fin nf} {z : Fin dims.prod}
    {s : Stepper dims.prod} (hs : VolumeSetting m f z s) (d : Fin nd) (prefixes : List Str) (σ : ℝ)
    (hσ : (prefixes.map fun p => prefixSymbol p (s.freq z)).prod = (σ : ℂ)) (v : VolumeLP)
    (st : Store nf nd dims.prod) :
    totalOf f (eulerStep (withVolume m f d prefixes v) (s, st)).2 =
      totalOf f st + s.dt * (driftOf m f z (s, st) + σ * v.multiplier * indicatorOf m d st) := by
  have hread : ReadsNoEarlierField (withVolume m f d prefixes v) f := by
    intro g hg st st' freq t hd hf
    simp only [withVolume, Function.update_self, List.mem_append, List.mem_singleton] at hg
    rcases hg with (hg | hg) | hg
    · exact hs.reads g (by simp [hg]) st st' freq t hd hf
    · subst hg
      have : v.term (nf := nf) (n := dims.prod) d st = v.term d st' := by
        unfold VolumeLP.term
        rw [hd]
      show constructFunc (v.term d st) prefixes freq t = constructFunc (v.term d st') prefixes freq t
      rw [this]
    · exact hs.reads g (by simp [hg]) st st' freq t hd hf
  have h := c22_euler hs.dims_pos (withVolume m f d prefixes v) hs.fieldsOnly f hread s hs.filter st z
  dsimp only at h
  rw [fft_zero_bin _ _ hs.zero, fft_zero_bin _ _ hs.zero, c21_denum, c21_rhs] at h
  have hmod : m.modifiers.filter (fun md => decide (md.1 = f.val)) = [] := by
    rw [List.filter_eq_nil_iff]
    intro md hmd
    simp [hs.modifiers md hmd]
  have hden : ∀ b t, ((m.denum f).map fun g => g b s.freq t z).sum = 0 := by
    intro b t
    apply List.sum_eq_zero
    intro x hx
    obtain ⟨g, hg, rfl⟩ := List.mem_map.mp hx
    exact hs.denum g hg b t
  simp only [withVolume, Function.update_self, hmod, List.map_nil, List.foldl_nil, List.map_append,
    List.sum_append, List.map_cons, List.sum_cons, List.sum_nil, c15_meaning, hσ, VolumeLP.term, hden,
    fft_zero_bin _ _ hs.zero, mul_zero, sub_zero, div_one, add_zero] at h
  have h2 := congrArg Complex.re h
  simp only [Complex.re_sum] at h2
  unfold totalOf
  rw [show (∑ x, ((eulerStep (withVolume m f d prefixes v) (s, st)).2.fields f x).re) = _ from h2]
  unfold driftOf indicatorOf
  rw [c21_rhs]
  simp only [hmod, List.map_nil, List.foldl_nil]
  rw [Complex.add_re, Complex.re_sum, Complex.re_ofReal_mul]
  congr 2
  simp only [Complex.add_re, Complex.mul_re, Complex.ofReal_re, Complex.ofReal_im,
    Complex.re_sum]
  ring

theorem derived_step (m : Model nf nd dims.prod) (hm : FieldsOnly m) (s : Stepper dims.prod)
    (st : Store nf nd dims.prod) :
    (eulerStep m (s, st)).2.derived = fun d => fft dims (m.calcs d st) := by
  have key : ∀ (t : ℝ) (l : List (Fin nf)) (st1 : Store nf nd dims.prod),
      (l.foldl (eulerField m s t) st1).derived = st1.derived := by
    intro t l
    induction l with
    | nil => intro st1; rfl
    | cons a l ih => intro st1; rw [List.foldl_cons, ih]; rfl
  show ((List.finRange nf).foldl (eulerField m s s.getTime) (fftDerived (fftFields (m.sync st)))).derived = _
  rw [key, sync_eq hm]
  rfl

theorem foldl_total (n : ℕ) (g : Fin n → ℝ) :
    (List.finRange n).foldl (fun acc i => acc + g i) 0 = ∑ i, g i := by
  have : ∀ (l : List (Fin n)) (a : ℝ), l.foldl (fun acc i => acc + g i) a = a + (l.map g).sum := by
    intro l
    induction l with
    | nil => intro a; simp
    | cons x l ih => intro a; rw [List.foldl_cons, ih, List.map_cons, List.sum_cons]; ring
  rw [this, zero_add, ← List.ofFn_eq_map, List.sum_ofFn]

private theorem finished {m : Model nf nd dims.prod} {f : Fin nf} {z : Fin dims.prod}
    {s : Stepper dims.prod} (hs : VolumeSetting m f z s) (d : Fin nd) (prefixes : List Str)
    (v w : VolumeLP) (st : Store nf nd dims.prod) :
    let st' := (eulerStep (withVolume m f d prefixes w) (s, st)).2
    v.onStepFinished f d z st' =
      if v.isFirstUpdate then { v with currentIntegral := totalOf f st', isFirstUpdate := false }
      else
        { v with
          currentIntegral := totalOf f st'
          multiplier := v.multiplier - (totalOf f st' - v.currentIntegral) /
            (v.dt * indicatorOf m d st) } := by
  intro st'
  have hd : (st'.derived d z).re = indicatorOf m d st := by
    show ((eulerStep (withVolume m f d prefixes w) (s, st)).2.derived d z).re = _
    rw [derived_step (withVolume m f d prefixes w) hs.fieldsOnly]
    dsimp only
    rw [fft_zero_bin _ _ hs.zero, Complex.re_sum]
    rfl
  unfold VolumeLP.onStepFinished VolumeLP.finished
  rw [foldl_total, hd]
  rfl

/-- The run: the state after `k` steps from a fresh multiplier. -/
noncomputable def volumeRun (m : Model nf nd dims.prod) (f : Fin nf) (d : Fin nd) (prefixes : List Str)
    (z : Fin dims.prod) (s : Stepper dims.prod) (st : Store nf nd dims.prod) (k : ℕ) :
    VolumeLP × Stepper dims.prod × Store nf nd dims.prod :=
  (volumeStep m f d prefixes z)^[k] (newVolumeLP s.dt, s, st)

section
variable {m : Model nf nd dims.prod} {f : Fin nf} {z : Fin dims.prod} {s : Stepper dims.prod}

private theorem run_stepper (d : Fin nd) (prefixes : List Str) (st : Store nf nd dims.prod) (k : ℕ) :
    (volumeRun m f d prefixes z s st k).2.1 = { s with currentStep := s.currentStep + k } := by
  induction k with
  | zero => rfl
  | succ k ih =>
    unfold volumeRun at ih ⊢
    rw [Function.iterate_succ_apply']
    generalize (volumeStep m f d prefixes z)^[k] (newVolumeLP s.dt, s, st) = p at ih ⊢
    show ({ p.2.1 with currentStep := p.2.1.currentStep + 1 } : Stepper dims.prod) = _
    rw [ih]
    rfl

private theorem setting_later (hs : VolumeSetting m f z s) (k : ℕ) :
    VolumeSetting m f z { s with currentStep := s.currentStep + k } :=
  ⟨hs.dims_pos, hs.fieldsOnly, hs.reads, hs.modifiers, hs.denum, hs.zero, hs.filter⟩

/-- Everything about one step of the run. -/
private theorem run_step (hs : VolumeSetting m f z s) (d : Fin nd) (prefixes : List Str) (σ : ℝ)
    (hσ : (prefixes.map fun p => prefixSymbol p (s.freq z)).prod = (σ : ℂ))
    (st : Store nf nd dims.prod) (k : ℕ) :
    let p := volumeRun m f d prefixes z s st k
    let q := volumeRun m f d prefixes z s st (k + 1)
    totalOf f q.2.2 = totalOf f p.2.2 +
      s.dt * (driftOf m f z p.2 + σ * p.1.multiplier * indicatorOf m d p.2.2) ∧
    q.1 = if p.1.isFirstUpdate then { p.1 with currentIntegral := totalOf f q.2.2, isFirstUpdate := false }
      else
        { p.1 with
          currentIntegral := totalOf f q.2.2
          multiplier := p.1.multiplier - (totalOf f q.2.2 - p.1.currentIntegral) /
            (p.1.dt * indicatorOf m d p.2.2) } := by
  intro p q
  have hst : p.2.1 = { s with currentStep := s.currentStep + k } := run_stepper d prefixes st k
  have hs' : VolumeSetting m f z p.2.1 := by rw [hst]; exact setting_later hs k
  have hq : q = volumeStep m f d prefixes z p := by
    show (volumeStep m f d prefixes z)^[k + 1] _ = _
    rw [Function.iterate_succ_apply']
    rfl
  have h1 : totalOf f (volumeStep m f d prefixes z p).2.2 = _ :=
    total_step hs' d prefixes σ (by rw [hst]; exact hσ) p.1 p.2.2
  have h2 := finished hs' d prefixes p.1 p.1 p.2.2
  rw [hq]
  refine ⟨?_, h2⟩
  have hdt : p.2.1.dt = s.dt := by rw [hst]
  rw [h1, hdt]

private theorem run_first (hs : VolumeSetting m f z s) (d : Fin nd) (prefixes : List Str) (σ : ℝ)
    (hσ : (prefixes.map fun p => prefixSymbol p (s.freq z)).prod = (σ : ℂ))
    (st : Store nf nd dims.prod) (k : ℕ) :
    let q := volumeRun m f d prefixes z s st (k + 1)
    q.1.isFirstUpdate = false ∧ q.1.currentIntegral = totalOf f q.2.2 ∧ q.1.dt = s.dt ∧
      (k = 0 → q.1.multiplier = 0) := by
  induction k with
  | zero =>
    obtain ⟨-, h2⟩ := run_step hs d prefixes σ hσ st 0
    intro q
    have h0 : (volumeRun m f d prefixes z s st 0).1 = newVolumeLP s.dt := rfl
    rw [h0] at h2
    change q.1 = _ at h2
    rw [h2]
    simp [newVolumeLP, q]
  | succ k ih =>
    obtain ⟨i1, i2, i3, -⟩ := ih
    obtain ⟨-, h2⟩ := run_step hs d prefixes σ hσ st (k + 1)
    intro q
    change q.1 = _ at h2
    rw [i1, if_neg (by simp)] at h2
    rw [h2]
    exact ⟨i1, rfl, i3, by omega⟩

/-- C100: during the first two steps the term does nothing; from then on the multiplier cancels the drift
of the previous step: the total of the field changes by `dt (c_k - c_(k-1) I_k / I_(k-1))`, where `c_k` is
the rate of change due to the other terms and `I_k` the total of the indicator in step `k`. -/
theorem c100_change (hs : VolumeSetting m f z s) (hdt : s.dt ≠ 0) (d : Fin nd)
    (st : Store nf nd dims.prod) :
    let p := fun k => (volumeRun m f d [] z s st k).2
    let total := fun k => totalOf f (p k).2
    let c := fun k => driftOf m f z (p k)
    let I := fun k => indicatorOf m d (p k).2
    total 1 = total 0 + s.dt * c 0 ∧ total 2 = total 1 + s.dt * c 1 ∧
      ∀ k, I (k + 1) ≠ 0 →
        total (k + 3) = total (k + 2) + s.dt * (c (k + 2) - c (k + 1) * (I (k + 2) / I (k + 1))) := by
  intro p total c I
  have hσ : (([] : List Str).map fun p => prefixSymbol p (s.freq z)).prod = ((1 : ℝ) : ℂ) := by simp
  have step := fun k => run_step hs d [] 1 hσ st k
  have first := fun k => run_first hs d [] 1 hσ st k
  refine ⟨?_, ?_, ?_⟩
  · have h := (step 0).1
    have h0 : (volumeRun m f d [] z s st 0).1.multiplier = 0 := rfl
    rw [h0] at h
    simpa using h
  · have h := (step 1).1
    rw [(first 0).2.2.2 rfl] at h
    simpa using h
  · intro k hI
    have h1 := (step (k + 1)).1
    have h2 := (step (k + 1)).2
    have h3 := (step (k + 2)).1
    obtain ⟨f1, f2, f3, -⟩ := first k
    rw [f1, if_neg (by simp), f2, f3] at h2
    have h4 : (volumeRun m f d [] z s st (k + 2)).1.multiplier = -(c (k + 1)) / I (k + 1) := by
      rw [show k + 2 = k + 1 + 1 from rfl, h2]
      dsimp only
      rw [h1]
      change _ - (_ + s.dt * (c (k + 1) + _ * I (k + 1)) - _) / (s.dt * I (k + 1)) = _
      field_simp
      ring
    rw [h4] at h3
    change total (k + 3) = total (k + 2) + s.dt * (c (k + 2) + 1 * (-(c (k + 1)) / I (k + 1)) * I (k + 2)) at h3
    rw [h3]
    ring

/-- C100: if the total of the indicator does not change, the total of the field never departs from its
initial value by more than the change in two steps, however many steps are made. -/
theorem c100_bounded (hs : VolumeSetting m f z s) (hdt : s.dt ≠ 0) (d : Fin nd)
    (st : Store nf nd dims.prod) (I0 : ℝ) (hI0 : I0 ≠ 0)
    (hI : ∀ k, indicatorOf m d (volumeRun m f d [] z s st k).2.2 = I0) (k : ℕ) :
    totalOf f (volumeRun m f d [] z s st (k + 2)).2.2 = totalOf f st +
      s.dt * (driftOf m f z (s, st) + driftOf m f z (volumeRun m f d [] z s st (k + 1)).2) := by
  obtain ⟨h1, h2, h3⟩ := c100_change hs hdt d st
  dsimp only at h1 h2 h3
  have h0 : (volumeRun m f d [] z s st 0).2 = (s, st) := rfl
  rw [h0] at h1
  induction k with
  | zero =>
    rw [h2, h1]
    ring
  | succ k ih =>
    rw [show k + 1 + 2 = k + 3 from rfl, h3 k (by rw [hI]; exact hI0), hI, hI, div_self hI0, ih]
    ring

/-- C100: with a constant drift the total is constant after the second step; what was lost in the
first two steps is not recovered. -/
theorem c100_constant (hs : VolumeSetting m f z s) (hdt : s.dt ≠ 0) (d : Fin nd)
    (st : Store nf nd dims.prod) (I0 c0 : ℝ) (hI0 : I0 ≠ 0)
    (hI : ∀ k, indicatorOf m d (volumeRun m f d [] z s st k).2.2 = I0)
    (hc : ∀ k, driftOf m f z (volumeRun m f d [] z s st k).2 = c0) (k : ℕ) :
    totalOf f (volumeRun m f d [] z s st (k + 2)).2.2 = totalOf f st + 2 * s.dt * c0 := by
  have h0 : driftOf m f z (s, st) = c0 := hc 0
  rw [c100_bounded hs hdt d st I0 hI0 hI k, hc, h0]
  ring

/-- C100: written with a minus sign in the equation the term does the opposite: with constant drift the
change of the total doubles in every step. -/
theorem c100_minus (hs : VolumeSetting m f z s) (hdt : s.dt ≠ 0) (d : Fin nd)
    (st : Store nf nd dims.prod) (I0 c0 : ℝ) (hI0 : I0 ≠ 0)
    (hI : ∀ k, indicatorOf m d (volumeRun m f d ["-".toList] z s st k).2.2 = I0)
    (hc : ∀ k, driftOf m f z (volumeRun m f d ["-".toList] z s st k).2 = c0) (k : ℕ) :
    let total := fun k => totalOf f (volumeRun m f d ["-".toList] z s st k).2.2
    total (k + 2) - total (k + 1) = 2 ^ k * (s.dt * c0) := by
  intro total
  have hσ : (["-".toList].map fun p => prefixSymbol p (s.freq z)).prod = ((-1 : ℝ) : ℂ) := by
    simp [prefixSymbol]
  have step := fun k => run_step hs d ["-".toList] (-1) hσ st k
  have first := fun k => run_first hs d ["-".toList] (-1) hσ st k
  have key : ∀ k, (volumeRun m f d ["-".toList] z s st (k + 1)).1.multiplier = -(2 ^ k - 1) * (c0 / I0) := by
    intro k
    induction k with
    | zero => rw [(first 0).2.2.2 rfl]; simp
    | succ k ih =>
      have h1 := (step (k + 1)).1
      have h2 := (step (k + 1)).2
      obtain ⟨f1, f2, f3, -⟩ := first k
      rw [f1, if_neg (by simp), f2, f3, hI, ih] at h2
      rw [h2]
      dsimp only
      rw [h1, hI, hc, ih]
      field_simp
      ring
  have h1 := (step (k + 1)).1
  rw [hI, hc, key] at h1
  change total (k + 2) = total (k + 1) + _ at h1
  rw [h1]
  field_simp
  ring

end

/-- A growing field: `dc/dt = 1`, written as its transform, with a constant indicator. -/
def growthModel (n : ℕ) (z : Fin n) : Model 1 1 n :=
  { calcs := fun _ _ _ => 1
    terms := fun _ => [fun _ _ _ k => if k = z then (n : ℂ) else 0]
    denum := fun _ => []
    sources := fun _ => []
    modifiers := [] }

theorem growthSetting (hd : ∀ d ∈ dims, 0 < d) (z : Fin dims.prod) (hz : z.val = 0) (s : Stepper dims.prod)
    (hs : s.filter = none) : VolumeSetting (growthModel dims.prod z) 0 z s :=
  ⟨hd, fun _ _ _ _ => rfl, c22_single_equation _ _,
    fun md h => absurd (show md ∈ [] from h) (by simp), fun g h => absurd (show g ∈ [] from h) (by simp),
    hz, hs⟩

example (hd : ∀ d ∈ dims, 0 < d) (z : Fin dims.prod) (hz : z.val = 0) (s : Stepper dims.prod)
    (hs : s.filter = none) (hdt : s.dt ≠ 0) (st : Store 1 1 dims.prod) (k : ℕ) :
    totalOf 0 (volumeRun (growthModel dims.prod z) 0 0 [] z s st (k + 2)).2.2 =
      totalOf 0 st + 2 * s.dt * dims.prod := by
  have hp : 0 < dims.prod := by have := z.isLt; omega
  exact c100_constant (growthSetting hd z hz s hs) hdt 0 st dims.prod dims.prod
    (by exact_mod_cast hp.ne') (fun k => by simp [indicatorOf, growthModel])
    (fun k => by
      simp only [driftOf, Model.getRHS, Model.rawRHS, growthModel, elemwiseAdd, List.foldl_nil,
        List.foldl_cons, if_true, zero_add, Complex.natCast_re]) k

end Gopf.Props
