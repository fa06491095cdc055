import Verif.Spec.RungeKutta
import Verif.Proofs.Stepper
import Verif.Props.Euler
import Mathlib.Algebra.Module.Pi

/-!
# C27: the RK4 stepper
-/

namespace Gopf.Props
open Spec Pf Pfutil

variable {nf nd : ℕ} {dims : List ℕ}

/-- The time derivative of the spectra that the model describes, as a function of the spectra: go to
real space, compute the derived fields, transform them, evaluate the right-hand sides. -/
noncomputable def slope (m : Model nf nd dims.prod) (freq : Frequency dims.prod) (t : ℝ)
    (Y : Fin nf → Data dims.prod) : Fin nf → Data dims.prod :=
  let real : Store nf nd dims.prod := ⟨fun j x => ifft dims (Y j) x / (dims.prod : ℂ), fun _ _ => 0⟩
  fun i => m.getRHS i ⟨Y, fun d => fft dims (m.calcs d real)⟩ freq t

private theorem denum_zero {n : ℕ} {m : Model nf nd n} {i : Fin nf} (h : m.denum i = [])
    (st : Store nf nd n) (freq : Frequency n) (t : ℝ) (k : Fin n) : m.getDenum i st freq t k = 0 := by
  rw [c21_denum, h]; simp

private theorem div_natCast (data : Data dims.prod) :
    divRealScalar data (dims.prod : ℕ) = fun x => data x / (dims.prod : ℂ) := by
  funext x; simp only [divRealScalar, Complex.ofReal_natCast]

private theorem fft_div (h : ∀ d ∈ dims, 0 < d) (Y : Data dims.prod) :
    fft dims (fun x => ifft dims Y x / (dims.prod : ℂ)) = Y := by
  have := fft_ifftFields (nf := 1) (nd := 0) h ⟨fun _ => Y, fun d => d.elim0⟩ 0
  simpa only [ifftFields, div_natCast] using this

private theorem ifft_div (h : ∀ d ∈ dims, 0 < d) (y : Data dims.prod) :
    (fun x => ifft dims (fft dims y) x / (dims.prod : ℂ)) = y := by
  have := ifftFields_fft (nf := 1) (nd := 0) h ⟨fun _ => fft dims y, fun d => d.elim0⟩ 0 y rfl
  simpa only [ifftFields, div_natCast] using this

private theorem spectral_slope (h : ∀ d ∈ dims, 0 < d) {m : Model nf nd dims.prod} (hd : FieldsOnly m)
    (freq : Frequency dims.prod) (t : ℝ) (st : Store nf nd dims.prod) (Y : Fin nf → Data dims.prod)
    (hf : st.fields = fun j x => ifft dims (Y j) x / (dims.prod : ℂ)) :
    (fun i => m.getRHS i (fftDerived (fftFields (m.sync st))) freq t) = slope m freq t Y := by
  funext i
  unfold slope
  congr 1
  rw [sync_eq hd]
  unfold fftDerived fftFields
  dsimp only
  congr 1
  · funext j
    rw [hf]
    exact fft_div h (Y j)
  · funext d
    congr 1
    exact hd d _ _ hf

private theorem correction_eq (h : ∀ d ∈ dims, 0 < d) {m : Model nf nd dims.prod} (hd : FieldsOnly m)
    (hden : ∀ i, m.denum i = []) (s : Stepper dims.prod) (k : Fin nf → Data dims.prod) (factor : ℝ)
    (st : Store nf nd dims.prod) :
    (rk4Correction m s k factor st).2 =
      slope m s.freq s.getTime (st.fields + ((factor * s.dt : ℝ) : ℂ) • k) := by
  unfold rk4Correction
  dsimp only
  apply spectral_slope h hd
  let g : Store nf nd dims.prod → Fin nf → Data dims.prod := fun st i =>
    divRealScalar (ifft dims fun j => (st.fields i j + ((factor * s.dt : ℝ) : ℂ) * k i j) /
      (1 - ((factor * s.dt : ℝ) : ℂ) * m.getDenum i st s.freq s.getTime j)) (dims.prod : ℕ)
  funext i
  obtain ⟨l1, l2, hl, hlt⟩ := finRange_split i
  have hnd := List.nodup_finRange nf
  have h3 := (foldl_update_fields g (List.finRange nf) hnd st).2.2 l1 i l2 hl
  have hl1nd : l1.Nodup := by
    rw [hl] at hnd; exact hnd.sublist (List.sublist_append_left _ _)
  have h2 := (foldl_update_fields g l1 hl1nd st).2.1 i (fun hm => absurd (hlt i hm) (lt_irrefl i))
  obtain ⟨stl, e2, e3⟩ : ∃ stl : Store nf nd dims.prod, stl.fields i = st.fields i ∧
      ((List.finRange nf).foldl (rk4Field m s k factor) st).fields i = g stl i := ⟨_, h2, h3⟩
  refine e3.trans ?_
  simp only [g, e2, denum_zero (hden i), mul_zero, sub_zero, div_one, div_natCast]
  rfl

/-- C27: without implicit terms and filter, an RK4 step advances the spectra by the classical
Runge-Kutta method applied to the right-hand side with its time argument frozen at the beginning of
the step. -/
theorem c27_rk4 (h : ∀ d ∈ dims, 0 < d) (m : Model nf nd dims.prod) (hd : FieldsOnly m)
    (hden : ∀ i, m.denum i = []) (s : Stepper dims.prod) (hs : s.filter = none)
    (st : Store nf nd dims.prod) :
    (fun i => fft dims ((rk4Step m (s, st)).2.fields i)) =
      rungeKutta4 (slope m s.freq (s.currentStep * s.dt)) (s.dt : ℂ) fun i => fft dims (st.fields i) := by
  let Y : Fin nf → Data dims.prod := fun i => fft dims (st.fields i)
  have hY : (fftFields (m.sync st)).fields = Y := by
    unfold fftFields; simp only [sync_fields]; rfl
  have hk1 : (fun i => m.getRHS i (fftDerived (fftFields (m.sync st))) s.freq s.getTime) =
      slope m s.freq s.getTime Y := by
    apply spectral_slope h hd
    funext j
    exact (ifft_div h (st.fields j)).symm
  funext i
  unfold rk4Step rk4StepStore
  dsimp only
  rw [fft_ifftFields h]
  -- the final loop
  set final4 := rk4Accumulate s _ _ _ with hfinal
  generalize hst5 : ({ fields := (fftFields (m.sync st)).fields, derived := _ } : Store nf nd dims.prod) = st5
  let g : Store nf nd dims.prod → Fin nf → Data dims.prod := fun stc i =>
    optFilter s.filter s.freq fun j => final4 i j / (1 - (s.dt : ℂ) * m.getDenum i stc s.freq s.getTime j)
  obtain ⟨l1, l2, hl, hlt⟩ := finRange_split i
  have h3 := (foldl_update_fields g (List.finRange nf) (List.nodup_finRange nf) st5).2.2 l1 i l2 hl
  refine h3.trans ?_
  simp only [g, hs, optFilter, denum_zero (hden i), mul_zero, sub_zero, div_one]
  -- the accumulated slopes
  rw [hfinal]
  simp only [correction_eq h hd hden, hk1]
  rw [hY]
  unfold rungeKutta4 rk4Accumulate
  have e1 : ((0.5 * s.dt : ℝ) : ℂ) = (s.dt : ℂ) / 2 := by push_cast; ring
  have e2 : ((1 * s.dt : ℝ) : ℂ) = (s.dt : ℂ) := by push_cast; ring
  rw [e1, e2]
  have et : s.getTime = (s.currentStep : ℝ) * s.dt := rfl
  rw [et]
  funext j
  simp only [Pi.add_apply, Pi.smul_apply, smul_eq_mul]
  push_cast
  show _ = Y i j + _
  ring

private theorem correction_implicit (h : ∀ d ∈ dims, 0 < d) {m : Model nf nd dims.prod} (hd : FieldsOnly m)
    {A : Fin nf → Data dims.prod} (s : Stepper dims.prod) (hA : ∀ i st, m.getDenum i st s.freq s.getTime = A i)
    (k : Fin nf → Data dims.prod) (factor : ℝ) (st : Store nf nd dims.prod) :
    (rk4Correction m s k factor st).2 =
      slope m s.freq s.getTime ((st.fields + ((factor * s.dt : ℝ) : ℂ) • k) / (1 - ((factor * s.dt : ℝ) : ℂ) • A)) := by
  unfold rk4Correction
  dsimp only
  apply spectral_slope h hd
  let g : Store nf nd dims.prod → Fin nf → Data dims.prod := fun st i =>
    divRealScalar (ifft dims fun j => (st.fields i j + ((factor * s.dt : ℝ) : ℂ) * k i j) /
      (1 - ((factor * s.dt : ℝ) : ℂ) * m.getDenum i st s.freq s.getTime j)) (dims.prod : ℕ)
  funext i
  obtain ⟨l1, l2, hl, hlt⟩ := finRange_split i
  have hnd := List.nodup_finRange nf
  have h3 := (foldl_update_fields g (List.finRange nf) hnd st).2.2 l1 i l2 hl
  have hl1nd : l1.Nodup := by
    rw [hl] at hnd; exact hnd.sublist (List.sublist_append_left _ _)
  have h2 := (foldl_update_fields g l1 hl1nd st).2.1 i (fun hm => absurd (hlt i hm) (lt_irrefl i))
  obtain ⟨stl, e2, e3⟩ : ∃ stl : Store nf nd dims.prod, stl.fields i = st.fields i ∧
      ((List.finRange nf).foldl (rk4Field m s k factor) st).fields i = g stl i := ⟨_, h2, h3⟩
  refine e3.trans ?_
  simp only [g, e2, hA, div_natCast]
  rfl

/-- C111: the scheme. With an implicit part that does not depend on the fields and without filter, an RK4 step
advances the spectra by the documented method: the Runge-Kutta slopes of the explicit part, each computed from a
state divided by `1 - c A`, and the sum divided by `1 - dt A`. -/
theorem c111_scheme (h : ∀ d ∈ dims, 0 < d) (m : Model nf nd dims.prod) (hd : FieldsOnly m)
    (A : Fin nf → Data dims.prod) (s : Stepper dims.prod) (hs : s.filter = none)
    (hA : ∀ i st, m.getDenum i st s.freq (s.currentStep * s.dt) = A i) (st : Store nf nd dims.prod) :
    (fun i => fft dims ((rk4Step m (s, st)).2.fields i)) =
      rungeKutta4Implicit (slope m s.freq (s.currentStep * s.dt)) A (s.dt : ℂ) fun i => fft dims (st.fields i) := by
  let Y : Fin nf → Data dims.prod := fun i => fft dims (st.fields i)
  have hY : (fftFields (m.sync st)).fields = Y := by
    unfold fftFields; simp only [sync_fields]; rfl
  have hk1 : (fun i => m.getRHS i (fftDerived (fftFields (m.sync st))) s.freq s.getTime) =
      slope m s.freq s.getTime Y := by
    apply spectral_slope h hd
    funext j
    exact (ifft_div h (st.fields j)).symm
  funext i
  unfold rk4Step rk4StepStore
  dsimp only
  rw [fft_ifftFields h]
  set final4 := rk4Accumulate s _ _ _ with hfinal
  generalize hst5 : ({ fields := (fftFields (m.sync st)).fields, derived := _ } : Store nf nd dims.prod) = st5
  let g : Store nf nd dims.prod → Fin nf → Data dims.prod := fun stc i =>
    optFilter s.filter s.freq fun j => final4 i j / (1 - (s.dt : ℂ) * m.getDenum i stc s.freq s.getTime j)
  obtain ⟨l1, l2, hl, hlt⟩ := finRange_split i
  have h3 := (foldl_update_fields g (List.finRange nf) (List.nodup_finRange nf) st5).2.2 l1 i l2 hl
  refine h3.trans ?_
  have et : s.getTime = (s.currentStep : ℝ) * s.dt := rfl
  simp only [g, hs, optFilter, et, hA]
  rw [hfinal]
  simp only [correction_implicit h hd s hA, hk1]
  rw [hY]
  unfold rungeKutta4Implicit rk4Accumulate
  have e1 : ((0.5 * s.dt : ℝ) : ℂ) = (s.dt : ℂ) / 2 := by push_cast; ring
  have e2 : ((1 * s.dt : ℝ) : ℂ) = (s.dt : ℂ) := by push_cast; ring
  rw [e1, e2, et]
  funext j
  simp only [Pi.add_apply, Pi.smul_apply, Pi.div_apply, Pi.sub_apply, Pi.one_apply, smul_eq_mul]
  congr 1
  push_cast
  show _ = Y i j + _
  ring

/-- C27: for a linear right-hand side that is diagonal in Fourier space every bin is multiplied by
the Taylor polynomial of degree four of the exponential. -/
theorem c27_linear (h : ∀ d ∈ dims, 0 < d) (m : Model nf nd dims.prod) (hd : FieldsOnly m)
    (hden : ∀ i, m.denum i = []) (s : Stepper dims.prod) (hs : s.filter = none)
    (lam : Fin nf → Data dims.prod)
    (hlin : ∀ i (st : Store nf nd dims.prod) k,
      m.getRHS i st s.freq (s.currentStep * s.dt) k = lam i k * st.fields i k)
    (st : Store nf nd dims.prod) (i : Fin nf) (k : Fin dims.prod) :
    let z : ℂ := s.dt * lam i k
    fft dims ((rk4Step m (s, st)).2.fields i) k =
      (1 + z + z ^ 2 / 2 + z ^ 3 / 6 + z ^ 4 / 24) * fft dims (st.fields i) k := by
  intro z
  have e := congrFun (congrFun (c27_rk4 h m hd hden s hs st) i) k
  have hsl : ∀ Y : Fin nf → Data dims.prod, slope m s.freq (s.currentStep * s.dt) Y =
      fun i k => lam i k * Y i k := by
    intro Y; funext i k; exact hlin i _ k
  rw [e]
  unfold rungeKutta4
  simp only [hsl, Pi.add_apply, Pi.smul_apply, smul_eq_mul, z]
  ring

/-- C27: a right-hand side that does not depend on the fields is integrated with its value at the
beginning of the step, as the explicit Euler method would do. -/
theorem c27_time_frozen (h : ∀ d ∈ dims, 0 < d) (m : Model nf nd dims.prod) (hd : FieldsOnly m)
    (hden : ∀ i, m.denum i = []) (s : Stepper dims.prod) (hs : s.filter = none)
    (force : ℝ → Fin nf → Data dims.prod)
    (hforce : ∀ i (st : Store nf nd dims.prod) t, m.getRHS i st s.freq t = force t i)
    (st : Store nf nd dims.prod) (i : Fin nf) (k : Fin dims.prod) :
    fft dims ((rk4Step m (s, st)).2.fields i) k =
      fft dims (st.fields i) k + s.dt * force (s.currentStep * s.dt) i k := by
  have e := congrFun (congrFun (c27_rk4 h m hd hden s hs st) i) k
  have hsl : ∀ Y : Fin nf → Data dims.prod, slope m s.freq (s.currentStep * s.dt) Y =
      force (s.currentStep * s.dt) := by
    intro Y; funext i; exact hforce i _ _
  rw [e]
  unfold rungeKutta4
  simp only [hsl, Pi.add_apply, Pi.smul_apply, smul_eq_mul]
  ring

/-- `dc/dt = LAP c`, treated explicitly. -/
noncomputable def explicitHeat (n : ℕ) : Model 1 0 n :=
  { calcs := fun d => d.elim0
    terms := fun _ => [fun st => constructFunc (fun _ _ => st.fields 0) ["LAP".toList]]
    denum := fun _ => []
    sources := fun _ => []
    modifiers := [] }

example (freq : Frequency dims.prod) (i : Fin 1) (st : Store 1 0 dims.prod) (t : ℝ) (k : Fin dims.prod) :
    FieldsOnly (explicitHeat dims.prod) ∧ (explicitHeat dims.prod).denum i = [] ∧
    (explicitHeat dims.prod).getRHS i st freq t k = laplaceSymbol (freq k) * st.fields i k := by
  refine ⟨fun d => d.elim0, rfl, ?_⟩
  obtain rfl : i = 0 := Subsingleton.elim _ _
  rw [c21_rhs]
  simp [explicitHeat, c15_meaning, prefixSymbol]

/-- `dc/dt = t` (a source at the origin). -/
noncomputable def rampModel (n : ℕ) : Model 1 0 n :=
  { calcs := fun d => d.elim0
    terms := fun _ => []
    denum := fun _ => []
    sources := fun _ => [⟨[0, 0], fun t => t⟩]
    modifiers := [] }

example (freq : Frequency dims.prod) (i : Fin 1) (st : Store 1 0 dims.prod) (t : ℝ) :
    (rampModel dims.prod).getRHS i st freq t = Source.eval ⟨[0, 0], fun t => t⟩ freq t := by
  rw [c21_rhs]
  simp [rampModel]

end Gopf.Props
