import Verif.Props.RingOscillator
import Verif.Proofs.NearIdentity

/-!
# C165: for short time steps the growth rates decide with the RK4 stepper too
-/

namespace Gopf.Props
open Spec Pf Pfutil

variable {n nf nd : ℕ} {dims : List ℕ}

/-! ### Maps of fields that act wave by wave to first order -/

/-- Close to `z` the map `F` acts to first order on the amplitudes of the wave `k` by the matrix `τ k`. -/
def ActsAs (F : (Fin nf → Data dims.prod) → Fin nf → Data dims.prod) (τ : Fin dims.prod → Matrix (Fin nf) (Fin nf) ℂ)
    (z : Fin nf → Data dims.prod) : Prop :=
  ∃ L : (Fin nf → Data dims.prod) →L[ℂ] (Fin nf → Data dims.prod), HasFDerivAt F L z ∧
    ∀ v k, (fun i => fft dims (L v i) k) = (τ k).mulVec fun j => fft dims (v j) k

section
variable {F G : (Fin nf → Data dims.prod) → Fin nf → Data dims.prod} {τ σ : Fin dims.prod → Matrix (Fin nf) (Fin nf) ℂ}
  {z : Fin nf → Data dims.prod}

theorem ActsAs.id : ActsAs (fun y => y) (fun _ => 1) z :=
  ⟨ContinuousLinearMap.id ℂ _, hasFDerivAt_id z, fun v k => by rw [Matrix.one_mulVec]; rfl⟩

theorem ActsAs.add (hF : ActsAs F τ z) (hG : ActsAs G σ z) : ActsAs (fun y => F y + G y) (fun k => τ k + σ k) z := by
  obtain ⟨L, h1, h2⟩ := hF
  obtain ⟨K, h3, h4⟩ := hG
  refine ⟨L + K, h1.add h3, fun v k => ?_⟩
  rw [Matrix.add_mulVec, ← h2, ← h4]
  funext i
  exact fft_add (L v i) (K v i) k

theorem ActsAs.smul (r : ℂ) (hF : ActsAs F τ z) : ActsAs (fun y => r • F y) (fun k => r • τ k) z := by
  obtain ⟨L, h1, h2⟩ := hF
  refine ⟨r • L, h1.const_smul r, fun v k => ?_⟩
  rw [Matrix.smul_mulVec, ← h2]
  funext i
  exact fft_smul r (L v i) k

theorem ActsAs.comp (hG : ActsAs G σ z) (hF : ActsAs F τ z) (hz : F z = z) : ActsAs (fun y => G (F y)) (fun k => σ k * τ k) z := by
  obtain ⟨L, h1, h2⟩ := hF
  obtain ⟨K, h3, h4⟩ := hG
  refine ⟨K.comp L, HasFDerivAt.comp z (by rw [hz]; exact h3) h1, fun v k => ?_⟩
  rw [← Matrix.mulVec_mulVec, ← h2, ← h4]
  rfl

/-- Multiplication of the waves of each field. -/
noncomputable def multipliers (φ : Fin nf → Data dims.prod) : (Fin nf → Data dims.prod) →L[ℂ] (Fin nf → Data dims.prod) :=
  LinearMap.toContinuousLinearMap (LinearMap.pi fun i => (multiplier dims (φ i)).comp (LinearMap.proj i))

theorem multipliers_apply (φ : Fin nf → Data dims.prod) (y : Fin nf → Data dims.prod) (i : Fin nf) :
    multipliers φ y i = multiplier dims (φ i) (y i) := rfl

theorem ActsAs.multiply (h : ∀ d ∈ dims, 0 < d) (φ : Fin nf → Data dims.prod) (hF : ActsAs F τ z) :
    ActsAs (fun y => multipliers φ (F y)) (fun k => Matrix.diagonal (fun i => φ i k) * τ k) z := by
  obtain ⟨L, h1, h2⟩ := hF
  refine ⟨(multipliers φ).comp L, (multipliers φ).hasFDerivAt.comp z h1, fun v k => ?_⟩
  rw [← Matrix.mulVec_mulVec, ← h2]
  funext i
  rw [Matrix.mulVec_diagonal]
  exact fft_multiplier h (φ i) (L v i) k

theorem ActsAs.eigen (h : ∀ d ∈ dims, 0 < d) (hF : ActsAs F τ z) {μ : ℂ} {w : Fin nf → Data dims.prod} (hw : w ≠ 0)
    (hμ : fderiv ℂ F z w = μ • w) : ∃ k, ∃ a : Fin nf → ℂ, a ≠ 0 ∧ (τ k).mulVec a = μ • a := by
  obtain ⟨L, h1, h2⟩ := hF
  rw [h1.fderiv] at hμ
  obtain ⟨j, hj⟩ := Function.ne_iff.mp hw
  have hne : fft dims (w j) ≠ 0 := by
    intro h0
    refine hj (fft_injective h ?_)
    rw [h0]
    funext k
    exact (fft_null k).symm
  obtain ⟨k, hk⟩ := Function.ne_iff.mp hne
  refine ⟨k, fun j => fft dims (w j) k, fun h0 => hk (congrFun h0 j), ?_⟩
  rw [← h2, hμ]
  funext i
  exact fft_smul μ (w i) k

theorem ActsAs.wave (h : ∀ d ∈ dims, 0 < d) (hF : ActsAs F τ z) {μ : ℂ} {k : Fin dims.prod} {a : Fin nf → ℂ} (ha : a ≠ 0)
    (hμ : (τ k).mulVec a = μ • a) : ∃ w : Fin nf → Data dims.prod, w ≠ 0 ∧ fderiv ℂ F z w = μ • w := by
  obtain ⟨L, h1, h2⟩ := hF
  rw [h1.fderiv]
  have hex : ∀ j, ∃ v : Data dims.prod, fft dims v = Pi.single k (a j) := fun j => ⟨_, fft_surjective h (Pi.single k (a j))⟩
  choose w hw using hex
  refine ⟨w, ?_, ?_⟩
  · intro h0
    refine ha (funext fun j => ?_)
    have h1 := congrFun (hw j) k
    rw [h0, Pi.single_eq_same] at h1
    rw [← h1]
    exact fft_null k
  · funext i
    apply fft_injective h
    funext k'
    have e1 := congrFun (h2 w k') i
    have e2 : fft dims ((μ • w) i) k' = μ * fft dims (w i) k' := fft_smul μ (w i) k'
    rw [e2]
    refine e1.trans ?_
    by_cases hk : k' = k
    · subst hk
      have e3 : (fun j => fft dims (w j) k') = a := funext fun j => by rw [hw j, Pi.single_eq_same]
      rw [e3, hμ, hw i, Pi.single_eq_same]
      rfl
    · have e3 : (fun j => fft dims (w j) k') = 0 := funext fun j => by rw [hw j, Pi.single_eq_of_ne hk]; rfl
      rw [e3, Matrix.mulVec_zero, hw i, Pi.single_eq_of_ne hk, mul_zero]
      rfl

end

/-! ### The Runge-Kutta step of several fields -/

/-- A stage. -/
noncomputable def systemStage (a : Fin nf → Data dims.prod) (r : ℂ) (K : (Fin nf → Data dims.prod) → Fin nf → Data dims.prod) :
    (Fin nf → Data dims.prod) → Fin nf → Data dims.prod := fun y => multipliers (fun i k => 1 / (1 - r * a i k)) (y + r • K y)

/-- The step for explicit rates `E` and implicit rates `a`. -/
noncomputable def systemStep (E : (Fin nf → Data dims.prod) → Fin nf → Data dims.prod) (a : Fin nf → Data dims.prod) (dt : ℂ) :
    (Fin nf → Data dims.prod) → Fin nf → Data dims.prod :=
  let k2 := fun y => E (systemStage a (dt / 2) E y)
  let k3 := fun y => E (systemStage a (dt / 2) k2 y)
  let k4 := fun y => E (systemStage a dt k3 y)
  fun y => multipliers (fun i k => 1 / (1 - dt * a i k)) (y + (dt / 6) • (E y + (2 : ℂ) • k2 y + (2 : ℂ) • k3 y + k4 y))

section
variable {E : (Fin nf → Data dims.prod) → Fin nf → Data dims.prod} {a : Fin nf → Data dims.prod} {z : Fin nf → Data dims.prod}

theorem contDiff_stage {r : ℂ} {K : (Fin nf → Data dims.prod) → Fin nf → Data dims.prod} (hK : ContDiff ℂ 2 K) :
    ContDiff ℂ 2 (systemStage a r K) :=
  (multipliers _).contDiff.comp (contDiff_id.add (hK.const_smul r))

theorem contDiff_systemStep (hE : ContDiff ℂ 2 E) (dt : ℂ) : ContDiff ℂ 2 (systemStep E a dt) := by
  have h2 := hE.comp (contDiff_stage (a := a) (r := dt / 2) hE)
  have h3 := hE.comp (contDiff_stage (a := a) (r := dt / 2) h2)
  have h4 := hE.comp (contDiff_stage (a := a) (r := dt) h3)
  exact (multipliers _).contDiff.comp (contDiff_id.add
    ((((hE.add (h2.const_smul 2)).add (h3.const_smul 2)).add h4).const_smul (dt / 6)))

/-- The rates balance. -/
def Balanced (E : (Fin nf → Data dims.prod) → Fin nf → Data dims.prod) (a z : Fin nf → Data dims.prod) : Prop :=
  ∀ i k, fft dims (E z i) k = - (a i k * fft dims (z i) k)

theorem stage_balanced (h : ∀ d ∈ dims, 0 < d) (hz : Balanced E a z) {r : ℂ} (hr : ∀ i k, 1 - r * a i k ≠ 0) {v : Fin nf → Data dims.prod}
    (hv : v = E z) : multipliers (fun i k => 1 / (1 - r * a i k)) (z + r • v) = z := by
  subst hv
  funext i
  apply fft_injective h
  funext k
  have e1 : fft dims ((z + r • E z) i) k = fft dims (z i) k + r * fft dims (E z i) k := by
    have := fft_add (z i) (fun x => r * E z i x) k
    rw [fft_smul] at this
    exact this
  rw [multipliers_apply, fft_multiplier h, e1, hz i k]
  have := hr i k
  field_simp
  ring

theorem systemStep_rests (h : ∀ d ∈ dims, 0 < d) (hz : Balanced E a z) {dt : ℂ} (h1 : ∀ i k, 1 - dt * a i k ≠ 0)
    (h2 : ∀ i k, 1 - dt / 2 * a i k ≠ 0) : systemStep E a dt z = z := by
  have s1 : ∀ K : (Fin nf → Data dims.prod) → Fin nf → Data dims.prod, K z = E z → systemStage a (dt / 2) K z = z :=
    fun K hK => stage_balanced h hz h2 hK
  have s2 : ∀ K : (Fin nf → Data dims.prod) → Fin nf → Data dims.prod, K z = E z → systemStage a dt K z = z :=
    fun K hK => stage_balanced h hz h1 hK
  unfold systemStep
  dsimp only
  have e2 := s1 E rfl
  have e3 := s1 (fun y => E (systemStage a (dt / 2) E y)) (by rw [e2])
  have e4 := s2 (fun y => E (systemStage a (dt / 2) (fun y => E (systemStage a (dt / 2) E y)) y)) (by rw [e3])
  rw [e2, e3, e4]
  have e5 : (dt / 6) • (E z + (2 : ℂ) • E z + (2 : ℂ) • E z + E z) = dt • E z := by
    funext i x
    simp only [Pi.smul_apply, Pi.add_apply, smul_eq_mul]
    ring
  rw [e5]
  exact stage_balanced h hz h1 rfl

theorem systemStep_acts (h : ∀ d ∈ dims, 0 < d) (hz : Balanced E a z) {b : Fin dims.prod → Matrix (Fin nf) (Fin nf) ℂ}
    (hE : ActsAs E b z) {dt : ℂ} (h1 : ∀ i k, 1 - dt * a i k ≠ 0) (h2 : ∀ i k, 1 - dt / 2 * a i k ≠ 0) :
    ActsAs (systemStep E a dt) (fun k => Proofs.rungeKuttaMatrix (fun i => a i k) (b k) dt) z := by
  have s1 : ∀ K : (Fin nf → Data dims.prod) → Fin nf → Data dims.prod, K z = E z → systemStage a (dt / 2) K z = z :=
    fun K hK => stage_balanced h hz h2 hK
  have s2 : ∀ K : (Fin nf → Data dims.prod) → Fin nf → Data dims.prod, K z = E z → systemStage a dt K z = z :=
    fun K hK => stage_balanced h hz h1 hK
  have e2 := s1 E rfl
  have e3 := s1 (fun y => E (systemStage a (dt / 2) E y)) (by rw [e2])
  have e4 := s2 (fun y => E (systemStage a (dt / 2) (fun y => E (systemStage a (dt / 2) E y)) y)) (by rw [e3])
  have k2 := hE.comp (ActsAs.multiply h (fun i k => 1 / (1 - dt / 2 * a i k)) (ActsAs.id.add (hE.smul (dt / 2)))) e2
  have k3 := hE.comp (ActsAs.multiply h (fun i k => 1 / (1 - dt / 2 * a i k)) (ActsAs.id.add (k2.smul (dt / 2)))) e3
  have k4 := hE.comp (ActsAs.multiply h (fun i k => 1 / (1 - dt * a i k)) (ActsAs.id.add (k3.smul dt))) e4
  exact ActsAs.multiply h (fun i k => 1 / (1 - dt * a i k)) (ActsAs.id.add
    ((((hE.add (k2.smul 2)).add (k3.smul 2)).add k4).smul (dt / 6)))

/-- The documented method in terms of the fields. -/
theorem systemStep_spectra (h : ∀ d ∈ dims, 0 < d) {S : (Fin nf → Data dims.prod) → Fin nf → Data dims.prod}
    (hS : ∀ y, S (fun i => fft dims (y i)) = fun i => fft dims (E y i)) (dt : ℂ) (y : Fin nf → Data dims.prod) :
    rungeKutta4Implicit S a dt (fun i => fft dims (y i)) = fun i => fft dims (systemStep E a dt y i) := by
  have hst : ∀ (q r : ℂ) (y w : Fin nf → Data dims.prod),
      (((fun i => fft dims (y i)) + q • fun i => fft dims (w i)) / (1 - r • a) : Fin nf → Data dims.prod) =
        fun i => fft dims (multipliers (fun i k => 1 / (1 - r * a i k)) (y + q • w) i) := by
    intro q r y w
    funext i k
    have e1 : fft dims ((y + q • w) i) k = fft dims (y i) k + q * fft dims (w i) k := by
      have := fft_add (y i) (fun x => q * w i x) k
      rw [fft_smul] at this
      exact this
    rw [multipliers_apply, fft_multiplier h, e1, one_div_mul_eq_div]
    rfl
  have hadd : ∀ v w : Fin nf → Data dims.prod, ((fun i => fft dims (v i)) + fun i => fft dims (w i) : Fin nf → Data dims.prod) =
      fun i => fft dims ((v + w) i) := fun v w => funext fun i => funext fun k => (fft_add (v i) (w i) k).symm
  have hsm : ∀ (r : ℂ) (v : Fin nf → Data dims.prod), (r • (fun i => fft dims (v i)) : Fin nf → Data dims.prod) =
      fun i => fft dims ((r • v) i) := fun r v => funext fun i => funext fun k => (fft_smul r (v i) k).symm
  unfold rungeKutta4Implicit
  dsimp only
  rw [hS, hst, hS, hst, hS, hst, hS, hsm 2, hsm 2, hadd, hadd, hadd, hst]
  rfl

end

/-! ### The step that the text spells -/

/-- The terms of the right-hand sides. -/
noncomputable def rateTerms (fields : List Str) (N : Names) (c : Str → ℂ) (freq : Frequency dims.prod)
    (E : Fin fields.length → Equation) : StepTerms dims fields.length := fun i =>
  (E i).terms.map fun p : List Item × Option Char =>
    (fun k => coefficient N c p * laplaceSymbol (freq k) ^ (laplacians p.1).sum,
      factorsAt fields i (factorsIn N.varying p.1), false)

/-- The fields plus the right-hand sides. -/
noncomputable def plusRates (T : StepTerms dims nf) (y : Fin nf → Data dims.prod) : Fin nf → Data dims.prod := fun i =>
  y i + ((T i).map fun t => multiplier dims t.1 (fieldMono t.2.1 (bif t.2.2 then earlier i y y else y))).sum

/-- The explicit part of the right-hand sides. -/
noncomputable def explicitPart (T : StepTerms dims nf) (a : Fin nf → Data dims.prod) (y : Fin nf → Data dims.prod) :
    Fin nf → Data dims.prod := plusRates T y + (-1 : ℂ) • (y + multipliers a y)

section
variable {N : Names} {eqs : List Equation} {fields : List Str} {E : Fin fields.length → Equation}
  (hE : Ordered N eqs fields E)
include hE

omit hE in
theorem plusRates_follows (c : Str → ℂ) (freq : Frequency dims.prod) (y : Fin fields.length → Data dims.prod) :
    Follows (rateTerms fields N c freq E) y (plusRates (rateTerms fields N c freq E) y) := by
  intro i
  unfold plusRates
  congr 2
  apply List.map_congr_left
  intro t ht
  obtain ⟨p, -, rfl⟩ := List.mem_map.mp ht
  rfl

omit hE in
theorem plusRates_spectrum (h : ∀ d ∈ dims, 0 < d) (c : Str → ℂ) (freq : Frequency dims.prod)
    (y : Fin fields.length → Data dims.prod) (i : Fin fields.length) (k : Fin dims.prod) :
    fft dims (plusRates (rateTerms fields N c freq E) y i) k = fft dims (y i) k + ((E i).terms.map fun p : List Item × Option Char =>
      coefficient N c p * laplaceSymbol (freq k) ^ (laplacians p.1).sum *
        fft dims (fieldMono (factorsAt fields i (factorsIn N.varying p.1)) y) k).sum := by
  unfold plusRates
  have e1 : ∀ v w : Data dims.prod, fft dims (v + w) k = fft dims v k + fft dims w k := fun v w => fft_add v w k
  rw [e1, fft_list_sum, List.map_map]
  unfold rateTerms
  rw [List.map_map]
  congr 2
  apply List.map_congr_left
  intro p _
  simp only [Function.comp_apply, cond_false]
  rw [fft_multiplier h]

omit hE in
theorem explicitPart_spectrum (h : ∀ d ∈ dims, 0 < d) (c : Str → ℂ) (freq : Frequency dims.prod) (a : Fin fields.length → Data dims.prod)
    (y : Fin fields.length → Data dims.prod) (i : Fin fields.length) (k : Fin dims.prod) :
    fft dims (explicitPart (rateTerms fields N c freq E) a y i) k = ((E i).terms.map fun p : List Item × Option Char =>
      coefficient N c p * laplaceSymbol (freq k) ^ (laplacians p.1).sum *
        fft dims (fieldMono (factorsAt fields i (factorsIn N.varying p.1)) y) k).sum - a i k * fft dims (y i) k := by
  have e1 : ∀ v w : Data dims.prod, fft dims (v + w) k = fft dims v k + fft dims w k := fun v w => fft_add v w k
  have e0 : ∀ (r : ℂ) (w : Data dims.prod), fft dims (r • w) k = r * fft dims w k := fun r w => fft_smul r w k
  unfold explicitPart
  rw [Pi.add_apply, Pi.smul_apply, e1, e0, Pi.add_apply, e1, multipliers_apply, fft_multiplier h, plusRates_spectrum h]
  ring

/-- At a uniform state that rests the right-hand sides vanish. -/
theorem plusRates_rests (h : GoodDims (intDims dims)) (c : Str → ℂ) {z : Str → ℂ}
    (hz : ∀ eq ∈ eqs, uniformSystemRate N c eq z = 0) :
    plusRates (rateTerms fields N c (freqOf dims) E) (fun j _ => z fields[j]) = fun j _ => z fields[j] := by
  have hp := pos_of_goodDims h
  funext i
  apply fft_injective hp
  funext k
  rw [plusRates_spectrum hp]
  have ht : ∀ p ∈ (E i).terms, coefficient N c p * laplaceSymbol (freqOf dims k) ^ (laplacians p.1).sum *
      fft dims (fieldMono (factorsAt fields i (factorsIn N.varying p.1)) fun j _ => z fields[j]) k =
      (if k.val = 0 then (dims.prod : ℂ) else 0) *
      if (laplacians p.1).sum = 0 then
        coefficient N c p * ((factorsIn N.varying p.1).map fun f => z f.name ^ ((f.power : ℚ) : ℂ)).prod else 0 := by
    intro p hp'
    have e2 : fieldMono (factorsAt fields i (factorsIn N.varying p.1)) (fun j _ => z fields[j]) = fun _ : Fin dims.prod =>
        ((factorsIn N.varying p.1).map fun f => z f.name ^ ((f.power : ℚ) : ℂ)).prod := by
      funext x
      exact (factors_value i (hE.factor p.1) (hE.whole i p hp') z (fun j => z fields[j]) fun j => rfl).symm
    rw [e2, fft_const hp]
    by_cases hk : k.val = 0
    · rw [if_pos hk, if_pos hk, symbol_origin h k hk, zero_pow_eq]
      split_ifs
      · ring
      · ring
    · rw [if_neg hk, if_neg hk, mul_zero, zero_mul]
  rw [List.map_congr_left ht, List.sum_map_mul_left]
  have := hz (E i) (hE.mem i)
  unfold uniformSystemRate at this
  rw [this, mul_zero, add_zero]

theorem plusRates_acts (h : GoodDims (intDims dims)) (c : Str → ℂ) {z : Str → ℂ}
    (hz : ∀ eq ∈ eqs, uniformSystemRate N c eq z = 0) :
    ActsAs (plusRates (rateTerms fields N c (freqOf dims) E)) (fun k => 1 + waveMatrix N c (freqOf dims) fields E z k)
      (fun j _ => z fields[j]) := by
  have hp := pos_of_goodDims h
  have hF := plusRates_follows (E := E) (N := N) c (freqOf dims)
  refine ⟨_, ((contDiff_step hF).differentiable (by norm_num) _).hasFDerivAt, fun v k => ?_⟩
  have hw := fderiv_waves hp hF (plusRates_rests hE h c hz) v k
  generalize (fun i => fft dims (fderiv ℂ (plusRates (rateTerms fields N c (freqOf dims) E)) (fun j _ => z fields[j]) v i) k) = b at hw
  generalize (fun j => fft dims (v j) k) = a at hw
  rw [Matrix.add_mulVec, Matrix.one_mulVec]
  funext i
  rw [hw i, Pi.add_apply]
  congr 1
  obtain ⟨w, hwa⟩ := exists_values hE a
  have e1 : (waveMatrix N c (freqOf dims) fields E z k).mulVec a i = linearSeen N c (freqOf dims) (E i) z k w w := by
    have e0 : (waveMatrix N c (freqOf dims) fields E z k).mulVec a i =
        ∑ j : Fin fields.length, waveRate N c (freqOf dims) (E i) z k fields[j] * a j := rfl
    rw [linearSeen_sum hE, e0]
    refine Finset.sum_congr rfl fun j _ => ?_
    rw [hwa]
    ring
  rw [e1]
  unfold linearSeen rateTerms
  rw [List.map_map]
  congr 1
  apply List.map_congr_left
  intro p hp'
  simp only [Function.comp_apply, cond_false, ite_self]
  rw [factors_slope i (hE.factor p.1) (hE.whole i p hp') z w (fun j => z fields[j]) a (fun _ => rfl) hwa]

theorem explicitPart_acts (h : GoodDims (intDims dims)) (c : Str → ℂ) {z : Str → ℂ}
    (hz : ∀ eq ∈ eqs, uniformSystemRate N c eq z = 0) (a : Fin fields.length → Data dims.prod) :
    ActsAs (explicitPart (rateTerms fields N c (freqOf dims) E) a)
      (fun k => waveMatrix N c (freqOf dims) fields E z k - Matrix.diagonal fun i => a i k) (fun j _ => z fields[j]) := by
  have h1 := (plusRates_acts hE h c hz).add
    ((ActsAs.id.add (ActsAs.multiply (pos_of_goodDims h) a ActsAs.id)).smul (-1))
  have e : (fun k => (1 + waveMatrix N c (freqOf dims) fields E z k) + (-1 : ℂ) •
      ((1 : Matrix (Fin fields.length) (Fin fields.length) ℂ) + Matrix.diagonal (fun i => a i k) * 1)) =
      fun k => waveMatrix N c (freqOf dims) fields E z k - Matrix.diagonal fun i => a i k := by
    funext k
    rw [mul_one, neg_one_smul]
    abel
  rw [e] at h1
  exact h1

theorem explicitPart_balanced (h : GoodDims (intDims dims)) (c : Str → ℂ) {z : Str → ℂ}
    (hz : ∀ eq ∈ eqs, uniformSystemRate N c eq z = 0) (a : Fin fields.length → Data dims.prod) :
    Balanced (explicitPart (rateTerms fields N c (freqOf dims) E) a) a (fun j _ => z fields[j]) := by
  intro i k
  have h1 := plusRates_spectrum (pos_of_goodDims h) c (freqOf dims) (E := E) (N := N) (fun j _ => z fields[j]) i k
  rw [plusRates_rests hE h c hz] at h1
  rw [explicitPart_spectrum (pos_of_goodDims h)]
  linear_combination -h1

omit hE in
theorem contDiff_explicitPart (c : Str → ℂ) (freq : Frequency dims.prod) (a : Fin fields.length → Data dims.prod) :
    ContDiff ℂ 2 (explicitPart (rateTerms fields N c freq E) a) :=
  (contDiff_step (plusRates_follows c freq)).add ((contDiff_id.add (multipliers a).contDiff).const_smul (-1 : ℂ))

end

theorem text_slopes (h : ∀ d ∈ dims, 0 < d) (N : Names) (hN : N.WellNamed) (hfn : N.functions = [])
    (m0 : EqModel dims.prod) (h0 : StartsAs N m0) (heq : m0.equations = [])
    (eqs : List Equation) (hq : ∀ eq ∈ eqs, eq.Polynomial N ∧ Unregistered m0 eq)
    (hnat : ∀ eq ∈ eqs, ∀ p ∈ eq.terms, ∀ g ∈ factorsIn N.varying p.1, ∃ q : ℕ, g.power = q)
    (ss : List Str) (hs : ss.map (fun s => s.filter fun c => c ≠ ' ') = eqs.map Equation.text)
    (hord : eqs.map Equation.field = N.fields) (c : Str → ℂ) :
    ∃ m M, ss.foldlM EqModel.addEquation m0 = some m ∧ m.fields = N.fields ∧ m.assemble c = some M ∧ FieldsOnly M ∧
      ∃ E : Fin m.fields.length → Equation, Ordered N eqs m.fields E ∧
      (∀ i st freq t, M.getDenum i st freq t = implicitRate N c freq (E i)) ∧
      ∀ freq t (y : Fin m.fields.length → Data dims.prod), slope M freq t (fun i => fft dims (y i)) = fun i => fft dims
        (explicitPart (rateTerms m.fields N c freq E) (fun i => implicitRate N c freq (E i)) y i) := by
  have hder : m0.derived = [] := by
    have := h0.functions
    rw [hfn] at this
    exact List.map_eq_nil_iff.mp this
  have hfun : ∀ p ∈ m0.derived, ReadsFields N p.2 := by rw [hder]; simp
  obtain ⟨m, hadd, hg, -, ⟨l, hl, -⟩, -⟩ := add_all hN eqs ss m0 (grown_start hN h0) hq hs
  obtain ⟨m', Rs, hadd', hinit, hall⟩ := initRHS_shape N hN m0 h0 heq eqs hq ss hs
  obtain ⟨m'', Rs', hadd'', hinit', hall'⟩ := c19_equation N hN m0 h0 heq eqs hq ss hs
  rw [hadd] at hadd' hadd''
  obtain rfl := Option.some.inj hadd'
  obtain rfl := Option.some.inj hadd''
  rw [hinit] at hinit'
  obtain rfl := Option.some.inj hinit'
  have hlenE : eqs.length = m.fields.length := by rw [hg.fields, ← hord, List.length_map]
  have hRlen : m.fields.length ≤ Rs.length := by rw [← hall.length_eq, hlenE]
  refine ⟨m, _, hadd, hg.fields, by rw [EqModel.assemble, hinit]; simp only [dif_pos hRlen]; rfl, ?_⟩
  set M : Model m.fields.length m.derived.length dims.prod :=
    { calcs := fun d st => (m.derived[d]).2.eval (m.brick c st)
      terms := fun i => (Rs[i]'(i.2.trans_le hRlen)).terms.map fun f st => f (m.brick c st)
      denum := fun i => (Rs[i]'(i.2.trans_le hRlen)).denum.map fun f st => f (m.brick c st)
      sources := fun _ => []
      modifiers := [] } with hM
  have hR : ∀ i st freq t k, M.getRHS i st freq t k =
      ((Rs[i.val]'(i.2.trans_le hRlen)).terms.map fun f => f (m.brick c st) freq t k).sum := by
    intro i st freq t k
    rw [c21_rhs]
    simp [hM, Function.comp_def]
  have hD : ∀ i st freq t k, M.getDenum i st freq t k =
      ((Rs[i.val]'(i.2.trans_le hRlen)).denum.map fun f => f (m.brick c st) freq t k).sum := by
    intro i st freq t k
    rw [c21_denum]
    simp [hM, Function.comp_def]
  have hlt : ∀ i : Fin m.fields.length, i.val < eqs.length := fun i => by rw [hlenE]; exact i.2
  have hallN := hN.nodup
  simp only [Names.all, Names.varying] at hallN
  have hnd : m.fields.Nodup := by
    rw [hg.fields]
    exact (List.nodup_append.mp (List.nodup_append.mp hallN).1).1
  have hdis : ∀ x ∈ N.scalars, x ∉ m.fields := by
    intro x hx hx'
    rw [hg.fields] at hx'
    exact (List.nodup_append.mp hallN).2.2 x (by simp [hx']) x hx rfl
  have hE : Ordered N eqs m.fields fun i => eqs[i.val]'(hlt i) :=
    ⟨hg.fields, hfn, hnd, hlenE, fun i => List.getElem?_eq_getElem _, fun i => by
      simp only [Fin.getElem_fin, hg.fields, ← hord, List.getElem_map], fun i => hnat _ (List.getElem_mem _)⟩
  have hshape := fun i : Fin m.fields.length =>
    (List.forall₂_iff_get.mp hall).2 i.val (hlt i) (i.2.trans_le hRlen)
  have hval := fun i : Fin m.fields.length =>
    (List.forall₂_iff_get.mp hall').2 i.val (hlt i) (i.2.trans_le hRlen)
  simp only [List.get_eq_getElem] at hshape hval
  have hFO : FieldsOnly M := by
    intro d st st' hst
    refine calc_reads hg hfun (List.getElem_mem d.2) _ _ ?_ ?_
    · intro x hx
      rw [← hg.fields] at hx
      obtain ⟨j, hj, rfl⟩ := List.getElem_of_mem hx
      exact (brick_field hN hg ⟨j, hj⟩ c st).trans
        ((congrFun hst ⟨j, hj⟩).trans (brick_field hN hg ⟨j, hj⟩ c st').symm)
    · intro x hx
      rw [brick_scalar hN hg hx, brick_scalar hN hg hx]
  have hA : ∀ i st freq t, M.getDenum i st freq t = implicitRate N c freq (eqs[i.val]'(hlt i)) := by
    intro i st freq t
    funext k
    rw [hD, (hshape i).2]
    exact implicit_eq N c _ (fun x hx => brick_scalar hN hg hx c st) freq _ k
  refine ⟨hFO, _, hE, hA, ?_⟩
  intro freq t y
  funext i k
  rw [explicitPart_spectrum h]
  let u : Str → Data dims.prod := fun x => if x ∈ m.fields then placed m.fields y x else fun _ => c x
  have huf : ∀ j : Fin m.fields.length, u m.fields[j] = y j := by
    intro j
    have hj : m.fields[j] ∈ m.fields := List.getElem_mem _
    simp only [u]
    rw [if_pos hj, placed_get hnd]
  have hus : ∀ x ∈ N.scalars, u x = fun _ => c x := by
    intro x hx
    simp only [u]
    rw [if_neg (hdis x hx)]
  set st : Store m.fields.length m.derived.length dims.prod := ⟨fun j => realSpace (fft dims (y j)), fun _ _ => 0⟩ with hst
  set before : Store m.fields.length m.derived.length dims.prod :=
    ⟨fun i => fft dims (y i), fun d => fft dims (M.calcs d st)⟩ with hbefore
  have hu : ∀ j : Fin m.fields.length, u m.fields[j] = st.fields j := by
    intro j
    exact (huf j).trans (realSpace_fft h (y j)).symm
  obtain ⟨hb1, hb2⟩ := brick_congr hN hg hu hus
  have hcalc : ∀ d : Fin m.derived.length, M.calcs d st = (m.derived[d]).2.eval u := fun d =>
    calc_reads hg hfun (List.getElem_mem d.2) _ _ hb1 hb2
  have htr : Transformed N m (fft dims) u (m.brick c before) := by
    refine ⟨?_, ?_, ?_, ?_⟩
    · intro x hx
      rw [← hg.fields] at hx
      obtain ⟨j, hj, rfl⟩ := List.getElem_of_mem hx
      exact (brick_field hN hg ⟨j, hj⟩ c before).trans (congrArg (fft dims) (huf ⟨j, hj⟩).symm)
    · intro x hx
      rw [brick_scalar hN hg hx, hus x hx]
    · intro p hp
      obtain ⟨d, hd, rfl⟩ := List.getElem_of_mem hp
      exact (brick_derived hN hg ⟨d, hd⟩ c before).trans (congrArg (fft dims) (hcalc ⟨d, hd⟩))
    · intro p hp hpf
      rw [hfn] at hpf
      simp at hpf
  have hsum := hval i (fft dims) (fun x => divRealScalar (ifft dims x) (dims.prod : ℕ))
    ⟨fun a b => by funext k; exact fft_add a b k, fun a b => by funext k; exact fft_smul a b k⟩
    (fun x => fft_divided h x) c u hus _ htr freq t k
  have hfi := hE.field i
  rw [← hR i before freq t k, ← hD i before freq t k, hA, hfi, huf, fft_value h] at hsum
  have hvals : ((eqs[i.val]'(hlt i)).terms.map fun p : List Item × Option Char => coefficient N c p *
        laplaceSymbol (freq k) ^ (laplacians p.1).sum * fft dims (productValue (factorsIn N.varying p.1) u) k).sum =
      ((eqs[i.val]'(hlt i)).terms.map fun p : List Item × Option Char => coefficient N c p *
        laplaceSymbol (freq k) ^ (laplacians p.1).sum *
        fft dims (fieldMono (factorsAt m.fields i (factorsIn N.varying p.1)) y) k).sum := by
    congr 1
    apply List.map_congr_left
    intro p hp
    have e3 : fieldMono (factorsAt m.fields i (factorsIn N.varying p.1)) y = productValue (factorsIn N.varying p.1) u := by
      funext x
      exact (factors_value i (hE.factor p.1) (hE.whole i p hp) (fun f => u f x) (fun j => y j x)
        fun j => by rw [huf]).symm
    rw [e3]
  rw [hvals] at hsum
  have : slope M freq t (fun i => fft dims (y i)) i k = M.getRHS i before freq t k := rfl
  rw [this, ← hsum]
  ring

/-- A step of the RK4 stepper as a map of the fields. -/
theorem rk4_systemStep (h : ∀ d ∈ dims, 0 < d) {m : Model nf nd dims.prod} (hFO : FieldsOnly m) (s : Stepper dims.prod)
    (hfil : s.filter = none) {a : Fin nf → Data dims.prod} (hA : ∀ i st t, m.getDenum i st s.freq t = a i)
    {E : (Fin nf → Data dims.prod) → Fin nf → Data dims.prod}
    (hS : ∀ t y, slope m s.freq t (fun i => fft dims (y i)) = fun i => fft dims (E y i)) (st : Store nf nd dims.prod) (steps : ℕ) :
    (rk4Propagate m steps (s, st)).2.fields = (systemStep E a s.dt)^[steps] st.fields := by
  induction steps with
  | zero => simp [rk4Propagate]
  | succ j ih =>
    rw [rk4_succ, Function.iterate_succ_apply', ← ih]
    have e := rk4_stepper m j s st
    generalize rk4Propagate m j (s, st) = p at e
    obtain ⟨p1, p2⟩ := p
    dsimp only at e ⊢
    have key := c111_scheme h m hFO a p1 (by rw [e]; exact hfil) (fun i st => by rw [e]; exact hA i st _) p2
    have e1 : p1.freq = s.freq := by rw [e]
    have e2 : p1.dt = s.dt := by rw [e]
    rw [e1, e2, systemStep_spectra h (hS _)] at key
    funext i
    exact fft_injective h (congrFun key i)

/-! ### The claims -/

/-- With the RK4 stepper small perturbations of the uniform values `z` die out. -/
def DiesOutRungeKutta (M : Model nf nd dims.prod) (s : Stepper dims.prod) (z : Fin nf → ℂ) : Prop :=
  ∃ δ C q : ℝ, 0 < δ ∧ q < 1 ∧ 0 ≤ q ∧ ∀ st : Store nf nd dims.prod, (∀ i x, ‖st.fields i x - z i‖ < δ) → ∀ steps i x,
    ‖(rk4Propagate M steps (s, st)).2.fields i x - z i‖ ≤ C * q ^ steps

/-- With the RK4 stepper there are real perturbations of the uniform values `z`, as small as one likes, that go a fixed
distance away. -/
def GoesAwayRungeKutta (M : Model nf nd dims.prod) (s : Stepper dims.prod) (z : Fin nf → ℂ) : Prop :=
  ∃ ρ : ℝ, 0 < ρ ∧ ∀ δ : ℝ, 0 < δ → ∃ v : Fin nf → Data dims.prod, (∀ i, IsReal (v i)) ∧ (∀ i x, ‖v i x‖ < δ) ∧
    ∀ st : Store nf nd dims.prod, (∀ i x, st.fields i x = z i + v i x) →
      ∃ steps i x, ρ ≤ ‖(rk4Propagate M steps (s, st)).2.fields i x - z i‖

theorem half_small {P : ℝ → Prop} (hP : ∃ dt0 : ℝ, 0 < dt0 ∧ ∀ dt, 0 < dt → dt < dt0 → P dt) :
    ∃ dt0 : ℝ, 0 < dt0 ∧ ∀ dt, 0 < dt → dt < dt0 → P dt ∧ P (dt / 2) := by
  obtain ⟨d, h0, h1⟩ := hP
  exact ⟨d, h0, fun dt h2 h3 => ⟨h1 dt h2 h3, h1 (dt / 2) (by linarith) (by linarith)⟩⟩

section
variable {N : Names} {eqs : List Equation} {fields : List Str} {E : Fin fields.length → Equation}
  (hE : Ordered N eqs fields E)
include hE

theorem rungeKutta_inside (c : Str → ℂ) (freq : Frequency n) (z : Str → ℂ) (k : Fin n)
    (hl : ∀ l, IsGrowthRate N c freq eqs z k l → l.re < 0) :
    ∃ dt0 : ℝ, 0 < dt0 ∧ ∀ dt : ℝ, 0 < dt → dt < dt0 → ∀ (μ : ℂ) (w : Fin fields.length → ℂ), w ≠ 0 →
      (Proofs.rungeKuttaMatrix (fun i => implicitRate N c freq (E i) k) (waveMatrix N c freq fields E z k -
        Matrix.diagonal fun i => implicitRate N c freq (E i) k) dt).mulVec w = μ • w → ‖μ‖ < 1 := by
  obtain ⟨G, hG, d1, a1, a2⟩ := Proofs.rungeKutta_near (fun i => implicitRate N c freq (E i) k)
    (waveMatrix N c freq fields E z k - Matrix.diagonal fun i => implicitRate N c freq (E i) k)
  rw [sub_add_cancel] at hG
  obtain ⟨d2, b1, b2⟩ := Proofs.near_inside hG (by
    intro l a ha hla
    obtain ⟨w, hw⟩ := exists_values hE a
    obtain rfl : (fun j : Fin fields.length => w fields[j]) = a := funext hw
    exact hl l ⟨w, (nonzero_iff hE w).mpr ha, (growth_eigen hE c freq z w k l).mpr hla⟩)
  refine ⟨min d1 d2, lt_min a1 b1, fun dt hdt hlt μ w hw hμ => ?_⟩
  refine b2 dt hdt (hlt.trans_le (min_le_right _ _)) μ w hw ?_
  rw [← hμ, a2 dt hdt (hlt.trans_le (min_le_left _ _)), Matrix.add_mulVec, Matrix.one_mulVec, Matrix.smul_mulVec]

theorem rungeKutta_outside (c : Str → ℂ) (freq : Frequency n) (z : Str → ℂ) (k : Fin n) {l : ℂ}
    (hl : IsGrowthRate N c freq eqs z k l) (hpos : 0 < l.re) :
    ∃ dt0 : ℝ, 0 < dt0 ∧ ∀ dt : ℝ, 0 < dt → dt < dt0 → ∃ (μ : ℂ) (w : Fin fields.length → ℂ), w ≠ 0 ∧
      (Proofs.rungeKuttaMatrix (fun i => implicitRate N c freq (E i) k) (waveMatrix N c freq fields E z k -
        Matrix.diagonal fun i => implicitRate N c freq (E i) k) dt).mulVec w = μ • w ∧ 1 < ‖μ‖ := by
  obtain ⟨w0, hw0, hlw⟩ := hl
  obtain ⟨G, hG, d1, a1, a2⟩ := Proofs.rungeKutta_near (fun i => implicitRate N c freq (E i) k)
    (waveMatrix N c freq fields E z k - Matrix.diagonal fun i => implicitRate N c freq (E i) k)
  rw [sub_add_cancel] at hG
  obtain ⟨d2, b1, b2⟩ := Proofs.near_outside hG ((nonzero_iff hE w0).mp hw0) ((growth_eigen hE c freq z w0 k l).mp hlw) hpos
  refine ⟨min d1 d2, lt_min a1 b1, fun dt hdt hlt => ?_⟩
  obtain ⟨μ, w, e1, e2, e3⟩ := b2 dt hdt (hlt.trans_le (min_le_right _ _))
  refine ⟨μ, w, e1, ?_, e3⟩
  rw [← e2, a2 dt hdt (hlt.trans_le (min_le_left _ _)), Matrix.add_mulVec, Matrix.one_mulVec, Matrix.smul_mulVec]

end

section
variable (h : GoodDims (intDims dims)) (hl : LayoutOk dims) (N : Names) (hN : N.WellNamed) (hfn : N.functions = [])
    (m0 : EqModel dims.prod) (h0 : StartsAs N m0) (heq : m0.equations = [])
    (eqs : List Equation) (hq : ∀ eq ∈ eqs, eq.Polynomial N ∧ Unregistered m0 eq)
    (hnat : ∀ eq ∈ eqs, ∀ p ∈ eq.terms, ∀ g ∈ factorsIn N.varying p.1, ∃ q : ℕ, g.power = q)
    (ss : List Str) (hs : ss.map (fun s => s.filter fun c => c ≠ ' ') = eqs.map Equation.text)
    (hord : eqs.map Equation.field = N.fields) (c : Str → ℂ) (hc : ∀ x ∈ N.scalars, (c x).im = 0)
    (hpow : ∀ eq ∈ eqs, Equation.RealPowers N c eq)
include h hN hfn h0 heq hq hnat hs hord

/-- C165: if every growth rate of every wave has a negative real part, small perturbations die out with the RK4 stepper too
and all time steps that are short enough. -/
theorem c165_settles : ∃ m M, ss.foldlM EqModel.addEquation m0 = some m ∧ m.fields = N.fields ∧ m.assemble c = some M ∧
      ∀ z : Str → ℂ, (∀ eq ∈ eqs, uniformSystemRate N c eq z = 0) →
      (∀ k l, IsGrowthRate N c (freqOf dims) eqs z k l → l.re < 0) →
      ∃ dt0 : ℝ, 0 < dt0 ∧ ∀ s : Stepper dims.prod, s.filter = none → s.freq = freqOf dims → 0 < s.dt → s.dt < dt0 →
        DiesOutRungeKutta M s fun i => z m.fields[i] := by
  have hp := pos_of_goodDims h
  obtain ⟨m, M, a1, a2, a3, hFO, E, hE, hA, hS⟩ := text_slopes hp N hN hfn m0 h0 heq eqs hq hnat ss hs hord c
  refine ⟨m, M, a1, a2, a3, fun z hz hg => ?_⟩
  obtain ⟨d1, b1, b2⟩ := half_small (divisors_small N c (freqOf dims) eqs)
  obtain ⟨d2, c1, c2⟩ := all_small fun k => rungeKutta_inside hE c (freqOf dims) z k (hg k)
  refine ⟨min d1 d2, lt_min b1 c1, fun s hfil hfreq hdt hlt => ?_⟩
  obtain ⟨n1, n2⟩ := b2 s.dt hdt (hlt.trans_le (min_le_left _ _))
  have n1 : ∀ i k, 1 - (s.dt : ℂ) * implicitRate N c (freqOf dims) (E i) k ≠ 0 := fun i k => n1 _ (hE.mem i) k
  have n2 : ∀ i k, 1 - (s.dt : ℂ) / 2 * implicitRate N c (freqOf dims) (E i) k ≠ 0 := fun i k => by
    have := n2 _ (hE.mem i) k
    push_cast at this
    exact this
  set a : Fin m.fields.length → Data dims.prod := fun i => implicitRate N c (freqOf dims) (E i) with ha
  have hB := explicitPart_balanced hE h c hz a
  have hacts := systemStep_acts hp hB (explicitPart_acts hE h c hz a) n1 n2
  obtain ⟨δ, C, q, r1, r2, r3, r4⟩ := smooth_attracts hp
    (contDiff_systemStep (a := a) (contDiff_explicitPart (E := E) (N := N) c (freqOf dims) a) (s.dt : ℂ))
    (systemStep_rests hp hB n1 n2) (fun w μ hw hμ => by
      obtain ⟨k, b, hb, hk⟩ := hacts.eigen hp hw hμ
      exact c2 s.dt hdt (hlt.trans_le (min_le_right _ _)) k μ b hb hk)
  refine ⟨δ, C, q, r1, r2, r3, fun st hst steps i x => ?_⟩
  rw [rk4_systemStep hp hFO s hfil (a := a) (fun i st t => by rw [hfreq]; exact hA i st _ t)
    (E := explicitPart (rateTerms m.fields N c (freqOf dims) E) a) (fun t y => by rw [hfreq]; exact hS _ t y)]
  exact r4 st.fields hst steps i x

include hl hc hpow in
/-- C165: if some growth rate of some wave has a positive real part, some real perturbations, as small as one likes, leave
with the RK4 stepper too and all time steps that are short enough. -/
theorem c165_leaves : ∃ m M, ss.foldlM EqModel.addEquation m0 = some m ∧ m.fields = N.fields ∧ m.assemble c = some M ∧
      ∀ z : Str → ℂ, (∀ eq ∈ eqs, uniformSystemRate N c eq z = 0) → (∀ f ∈ N.fields, (z f).im = 0) →
      (∃ k l, IsGrowthRate N c (freqOf dims) eqs z k l ∧ 0 < l.re) →
      ∃ dt0 : ℝ, 0 < dt0 ∧ ∀ s : Stepper dims.prod, s.filter = none → s.freq = freqOf dims → 0 < s.dt → s.dt < dt0 →
        GoesAwayRungeKutta M s fun i => z m.fields[i] := by
  have hp := pos_of_goodDims h
  have hder : m0.derived = [] := by
    have := h0.functions
    rw [hfn] at this
    exact List.map_eq_nil_iff.mp this
  obtain ⟨m, M, a1, a2, a3, hFO, E, hE, hA, hS⟩ := text_slopes hp N hN hfn m0 h0 heq eqs hq hnat ss hs hord c
  obtain ⟨m', M', a1', -, a3', hrr, -⟩ := text_realRates h N hN m0 h0 heq (by rw [hder]; simp) eqs hq
    (by rw [← hord, List.length_map]) ss hs c hc hpow
  rw [a1] at a1'
  obtain rfl := Option.some.inj a1'
  rw [a3] at a3'
  obtain rfl := Option.some.inj a3'
  refine ⟨m, M, a1, a2, a3, fun z hz hzr ⟨k, l, hg, hpos⟩ => ?_⟩
  obtain ⟨d1, b1, b2⟩ := half_small (divisors_small N c (freqOf dims) eqs)
  obtain ⟨d2, c1, c2⟩ := rungeKutta_outside hE c (freqOf dims) z k hg hpos
  refine ⟨min d1 d2, lt_min b1 c1, fun s hfil hfreq hdt hlt => ?_⟩
  obtain ⟨n1, n2⟩ := b2 s.dt hdt (hlt.trans_le (min_le_left _ _))
  have n1 : ∀ i k, 1 - (s.dt : ℂ) * implicitRate N c (freqOf dims) (E i) k ≠ 0 := fun i k => n1 _ (hE.mem i) k
  have n2 : ∀ i k, 1 - (s.dt : ℂ) / 2 * implicitRate N c (freqOf dims) (E i) k ≠ 0 := fun i k => by
    have := n2 _ (hE.mem i) k
    push_cast at this
    exact this
  set a : Fin m.fields.length → Data dims.prod := fun i => implicitRate N c (freqOf dims) (E i) with ha
  have hB := explicitPart_balanced hE h c hz a
  have hacts := systemStep_acts hp hB (explicitPart_acts hE h c hz a) n1 n2
  have hprop := rk4_systemStep hp hFO s hfil (a := a) (fun i st t => by rw [hfreq]; exact hA i st _ t)
    (E := explicitPart (rateTerms m.fields N c (freqOf dims) E) a) (fun t y => by rw [hfreq]; exact hS _ t y)
  obtain ⟨μ, b, hb, hμ, hbig⟩ := c2 s.dt hdt (hlt.trans_le (min_le_right _ _))
  obtain ⟨w, hw, hw'⟩ := hacts.wave hp (k := k) hb hμ
  obtain ⟨ρ, hρ, hgo⟩ := smooth_repels
    (contDiff_systemStep (a := a) (contDiff_explicitPart (E := E) (N := N) c (freqOf dims) a) (s.dt : ℂ))
    (systemStep_rests hp hB n1 n2) (fun j => hzr _ (by rw [← a2]; exact List.getElem_mem _))
    (fun y hy i => by
      have e := congrFun (hprop ⟨y, fun _ => 0⟩ 1) i
      rw [Function.iterate_one] at e
      rw [← e, rk4_succ]
      exact c117_rk4 h hl hrr s hfreq ⟨y, fun _ => 0⟩ hy i) ⟨w, μ, hw, hw', hbig⟩
  refine ⟨ρ, hρ, fun δ hδ => ?_⟩
  obtain ⟨v, v1, v2, steps, i, x, hx⟩ := hgo δ hδ
  refine ⟨v, v1, v2, fun st hst => ⟨steps, i, x, ?_⟩⟩
  rw [hprop]
  have e : st.fields = fun j x => z m.fields[j] + v j x := funext fun j => funext fun x => hst j x
  rw [e]
  exact hx

include hl hc hpow in
/-- C165: if uniform perturbations grow, the Laplacians cannot prevent it. -/
theorem c165_reaction : ∃ m M, ss.foldlM EqModel.addEquation m0 = some m ∧ m.fields = N.fields ∧ m.assemble c = some M ∧
      ∀ z : Str → ℂ, (∀ eq ∈ eqs, uniformSystemRate N c eq z = 0) → (∀ f ∈ N.fields, (z f).im = 0) →
      (∃ l, IsReactionRate N c eqs z l ∧ 0 < l.re) →
      ∃ dt0 : ℝ, 0 < dt0 ∧ ∀ s : Stepper dims.prod, s.filter = none → s.freq = freqOf dims → 0 < s.dt → s.dt < dt0 →
        GoesAwayRungeKutta M s fun i => z m.fields[i] := by
  obtain ⟨E, hE⟩ := exists_ordered N hN hfn eqs hnat hord
  obtain ⟨m, M, a1, a2, a3, a4⟩ := c165_leaves h hl N hN hfn m0 h0 heq eqs hq hnat ss hs hord c hc hpow
  exact ⟨m, M, a1, a2, a3, fun z hz hzr ⟨l, hr, hpos⟩ => a4 z hz hzr ⟨_, l, reaction_growth (pos_of_goodDims h) hE hr, hpos⟩⟩

/-- C165: if the fields diffuse alike and uniform perturbations die out, so do all small perturbations. -/
theorem c165_alike : ∃ m M, ss.foldlM EqModel.addEquation m0 = some m ∧ m.fields = N.fields ∧ m.assemble c = some M ∧
      ∀ z : Str → ℂ, (∀ eq ∈ eqs, uniformSystemRate N c eq z = 0) →
      ∀ D : ℝ, 0 ≤ D → (∀ eq ∈ eqs, Diffusing N eq ∧ diffusivity N c eq = D) →
      (∀ l, IsReactionRate N c eqs z l → l.re < 0) →
      ∃ dt0 : ℝ, 0 < dt0 ∧ ∀ s : Stepper dims.prod, s.filter = none → s.freq = freqOf dims → 0 < s.dt → s.dt < dt0 →
        DiesOutRungeKutta M s fun i => z m.fields[i] := by
  obtain ⟨E, hE⟩ := exists_ordered N hN hfn eqs hnat hord
  obtain ⟨m, M, a1, a2, a3, a4⟩ := c165_settles h N hN hfn m0 h0 heq eqs hq hnat ss hs hord c
  exact ⟨m, M, a1, a2, a3, fun z hz D hD hd hr => a4 z hz fun k l hg => alike_decays hE hD hd hr hg⟩

end

/-! ### The ring of three fields -/

/-- C165: the bounds of the ring of three fields are the same with the RK4 stepper. -/
theorem c165_ring_settles (h : GoodDims (intDims dims)) {g : ℝ} (h1 : -1 < g) (h2 : g < 2) :
    ∃ (m : EqModel dims.prod) (M : Model m.fields.length m.derived.length dims.prod),
      ["dconc/dt = LAP conc - conc - gain*phi".toList, "deta/dt = LAP eta - eta - gain*conc".toList,
        "dphi/dt = LAP phi - phi - gain*eta".toList].foldlM EqModel.addEquation (ringModel dims.prod) = some m ∧
      m.assemble (fun _ => (g : ℂ)) = some M ∧
      ∃ dt0 : ℝ, 0 < dt0 ∧ ∀ s : Stepper dims.prod, s.filter = none → s.freq = freqOf dims → 0 < s.dt → s.dt < dt0 →
        DiesOutRungeKutta M s fun _ => 0 := by
  obtain ⟨m, M, a1, a2, a3, a4⟩ := c165_alike h ringNames ring_wellNamed rfl (ringModel dims.prod) ring_starts rfl ringEquations
    (ring_all fun x y hx hy => ⟨ring_polynomial hx hy, fun _ _ => ⟨rfl, rfl⟩⟩) (ring_all fun x y hx hy => ring_whole hx hy)
    ringTexts ring_texts rfl (fun _ => (g : ℂ))
  refine ⟨m, M, a1, a3, a4 (fun _ => 0) (ring_all fun x y hx hy => ring_rests hx hy _) 1 zero_le_one
    (ring_all fun x y hx hy => ⟨ring_diffusing hx hy, by rw [ring_diffusivity hx hy]; norm_num⟩) fun l hl => ?_⟩
  obtain ⟨w, hw, e1, e2, e3⟩ := (ring_reactionRate _ _ _).mp hl
  exact ring_decays h1 h2 hw e1 e2 e3

/-- C165: beyond either bound some real perturbations leave. -/
theorem c165_ring_leaves (h : GoodDims (intDims dims)) (hl : LayoutOk dims) {g : ℝ} (hg : g < -1 ∨ 2 < g) :
    ∃ (m : EqModel dims.prod) (M : Model m.fields.length m.derived.length dims.prod),
      ["dconc/dt = LAP conc - conc - gain*phi".toList, "deta/dt = LAP eta - eta - gain*conc".toList,
        "dphi/dt = LAP phi - phi - gain*eta".toList].foldlM EqModel.addEquation (ringModel dims.prod) = some m ∧
      m.assemble (fun _ => (g : ℂ)) = some M ∧
      ∃ dt0 : ℝ, 0 < dt0 ∧ ∀ s : Stepper dims.prod, s.filter = none → s.freq = freqOf dims → 0 < s.dt → s.dt < dt0 →
        GoesAwayRungeKutta M s fun _ => 0 := by
  obtain ⟨m, M, a1, a2, a3, a4⟩ := c165_reaction h hl ringNames ring_wellNamed rfl (ringModel dims.prod) ring_starts rfl ringEquations
    (ring_all fun x y hx hy => ⟨ring_polynomial hx hy, fun _ _ => ⟨rfl, rfl⟩⟩) (ring_all fun x y hx hy => ring_whole hx hy)
    ringTexts ring_texts rfl (fun _ => (g : ℂ)) (fun _ _ => Complex.ofReal_im g)
    (ring_all fun x y hx hy => ring_realPowers hx hy g)
  exact ⟨m, M, a1, a3, a4 (fun _ => 0) (ring_all fun x y hx hy => ring_rests hx hy _) (fun _ _ => rfl) (ring_grows hg)⟩

/-- A grid as in `c165_ring_leaves`, and values on both sides of the bounds. -/
example : GoodDims (intDims [6, 4]) ∧ LayoutOk [6, 4] ∧ ((-1 : ℝ) < 0 ∧ (0 : ℝ) < 2) ∧ (-2 : ℝ) < -1 :=
  ⟨⟨by decide, by decide⟩, trivial, ⟨by norm_num, by norm_num⟩, by norm_num⟩

end Gopf.Props
