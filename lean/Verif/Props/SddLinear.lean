import Verif.Props.Sdd
import Verif.Proofs.Hermitian
import Verif.Props.Uniform
import Mathlib.Analysis.SpecificLimits.Basic

/-!
# C123: shrinking dimer dynamics near the saddle point of a linear equation

For a single field with the linear equation `dx/dt = a x` (in Fourier space) everything the shrinking
dimer stepper does can be written down: the orientation turns to the fastest growing modes, and along a
dimer that points in such a direction the field is driven back to the saddle point instead of away
from it.
-/

namespace Gopf.Props
open Spec Pf Pfutil Filter Topology
open scoped BigOperators

variable {nd : ℕ} {dims : List ℕ}

/-- The equation of the only field is `dx/dt = a x` in Fourier space: no explicit terms, and a real
growth rate that is the same for a wave and its conjugate. -/
structure LinearEquation (m : Model 1 nd dims.prod) (freq : Frequency dims.prod)
    (a : Fin dims.prod → ℝ) : Prop where
  const : LinearPartConst m
  rhs : ∀ st t, m.getRHS 0 st freq t = fun _ => 0
  rate : ∀ st t, m.getDenum 0 st freq t = fun k => (a k : ℂ)
  even : Hermitian dims fun k => (a k : ℂ)

/-- The component of a field along the dimer. -/
noncomputable def along {n : ℕ} (o : Fin n → ℝ) (x : Fin n → ℂ) : ℂ := ∑ j, x j * (o j : ℂ)

/-- The spectrum of the dimer. -/
noncomputable def spectrumOf (dims : List ℕ) (o : Fin dims.prod → ℝ) : Fin dims.prod → ℂ :=
  fft dims fun j => (o j : ℂ)

theorem unit_single {n : ℕ} {o : Fin 1 → Fin n → ℝ} (ho : normSqO o = 1) : ∑ j, o 0 j * o 0 j = 1 := by
  simpa [normSqO] using ho

theorem spectrum_unit (h : ∀ d ∈ dims, 0 < d) {o : Fin dims.prod → ℝ} (ho : ∑ j, o j * o j = 1) :
    ∑ k, spectrumOf dims o k * (starRingEnd ℂ) (spectrumOf dims o k) = (dims.prod : ℂ) := by
  unfold spectrumOf
  rw [parseval h]
  simp only [Complex.conj_ofReal]
  have : ∑ j, (o j : ℂ) * (o j : ℂ) = ((∑ j, o j * o j : ℝ) : ℂ) := by push_cast; rfl
  rw [this, ho]; simp

/-- The linear solve of a step has a solution when the dimer consists of waves of one growth rate. -/
theorem solve_ok (h : ∀ d ∈ dims, 0 < d) {o : Fin dims.prod → ℝ} (ho : ∑ j, o j * o j = 1)
    {a : Fin dims.prod → ℝ} {lam dt : ℝ} (he : ∀ k, spectrumOf dims o k ≠ 0 → a k = lam)
    (h1 : 1 - dt * lam ≠ 0) (h2 : 1 + dt * lam ≠ 0) :
    1 + ∑ k, spectrumOf dims o k * (1 / (1 - (dt : ℂ) * (a k : ℂ))) *
      ((2 : ℝ) * (a k : ℂ) * dt * (starRingEnd ℂ) (spectrumOf dims o k) / (dims.prod : ℂ)) ≠ 0 := by
  have hN := prod_ne_zero' h
  have h1' : (1 - (dt : ℂ) * (lam : ℂ)) ≠ 0 := by exact_mod_cast h1
  have h2' : (1 + (dt : ℂ) * (lam : ℂ)) ≠ 0 := by exact_mod_cast h2
  have e : ∀ k, spectrumOf dims o k * (1 / (1 - (dt : ℂ) * (a k : ℂ))) *
      ((2 : ℝ) * (a k : ℂ) * dt * (starRingEnd ℂ) (spectrumOf dims o k) / (dims.prod : ℂ)) =
      (2 * lam * dt / (1 - (dt : ℂ) * (lam : ℂ)) / (dims.prod : ℂ)) *
        (spectrumOf dims o k * (starRingEnd ℂ) (spectrumOf dims o k)) := by
    intro k
    by_cases hk : spectrumOf dims o k = 0
    · rw [hk]; simp
    · rw [he k hk, Complex.ofReal_ofNat]; field_simp
  simp only [e]
  rw [← Finset.mul_sum, spectrum_unit h ho]
  have : 1 + 2 * (lam : ℂ) * dt / (1 - (dt : ℂ) * (lam : ℂ)) / (dims.prod : ℂ) * (dims.prod : ℂ) =
      (1 + (dt : ℂ) * (lam : ℂ)) / (1 - (dt : ℂ) * (lam : ℂ)) := by
    rw [div_mul_cancel₀ _ hN, eq_div_iff h1', add_mul, div_mul_cancel₀ _ h1']
    ring
  rw [this]
  exact div_ne_zero h2' h1'

/-- One step of the field for a dimer made of waves of one growth rate. -/
theorem field_step (h : ∀ d ∈ dims, 0 < d) {m : Model 1 nd dims.prod} {s : SDD 1 dims.prod}
    {a : Fin dims.prod → ℝ} (hm : LinearEquation m s.freq a) (st : Store 1 nd dims.prod)
    (ho : normSqO s.orientation = 1) {lam : ℝ}
    (he : ∀ k, spectrumOf dims (s.orientation 0) k ≠ 0 → a k = lam)
    (h1 : ∀ k, 1 - s.dt * a k ≠ 0) (h2 : 1 + s.dt * lam ≠ 0) :
    (1 + s.dt * lam) * along (s.orientation 0) ((SDD.step m (s, st)).2.fields 0) =
      along (s.orientation 0) (st.fields 0) ∧
    ∀ k, fft dims ((SDD.step m (s, st)).2.fields 0) k =
      along (s.orientation 0) ((SDD.step m (s, st)).2.fields 0) * spectrumOf dims (s.orientation 0) k +
      (fft dims (st.fields 0) k - along (s.orientation 0) (st.fields 0) * spectrumOf dims (s.orientation 0) k) /
        (1 - s.dt * a k) := by
  have hN := prod_ne_zero' h
  have ho' := unit_single ho
  have h1' : ∀ k, (1 - (s.dt : ℂ) * (a k : ℂ)) ≠ 0 := fun k => by exact_mod_cast h1 k
  have hlam : 1 - s.dt * lam ≠ 0 := by
    have : ∃ k, spectrumOf dims (s.orientation 0) k ≠ 0 := by
      by_contra hc
      push Not at hc
      have := spectrum_unit h ho'
      simp only [hc, zero_mul, Finset.sum_const_zero] at this
      exact hN this.symm
    obtain ⟨k, hk⟩ := this
    rw [← he k hk]; exact h1 k
  obtain ⟨f, g, hf, hg, hstep⟩ := c34_single_field h m hm.const s st
    (by intro k; rw [hm.rate]; exact h1' k) (by
      rw [hm.rate]; exact solve_ok h ho' he hlam h2)
  generalize (SDD.step m (s, st)).2.fields 0 = y at hg hstep ⊢
  have hf0 : f = fun _ => 0 := by
    apply fft_injective h
    rw [hf, hm.rhs, hm.rhs]
    funext k; simp [fft]
  subst hf0
  rw [hm.rate] at hg
  generalize hx : st.fields 0 = x at hstep ⊢
  generalize hov : s.orientation 0 = o at *
  unfold ReflectedStep at hstep
  simp only [zero_add] at hstep
  have hG : along o g = lam * along o y := by
    have p1 := parseval h g (fun j => (o j : ℂ))
    have p2 := parseval h y (fun j => (o j : ℂ))
    simp only [Complex.conj_ofReal] at p1 p2
    have e : ∑ k, fft dims g k * (starRingEnd ℂ) (fft dims (fun j => (o j : ℂ)) k) =
        lam * ∑ k, fft dims y k * (starRingEnd ℂ) (fft dims (fun j => (o j : ℂ)) k) := by
      rw [Finset.mul_sum, hg]
      refine Finset.sum_congr rfl fun k _ => ?_
      by_cases hk : spectrumOf dims o k = 0
      · have : fft dims (fun j => (o j : ℂ)) k = 0 := hk
        rw [this]; simp
      · dsimp only; rw [he k hk]; ring
    rw [p1, p2] at e
    unfold along
    apply mul_left_cancel₀ hN
    rw [e]; ring
  have hY : (1 + s.dt * lam) * along o y = along o x := by
    have e : along o y = along o x + s.dt * (along o g - 2 * along o g) := by
      have hsum : ∑ j, (o j : ℂ) * (o j : ℂ) = 1 := by
        have : ∑ j, (o j : ℂ) * (o j : ℂ) = ((∑ j, o j * o j : ℝ) : ℂ) := by push_cast; rfl
        rw [this, ho']; simp
      have e1 : ∀ j, y j * (o j : ℂ) = x j * (o j : ℂ) + s.dt * (g j * (o j : ℂ)) -
          (s.dt * 2 * along o g) * ((o j : ℂ) * (o j : ℂ)) := by
        intro j; rw [hstep j]; unfold along; ring
      unfold along
      rw [Finset.sum_congr rfl fun j _ => e1 j, Finset.sum_sub_distrib, Finset.sum_add_distrib,
        ← Finset.mul_sum, ← Finset.mul_sum, hsum]
      unfold along; ring
    rw [hG] at e
    linear_combination e
  refine ⟨hY, fun k => ?_⟩
  have hyk : fft dims y k = fft dims x k + s.dt * (a k * fft dims y k - 2 * (lam * along o y) * spectrumOf dims o k) := by
    have : y = fun j => x j + s.dt * (g j - (2 * (lam * along o y)) * (o j : ℂ)) := by
      funext j; rw [hstep j, ← hG]; unfold along; ring
    conv_lhs => rw [this]
    rw [fft_add, fft_smul, fft_sub, fft_smul, hg]
    rfl
  have hak : (a k : ℂ) * spectrumOf dims o k = lam * spectrumOf dims o k := by
    by_cases hk : spectrumOf dims o k = 0
    · rw [hk]; simp
    · rw [he k hk]
  have hd := h1' k
  have hq : (fft dims x k - along o x * spectrumOf dims o k) / (1 - (s.dt : ℂ) * (a k : ℂ)) =
      fft dims y k - along o y * spectrumOf dims o k := by
    rw [div_eq_iff hd]
    linear_combination -hyk + spectrumOf dims o k * hY - s.dt * along o y * hak
  rw [hq]; ring

/-- The average growth rate over the waves of the dimer. -/
noncomputable def meanRate (dims : List ℕ) (a : Fin dims.prod → ℝ) (o : Fin dims.prod → ℝ) : ℝ :=
  (∑ k, a k * Complex.normSq (spectrumOf dims o k)) / dims.prod

theorem meanRate_inner (a : Fin dims.prod → ℝ) (o : Fin dims.prod → ℝ) (l : ℝ) :
    (∑ k, (-((a k : ℂ) * spectrumOf dims o k * (l : ℂ))) * (starRingEnd ℂ) (spectrumOf dims o k)) /
      ((dims.prod : ℝ) : ℂ) = -(l * meanRate dims a o : ℝ) := by
  have e : ∀ k, (-((a k : ℂ) * spectrumOf dims o k * (l : ℂ))) * (starRingEnd ℂ) (spectrumOf dims o k) =
      -((l * (a k * Complex.normSq (spectrumOf dims o k)) : ℝ) : ℂ) := by
    intro k
    rw [neg_mul, mul_right_comm, mul_assoc (a k : ℂ), Complex.mul_conj]
    push_cast; ring
  simp only [e]
  rw [Finset.sum_neg_distrib, ← Complex.ofReal_sum, ← Finset.mul_sum]
  unfold meanRate
  rw [← Complex.ofReal_neg, ← Complex.ofReal_div, ← Complex.ofReal_neg]
  congr 1
  ring

/-- The spectrum of the torque. -/
theorem torque_spectrum (h : ∀ d ∈ dims, 0 < d) {m : Model 1 nd dims.prod} {s : SDD 1 dims.prod}
    {a : Fin dims.prod → ℝ} (hm : LinearEquation m s.freq a) (st : Store 1 nd dims.prod)
    (F : Fin 1 → Data dims.prod) (k : Fin dims.prod) :
    fft dims (s.torque m st F F 0) k = -(s.dimerLength s.getTime : ℂ) *
      ((a k - meanRate dims a (s.orientation 0) : ℝ) * spectrumOf dims (s.orientation 0) k) := by
  unfold SDD.torque
  dsimp only
  have e2 : ∀ t : Data dims.prod, fft dims (divRealScalar (ifft dims t) (dims.prod : ℕ)) = t := by
    intro t
    have := fft_surjective h t
    have e : divRealScalar (ifft dims t) (dims.prod : ℕ) = fun x => ifft dims t x / (dims.prod : ℂ) := by
      funext x; simp only [divRealScalar, Complex.ofReal_natCast]
    rw [e]; exact this
  rw [e2]
  unfold householder
  dsimp only
  rw [Fintype.sum_prod_type, Fin.sum_univ_one]
  simp only [hm.rate]
  have e3 : ∀ k, F 0 k - F 0 k - (a k : ℂ) * s.ftOrientation 0 k * (s.dimerLength s.getTime : ℂ) =
      -((a k : ℂ) * spectrumOf dims (s.orientation 0) k * (s.dimerLength s.getTime : ℂ)) := by
    intro k; rw [sub_self, zero_sub]; rfl
  simp only [e3]
  have e4 := meanRate_inner a (s.orientation 0) (s.dimerLength s.getTime)
  have e5 : s.ftOrientation 0 = spectrumOf dims (s.orientation 0) := rfl
  rw [e5, e4]
  push_cast
  ring

/-- One step of the dimer. -/
theorem dimer_step (h : GoodDims (intDims dims)) (hl : LayoutOk dims) {m : Model 1 nd dims.prod}
    {s : SDD 1 dims.prod} {a : Fin dims.prod → ℝ} (hm : LinearEquation m s.freq a)
    (st : Store 1 nd dims.prod) (ho : normSqO s.orientation = 1)
    (hlen : s.dimerLength s.getTime ≠ 0) :
    ∃ len : ℝ, 0 < len ∧ ∀ k, (len : ℂ) * spectrumOf dims ((SDD.step m (s, st)).1.orientation 0) k =
      ((1 + s.dt / s.tauOrientation * (a k - meanRate dims a (s.orientation 0)) : ℝ) : ℂ) *
        spectrumOf dims (s.orientation 0) k := by
  have hpos := pos_of_goodDims h
  have hu := c30_unit_invariant hpos m 1 s ho st
  have hF : (s.stepFields m st).2.2 = (s.stepFields m st).2.1 := by
    funext i
    have hi : i = 0 := Subsingleton.elim _ _
    subst hi
    change m.getRHS 0 _ s.freq s.getTime = m.getRHS 0 _ s.freq s.getTime
    rw [hm.rhs, hm.rhs]
  have hor : (SDD.step m (s, st)).1.orientation = s.updateOrientation
      (s.torque m (s.stepFields m st).1 (s.stepFields m st).2.1 (s.stepFields m st).2.1) := by
    simp only [SDD.step]
    rw [hF]
  have hts := torque_spectrum hpos hm (s.stepFields m st).1 (s.stepFields m st).2.1
  generalize s.torque m (s.stepFields m st).1 (s.stepFields m st).2.1 (s.stepFields m st).2.1 = tq at hor hts
  have hreal : IsReal (tq 0) := by
    apply real_of_hermitian h hl
    have e : fft dims (tq 0) = fun k => (-(s.dimerLength s.getTime : ℂ)) *
      ((a k - meanRate dims a (s.orientation 0) : ℝ) * spectrumOf dims (s.orientation 0) k) := funext hts
    rw [e]
    have hO : Hermitian dims (spectrumOf dims (s.orientation 0)) :=
      hermitian_fft h hl fun x => Complex.ofReal_im _
    intro b c hbc
    have ha := hm.even b c hbc
    rw [Complex.conj_ofReal, Complex.ofReal_inj] at ha
    simp only [hO b c hbc, ha, map_mul, map_neg, Complex.conj_ofReal]
  refine ⟨Real.sqrt (∑ i, ∑ j, (s.orientation i j - s.dt * (tq i j).re /
      (s.dimerLength s.getTime * s.tauOrientation)) * (s.orientation i j - s.dt * (tq i j).re /
      (s.dimerLength s.getTime * s.tauOrientation))), ?_, ?_⟩
  · refine lt_of_le_of_ne (Real.sqrt_nonneg _) fun h0 => ?_
    have : normSqO (SDD.step m (s, st)).1.orientation = 0 := by
      rw [hor]
      unfold normSqO SDD.updateOrientation
      dsimp only
      rw [← h0]
      simp
    rw [Function.iterate_one, this] at hu
    exact zero_ne_one hu
  · intro k
    set len := Real.sqrt (∑ i, ∑ j, (s.orientation i j - s.dt * (tq i j).re /
      (s.dimerLength s.getTime * s.tauOrientation)) * (s.orientation i j - s.dt * (tq i j).re /
      (s.dimerLength s.getTime * s.tauOrientation))) with hlendef
    have hlen0 : len ≠ 0 := by
      intro h0
      have : normSqO (SDD.step m (s, st)).1.orientation = 0 := by
        rw [hor]
        unfold normSqO SDD.updateOrientation
        dsimp only
        rw [← hlendef, h0]
        simp
      rw [Function.iterate_one, this] at hu
      exact zero_ne_one hu
    have e1 : (fun j => ((SDD.step m (s, st)).1.orientation 0 j : ℂ)) = fun j =>
        (len : ℂ)⁻¹ * ((s.orientation 0 j : ℂ) -
          ((s.dt / (s.dimerLength s.getTime * s.tauOrientation) : ℝ) : ℂ) * tq 0 j) := by
      funext j
      rw [hor]
      have e2 : tq 0 j = ((tq 0 j).re : ℂ) := by
        apply Complex.ext
        · simp
        · simp [hreal j]
      rw [e2]
      unfold SDD.updateOrientation
      dsimp only
      rw [← hlendef]
      push_cast
      ring
    have hlenc : (len : ℂ) ≠ 0 := by exact_mod_cast hlen0
    have hlc : (s.dimerLength s.getTime : ℂ) ≠ 0 := by exact_mod_cast hlen
    have e3 : spectrumOf dims ((SDD.step m (s, st)).1.orientation 0) k = (len : ℂ)⁻¹ *
        (spectrumOf dims (s.orientation 0) k -
          ((s.dt / (s.dimerLength s.getTime * s.tauOrientation) : ℝ) : ℂ) * fft dims (tq 0) k) := by
      unfold spectrumOf
      rw [e1, fft_smul, fft_sub, fft_smul]
    rw [e3, hts]
    rw [← mul_assoc, mul_inv_cancel₀ hlenc, one_mul]
    push_cast
    rw [mul_comm (s.dimerLength s.getTime : ℂ), ← div_div]
    field_simp
    ring

theorem iter_params (m : Model 1 nd dims.prod) (N : ℕ) (p : SDD 1 dims.prod × Store 1 nd dims.prod) :
    ((SDD.step m)^[N] p).1.dt = p.1.dt ∧ ((SDD.step m)^[N] p).1.tauOrientation = p.1.tauOrientation ∧
    ((SDD.step m)^[N] p).1.freq = p.1.freq ∧ ((SDD.step m)^[N] p).1.initDimerLength = p.1.initDimerLength := by
  induction N with
  | zero => exact ⟨rfl, rfl, rfl, rfl⟩
  | succ N ih => rw [Function.iterate_succ_apply']; exact ih

theorem dimerLength_pos {nf n : ℕ} (s : SDD nf n) (hi : 0 < s.initDimerLength) (t : ℝ) : 0 < s.dimerLength t := by
  have h0 : 0 < s.initDimerLength * Real.exp (-t / s.tauDimerLength) := mul_pos hi (Real.exp_pos _)
  unfold SDD.dimerLength
  dsimp only
  split_ifs with hc
  · linarith
  · exact h0

theorem spectrum_injective (h : ∀ d ∈ dims, 0 < d) {o o' : Fin dims.prod → ℝ}
    (e : spectrumOf dims o = spectrumOf dims o') : o = o' := by
  have := fft_injective h e
  funext j
  exact Complex.ofReal_injective (congrFun this j)

theorem spectrum_normSq (h : ∀ d ∈ dims, 0 < d) {o : Fin dims.prod → ℝ} (ho : ∑ j, o j * o j = 1) :
    ∑ k, Complex.normSq (spectrumOf dims o k) = dims.prod := by
  have := spectrum_unit h ho
  simp only [Complex.mul_conj] at this
  rwa [← Complex.ofReal_sum, ← Complex.ofReal_natCast, Complex.ofReal_inj] at this

theorem prod_pos_real (h : ∀ d ∈ dims, 0 < d) : (0 : ℝ) < dims.prod := by
  have : 0 < dims.prod := Nat.pos_of_ne_zero (by
    rw [Ne, List.prod_eq_zero_iff]; intro hm; exact absurd (h 0 hm) (by omega))
  exact_mod_cast this

/-- A dimer made of waves of one growth rate does not turn. -/
theorem dimer_rests (h : GoodDims (intDims dims)) (hl : LayoutOk dims) {m : Model 1 nd dims.prod}
    {s : SDD 1 dims.prod} {a : Fin dims.prod → ℝ} (hm : LinearEquation m s.freq a)
    (st : Store 1 nd dims.prod) (ho : normSqO s.orientation = 1) (hi : 0 < s.initDimerLength) {lam : ℝ}
    (he : ∀ k, spectrumOf dims (s.orientation 0) k ≠ 0 → a k = lam) :
    (SDD.step m (s, st)).1.orientation = s.orientation := by
  have hpos := pos_of_goodDims h
  have hN := prod_pos_real hpos
  obtain ⟨len, hlen, hs⟩ := dimer_step h hl hm st ho (dimerLength_pos s hi _).ne'
  have hu := c30_unit_invariant hpos m 1 s ho st
  rw [Function.iterate_one] at hu
  have hmean : meanRate dims a (s.orientation 0) = lam := by
    unfold meanRate
    have : ∀ k, a k * Complex.normSq (spectrumOf dims (s.orientation 0) k) =
        lam * Complex.normSq (spectrumOf dims (s.orientation 0) k) := by
      intro k
      by_cases hk : spectrumOf dims (s.orientation 0) k = 0
      · rw [hk]; simp
      · rw [he k hk]
    simp only [this]
    rw [← Finset.mul_sum, spectrum_normSq hpos (unit_single ho)]
    field_simp
  have hs' : ∀ k, (len : ℂ) * spectrumOf dims ((SDD.step m (s, st)).1.orientation 0) k =
      spectrumOf dims (s.orientation 0) k := by
    intro k
    rw [hs k, hmean]
    by_cases hk : spectrumOf dims (s.orientation 0) k = 0
    · rw [hk]; simp
    · rw [he k hk]; simp
  have hl1 : len = 1 := by
    have e1 := spectrum_normSq hpos (unit_single ho)
    have e2 := spectrum_normSq hpos (unit_single hu)
    have e3 : ∑ k, Complex.normSq (spectrumOf dims (s.orientation 0) k) =
        len * len * ∑ k, Complex.normSq (spectrumOf dims ((SDD.step m (s, st)).1.orientation 0) k) := by
      rw [Finset.mul_sum]
      refine Finset.sum_congr rfl fun k _ => ?_
      rw [← hs' k, Complex.normSq_mul, Complex.normSq_ofReal]
    rw [e1, e2] at e3
    have : len * len = 1 := by
      have h2 : (dims.prod : ℝ) * (len * len) = dims.prod * 1 := by linarith
      exact mul_left_cancel₀ hN.ne' h2
    nlinarith
  subst hl1
  funext i
  have hi0 : i = 0 := Subsingleton.elim _ _
  subst hi0
  apply spectrum_injective hpos
  funext k
  have := hs' k
  simpa using this

/-- C123: let the dimer be made of waves that all grow at the rate `lam`. Then it keeps its orientation,
and after `N` steps the part of the field along the dimer is divided by `(1 + dt lam)^N` — it shrinks
where the equation itself makes it grow — while every wave of the rest is divided by
`(1 - dt a)^N` as in an ordinary implicit step. -/
theorem c123_field (h : GoodDims (intDims dims)) (hl : LayoutOk dims) (m : Model 1 nd dims.prod)
    (s : SDD 1 dims.prod) (a : Fin dims.prod → ℝ) (hm : LinearEquation m s.freq a)
    (st : Store 1 nd dims.prod) (ho : normSqO s.orientation = 1) (hi : 0 < s.initDimerLength) (lam : ℝ)
    (he : ∀ k, spectrumOf dims (s.orientation 0) k ≠ 0 → a k = lam)
    (h1 : ∀ k, 1 - s.dt * a k ≠ 0) (h2 : 1 + s.dt * lam ≠ 0) (N : ℕ) :
    ((SDD.step m)^[N] (s, st)).1.orientation = s.orientation ∧
    ∀ k, fft dims (((SDD.step m)^[N] (s, st)).2.fields 0) k =
      along (s.orientation 0) (st.fields 0) / (1 + s.dt * lam) ^ N * spectrumOf dims (s.orientation 0) k +
      (fft dims (st.fields 0) k - along (s.orientation 0) (st.fields 0) * spectrumOf dims (s.orientation 0) k) /
        (1 - s.dt * a k) ^ N := by
  have hpos := pos_of_goodDims h
  have h2' : (1 + (s.dt : ℂ) * (lam : ℂ)) ≠ 0 := by exact_mod_cast h2
  have h1' : ∀ k, (1 - (s.dt : ℂ) * (a k : ℂ)) ≠ 0 := fun k => by exact_mod_cast h1 k
  suffices H : ((SDD.step m)^[N] (s, st)).1.orientation = s.orientation ∧
      along (s.orientation 0) (((SDD.step m)^[N] (s, st)).2.fields 0) =
        along (s.orientation 0) (st.fields 0) / (1 + s.dt * lam) ^ N ∧
      ∀ k, fft dims (((SDD.step m)^[N] (s, st)).2.fields 0) k =
      along (s.orientation 0) (st.fields 0) / (1 + s.dt * lam) ^ N * spectrumOf dims (s.orientation 0) k +
      (fft dims (st.fields 0) k - along (s.orientation 0) (st.fields 0) * spectrumOf dims (s.orientation 0) k) /
        (1 - s.dt * a k) ^ N from ⟨H.1, H.2.2⟩
  induction N with
  | zero => refine ⟨rfl, by simp, fun k => by simp⟩
  | succ N ih =>
    obtain ⟨i1, i2, i3⟩ := ih
    obtain ⟨pd, -, pf, pi⟩ := iter_params m N (s, st)
    rw [Function.iterate_succ_apply']
    generalize (SDD.step m)^[N] (s, st) = p at i1 i2 i3 pd pf pi ⊢
    obtain ⟨s', st'⟩ := p
    dsimp only at i1 i2 i3 pd pf pi ⊢
    have hm' : LinearEquation m s'.freq a := by rw [pf]; exact hm
    have ho' : normSqO s'.orientation = 1 := by rw [i1]; exact ho
    have he' : ∀ k, spectrumOf dims (s'.orientation 0) k ≠ 0 → a k = lam := by rw [i1]; exact he
    obtain ⟨f1, f2⟩ := field_step hpos hm' st' ho' he' (by rw [pd]; exact h1) (by rw [pd]; exact h2)
    have fr := dimer_rests h hl hm' st' ho' (by rw [pi]; exact hi) he'
    rw [i1, pd] at f1 f2
    have hA : along (s.orientation 0) ((SDD.step m (s', st')).2.fields 0) =
        along (s.orientation 0) (st.fields 0) / (1 + s.dt * lam) ^ (N + 1) := by
      rw [i2] at f1
      rw [eq_div_iff (pow_ne_zero _ h2'), pow_succ]
      rw [eq_div_iff (pow_ne_zero _ h2')] at f1
      linear_combination f1
    refine ⟨fr.trans i1, hA, fun k => ?_⟩
    rw [f2 k, hA, i3 k, i2, add_sub_cancel_left, div_div, ← pow_succ]

/-- A sequence of spectra that dies out is the sequence of spectra of fields that die out. -/
theorem field_tendsto (h : ∀ d ∈ dims, 0 < d) (x : ℕ → Fin dims.prod → ℂ)
    (hx : ∀ k, Tendsto (fun N => fft dims (x N) k) atTop (𝓝 0)) (j : Fin dims.prod) :
    Tendsto (fun N => x N j) atTop (𝓝 0) := by
  have hN := prod_ne_zero' h
  have e : ∀ N, x N j = (∑ k, fft dims (x N) k * cis (phase dims k j)) / (dims.prod : ℂ) := by
    intro N
    have := ifft_fft h (x N) j
    unfold ifft at this
    rw [this]; field_simp
  simp only [e]
  have h0 : (0 : ℂ) = (∑ k : Fin dims.prod, 0 * cis (phase dims k j)) / (dims.prod : ℂ) := by simp
  rw [h0]
  exact Tendsto.div_const (tendsto_finsetSum _ fun k _ => (hx k).mul_const _) _

theorem decay_tendsto (c : ℂ) {q : ℂ} (hq : 1 < ‖q‖) : Tendsto (fun N : ℕ => c / q ^ N) atTop (𝓝 0) := by
  have h1 : ‖q⁻¹‖ < 1 := by
    rw [norm_inv]; exact inv_lt_one_of_one_lt₀ hq
  have := (tendsto_pow_atTop_nhds_zero_of_norm_lt_one h1).const_mul c
  rw [mul_zero] at this
  refine this.congr fun N => ?_
  rw [inv_pow, div_eq_mul_inv]

theorem norm_one_add {r : ℝ} (hr : 0 < r) : 1 < ‖(1 : ℂ) + (r : ℂ)‖ := by
  have : (1 : ℂ) + (r : ℂ) = ((1 + r : ℝ) : ℂ) := by push_cast; rfl
  rw [this, Complex.norm_real, Real.norm_eq_abs, abs_of_pos (by linarith)]
  linarith

/-- C123: a saddle point with one unstable wave. If the equation makes exactly one wave grow and all
others decay, and the dimer points along the growing one, the fields converge to the saddle point
(where the field vanishes), for every time step and every initial field. -/
theorem c123_saddle (h : GoodDims (intDims dims)) (hl : LayoutOk dims) (m : Model 1 nd dims.prod)
    (s : SDD 1 dims.prod) (a : Fin dims.prod → ℝ) (hm : LinearEquation m s.freq a)
    (st : Store 1 nd dims.prod) (ho : normSqO s.orientation = 1) (hi : 0 < s.initDimerLength)
    (hdt : 0 < s.dt) (k₀ : Fin dims.prod) (hu : 0 < a k₀) (hk : s.dt * a k₀ ≠ 1)
    (hst : ∀ k, k ≠ k₀ → a k < 0)
    (hs : ∀ k, k ≠ k₀ → spectrumOf dims (s.orientation 0) k = 0) (j : Fin dims.prod) :
    Tendsto (fun N => ((SDD.step m)^[N] (s, st)).2.fields 0 j) atTop (𝓝 0) := by
  have hpos := pos_of_goodDims h
  have hN := prod_ne_zero' hpos
  have he : ∀ k, spectrumOf dims (s.orientation 0) k ≠ 0 → a k = a k₀ := by
    intro k hk
    by_cases hkk : k = k₀
    · rw [hkk]
    · exact absurd (hs k hkk) hk
  have h1 : ∀ k, 1 - s.dt * a k ≠ 0 := by
    intro k
    by_cases hkk : k = k₀
    · rw [hkk]; intro h0; exact hk (by linarith)
    · have := mul_neg_of_pos_of_neg hdt (hst k hkk)
      intro h0; linarith
  have h2 : 1 + s.dt * a k₀ ≠ 0 := by have := mul_pos hdt hu; linarith
  have hproj : fft dims (st.fields 0) k₀ =
      along (s.orientation 0) (st.fields 0) * spectrumOf dims (s.orientation 0) k₀ := by
    have p := parseval hpos (st.fields 0) (fun j => (s.orientation 0 j : ℂ))
    simp only [Complex.conj_ofReal] at p
    rw [Finset.sum_eq_single k₀ (fun k _ hkk => by
      have : fft dims (fun j => (s.orientation 0 j : ℂ)) k = 0 := hs k hkk
      rw [this]; simp) (fun hc => absurd (Finset.mem_univ _) hc)] at p
    have u := spectrum_unit hpos (unit_single ho)
    rw [Finset.sum_eq_single k₀ (fun k _ hkk => by rw [hs k hkk]; simp)
      (fun hc => absurd (Finset.mem_univ _) hc)] at u
    change fft dims (st.fields 0) k₀ * (starRingEnd ℂ) (spectrumOf dims (s.orientation 0) k₀) =
      dims.prod * along (s.orientation 0) (st.fields 0) at p
    apply mul_left_cancel₀ hN
    linear_combination spectrumOf dims (s.orientation 0) k₀ * p - fft dims (st.fields 0) k₀ * u
  refine field_tendsto hpos _ (fun k => ?_) j
  have hf := fun N => (c123_field h hl m s a hm st ho hi (a k₀) he h1 h2 N).2 k
  simp only [hf]
  have t1 : Tendsto (fun N : ℕ => along (s.orientation 0) (st.fields 0) / (1 + (s.dt : ℂ) * (a k₀ : ℂ)) ^ N *
      spectrumOf dims (s.orientation 0) k) atTop (𝓝 0) := by
    have := (decay_tendsto (along (s.orientation 0) (st.fields 0)) (q := 1 + (s.dt : ℂ) * (a k₀ : ℂ)) (by
      have := norm_one_add (mul_pos hdt hu)
      simpa using this)).mul_const (spectrumOf dims (s.orientation 0) k)
    rwa [zero_mul] at this
  have t2 : Tendsto (fun N : ℕ => (fft dims (st.fields 0) k -
      along (s.orientation 0) (st.fields 0) * spectrumOf dims (s.orientation 0) k) /
        (1 - (s.dt : ℂ) * (a k : ℂ)) ^ N) atTop (𝓝 0) := by
    by_cases hkk : k = k₀
    · rw [hkk, hproj, sub_self]; simp
    · apply decay_tendsto
      have := norm_one_add (r := -(s.dt * a k)) (by
        have := mul_neg_of_pos_of_neg hdt (hst k hkk); linarith)
      have e : (1 : ℂ) - (s.dt : ℂ) * (a k : ℂ) = 1 + ((-(s.dt * a k) : ℝ) : ℂ) := by push_cast; ring
      rw [e]; exact this
  have := t1.add t2
  rwa [add_zero] at this

theorem meanRate_bounds (h : ∀ d ∈ dims, 0 < d) {a : Fin dims.prod → ℝ} {o : Fin dims.prod → ℝ}
    (ho : ∑ j, o j * o j = 1) {lo hi : ℝ} (hlo : ∀ k, lo ≤ a k) (hhi : ∀ k, a k ≤ hi) :
    lo ≤ meanRate dims a o ∧ meanRate dims a o ≤ hi := by
  have hN := prod_pos_real h
  have hs := spectrum_normSq h ho
  unfold meanRate
  constructor
  · rw [le_div_iff₀ hN, ← hs, Finset.mul_sum]
    exact Finset.sum_le_sum fun k _ => mul_le_mul_of_nonneg_right (hlo k) (Complex.normSq_nonneg _)
  · rw [div_le_iff₀ hN, ← hs, Finset.mul_sum]
    exact Finset.sum_le_sum fun k _ => mul_le_mul_of_nonneg_right (hhi k) (Complex.normSq_nonneg _)

/-- C123: the dimer turns to the fastest growing wave. Compared with a wave `K` of greatest growth
rate, the share of a wave whose rate is smaller by `gap` is reduced in every step at least by the
factor `1 - c gap / (1 + c spread)`, `c = dt/τ` being the time step in units of the time constant of
the orientation and `spread` a bound on the differences of the rates with `c spread ≤ 1`. This holds
for every unit orientation and all fields. -/
theorem c123_turning (h : GoodDims (intDims dims)) (hl : LayoutOk dims) (m : Model 1 nd dims.prod)
    (s : SDD 1 dims.prod) (a : Fin dims.prod → ℝ) (hm : LinearEquation m s.freq a)
    (st : Store 1 nd dims.prod) (ho : normSqO s.orientation = 1) (hi : 0 < s.initDimerLength)
    (K k : Fin dims.prod) (gap spread : ℝ) (hK : ∀ k, a k ≤ a K) (hsp : ∀ k, a K - spread ≤ a k)
    (hgap : a k ≤ a K - gap) (hgap0 : 0 ≤ gap) (hc : 0 ≤ s.dt / s.tauOrientation)
    (hsmall : s.dt / s.tauOrientation * spread ≤ 1) (N : ℕ) :
    ‖spectrumOf dims (((SDD.step m)^[N] (s, st)).1.orientation 0) k‖ * ‖spectrumOf dims (s.orientation 0) K‖ ≤
      (1 - s.dt / s.tauOrientation * gap / (1 + s.dt / s.tauOrientation * spread)) ^ N *
      (‖spectrumOf dims (s.orientation 0) k‖ *
        ‖spectrumOf dims (((SDD.step m)^[N] (s, st)).1.orientation 0) K‖) := by
  have hpos := pos_of_goodDims h
  set c := s.dt / s.tauOrientation with hcdef
  have hspread : 0 ≤ spread := by have := hsp K; linarith
  have hgs : gap ≤ spread := by have := hsp k; linarith
  have hcs : 0 ≤ c * spread := mul_nonneg hc hspread
  have hcg : c * gap ≤ c * spread := mul_le_mul_of_nonneg_left hgs hc
  set q := 1 - c * gap / (1 + c * spread) with hq
  have hq0 : 0 ≤ q := by
    rw [hq, sub_nonneg, div_le_one (by linarith)]; linarith
  induction N with
  | zero => simp
  | succ N ih =>
    have hu := c30_unit_invariant hpos m N s ho st
    obtain ⟨pd, pt, pf, pi⟩ := iter_params m N (s, st)
    rw [Function.iterate_succ_apply']
    generalize (SDD.step m)^[N] (s, st) = p at ih hu pd pt pf pi ⊢
    obtain ⟨s', st'⟩ := p
    dsimp only at ih hu pd pt pf pi ⊢
    obtain ⟨len, hlen, hs⟩ := dimer_step h hl (by rw [pf]; exact hm) st' hu
      (dimerLength_pos s' (by rw [pi]; exact hi) _).ne'
    rw [pd, pt, ← hcdef] at hs
    obtain ⟨r1, r2⟩ := meanRate_bounds hpos (unit_single hu) hsp hK
    generalize meanRate dims a (s'.orientation 0) = ρ at hs r1 r2
    have hfK : 1 ≤ 1 + c * (a K - ρ) := by have := mul_nonneg hc (sub_nonneg.mpr r2); linarith
    have hfK2 : 1 + c * (a K - ρ) ≤ 1 + c * spread := by
      have := mul_le_mul_of_nonneg_left (show a K - ρ ≤ spread by linarith) hc; linarith
    have hfk : 0 ≤ 1 + c * (a k - ρ) := by
      have := mul_le_mul_of_nonneg_left (show -spread ≤ a k - ρ by have := hsp k; linarith) hc
      linarith
    have hfkq : 1 + c * (a k - ρ) ≤ q * (1 + c * (a K - ρ)) := by
      have e1 : 1 + c * (a k - ρ) ≤ 1 + c * (a K - ρ) - c * gap := by
        have := mul_le_mul_of_nonneg_left (show a k - ρ ≤ a K - ρ - gap by linarith) hc
        linarith
      have e2 : c * gap / (1 + c * spread) * (1 + c * (a K - ρ)) ≤ c * gap := by
        rw [div_mul_eq_mul_div, div_le_iff₀ (by linarith)]
        exact mul_le_mul_of_nonneg_left hfK2 (mul_nonneg hc hgap0)
      rw [hq]; linarith
    have n1 : ∀ k, len * ‖spectrumOf dims ((SDD.step m (s', st')).1.orientation 0) k‖ =
        |1 + c * (a k - ρ)| * ‖spectrumOf dims (s'.orientation 0) k‖ := by
      intro k
      have := congrArg norm (hs k)
      rw [norm_mul, norm_mul, Complex.norm_real, Complex.norm_real, Real.norm_eq_abs, abs_of_pos hlen,
        Real.norm_eq_abs] at this
      exact this
    have nk := n1 k
    have nK := n1 K
    rw [abs_of_nonneg hfk] at nk
    rw [abs_of_nonneg (by linarith)] at nK
    generalize ‖spectrumOf dims ((SDD.step m (s', st')).1.orientation 0) k‖ = x' at nk ⊢
    generalize ‖spectrumOf dims ((SDD.step m (s', st')).1.orientation 0) K‖ = X' at nK ⊢
    have hx0 := norm_nonneg (spectrumOf dims (s'.orientation 0) k)
    have hz0 := norm_nonneg (spectrumOf dims (s.orientation 0) K)
    generalize ‖spectrumOf dims (s'.orientation 0) k‖ = x at nk ih hx0
    generalize ‖spectrumOf dims (s'.orientation 0) K‖ = X at nK ih
    generalize ‖spectrumOf dims (s.orientation 0) k‖ = y at ih ⊢
    generalize ‖spectrumOf dims (s.orientation 0) K‖ = z at ih hz0 ⊢
    have hfinal : len * (x' * z) ≤ len * (q ^ (N + 1) * (y * X')) := by
      calc len * (x' * z) = (1 + c * (a k - ρ)) * (x * z) := by rw [← mul_assoc, nk]; ring
        _ ≤ q * (1 + c * (a K - ρ)) * (x * z) := mul_le_mul_of_nonneg_right hfkq (mul_nonneg hx0 hz0)
        _ ≤ q * (1 + c * (a K - ρ)) * (q ^ N * (y * X)) :=
          mul_le_mul_of_nonneg_left ih (mul_nonneg hq0 (by linarith))
        _ = q ^ (N + 1) * y * ((1 + c * (a K - ρ)) * X) := by ring
        _ = len * (q ^ (N + 1) * (y * X')) := by rw [← nK]; ring
    exact le_of_mul_le_mul_left hfinal hlen

/-- C123: if the initial orientation contains a fastest growing wave at all, every slower wave
disappears from the orientation. -/
theorem c123_orientation (h : GoodDims (intDims dims)) (hl : LayoutOk dims) (m : Model 1 nd dims.prod)
    (s : SDD 1 dims.prod) (a : Fin dims.prod → ℝ) (hm : LinearEquation m s.freq a)
    (st : Store 1 nd dims.prod) (ho : normSqO s.orientation = 1) (hi : 0 < s.initDimerLength)
    (K k : Fin dims.prod) (spread : ℝ) (hK : ∀ k, a k ≤ a K) (hsp : ∀ k, a K - spread ≤ a k)
    (hk : a k < a K) (hc : 0 < s.dt / s.tauOrientation)
    (hsmall : s.dt / s.tauOrientation * spread ≤ 1) (h0 : spectrumOf dims (s.orientation 0) K ≠ 0) :
    Tendsto (fun N => spectrumOf dims (((SDD.step m)^[N] (s, st)).1.orientation 0) k) atTop (𝓝 0) := by
  have hpos := pos_of_goodDims h
  have hspread : 0 ≤ spread := by have := hsp K; linarith
  have ht := c123_turning h hl m s a hm st ho hi K k (a K - a k) spread hK hsp (by linarith) (by linarith)
    hc.le hsmall
  set c := s.dt / s.tauOrientation
  have hcs : 0 ≤ c * spread := mul_nonneg hc.le hspread
  set q := 1 - c * (a K - a k) / (1 + c * spread) with hq
  have hq0 : 0 ≤ q := by
    rw [hq, sub_nonneg, div_le_one (by linarith)]
    have := mul_le_mul_of_nonneg_left (show a K - a k ≤ spread by have := hsp k; linarith) hc.le
    linarith
  have hq1 : q < 1 := by
    have : 0 < c * (a K - a k) / (1 + c * spread) := div_pos (mul_pos hc (by linarith)) (by linarith)
    rw [hq]; linarith
  have hbound : ∀ N, ‖spectrumOf dims (((SDD.step m)^[N] (s, st)).1.orientation 0) K‖ ≤ Real.sqrt dims.prod := by
    intro N
    apply Real.le_sqrt_of_sq_le
    rw [← Complex.normSq_eq_norm_sq, ← spectrum_normSq hpos (unit_single (c30_unit_invariant hpos m N s ho st))]
    exact Finset.single_le_sum (f := fun k => Complex.normSq (spectrumOf dims
      (((SDD.step m)^[N] (s, st)).1.orientation 0) k)) (fun k _ => Complex.normSq_nonneg _) (Finset.mem_univ K)
  have hz : 0 < ‖spectrumOf dims (s.orientation 0) K‖ := norm_pos_iff.mpr h0
  have hlim : Tendsto (fun N : ℕ => q ^ N * (‖spectrumOf dims (s.orientation 0) k‖ * Real.sqrt dims.prod /
      ‖spectrumOf dims (s.orientation 0) K‖)) atTop (𝓝 0) := by
    have := (tendsto_pow_atTop_nhds_zero_of_lt_one hq0 hq1).mul_const
      (‖spectrumOf dims (s.orientation 0) k‖ * Real.sqrt dims.prod / ‖spectrumOf dims (s.orientation 0) K‖)
    rwa [zero_mul] at this
  refine squeeze_zero_norm (fun N => ?_) hlim
  rw [← mul_div_assoc, le_div_iff₀ hz]
  refine (ht N).trans ?_
  refine mul_le_mul_of_nonneg_left ?_ (pow_nonneg hq0 N)
  exact mul_le_mul_of_nonneg_left (hbound N) (norm_nonneg _)

/-- An equation that makes uniform fields grow and all waves decay, both at rate one. -/
noncomputable def saddleModel (dims : List ℕ) : Model 1 0 dims.prod :=
  { calcs := fun d => d.elim0, terms := fun _ => []
    denum := fun _ => [fun _ _ _ k => if k.val = 0 then 1 else -1], sources := fun _ => [], modifiers := [] }

theorem saddleModel_linear (h : GoodDims (intDims dims)) (hl : LayoutOk dims) :
    LinearEquation (saddleModel dims) (freqOf dims) fun k => if k.val = 0 then 1 else -1 where
  const := by
    intro i st st' freq t; funext k; rw [getDenum_apply, getDenum_apply]; simp [saddleModel]
  rhs := by intro st t; funext k; rw [getRHS_eq]; simp [saddleModel, rawRHS_apply]
  rate := by
    intro st t; funext k; rw [getDenum_apply]; simp only [saddleModel]
    by_cases hk : k.val = 0 <;> simp [hk]
  even := by
    have hN := prod_ne_zero' (pos_of_goodDims h)
    have e : (fun k : Fin dims.prod => (((if k.val = 0 then 1 else -1 : ℝ)) : ℂ)) = fun k =>
        fft dims (fun _ => ((2 / dims.prod : ℝ) : ℂ)) k + ((-1 : ℝ) : ℂ) := by
      funext k
      rw [fft_const (pos_of_goodDims h)]
      split_ifs
      · rw [Complex.ofReal_div, Complex.ofReal_natCast, mul_div_cancel₀ _ hN]; push_cast; norm_num
      · simp
    rw [e]
    exact Hermitian.add (hermitian_fft h hl fun x => Complex.ofReal_im _) (Hermitian.const (-1))

/-- The stepper with a uniform dimer. -/
noncomputable def uniformDimer (dims : List ℕ) (dt : ℝ) : SDD 1 dims.prod :=
  { tauOrientation := 1, tauDimerLength := 1, alpha := 1 / 2, dt := dt, currentStep := 0
    minDimerLength := 0, initDimerLength := 1
    orientation := fun _ _ => 1 / Real.sqrt dims.prod, freq := freqOf dims }

/-- All hypotheses of the theorems on the field are met by the equation and the dimer above. -/
example (h : GoodDims (intDims dims)) (hl : LayoutOk dims) (st : Store 1 0 dims.prod) (j : Fin dims.prod) :
    Tendsto (fun N => ((SDD.step (saddleModel dims))^[N] (uniformDimer dims (1 / 10), st)).2.fields 0 j)
      atTop (𝓝 0) := by
  have hpos := pos_of_goodDims h
  have hN := prod_pos_real hpos
  refine c123_saddle h hl _ _ _ (saddleModel_linear h hl) st ?_ (by norm_num [uniformDimer])
    (by norm_num [uniformDimer]) ⟨0, by exact_mod_cast hN⟩ (by norm_num) (by norm_num [uniformDimer]) ?_ ?_ j
  · simp only [normSqO, uniformDimer, Finset.sum_const, Finset.card_univ, Fintype.card_fin]
    rw [div_mul_div_comm, Real.mul_self_sqrt hN.le]
    simp only [nsmul_eq_mul, Nat.cast_one, one_mul]
    field_simp
  · intro k hk
    have : k.val ≠ 0 := fun hv => hk (Fin.ext hv)
    simp [this]
  · intro k hk
    have : k.val ≠ 0 := fun hv => hk (Fin.ext hv)
    have e := fft_const hpos ((1 / Real.sqrt dims.prod : ℝ) : ℂ) k
    rw [if_neg this] at e
    exact e

/-- The stepper with a dimer that sits at one node. -/
noncomputable def pointDimer (dims : List ℕ) (j₀ : Fin dims.prod) : SDD 1 dims.prod :=
  { uniformDimer dims (1 / 10) with orientation := fun _ j => if j = j₀ then 1 else 0 }

/-- And so are those of the theorems on the orientation: a dimer at one node contains all waves, and
it turns into the uniform one. -/
example (h : GoodDims (intDims dims)) (hl : LayoutOk dims) (st : Store 1 0 dims.prod) (j₀ : Fin dims.prod)
    (k : Fin dims.prod) (hk : k.val ≠ 0) :
    Tendsto (fun N => spectrumOf dims (((SDD.step (saddleModel dims))^[N] (pointDimer dims j₀, st)).1.orientation 0) k)
      atTop (𝓝 0) := by
  have hN : 0 < dims.prod := k.pos
  refine c123_orientation h hl _ _ _ (saddleModel_linear h hl) st ?_ (by norm_num [uniformDimer, pointDimer])
    ⟨0, hN⟩ k 2 (fun k => ?_) (fun k => ?_) ?_ (by norm_num [uniformDimer, pointDimer])
    (by norm_num [uniformDimer, pointDimer]) ?_
  · simp [normSqO, pointDimer]
  · simp only [if_true]; split_ifs <;> norm_num
  · simp only [if_true]; split_ifs <;> norm_num
  · simp [hk]
  · have e : spectrumOf dims ((pointDimer dims j₀).orientation 0) ⟨0, hN⟩ =
        cis (-phase dims 0 j₀) := by
      unfold spectrumOf fft
      rw [Finset.sum_eq_single j₀ (fun j _ hj => by simp [pointDimer, hj])
        (fun hc => absurd (Finset.mem_univ _) hc)]
      simp [pointDimer]
    rw [e]
    unfold cis
    exact Complex.exp_ne_zero _

/-- C123: a step of a single field leaves the field unchanged exactly if the total force vanishes: the
weighted force of the two ends and the linear part at the field cancel in every wave. So what the
stepper settles at is a stationary point of the equation. -/
theorem c123_stationary (h : ∀ d ∈ dims, 0 < d) (m : Model 1 nd dims.prod) (hc : LinearPartConst m)
    (s : SDD 1 dims.prod) (st : Store 1 nd dims.prod) (ho : normSqO s.orientation = 1) (hdt : s.dt ≠ 0)
    (hA : ∀ k, 1 - (s.dt : ℂ) * m.getDenum 0 st s.freq s.getTime k ≠ 0)
    (hden : 1 + ∑ k, s.ftOrientation 0 k * (1 / (1 - (s.dt : ℂ) * m.getDenum 0 st s.freq s.getTime k)) *
      ((2 : ℝ) * m.getDenum 0 st s.freq s.getTime k * s.dt * (starRingEnd ℂ) (s.ftOrientation 0 k) /
        (dims.prod : ℂ)) ≠ 0) :
    (SDD.step m (s, st)).2.fields 0 = st.fields 0 ↔
      ∀ k, (s.alpha : ℂ) * m.getRHS 0 (s.dimerStores m st).1 s.freq s.getTime k +
        (1 - s.alpha) * m.getRHS 0 (s.dimerStores m st).2.1 s.freq s.getTime k +
        m.getDenum 0 st s.freq s.getTime k * fft dims (st.fields 0) k = 0 := by
  have hN := prod_ne_zero' h
  have hdt' : (s.dt : ℂ) ≠ 0 := by exact_mod_cast hdt
  have ho' := unit_single ho
  have hsum : ∑ j, (s.orientation 0 j : ℂ) * (s.orientation 0 j : ℂ) = 1 := by
    have : ∑ j, (s.orientation 0 j : ℂ) * (s.orientation 0 j : ℂ) =
      ((∑ j, s.orientation 0 j * s.orientation 0 j : ℝ) : ℂ) := by push_cast; rfl
    rw [this, ho']; simp
  obtain ⟨f, g, hf, hg, hstep⟩ := c34_single_field h m hc s st hA hden
  unfold ReflectedStep at hstep
  generalize (SDD.step m (s, st)).2.fields 0 = y at hg hstep ⊢
  generalize m.getDenum 0 st s.freq s.getTime = A at hg hA hden ⊢
  generalize hx : st.fields 0 = x at hstep ⊢
  constructor
  · intro hyx
    rw [hyx] at hg
    have h0 : ∀ j, f j + g j = 2 * s.orientation 0 j * ∑ k, (f k + g k) * s.orientation 0 k := by
      intro j
      have := hstep j
      rw [hyx] at this
      have h2 : (s.dt : ℂ) * (f j + g j - 2 * s.orientation 0 j * ∑ k, (f k + g k) * s.orientation 0 k) = 0 := by
        linear_combination -this
      exact sub_eq_zero.mp ((mul_eq_zero.mp h2).resolve_left hdt')
    have hcz : ∑ k, (f k + g k) * (s.orientation 0 k : ℂ) = 0 := by
      set c := ∑ k, (f k + g k) * (s.orientation 0 k : ℂ) with hcd
      have e : c = 2 * c := by
        have e1 : ∀ k, (f k + g k) * (s.orientation 0 k : ℂ) =
            2 * c * ((s.orientation 0 k : ℂ) * (s.orientation 0 k : ℂ)) := by
          intro k; rw [h0 k]; ring
        conv_lhs => rw [hcd]
        rw [Finset.sum_congr rfl fun k _ => e1 k, ← Finset.mul_sum, hsum, mul_one]
      linear_combination -e
    have hfg : (fun j => f j + g j) = fun _ => 0 := by
      funext j; rw [h0 j, hcz, mul_zero]
    intro k
    have := congrArg (fun z => fft dims z k) hfg
    rw [fft_add, hf, hg] at this
    rw [this]; simp [fft]
  · intro hz
    have hd : ∀ k, (1 - (s.dt : ℂ) * A k) * (fft dims y k - fft dims x k) + s.ftOrientation 0 k *
        ∑ j, ((2 : ℝ) * A j * s.dt * (starRingEnd ℂ) (s.ftOrientation 0 j) / (dims.prod : ℂ)) *
          (fft dims y j - fft dims x j) = 0 := by
      intro k
      have hF : ∀ k, fft dims f k = -(A k * fft dims x k) := by
        intro k; rw [hf]; linear_combination hz k
      have hc1 : ∑ j, (f j + g j) * (s.orientation 0 j : ℂ) =
          (∑ k, A k * (fft dims y k - fft dims x k) * (starRingEnd ℂ) (s.ftOrientation 0 k)) / dims.prod := by
        have p := parseval h (fun j => f j + g j) (fun j => (s.orientation 0 j : ℂ))
        simp only [Complex.conj_ofReal] at p
        rw [eq_div_iff hN, mul_comm, ← p]
        refine Finset.sum_congr rfl fun k _ => ?_
        rw [fft_add, hF, hg]
        unfold SDD.ftOrientation
        ring
      have e1 : ∑ j, ((2 : ℝ) * A j * s.dt * (starRingEnd ℂ) (s.ftOrientation 0 j) / (dims.prod : ℂ)) *
          (fft dims y j - fft dims x j) = 2 * s.dt * ∑ j, (f j + g j) * (s.orientation 0 j : ℂ) := by
        rw [hc1, div_eq_mul_inv, Finset.sum_mul, Finset.mul_sum]
        refine Finset.sum_congr rfl fun j _ => ?_
        rw [Complex.ofReal_ofNat]
        ring
      rw [e1]
      have hyk : fft dims y k = fft dims x k + s.dt * (fft dims f k + fft dims g k -
          (2 * ∑ k, (f k + g k) * (s.orientation 0 k : ℂ)) * s.ftOrientation 0 k) := by
        have : y = fun j => x j + s.dt * (f j + g j -
            (2 * ∑ k, (f k + g k) * (s.orientation 0 k : ℂ)) * (s.orientation 0 j : ℂ)) := by
          funext j; rw [hstep j]; ring
        conv_lhs => rw [this]
        rw [fft_add, fft_smul, fft_sub, fft_add, fft_smul]
        rfl
      rw [hF, hg] at hyk
      linear_combination hyk
    have hu := (c31_solves (fun k => 1 - (s.dt : ℂ) * A k) (s.ftOrientation 0)
      (fun j => (2 : ℝ) * A j * s.dt * (starRingEnd ℂ) (s.ftOrientation 0 j) / (dims.prod : ℂ))
      (fun _ => 0) hA hden).2
    have u1 := hu (fun k => fft dims y k - fft dims x k) hd
    have u2 := hu (fun _ => 0) (by simp)
    apply fft_injective h
    funext k
    have := congrFun (u1.trans u2.symm) k
    exact sub_eq_zero.mp this

/-- The hypotheses on the linear part hold for every unit dimer if the rates are small compared with
`1/dt`; see `c31_well_posed`. -/
example (h : ∀ d ∈ dims, 0 < d) (s : SDD 1 dims.prod) (ho : normSqO s.orientation = 1)
    (a : Fin dims.prod → ℝ) (ha : ∀ k, |s.dt * a k| < 1) :
    (∀ k, 1 - (s.dt : ℂ) * (a k : ℂ) ≠ 0) ∧
    1 + ∑ k, s.ftOrientation 0 k * (1 / (1 - (s.dt : ℂ) * (a k : ℂ))) *
      ((2 : ℝ) * (a k : ℂ) * s.dt * (starRingEnd ℂ) (s.ftOrientation 0 k) / (dims.prod : ℂ)) ≠ 0 :=
  c31_well_posed s.dt a (s.ftOrientation 0) ha (by exact_mod_cast prod_pos_real h)
    (spectrum_normSq h (unit_single ho)).le

end Gopf.Props
