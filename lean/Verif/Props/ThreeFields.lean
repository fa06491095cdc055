import Verif.Props.RungeKuttaSystem
import Verif.Proofs.RouthHurwitz

/-!
# C166: three coupled equations
-/

namespace Gopf.Props
open Spec Pf Pfutil

variable {n : ℕ} {dims : List ℕ}

/-- The signs of three numbers that can be computed from the entries of a matrix. -/
def Decaying (J : Matrix (Fin 3) (Fin 3) ℝ) : Prop := J.trace < 0 ∧ J.det < 0 ∧ J.trace * Proofs.minors J < J.det

/-- One of the signs is the opposite. -/
def Growing (J : Matrix (Fin 3) (Fin 3) ℝ) : Prop := 0 < J.trace ∨ 0 < J.det ∨ J.det < J.trace * Proofs.minors J

theorem three_eigen (e : Fin 3 → Equation) (hnd : ([e 0, e 1, e 2].map Equation.field).Nodup) (R : Equation → Str → ℂ)
    (J : Matrix (Fin 3) (Fin 3) ℝ) (hJ : ∀ i j, R (e i) (e j).field = J i j) (l : ℂ) :
    (∃ w : Str → ℂ, (∃ f ∈ [e 0, e 1, e 2].map Equation.field, w f ≠ 0) ∧ ∀ eq ∈ [e 0, e 1, e 2],
      (([e 0, e 1, e 2].map Equation.field).map fun f => R eq f * w f).sum = l * w eq.field) ↔
    l ^ 3 + ((-J.trace : ℝ) : ℂ) * l ^ 2 + ((Proofs.minors J : ℝ) : ℂ) * l + ((-J.det : ℝ) : ℂ) = 0 := by
  rw [← Proofs.eigen_cubic]
  have hsum : ∀ (w : Str → ℂ) (i : Fin 3), (([e 0, e 1, e 2].map Equation.field).map fun f => R (e i) f * w f).sum =
      J i 0 * w (e 0).field + J i 1 * w (e 1).field + J i 2 * w (e 2).field := by
    intro w i
    simp only [List.map_cons, List.map_nil, List.sum_cons, List.sum_nil, hJ]
    ring
  have hmem : ∀ i : Fin 3, e i ∈ [e 0, e 1, e 2] := by
    intro i
    fin_cases i <;> simp
  constructor
  · rintro ⟨w, ⟨f, hf, hne⟩, hw⟩
    refine ⟨fun i => w (e i).field, ?_, fun i => ?_⟩
    · intro h0
      simp only [List.map_cons, List.map_nil, List.mem_cons, List.not_mem_nil, or_false] at hf
      rcases hf with rfl | rfl | rfl
      · exact hne (congrFun h0 0)
      · exact hne (congrFun h0 1)
      · exact hne (congrFun h0 2)
    · rw [← hsum w i]
      exact hw _ (hmem i)
  · rintro ⟨v, hv, hl⟩
    simp only [List.map_cons, List.map_nil, List.nodup_cons, List.mem_cons, List.not_mem_nil, or_false, not_or] at hnd
    obtain ⟨⟨n1, n2⟩, n3, -⟩ := hnd
    obtain ⟨w, hw⟩ : ∃ w : Str → ℂ, ∀ i, w (e i).field = v i := by
      refine ⟨fun s => if s = (e 0).field then v 0 else if s = (e 1).field then v 1 else v 2, fun i => ?_⟩
      fin_cases i
      · exact if_pos rfl
      · exact (if_neg (Ne.symm n1)).trans (if_pos rfl)
      · exact (if_neg (Ne.symm n2)).trans (if_neg (Ne.symm n3))
    refine ⟨w, ?_, fun eq he => ?_⟩
    · obtain ⟨i, hi⟩ := Function.ne_iff.mp hv
      exact ⟨(e i).field, List.mem_map_of_mem (hmem i), by rw [hw]; exact hi⟩
    · obtain ⟨i, rfl⟩ : ∃ i, eq = e i := by
        simp only [List.mem_cons, List.not_mem_nil, or_false] at he
        rcases he with rfl | rfl | rfl
        · exact ⟨0, rfl⟩
        · exact ⟨1, rfl⟩
        · exact ⟨2, rfl⟩
      rw [hsum, hw, hw, hw, hw]
      exact hl i

theorem decaying_cubic {J : Matrix (Fin 3) (Fin 3) ℝ} (hJ : Decaying J) {l : ℂ}
    (hl : l ^ 3 + ((-J.trace : ℝ) : ℂ) * l ^ 2 + ((Proofs.minors J : ℝ) : ℂ) * l + ((-J.det : ℝ) : ℂ) = 0) : l.re < 0 :=
  Proofs.cubic_inside (by linarith [hJ.1]) (by linarith [hJ.2.1]) (by linarith [hJ.2.2]) hl

theorem growing_cubic {J : Matrix (Fin 3) (Fin 3) ℝ} (hJ : Growing J) : ∃ l : ℂ,
    l ^ 3 + ((-J.trace : ℝ) : ℂ) * l ^ 2 + ((Proofs.minors J : ℝ) : ℂ) * l + ((-J.det : ℝ) : ℂ) = 0 ∧ 0 < l.re := by
  refine Proofs.cubic_outside ?_
  rcases hJ with h | h | h
  · exact Or.inl (by linarith)
  · exact Or.inr (Or.inl (by linarith))
  · exact Or.inr (Or.inr (by linarith))

section
variable (h : GoodDims (intDims dims)) (hl : LayoutOk dims) (N : Names) (hN : N.WellNamed) (hfn : N.functions = [])
    (m0 : EqModel dims.prod) (h0 : StartsAs N m0) (heq : m0.equations = [])
    (e : Fin 3 → Equation) (hq : ∀ eq ∈ [e 0, e 1, e 2], eq.Polynomial N ∧ Unregistered m0 eq)
    (hnat : ∀ eq ∈ [e 0, e 1, e 2], ∀ p ∈ eq.terms, ∀ g ∈ factorsIn N.varying p.1, ∃ q : ℕ, g.power = q)
    (ss : List Str) (hs : ss.map (fun s => s.filter fun c => c ≠ ' ') = [e 0, e 1, e 2].map Equation.text)
    (hord : [e 0, e 1, e 2].map Equation.field = N.fields) (c : Str → ℂ) (hc : ∀ x ∈ N.scalars, (c x).im = 0)
    (hpow : ∀ eq ∈ [e 0, e 1, e 2], Equation.RealPowers N c eq)
include hN hfn hnat hord

theorem three_growth (freq : Frequency n) (z : Str → ℂ) (k : Fin n) (J : Matrix (Fin 3) (Fin 3) ℝ)
    (hJ : ∀ i j, waveRate N c freq (e i) z k (e j).field = J i j) (l : ℂ) : IsGrowthRate N c freq [e 0, e 1, e 2] z k l ↔
    l ^ 3 + ((-J.trace : ℝ) : ℂ) * l ^ 2 + ((Proofs.minors J : ℝ) : ℂ) * l + ((-J.det : ℝ) : ℂ) = 0 := by
  obtain ⟨E, hE⟩ := exists_ordered N hN hfn [e 0, e 1, e 2] hnat hord
  rw [← three_eigen e (by rw [hord]; exact hE.nodup) (fun eq f => waveRate N c freq eq z k f) J hJ]
  unfold IsGrowthRate
  rw [hord]
  refine exists_congr fun w => and_congr Iff.rfl ?_
  refine forall_congr' fun eq => forall_congr' fun he => ?_
  rw [linear_waves hE he]

theorem three_reaction (z : Str → ℂ) (J : Matrix (Fin 3) (Fin 3) ℝ)
    (hJ : ∀ i j, reactionRate N c (e i) z (e j).field = J i j) (l : ℂ) : IsReactionRate N c [e 0, e 1, e 2] z l ↔
    l ^ 3 + ((-J.trace : ℝ) : ℂ) * l ^ 2 + ((Proofs.minors J : ℝ) : ℂ) * l + ((-J.det : ℝ) : ℂ) = 0 := by
  obtain ⟨E, hE⟩ := exists_ordered N hN hfn [e 0, e 1, e 2] hnat hord
  rw [← three_eigen e (by rw [hord]; exact hE.nodup) (fun eq f => reactionRate N c eq z f) J hJ]
  unfold IsReactionRate
  rw [hord]

include h h0 heq hq hs

/-- C166: three signs per wave decide that all small perturbations die out, with both steppers. -/
theorem c166_settles : ∃ m M, ss.foldlM EqModel.addEquation m0 = some m ∧ m.fields = N.fields ∧ m.assemble c = some M ∧
      ∀ z : Str → ℂ, (∀ eq ∈ [e 0, e 1, e 2], uniformSystemRate N c eq z = 0) →
      ∀ J : Fin dims.prod → Matrix (Fin 3) (Fin 3) ℝ,
      (∀ k i j, waveRate N c (freqOf dims) (e i) z k (e j).field = J k i j) → (∀ k, Decaying (J k)) →
      ∃ dt0 : ℝ, 0 < dt0 ∧ ∀ s : Stepper dims.prod, s.filter = none → s.freq = freqOf dims → 0 < s.dt → s.dt < dt0 →
        DiesOut M s (fun i => z m.fields[i]) ∧ DiesOutRungeKutta M s fun i => z m.fields[i] := by
  obtain ⟨m, M, a1, a2, a3, a4⟩ := c164_settles h N hN hfn m0 h0 heq _ hq hnat ss hs hord c
  obtain ⟨m', M', a1', -, a3', a4'⟩ := c165_settles h N hN hfn m0 h0 heq _ hq hnat ss hs hord c
  rw [a1] at a1'
  obtain rfl := Option.some.inj a1'
  rw [a3] at a3'
  obtain rfl := Option.some.inj a3'
  refine ⟨m, M, a1, a2, a3, fun z hz J hJ hd => ?_⟩
  have hg : ∀ k l, IsGrowthRate N c (freqOf dims) [e 0, e 1, e 2] z k l → l.re < 0 := fun k l hkl =>
    decaying_cubic (hd k) ((three_growth N hN hfn e hnat hord c _ z k (J k) (hJ k) l).mp hkl)
  obtain ⟨d1, b1, b2⟩ := a4 z hz hg
  obtain ⟨d2, c1, c2⟩ := a4' z hz hg
  exact ⟨min d1 d2, lt_min b1 c1, fun s s1 s2 s3 s4 => ⟨b2 s s1 s2 s3 (s4.trans_le (min_le_left _ _)),
    c2 s s1 s2 s3 (s4.trans_le (min_le_right _ _))⟩⟩

include hl hc hpow in
/-- C166: if one of the signs is the opposite for some wave, some real perturbations leave, with both steppers. -/
theorem c166_leaves : ∃ m M, ss.foldlM EqModel.addEquation m0 = some m ∧ m.fields = N.fields ∧ m.assemble c = some M ∧
      ∀ z : Str → ℂ, (∀ eq ∈ [e 0, e 1, e 2], uniformSystemRate N c eq z = 0) → (∀ f ∈ N.fields, (z f).im = 0) →
      ∀ (k : Fin dims.prod) (J : Matrix (Fin 3) (Fin 3) ℝ),
      (∀ i j, waveRate N c (freqOf dims) (e i) z k (e j).field = J i j) → Growing J →
      ∃ dt0 : ℝ, 0 < dt0 ∧ ∀ s : Stepper dims.prod, s.filter = none → s.freq = freqOf dims → 0 < s.dt → s.dt < dt0 →
        GoesAway M s (fun i => z m.fields[i]) ∧ GoesAwayRungeKutta M s fun i => z m.fields[i] := by
  obtain ⟨m, M, a1, a2, a3, a4⟩ := c164_leaves h hl N hN hfn m0 h0 heq _ hq hnat ss hs hord c hc hpow
  obtain ⟨m', M', a1', -, a3', a4'⟩ := c165_leaves h hl N hN hfn m0 h0 heq _ hq hnat ss hs hord c hc hpow
  rw [a1] at a1'
  obtain rfl := Option.some.inj a1'
  rw [a3] at a3'
  obtain rfl := Option.some.inj a3'
  refine ⟨m, M, a1, a2, a3, fun z hz hzr k J hJ hd => ?_⟩
  have hg : ∃ k l, IsGrowthRate N c (freqOf dims) [e 0, e 1, e 2] z k l ∧ 0 < l.re := by
    obtain ⟨l, h1, h2⟩ := growing_cubic hd
    exact ⟨k, l, (three_growth N hN hfn e hnat hord c _ z k J hJ l).mpr h1, h2⟩
  obtain ⟨d1, b1, b2⟩ := a4 z hz hzr hg
  obtain ⟨d2, c1, c2⟩ := a4' z hz hzr hg
  exact ⟨min d1 d2, lt_min b1 c1, fun s s1 s2 s3 s4 => ⟨b2 s s1 s2 s3 (s4.trans_le (min_le_left _ _)),
    c2 s s1 s2 s3 (s4.trans_le (min_le_right _ _))⟩⟩

/-- C166: if the fields diffuse alike, the signs for uniform perturbations suffice. -/
theorem c166_alike : ∃ m M, ss.foldlM EqModel.addEquation m0 = some m ∧ m.fields = N.fields ∧ m.assemble c = some M ∧
      ∀ z : Str → ℂ, (∀ eq ∈ [e 0, e 1, e 2], uniformSystemRate N c eq z = 0) →
      ∀ D : ℝ, 0 ≤ D → (∀ eq ∈ [e 0, e 1, e 2], Diffusing N eq ∧ diffusivity N c eq = D) →
      ∀ J : Matrix (Fin 3) (Fin 3) ℝ, (∀ i j, reactionRate N c (e i) z (e j).field = J i j) → Decaying J →
      ∃ dt0 : ℝ, 0 < dt0 ∧ ∀ s : Stepper dims.prod, s.filter = none → s.freq = freqOf dims → 0 < s.dt → s.dt < dt0 →
        DiesOut M s (fun i => z m.fields[i]) ∧ DiesOutRungeKutta M s fun i => z m.fields[i] := by
  obtain ⟨m, M, a1, a2, a3, a4⟩ := c164_alike h N hN hfn m0 h0 heq _ hq hnat ss hs hord c
  obtain ⟨m', M', a1', -, a3', a4'⟩ := c165_alike h N hN hfn m0 h0 heq _ hq hnat ss hs hord c
  rw [a1] at a1'
  obtain rfl := Option.some.inj a1'
  rw [a3] at a3'
  obtain rfl := Option.some.inj a3'
  refine ⟨m, M, a1, a2, a3, fun z hz D hD hdiff J hJ hd => ?_⟩
  have hg : ∀ l, IsReactionRate N c [e 0, e 1, e 2] z l → l.re < 0 := fun l hkl =>
    decaying_cubic hd ((three_reaction N hN hfn e hnat hord c z J hJ l).mp hkl)
  obtain ⟨d1, b1, b2⟩ := a4 z hz D hD hdiff hg
  obtain ⟨d2, c1, c2⟩ := a4' z hz D hD hdiff hg
  exact ⟨min d1 d2, lt_min b1 c1, fun s s1 s2 s3 s4 => ⟨b2 s s1 s2 s3 (s4.trans_le (min_le_left _ _)),
    c2 s s1 s2 s3 (s4.trans_le (min_le_right _ _))⟩⟩

include hl hc hpow in
/-- C166: if one of the signs for uniform perturbations is the opposite, the Laplacians cannot prevent it. -/
theorem c166_reaction : ∃ m M, ss.foldlM EqModel.addEquation m0 = some m ∧ m.fields = N.fields ∧ m.assemble c = some M ∧
      ∀ z : Str → ℂ, (∀ eq ∈ [e 0, e 1, e 2], uniformSystemRate N c eq z = 0) → (∀ f ∈ N.fields, (z f).im = 0) →
      ∀ J : Matrix (Fin 3) (Fin 3) ℝ, (∀ i j, reactionRate N c (e i) z (e j).field = J i j) → Growing J →
      ∃ dt0 : ℝ, 0 < dt0 ∧ ∀ s : Stepper dims.prod, s.filter = none → s.freq = freqOf dims → 0 < s.dt → s.dt < dt0 →
        GoesAway M s (fun i => z m.fields[i]) ∧ GoesAwayRungeKutta M s fun i => z m.fields[i] := by
  obtain ⟨m, M, a1, a2, a3, a4⟩ := c164_reaction h hl N hN hfn m0 h0 heq _ hq hnat ss hs hord c hc hpow
  obtain ⟨m', M', a1', -, a3', a4'⟩ := c165_reaction h hl N hN hfn m0 h0 heq _ hq hnat ss hs hord c hc hpow
  rw [a1] at a1'
  obtain rfl := Option.some.inj a1'
  rw [a3] at a3'
  obtain rfl := Option.some.inj a3'
  refine ⟨m, M, a1, a2, a3, fun z hz hzr J hJ hd => ?_⟩
  have hg : ∃ l, IsReactionRate N c [e 0, e 1, e 2] z l ∧ 0 < l.re := by
    obtain ⟨l, h1, h2⟩ := growing_cubic hd
    exact ⟨l, (three_reaction N hN hfn e hnat hord c z J hJ l).mpr h1, h2⟩
  obtain ⟨d1, b1, b2⟩ := a4 z hz hzr hg
  obtain ⟨d2, c1, c2⟩ := a4' z hz hzr hg
  exact ⟨min d1 d2, lt_min b1 c1, fun s s1 s2 s3 s4 => ⟨b2 s s1 s2 s3 (s4.trans_le (min_le_left _ _)),
    c2 s s1 s2 s3 (s4.trans_le (min_le_right _ _))⟩⟩

end

end Gopf.Props
