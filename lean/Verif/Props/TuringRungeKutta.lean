import Verif.Props.RungeKuttaSystem

/-!
# C167: two coupled equations with the RK4 stepper
-/

namespace Gopf.Props
open Spec Pf Pfutil

variable {n : ℕ} {dims : List ℕ}

theorem quadratic_parts (t d : ℝ) (l : ℂ) : l ^ 2 - t * l + d = 0 ↔
    l.re ^ 2 - l.im ^ 2 - t * l.re + d = 0 ∧ l.im * (2 * l.re - t) = 0 := by
  rw [Complex.ext_iff]
  simp only [pow_two, Complex.add_re, Complex.add_im, Complex.sub_re, Complex.sub_im, Complex.mul_re, Complex.mul_im,
    Complex.ofReal_re, Complex.ofReal_im, Complex.zero_re, Complex.zero_im]
  refine and_congr ?_ ?_
  · rw [← sub_eq_zero, ← sub_eq_zero (b := (0 : ℝ))]
    ring_nf
  · rw [← sub_eq_zero, ← sub_eq_zero (b := (0 : ℝ))]
    ring_nf

theorem quadratic_inside {t d : ℝ} (ht : t < 0) (hd : 0 < d) {l : ℂ} (hl : l ^ 2 - t * l + d = 0) : l.re < 0 := by
  obtain ⟨h1, h2⟩ := (quadratic_parts t d l).mp hl
  rcases mul_eq_zero.mp h2 with h | h
  · by_contra hcon
    push Not at hcon
    rw [h] at h1
    have p1 := mul_nonneg hcon (neg_nonneg.mpr ht.le)
    have p2 := sq_nonneg l.re
    linarith
  · linarith

theorem quadratic_outside {t d : ℝ} (h : d < 0 ∨ 0 < t) : ∃ l : ℂ, l ^ 2 - t * l + d = 0 ∧ 0 < l.re := by
  by_cases hdisc : 0 ≤ t ^ 2 - 4 * d
  · have hs := Real.sq_sqrt hdisc
    have hs0 := Real.sqrt_nonneg (t ^ 2 - 4 * d)
    refine ⟨(((t + Real.sqrt (t ^ 2 - 4 * d)) / 2 : ℝ) : ℂ), ?_, ?_⟩
    · generalize Real.sqrt (t ^ 2 - 4 * d) = s at *
      have : ((t + s) / 2) ^ 2 - t * ((t + s) / 2) + d = 0 := by linear_combination hs / 4
      exact_mod_cast this
    · rw [Complex.ofReal_re]
      rcases h with h | h
      · have : |t| < Real.sqrt (t ^ 2 - 4 * d) := by
          rw [← Real.sqrt_sq_eq_abs]
          exact Real.sqrt_lt_sqrt (sq_nonneg t) (by linarith)
        have := neg_abs_le t
        linarith
      · linarith
  · push Not at hdisc
    have ht : 0 < t := by
      rcases h with h | h
      · have := sq_nonneg t
        linarith
      · exact h
    have hs := Real.sq_sqrt (show 0 ≤ 4 * d - t ^ 2 by linarith)
    refine ⟨⟨t / 2, Real.sqrt (4 * d - t ^ 2) / 2⟩, (quadratic_parts _ _ _).mpr ⟨?_, ?_⟩, ?_⟩
    · dsimp only
      linear_combination -hs / 4
    · dsimp only
      ring
    · dsimp only
      linarith

/-- The eigenvalues of a matrix with two rows. -/
theorem eigen_quadratic (a b c d l : ℂ) : (∃ x y : ℂ, (x ≠ 0 ∨ y ≠ 0) ∧ a * x + b * y = l * x ∧ c * x + d * y = l * y) ↔
    l ^ 2 - (a + d) * l + (a * d - b * c) = 0 := by
  constructor
  · rintro ⟨x, y, hxy, e1, e2⟩
    rcases hxy with h | h
    · refine (mul_eq_zero.mp (?_ : x * (l ^ 2 - (a + d) * l + (a * d - b * c)) = 0)).resolve_left h
      linear_combination -(l - d) * e1 - b * e2
    · refine (mul_eq_zero.mp (?_ : y * (l ^ 2 - (a + d) * l + (a * d - b * c)) = 0)).resolve_left h
      linear_combination -(l - a) * e2 - c * e1
  · intro e
    by_cases h1 : b ≠ 0 ∨ l - a ≠ 0
    · exact ⟨b, l - a, h1, by ring, by linear_combination -e⟩
    · push Not at h1
      obtain ⟨hb, ha⟩ := h1
      by_cases h2 : l - d ≠ 0 ∨ c ≠ 0
      · exact ⟨l - d, c, h2, by rw [hb]; linear_combination -(l - d) * ha, by ring⟩
      · push Not at h2
        obtain ⟨hd, hc⟩ := h2
        exact ⟨1, 0, Or.inl one_ne_zero, by linear_combination -ha, by rw [hc]; ring⟩

section
variable (h : GoodDims (intDims dims)) (hl : LayoutOk dims) (N : Names) (hN : N.WellNamed) (hfn : N.functions = [])
  (m0 : EqModel dims.prod) (h0 : StartsAs N m0) (heq : m0.equations = []) (e1 e2 : Equation)
  (hq : ∀ eq ∈ [e1, e2], eq.Polynomial N ∧ Unregistered m0 eq)
  (hnat : ∀ eq ∈ [e1, e2], ∀ p ∈ eq.terms, ∀ g ∈ factorsIn N.varying p.1, ∃ q : ℕ, g.power = q)
  (ss : List Str) (hs : ss.map (fun s => s.filter fun c => c ≠ ' ') = [e1, e2].map Equation.text)
  (hord : [e1, e2].map Equation.field = N.fields) (c : Str → ℂ) (hc : ∀ x ∈ N.scalars, (c x).im = 0)
  (hpow : ∀ eq ∈ [e1, e2], Equation.RealPowers N c eq) (hd : ∀ eq ∈ [e1, e2], Diffusing N eq)
include hN hfn hnat hord hpow

theorem pair_growth {z : Str → ℂ} (hz : ∀ x ∈ N.fields, (z x).im = 0) (freq : Frequency n) (k : Fin n) (l : ℂ) :
    IsGrowthRate N c freq [e1, e2] z k l ↔
      l ^ 2 - ((pairRates N c freq e1 e2 z k).trace : ℂ) * l + ((pairRates N c freq e1 e2 z k).det : ℂ) = 0 := by
  obtain ⟨hfields, hnd⟩ := pair_distinct N hN e1 e2 hord
  obtain ⟨E, hE⟩ := exists_ordered N hN hfn [e1, e2] hnat hord
  have one_real : ∀ s x : Str, ((Pi.single s 1 : Str → ℂ) x).im = 0 := by
    intro s x
    rw [Pi.single_apply]
    split_ifs <;> rfl
  have w : ∀ eq ∈ [e1, e2], ∀ s, waveRate N c freq eq z k s = ((waveRate N c freq eq z k s).re : ℂ) := fun eq he s =>
    Complex.ext rfl (linearSeen_real hfields hfn (hnat eq he) (hpow eq he) hz freq k (one_real s) (one_real s))
  have m1 : e1 ∈ [e1, e2] := by simp
  have m2 : e2 ∈ [e1, e2] := by simp
  have e : IsGrowthRate N c freq [e1, e2] z k l ↔ ∃ x y : ℂ, (x ≠ 0 ∨ y ≠ 0) ∧
      waveRate N c freq e1 z k e1.field * x + waveRate N c freq e1 z k e2.field * y = l * x ∧
      waveRate N c freq e2 z k e1.field * x + waveRate N c freq e2 z k e2.field * y = l * y := by
    have hsum : ∀ eq ∈ [e1, e2], ∀ w : Str → ℂ, linearSeen N c freq eq z k w w =
        waveRate N c freq eq z k e1.field * w e1.field + waveRate N c freq eq z k e2.field * w e2.field := by
      intro eq he w
      rw [linear_waves hE he, hfields]
      simp
    constructor
    · rintro ⟨w, ⟨f, hf, hne⟩, hw⟩
      refine ⟨w e1.field, w e2.field, ?_, ?_, ?_⟩
      · rw [hfields] at hf
        simp only [List.mem_cons, List.not_mem_nil, or_false] at hf
        rcases hf with rfl | rfl
        · exact Or.inl hne
        · exact Or.inr hne
      · rw [← hsum _ m1]
        exact hw _ m1
      · rw [← hsum _ m2]
        exact hw _ m2
    · rintro ⟨x, y, hxy, q1, q2⟩
      obtain ⟨w, hx, hy⟩ : ∃ w : Str → ℂ, w e1.field = x ∧ w e2.field = y :=
        ⟨fun s => if s = e1.field then x else y, if_pos rfl, if_neg hnd.symm⟩
      refine ⟨w, ?_, ?_⟩
      · rcases hxy with h | h
        · exact ⟨e1.field, by rw [hfields]; simp, by rwa [hx]⟩
        · exact ⟨e2.field, by rw [hfields]; simp, by rwa [hy]⟩
      · intro eq he
        rw [hsum eq he, hx, hy]
        simp only [List.mem_cons, List.not_mem_nil, or_false] at he
        rcases he with rfl | rfl
        · rw [hx]
          exact q1
        · rw [hy]
          exact q2
  rw [e, eigen_quadratic, w e1 m1 e1.field, w e1 m1 e2.field, w e2 m2 e1.field, w e2 m2 e2.field]
  unfold PairRates.trace PairRates.det pairRates
  push_cast
  rfl

include h h0 heq hq hs hl hc

/-- C167: for two equations and the RK4 stepper with time steps that are small enough: if for every wave the product of the
growth rates is positive and their sum negative, small perturbations die out; if for some wave the product is negative or
the sum positive, some real perturbations leave. -/
theorem c167_pair : ∃ m M, ss.foldlM EqModel.addEquation m0 = some m ∧ m.fields = N.fields ∧ m.assemble c = some M ∧
      ∀ z : Str → ℂ, (∀ eq ∈ [e1, e2], uniformSystemRate N c eq z = 0) → (∀ f ∈ N.fields, (z f).im = 0) →
      ∃ dt0 : ℝ, 0 < dt0 ∧ ∀ s : Stepper dims.prod, s.filter = none → s.freq = freqOf dims → 0 < s.dt → s.dt < dt0 →
      ((∀ k, 0 < (pairRates N c (freqOf dims) e1 e2 z k).det ∧ (pairRates N c (freqOf dims) e1 e2 z k).trace < 0) →
        DiesOutRungeKutta M s fun i => z m.fields[i]) ∧
      ((∃ k, (pairRates N c (freqOf dims) e1 e2 z k).det < 0 ∨ 0 < (pairRates N c (freqOf dims) e1 e2 z k).trace) →
        GoesAwayRungeKutta M s fun i => z m.fields[i]) := by
  obtain ⟨m, M, a1, a2, a3, a4⟩ := c165_settles h N hN hfn m0 h0 heq _ hq hnat ss hs hord c
  obtain ⟨m', M', b1, -, b3, b4⟩ := c165_leaves h hl N hN hfn m0 h0 heq _ hq hnat ss hs hord c hc hpow
  rw [a1] at b1
  obtain rfl := Option.some.inj b1
  rw [a3] at b3
  obtain rfl := Option.some.inj b3
  refine ⟨m, M, a1, a2, a3, fun z hz hzr => ?_⟩
  have hg := fun k l => pair_growth N hN hfn e1 e2 hnat hord c hpow hzr (freqOf dims) k l
  by_cases hall : ∀ k, 0 < (pairRates N c (freqOf dims) e1 e2 z k).det ∧ (pairRates N c (freqOf dims) e1 e2 z k).trace < 0
  · obtain ⟨dt0, d1, d2⟩ := a4 z hz fun k l hkl => quadratic_inside (hall k).2 (hall k).1 ((hg k l).mp hkl)
    refine ⟨dt0, d1, fun s s1 s2 s3 s4 => ⟨fun _ => d2 s s1 s2 s3 s4, ?_⟩⟩
    rintro ⟨k, hk | hk⟩
    · exact absurd hk (hall k).1.not_gt
    · exact absurd hk (hall k).2.not_gt
  · by_cases hsome : ∃ k, (pairRates N c (freqOf dims) e1 e2 z k).det < 0 ∨ 0 < (pairRates N c (freqOf dims) e1 e2 z k).trace
    · obtain ⟨k, hk⟩ := hsome
      obtain ⟨l, l1, l2⟩ := quadratic_outside hk
      obtain ⟨dt0, d1, d2⟩ := b4 z hz hzr ⟨k, l, (hg k l).mpr l1, l2⟩
      exact ⟨dt0, d1, fun s s1 s2 s3 s4 => ⟨fun hk => absurd hk hall, fun _ => d2 s s1 s2 s3 s4⟩⟩
    · exact ⟨1, one_pos, fun s s1 s2 s3 s4 => ⟨fun hk => absurd hk hall, fun hk => absurd hk hsome⟩⟩

include hd

/-- C167: what diffusion does, by the squared wave numbers of the waves of the grid. -/
theorem c167_waves : ∃ m M, ss.foldlM EqModel.addEquation m0 = some m ∧ m.fields = N.fields ∧ m.assemble c = some M ∧
      ∀ z : Str → ℂ, (∀ eq ∈ [e1, e2], uniformSystemRate N c eq z = 0) → (∀ f ∈ N.fields, (z f).im = 0) →
      ∃ dt0 : ℝ, 0 < dt0 ∧ ∀ s : Stepper dims.prod, s.filter = none → s.freq = freqOf dims → 0 < s.dt → s.dt < dt0 →
      ((reactionOf N c e1 e2 z).Settles → 0 ≤ (reactionOf N c e1 e2 z).d1 → 0 ≤ (reactionOf N c e1 e2 z).d2 →
        (∀ k, 0 < (reactionOf N c e1 e2 z).product (laplaceNumber dims k)) → DiesOutRungeKutta M s fun i => z m.fields[i]) ∧
      ((∃ k, (reactionOf N c e1 e2 z).product (laplaceNumber dims k) < 0) → GoesAwayRungeKutta M s fun i => z m.fields[i]) := by
  obtain ⟨hf, hne⟩ := pair_distinct N hN e1 e2 hord
  obtain ⟨m, M, a1, a2, a3, a4⟩ := c167_pair h hl N hN hfn m0 h0 heq e1 e2 hq hnat ss hs hord c hc hpow
  refine ⟨m, M, a1, a2, a3, fun z hz hzr => ?_⟩
  obtain ⟨dt0, hdt0, hall⟩ := a4 z hz hzr
  have hr := fun k => pair_rates (dims := dims) (hd e1 (by simp)) (hd e2 (by simp)) hne c z k
  refine ⟨dt0, hdt0, fun s hfil hfreq hpos hlt => ⟨fun hset hd1 hd2 hk => ?_, ?_⟩⟩
  · refine (hall s hfil hfreq hpos hlt).1 fun k => ⟨?_, ?_⟩
    · rw [(hr k).2]
      exact hk k
    · rw [(hr k).1]
      have := mul_nonneg (add_nonneg hd1 hd2) (laplaceNumber_nonneg' k)
      have := hset.1
      linarith
  · rintro ⟨k, hk⟩
    exact (hall s hfil hfreq hpos hlt).2 ⟨k, Or.inl (by rw [(hr k).2]; exact hk)⟩

end

/-! ### An activator and an inhibitor -/

/-- C167: the instability of C163 that is due to diffusion alone occurs with the RK4 stepper too. -/
theorem c167_turing (h : GoodDims (intDims dims)) (hl : LayoutOk dims) (hn : 1 < dims.prod) :
    ∃ (m : EqModel dims.prod) (M : Model m.fields.length m.derived.length dims.prod),
      ["dconc/dt = conc^2 - conc*eta".toList, "deta/dt = conc^3 - eta^2 + LAP eta".toList].foldlM EqModel.addEquation
        (pairModel dims.prod) = some m ∧ m.assemble (fun _ => 0) = some M ∧
      (reactionOf pairNames (fun _ => 0) restingActivator spreadingInhibitor fun _ => 1).Settles ∧
      ∃ dt0 : ℝ, 0 < dt0 ∧ ∀ s : Stepper dims.prod, s.filter = none → s.freq = freqOf dims → 0 < s.dt → s.dt < dt0 →
        GoesAwayRungeKutta M s fun _ => 1 := by
  obtain ⟨m, M, a1, a2, a3, a4⟩ := c167_waves h hl pairNames pair_wellNamed rfl (pairModel dims.prod)
    ⟨rfl, rfl, fun x => Iff.rfl⟩ rfl restingActivator spreadingInhibitor
    (fun eq heq => ⟨turing_polynomial eq (by simp only [List.mem_cons, List.not_mem_nil, or_false] at heq ⊢; tauto),
      fun _ _ => ⟨rfl, rfl⟩⟩)
    (fun eq heq => spread_factor eq (by simp only [List.mem_cons, List.not_mem_nil, or_false] at heq ⊢; tauto))
    ["dconc/dt = conc^2 - conc*eta".toList, "deta/dt = conc^3 - eta^2 + LAP eta".toList] (by decide) (by decide) (fun _ => 0)
    (fun _ _ => rfl)
    (fun eq heq => spread_realPowers _ eq (by simp only [List.mem_cons, List.not_mem_nil, or_false] at heq ⊢; tauto))
    (fun eq heq => spread_diffusing eq (by simp only [List.mem_cons, List.not_mem_nil, or_false] at heq ⊢; tauto))
  refine ⟨m, M, a1, a3, ?_, ?_⟩
  · rw [(spread_reactions _).1]
    constructor <;> norm_num
  · obtain ⟨dt0, hdt0, hall⟩ := a4 (fun _ => 1)
      (fun eq heq => spread_rests _ eq (by simp only [List.mem_cons, List.not_mem_nil, or_false] at heq ⊢; tauto))
      (fun _ _ => by simp)
    refine ⟨dt0, hdt0, fun s hfil hfreq hpos hlt => (hall s hfil hfreq hpos hlt).2 ?_⟩
    obtain ⟨k, hk⟩ := fast_wave h hn
    refine ⟨k, ?_⟩
    rw [(spread_reactions _).1]
    unfold Reaction.product
    norm_num
    linarith

/-- C167: if both diffuse alike, the state attracts on every grid. -/
theorem c167_alike (h : GoodDims (intDims dims)) (hl : LayoutOk dims) :
    ∃ (m : EqModel dims.prod) (M : Model m.fields.length m.derived.length dims.prod),
      ["dconc/dt = conc^2 - conc*eta + LAP conc".toList, "deta/dt = conc^3 - eta^2 + LAP eta".toList].foldlM EqModel.addEquation
        (pairModel dims.prod) = some m ∧ m.assemble (fun _ => 0) = some M ∧
      ∃ dt0 : ℝ, 0 < dt0 ∧ ∀ s : Stepper dims.prod, s.filter = none → s.freq = freqOf dims → 0 < s.dt → s.dt < dt0 →
        DiesOutRungeKutta M s fun _ => 1 := by
  obtain ⟨m, M, a1, a2, a3, a4⟩ := c167_waves h hl pairNames pair_wellNamed rfl (pairModel dims.prod)
    ⟨rfl, rfl, fun x => Iff.rfl⟩ rfl spreadingActivator spreadingInhibitor
    (fun eq heq => ⟨turing_polynomial eq (by simp only [List.mem_cons, List.not_mem_nil, or_false] at heq ⊢; tauto),
      fun _ _ => ⟨rfl, rfl⟩⟩)
    (fun eq heq => spread_factor eq (by simp only [List.mem_cons, List.not_mem_nil, or_false] at heq ⊢; tauto))
    ["dconc/dt = conc^2 - conc*eta + LAP conc".toList, "deta/dt = conc^3 - eta^2 + LAP eta".toList] (by decide) (by decide)
    (fun _ => 0) (fun _ _ => rfl)
    (fun eq heq => spread_realPowers _ eq (by simp only [List.mem_cons, List.not_mem_nil, or_false] at heq ⊢; tauto))
    (fun eq heq => spread_diffusing eq (by simp only [List.mem_cons, List.not_mem_nil, or_false] at heq ⊢; tauto))
  obtain ⟨dt0, hdt0, hall⟩ := a4 (fun _ => 1)
    (fun eq heq => spread_rests _ eq (by simp only [List.mem_cons, List.not_mem_nil, or_false] at heq ⊢; tauto))
    (fun _ _ => by simp)
  refine ⟨m, M, a1, a3, dt0, hdt0, fun s hfil hfreq hpos hlt => (hall s hfil hfreq hpos hlt).1 ?_ ?_ ?_ fun k => ?_⟩
  · rw [(spread_reactions _).2]
    constructor <;> norm_num
  · rw [(spread_reactions _).2]
    norm_num
  · rw [(spread_reactions _).2]
    norm_num
  · rw [(spread_reactions _).2]
    unfold Reaction.product
    have := laplaceNumber_nonneg' k
    have := sq_nonneg (laplaceNumber dims k)
    norm_num
    linarith

/-- A grid as in `c167_turing`. -/
example : GoodDims (intDims [6, 4]) ∧ LayoutOk [6, 4] ∧ 1 < [6, 4].prod := ⟨⟨by decide, by decide⟩, trivial, by decide⟩

end Gopf.Props
