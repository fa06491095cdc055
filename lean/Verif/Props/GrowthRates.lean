import Verif.Props.Turing
import Verif.Proofs.SmallSteps

/-!
# C164: for short time steps the growth rates of the linearised equations decide
-/

namespace Gopf.Props
open Spec Pf Pfutil

variable {n nf nd : ℕ} {dims : List ℕ}

/-! ### The specification -/

/-- There are amplitudes of the wave `k`, not all zero, that grow at the rate `l` by the equations linearised at `z`. -/
def IsGrowthRate (N : Names) (c : Str → ℂ) (freq : Frequency n) (eqs : List Equation) (z : Str → ℂ) (k : Fin n) (l : ℂ) : Prop :=
  ∃ w : Str → ℂ, (∃ f ∈ N.fields, w f ≠ 0) ∧ ∀ eq ∈ eqs, linearSeen N c freq eq z k w w = l * w eq.field

/-- There are amplitudes of uniform perturbations, not all zero, that grow at the rate `l`: only terms without Laplacian
count. -/
def IsReactionRate (N : Names) (c : Str → ℂ) (eqs : List Equation) (z : Str → ℂ) (l : ℂ) : Prop :=
  ∃ w : Str → ℂ, (∃ f ∈ N.fields, w f ≠ 0) ∧ ∀ eq ∈ eqs,
    (N.fields.map fun f => reactionRate N c eq z f * w f).sum = l * w eq.field

/-! ### Linearity -/

theorem monoSlope_sum (l : List (Fin nf × ℕ)) (ζ a : Fin nf → ℂ) :
    monoSlope l ζ a = ∑ j, a j * monoSlope l ζ (Pi.single j 1) := by
  induction l with
  | nil => simp [monoSlope]
  | cons f l ih =>
    simp only [monoSlope]
    rw [ih]
    simp only [mul_add, Finset.sum_add_distrib, Finset.mul_sum]
    congr 1
    · rw [Finset.sum_eq_single f.1]
      · rw [Pi.single_eq_same]
        ring
      · intro j _ hj
        rw [Pi.single_eq_of_ne hj.symm]
        ring
      · intro h
        exact absurd (Finset.mem_univ _) h
    · refine Finset.sum_congr rfl fun j _ => ?_
      ring

section
variable {N : Names} {eqs : List Equation} {fields : List Str} {E : Fin fields.length → Equation}
  (hE : Ordered N eqs fields E)
include hE

theorem productSlope_sum (i : Fin fields.length) {p : List Item × Option Char} (hp : p ∈ (E i).terms) (z w : Str → ℂ) :
    productSlope (factorsIn N.varying p.1) z w =
      ∑ j : Fin fields.length, w fields[j] * productSlope (factorsIn N.varying p.1) z (Pi.single fields[j] 1) := by
  have hs : ∀ u : Str → ℂ, productSlope (factorsIn N.varying p.1) z u =
      monoSlope (factorsAt fields i (factorsIn N.varying p.1)) (fun j => z fields[j]) fun j => u fields[j] := fun u =>
    factors_slope i (hE.factor p.1) (hE.whole i p hp) z u _ _ (fun _ => rfl) fun _ => rfl
  rw [hs w, monoSlope_sum]
  refine Finset.sum_congr rfl fun j _ => ?_
  rw [hs]
  congr 2
  funext j'
  by_cases e : j' = j
  · subst e
    simp
  · rw [Pi.single_eq_of_ne e, Pi.single_eq_of_ne]
    intro h
    exact e (Fin.ext (hE.nodup.getElem_inj_iff.mp h))

open Classical in
theorem linearSeen_sum (i : Fin fields.length) (c : Str → ℂ) (freq : Frequency n) (z : Str → ℂ) (k : Fin n) (w v : Str → ℂ) :
    linearSeen N c freq (E i) z k w v = ∑ j : Fin fields.length,
      ((waveRate N c freq (E i) z k fields[j] - bareRate N c freq (E i) z k fields[j]) * w fields[j] +
        bareRate N c freq (E i) z k fields[j] * v fields[j]) := by
  unfold waveRate bareRate linearSeen
  have hterm : ∀ p ∈ (E i).terms, ∀ z w : Str → ℂ, productSlope (factorsIn N.varying p.1) z w =
      ∑ j : Fin fields.length, w fields[j] * productSlope (factorsIn N.varying p.1) z (Pi.single fields[j] 1) :=
    fun p hp => productSlope_sum hE i hp
  generalize (E i).terms = L at hterm
  induction L with
  | nil => simp
  | cons p L ih =>
    have ih := ih fun q hq => hterm q (by simp [hq])
    have hp := hterm p (by simp)
    simp only [List.map_cons, List.sum_cons]
    rw [ih, ← sub_eq_zero, add_comm, add_sub_assoc, add_comm, sub_add, sub_eq_zero, ← Finset.sum_sub_distrib]
    have hz : productSlope (factorsIn N.varying p.1) z 0 = 0 := by
      rw [hp]
      simp
    by_cases hb : BareField N p
    · simp only [if_pos hb]
      rw [hp z v, Finset.mul_sum]
      refine Finset.sum_congr rfl fun j _ => ?_
      ring
    · simp only [if_neg hb, hz]
      rw [hp z w, Finset.mul_sum]
      refine Finset.sum_congr rfl fun j _ => ?_
      ring

/-- The rates of a wave. -/
noncomputable def waveMatrix (N : Names) (c : Str → ℂ) (freq : Frequency n) (fields : List Str) (E : Fin fields.length → Equation)
    (z : Str → ℂ) (k : Fin n) : Matrix (Fin fields.length) (Fin fields.length) ℂ :=
  fun i j => waveRate N c freq (E i) z k fields[j]

/-- What a step takes from the new values. -/
noncomputable def newMatrix (N : Names) (c : Str → ℂ) (freq : Frequency n) (fields : List Str) (E : Fin fields.length → Equation)
    (z : Str → ℂ) (k : Fin n) : Matrix (Fin fields.length) (Fin fields.length) ℂ :=
  fun i j => (if j = i then implicitRate N c freq (E i) k else 0) + if j < i then bareRate N c freq (E i) z k fields[j] else 0

theorem ordered_get (i : ℕ) (hi : i < eqs.length) : eqs[i] = E ⟨i, by rw [← hE.length]; exact hi⟩ := by
  have := hE.get ⟨i, by rw [← hE.length]; exact hi⟩
  rw [List.getElem?_eq_getElem hi] at this
  exact Option.some.inj this

theorem multiplier_stepsBy (c : Str → ℂ) (freq : Frequency n) (dt : ℝ) (z w : Str → ℂ) (k : Fin n) (μ : ℂ) :
    (∀ (i : ℕ) (hi : i < eqs.length), (1 - dt * implicitRate N c freq eqs[i] k) * ((μ - 1) * w eqs[i].field) =
      dt * linearSeen N c freq eqs[i] z k w (fun f => if N.fields.idxOf f < i then μ * w f else w f)) ↔
    Proofs.StepsBy (newMatrix N c freq fields E z k) (waveMatrix N c freq fields E z k) dt μ fun j => w fields[j] := by
  have hidx : ∀ j : Fin fields.length, N.fields.idxOf fields[j] = j.val := by
    intro j
    rw [← hE.names]
    exact hE.nodup.idxOf_getElem j.val j.2
  have one : ∀ i : Fin fields.length, ((1 - dt * implicitRate N c freq (E i) k) * ((μ - 1) * w (E i).field) =
      dt * linearSeen N c freq (E i) z k w (fun f => if N.fields.idxOf f < i.val then μ * w f else w f)) ↔
      ((μ - 1) • ((fun j : Fin fields.length => w fields[j]) - (dt : ℂ) • (newMatrix N c freq fields E z k).mulVec fun j => w fields[j])) i =
        ((dt : ℂ) • (waveMatrix N c freq fields E z k).mulVec fun j => w fields[j]) i := by
    intro i
    have e1 : linearSeen N c freq (E i) z k w (fun f => if N.fields.idxOf f < i.val then μ * w f else w f) =
        (∑ j : Fin fields.length, waveRate N c freq (E i) z k fields[j] * w fields[j]) +
        (μ - 1) * ∑ j : Fin fields.length, (if j < i then bareRate N c freq (E i) z k fields[j] else 0) * w fields[j] := by
      rw [linearSeen_sum hE, Finset.mul_sum, ← Finset.sum_add_distrib]
      refine Finset.sum_congr rfl fun j _ => ?_
      rw [hidx]
      by_cases hji : j < i
      · rw [if_pos (Fin.lt_def.mp hji), if_pos hji]
        ring
      · rw [if_neg (fun hlt => hji (Fin.lt_def.mpr hlt)), if_neg hji]
        ring
    have e2 : (newMatrix N c freq fields E z k).mulVec (fun j => w fields[j]) i = implicitRate N c freq (E i) k * w fields[i] +
        ∑ j : Fin fields.length, (if j < i then bareRate N c freq (E i) z k fields[j] else 0) * w fields[j] := by
      unfold newMatrix Matrix.mulVec dotProduct
      simp only [add_mul, Finset.sum_add_distrib]
      congr 1
      rw [Finset.sum_eq_single i]
      · rw [if_pos rfl]
      · intro j _ hj
        rw [if_neg hj, zero_mul]
      · intro h
        exact absurd (Finset.mem_univ _) h
    have e3 : (waveMatrix N c freq fields E z k).mulVec (fun j => w fields[j]) i =
        ∑ j : Fin fields.length, waveRate N c freq (E i) z k fields[j] * w fields[j] := rfl
    simp only [Pi.smul_apply, Pi.sub_apply, smul_eq_mul]
    rw [e1, e2, e3, hE.field]
    constructor
    · intro e
      linear_combination e
    · intro e
      linear_combination e
  constructor
  · intro hw
    refine funext fun i => (one i).mp ?_
    have hi : i.val < eqs.length := by rw [hE.length]; exact i.2
    have := hw i.val hi
    rwa [ordered_get hE i.val hi] at this
  · intro hw i hi
    rw [ordered_get hE i hi]
    exact (one ⟨i, by rw [← hE.length]; exact hi⟩).mpr (congrFun hw _)

theorem growth_eigen (c : Str → ℂ) (freq : Frequency n) (z w : Str → ℂ) (k : Fin n) (l : ℂ) :
    (∀ eq ∈ eqs, linearSeen N c freq eq z k w w = l * w eq.field) ↔
      (waveMatrix N c freq fields E z k).mulVec (fun j => w fields[j]) = l • fun j => w fields[j] := by
  have one : ∀ i : Fin fields.length, linearSeen N c freq (E i) z k w w =
      (waveMatrix N c freq fields E z k).mulVec (fun j => w fields[j]) i := by
    intro i
    rw [linearSeen_sum hE]
    refine Finset.sum_congr rfl fun j _ => ?_
    unfold waveMatrix
    ring
  constructor
  · intro h
    funext i
    rw [← one i, h _ (hE.mem i), hE.field]
    rfl
  · intro h eq he
    obtain ⟨i, hi, rfl⟩ := List.getElem_of_mem he
    rw [ordered_get hE i hi, one, h, hE.field]
    rfl

/-- Values at the names in place of values at the places. -/
theorem exists_values (a : Fin fields.length → ℂ) : ∃ w : Str → ℂ, ∀ j : Fin fields.length, w fields[j] = a j := by
  refine ⟨fun x => if hx : fields.idxOf x < fields.length then a ⟨_, hx⟩ else 0, fun j => ?_⟩
  have hidx : fields.idxOf fields[j] = j.val := hE.nodup.idxOf_getElem j.val j.2
  simp only
  rw [dif_pos (by rw [hidx]; exact j.2)]
  congr 1
  exact Fin.ext hidx

theorem nonzero_iff (w : Str → ℂ) : (∃ f ∈ N.fields, w f ≠ 0) ↔ (fun j : Fin fields.length => w fields[j]) ≠ 0 := by
  constructor
  · rintro ⟨f, hf, hwf⟩ h0
    rw [← hE.names] at hf
    obtain ⟨j, hj, rfl⟩ := List.getElem_of_mem hf
    exact hwf (congrFun h0 ⟨j, hj⟩)
  · intro h
    obtain ⟨j, hj⟩ := Function.ne_iff.mp h
    exact ⟨fields[j], by rw [← hE.names]; exact List.getElem_mem _, hj⟩

theorem multipliers_inside (c : Str → ℂ) (freq : Frequency n) (z : Str → ℂ) (k : Fin n)
    (hl : ∀ l, IsGrowthRate N c freq eqs z k l → l.re < 0) :
    ∃ dt0 : ℝ, 0 < dt0 ∧ ∀ dt : ℝ, 0 < dt → dt < dt0 → ∀ μ, IsMultiplier N c freq dt eqs z k μ → ‖μ‖ < 1 := by
  obtain ⟨dt0, h0, h1⟩ := Proofs.steps_inside (newMatrix N c freq fields E z k) (waveMatrix N c freq fields E z k) (by
    intro l a ha hla
    obtain ⟨w, hw⟩ := exists_values hE a
    obtain rfl : (fun j : Fin fields.length => w fields[j]) = a := funext hw
    exact hl l ⟨w, (nonzero_iff hE w).mpr ha, (growth_eigen hE c freq z w k l).mpr hla⟩)
  refine ⟨dt0, h0, fun dt hdt hlt μ ⟨w, hw, hμ⟩ => ?_⟩
  exact h1 dt hdt hlt μ _ ((nonzero_iff hE w).mp hw) ((multiplier_stepsBy hE c freq dt z w k μ).mp hμ)

theorem multipliers_outside (c : Str → ℂ) (freq : Frequency n) (z : Str → ℂ) (k : Fin n) {l : ℂ}
    (hl : IsGrowthRate N c freq eqs z k l) (hpos : 0 < l.re) :
    ∃ dt0 : ℝ, 0 < dt0 ∧ ∀ dt : ℝ, 0 < dt → dt < dt0 → ∃ μ, IsMultiplier N c freq dt eqs z k μ ∧ 1 < ‖μ‖ := by
  obtain ⟨w, hw, hlw⟩ := hl
  obtain ⟨dt0, h0, h1⟩ := Proofs.steps_outside (newMatrix N c freq fields E z k) (waveMatrix N c freq fields E z k)
    ((nonzero_iff hE w).mp hw) ((growth_eigen hE c freq z w k l).mp hlw) hpos
  refine ⟨dt0, h0, fun dt hdt hlt => ?_⟩
  obtain ⟨μ, a, ha, hμ, hbig⟩ := h1 dt hdt hlt
  obtain ⟨w', hw'⟩ := exists_values hE a
  obtain rfl : (fun j : Fin fields.length => w' fields[j]) = a := funext hw'
  exact ⟨μ, ⟨w', (nonzero_iff hE w').mpr ha, (multiplier_stepsBy hE c freq dt z w' k μ).mpr hμ⟩, hbig⟩

end

theorem waveRate_still {N : Names} {eq : Equation} (c : Str → ℂ) {freq : Frequency n} (z : Str → ℂ)
    {k : Fin n} (hk : laplaceSymbol (freq k) = 0) (f : Str) : waveRate N c freq eq z k f = reactionRate N c eq z f := by
  unfold waveRate linearSeen reactionRate
  congr 1
  apply List.map_congr_left
  intro p _
  rw [hk, ite_self]
  by_cases h0 : (laplacians p.1).sum = 0
  · rw [if_pos h0, h0, pow_zero, mul_one]
  · rw [if_neg h0, zero_pow h0, mul_zero, zero_mul]

theorem linear_waves {N : Names} {eqs : List Equation} {E : Fin N.fields.length → Equation} (hE : Ordered N eqs N.fields E)
    {eq : Equation} (he : eq ∈ eqs) (c : Str → ℂ) (freq : Frequency n) (z w : Str → ℂ) (k : Fin n) :
    linearSeen N c freq eq z k w w = (N.fields.map fun f => waveRate N c freq eq z k f * w f).sum := by
  obtain ⟨i, hi, rfl⟩ := List.getElem_of_mem he
  rw [ordered_get hE i hi, linearSeen_sum hE, ← Fin.sum_univ_fun_getElem]
  refine Finset.sum_congr rfl fun j _ => ?_
  simp only [Fin.getElem_fin]
  ring

theorem single_sum (fields : List Str) (hnd : fields.Nodup) (w : Str → ℂ) {x : Str} (hx : x ∈ fields) :
    (fields.map fun f => (Pi.single f 1 : Str → ℂ) x * w f).sum = w x := by
  induction fields with
  | nil => simp at hx
  | cons f fields ih =>
    rw [List.map_cons, List.sum_cons]
    obtain ⟨h1, h2⟩ := List.nodup_cons.mp hnd
    rcases List.mem_cons.mp hx with rfl | hx
    · have : (fields.map fun f => (Pi.single f 1 : Str → ℂ) x * w f).sum = 0 := by
        apply List.sum_eq_zero
        intro y hy
        obtain ⟨f, hf, rfl⟩ := List.mem_map.mp hy
        rw [Pi.single_eq_of_ne (fun e : x = f => h1 (e ▸ hf)), zero_mul]
      rw [this, Pi.single_eq_same, one_mul, add_zero]
    · rw [ih h2 hx, Pi.single_eq_of_ne (fun e : x = f => h1 (e ▸ hx)), zero_mul, zero_add]

theorem linear_diffusing {N : Names} {eqs : List Equation} {E : Fin N.fields.length → Equation} (hE : Ordered N eqs N.fields E)
    {eq : Equation} (he : eq ∈ eqs) (hd : Diffusing N eq) (c : Str → ℂ) (freq : Frequency n) (z w : Str → ℂ) (k : Fin n) :
    linearSeen N c freq eq z k w w = (N.fields.map fun f => reactionRate N c eq z f * w f).sum +
      diffusivity N c eq * laplaceSymbol (freq k) * w eq.field := by
  have hx : eq.field ∈ N.fields := by
    obtain ⟨i, hi, rfl⟩ := List.getElem_of_mem he
    rw [ordered_get hE i hi, hE.field]
    exact List.getElem_mem _
  rw [linear_waves hE he]
  have e : (fun f => waveRate N c freq eq z k f * w f) = fun f => reactionRate N c eq z f * w f +
      diffusivity N c eq * laplaceSymbol (freq k) * ((Pi.single f 1 : Str → ℂ) eq.field * w f) := by
    funext f
    rw [waveRate_split hd]
    ring
  rw [e, List.sum_map_add, List.sum_map_mul_left, single_sum _ hE.nodup w hx]

theorem divisors_small (N : Names) (c : Str → ℂ) (freq : Frequency n) (eqs : List Equation) :
    ∃ dt0 : ℝ, 0 < dt0 ∧ ∀ dt : ℝ, 0 < dt → dt < dt0 → ∀ eq ∈ eqs, ∀ k, 1 - dt * implicitRate N c freq eq k ≠ 0 := by
  induction eqs with
  | nil => exact ⟨1, one_pos, fun _ _ _ => by simp⟩
  | cons eq eqs ih =>
    obtain ⟨d1, a1, b1⟩ := ih
    have ev : ∀ᶠ dt : ℝ in nhds (0 : ℝ), ∀ k, (1 : ℂ) - dt * implicitRate N c freq eq k ≠ 0 := by
      refine Filter.eventually_all.mpr fun k => ?_
      have hc : Continuous fun dt : ℝ => (1 : ℂ) - dt * implicitRate N c freq eq k := by fun_prop
      exact hc.continuousAt.eventually_ne (by simp)
    obtain ⟨d2, a2, b2⟩ := Metric.eventually_nhds_iff.mp ev
    refine ⟨min d1 d2, lt_min a1 a2, fun dt hdt hlt e he => ?_⟩
    rcases List.mem_cons.mp he with rfl | he
    · exact b2 (by rw [Real.dist_eq, sub_zero, abs_of_pos hdt]; exact hlt.trans_le (min_le_right _ _))
    · exact b1 dt hdt (hlt.trans_le (min_le_left _ _)) e he

theorem all_small {P : Fin n → ℝ → Prop} (h : ∀ k, ∃ dt0 : ℝ, 0 < dt0 ∧ ∀ dt, 0 < dt → dt < dt0 → P k dt) :
    ∃ dt0 : ℝ, 0 < dt0 ∧ ∀ dt, 0 < dt → dt < dt0 → ∀ k, P k dt := by
  choose d h1 h2 using h
  have ev : ∀ᶠ dt : ℝ in nhds (0 : ℝ), ∀ k, dt < d k := Filter.eventually_all.mpr fun k => gt_mem_nhds (h1 k)
  obtain ⟨d0, a, b⟩ := Metric.eventually_nhds_iff.mp ev
  refine ⟨d0, a, fun dt hdt hlt k => h2 k dt hdt ?_⟩
  exact b (by rw [Real.dist_eq, sub_zero, abs_of_pos hdt]; exact hlt) k

/-- Uniform perturbations are a wave. -/
theorem reaction_growth (h : ∀ d ∈ dims, 0 < d) {N : Names} {eqs : List Equation} {E : Fin N.fields.length → Equation}
    (hE : Ordered N eqs N.fields E) {c : Str → ℂ} {z : Str → ℂ} {l : ℂ} (hr : IsReactionRate N c eqs z l) :
    IsGrowthRate N c (freqOf dims) eqs z ⟨0, Nat.pos_of_ne_zero (by exact_mod_cast prod_ne_zero h)⟩ l := by
  have hpr : 0 < dims.prod := Nat.pos_of_ne_zero (by exact_mod_cast prod_ne_zero h)
  obtain ⟨w, hw, hlw⟩ := hr
  refine ⟨w, hw, fun eq he => ?_⟩
  have hk : laplaceSymbol (freqOf dims ⟨0, hpr⟩) = 0 := by
    have hx := freqOf_zero dims ⟨0, hpr⟩ rfl
    have : ((freqOf dims ⟨0, hpr⟩).map fun x => x ^ 2).sum = 0 := List.sum_eq_zero (by
      intro y hy
      obtain ⟨x, hxm, rfl⟩ := List.mem_map.mp hy
      rw [hx x hxm]
      norm_num)
    rw [symbol_number]
    unfold laplaceNumber
    rw [this]
    simp
  rw [linear_waves hE he, ← hlw eq he]
  simp only [waveRate_still c z hk]

/-- Equal diffusion only takes from the growth rates. -/
theorem alike_decays {N : Names} {eqs : List Equation} {E : Fin N.fields.length → Equation}
    (hE : Ordered N eqs N.fields E) {c : Str → ℂ} {z : Str → ℂ} {D : ℝ} (hD : 0 ≤ D)
    (hd : ∀ eq ∈ eqs, Diffusing N eq ∧ diffusivity N c eq = D) (hr : ∀ l, IsReactionRate N c eqs z l → l.re < 0)
    {k : Fin dims.prod} {l : ℂ} (hg : IsGrowthRate N c (freqOf dims) eqs z k l) : l.re < 0 := by
  obtain ⟨w, hw, hlw⟩ := hg
  have hlt := hr (l + ((D * laplaceNumber dims k : ℝ) : ℂ)) ⟨w, hw, fun eq he => ?_⟩
  · rw [Complex.add_re, Complex.ofReal_re] at hlt
    have := mul_nonneg hD (laplaceNumber_nonneg' k)
    linarith
  · have := hlw eq he
    rw [linear_diffusing hE he (hd eq he).1, (hd eq he).2, symbol_number] at this
    push_cast at this ⊢
    linear_combination this

/-! ### The claims -/

section
variable (h : GoodDims (intDims dims)) (hl : LayoutOk dims) (N : Names) (hN : N.WellNamed) (hfn : N.functions = [])
    (m0 : EqModel dims.prod) (h0 : StartsAs N m0) (heq : m0.equations = [])
    (eqs : List Equation) (hq : ∀ eq ∈ eqs, eq.Polynomial N ∧ Unregistered m0 eq)
    (hnat : ∀ eq ∈ eqs, ∀ p ∈ eq.terms, ∀ g ∈ factorsIn N.varying p.1, ∃ q : ℕ, g.power = q)
    (ss : List Str) (hs : ss.map (fun s => s.filter fun c => c ≠ ' ') = eqs.map Equation.text)
    (hord : eqs.map Equation.field = N.fields) (c : Str → ℂ) (hc : ∀ x ∈ N.scalars, (c x).im = 0)
    (hpow : ∀ eq ∈ eqs, Equation.RealPowers N c eq)

include hN hfn hnat hord in
theorem exists_ordered : ∃ E : Fin N.fields.length → Equation, Ordered N eqs N.fields E := by
  have hlen : eqs.length = N.fields.length := by rw [← hord, List.length_map]
  have hall := hN.nodup
  simp only [Names.all, Names.varying] at hall
  refine ⟨fun i => eqs[i.val]'(by rw [hlen]; exact i.2), ?_⟩
  constructor
  · rfl
  · exact hfn
  · exact (List.nodup_append.mp (List.nodup_append.mp hall).1).1
  · exact hlen
  · intro i
    exact List.getElem?_eq_getElem _
  · intro i
    simp only [Fin.getElem_fin]
    have : (eqs.map Equation.field)[i.val]'(by rw [List.length_map, hlen]; exact i.2) = N.fields[i.val] := by
      simp only [hord]
    rwa [List.getElem_map] at this
  · intro i p hp g hg
    exact hnat _ (List.getElem_mem _) p hp g hg

include h hN hfn h0 heq hq hnat hs hord

/-- C164: if every growth rate of every wave has a negative real part, small perturbations die out with all time steps that
are short enough. -/
theorem c164_settles : ∃ m M, ss.foldlM EqModel.addEquation m0 = some m ∧ m.fields = N.fields ∧ m.assemble c = some M ∧
      ∀ z : Str → ℂ, (∀ eq ∈ eqs, uniformSystemRate N c eq z = 0) →
      (∀ k l, IsGrowthRate N c (freqOf dims) eqs z k l → l.re < 0) →
      ∃ dt0 : ℝ, 0 < dt0 ∧ ∀ s : Stepper dims.prod, s.filter = none → s.freq = freqOf dims → 0 < s.dt → s.dt < dt0 →
        DiesOut M s fun i => z m.fields[i] := by
  obtain ⟨E, hE⟩ := exists_ordered N hN hfn eqs hnat hord
  obtain ⟨m, M, a1, a2, a3, a4⟩ := c161_stable h N hN hfn m0 h0 heq eqs hq hnat ss hs hord c
  refine ⟨m, M, a1, a2, a3, fun z hz hg => ?_⟩
  obtain ⟨d1, b1, b2⟩ := divisors_small N c (freqOf dims) eqs
  obtain ⟨d2, c1, c2⟩ := all_small fun k => multipliers_inside hE c (freqOf dims) z k (hg k)
  refine ⟨min d1 d2, lt_min b1 c1, fun s hfil hfreq hdt hlt => ?_⟩
  exact a4 z hz s hfil hfreq (b2 s.dt hdt (hlt.trans_le (min_le_left _ _))) (c2 s.dt hdt (hlt.trans_le (min_le_right _ _)))

include hl hc hpow in
/-- C164: if some growth rate of some wave has a positive real part, some real perturbations, as small as one likes, leave
with all time steps that are short enough. -/
theorem c164_leaves : ∃ m M, ss.foldlM EqModel.addEquation m0 = some m ∧ m.fields = N.fields ∧ m.assemble c = some M ∧
      ∀ z : Str → ℂ, (∀ eq ∈ eqs, uniformSystemRate N c eq z = 0) → (∀ f ∈ N.fields, (z f).im = 0) →
      (∃ k l, IsGrowthRate N c (freqOf dims) eqs z k l ∧ 0 < l.re) →
      ∃ dt0 : ℝ, 0 < dt0 ∧ ∀ s : Stepper dims.prod, s.filter = none → s.freq = freqOf dims → 0 < s.dt → s.dt < dt0 →
        GoesAway M s fun i => z m.fields[i] := by
  obtain ⟨E, hE⟩ := exists_ordered N hN hfn eqs hnat hord
  obtain ⟨m, M, a1, a2, a3, a4⟩ := c161_leaves h hl N hN hfn m0 h0 heq eqs hq hnat ss hs hord c hc hpow
  refine ⟨m, M, a1, a2, a3, fun z hz hzr ⟨k, l, hg, hpos⟩ => ?_⟩
  obtain ⟨d1, b1, b2⟩ := divisors_small N c (freqOf dims) eqs
  obtain ⟨d2, c1, c2⟩ := multipliers_outside hE c (freqOf dims) z k hg hpos
  refine ⟨min d1 d2, lt_min b1 c1, fun s hfil hfreq hdt hlt => ?_⟩
  exact a4 z hz hzr s hfil hfreq (b2 s.dt hdt (hlt.trans_le (min_le_left _ _)))
    ⟨k, c2 s.dt hdt (hlt.trans_le (min_le_right _ _))⟩

include hl hc hpow in
/-- C164: if uniform perturbations grow, the Laplacians cannot prevent it. -/
theorem c164_reaction : ∃ m M, ss.foldlM EqModel.addEquation m0 = some m ∧ m.fields = N.fields ∧ m.assemble c = some M ∧
      ∀ z : Str → ℂ, (∀ eq ∈ eqs, uniformSystemRate N c eq z = 0) → (∀ f ∈ N.fields, (z f).im = 0) →
      (∃ l, IsReactionRate N c eqs z l ∧ 0 < l.re) →
      ∃ dt0 : ℝ, 0 < dt0 ∧ ∀ s : Stepper dims.prod, s.filter = none → s.freq = freqOf dims → 0 < s.dt → s.dt < dt0 →
        GoesAway M s fun i => z m.fields[i] := by
  obtain ⟨E, hE⟩ := exists_ordered N hN hfn eqs hnat hord
  obtain ⟨m, M, a1, a2, a3, a4⟩ := c164_leaves h hl N hN hfn m0 h0 heq eqs hq hnat ss hs hord c hc hpow
  exact ⟨m, M, a1, a2, a3, fun z hz hzr ⟨l, hr, hpos⟩ => a4 z hz hzr ⟨_, l, reaction_growth (pos_of_goodDims h) hE hr, hpos⟩⟩

/-- C164: if the fields diffuse alike and uniform perturbations die out, so do all small perturbations. -/
theorem c164_alike : ∃ m M, ss.foldlM EqModel.addEquation m0 = some m ∧ m.fields = N.fields ∧ m.assemble c = some M ∧
      ∀ z : Str → ℂ, (∀ eq ∈ eqs, uniformSystemRate N c eq z = 0) →
      ∀ D : ℝ, 0 ≤ D → (∀ eq ∈ eqs, Diffusing N eq ∧ diffusivity N c eq = D) →
      (∀ l, IsReactionRate N c eqs z l → l.re < 0) →
      ∃ dt0 : ℝ, 0 < dt0 ∧ ∀ s : Stepper dims.prod, s.filter = none → s.freq = freqOf dims → 0 < s.dt → s.dt < dt0 →
        DiesOut M s fun i => z m.fields[i] := by
  obtain ⟨E, hE⟩ := exists_ordered N hN hfn eqs hnat hord
  obtain ⟨m, M, a1, a2, a3, a4⟩ := c164_settles h N hN hfn m0 h0 heq eqs hq hnat ss hs hord c
  exact ⟨m, M, a1, a2, a3, fun z hz D hD hd hr => a4 z hz fun k l hg => alike_decays hE hD hd hr hg⟩

end

end Gopf.Props
