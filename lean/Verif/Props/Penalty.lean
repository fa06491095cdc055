import Verif.Model.Penalty
import Verif.Props.Stability

/-!
# C150: what the penalty for negative values does in a simulation
-/

namespace Gopf.Props
open Spec Pf Pfutil Filter Topology

variable {n : ℕ} {dims : List ℕ}

/-! ### A field that is driven by a registered function alone -/

/-- A model of one field and one function. -/
def drivenNames (f g : Str) : Names := ⟨[f], [g], []⟩

/-- `df/dt = g` or `df/dt = -g` -/
def drivenEquation (f g : Str) (lead : Option Char) : Equation := ⟨f, lead, [⟨none, some ⟨g, none⟩⟩], []⟩

/-- The equation as text, without spaces. -/
def drivenText (f g : Str) (lead : Option Char) : Str := 'd' :: (f ++ "/dt=".toList ++ lead.toList ++ g)

theorem driven_text (f g : Str) (lead : Option Char) : (drivenEquation f g lead).text = drivenText f g lead := by
  cases lead <;>
  simp [Equation.text, drivenEquation, drivenText, Equation.sum, SignedSum.render, productText, Item.text, lapText, facText,
    Factor.text, Spec.powerText, List.intercalate, renderTail]

theorem driven_monomial {f g : Str} (hfg : f ≠ g) : Monomial (drivenNames f g) [⟨none, some ⟨g, none⟩⟩] where
  readable :=
    { wf := by
        intro i hi
        obtain rfl := List.mem_singleton.mp hi
        exact ⟨by simp, by simp, by simp, by simp [Names.all, Names.varying, drivenNames], by simp⟩
      oneLap := by simp [laplacians]
      lapFirst := by
        intro pre i post h hl j hj
        cases pre with
        | nil => simp at hj
        | cons p pre => simp at h
      together := ⟨[], [⟨none, some ⟨g, none⟩⟩], [], by simp, by simp, by simp,
        by simp [Names.varying, drivenNames], by simp, by simp⟩ }
  once := by
    intro x _
    exact (List.length_filter_le _ _)
  kind := Or.inr ⟨g, by simp [drivenNames], by simp [factorsIn, drivenNames, Names.varying]⟩
  exactOne := by
    intro x hx _
    simp [factorsIn, drivenNames, Ne.symm hfg] at hx

theorem driven_polynomial {f g : Str} (hfg : f ≠ g) {lead : Option Char} (hl : lead = none ∨ lead = some '-') :
    (drivenEquation f g lead).Polynomial (drivenNames f g) where
  field := by simp [drivenEquation, drivenNames]
  lead := by
    intro c hc
    rcases hl with rfl | rfl
    · simp [drivenEquation] at hc
    · right; simpa [drivenEquation] using hc.symm
  signs := by simp [drivenEquation]
  monomials := by
    intro p hp
    simp only [Equation.terms, drivenEquation, List.map_nil, List.mem_singleton] at hp
    rw [hp]
    exact driven_monomial hfg

/-- One field and one function of it, registered under the name `g`. -/
def drivenModel (n : ℕ) (f g : Str) (φ : ℂ → ℂ) : EqModel n :=
  (EqModel.empty.addField f).registerFunction g fun b i => φ (b f i)

theorem driven_step (h : ∀ d ∈ dims, 0 < d) {f g : Str} (hN : (drivenNames f g).WellNamed) (φ : ℂ → ℂ) {lead : Option Char}
    (hl : lead = none ∨ lead = some '-') (s0 : Str) (hs : s0.filter (fun c => c ≠ ' ') = drivenText f g lead) :
    ∃ m M, (drivenModel dims.prod f g φ).addEquation s0 = some m ∧ m.fields = [f] ∧ m.assemble (fun _ => 0) = some M ∧
      ∀ s : Stepper dims.prod, s.filter = none → ∀ (st : Store m.fields.length m.derived.length dims.prod)
        (i : Fin m.fields.length), (eulerStep M (s, st)).2.fields i =
          fun x => st.fields i x + signOf lead * s.dt * φ (st.fields i x) := by
  have hfg : f ≠ g := by
    have := hN.nodup
    simpa [drivenNames, Names.all, Names.varying] using this
  obtain ⟨m, M, hadd, hf, has, hstep⟩ := c97_euler h (drivenNames f g) hN (drivenModel dims.prod f g φ)
    ⟨rfl, rfl, fun x => Iff.rfl⟩ rfl (by
      intro p hp u u' h1 _
      obtain rfl := List.mem_singleton.mp hp
      have := h1 f (by simp [drivenNames])
      simp only [Calc.eval, this]) [drivenEquation f g lead]
    (by
      intro eq heq
      obtain rfl := List.mem_singleton.mp heq
      exact ⟨driven_polynomial hfg hl, fun _ _ => ⟨rfl, rfl⟩⟩) [s0]
    (by rw [List.map_cons, List.map_nil, List.map_cons, List.map_nil, hs, driven_text]) (by simp [drivenNames]) fun _ => 0
  have hadd1 : (drivenModel dims.prod f g φ).addEquation s0 = some m := by
    rw [List.foldlM_cons] at hadd
    simp only [List.foldlM_nil] at hadd
    cases hm : (drivenModel dims.prod f g φ).addEquation s0 with
    | none => rw [hm] at hadd; simp at hadd
    | some m' => rw [hm] at hadd; simpa using hadd
  have hf' : m.fields = [f] := hf
  refine ⟨m, M, hadd1, hf', has, ?_⟩
  intro s hfil st i
  have hlen : m.fields.length = 1 := by rw [hf']; rfl
  have hi0 : i.val = 0 := by have := i.2; omega
  have hget : ∀ j : Fin m.fields.length, m.fields[j] = f := by
    intro j
    have : m.fields[j] ∈ m.fields := List.getElem_mem j.2
    generalize m.fields[j] = a at this
    rw [hf'] at this
    simpa using this
  have hij : ∀ j : Fin m.fields.length, j = i := fun j => Fin.ext (by have := j.2; omega)
  set u : Str → Data dims.prod := fun x => if x = f then st.fields i else fun y => φ (st.fields i y) with hu
  have uf : u f = st.fields i := if_pos rfl
  have ug : u g = fun y => φ (st.fields i y) := if_neg (Ne.symm hfg)
  have hlin : ∀ k, linearFactor (drivenNames f g) f u s.freq k ([⟨none, some ⟨g, none⟩⟩], lead) = 0 := by
    intro k
    unfold linearFactor
    apply if_neg
    rintro ⟨h1, -⟩
    simp [occurrences, Item.name?, Ne.symm hfg] at h1
  apply fft_injective h
  funext k
  have key := hstep i (drivenEquation f g lead) (by rw [hi0]; rfl) (hget i).symm (c97_first M i hi0) s hfil st u
    (by intro j; rw [hget j, uf, hij j]) (by intro x hx; simp [drivenNames] at hx)
    (by
      intro p hp
      obtain rfl := List.mem_singleton.mp hp
      show u g = fun y => φ (u f y)
      rw [ug, uf]) k
  have ht : (drivenEquation f g lead).terms = [([⟨none, some ⟨g, none⟩⟩], lead)] := rfl
  have hfd : (drivenEquation f g lead).field = f := rfl
  rw [ht, hfd] at key
  simp only [List.map_cons, List.map_nil, List.sum_cons, List.sum_nil, hlin, add_zero, mul_zero, sub_zero, mul_one] at key
  have key := key one_ne_zero
  have hv : Equation.value (drivenNames f g) (spectralLaplacian (fft dims)
      (fun x => divRealScalar (ifft dims x) (dims.prod : ℕ)) s.freq) (fun _ => 0) u (drivenEquation f g lead) =
      (signOf lead : ℂ) • fun y => φ (st.fields i y) := by
    unfold Equation.value
    rw [ht]
    have e1 : factorsIn (drivenNames f g).scalars [⟨none, some ⟨g, none⟩⟩] = [] := by simp [factorsIn, drivenNames]
    have e2 : factorsIn (drivenNames f g).varying [⟨none, some ⟨g, none⟩⟩] = [⟨g, none⟩] := by
      simp [factorsIn, drivenNames, Names.varying]
    have e3 : laplacians [⟨none, some ⟨g, none⟩⟩] = [] := by simp [laplacians]
    simp only [List.map_cons, List.map_nil, List.sum_cons, List.sum_nil, e1, e2, e3, List.prod_nil, mul_one,
      Function.iterate_zero, id_eq, add_zero, productValue_single, ug]
  have hv' : ((signOf lead : ℂ) • fun y => φ (st.fields i y)) = fun y => (signOf lead : ℂ) * φ (st.fields i y) := by
    funext y; simp
  rw [hv, hv', fft_smul] at key
  rw [fft_add (dims := dims) (st.fields i) (fun x => signOf lead * s.dt * φ (st.fields i x)) k, fft_smul]
  linear_combination key

/-- C150: a field whose equation consists of one registered function of it is advanced node by node: each Euler step
adds `dt` times the function (with its sign) to the value of the node, and the nodes do not see each other. -/
theorem c150_nodes (h : ∀ d ∈ dims, 0 < d) {f g : Str} (hN : (drivenNames f g).WellNamed) (φ : ℂ → ℂ) {lead : Option Char}
    (hl : lead = none ∨ lead = some '-') (s0 : Str) (hs : s0.filter (fun c => c ≠ ' ') = drivenText f g lead) :
    ∃ m M, (drivenModel dims.prod f g φ).addEquation s0 = some m ∧ m.fields = [f] ∧ m.assemble (fun _ => 0) = some M ∧
      ∀ s : Stepper dims.prod, s.filter = none → ∀ (st : Store m.fields.length m.derived.length dims.prod)
        (i : Fin m.fields.length) (steps : ℕ) (x : Fin dims.prod), (eulerPropagate M steps (s, st)).2.fields i x =
          (fun z => z + signOf lead * s.dt * φ z)^[steps] (st.fields i x) := by
  obtain ⟨m, M, h1, h2, h3, h4⟩ := driven_step h hN φ hl s0 hs
  refine ⟨m, M, h1, h2, h3, ?_⟩
  intro s hfil st i steps x
  rw [propagate_iterate (F := fun v y => v y + signOf lead * s.dt * φ (v y)) ?_ st steps]
  · have : ∀ (k : ℕ) (v : Data dims.prod), (fun (v : Data dims.prod) y => v y + signOf lead * s.dt * φ (v y))^[k] v x =
        (fun z => z + signOf lead * s.dt * φ z)^[k] (v x) := by
      intro k
      induction k with
      | zero => intro v; rfl
      | succ k ih => intro v; rw [Function.iterate_succ_apply, Function.iterate_succ_apply, ih]
    exact this steps _
  · intro s' e1 e2 e3 st'
    rw [h4 s' (e3.trans hfil), e1]

/-! ### The penalty -/

/-- The sign with which the penalty pushes negative values towards zero: it has to be subtracted for odd exponents and
to be added for even ones. -/
def Restoring (lead : Option Char) (q : ℕ) : Prop := lead = some '-' ↔ Odd q

instance (lead : Option Char) (q : ℕ) : Decidable (Restoring lead q) := inferInstanceAs (Decidable (_ ↔ _))

/-- One step of the penalty for a negative number: `a |x|^(q-1)` is added. -/
theorem penalty_sign {lead : Option Char} (hl : lead = none ∨ lead = some '-') {q : ℕ} (hq : 2 ≤ q) (P dt : ℝ) {x : ℝ}
    (hx : x ≤ 0) : (signOf lead : ℝ) * dt * penalty P q x =
      (if Restoring lead q then 1 else -1) * (2 * P * q * dt * |x| ^ (q - 1)) := by
  obtain ⟨m, rfl⟩ : ∃ m, q = m + 1 := ⟨q - 1, by omega⟩
  unfold penalty
  rw [if_neg (by linarith), Nat.add_sub_cancel]
  have s1 : signOf (some '-') = -1 := by decide
  have s2 : signOf none = 1 := by decide
  rcases Nat.even_or_odd m with hm | hm
  · have ho : Odd (m + 1) := hm.add_one
    rw [hm.pow_abs]
    rcases hl with rfl | rfl
    · rw [if_neg (by simp [Restoring, ho]), s2]; push_cast; ring
    · rw [if_pos (by simp [Restoring, ho]), s1]; push_cast; ring
  · have ho : ¬ Odd (m + 1) := by rw [Nat.not_odd_iff_even]; exact hm.add_one
    rw [abs_of_nonpos hx, hm.neg_pow]
    rcases hl with rfl | rfl
    · rw [if_pos (by simp [Restoring, ho]), s2]; push_cast; ring
    · rw [if_neg (by simp [Restoring, ho]), s1]; push_cast; ring

/-- What one step does to the value of a node. -/
noncomputable def penaltyStep (lead : Option Char) (P : ℝ) (q : ℕ) (dt : ℝ) (x : ℝ) : ℝ :=
  x + signOf lead * dt * penalty P q x

theorem penaltyStep_nonneg (lead : Option Char) (P : ℝ) {q : ℕ} (hq : 2 ≤ q) (dt : ℝ) {x : ℝ} (hx : 0 ≤ x) :
    penaltyStep lead P q dt x = x := by
  unfold penaltyStep penalty
  rcases hx.lt_or_eq with h | rfl
  · rw [if_pos h]; ring
  · rw [if_neg (lt_irrefl _), zero_pow (by omega)]; ring

theorem penaltyStep_neg {lead : Option Char} (hl : lead = none ∨ lead = some '-') {q : ℕ} (hq : 2 ≤ q) (P dt : ℝ) {x : ℝ}
    (hx : x ≤ 0) : penaltyStep lead P q dt x = x + (if Restoring lead q then 1 else -1) * (2 * P * q * dt * |x| ^ (q - 1)) := by
  unfold penaltyStep
  rw [penalty_sign hl hq P dt hx]

theorem penaltyStep_complex (lead : Option Char) (P : ℝ) (q : ℕ) (dt : ℝ) (z : ℂ) (k : ℕ) :
    (fun z : ℂ => z + signOf lead * dt * ((penalty P q z.re : ℝ) : ℂ))^[k] z =
      ⟨(penaltyStep lead P q dt)^[k] z.re, z.im⟩ := by
  induction k generalizing z with
  | zero => rfl
  | succ k ih =>
    have e : z + signOf lead * dt * ((penalty P q z.re : ℝ) : ℂ) = ⟨penaltyStep lead P q dt z.re, z.im⟩ := by
      have : (signOf lead : ℂ) * dt * ((penalty P q z.re : ℝ) : ℂ) = ((signOf lead * dt * penalty P q z.re : ℝ) : ℂ) := by
        push_cast; ring
      rw [this]
      apply Complex.ext
      · simp [penaltyStep]
      · simp
    rw [Function.iterate_succ_apply, Function.iterate_succ_apply, e, ih]

theorem penaltyStep_stays (lead : Option Char) (P : ℝ) {q : ℕ} (hq : 2 ≤ q) (dt : ℝ) {x : ℝ} (hx : 0 ≤ x) (k : ℕ) :
    (penaltyStep lead P q dt)^[k] x = x :=
  Function.iterate_fixed (penaltyStep_nonneg lead P hq dt hx) k

section
variable {lead : Option Char} (hl : lead = none ∨ lead = some '-') {q : ℕ} (hq : 2 ≤ q) {P dt : ℝ} (hP : 0 < P) (hdt : 0 < dt)
include hl hq hP hdt

omit hl in
theorem strength_pos : 0 < 2 * P * q * dt := by
  have : (0 : ℝ) < q := by exact_mod_cast (by omega : 0 < q)
  positivity

/-- Values that one step does not carry beyond zero. -/
theorem penalty_small (hr : Restoring lead q) {x : ℝ} (hx : x ≤ 0) (hs : 2 * P * q * dt * |x| ^ (q - 2) ≤ 1) :
    x ≤ penaltyStep lead P q dt x ∧ penaltyStep lead P q dt x ≤ 0 ∧
      2 * P * q * dt * |penaltyStep lead P q dt x| ^ (q - 2) ≤ 1 := by
  have ha := strength_pos hq hP hdt
  set a := 2 * P * q * dt with hadef
  have e : penaltyStep lead P q dt x = x + a * |x| ^ (q - 1) := by
    rw [penaltyStep_neg hl hq P dt hx, if_pos hr, one_mul]
  have hpow : |x| ^ (q - 1) = |x| ^ (q - 2) * |x| := by
    rw [← pow_succ]; congr 1; omega
  have h1 : a * |x| ^ (q - 1) ≤ |x| := by
    rw [hpow, ← mul_assoc]
    exact mul_le_of_le_one_left (abs_nonneg x) hs
  have h2 : 0 ≤ a * |x| ^ (q - 1) := by positivity
  have hax : |x| = -x := abs_of_nonpos hx
  have hle : x ≤ penaltyStep lead P q dt x := by rw [e]; linarith
  have hle0 : penaltyStep lead P q dt x ≤ 0 := by rw [e]; rw [hax] at h1 ⊢; linarith
  refine ⟨hle, hle0, ?_⟩
  refine le_trans ?_ hs
  apply mul_le_mul_of_nonneg_left _ ha.le
  apply pow_le_pow_left₀ (abs_nonneg _)
  rw [abs_of_nonpos hle0, hax]
  linarith

theorem penalty_small_all (hr : Restoring lead q) {x : ℝ} (hx : x ≤ 0) (hs : 2 * P * q * dt * |x| ^ (q - 2) ≤ 1) (k : ℕ) :
    (penaltyStep lead P q dt)^[k] x ≤ 0 ∧ 2 * P * q * dt * |(penaltyStep lead P q dt)^[k] x| ^ (q - 2) ≤ 1 := by
  induction k with
  | zero => exact ⟨hx, hs⟩
  | succ k ih =>
    rw [Function.iterate_succ_apply']
    exact (penalty_small hl hq hP hdt hr ih.1 ih.2).2

theorem penalty_monotone (hr : Restoring lead q) {x : ℝ} (hx : x ≤ 0) (hs : 2 * P * q * dt * |x| ^ (q - 2) ≤ 1) :
    Monotone fun k => (penaltyStep lead P q dt)^[k] x := by
  apply monotone_nat_of_le_succ
  intro k
  have h1 := penalty_small_all hl hq hP hdt hr hx hs k
  rw [Function.iterate_succ_apply']
  exact (penalty_small hl hq hP hdt hr h1.1 h1.2).1

theorem penalty_tendsto (hr : Restoring lead q) {x : ℝ} (hx : x ≤ 0) (hs : 2 * P * q * dt * |x| ^ (q - 2) ≤ 1) :
    Tendsto (fun k => (penaltyStep lead P q dt)^[k] x) atTop (𝓝 0) := by
  have ha := strength_pos hq hP hdt
  have hall := penalty_small_all hl hq hP hdt hr hx hs
  have hbdd : BddAbove (Set.range fun k => (penaltyStep lead P q dt)^[k] x) := ⟨0, by rintro _ ⟨k, rfl⟩; exact (hall k).1⟩
  have hlim := tendsto_atTop_ciSup (penalty_monotone hl hq hP hdt hr hx hs) hbdd
  set L := ⨆ k, (penaltyStep lead P q dt)^[k] x with hL
  have hstep : ∀ k, (penaltyStep lead P q dt)^[k + 1] x =
      (penaltyStep lead P q dt)^[k] x + 2 * P * q * dt * |(penaltyStep lead P q dt)^[k] x| ^ (q - 1) := by
    intro k
    rw [Function.iterate_succ_apply', penaltyStep_neg hl hq P dt (hall k).1, if_pos hr, one_mul]
  have h1 : Tendsto (fun k => (penaltyStep lead P q dt)^[k + 1] x) atTop (𝓝 L) :=
    (tendsto_add_atTop_iff_nat (f := fun k => (penaltyStep lead P q dt)^[k] x) 1).mpr hlim
  have h2 : Tendsto (fun k => (penaltyStep lead P q dt)^[k + 1] x) atTop (𝓝 (L + 2 * P * q * dt * |L| ^ (q - 1))) := by
    simp only [hstep]
    exact hlim.add ((hlim.abs.pow _).const_mul _)
  have h3 := tendsto_nhds_unique h1 h2
  have h4 : 2 * P * q * dt * |L| ^ (q - 1) = 0 := by linarith
  have h5 : L = 0 := by
    rcases mul_eq_zero.mp h4 with h | h
    · exact absurd h ha.ne'
    · exact abs_eq_zero.mp (pow_eq_zero_iff (by omega) |>.mp h)
  rwa [h5] at hlim

omit hP hdt in
theorem penalty_overshoots (hr : Restoring lead q) {x : ℝ} (hx : x < 0) (hs : 1 < 2 * P * q * dt * |x| ^ (q - 2)) (k : ℕ) :
    (penaltyStep lead P q dt)^[k + 1] x = x + 2 * P * q * dt * |x| ^ (q - 1) ∧ 0 < x + 2 * P * q * dt * |x| ^ (q - 1) := by
  have hpow : |x| ^ (q - 1) = |x| ^ (q - 2) * |x| := by
    rw [← pow_succ]; congr 1; omega
  have hpos : 0 < x + 2 * P * q * dt * |x| ^ (q - 1) := by
    rw [hpow, ← mul_assoc]
    have h1 : |x| < 2 * P * q * dt * |x| ^ (q - 2) * |x| := by
      have := abs_pos.mpr hx.ne
      nlinarith
    have h2 : |x| = -x := abs_of_neg hx
    linarith
  refine ⟨?_, hpos⟩
  rw [Function.iterate_succ_apply, penaltyStep_neg hl hq P dt hx.le, if_pos hr, one_mul, penaltyStep_stays lead P hq dt hpos.le]

theorem penalty_runs_away (hr : ¬ Restoring lead q) {x : ℝ} (hx : x < 0) :
    Tendsto (fun k => (penaltyStep lead P q dt)^[k] x) atTop atBot := by
  have ha := strength_pos hq hP hdt
  have hdrop : 0 < 2 * P * q * dt * |x| ^ (q - 1) := by
    have := abs_pos.mpr hx.ne
    positivity
  have hall : ∀ k : ℕ, (penaltyStep lead P q dt)^[k] x ≤ x - k * (2 * P * q * dt * |x| ^ (q - 1)) := by
    intro k
    induction k with
    | zero => simp
    | succ k ih =>
      have hneg : (penaltyStep lead P q dt)^[k] x ≤ x := by
        have : 0 ≤ (k : ℝ) * (2 * P * q * dt * |x| ^ (q - 1)) := by positivity
        linarith
      rw [Function.iterate_succ_apply', penaltyStep_neg hl hq P dt (hneg.trans hx.le), if_neg hr]
      have h1 : |x| ^ (q - 1) ≤ |(penaltyStep lead P q dt)^[k] x| ^ (q - 1) := by
        apply pow_le_pow_left₀ (abs_nonneg _)
        rw [abs_of_neg hx, abs_of_nonpos (hneg.trans hx.le)]
        linarith
      have h2 := mul_le_mul_of_nonneg_left h1 ha.le
      push_cast
      linarith
  refine tendsto_atBot_mono hall ?_
  have h1 : Tendsto (fun k : ℕ => (k : ℝ) * (2 * P * q * dt * |x| ^ (q - 1))) atTop atTop :=
    tendsto_natCast_atTop_atTop.atTop_mul_const hdrop
  have h2 := tendsto_neg_atTop_atBot.comp h1
  have h3 := tendsto_atBot_add_const_left atTop x h2
  refine h3.congr fun k => ?_
  simp [sub_eq_add_neg]

end

/-- The model with the penalty is one with a function that works node by node. -/
theorem penaltyModel_driven (p : NegativeValuePenalty) (g : Str) :
    penaltyModel n p g = drivenModel n p.field g fun z => ((penalty p.prefactor p.exponent z.re : ℝ) : ℂ) := rfl

/-- C150: the penalty for negative values, entered with the sign that restores (`df/dt = -g` for odd exponents, `df/dt = g`
for even ones), in an Euler simulation. `a = 2 P q dt`. At every node on its own: the imaginary part never changes;
values that are not negative never change; a negative value `x` with `a |x|^(q-2) ≤ 1` rises in every step, does not
become positive, and tends to zero; with `a |x|^(q-2) > 1` it becomes positive in the first step, namely
`x + a |x|^(q-1)`, and stays there. -/
theorem c150_restores (h : ∀ d ∈ dims, 0 < d) (p : NegativeValuePenalty) (g : Str) (hN : (drivenNames p.field g).WellNamed)
    (hP : 0 < p.prefactor) (hq : 2 ≤ p.exponent) {lead : Option Char} (hl : lead = none ∨ lead = some '-')
    (hr : Restoring lead p.exponent) (s0 : Str) (hs : s0.filter (fun c => c ≠ ' ') = drivenText p.field g lead) :
    ∃ m M, (penaltyModel dims.prod p g).addEquation s0 = some m ∧ m.fields = [p.field] ∧ m.assemble (fun _ => 0) = some M ∧
      ∀ s : Stepper dims.prod, s.filter = none → 0 < s.dt → ∀ (st : Store m.fields.length m.derived.length dims.prod)
        (i : Fin m.fields.length) (x : Fin dims.prod),
        (∀ k, ((eulerPropagate M k (s, st)).2.fields i x).im = (st.fields i x).im) ∧
        (0 ≤ (st.fields i x).re → ∀ k, (eulerPropagate M k (s, st)).2.fields i x = st.fields i x) ∧
        ((st.fields i x).re < 0 →
          2 * p.prefactor * p.exponent * s.dt * |(st.fields i x).re| ^ (p.exponent - 2) ≤ 1 →
          Monotone (fun k => ((eulerPropagate M k (s, st)).2.fields i x).re) ∧
          (∀ k, ((eulerPropagate M k (s, st)).2.fields i x).re ≤ 0) ∧
          Tendsto (fun k => ((eulerPropagate M k (s, st)).2.fields i x).re) atTop (𝓝 0)) ∧
        ((st.fields i x).re < 0 →
          1 < 2 * p.prefactor * p.exponent * s.dt * |(st.fields i x).re| ^ (p.exponent - 2) →
          0 < (st.fields i x).re + 2 * p.prefactor * p.exponent * s.dt * |(st.fields i x).re| ^ (p.exponent - 1) ∧
          ∀ k, ((eulerPropagate M (k + 1) (s, st)).2.fields i x).re =
            (st.fields i x).re + 2 * p.prefactor * p.exponent * s.dt * |(st.fields i x).re| ^ (p.exponent - 1)) := by
  obtain ⟨m, M, h1, h2, h3, h4⟩ := c150_nodes h hN (fun z => ((penalty p.prefactor p.exponent z.re : ℝ) : ℂ)) hl s0 hs
  refine ⟨m, M, h1, h2, h3, ?_⟩
  intro s hfil hdt st i x
  have h4 := fun k => h4 s hfil st i k x
  simp only [penaltyStep_complex] at h4
  simp only [h4]
  refine ⟨fun _ => trivial, ?_, ?_, ?_⟩
  · intro hx k
    rw [penaltyStep_stays lead _ hq _ hx]
  · intro hx hsm
    exact ⟨penalty_monotone hl hq hP hdt hr hx.le hsm, fun k => (penalty_small_all hl hq hP hdt hr hx.le hsm k).1,
      penalty_tendsto hl hq hP hdt hr hx.le hsm⟩
  · intro hx hsm
    exact ⟨(penalty_overshoots hl hq hr hx hsm 0).2, fun k => (penalty_overshoots hl hq hr hx hsm k).1⟩

/-- C150: entered with the other sign, the penalty drives every negative value to minus infinity. -/
theorem c150_drives_away (h : ∀ d ∈ dims, 0 < d) (p : NegativeValuePenalty) (g : Str) (hN : (drivenNames p.field g).WellNamed)
    (hP : 0 < p.prefactor) (hq : 2 ≤ p.exponent) {lead : Option Char} (hl : lead = none ∨ lead = some '-')
    (hr : ¬ Restoring lead p.exponent) (s0 : Str) (hs : s0.filter (fun c => c ≠ ' ') = drivenText p.field g lead) :
    ∃ m M, (penaltyModel dims.prod p g).addEquation s0 = some m ∧ m.fields = [p.field] ∧ m.assemble (fun _ => 0) = some M ∧
      ∀ s : Stepper dims.prod, s.filter = none → 0 < s.dt → ∀ (st : Store m.fields.length m.derived.length dims.prod)
        (i : Fin m.fields.length) (x : Fin dims.prod),
        (0 ≤ (st.fields i x).re → ∀ k, (eulerPropagate M k (s, st)).2.fields i x = st.fields i x) ∧
        ((st.fields i x).re < 0 → Tendsto (fun k => ((eulerPropagate M k (s, st)).2.fields i x).re) atTop atBot) := by
  obtain ⟨m, M, h1, h2, h3, h4⟩ := c150_nodes h hN (fun z => ((penalty p.prefactor p.exponent z.re : ℝ) : ℂ)) hl s0 hs
  refine ⟨m, M, h1, h2, h3, ?_⟩
  intro s hfil hdt st i x
  have h4 := fun k => h4 s hfil st i k x
  simp only [penaltyStep_complex] at h4
  simp only [h4]
  refine ⟨?_, fun hx => penalty_runs_away hl hq hP hdt hr hx⟩
  intro hx k
  rw [penaltyStep_stays lead _ hq _ hx]

/-! ### The default penalty -/

/-- For the exponent 3 the distance from zero falls like `1/(a k)`. -/
theorem penalty_rate {P dt x : ℝ} (hP : 0 < P) (hdt : 0 < dt) (hx : x < 0) (hs : 6 * P * dt * |x| ≤ 1) (k : ℕ) :
    |(penaltyStep (some '-') P 3 dt)^[k] x| ≤ 1 / (1 / |x| + k * (6 * P * dt)) := by
  have hr : Restoring (some '-') 3 := by simp [Restoring]; decide
  have hs' : 2 * P * (3 : ℕ) * dt * |x| ^ (3 - 2) ≤ 1 := by norm_num; linarith
  have ha : 0 < 6 * P * dt := by positivity
  have hall := penalty_small_all (Or.inr rfl) (by norm_num) hP hdt hr hx.le hs'
  have hx0 : 0 < |x| := abs_pos.mpr hx.ne
  induction k with
  | zero => simp
  | succ k ih =>
    have h1 := (hall k).1
    have h2 := (hall (k + 1)).1
    rw [abs_of_nonpos h2, Function.iterate_succ_apply', penaltyStep_neg (Or.inr rfl) (by norm_num) P dt h1, if_pos hr]
    have h3 := (hall k).2
    set y := (penaltyStep (some '-') P 3 dt)^[k] x with hy
    rw [abs_of_nonpos h1] at ih h3 ⊢
    push_cast at h3 ⊢
    norm_num at h3 ⊢
    set w := -y with hw
    have hw0 : 0 ≤ w := by linarith
    have e : y = -w := by ring
    set B := |x|⁻¹ + k * (6 * P * dt) with hB
    have hBpos : 0 < B := by positivity
    have ih' : w * B ≤ 1 := by
      have := mul_le_mul_of_nonneg_right ih hBpos.le
      rwa [one_div, one_div, inv_mul_cancel₀ hBpos.ne'] at this
    have hB2 : |x|⁻¹ + ((k : ℝ) + 1) * (6 * P * dt) = B + 6 * P * dt := by rw [hB]; ring
    have hgoal : (w - 6 * P * dt * w ^ 2) * (B + 6 * P * dt) ≤ 1 := by
      set a := 6 * P * dt with hadef
      have h5 : a * w ≤ 1 := by linarith
      nlinarith [mul_nonneg hw0 ha.le, mul_nonneg (mul_nonneg hw0 ha.le) (sub_nonneg.mpr ih'), sq_nonneg (a * w),
        mul_nonneg hw0 hBpos.le]
    have hlast := (le_div_iff₀ (show 0 < B + 6 * P * dt by positivity)).mpr hgoal
    rw [hB2, inv_eq_one_div]
    rw [e]
    have e2 : 2 * P * 3 * dt * (-w) ^ 2 = 6 * P * dt * w ^ 2 := by ring
    linarith

/-- C150: the default penalty of a field, entered with a minus sign. For time steps up to `1/(9000 |x|)` a negative value `x`
is after `k` steps at most `1/(1/|x| + 9000 k dt)` below zero; for longer ones the first step carries it to `9000 dt x^2 - |x|`,
which may be far above zero. -/
theorem c150_default (h : ∀ d ∈ dims, 0 < d) (f g : Str) (hN : (drivenNames f g).WellNamed) (s0 : Str)
    (hs : s0.filter (fun c => c ≠ ' ') = drivenText f g (some '-')) :
    ∃ m M, (penaltyModel dims.prod (newDefaultNegativeValuePenalty f) g).addEquation s0 = some m ∧ m.fields = [f] ∧
      m.assemble (fun _ => 0) = some M ∧
      ∀ s : Stepper dims.prod, s.filter = none → 0 < s.dt → ∀ (st : Store m.fields.length m.derived.length dims.prod)
        (i : Fin m.fields.length) (x : Fin dims.prod), (st.fields i x).re < 0 →
        (9000 * s.dt * |(st.fields i x).re| ≤ 1 → ∀ k : ℕ, ((eulerPropagate M k (s, st)).2.fields i x).re ≤ 0 ∧
          -(1 / (1 / |(st.fields i x).re| + k * (9000 * s.dt))) ≤ ((eulerPropagate M k (s, st)).2.fields i x).re) ∧
        (1 < 9000 * s.dt * |(st.fields i x).re| → ∀ k : ℕ, ((eulerPropagate M (k + 1) (s, st)).2.fields i x).re =
          9000 * s.dt * (st.fields i x).re ^ 2 - |(st.fields i x).re|) := by
  obtain ⟨m, M, h1, h2, h3, h4⟩ := c150_nodes h hN (fun z => ((penalty 1500 3 z.re : ℝ) : ℂ)) (Or.inr rfl) s0 hs
  refine ⟨m, M, h1, h2, h3, ?_⟩
  intro s hfil hdt st i x hx
  have h4 := fun k => h4 s hfil st i k x
  simp only [penaltyStep_complex] at h4
  simp only [h4]
  have hr : Restoring (some '-') 3 := by simp [Restoring]; decide
  constructor
  · intro hsm k
    have h5 := penalty_rate (P := 1500) (by norm_num) hdt hx (by linarith) k
    have h6 := (penalty_small_all (P := 1500) (Or.inr rfl) (by norm_num : 2 ≤ 3) (by norm_num) hdt hr hx.le (by norm_num; linarith) k).1
    refine ⟨h6, ?_⟩
    rw [abs_of_nonpos h6] at h5
    have e : (6 : ℝ) * 1500 * s.dt = 9000 * s.dt := by ring
    rw [e] at h5
    linarith
  · intro hsm k
    rw [(penalty_overshoots (P := 1500) (Or.inr rfl) (by norm_num : 2 ≤ 3) hr hx (by norm_num; linarith) k).1]
    rw [abs_of_neg hx]
    push_cast
    ring

/-! ### Concrete cases -/

theorem density_wellNamed : (drivenNames "density".toList "NEG_VAL_PENALTY".toList).WellNamed where
  ident := by
    have : ∀ x ∈ (drivenNames "density".toList "NEG_VAL_PENALTY".toList).all,
        (∀ c ∈ x, c.isAlphanum = true ∨ c = '_') ∧ ∃ c ∈ x.head?, c.isAlpha = true := by
      decide +kernel
    intro x hx
    obtain ⟨h1, c, hc, h2⟩ := this x hx
    cases x with
    | nil => simp at hc
    | cons y x =>
      simp only [List.head?_cons, Option.mem_some_iff] at hc
      subst hc
      exact ⟨⟨y, x, rfl, h2⟩, h1⟩
  nodup := by decide +kernel
  noLap := by decide +kernel
  long := by decide +kernel
  sepLap := by decide +kernel
  sepVarying := by decide +kernel
  sepScalar := by decide +kernel

example : ("ddensity/dt = -NEG_VAL_PENALTY".toList).filter (fun c => c ≠ ' ') =
    drivenText "density".toList "NEG_VAL_PENALTY".toList (some '-') := by decide

example : Restoring (some '-') 3 ∧ Restoring none 4 ∧ ¬ Restoring none 3 := by
  refine ⟨by simp [Restoring]; decide, by simp [Restoring]; decide, by simp [Restoring]; decide⟩

/-- With a time step of 0.1 the value -1 becomes 899. -/
example : penaltyStep (some '-') 1500 3 (1 / 10) (-1) = 899 := by
  have : signOf (some '-') = -1 := by decide
  norm_num [penaltyStep, penalty, this]

end Gopf.Props
