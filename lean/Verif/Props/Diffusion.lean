import Verif.Props.Growth
import Verif.Props.Kks
import Verif.Props.Session
import Verif.Model.DiffusionExample
import Verif.Proofs.Symmetry

/-!
# C143: what the diffusion example and the circle monitors of the database example show
-/

namespace Gopf.Props
open Spec Pf Pfutil Cmd

variable {nf nd n : ℕ} {dims : List ℕ}

/-! ### The model of the two programs -/

/-- `dconc/dt = LAP conc` as it is spelled. -/
def diffusionSpelled : Equation := ⟨"conc".toList, none, [⟨some none, some ⟨"conc".toList, none⟩⟩], []⟩

theorem diffusion_polynomial : Equation.Polynomial concNames diffusionSpelled := by
  refine ⟨by decide, by simp [diffusionSpelled], by simp [diffusionSpelled], ?_⟩
  intro p hp
  simp only [diffusionSpelled, Equation.terms, List.map_nil, List.mem_singleton] at hp
  subst hp
  exact conc_lap none (Or.inl rfl)

theorem diffusion_linear : Equation.Linear concNames diffusionSpelled := by
  intro p hp
  simp only [diffusionSpelled, Equation.terms, List.map_nil, List.mem_singleton] at hp
  subst hp
  refine ⟨by decide, by decide, ?_⟩
  intro i hi f hf
  have hi' : i = ⟨some none, some ⟨"conc".toList, none⟩⟩ := by simpa using (List.mem_filter.mp hi).1
  subst hi'
  have hf' : f = ⟨"conc".toList, none⟩ := by simpa using hf.symm
  subst hf'
  have p1 : Factor.power ⟨"conc".toList, none⟩ = 1 := by decide +kernel
  rw [p1]
  norm_num

theorem diffusion_rate (c : Str → ℂ) (freq : Frequency n) (k : Fin n) :
    growthRate concNames c freq diffusionSpelled k = laplaceSymbol (freq k) := by
  have s1 : ∀ l, factorsIn concNames.scalars l = [] := by intro l; simp [factorsIn, concNames]
  have g1 : signOf none = 1 := by decide
  have l1 : (laplacians [⟨some none, some ⟨"conc".toList, none⟩⟩]).sum = 1 := by decide
  simp only [growthRate, diffusionSpelled, Equation.terms, s1, g1, List.map_nil, List.map_cons, List.sum_cons, List.sum_nil,
    List.prod_nil, l1]
  simp

/-- What a step of the program does to a wave. -/
noncomputable def damping (dims : List ℕ) (dt : ℝ) (k : Fin dims.prod) : ℝ := 1 / (1 + dt * laplaceNumber dims k)

/-- A solver with a positive time step and no filter. -/
structure Plain (s : SolverState nf nd dims) : Prop where
  filter : s.stepper.filter = none
  freq : s.stepper.freq = freqOf dims
  dt : 0 < s.stepper.dt

theorem diffusion_model (h : ∀ d ∈ dims, 0 < d) (c : Str → ℂ) :
    ∃ m M, exampleDiffusion dims.prod = some m ∧ m.fields = ["conc".toList] ∧ m.assemble c = some M ∧
      ∀ (i : Fin m.fields.length) (s : Stepper dims.prod), s.filter = none → s.freq = freqOf dims → 0 < s.dt →
      ∀ (st : Store m.fields.length m.derived.length dims.prod) (k : Fin dims.prod),
        fft dims ((eulerStep M (s, st)).2.fields i) k = damping dims s.dt k * fft dims (st.fields i) k ∧
        fft dims ((rk4Step M (s, st)).2.fields i) k = damping dims s.dt k * fft dims (st.fields i) k := by
  obtain ⟨m, M, h1, h2, h3, h4⟩ := c125_waves h concNames conc_wellNamed
    ((EqModel.empty (n := dims.prod)).addField "conc".toList) ⟨rfl, rfl, fun x => Iff.rfl⟩ rfl [diffusionSpelled]
    (by
      intro eq heq
      obtain rfl := List.mem_singleton.mp heq
      exact ⟨diffusion_polynomial, fun _ _ => ⟨rfl, rfl⟩⟩) (by decide) [diffusionEquation] (by decide) c
  refine ⟨m, M, ?_, h2, h3, ?_⟩
  · rw [List.foldlM_cons] at h1
    simp only [List.foldlM_nil] at h1
    unfold exampleDiffusion
    cases hm : ((EqModel.empty (n := dims.prod)).addField "conc".toList).addEquation diffusionEquation with
    | none => rw [hm] at h1; simp at h1
    | some m' => rw [hm] at h1; simpa using h1
  intro i s hfil hfreq hdt st k
  have hi : i.val = 0 := by
    have h5 := i.2
    have h6 : m.fields.length = 1 := by rw [h2]; rfl
    omega
  have hr : ∀ k, 1 - (s.dt : ℂ) * growthRate concNames c s.freq diffusionSpelled k = ((1 + s.dt * laplaceNumber dims k : ℝ) : ℂ) := by
    intro k
    rw [diffusion_rate, hfreq, symbol_laplaceNumber]
    push_cast
    ring
  have hpos : ∀ k, 0 < 1 + s.dt * laplaceNumber dims k := fun k => by
    have := mul_nonneg hdt.le (laplaceNumber_nonneg k)
    linarith
  obtain ⟨e1, e2⟩ := h4 i diffusionSpelled (by rw [hi]; rfl) diffusion_linear s
    (fun k => by rw [hr]; exact_mod_cast (hpos k).ne') st 1 k
  rw [hfil, hr, pow_one] at e1 e2
  unfold damping
  simp only [waveGain, Option.elim] at e1 e2
  constructor
  · refine e1.trans ?_
    push_cast
    ring
  · refine e2.trans ?_
    push_cast
    ring

section
variable (hpos : ∀ d ∈ dims, 0 < d) {c : Str → ℂ} {m : EqModel dims.prod} (h1 : exampleDiffusion dims.prod = some m)
  {M : Model m.fields.length m.derived.length dims.prod} (h2 : m.assemble c = some M)
include hpos h1 h2

theorem diffusion_step (i : Fin m.fields.length) (s : Stepper dims.prod) (hfil : s.filter = none)
    (hfreq : s.freq = freqOf dims) (hdt : 0 < s.dt) (st : Store m.fields.length m.derived.length dims.prod) (k : Fin dims.prod) :
    fft dims ((eulerStep M (s, st)).2.fields i) k = damping dims s.dt k * fft dims (st.fields i) k ∧
    fft dims ((rk4Step M (s, st)).2.fields i) k = damping dims s.dt k * fft dims (st.fields i) k := by
  obtain ⟨m', M', a1, a2, a3, a4⟩ := diffusion_model hpos c
  obtain rfl := Option.some.inj (h1.symm.trans a1)
  obtain rfl := Option.some.inj (h2.symm.trans a3)
  exact a4 i s hfil hfreq hdt st k

theorem diffusion_run {s : SolverState m.fields.length m.derived.length dims} (hs : Plain s) (i : Fin m.fields.length)
    (steps : ℕ) (k : Fin dims.prod) :
    fft dims ((storeAfter M s steps).fields i) k = (damping dims s.stepper.dt k ^ steps : ℝ) * fft dims (s.store.fields i) k := by
  obtain ⟨dt, kind, stp, st, mons⟩ := s
  obtain ⟨hfil, hfreq, hdt⟩ := hs
  dsimp only at hfil hfreq hdt ⊢
  have key : ∀ F : Stepper dims.prod × Store m.fields.length m.derived.length dims.prod →
        Stepper dims.prod × Store m.fields.length m.derived.length dims.prod,
      (∀ p, (F p).1.dt = p.1.dt ∧ (F p).1.filter = p.1.filter ∧ (F p).1.freq = p.1.freq) →
      (∀ p : Stepper dims.prod × Store m.fields.length m.derived.length dims.prod, p.1.filter = none → p.1.freq = freqOf dims →
        0 < p.1.dt → fft dims ((F p).2.fields i) k = damping dims p.1.dt k * fft dims (p.2.fields i) k) →
      fft dims ((F^[steps] (stp, st)).2.fields i) k = (damping dims stp.dt k ^ steps : ℝ) * fft dims (st.fields i) k ∧
        (F^[steps] (stp, st)).1.dt = stp.dt ∧ (F^[steps] (stp, st)).1.filter = none ∧
        (F^[steps] (stp, st)).1.freq = freqOf dims := by
    intro F hF1 hF2
    induction steps with
    | zero => simpa using ⟨hfil, hfreq⟩
    | succ j ih =>
      obtain ⟨i1, i2, i3, i4⟩ := ih
      rw [Function.iterate_succ_apply']
      obtain ⟨b1, b2, b3⟩ := hF1 (F^[j] (stp, st))
      refine ⟨?_, b1.trans i2, b2.trans i3, b3.trans i4⟩
      rw [hF2 _ i3 i4 (by rw [i2]; exact hdt), i1, i2]
      push_cast
      ring
  cases kind with
  | euler =>
    exact (key (eulerStep M) (fun p => ⟨rfl, rfl, rfl⟩) fun p e1 e2 e3 =>
      (diffusion_step hpos h1 h2 i p.1 e1 e2 e3 p.2 k).1).1
  | rk4 =>
    exact (key (rk4Step M) (fun p => ⟨rfl, rfl, rfl⟩) fun p e1 e2 e3 =>
      (diffusion_step hpos h1 h2 i p.1 e1 e2 e3 p.2 k).2).1

end

/-- C143: the programs assemble their model. -/
theorem c143_assembles (h : ∀ d ∈ dims, 0 < d) (c : Str → ℂ) :
    ∃ m M, exampleDiffusion dims.prod = some m ∧ m.fields = ["conc".toList] ∧ m.assemble c = some M := by
  obtain ⟨m, M, a1, a2, a3, -⟩ := diffusion_model h c
  exact ⟨m, M, a1, a2, a3⟩

/-! ### Everything spreads evenly -/

theorem damping_pos {dt : ℝ} (hdt : 0 < dt) (k : Fin dims.prod) : 0 < damping dims dt k := by
  have := mul_nonneg hdt.le (laplaceNumber_nonneg k)
  unfold damping
  positivity

theorem damping_lt (h : GoodDims (intDims dims)) {dt : ℝ} (hdt : 0 < dt) (k : Fin dims.prod) (hk : k.val ≠ 0) :
    damping dims dt k < 1 := by
  have := mul_pos hdt (laplaceNumber_pos h k hk)
  unfold damping
  rw [div_lt_one (by linarith)]
  linarith

theorem damping_origin (h : GoodDims (intDims dims)) (dt : ℝ) (k : Fin dims.prod) (hk : k.val = 0) : damping dims dt k = 1 := by
  simp [damping, laplace_origin h k hk]

theorem damping_le (h : GoodDims (intDims dims)) {dt : ℝ} (hdt : 0 < dt) (k : Fin dims.prod) : damping dims dt k ≤ 1 := by
  by_cases hk : k.val = 0
  · rw [damping_origin h dt k hk]
  · exact (damping_lt h hdt k hk).le

/-- A wave that is not constant turns at least once over one of the sides. -/
theorem laplace_slowest (h : GoodDims (intDims dims)) {L : ℕ} (hL : ∀ d ∈ dims, d ≤ L) (k : Fin dims.prod) (hk : k.val ≠ 0) :
    4 * Real.pi ^ 2 / (L : ℝ) ^ 2 ≤ laplaceNumber dims k := by
  have hex : ∃ j : Fin dims.length, coord dims k.val j.val ≠ 0 := by
    by_contra hc
    push Not at hc
    have h0 : 0 < dims.prod := k.pos
    have : k = ⟨0, h0⟩ := coord_injective h fun j => by rw [hc j, coord_origin h ⟨0, h0⟩ rfl j]
    exact hk (by rw [this])
  obtain ⟨j, hj⟩ := hex
  have hr := coord_range h k j
  have hne := phi_ne_zero (lt_of_le_of_ne hr.1 (Ne.symm hj)) hr.2
  obtain ⟨z, hz⟩ := phi_int (coord dims k.val j.val) (dims[j] : ℤ)
  set q := phi (coord dims k.val j.val) (dims[j] : ℤ) with hq
  set d : ℕ := dims[j] with hd
  have hd0 : 0 < d := pos_of_goodDims h d (List.getElem_mem _)
  have hdL : d ≤ L := hL d (List.getElem_mem _)
  have hdq : (0 : ℚ) < d := by exact_mod_cast hd0
  have e : q * d = ((coord dims k.val j.val + z * d : ℤ) : ℚ) := by
    rw [hz]
    push_cast
    field_simp
  have hw : coord dims k.val j.val + z * d ≠ 0 := by
    intro h0
    rw [h0, Int.cast_zero] at e
    rcases mul_eq_zero.mp e with e | e
    · exact hne e
    · exact hdq.ne' e
  have hone : (1 : ℚ) ≤ (q * d) ^ 2 := by
    rw [e]
    have hab : (1 : ℤ) ≤ (coord dims k.val j.val + z * d) ^ 2 := by
      rw [← sq_abs]
      exact one_le_pow₀ (Int.one_le_abs hw)
    exact_mod_cast hab
  have honeR : (1 : ℝ) ≤ ((q : ℝ) * d) ^ 2 := by exact_mod_cast hone
  have hdR : (0 : ℝ) < d := by exact_mod_cast hd0
  have hdLR : (d : ℝ) ≤ L := by exact_mod_cast hdL
  have hLR : (0 : ℝ) < L := hdR.trans_le hdLR
  have hsq : 1 / (L : ℝ) ^ 2 ≤ (q : ℝ) ^ 2 := by
    rw [div_le_iff₀ (by positivity)]
    calc (1 : ℝ) ≤ ((q : ℝ) * d) ^ 2 := honeR
      _ = (q : ℝ) ^ 2 * (d : ℝ) ^ 2 := by ring
      _ ≤ (q : ℝ) ^ 2 * (L : ℝ) ^ 2 := by gcongr
  have hs : (q : ℝ) ^ 2 ≤ ((freqOf dims k).map fun x => x ^ 2).sum := by
    rw [freqOf_coord h, List.map_ofFn, List.sum_ofFn]
    have := Finset.single_le_sum (f := fun j : Fin dims.length => (((phi (coord dims k.val j.val) (dims[j] : ℤ) : ℚ) : ℝ)) ^ 2)
      (fun i _ => sq_nonneg _) (Finset.mem_univ j)
    exact this
  unfold laplaceNumber
  have hpi := Real.pi_pos
  calc 4 * Real.pi ^ 2 / (L : ℝ) ^ 2 = 4 * Real.pi ^ 2 * (1 / (L : ℝ) ^ 2) := by ring
    _ ≤ _ := by gcongr; exact hsq.trans hs

/-- The mean of a field. -/
noncomputable def fieldMean (u : Data n) : ℂ := (∑ x, u x) / n

theorem fft_deviation (hpos : ∀ d ∈ dims, 0 < d) (u : Data dims.prod) (k : Fin dims.prod) :
    fft dims (fun x => u x - fieldMean u) k = if k.val = 0 then 0 else fft dims u k := by
  have e : fft dims (fun x => u x - fieldMean u) k = fft dims u k - fft dims (fun _ => fieldMean u) k := fft_sub u _ k
  rw [e, fft_const hpos]
  by_cases hk : k.val = 0
  · rw [if_pos hk, if_pos hk, fft_zero_bin u k hk, fieldMean]
    have := prod_ne_zero hpos
    field_simp
    ring
  · rw [if_neg hk, if_neg hk, sub_zero]

section
variable (h : GoodDims (intDims dims)) {c : Str → ℂ} {m : EqModel dims.prod} (h1 : exampleDiffusion dims.prod = some m)
  {M : Model m.fields.length m.derived.length dims.prod} (h2 : m.assemble c = some M)
  {s : SolverState m.fields.length m.derived.length dims} (hs : Plain s) (i : Fin m.fields.length)
include h h1 h2 hs

/-- C143: the total amount is the same after every step. -/
theorem c143_total (steps : ℕ) : ∑ x, (storeAfter M s steps).fields i x = ∑ x, s.store.fields i x := by
  have hp : 0 < dims.prod := Nat.pos_of_ne_zero (by exact_mod_cast prod_ne_zero (pos_of_goodDims h))
  have e := diffusion_run (pos_of_goodDims h) h1 h2 hs i steps ⟨0, hp⟩
  rw [fft_zero_bin _ _ rfl, fft_zero_bin _ _ rfl, damping_origin h _ _ rfl] at e
  simpa using e

theorem diffusion_mean (steps : ℕ) : fieldMean ((storeAfter M s steps).fields i) = fieldMean (s.store.fields i) := by
  unfold fieldMean
  rw [c143_total h h1 h2 hs i steps]

/-- C143: the distance from the mean falls at least by the factor of the slowest wave in every step: with the longest
side `L` by `1 / (1 + dt (2π/L)²)`. -/
theorem c143_spreads {L : ℕ} (hL : ∀ d ∈ dims, d ≤ L) (steps : ℕ) :
    ∑ x, ‖(storeAfter M s steps).fields i x - fieldMean (s.store.fields i)‖ ^ 2 ≤
      ((1 / (1 + s.stepper.dt * (4 * Real.pi ^ 2 / (L : ℝ) ^ 2))) ^ steps) ^ 2 *
        ∑ x, ‖s.store.fields i x - fieldMean (s.store.fields i)‖ ^ 2 := by
  have hpos := pos_of_goodDims h
  have hp : (0 : ℝ) < (dims.prod : ℕ) := by
    have := Nat.pos_of_ne_zero (n := dims.prod) (by exact_mod_cast prod_ne_zero hpos)
    exact_mod_cast this
  have e0 := squares_parseval hpos (fun x => s.store.fields i x - fieldMean (s.store.fields i))
  have e1 := squares_parseval hpos (fun x => (storeAfter M s steps).fields i x - fieldMean (s.store.fields i))
  refine le_of_mul_le_mul_left ?_ hp
  rw [← e1, mul_left_comm, ← e0, Finset.mul_sum]
  refine Finset.sum_le_sum fun k _ => ?_
  have f1 : fft dims (fun x => (storeAfter M s steps).fields i x - fieldMean (s.store.fields i)) k =
      if k.val = 0 then 0 else fft dims ((storeAfter M s steps).fields i) k := by
    rw [← diffusion_mean h h1 h2 hs i steps]
    exact fft_deviation hpos _ k
  rw [f1, fft_deviation hpos]
  by_cases hk : k.val = 0
  · simp [hk]
  rw [if_neg hk, if_neg hk, diffusion_run hpos h1 h2 hs i steps k, norm_mul, mul_pow, Complex.norm_real, Real.norm_eq_abs,
    abs_of_pos (pow_pos (damping_pos hs.dt k) _)]
  have hd := damping_pos hs.dt k
  have hle : damping dims s.stepper.dt k ≤ 1 / (1 + s.stepper.dt * (4 * Real.pi ^ 2 / (L : ℝ) ^ 2)) := by
    unfold damping
    have := mul_le_mul_of_nonneg_left (laplace_slowest h hL k hk) hs.dt.le
    have h0 : 0 ≤ s.stepper.dt * (4 * Real.pi ^ 2 / (L : ℝ) ^ 2) := mul_nonneg hs.dt.le (by positivity)
    exact one_div_le_one_div_of_le (by linarith) (by linarith)
  gcongr

/-- C143: the field tends to its mean everywhere. -/
theorem c143_converges (x : Fin dims.prod) :
    Filter.Tendsto (fun steps => (storeAfter M s steps).fields i x) Filter.atTop (nhds (fieldMean (s.store.fields i))) := by
  have hpos := pos_of_goodDims h
  set L := dims.sum with hLdef
  have hL : ∀ d ∈ dims, d ≤ L := fun d hd => List.le_sum_of_mem hd
  have hL0 : 0 < L := lt_of_lt_of_le (hpos _ (List.getElem_mem (by
    rcases h.1 with h' | h' <;> simp [intDims] at h' <;> omega : 0 < dims.length))) (hL _ (List.getElem_mem _))
  set r : ℝ := 1 / (1 + s.stepper.dt * (4 * Real.pi ^ 2 / (L : ℝ) ^ 2)) with hr
  have hLR : (0 : ℝ) < L := by exact_mod_cast hL0
  have hpi := Real.pi_pos
  have hgain : 0 < s.stepper.dt * (4 * Real.pi ^ 2 / (L : ℝ) ^ 2) := mul_pos hs.dt (by positivity)
  have hr0 : 0 ≤ r := by positivity
  have hr1 : r < 1 := by rw [hr, div_lt_one (by linarith)]; linarith
  set S := ∑ x, ‖s.store.fields i x - fieldMean (s.store.fields i)‖ ^ 2 with hS
  rw [tendsto_iff_norm_sub_tendsto_zero]
  have hb : ∀ steps, ‖(storeAfter M s steps).fields i x - fieldMean (s.store.fields i)‖ ^ 2 ≤ (r ^ steps) ^ 2 * S := fun steps =>
    (Finset.single_le_sum (f := fun x => ‖(storeAfter M s steps).fields i x - fieldMean (s.store.fields i)‖ ^ 2)
      (fun _ _ => sq_nonneg _) (Finset.mem_univ x)).trans (c143_spreads h h1 h2 hs i hL steps)
  have hlim : Filter.Tendsto (fun steps : ℕ => (r ^ steps) ^ 2 * S) Filter.atTop (nhds 0) := by
    have := ((tendsto_pow_atTop_nhds_zero_of_lt_one hr0 hr1).pow 2).mul_const S
    simpa using this
  have hsq : Filter.Tendsto (fun steps => ‖(storeAfter M s steps).fields i x - fieldMean (s.store.fields i)‖ ^ 2) Filter.atTop (nhds 0) :=
    squeeze_zero (fun _ => sq_nonneg _) hb hlim
  have := hsq.sqrt
  simpa [Real.sqrt_sq (norm_nonneg _)] using this

end

/-! ### From a single node -/

section
variable (h : GoodDims (intDims dims)) {c : Str → ℂ} {m : EqModel dims.prod} (h1 : exampleDiffusion dims.prod = some m)
  {M : Model m.fields.length m.derived.length dims.prod} (h2 : m.assemble c = some M)
  {s : SolverState m.fields.length m.derived.length dims} (hs : Plain s) {i : Fin m.fields.length} {x0 : Fin dims.prod}
  (hstart : s.store.fields i = Pi.single x0 1)
include h h1 h2 hs hstart

theorem delta_value (steps : ℕ) (x : Fin dims.prod) :
    (storeAfter M s steps).fields i x =
      (∑ k : Fin dims.prod, ((damping dims s.stepper.dt k ^ steps : ℝ) : ℂ) *
        (cis (-phase dims k.val x0.val) * cis (phase dims k.val x.val))) / dims.prod := by
  have hpos := pos_of_goodDims h
  have e := ifft_fft hpos ((storeAfter M s steps).fields i) x
  rw [eq_div_iff (prod_ne_zero hpos), mul_comm, ← e]
  unfold ifft
  refine Finset.sum_congr rfl fun k _ => ?_
  rw [diffusion_run hpos h1 h2 hs i steps k, hstart, fft_single]
  ring

/-- The value at the starting node. -/
theorem delta_peak (steps : ℕ) :
    (storeAfter M s steps).fields i x0 = (((∑ k : Fin dims.prod, damping dims s.stepper.dt k ^ steps) / (dims.prod : ℕ) : ℝ) : ℂ) := by
  rw [delta_value h h1 h2 hs hstart steps x0, Complex.ofReal_div, Complex.ofReal_sum, Complex.ofReal_natCast]
  congr 1
  refine Finset.sum_congr rfl fun k _ => ?_
  rw [cis_neg_mul, mul_one]

/-- C143: after any number of steps the starting node has the largest value: it is real, no node is farther from zero, it
lies between the mean and one, and it falls with every step unless there is only one node. -/
theorem c143_peak :
    (∀ steps, ((storeAfter M s steps).fields i x0).im = 0) ∧
    (∀ steps x, ‖(storeAfter M s steps).fields i x‖ ≤ ((storeAfter M s steps).fields i x0).re) ∧
    (∀ steps, 1 / (dims.prod : ℝ) ≤ ((storeAfter M s steps).fields i x0).re ∧ ((storeAfter M s steps).fields i x0).re ≤ 1) ∧
    (1 < dims.prod → (∀ steps, 1 / (dims.prod : ℝ) < ((storeAfter M s steps).fields i x0).re) ∧
      StrictAnti fun steps => ((storeAfter M s steps).fields i x0).re) := by
  have hpos := pos_of_goodDims h
  have hp : 0 < dims.prod := Nat.pos_of_ne_zero (by exact_mod_cast prod_ne_zero hpos)
  have hpR : (0 : ℝ) < (dims.prod : ℕ) := by exact_mod_cast hp
  have hd := fun k => damping_pos (dims := dims) hs.dt k
  have hval : ∀ steps, ((storeAfter M s steps).fields i x0).re =
      (∑ k : Fin dims.prod, damping dims s.stepper.dt k ^ steps) / (dims.prod : ℕ) := fun steps => by
    rw [delta_peak h h1 h2 hs hstart steps, Complex.ofReal_re]
  have hone : ∀ steps : ℕ, damping dims s.stepper.dt ⟨0, hp⟩ ^ steps = 1 := fun steps => by
    rw [damping_origin h _ _ rfl, one_pow]
  refine ⟨fun steps => ?_, fun steps x => ?_, fun steps => ?_, fun hN => ⟨fun steps => ?_, ?_⟩⟩
  · rw [delta_peak h h1 h2 hs hstart steps, Complex.ofReal_im]
  · rw [hval, delta_value h h1 h2 hs hstart steps x, norm_div, Complex.norm_natCast]
    refine div_le_div_of_nonneg_right ((norm_sum_le _ _).trans (Finset.sum_le_sum fun k _ => ?_)) hpR.le
    rw [norm_mul, norm_mul, cis_norm, cis_norm, Complex.norm_real, Real.norm_eq_abs, abs_of_pos (pow_pos (hd k) _)]
    simp
  · rw [hval]
    constructor
    · refine div_le_div_of_nonneg_right ?_ hpR.le
      rw [← hone steps]
      exact Finset.single_le_sum (f := fun k => damping dims s.stepper.dt k ^ steps) (fun k _ => (pow_pos (hd k) _).le)
        (Finset.mem_univ _)
    · rw [div_le_one hpR]
      refine (Finset.sum_le_sum fun k _ => pow_le_one₀ (hd k).le (damping_le h hs.dt k)).trans (le_of_eq ?_)
      rw [Finset.sum_const, Finset.card_univ, Fintype.card_fin, nsmul_eq_mul, mul_one]
  · rw [hval]
    refine div_lt_div_of_pos_right ?_ hpR
    rw [← hone steps]
    exact Finset.single_lt_sum (f := fun k => damping dims s.stepper.dt k ^ steps) (i := ⟨0, hp⟩) (j := ⟨1, hN⟩)
      (by simp) (Finset.mem_univ _) (Finset.mem_univ _) (pow_pos (hd _) _) (fun k _ _ => (pow_pos (hd k) _).le)
  · refine strictAnti_nat_of_succ_lt fun steps => ?_
    rw [hval, hval]
    refine div_lt_div_of_pos_right (Finset.sum_lt_sum (fun k _ => ?_) ⟨⟨1, hN⟩, Finset.mem_univ _, ?_⟩) hpR
    · rw [pow_succ]
      exact mul_le_of_le_one_right (pow_pos (hd k) _).le (damping_le h hs.dt k)
    · rw [pow_succ]
      exact mul_lt_of_lt_one_right (pow_pos (hd _) _) (damping_lt h hs.dt _ (by simp))

end

/-! ### Concentrations below zero -/

/-- The wave that only varies along side `j`, `r` times over it. -/
theorem axis_wave (h : GoodDims (intDims dims)) (hl : LayoutOk dims) (j : Fin dims.length) {r : ℕ} (hr : r < dims[j]) :
    ∃ k : Fin dims.prod, laplaceNumber dims k = 4 * Real.pi ^ 2 * ((phi r (dims[j] : ℤ) : ℚ) : ℝ) ^ 2 ∧
      ∀ x : Fin dims.prod, cis (-phase dims k.val x.val) = cis (-((r : ℚ) * coord dims x.val j.val / dims[j])) := by
  obtain ⟨k, hk⟩ := coord_surjective h (fun i => if i = j then (r : ℤ) else 0) (by
    intro i
    have hpos := pos_of_goodDims h dims[i] (List.getElem_mem _)
    by_cases hij : i = j
    · subst hij
      rw [if_pos rfl]
      exact ⟨by omega, by exact_mod_cast hr⟩
    · rw [if_neg hij]
      exact ⟨le_refl _, by exact_mod_cast hpos⟩)
  refine ⟨k, ?_, fun x => ?_⟩
  · unfold laplaceNumber
    rw [freqOf_coord h, List.map_ofFn, List.sum_ofFn, Finset.sum_eq_single j]
    · simp only [Function.comp_apply]
      rw [hk j, if_pos rfl]
    · intro i _ hij
      simp only [Function.comp_apply]
      rw [hk i, if_neg hij, phi_zero]
      simp
    · exact fun hj => absurd (Finset.mem_univ j) hj
  · rw [cis_phase_coord h hl, Finset.sum_eq_single j]
    · rw [hk j, if_pos rfl]
      simp
    · intro i _ hij
      rw [hk i, if_neg hij]
      simp
    · exact fun hj => absurd (Finset.mem_univ j) hj

theorem quarter_turn (y : ℤ) : 0 ≤ (1 + (cis ((y : ℚ) / 2)).re) / 2 - (cis ((y : ℚ) / 4)).re := by
  have e2 : cis ((y : ℚ) / 2) = cis ((y : ℚ) / 4) ^ 2 := by
    rw [← cis_nsmul]
    congr 1
    push_cast
    ring
  have e4 : cis ((y : ℚ) / 4) ^ 4 = 1 := by
    rw [← cis_nsmul]
    have : ((4 : ℕ) : ℚ) * ((y : ℚ) / 4) = (y : ℚ) := by push_cast; ring
    rw [this, cis_int]
  rw [e2]
  generalize cis ((y : ℚ) / 4) = w at e4
  have hf : (w - 1) * ((w + 1) * ((w - Complex.I) * (w + Complex.I))) = 0 := by
    have : (w - 1) * ((w + 1) * ((w - Complex.I) * (w + Complex.I))) = w ^ 4 - 1 - (w ^ 2 - 1) * (Complex.I ^ 2 + 1) := by ring
    rw [this, e4, Complex.I_sq]
    ring
  rcases mul_eq_zero.mp hf with e | e
  · rw [sub_eq_zero.mp e]; simp
  rcases mul_eq_zero.mp e with e | e
  · rw [eq_neg_of_add_eq_zero_left e]; simp
  rcases mul_eq_zero.mp e with e | e
  · rw [sub_eq_zero.mp e]; simp
  · rw [eq_neg_of_add_eq_zero_left e]; simp

section
variable (h : GoodDims (intDims dims)) (hl : LayoutOk dims) {c : Str → ℂ} {m : EqModel dims.prod}
  (h1 : exampleDiffusion dims.prod = some m)
  {M : Model m.fields.length m.derived.length dims.prod} (h2 : m.assemble c = some M)
  {s : SolverState m.fields.length m.derived.length dims} (hs : Plain s) {i : Fin m.fields.length}
include h hl h1 h2 hs

/-- Real fields stay real. -/
theorem diffusion_real (hreal : IsReal (s.store.fields i)) (steps : ℕ) : IsReal ((storeAfter M s steps).fields i) := by
  apply real_of_hermitian h hl
  intro b b' hb
  have e := hermitian_fft h hl hreal b b' hb
  have hf : laplaceNumber dims b' = laplaceNumber dims b := by
    unfold laplaceNumber
    rw [freq_sq_conj h hb]
  have hg : damping dims s.stepper.dt b' = damping dims s.stepper.dt b := by
    unfold damping
    rw [hf]
  rw [diffusion_run (pos_of_goodDims h) h1 h2 hs, diffusion_run (pos_of_goodDims h) h1 h2 hs, hg, map_mul, Complex.conj_ofReal, e]

/-- C143: spreading out from one node makes concentrations negative. On every domain with a side that is a multiple of four and
with every time step below `2/π²` (the programs have 128 and 0.1), the first step from a single node of one and zeros elsewhere
leaves a node with a value below zero. -/
theorem c143_undershoot {x0 : Fin dims.prod} (hstart : s.store.fields i = Pi.single x0 1) (j : Fin dims.length) {a : ℕ}
    (hj : dims[j] = 4 * a) (hdt : s.stepper.dt < 2 / Real.pi ^ 2) :
    ∃ x, ((storeAfter M s 1).fields i x).re < 0 := by
  have hpos := pos_of_goodDims h
  have ha : 0 < a := by
    have := hpos dims[j] (List.getElem_mem _)
    omega
  have hp : 0 < dims.prod := Nat.pos_of_ne_zero (by exact_mod_cast prod_ne_zero hpos)
  obtain ⟨k1, l1, w1⟩ := axis_wave h hl j (r := a) (by omega)
  obtain ⟨k2, l2, w2⟩ := axis_wave h hl j (r := 2 * a) (by omega)
  set u := (storeAfter M s 1).fields i with hu
  have hreal : IsReal u := diffusion_real h hl h1 h2 hs (by
    rw [hstart]
    intro x
    rw [Pi.single_apply]
    split_ifs <;> simp) 1
  have haq : (a : ℚ) ≠ 0 := by exact_mod_cast ha.ne'
  have p1 : phi (a : ℕ) (dims[j] : ℤ) = 1 / 4 := by
    have e : ((a : ℤ) : ℚ) / ((dims[j] : ℕ) : ℤ) = 1 / 4 := by
      rw [hj]
      push_cast
      field_simp
    unfold phi foldFreq
    rw [e]
    norm_num
  have p2 : phi ((2 * a : ℕ) : ℤ) (dims[j] : ℤ) = 1 / 2 := by
    refine phi_half ?_ ?_
    · have := hpos dims[j] (List.getElem_mem _)
      exact_mod_cast this
    · rw [hj]
      push_cast
      ring
  -- the sum of the field against a wave along the side
  have key : ∀ (k : Fin dims.prod) (r : ℚ), (∀ x : Fin dims.prod, cis (-phase dims k.val x.val) = cis (-(r * coord dims x.val j.val))) →
      ∑ x, (u x).re * (cis (r * ((coord dims x0.val j.val - coord dims x.val j.val : ℤ) : ℚ))).re = damping dims s.stepper.dt k := by
    intro k r hw
    have e := diffusion_run hpos h1 h2 hs i 1 k
    rw [hstart, fft_single, pow_one] at e
    have e' : ∑ x, u x * cis (r * ((coord dims x0.val j.val - coord dims x.val j.val : ℤ) : ℚ)) = damping dims s.stepper.dt k := by
      have hx : ∀ x : Fin dims.prod, u x * cis (r * ((coord dims x0.val j.val - coord dims x.val j.val : ℤ) : ℚ)) =
          u x * cis (-phase dims k.val x.val) * cis (r * coord dims x0.val j.val) := by
        intro x
        rw [hw x, mul_assoc, ← cis_add]
        congr 2
        push_cast
        ring
      rw [Finset.sum_congr rfl fun x _ => hx x, ← Finset.sum_mul]
      have e2 : ∑ x, u x * cis (-phase dims k.val x.val) = fft dims u k := rfl
      rw [e2, hu, e, hw x0, mul_assoc, cis_neg_mul, mul_one]
    have e3 := congrArg Complex.re e'
    rw [Complex.ofReal_re, Complex.re_sum] at e3
    rw [← e3]
    refine Finset.sum_congr rfl fun x _ => ?_
    rw [Complex.mul_re, hreal x, zero_mul, sub_zero]
  have k1' := key k1 (1 / 4) fun x => by
    rw [w1 x, hj]
    congr 1
    push_cast
    field_simp
  have k2' := key k2 (1 / 2) fun x => by
    rw [w2 x, hj]
    congr 1
    push_cast
    field_simp
    ring
  have k0' : ∑ x, (u x).re = 1 := by
    have e := c143_total h h1 h2 hs i 1
    rw [hstart] at e
    have e2 : ∑ x, (Pi.single x0 1 : Data dims.prod) x = 1 := by simp
    rw [e2] at e
    have := congrArg Complex.re e
    rwa [Complex.re_sum, Complex.one_re] at this
  by_contra hc
  push Not at hc
  have hnn : 0 ≤ ∑ x, (u x).re * ((1 + (cis (((coord dims x0.val j.val - coord dims x.val j.val : ℤ) : ℚ) / 2)).re) / 2 -
      (cis (((coord dims x0.val j.val - coord dims x.val j.val : ℤ) : ℚ) / 4)).re) :=
    Finset.sum_nonneg fun x _ => mul_nonneg (hc x) (quarter_turn _)
  have hsum : ∑ x, (u x).re * ((1 + (cis (((coord dims x0.val j.val - coord dims x.val j.val : ℤ) : ℚ) / 2)).re) / 2 -
      (cis (((coord dims x0.val j.val - coord dims x.val j.val : ℤ) : ℚ) / 4)).re) =
      (1 + damping dims s.stepper.dt k2) / 2 - damping dims s.stepper.dt k1 := by
    have e : (1 + damping dims s.stepper.dt k2) / 2 - damping dims s.stepper.dt k1 =
        (∑ x, (u x).re + damping dims s.stepper.dt k2) / 2 - damping dims s.stepper.dt k1 := by rw [k0']
    rw [e, ← k1', ← k2', ← Finset.sum_add_distrib, Finset.sum_div, ← Finset.sum_sub_distrib]
    refine Finset.sum_congr rfl fun x _ => ?_
    rw [one_div_mul_eq_div, one_div_mul_eq_div]
    ring
  rw [hsum] at hnn
  have hpi := Real.pi_pos
  set d : ℝ := s.stepper.dt * (Real.pi ^ 2 / 4) with hd
  have d0 : 0 < d := mul_pos hs.dt (by positivity)
  have d1 : d < 1 / 2 := by
    rw [lt_div_iff₀ (by positivity)] at hdt
    rw [hd]
    linarith
  have g1 : damping dims s.stepper.dt k1 = 1 / (1 + d) := by
    unfold damping
    rw [l1, p1, hd]
    congr 2
    push_cast
    ring
  have g2 : damping dims s.stepper.dt k2 = 1 / (1 + 4 * d) := by
    unfold damping
    rw [l2, p2, hd]
    congr 2
    push_cast
    ring
  rw [g1, g2] at hnn
  have : (1 + 1 / (1 + 4 * d)) / 2 - 1 / (1 + d) = d * (2 * d - 1) / ((1 + 4 * d) * (1 + d)) := by
    field_simp
    ring
  rw [this] at hnn
  have hneg : d * (2 * d - 1) / ((1 + 4 * d) * (1 + d)) < 0 :=
    div_neg_of_neg_of_pos (mul_neg_of_pos_of_neg d0 (by linarith)) (by positivity)
  linarith

end

/-! ### The curve of the diffusion program -/

/-- C143: the curve the diffusion program writes. On a domain of any size, with any positive time step, the program runs; its
monitor at the middle has one number for each epoch, between the mean and one, and the numbers fall. -/
theorem c143_monitor {nx ny : ℕ} (hx : 0 < nx) (hy : 0 < ny) {c : Str → ℂ} {m : EqModel [nx, ny].prod}
    (h1 : exampleDiffusion [nx, ny].prod = some m) {M : Model m.fields.length m.derived.length [nx, ny].prod}
    (h2 : m.assemble c = some M) {dt : ℝ} (hdt : 0 < dt) (bricks : Str → Option (BrickRef m.fields.length m.derived.length))
    (i : Fin m.fields.length) (hb : bricks "conc".toList = some (.field i)) (derived : Fin m.derived.length → Data [nx, ny].prod)
    (epochs steps : ℕ) :
    ∃ s' p, diffusionProgram nx ny dt epochs steps M bricks derived = some s' ∧ s'.monitors[0]? = some p ∧
      p.data.length = epochs ∧ (∀ v ∈ p.data, 1 / ((nx * ny : ℕ) : ℝ) ≤ v ∧ v ≤ 1) ∧
      (0 < steps → 1 < nx * ny → p.data.Pairwise fun v w => w < v) := by
  have h : GoodDims (intDims [nx, ny]) := ⟨Or.inl rfl, by simp [intDims]; omega⟩
  have hprod : [nx, ny].prod = nx * ny := by simp
  -- the middle is a node
  have hc0 : (0 : ℤ) ≤ Int.tdiv nx 2 * ny + Int.tdiv ny 2 := by
    rw [Int.tdiv_eq_ediv_of_nonneg (by omega), Int.tdiv_eq_ediv_of_nonneg (by omega)]
    positivity
  have hc1 : Int.tdiv nx 2 * ny + Int.tdiv ny 2 < ((nx * ny : ℕ) : ℤ) := by
    rw [Int.tdiv_eq_ediv_of_nonneg (by omega), Int.tdiv_eq_ediv_of_nonneg (by omega)]
    have a1 : (nx : ℤ) / 2 + 1 ≤ nx := by omega
    have a2 : (ny : ℤ) / 2 < ny := by omega
    have a3 := mul_le_mul_of_nonneg_right a1 (by omega : (0 : ℤ) ≤ ny)
    push_cast
    linarith
  set ctr : ℤ := Int.tdiv nx 2 * ny + Int.tdiv ny 2 with hctr
  have hlt : ctr.toNat < [nx, ny].prod := by rw [hprod]; omega
  have hcast : ((⟨ctr.toNat, hlt⟩ : Fin [nx, ny].prod).val : ℤ) = ctr := by
    show ((ctr.toNat : ℕ) : ℤ) = ctr
    omega
  have hstart : diffusionStart nx ny = some (ctr, (List.replicate (nx * ny) (0 : ℂ)).set ctr.toNat 1) := by
    unfold diffusionStart
    have e1 : nodeIdx [(nx : ℤ), (ny : ℤ)] [Int.tdiv nx 2, Int.tdiv ny 2] = some ctr := rfl
    have e2 : goSet (List.replicate (nx * ny) (0 : ℂ)) ctr 1 = some ((List.replicate (nx * ny) (0 : ℂ)).set ctr.toNat 1) := by
      unfold goSet
      rw [List.length_replicate, if_pos ⟨hc0, hc1⟩]
    rw [e1]
    show ((goSet (List.replicate (nx * ny) (0 : ℂ)) ctr 1).bind fun data => some (ctr, data)) = _
    rw [e2]
    rfl
  set data := (List.replicate (nx * ny) (0 : ℂ)).set ctr.toNat 1 with hdata
  have hlen : data.length = [nx, ny].prod := by rw [hdata, List.length_set, List.length_replicate, hprod]
  obtain ⟨n1, n2⟩ := c113_new (dims := [nx, ny]) (nf := m.fields.length) (nd := m.derived.length) dt (fun _ => data) derived
  cases hns : newSolver [nx, ny] dt (fun _ : Fin m.fields.length => data) derived with
  | none =>
    obtain ⟨_, hne⟩ := n1.mp hns
    exact absurd hlen hne
  | some s =>
  obtain ⟨hfield, -, -, hmon⟩ := n2 s hns
  have hplain : Plain s := by
    unfold newSolver at hns
    split_ifs at hns
    obtain rfl := Option.some.inj hns
    exact ⟨rfl, rfl, hdt⟩
  have hsingle : s.store.fields i = Pi.single ⟨ctr.toNat, hlt⟩ 1 := by
    funext x
    have e := hfield i
    have hx' : (List.ofFn (s.store.fields i))[x.val]? = some (s.store.fields i x) := by
      rw [List.getElem?_ofFn]
      exact dif_pos x.2
    rw [e, hdata, List.getElem?_set, List.length_replicate] at hx'
    rw [Pi.single_apply]
    by_cases hxc : ctr.toNat = x.val
    · rw [if_pos hxc, if_pos (by rw [← hprod]; exact hlt)] at hx'
      rw [if_pos (Fin.ext hxc.symm), ← Option.some.inj hx']
    · rw [if_neg hxc, List.getElem?_replicate, if_pos (by rw [← hprod]; exact x.2)] at hx'
      rw [if_neg fun e => hxc (congrArg Fin.val e).symm, ← Option.some.inj hx']
  set s1 : SolverState m.fields.length m.derived.length [nx, ny] :=
    { s with monitors := s.monitors ++ [newPointMonitor ctr "conc".toList] } with hs1
  have hadd : s.call M bricks (.addMonitor ctr "conc".toList) = some s1 := rfl
  have hplain1 : Plain s1 := ⟨hplain.filter, hplain.freq, hplain.dt⟩
  have hsolve : s1.call M bricks (.solve epochs steps) ≠ none := by
    rw [Ne, c113_panics]
    rintro ⟨-, q, hq, hbad⟩
    rw [hs1, hmon] at hq
    obtain rfl := List.mem_singleton.mp hq
    exact hbad ⟨_, hb, Or.inr ⟨hc0, by rw [hprod]; exact hc1⟩⟩
  cases hsol : s1.call M bricks (.solve epochs steps) with
  | none => exact absurd hsol hsolve
  | some s' =>
  have hses : s1.session M bricks [.solve epochs steps] = some s' := by
    show (s1.call M bricks (.solve epochs steps)).bind some = _
    rw [hsol]
    rfl
  obtain ⟨p, hp0, -, -, hpd⟩ := c113_monitor M bricks s s1 s' "conc".toList i hb ⟨ctr.toNat, hlt⟩ (by rw [hcast]; exact hadd)
    [.solve epochs steps] hses
  rw [hmon] at hp0
  have hends : sessionEnds M bricks s1 [.solve epochs steps] =
      (List.range epochs).map fun k => storeAfter M s1 ((k + 1) * steps) := by
    simp only [sessionEnds, epochEnds, Int.toNat_natCast, hsol, Option.map_some, Option.getD_some, List.append_nil]
  rw [hends, List.map_map] at hpd
  obtain ⟨-, -, k3, k4⟩ := c143_peak h h1 h2 hplain1 (i := i) (x0 := ⟨ctr.toNat, hlt⟩) hsingle
  refine ⟨s', p, ?_, hp0, ?_, ?_, ?_⟩
  · unfold diffusionProgram
    rw [hstart]
    show ((newSolver [nx, ny] dt (fun _ => data) derived).bind fun s =>
      s.session M bricks [.addMonitor ctr "conc".toList, .solve epochs steps]) = _
    rw [hns]
    exact hses
  · rw [hpd, List.length_map, List.length_range]
  · intro v hv
    rw [hpd] at hv
    obtain ⟨k, -, rfl⟩ := List.mem_map.mp hv
    have := k3 ((k + 1) * steps)
    exact ⟨(le_of_eq (by rw [hprod])).trans this.1, this.2⟩
  · intro hst hN
    rw [hpd, List.pairwise_map]
    refine List.pairwise_lt_range.imp fun {a b} hab => ?_
    exact (k4 (by rw [hprod]; exact hN)).2 (Nat.mul_lt_mul_of_pos_right (by omega) hst)

/-- The hypotheses of the statements are met by a solver for the model of the program on its grid, with its time step, that
starts from a single node; the time step is below the limit of `c143_undershoot` and the side a multiple of four. -/
example : ∃ (m : EqModel [128, 128].prod) (M : Model m.fields.length m.derived.length [128, 128].prod)
    (s : SolverState m.fields.length m.derived.length [128, 128]), exampleDiffusion [128, 128].prod = some m ∧
    m.assemble (fun _ => 0) = some M ∧ Plain s ∧ s.stepper.dt = 1 / 10 ∧ (1 / 10 : ℝ) < 2 / Real.pi ^ 2 ∧ 128 = 4 * 32 ∧
    ∃ x0, ∀ i, s.store.fields i = Pi.single x0 1 := by
  obtain ⟨m, M, a1, -, a3⟩ := c143_assembles (dims := [128, 128]) (by simp) fun _ => 0
  have hx : 0 < [128, 128].prod := by simp
  set x0 : Fin [128, 128].prod := ⟨0, hx⟩
  set d : List ℂ := List.ofFn (Pi.single x0 1 : Data [128, 128].prod) with hd
  obtain ⟨n1, n2⟩ := c113_new (dims := [128, 128]) (nf := m.fields.length) (nd := m.derived.length) (1 / 10) (fun _ => d) (fun _ _ => 0)
  cases hns : newSolver [128, 128] (1 / 10) (fun _ : Fin m.fields.length => d) (fun _ : Fin m.derived.length => fun _ => 0) with
  | none =>
    obtain ⟨_, hne⟩ := n1.mp hns
    exact absurd (List.length_ofFn) hne
  | some s =>
  obtain ⟨hfield, -, -, -⟩ := n2 s hns
  have hst : Plain s ∧ s.stepper.dt = 1 / 10 := by
    unfold newSolver at hns
    split_ifs at hns
    obtain rfl := Option.some.inj hns
    exact ⟨⟨rfl, rfl, by show (0 : ℝ) < 1 / 10; norm_num⟩, rfl⟩
  refine ⟨m, M, s, a1, a3, hst.1, hst.2, ?_, rfl, x0, fun i => List.ofFn_injective ((hfield i).trans hd)⟩
  rw [lt_div_iff₀ (by positivity)]
  have := Real.pi_le_four
  nlinarith [Real.pi_pos]

end Gopf.Props
