import Verif.Proofs.Stepper
import Verif.Props.Prefix
import Mathlib.Tactic.LinearCombination
import Mathlib.Tactic.Positivity
import Mathlib.Tactic.NormNum

/-!
# C21, C22, C23, C25: right-hand sides and the semi-implicit Euler step
-/

namespace Gopf.Props
open Pf Pfutil
open scoped BigOperators

variable {nf nd n : ℕ}

/-! ## C21 -/

/-- C21: the explicit right-hand side is the sum of the terms and sources of the equation, passed
through the modifiers of that equation in registration order. -/
theorem c21_rhs (m : Model nf nd n) (i : Fin nf) (st : Store nf nd n) (freq : Frequency n) (t : ℝ) :
    m.getRHS i st freq t =
      ((m.modifiers.filter (fun md => md.1 = i.val)).map Prod.snd).foldl (fun data f => f data)
        (fun k => ((m.terms i).map fun f => f st freq t k).sum +
          ((m.sources i).map fun s => s.eval freq t k).sum) := by
  rw [getRHS_eq]
  congr 1
  funext k
  exact rawRHS_apply m i st freq t k

/-- C21: the denominator is the sum of the implicit terms. -/
theorem c21_denum (m : Model nf nd n) (i : Fin nf) (st : Store nf nd n) (freq : Frequency n) (t : ℝ)
    (k : Fin n) : m.getDenum i st freq t k = ((m.denum i).map fun f => f st freq t k).sum :=
  getDenum_apply m i st freq t k

/-- C21: adding a source to an equation adds its transform to that equation (before the modifiers)
and leaves all other equations alone. -/
theorem c21_add_source (m : Model nf nd n) (e i : Fin nf) (s : Source) (st : Store nf nd n)
    (freq : Frequency n) (t : ℝ) :
    (m.addSource e s).getRHS i st freq t =
      if i = e then
        ((m.modifiers.filter (fun md => md.1 = i.val)).map Prod.snd).foldl (fun data f => f data)
          (fun k => ((m.terms i).map fun f => f st freq t k).sum +
            ((m.sources i).map fun s => s.eval freq t k).sum + s.eval freq t k)
      else m.getRHS i st freq t := by
  rw [c21_rhs]
  split_ifs with h
  · subst h
    congr 1
    funext k
    simp [Model.addSource, add_assoc]
  · rw [c21_rhs]
    simp [Model.addSource, Function.update_of_ne h]

/-- C21: a modifier registered for an equation is applied after the ones registered before, to that
equation only. -/
theorem c21_add_modifier (m : Model nf nd n) (e : ℕ) (f : Data n → Data n) (i : Fin nf)
    (st : Store nf nd n) (freq : Frequency n) (t : ℝ) :
    (m.registerRHSModifier e f).getRHS i st freq t =
      if i.val = e then f (m.getRHS i st freq t) else m.getRHS i st freq t := by
  rw [c21_rhs, c21_rhs]
  simp only [Model.registerRHSModifier, List.filter_append, List.map_append, List.foldl_append]
  by_cases h : i.val = e
  · simp [h]
  · have h' : ¬ e = i.val := fun he => h he.symm
    simp [h, h']

/-- One field, one term `1`, one source of strength `t` at the origin, one modifier doubling the
right-hand side of equation 0 and one for an equation 1 that does not concern it. -/
def demoModel : Model 1 0 1 :=
  { calcs := fun d => d.elim0
    terms := fun _ => [fun _ _ _ _ => 1]
    denum := fun _ => []
    sources := fun _ => [⟨[0, 0], fun t => t⟩]
    modifiers := [(0, fun d k => 2 * d k), (1, fun _ _ => 0)] }

example : demoModel.getRHS 0 ⟨fun _ _ => 0, fun d => d.elim0⟩ (fun _ => [0, 0]) 3 0 = 8 := by
  rw [c21_rhs]
  simp [demoModel, Source.eval, dotR]
  norm_num

/-! ## C22 -/

variable {dims : List ℕ}

/-- No term of equation `i` reads the field of an equation that is updated before it. (Reading it
through a derived field is fine.) -/
def ReadsNoEarlierField (m : Model nf nd n) (i : Fin nf) : Prop :=
  ∀ f ∈ m.terms i ++ m.denum i, ∀ (st st' : Store nf nd n) (freq : Frequency n) (t : ℝ),
    st.derived = st'.derived → (∀ j, ¬ j < i → st.fields j = st'.fields j) →
      f st freq t = f st' freq t

theorem rhs_congr {m : Model nf nd n} {i : Fin nf} (h : ReadsNoEarlierField m i)
    {st st' : Store nf nd n} (freq : Frequency n) (t : ℝ) (hd : st.derived = st'.derived)
    (hf : ∀ j, ¬ j < i → st.fields j = st'.fields j) :
    m.getRHS i st freq t = m.getRHS i st' freq t ∧
      m.getDenum i st freq t = m.getDenum i st' freq t := by
  constructor
  · rw [c21_rhs, c21_rhs]
    congr 1
    funext k
    congr 2
    refine List.map_congr_left fun f hm => ?_
    rw [h f (by simp [hm]) st st' freq t hd hf]
  · funext k
    rw [c21_denum, c21_denum]
    congr 1
    refine List.map_congr_left fun f hm => ?_
    rw [h f (by simp [hm]) st st' freq t hd hf]

/-- C22: one Euler step without filter replaces every bin `y` of the field by
`(y + dt N)/(1 - dt A)`, where `N` and `A` are evaluated at the state before the step: fields
transformed, derived fields computed from the fields and transformed. -/
theorem c22_euler (h : ∀ d ∈ dims, 0 < d) (m : Model nf nd dims.prod) (hd : FieldsOnly m)
    (i : Fin nf) (hi : ReadsNoEarlierField m i) (s : Stepper dims.prod) (hs : s.filter = none)
    (st : Store nf nd dims.prod) (k : Fin dims.prod) :
    let before : Store nf nd dims.prod :=
      ⟨fun j => fft dims (st.fields j), fun d => fft dims (m.calcs d st)⟩
    fft dims ((eulerStep m (s, st)).2.fields i) k =
      (fft dims (st.fields i) k + s.dt * m.getRHS i before s.freq (s.currentStep * s.dt) k) /
        (1 - s.dt * m.getDenum i before s.freq (s.currentStep * s.dt) k) := by
  intro before
  obtain ⟨st', h1, h2, h3⟩ := eulerStep_field h m s s.getTime st i
  have hb : st'.derived = before.derived := by
    rw [h1]
    unfold spectral
    rw [sync_eq hd]
    rfl
  obtain ⟨e1, e2⟩ := rhs_congr hi s.freq s.getTime hb h2
  unfold eulerStep
  dsimp only
  rw [h3, hs, e1, e2]
  rfl

/-- C22: a single equation never reads an earlier field. -/
theorem c22_single_equation (m : Model 1 nd n) (i : Fin 1) : ReadsNoEarlierField m i := by
  intro f _ st st' freq t hd hf
  have : st = st' := by
    cases st; cases st'
    simp only [Store.mk.injEq] at *
    refine ⟨?_, hd⟩
    funext j
    exact hf j (by omega)
  rw [this]

/-- Two equations on one node, `da/dt = a` and `db/dt = a`. -/
def chainModel : Model 2 0 1 :=
  { calcs := fun d => d.elim0
    terms := fun _ => [fun st _ _ => st.fields 0]
    denum := fun _ => []
    sources := fun _ => []
    modifiers := [] }

theorem phase_zero_left (dims : List ℕ) (x : ℕ) : phase dims 0 x = 0 := by
  have hz : ∀ ds : List ℕ, ∀ y, phaseSum ds (rowMajor ds 0) y = 0 := by
    intro ds
    induction ds with
    | nil => intro y; simp [phaseSum]
    | cons d ds ih =>
      intro y
      cases y with
      | nil => simp [phaseSum]
      | cons a y => simp [rowMajor, phaseSum, ih]
  exact hz dims _

theorem fft_zero_bin (data : Data dims.prod) (k : Fin dims.prod) (hk : k.val = 0) :
    fft dims data k = ∑ x, data x := by
  unfold fft
  refine Finset.sum_congr rfl fun x _ => ?_
  rw [hk, phase_zero_left]
  simp [cis_zero]

/-- C22: with `a = 1`, `b = 0` and `dt = 1` the step gives `b = 2`, not `b + dt a = 1`: the second
equation sees the field that the first has already overwritten. -/
theorem c22_chain_fails :
    let st : Store 2 0 [1, 1].prod := ⟨fun i _ => if i = 0 then 1 else 0, fun d => d.elim0⟩
    let s : Stepper [1, 1].prod := ⟨1, fun _ => [0, 0], none, 0⟩
    FieldsOnly chainModel ∧
    (eulerStep (dims := [1, 1]) chainModel (s, st)).2.fields 1 ⟨0, by decide⟩ = 2 ∧
    (st.fields 1 ⟨0, by decide⟩ + s.dt * st.fields 0 ⟨0, by decide⟩ : ℂ) = 1 := by
  refine ⟨fun d => d.elim0, ?_, by simp⟩
  have e1 : ∀ (data : Data [1, 1].prod), fft [1, 1] data = data := by
    intro data
    funext k
    obtain ⟨k, hk⟩ := k
    obtain rfl : k = 0 := by simpa using hk
    rw [fft_zero_bin _ _ rfl]
    exact Fin.sum_univ_one _
  have e2 : ∀ (data : Data [1, 1].prod), ifft [1, 1] data = data := by
    intro data
    have := fun x => fft_ifft (dims := [1, 1]) (by decide) data x
    funext x
    have h := this x
    rw [e1] at h
    simpa using h
  simp only [eulerStep, eulerStepAt, ifftFields, fftDerived, fftFields, Model.sync, e1, e2]
  have hr : List.finRange 2 = [0, 1] := by decide
  rw [hr]
  simp only [List.foldl_cons, List.foldl_nil, eulerField, optFilter, divRealScalar, chainModel,
    Model.getRHS, Model.rawRHS, Model.getDenum]
  simp
  simp only [elemwiseAdd]
  norm_num

example : ReadsNoEarlierField chainModel 0 := by
  intro f hf st st' freq t hd hs
  simp only [chainModel, List.append_nil, List.mem_singleton] at hf
  subst hf
  exact hs 0 (by simp)

/-! ## C23 -/

/-- C23: if all terms of equation `i` vanish at the zero frequency, it has no sources, its modifiers
keep a vanishing zero bin, and the filter (if any) is 1 at zero frequency, then the sum of the field
over the nodes is the same after any number of steps. -/
theorem c23_mean (h : ∀ d ∈ dims, 0 < d) (m : Model nf nd dims.prod) (i : Fin nf)
    (s : Stepper dims.prod) (k : Fin dims.prod) (hk : k.val = 0) (hfreq : ∀ x ∈ s.freq k, x = 0)
    (hterms : ∀ f ∈ m.terms i ++ m.denum i, ∀ st t, f st s.freq t k = 0)
    (hsrc : m.sources i = [])
    (hmod : ∀ md ∈ m.modifiers, md.1 = i.val → ∀ data, data k = 0 → md.2 data k = 0)
    (hfilter : ∀ f, s.filter = some f → f 0 = 1)
    (st : Store nf nd dims.prod) (steps : ℕ) :
    ∑ x, ((eulerStep m)^[steps] (s, st)).2.fields i x = ∑ x, st.fields i x := by
  have hrhs : ∀ st t, m.getRHS i st s.freq t k = 0 := by
    intro st t
    rw [c21_rhs]
    have h0 : ∀ (l : List (Data dims.prod → Data dims.prod)) (d : Data dims.prod),
        (∀ f ∈ l, ∀ data : Data dims.prod, data k = 0 → f data k = 0) → d k = 0 →
        l.foldl (fun data f => f data) d k = 0 := by
      intro l
      induction l with
      | nil => intro d _ hd; exact hd
      | cons f l ih =>
        intro d hl hd
        exact ih _ (fun g hg => hl g (by simp [hg])) (hl f (by simp) d hd)
    apply h0
    · intro f hf
      obtain ⟨md, hmd, rfl⟩ := List.mem_map.mp hf
      rw [List.mem_filter] at hmd
      exact hmod md hmd.1 (by simpa using hmd.2)
    · rw [hsrc]
      simp only [List.map_nil, List.sum_nil, add_zero]
      apply List.sum_eq_zero
      intro y hy
      obtain ⟨f, hf, rfl⟩ := List.mem_map.mp hy
      exact hterms f (by simp [hf]) st t
  have hden : ∀ st t, m.getDenum i st s.freq t k = 0 := by
    intro st t
    rw [c21_denum]
    apply List.sum_eq_zero
    intro y hy
    obtain ⟨f, hf, rfl⟩ := List.mem_map.mp hy
    exact hterms f (by simp [hf]) st t
  have hstep : ∀ (c : ℕ) (st : Store nf nd dims.prod),
      ∑ x, (eulerStep m ({ s with currentStep := c }, st)).2.fields i x = ∑ x, st.fields i x := by
    intro c st
    obtain ⟨st', -, -, h3⟩ := eulerStep_field h m { s with currentStep := c }
      ({ s with currentStep := c } : Stepper dims.prod).getTime st i
    rw [← fft_zero_bin _ k hk, ← fft_zero_bin _ k hk]
    have h3k := congrFun h3 k
    unfold eulerStep
    dsimp only at h3k ⊢
    rw [h3k]
    have hdot : ∀ l : List ℝ, (∀ x ∈ l, x = 0) → dotR l l = 0 := by
      intro l
      induction l with
      | nil => intro _; simp [dotR]
      | cons a l ih =>
        intro hl
        have := ih (fun x hx => hl x (by simp [hx]))
        simp only [dotR, List.zipWith_cons_cons, List.sum_cons] at this ⊢
        rw [this, hl a (by simp)]
        simp
    cases hf : s.filter with
    | none => simp [optFilter, hrhs, hden]
    | some f =>
      simp [optFilter, applyModalFilter, hrhs, hden, hdot _ hfreq, hfilter f hf]
  have hiter : ∀ (steps c : ℕ) (st : Store nf nd dims.prod),
      ∑ x, ((eulerStep m)^[steps] ({ s with currentStep := c }, st)).2.fields i x =
        ∑ x, st.fields i x := by
    intro steps
    induction steps with
    | zero => intro c st; rfl
    | succ steps ih =>
      intro c st
      rw [Function.iterate_succ_apply]
      exact (ih (c + 1) _).trans (hstep c st)
  exact hiter steps s.currentStep st

/-- C23: whatever follows a Laplacian prefix vanishes at the zero frequency. -/
theorem c23_laplacian {n : ℕ} (term : Term n) (prefixes : List Str) (freq : Frequency n) (t : ℝ)
    (k : Fin n) (hf : ∀ x ∈ freq k, x = 0)
    (hp : "LAP".toList ∈ prefixes ∨ "LAP^2".toList ∈ prefixes ∨ "LAP^4".toList ∈ prefixes) :
    constructFunc term prefixes freq t k = 0 := by
  rw [c15_meaning]
  have h0 : laplaceSymbol (freq k) = 0 := by
    unfold laplaceSymbol
    have : ((freq k).map fun x => x ^ 2).sum = 0 := by
      apply List.sum_eq_zero
      intro y hy
      obtain ⟨x, hx, rfl⟩ := List.mem_map.mp hy
      simp [hf x hx]
    rw [this]
    simp
  have : (prefixes.map fun p => prefixSymbol p (freq k)).prod = 0 := by
    rw [List.prod_eq_zero_iff, List.mem_map]
    rcases hp with hp | hp | hp
    · exact ⟨_, hp, by simp [prefixSymbol, h0]⟩
    · exact ⟨_, hp, by simp [prefixSymbol, h0]⟩
    · exact ⟨_, hp, by simp [prefixSymbol, h0]⟩
  rw [this, zero_mul]

/-- A conserved model: `dc/dt = LAP*c^3 - LAP^2*c` on any grid. -/
noncomputable def cahnHilliard (n : ℕ) : Model 1 1 n :=
  { calcs := fun _ st x => st.fields 0 x ^ 3
    terms := fun _ => [fun st => constructFunc (fun _ _ => st.derived 0) ["LAP".toList]]
    denum := fun _ => [fun _ => constructFunc (fun _ _ _ => 1) ["LAP^2".toList, "-".toList]]
    sources := fun _ => []
    modifiers := [] }

example (h : ∀ d ∈ dims, 0 < d) (st : Store 1 1 dims.prod) (steps : ℕ) (freq : Frequency dims.prod)
    (k : Fin dims.prod) (hk : k.val = 0) (hf : freq k = [0, 0]) :
    ∑ x, ((eulerStep (cahnHilliard _))^[steps] (⟨1, freq, none, 0⟩, st)).2.fields 0 x =
      ∑ x, st.fields 0 x := by
  apply c23_mean h _ _ _ k hk
  · simp [hf]
  · intro f hm st t
    simp only [cahnHilliard, List.cons_append, List.nil_append, List.mem_cons, List.not_mem_nil,
      or_false] at hm
    rcases hm with rfl | rfl <;> exact c23_laplacian _ _ _ _ _ (by simp [hf]) (by simp)
  · rfl
  · intro md hmd
    simp [cahnHilliard] at hmd
  · simp

/-! ## C25 -/

/-- The spectrum of a real, non-positive implicit coefficient. -/
theorem c25_step (h : ∀ d ∈ dims, 0 < d) (m : Model nf nd dims.prod) (i : Fin nf)
    (s : Stepper dims.prod) (hdt : 0 ≤ s.dt) (hs : s.filter = none)
    (hterms : m.terms i = []) (hsrc : m.sources i = [])
    (hmod : ∀ md ∈ m.modifiers, md.1 ≠ i.val)
    (coef : List (ℝ × ℕ)) (hc : ∀ c ∈ coef, 0 ≤ c.1)
    (hden : m.denum i = coef.map fun c => fun _ freq _ k =>
      (c.1 : ℂ) * laplaceSymbol (freq k) ^ (2 * c.2 + 1))
    (st : Store nf nd dims.prod) (k : Fin dims.prod) :
    ‖fft dims ((eulerStep m (s, st)).2.fields i) k‖ ≤ ‖fft dims (st.fields i) k‖ := by
  obtain ⟨st', -, -, h3⟩ := eulerStep_field h m s s.getTime st i
  have hrhs : m.getRHS i st' s.freq s.getTime k = 0 := by
    rw [c21_rhs, hterms, hsrc]
    have : m.modifiers.filter (fun md => md.1 = i.val) = [] := by
      rw [List.filter_eq_nil_iff]
      intro md hmd
      simpa using hmod md hmd
    rw [this]
    simp
  have hA : ∃ a : ℝ, 0 ≤ a ∧ m.getDenum i st' s.freq s.getTime k = ((-a : ℝ) : ℂ) := by
    rw [c21_denum, hden, List.map_map]
    have hsym : ∃ b : ℝ, 0 ≤ b ∧ laplaceSymbol (s.freq k) = ((-b : ℝ) : ℂ) := by
      refine ⟨4 * Real.pi ^ 2 * ((s.freq k).map fun x => x ^ 2).sum, ?_, ?_⟩
      · apply mul_nonneg (by positivity)
        apply List.sum_nonneg
        intro y hy
        obtain ⟨x, -, rfl⟩ := List.mem_map.mp hy
        positivity
      · unfold laplaceSymbol; rw [Complex.ofReal_neg]
    obtain ⟨b, hb, hbs⟩ := hsym
    clear hden
    induction coef with
    | nil => exact ⟨0, le_rfl, by simp⟩
    | cons c cs ih =>
      obtain ⟨a, ha, e⟩ := ih (fun c hm => hc c (by simp [hm]))
      refine ⟨c.1 * b ^ (2 * c.2 + 1) + a, ?_, ?_⟩
      · have := hc c (by simp)
        positivity
      · rw [List.map_cons, List.sum_cons, e]
        simp only [Function.comp, hbs]
        push_cast
        have : (-(b:ℂ)) ^ (2 * c.2 + 1) = -(b:ℂ) ^ (2 * c.2 + 1) := by
          rw [Odd.neg_pow ⟨c.2, rfl⟩]
        rw [this]
        ring
  obtain ⟨a, ha, hA⟩ := hA
  have h3k := congrFun h3 k
  unfold eulerStep
  dsimp only
  rw [h3k, hs]
  simp only [optFilter, hrhs, hA, mul_zero, add_zero]
  rw [norm_div]
  have : (1 : ℂ) - (s.dt : ℂ) * ((-a : ℝ) : ℂ) = ((1 + s.dt * a : ℝ) : ℂ) := by push_cast; ring
  rw [this, Complex.norm_real, Real.norm_of_nonneg (by positivity)]
  have h1 : 1 ≤ 1 + s.dt * a := by nlinarith [mul_nonneg hdt ha]
  exact div_le_self (norm_nonneg _) h1

/-- C25: with only implicit terms `c * LAP^p`, `c ≥ 0`, `p` odd, no Fourier amplitude grows, for any
number of steps and any `dt ≥ 0`. -/
theorem c25_stable (h : ∀ d ∈ dims, 0 < d) (m : Model nf nd dims.prod) (i : Fin nf)
    (s : Stepper dims.prod) (hdt : 0 ≤ s.dt) (hs : s.filter = none)
    (hterms : m.terms i = []) (hsrc : m.sources i = [])
    (hmod : ∀ md ∈ m.modifiers, md.1 ≠ i.val)
    (coef : List (ℝ × ℕ)) (hc : ∀ c ∈ coef, 0 ≤ c.1)
    (hden : m.denum i = coef.map fun c => fun _ freq _ k =>
      (c.1 : ℂ) * laplaceSymbol (freq k) ^ (2 * c.2 + 1))
    (st : Store nf nd dims.prod) (k : Fin dims.prod) (steps more : ℕ) :
    ‖fft dims (((eulerStep m)^[steps + more] (s, st)).2.fields i) k‖ ≤
      ‖fft dims (((eulerStep m)^[steps] (s, st)).2.fields i) k‖ := by
  have hinv : ∀ (j : ℕ), ((eulerStep m)^[j] (s, st)).1 = { s with currentStep := s.currentStep + j } := by
    intro j
    induction j with
    | zero => rfl
    | succ j ih => rw [Function.iterate_succ_apply', eulerStep, ih]; rfl
  induction more with
  | zero => exact le_rfl
  | succ more ih =>
    refine le_trans ?_ ih
    rw [← add_assoc, Function.iterate_succ_apply']
    have e := hinv (steps + more)
    generalize (eulerStep m)^[steps + more] (s, st) = p at e ⊢
    obtain ⟨p1, p2⟩ := p
    dsimp only at e
    have h1 : 0 ≤ p1.dt := by rw [e]; exact hdt
    have h2 : p1.filter = none := by rw [e]; exact hs
    exact c25_step h m i p1 h1 h2 hterms hsrc hmod coef hc hden p2 k

/-- `dc/dt = 2 LAP c + 3 LAP^3 c`. -/
noncomputable def diffusionModel (n : ℕ) : Model 1 0 n :=
  { calcs := fun d => d.elim0
    terms := fun _ => []
    denum := fun _ => [fun _ freq _ k => ((2 : ℝ) : ℂ) * laplaceSymbol (freq k) ^ 1,
      fun _ freq _ k => ((3 : ℝ) : ℂ) * laplaceSymbol (freq k) ^ 3]
    sources := fun _ => []
    modifiers := [] }

example (h : ∀ d ∈ dims, 0 < d) (st : Store 1 0 dims.prod) (k : Fin dims.prod)
    (freq : Frequency dims.prod) :
    ‖fft dims ((eulerStep (diffusionModel _) (⟨100, freq, none, 0⟩, st)).2.fields 0) k‖ ≤
      ‖fft dims (st.fields 0) k‖ :=
  c25_step h _ 0 _ (by norm_num) rfl rfl rfl (by intro md hmd; simp [diffusionModel] at hmd)
    [(2, 0), (3, 1)] (by simp) (by simp [diffusionModel]) st k

end Gopf.Props
