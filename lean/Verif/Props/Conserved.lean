import Verif.Props.Uniform

/-!
# C116: equations in divergence form conserve the sum of the field, through any session
-/

namespace Gopf.Props
open Spec Pf Pfutil

variable {nf nd n : ℕ} {dims : List ℕ}

/-! ### Properties kept by every step are kept by every session -/

section
variable {m : Model nf nd dims.prod} {P : Store nf nd dims.prod → Prop} {Q : (ℝ → ℝ) → Prop}

/-- What holds during a session. -/
def Kept (P : Store nf nd dims.prod → Prop) (Q : (ℝ → ℝ) → Prop) (s : SolverState nf nd dims) : Prop :=
  s.stepper.freq = freqOf dims ∧ (∀ f, s.stepper.filter = some f → Q f) ∧ P s.store

variable
  (hE : ∀ (s : Stepper dims.prod) st, s.freq = freqOf dims → (∀ f, s.filter = some f → Q f) → P st →
    P (eulerStep m (s, st)).2)
  (hR : ∀ (s : Stepper dims.prod) st, s.freq = freqOf dims → (∀ f, s.filter = some f → Q f) → P st →
    P (rk4Step m (s, st)).2)
include hE hR

theorem kept_step {s : SolverState nf nd dims} (hs : Kept P Q s) : Kept P Q (s.step m) := by
  obtain ⟨h1, h2, h3⟩ := hs
  unfold SolverState.step
  cases s.kind with
  | euler => exact ⟨h1, h2, hE _ _ h1 h2 h3⟩
  | rk4 => exact ⟨h1, h2, hR _ _ h1 h2 h3⟩

theorem kept_propagate (k : ℤ) {s : SolverState nf nd dims} (hs : Kept P Q s) : Kept P Q (s.propagate m k) := by
  unfold SolverState.propagate
  generalize List.range k.toNat = l
  induction l generalizing s with
  | nil => exact hs
  | cons a l ih => exact ih (kept_step hE hR hs)

theorem kept_solve (bricks : Str → Option (BrickRef nf nd)) (e k : ℤ) {s r : SolverState nf nd dims}
    (hs : Kept P Q s) (hr : s.solve m bricks e k = some r) : Kept P Q r := by
  unfold SolverState.solve at hr
  generalize List.range e.toNat = l at hr
  induction l generalizing s with
  | nil =>
    simp only [List.foldlM_nil, Option.pure_def, Option.some.injEq] at hr
    subst hr
    exact hs
  | cons a l ih =>
    rw [List.foldlM_cons, Option.bind_eq_bind, Option.bind_eq_some_iff] at hr
    obtain ⟨t, ht, hr⟩ := hr
    refine ih ?_ hr
    unfold SolverState.epoch SolverState.runMonitors at ht
    rw [Option.bind_eq_bind, Option.bind_eq_some_iff] at ht
    obtain ⟨ms, -, ht⟩ := ht
    simp only [Option.pure_def, Option.some.injEq] at ht
    subst ht
    exact kept_propagate hE hR k hs

theorem kept_session (bricks : Str → Option (BrickRef nf nd)) (calls : List SolverCall)
    (hQ : ∀ f, SolverCall.setFilter f ∈ calls → Q f) {s r : SolverState nf nd dims} (hs : Kept P Q s)
    (hr : s.session m bricks calls = some r) : Kept P Q r := by
  unfold SolverState.session at hr
  induction calls generalizing s with
  | nil =>
    simp only [List.foldlM_nil, Option.pure_def, Option.some.injEq] at hr
    subst hr
    exact hs
  | cons c calls ih =>
    rw [List.foldlM_cons, Option.bind_eq_bind, Option.bind_eq_some_iff] at hr
    obtain ⟨t, ht, hr⟩ := hr
    refine ih (fun f hf => hQ f (List.mem_cons_of_mem _ hf)) ?_ hr
    cases c with
    | addMonitor site field =>
      simp only [SolverState.call, Option.some.injEq] at ht
      subst ht
      exact hs
    | setFilter filter =>
      simp only [SolverState.call, Option.some.injEq] at ht
      subst ht
      refine ⟨hs.1, ?_, hs.2.2⟩
      intro f hf
      obtain rfl := Option.some.inj hf
      exact hQ _ (by simp)
    | setStepper name =>
      simp only [SolverState.call, SolverState.setStepper] at ht
      split_ifs at ht <;>
      · simp only [Option.some.injEq] at ht
        subst ht
        exact ⟨rfl, fun f hf => (by simp at hf), hs.2.2⟩
    | propagate k =>
      simp only [SolverState.call, Option.some.injEq] at ht
      subst ht
      exact kept_propagate hE hR k hs
    | solve e k => exact kept_solve hE hR bricks e k hs ht

end

theorem newSolver_kept {P : Store nf nd dims.prod → Prop} {Q : (ℝ → ℝ) → Prop} {dt : ℝ} {fields : Fin nf → List ℂ}
    {derived : Fin nd → Data dims.prod} {s : SolverState nf nd dims} (hs : newSolver dims dt fields derived = some s)
    (hP : P s.store) : Kept P Q s := by
  unfold newSolver at hs
  split_ifs at hs
  simp only [Option.some.injEq] at hs
  subst hs
  exact ⟨rfl, fun f hf => (by simp at hf), hP⟩

/-! ### The zero bin -/

/-- Equation `i` has no uniform part: neither its right-hand side nor its implicit part has a component of zero
frequency. -/
def NoUniformPart (freq : Frequency dims.prod) (m : Model nf nd dims.prod) (i : Fin nf) : Prop :=
  ∀ st t (k : Fin dims.prod), k.val = 0 → m.getRHS i st freq t k = 0 ∧ m.getDenum i st freq t k = 0

/-- The factor by which a stepper multiplies the component of zero frequency. -/
def zeroGain (filter : Option (ℝ → ℝ)) : ℝ := filter.elim 1 fun f => f 0

theorem coord_origin (h : GoodDims (intDims dims)) (k : Fin dims.prod) (hk : k.val = 0) (j : Fin dims.length) :
    coord dims k.val j.val = 0 := by
  rw [hk]
  unfold coord
  rcases goodDims_nat h with ⟨d0, d1, rfl, p0, p1⟩ | ⟨d0, d1, d2, rfl, p0, p1, p2⟩
  · simp only [List.map_cons, List.map_nil, pos, Nat.cast_zero]
    rw [pos2_eq (by simpa using p1) le_rfl]
    fin_cases j <;> simp
  · simp only [List.map_cons, List.map_nil, pos, Nat.cast_zero]
    rw [pos3_eq (by simpa using p0) (by simpa using p1) le_rfl]
    fin_cases j <;> simp

theorem dotR_origin (h : GoodDims (intDims dims)) (k : Fin dims.prod) (hk : k.val = 0) :
    dotR (freqOf dims k) (freqOf dims k) = 0 := by
  rw [dotR_self, freqOf_coord h]
  simp [coord_origin h k hk, phi_zero]

theorem optFilter_origin (h : GoodDims (intDims dims)) (filter : Option (ℝ → ℝ)) (data : Data dims.prod)
    (k : Fin dims.prod) (hk : k.val = 0) : optFilter filter (freqOf dims) data k = zeroGain filter * data k := by
  cases filter with
  | none => simp [optFilter, zeroGain]
  | some f =>
    simp only [optFilter, applyModalFilter, zeroGain, Option.elim]
    rw [dotR_origin h k hk, Real.sqrt_zero, zero_mul, zero_div, mul_comm]

theorem fft_divided (h : ∀ d ∈ dims, 0 < d) (X : Data dims.prod) :
    fft dims (divRealScalar (ifft dims X) (dims.prod : ℕ)) = X := by
  have := fft_ifftFields (nf := 1) (nd := 0) h ⟨fun _ => X, fun d => d.elim0⟩ 0
  exact this

variable (m : Model nf nd dims.prod)

theorem rk4_last (s : Stepper dims.prod) (st : Store nf nd dims.prod) (i : Fin nf) :
    ∃ stc, (rk4StepStore m s st).fields i = divRealScalar (ifft dims (optFilter s.filter s.freq fun j =>
      (stagesOf m s (fftDerived (fftFields (m.sync st)))).1 i j /
        (1 - (s.dt : ℂ) * m.getDenum i stc s.freq s.getTime j))) (dims.prod : ℕ) := by
  have last : ∀ (final : Fin nf → Data dims.prod) (x : Store nf nd dims.prod), ∃ stc,
      ((List.finRange nf).foldl (fun (stc : Store nf nd dims.prod) i =>
        { stc with fields := Function.update stc.fields i (optFilter s.filter s.freq fun j =>
          final i j / (1 - (s.dt : ℂ) * m.getDenum i stc s.freq s.getTime j)) }) x).fields i =
      optFilter s.filter s.freq fun j => final i j / (1 - (s.dt : ℂ) * m.getDenum i stc s.freq s.getTime j) := by
    intro final x
    let g : Store nf nd dims.prod → Fin nf → Data dims.prod := fun stc i =>
      optFilter s.filter s.freq fun j => final i j / (1 - (s.dt : ℂ) * m.getDenum i stc s.freq s.getTime j)
    obtain ⟨l1, l2, hl, -⟩ := finRange_split i
    exact ⟨_, (foldl_update_fields g (List.finRange nf) (List.nodup_finRange nf) x).2.2 l1 i l2 hl⟩
  obtain ⟨stc, e⟩ := last _ _
  exact ⟨stc, congrArg (fun d => divRealScalar (ifft dims d) (dims.prod : ℕ)) e⟩

theorem stages_zero {s : Stepper dims.prod} {i : Fin nf} {k : Fin dims.prod}
    (hz : ∀ st, m.getRHS i st s.freq s.getTime k = 0) (st : Store nf nd dims.prod) :
    (stagesOf m s st).1 i k = st.fields i k := by
  have hacc : ∀ (f a : Fin nf → Data dims.prod) (w : ℝ), a i k = 0 → rk4Accumulate s f a w i k = f i k := by
    intro f a w ha
    simp [rk4Accumulate, ha]
  have hstage : ∀ (F : Fin nf → Data dims.prod) (factor weight : ℝ) p,
      (stageOf m s F factor weight p).1 i k = p.1 i k := fun F factor weight p => hacc _ _ _ (hz _)
  unfold stagesOf
  rw [hstage, hstage, hstage]
  exact hacc st.fields (fun i => m.getRHS i st s.freq s.getTime) _ (hz st)

section
variable (h : GoodDims (intDims dims)) (i : Fin nf) (hm : NoUniformPart (freqOf dims) m i)
include h hm

/-- C116: an Euler step multiplies the sum of the field by the filter at frequency zero (by one without filter). -/
theorem c116_euler (s : Stepper dims.prod) (hs : s.freq = freqOf dims) (st : Store nf nd dims.prod) :
    ∑ x, (eulerStep m (s, st)).2.fields i x = zeroGain s.filter * ∑ x, st.fields i x := by
  rcases Nat.eq_zero_or_pos dims.prod with h0 | h0
  · exact absurd h0 (by exact_mod_cast prod_ne_zero (pos_of_goodDims h))
  obtain ⟨st', -, -, h3⟩ := eulerStep_field (pos_of_goodDims h) m s s.getTime st i
  rw [← fft_zero_bin _ ⟨0, h0⟩ rfl, ← fft_zero_bin _ ⟨0, h0⟩ rfl]
  unfold eulerStep
  dsimp only
  rw [h3, hs, optFilter_origin h _ _ ⟨0, h0⟩ rfl, (hm _ _ ⟨0, h0⟩ rfl).1, (hm _ _ ⟨0, h0⟩ rfl).2]
  simp

/-- C116: so does an RK4 step. -/
theorem c116_rk4 (s : Stepper dims.prod) (hs : s.freq = freqOf dims) (st : Store nf nd dims.prod) :
    ∑ x, (rk4Step m (s, st)).2.fields i x = zeroGain s.filter * ∑ x, st.fields i x := by
  rcases Nat.eq_zero_or_pos dims.prod with h0 | h0
  · exact absurd h0 (by exact_mod_cast prod_ne_zero (pos_of_goodDims h))
  obtain ⟨stc, e⟩ := rk4_last m s st i
  rw [← fft_zero_bin _ ⟨0, h0⟩ rfl, ← fft_zero_bin _ ⟨0, h0⟩ rfl]
  unfold rk4Step
  dsimp only
  rw [e, fft_divided (pos_of_goodDims h), hs, optFilter_origin h _ _ ⟨0, h0⟩ rfl, (hm _ _ ⟨0, h0⟩ rfl).2,
    stages_zero m (fun st => by rw [hs]; exact (hm _ _ ⟨0, h0⟩ rfl).1)]
  have : (fftDerived (fftFields (m.sync st))).fields i = fft dims (st.fields i) := by
    change fft dims ((m.sync st).fields i) = _
    rw [sync_fields]
  rw [this]
  simp

/-- C116: if all filters used are one at frequency zero, the sum of the field is the same after any session. -/
theorem c116_session (bricks : Str → Option (BrickRef nf nd)) (dt : ℝ) (fields : Fin nf → List ℂ)
    (derived : Fin nd → Data dims.prod) (s r : SolverState nf nd dims)
    (hs : newSolver dims dt fields derived = some s) (calls : List SolverCall)
    (hf : ∀ f, SolverCall.setFilter f ∈ calls → f 0 = 1) (hr : s.session m bricks calls = some r) :
    ∑ x, r.store.fields i x = ∑ x, s.store.fields i x := by
  have hg : ∀ s : Stepper dims.prod, (∀ f, s.filter = some f → f 0 = 1) → zeroGain s.filter = 1 := by
    intro s hs
    cases e : s.filter with
    | none => rfl
    | some f => exact hs f e
  refine (kept_session (m := m) (P := fun st => ∑ x, st.fields i x = ∑ x, s.store.fields i x) (Q := fun f => f 0 = 1)
    ?_ ?_ bricks calls hf (newSolver_kept hs rfl) hr).2.2
  · intro s' st h1 h2 h3
    rw [c116_euler m h i hm s' h1, hg s' h2, h3]
    simp
  · intro s' st h1 h2 h3
    rw [c116_rk4 m h i hm s' h1, hg s' h2, h3]
    simp

end

/-! ### Equations given as text -/

/-- Everything the text of the equations determines. -/
theorem text_shape (N : Names) (hN : N.WellNamed) (m0 : EqModel n) (h0 : StartsAs N m0) (heq : m0.equations = [])
    (eqs : List Equation) (hq : ∀ eq ∈ eqs, eq.Polynomial N ∧ Unregistered m0 eq)
    (hcount : N.fields.length ≤ eqs.length)
    (ss : List Str) (hs : ss.map (fun s => s.filter fun c => c ≠ ' ') = eqs.map Equation.text) (c : Str → ℂ) :
    ∃ (m : EqModel n) (M : Model m.fields.length m.derived.length n), ss.foldlM EqModel.addEquation m0 = some m ∧
      Grown N m0 m ∧ m.assemble c = some M ∧
      (∃ l, m.derived = m0.derived ++ l ∧ ∀ q ∈ l, ∃ eq ∈ eqs, ∃ p ∈ eq.terms, ∀ u : Bricks n,
          q.2.eval u = productValue (factorsIn N.fields p.1) u) ∧
      (∀ d st, M.calcs d st = (m.derived[d]).2.eval (m.brick c st)) ∧
      ∀ i : Fin m.fields.length, ∃ eq, eqs[i.val]? = some eq ∧
        (∃ ts : List ((List Item × Option Char) × Str), (∀ q ∈ ts, q.1 ∈ eq.terms ∧ q.2 ∈ m.allFieldNames) ∧
          ∀ st freq t k, M.getRHS i st freq t k =
            (ts.map fun q => explicitFactor N eq.field (fun y _ => c y) freq k q.1 * m.brick c st q.2 k).sum) ∧
        ∀ st freq t k, M.getDenum i st freq t k =
          (eq.terms.map (linearFactor N eq.field (fun y _ => c y) freq k)).sum := by
  obtain ⟨m, hadd, hg, -, hder, -⟩ := add_all hN eqs ss m0 (grown_start hN h0) hq hs
  obtain ⟨m', Rs, hadd', hinit, hall⟩ := initRHS_shape N hN m0 h0 heq eqs hq ss hs
  rw [hadd] at hadd'
  obtain rfl := Option.some.inj hadd'
  have hlenE : m.fields.length ≤ eqs.length := by rw [hg.fields]; exact hcount
  have hRlen : m.fields.length ≤ Rs.length := by rw [← hall.length_eq]; exact hlenE
  refine ⟨m, _, hadd, hg, by rw [EqModel.assemble, hinit]; simp only [dif_pos hRlen]; rfl, hder, fun d st => rfl, ?_⟩
  intro i
  have hlt : i.val < eqs.length := i.2.trans_le hlenE
  have hshape := (List.forall₂_iff_get.mp hall).2 i.val hlt (i.2.trans_le hRlen)
  simp only [List.get_eq_getElem] at hshape
  have hsc : ∀ (st : Store m.fields.length m.derived.length n), ∀ x ∈ N.scalars,
      m.brick c st x = (fun y (_ : Fin n) => c y) x := fun st x hx => brick_scalar hN hg hx c st
  obtain ⟨⟨ts, hmem, hts⟩, hden⟩ := hshape
  refine ⟨eqs[i.val], List.getElem?_eq_getElem hlt, ⟨ts, hmem, ?_⟩, ?_⟩
  · intro st freq t k
    have : ∀ q : (List Item × Option Char) × Str,
        explicitFactor N eqs[i.val].field (fun y (_ : Fin n) => c y) freq k q.1 * m.brick c st q.2 k =
        explicitFactor N eqs[i.val].field (m.brick c st) freq k q.1 * m.brick c st q.2 k := by
      intro q
      rw [explicitFactor_congr freq k (hsc st)]
    simp only [this]
    rw [← hts (m.brick c st) freq t k, c21_rhs]
    simp [Function.comp_def]
  · intro st freq t k
    have : ∀ q, linearFactor N eqs[i.val].field (fun y (_ : Fin n) => c y) freq k q =
        linearFactor N eqs[i.val].field (m.brick c st) freq k q := by
      intro q
      rw [linearFactor_congr freq k (hsc st)]
    have e : linearFactor N eqs[i.val].field (fun y (_ : Fin n) => c y) freq k =
        linearFactor N eqs[i.val].field (m.brick c st) freq k := funext this
    rw [e, ← hden (m.brick c st) freq t k, c21_denum]
    simp [Function.comp_def]

/-- Every term of the equation has a Laplacian. -/
def Equation.Divergence (eq : Equation) : Prop := ∀ p ∈ eq.terms, (laplacians p.1).sum ≠ 0

/-- C116, from the text of the equations: if every term of an equation has a Laplacian, the sum of its field over the
nodes is the same after any session in which the filters are one at frequency zero. Other equations are arbitrary. -/
theorem c116_text (h : GoodDims (intDims dims)) (N : Names) (hN : N.WellNamed)
    (m0 : EqModel dims.prod) (h0 : StartsAs N m0) (heq : m0.equations = [])
    (eqs : List Equation) (hq : ∀ eq ∈ eqs, eq.Polynomial N ∧ Unregistered m0 eq)
    (hcount : N.fields.length ≤ eqs.length)
    (ss : List Str) (hs : ss.map (fun s => s.filter fun c => c ≠ ' ') = eqs.map Equation.text) (c : Str → ℂ) :
    ∃ m M, ss.foldlM EqModel.addEquation m0 = some m ∧ m.fields = N.fields ∧ m.assemble c = some M ∧
      ∀ (i : Fin m.fields.length) (eq : Equation), eqs[i.val]? = some eq → Equation.Divergence eq →
      ∀ (bricks : Str → Option (BrickRef m.fields.length m.derived.length)) (dt : ℝ)
        (fields : Fin m.fields.length → List ℂ) (derived : Fin m.derived.length → Data dims.prod)
        (s r : SolverState m.fields.length m.derived.length dims),
      newSolver dims dt fields derived = some s → ∀ calls : List SolverCall,
      (∀ f, SolverCall.setFilter f ∈ calls → f 0 = 1) → s.session M bricks calls = some r →
        ∑ x, r.store.fields i x = ∑ x, s.store.fields i x := by
  obtain ⟨m, M, h1, hg, h3, -, -, h6⟩ := text_shape N hN m0 h0 heq eqs hq hcount ss hs c
  refine ⟨m, M, h1, hg.fields, h3, ?_⟩
  intro i eq hi hdiv bricks dt fields derived s r hnew calls hf hr
  refine c116_session M h i ?_ bricks dt fields derived s r hnew calls hf hr
  obtain ⟨eq', hi', ⟨ts, hmem, hR⟩, hD⟩ := h6 i
  rw [hi] at hi'
  obtain rfl := Option.some.inj hi'
  intro st t k hk
  rw [hR, hD]
  constructor
  · apply List.sum_eq_zero
    intro y hy
    obtain ⟨q, hq, rfl⟩ := List.mem_map.mp hy
    unfold explicitFactor
    rw [symbol_origin h k hk, zero_pow_prod, if_neg (hdiv _ (hmem q hq).1)]
    split_ifs <;> simp
  · apply List.sum_eq_zero
    intro y hy
    obtain ⟨q, hq, rfl⟩ := List.mem_map.mp hy
    unfold linearFactor
    rw [symbol_origin h k hk, zero_pow_prod, if_neg (hdiv _ hq)]
    split_ifs <;> simp

/-- `dconc/dt = LAPconc^2 - LAPconc` has only terms with a Laplacian; the other hypotheses are met as in
`Props/Symmetry.lean`. `dconc/dt = conc^2 - conc` is not of this kind. -/
example : Equation.Divergence spreadEquation ∧ ¬ Equation.Divergence squareEquation := by
  unfold Equation.Divergence
  decide

end Gopf.Props
