import Verif.Props.Symmetry

/-!
# C115: symmetric fields stay symmetric, uniform fields follow the equations without Laplacians
-/

namespace Gopf.Props
open Spec Pf Pfutil

variable {nf nd n : ℕ} {dims : List ℕ}

/-- Every field has the same value everywhere. -/
def UniformFields (st : Store nf nd n) : Prop := ∀ i x y, st.fields i x = st.fields i y

/-- No field depends on coordinate `j`. -/
def FreeOf (j : Fin dims.length) (st : Store nf nd dims.prod) : Prop :=
  ∀ i (x y : Fin dims.prod), (∀ l : Fin dims.length, l ≠ j → coord dims x.val l.val = coord dims y.val l.val) →
    st.fields i x = st.fields i y

section
variable (h : GoodDims (intDims dims)) (hl : LayoutOk dims) (m : Model nf nd dims.prod)
  (hm : Isotropic (freqOf dims) m)
include h hl hm

/-- C115: fields that have a symmetry at the beginning have it after any sequence of calls. -/
theorem c115_symmetric (g : GridSymmetry dims) (τ : Equiv.Perm (Fin dims.prod)) (hτ : g.Moves τ)
    (bricks : Str → Option (BrickRef nf nd)) (dt : ℝ) (fields : Fin nf → List ℂ) (derived : Fin nd → Data dims.prod)
    (s r : SolverState nf nd dims) (hs : newSolver dims dt fields derived = some s)
    (hst : ∀ i x, s.store.fields i (τ x) = s.store.fields i x) (calls : List SolverCall)
    (hr : s.session m bricks calls = some r) (i : Fin nf) (x : Fin dims.prod) :
    r.store.fields i (τ x) = r.store.fields i x :=
  c114_session h hl m hm g τ hτ bricks dt fields fields derived derived s s r r hs hs hst calls hr hr i x

/-- C115: uniform fields stay uniform. -/
theorem c115_uniform (bricks : Str → Option (BrickRef nf nd)) (dt : ℝ) (fields : Fin nf → List ℂ)
    (derived : Fin nd → Data dims.prod) (s r : SolverState nf nd dims)
    (hs : newSolver dims dt fields derived = some s) (hst : UniformFields s.store) (calls : List SolverCall)
    (hr : s.session m bricks calls = some r) : UniformFields r.store := by
  intro i x y
  obtain ⟨a, τ, hτ, rfl⟩ := exists_translation h x y
  exact (c115_symmetric h hl m hm _ τ hτ bricks dt fields derived s r hs (fun i x => hst i _ _) calls hr i x).symm

/-- C115: fields that do not depend on a coordinate never depend on it. -/
theorem c115_free (j : Fin dims.length) (bricks : Str → Option (BrickRef nf nd)) (dt : ℝ) (fields : Fin nf → List ℂ)
    (derived : Fin nd → Data dims.prod) (s r : SolverState nf nd dims)
    (hs : newSolver dims dt fields derived = some s) (hst : FreeOf j s.store) (calls : List SolverCall)
    (hr : s.session m bricks calls = some r) : FreeOf j r.store := by
  intro i x y hxy
  obtain ⟨τ, hτ⟩ := exists_moves h (translation dims fun l : Fin dims.length =>
    coord dims y.val l.val - coord dims x.val l.val)
  have hτ' : ∀ (z : Fin dims.prod) (l : Fin dims.length), coord dims (τ z).val l.val ≡
      coord dims z.val l.val + (coord dims y.val l.val - coord dims x.val l.val) [ZMOD dims[l]] := by
    intro z l
    have := hτ z l
    simpa only [translation, Equiv.refl_apply, one_mul] using this
  have hy : τ x = y := by
    refine coord_injective h fun l => ?_
    have := hτ' x l
    rw [add_sub_cancel] at this
    obtain ⟨a0, a1⟩ := coord_range h (τ x) l
    obtain ⟨b0, b1⟩ := coord_range h y l
    rwa [Int.ModEq, Int.emod_eq_of_lt a0 a1, Int.emod_eq_of_lt b0 b1] at this
  have hfix : ∀ i z, s.store.fields i (τ z) = s.store.fields i z := by
    intro i z
    refine hst i _ _ fun l hlj => ?_
    have := hτ' z l
    rw [hxy l hlj, sub_self, add_zero] at this
    obtain ⟨a0, a1⟩ := coord_range h (τ z) l
    obtain ⟨b0, b1⟩ := coord_range h z l
    rwa [Int.ModEq, Int.emod_eq_of_lt a0 a1, Int.emod_eq_of_lt b0 b1] at this
  have := c115_symmetric h hl m hm _ τ hτ bricks dt fields derived s r hs hfix calls hr i x
  rw [hy] at this
  exact this.symm

end

/-! ## The values of uniform fields -/

/-- The right-hand side for numbers instead of fields: terms with a Laplacian do not contribute. -/
noncomputable def Equation.rate (N : Names) (c v : Str → ℂ) (eq : Equation) : ℂ :=
  (eq.terms.map fun p : List Item × Option Char => if (laplacians p.1).sum = 0 then
    ((signOf p.2 : ℂ) * ((factorsIn N.scalars p.1).map fun f => c f.name ^ ((f.power : ℚ) : ℂ)).prod) *
      ((factorsIn N.varying p.1).map fun f => v f.name ^ ((f.power : ℚ) : ℂ)).prod else 0).sum

open Classical in
/-- The coefficient of the field of the equation in the terms that are linear in it and have no Laplacian. -/
noncomputable def Equation.slope (N : Names) (c : Str → ℂ) (eq : Equation) : ℂ :=
  (eq.terms.map fun p : List Item × Option Char =>
    if LinearIn eq.field N.varying p.1 ∧ (laplacians p.1).sum = 0 then
      (signOf p.2 : ℂ) * ((factorsIn N.scalars p.1).map fun f => c f.name ^ ((f.power : ℚ) : ℂ)).prod else 0).sum

theorem symbol_origin (h : GoodDims (intDims dims)) (k : Fin dims.prod) (hk : k.val = 0) :
    laplaceSymbol (freqOf dims k) = 0 := by
  have hc : ∀ j : Fin dims.length, coord dims k.val j.val = 0 := by
    intro j
    rw [hk]
    unfold coord
    rcases goodDims_nat h with ⟨d0, d1, rfl, p0, p1⟩ | ⟨d0, d1, d2, rfl, p0, p1, p2⟩
    · simp only [List.map_cons, List.map_nil, pos, Nat.cast_zero]
      rw [pos2_eq (by simpa using p1) le_rfl]
      fin_cases j <;> simp
    · simp only [List.map_cons, List.map_nil, pos, Nat.cast_zero]
      rw [pos3_eq (by simpa using p0) (by simpa using p1) le_rfl]
      fin_cases j <;> simp
  unfold laplaceSymbol
  rw [freqOf_coord h]
  simp [hc, phi_zero]

theorem zero_pow_prod (l : List ℕ) : (l.map fun q => (0 : ℂ) ^ q).prod = if l.sum = 0 then 1 else 0 := by
  induction l with
  | nil => simp
  | cons a l ih =>
    rw [List.map_cons, List.prod_cons, ih, List.sum_cons]
    by_cases ha : a = 0 <;> by_cases hs : l.sum = 0 <;> simp [ha, hs]

theorem fft_const (h : ∀ d ∈ dims, 0 < d) (z : ℂ) (k : Fin dims.prod) :
    fft dims (fun _ => z) k = if k.val = 0 then (dims.prod : ℂ) * z else 0 := by
  have h0 : 0 < dims.prod := k.pos
  have e := sum_kernel_fin h ⟨0, h0⟩ k
  unfold fft
  rw [← Finset.mul_sum]
  have e' : ∑ x : Fin dims.prod, cis (-phase dims k.val x.val) = if k.val = 0 then (dims.prod : ℂ) else 0 := by
    have : ∀ x : Fin dims.prod, cis (-phase dims k.val x.val) =
        cis (phase dims x.val 0) * cis (-phase dims x.val k.val) := by
      intro x
      rw [phase_symm dims x.val 0, phase_zero_left, cis_zero, one_mul, phase_symm]
    rw [Finset.sum_congr rfl fun x _ => this x]
    refine e.trans ?_
    simp [Fin.ext_iff, eq_comm]
  rw [e']
  split_ifs <;> ring

theorem gridLaplacian_const (h : GoodDims (intDims dims)) (z : ℂ) :
    gridLaplacian (freqOf dims) (fun _ => z) = fun _ => 0 := by
  have e : (fun k => laplaceSymbol (freqOf dims k) * fft dims (fun _ => z) k) = fun _ => 0 := by
    funext k
    rw [fft_const (pos_of_goodDims h)]
    split_ifs with hk
    · rw [symbol_origin h k hk, zero_mul]
    · rw [mul_zero]
  unfold gridLaplacian spectralLaplacian
  rw [e]
  funext x
  simp [divRealScalar, ifft]

theorem value_uniform (h : GoodDims (intDims dims)) (N : Names) (c v : Str → ℂ) (eq : Equation) :
    Equation.value N (gridLaplacian (freqOf dims)) c (fun x _ => v x) eq = fun _ => Equation.rate N c v eq := by
  have hp : ∀ fs : List Factor, productValue fs (fun x (_ : Fin dims.prod) => v x) =
      fun _ => (fs.map fun f => v f.name ^ ((f.power : ℚ) : ℂ)).prod := fun _ => rfl
  have hz : ∀ q : ℕ, (gridLaplacian (freqOf dims))^[q] (fun _ => 0) = fun _ => (0 : ℂ) := by
    intro q
    induction q with
    | zero => rfl
    | succ q ih => rw [Function.iterate_succ_apply, gridLaplacian_const h, ih]
  funext x
  unfold Equation.value Equation.rate
  have hsum : ∀ l : List (Data dims.prod), l.sum x = (l.map fun d => d x).sum := by
    intro l
    induction l with
    | nil => rfl
    | cons a l ih => rw [List.sum_cons, List.map_cons, List.sum_cons, ← ih]; rfl
  rw [hsum, List.map_map]
  congr 1
  apply List.map_congr_left
  intro p _
  simp only [Function.comp_apply, hp]
  cases hq : (laplacians p.1).sum with
  | zero => simp
  | succ q =>
    rw [Function.iterate_succ_apply, gridLaplacian_const h, hz]
    simp

theorem slope_zero (h : GoodDims (intDims dims)) (N : Names) (c : Str → ℂ) (eq : Equation) (u : Str → Data dims.prod)
    (hu : ∀ x ∈ N.scalars, u x = fun _ => c x) (k : Fin dims.prod) (hk : k.val = 0) :
    (eq.terms.map (linearFactor N eq.field u (freqOf dims) k)).sum = Equation.slope N c eq := by
  unfold Equation.slope
  congr 1
  apply List.map_congr_left
  intro p _
  rw [linearFactor_congr (u' := fun x _ => c x) (freqOf dims) k hu]
  unfold linearFactor
  rw [symbol_origin h k hk, zero_pow_prod]
  by_cases h1 : LinearIn eq.field N.varying p.1 <;> by_cases h2 : (laplacians p.1).sum = 0 <;> simp [h1, h2]

/-- C115: an Euler step takes uniform fields to uniform fields, and their values are those of the linearly implicit
Euler method applied to the equations without the terms that have a Laplacian. -/
theorem c115_euler (h : GoodDims (intDims dims)) (hl : LayoutOk dims) (N : Names) (hN : N.WellNamed)
    (m0 : EqModel dims.prod) (h0 : StartsAs N m0) (heq : m0.equations = [])
    (hfun : ∀ p ∈ m0.derived, ReadsFields N p.2 ∧ NodeByNode p.2)
    (eqs : List Equation) (hq : ∀ eq ∈ eqs, eq.Polynomial N ∧ Unregistered m0 eq)
    (hcount : N.fields.length ≤ eqs.length)
    (ss : List Str) (hs : ss.map (fun s => s.filter fun c => c ≠ ' ') = eqs.map Equation.text) (c : Str → ℂ) :
    ∃ m M, ss.foldlM EqModel.addEquation m0 = some m ∧ m.fields = N.fields ∧ m.assemble c = some M ∧
      ∀ (s : Stepper dims.prod), s.freq = freqOf dims → s.filter = none →
      ∀ (st : Store m.fields.length m.derived.length dims.prod) (v : Str → ℂ),
      (∀ (j : Fin m.fields.length) x, st.fields j x = v m.fields[j]) → (∀ x ∈ N.scalars, v x = c x) →
      (∀ p ∈ m0.derived, p.2.eval (fun y _ => v y) = fun _ => v p.1) →
      UniformFields (eulerStep M (s, st)).2 ∧
      ∀ (i : Fin m.fields.length) (eq : Equation), eqs[i.val]? = some eq → eq.field = m.fields[i] →
      ReadsNoEarlierField M i → 1 - s.dt * Equation.slope N c eq ≠ 0 → ∀ x,
        (eulerStep M (s, st)).2.fields i x =
          v eq.field + s.dt * Equation.rate N c v eq / (1 - s.dt * Equation.slope N c eq) := by
  obtain ⟨m, M, h1, h2, h3, h4⟩ := c114_text N hN m0 h0 heq hfun eqs hq hcount ss hs c (freqOf dims)
  obtain ⟨m', M', h1', -, h3', h5⟩ := c97_euler (pos_of_goodDims h) N hN m0 h0 heq (fun p hp => (hfun p hp).1) eqs hq ss
    hs hcount c
  rw [h1] at h1'
  obtain rfl := Option.some.inj h1'
  rw [h3] at h3'
  obtain rfl := Option.some.inj h3'
  refine ⟨m, M, h1, h2, h3, ?_⟩
  intro s hsf hfil st v hst hc hf
  have huni : UniformFields (eulerStep M (s, st)).2 := by
    intro i x y
    obtain ⟨a, τ, hτ, rfl⟩ := exists_translation h x y
    exact (c114_euler h hl M h4 _ τ hτ s hsf st st (fun i x => by rw [hst, hst]) i x).symm
  refine ⟨huni, ?_⟩
  intro i eq hi hfield hread hne x
  have hN0 := prod_ne_zero (pos_of_goodDims h)
  let k0 : Fin dims.prod := ⟨0, x.pos⟩
  have hsl := slope_zero h N c eq (fun y (_ : Fin dims.prod) => v y) (fun y hy => by rw [hc y hy]) k0 rfl
  have key := h5 i eq hi hfield hread s hfil st (fun y _ => v y) (fun j => funext fun x => (hst j x).symm)
    (fun y hy => by rw [hc y hy]) (fun p hp => (hf p hp).symm) k0
  rw [hsf, hsl] at key
  have key := key hne
  have hval := value_uniform h N c v eq
  unfold gridLaplacian at hval
  rw [hval] at key
  have hnew : (eulerStep M (s, st)).2.fields i = fun _ => (eulerStep M (s, st)).2.fields i x :=
    funext fun y => huni i y x
  have hold : st.fields i = fun _ => v eq.field := funext fun y => by rw [hst, hfield]
  rw [hnew, hold, fft_const (pos_of_goodDims h), fft_const (pos_of_goodDims h), fft_const (pos_of_goodDims h)] at key
  simp only [k0, if_true] at key
  have key2 : ((eulerStep M (s, st)).2.fields i x - v eq.field) * (1 - s.dt * Equation.slope N c eq) =
      s.dt * Equation.rate N c v eq := by
    apply mul_left_cancel₀ hN0
    linear_combination key
  rw [← key2]
  field_simp
  ring

/-- For `dconc/dt = conc^2 - conc` the number in the place of the field is `v^2 - v`, the implicit coefficient -1: the
new value is `v + dt*(v^2 - v)/(1 + dt)`. The other hypotheses of `c115_euler` are met as in `Props/ConvergeText.lean`. -/
example (c v : Str → ℂ) : Equation.rate pairNames c v squareEquation = v "conc".toList ^ 2 - v "conc".toList ∧
    Equation.slope pairNames c squareEquation = -1 ∧ (1 : ℂ) - (1 : ℝ) * (-1) ≠ 0 ∧
    UniformFields (⟨fun _ _ => 3, fun d => d.elim0⟩ : Store 2 0 16) := by
  have f1 : factorsIn pairNames.varying [⟨none, some ⟨"conc".toList, some ⟨['2'], none⟩⟩⟩] =
      [⟨"conc".toList, some ⟨['2'], none⟩⟩] := by decide
  have f2 : factorsIn pairNames.varying [⟨none, some ⟨"conc".toList, none⟩⟩] = [⟨"conc".toList, none⟩] := by decide
  have g1 : signOf none = 1 := by decide
  have g2 : signOf (some '-') = -1 := by decide
  have l1 : (laplacians [⟨none, some ⟨"conc".toList, some ⟨['2'], none⟩⟩⟩]).sum = 0 := by decide
  have l2 : (laplacians [⟨none, some ⟨"conc".toList, none⟩⟩]).sum = 0 := by decide
  have p1 : Factor.power ⟨"conc".toList, some ⟨['2'], none⟩⟩ = 2 := by decide +kernel
  have p2 : Factor.power ⟨"conc".toList, none⟩ = 1 := by decide +kernel
  have s1 : ∀ l, factorsIn pairNames.scalars l = [] := by intro l; simp [factorsIn, pairNames]
  have n1 : ¬ LinearIn "conc".toList pairNames.varying [⟨none, some ⟨"conc".toList, some ⟨['2'], none⟩⟩⟩] := by
    rintro ⟨-, -, h⟩
    have := h ⟨none, some ⟨"conc".toList, some ⟨['2'], none⟩⟩⟩ (by decide) _ rfl
    rw [p1] at this
    norm_num at this
  have n2 : LinearIn "conc".toList pairNames.varying [⟨none, some ⟨"conc".toList, none⟩⟩] := by
    refine ⟨by decide, by decide, ?_⟩
    intro i hi f hf
    have : i = ⟨none, some ⟨"conc".toList, none⟩⟩ := List.mem_singleton.mp (List.mem_of_mem_filter hi)
    subst this
    obtain rfl := Option.some.inj hf
    rw [p2]
    norm_num
  refine ⟨?_, ?_, by norm_num, fun _ _ _ => rfl⟩
  · simp only [Equation.rate, squareEquation, Equation.terms, List.map_cons, List.map_nil, List.sum_cons, List.sum_nil,
      f1, f2, s1, l1, l2, g1, g2, p1, p2, if_true, List.prod_cons, List.prod_nil]
    norm_num
    ring
  · simp only [Equation.slope, squareEquation, Equation.terms, List.map_cons, List.map_nil, List.sum_cons, List.sum_nil,
      s1, l2, g2, n1, n2, false_and, true_and, if_true, if_false, List.prod_nil]
    norm_num

end Gopf.Props
