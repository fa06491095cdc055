import Mathlib.Analysis.Calculus.Deriv.Pow
import Mathlib.Analysis.Calculus.Deriv.Mul
import Mathlib.Analysis.Calculus.Deriv.Add
import Verif.Proofs.ElasticMin

/-!
# C103, C104: linear elasticity with a homogeneous stiffness
-/

namespace Gopf.Props
open Spec Pfutil Pf Elasticity
open scoped BigOperators

variable {dims : List ℕ}

/-- The term after the field has been set to `c`. -/
def elasticTerm (n : ℕ) (r : Rank4) (misfit : Mat3) (c : Fin n → ℝ) : HomoLinElast n :=
  (newHomogeneousModulus n r misfit).onStepFinished fun i => (c i : ℂ)

/-- No out-of-plane shear stress: components of the misfit stress between a direction of the domain and
a direction that is not there vanish. In three dimensions this is no condition. -/
def InPlane (dims : List ℕ) (r : Rank4) (misfit : Mat3) : Prop :=
  ∀ i j : Fin 3, j.val < dims.length → dims.length ≤ i.val → r.contractLast misfit i j = 0

theorem mem_axes (i : Fin 3) : i ∈ axes dims ↔ i.val < dims.length := by simp [axes]

theorem freq3_pad (h : GoodDims (intDims dims)) (k : Fin dims.prod) {i : Fin 3} (hi : dims.length ≤ i.val) :
    freq3 dims k i = 0 := by
  obtain ⟨q, hq, hb, -, e⟩ := freqOf_eq h k
  unfold freq3
  rw [e, fcomp_map]
  have hlen : (List.zipWith phi q (intDims dims)).length ≤ i.val := by
    rw [List.length_zipWith]
    have : (intDims dims).length = dims.length := by simp [intDims]
    omega
  rw [List.getD_eq_getElem?_getD, List.getElem?_eq_none hlen]
  simp

theorem force_eq (h : GoodDims (intDims dims)) (r : Rank4) (misfit : Mat3) (hp : InPlane dims r misfit)
    (c : Fin dims.prod → ℝ) (ind : Data dims.prod) (k : Fin dims.prod) :
    (elasticTerm dims.prod r misfit c).force ind k =
      fun a => effForce (r.contractLast misfit) a (freq3 dims k) (ind k) := by
  funext a
  unfold HomoLinElast.force
  split_ifs with ha
  · rfl
  · rw [mem_axes] at ha
    rw [effForce_eq]
    have : ∀ j : Fin 3, ((r.contractLast misfit a j : ℝ) : ℂ) * (freq3 dims k j : ℂ) = 0 := by
      intro j
      by_cases hj : j.val < dims.length
      · rw [hp a j hj (by omega)]; simp
      · rw [freq3_pad h k (by omega)]; simp
    simp [this]

theorem contract_symm {r : Rank4} (hr : StableMaterial r.get) (misfit : Mat3) (i j : Fin 3) :
    r.contractLast misfit i j = r.contractLast misfit j i := by
  rw [contractLast_eq, contractLast_eq]
  refine Finset.sum_congr rfl fun k _ => Finset.sum_congr rfl fun l _ => ?_
  rw [hr.minorLeft]

private theorem foldl_fun {N : ℕ} (l : List (Fin 3)) (g : Fin 3 → Data N) (a : Data N) :
    l.foldl (fun (field : Data N) (d : Fin 3) => fun i => field i + g d i) a =
      fun i => a i + (l.map fun d => g d i).sum := by
  induction l generalizing a with
  | nil => simp
  | cons x l ih => rw [List.foldl_cons, ih]; funext i; simp [add_assoc]

private theorem sum_if (n : ℕ) (i : Fin 3) (g : Fin 3 → ℂ) :
    ((((List.finRange 3).filter fun c => decide (c.val < n)).filter (i ≤ ·)).map g).sum =
      ∑ j : Fin 3, if j.val < n ∧ i ≤ j then g j else 0 := by
  rw [List.filter_filter]
  have : ∀ l : List (Fin 3), ((l.filter fun a => decide (i ≤ a) && decide (a.val < n)).map g).sum =
      (l.map fun j => if j.val < n ∧ i ≤ j then g j else 0).sum := by
    intro l
    induction l with
    | nil => rfl
    | cons x l ih =>
      rw [List.filter_cons]
      by_cases hx : x.val < n ∧ i ≤ x
      · rw [if_pos (by simp [hx.1, hx.2])]
        simp [ih, hx]
      · rw [if_neg (by simp; intro h1; exact not_lt.mp fun h2 => hx ⟨h2, h1⟩), ih, List.map_cons, if_neg hx,
          List.sum_cons, zero_add]
  rw [this, sum_finRange]

private theorem sum_if' (n : ℕ) (g : Fin 3 → ℂ) :
    (((List.finRange 3).filter fun c => decide (c.val < n)).map g).sum =
      ∑ j : Fin 3, if j.val < n then g j else 0 := by
  have : ∀ l : List (Fin 3), ((l.filter fun a => decide (a.val < n)).map g).sum =
      (l.map fun j => if j.val < n then g j else 0).sum := by
    intro l
    induction l with
    | nil => rfl
    | cons x l ih =>
      rw [List.filter_cons]
      by_cases hx : x.val < n
      · rw [if_pos (by simp [hx])]
        simp [ih, hx]
      · rw [if_neg (by simpa using hx), ih, List.map_cons, if_neg hx, List.sum_cons, zero_add]
  rw [this, sum_finRange]

private theorem sym_sum (n : ℕ) (A T : Fin 3 → Fin 3 → ℂ) (hA : ∀ i j, A i j = A j i)
    (hT : ∀ i j, T i j = T j i) (hz : ∀ i j : Fin 3, n ≤ i.val → A i j * T i j = 0) :
    (∑ i : Fin 3, if i.val < n then
      ∑ j : Fin 3, if j.val < n ∧ i ≤ j then (if i ≠ j then (2 : ℂ) else 1) * A i j * T i j else 0 else 0) =
      ∑ i, ∑ j, A i j * T i j := by
  have hz' : ∀ i j : Fin 3, n ≤ j.val → A i j * T i j = 0 := fun i j hj => by rw [hA, hT]; exact hz j i hj
  have e : ∀ i : Fin 3, (if i.val < n then
      ∑ j : Fin 3, if j.val < n ∧ i ≤ j then (if i ≠ j then (2 : ℂ) else 1) * A i j * T i j else 0 else 0) =
      ∑ j : Fin 3, if i ≤ j then (if i ≠ j then (2 : ℂ) else 1) * (A i j * T i j) else 0 := by
    intro i
    split_ifs with hi
    · refine Finset.sum_congr rfl fun j _ => ?_
      by_cases hj : j.val < n
      · by_cases hij : i ≤ j
        · rw [if_pos ⟨hj, hij⟩, if_pos hij, mul_assoc]
        · rw [if_neg fun e => hij e.2, if_neg hij]
      · rw [if_neg fun e => hj e.1, hz' i j (by omega), mul_zero, ite_self]
    · symm
      refine Finset.sum_eq_zero fun j _ => ?_
      rw [hz i j (by omega), mul_zero, ite_self]
  simp only [e]
  generalize hB : (fun i j => A i j * T i j) = B
  have hB' : ∀ i j, A i j * T i j = B i j := fun i j => congrFun (congrFun hB i) j
  have hBs : ∀ i j, B i j = B j i := fun i j => by rw [← hB', ← hB', hA, hT]
  simp only [hB']
  simp only [Fin.sum_univ_three]
  simp
  rw [hBs 1 0, hBs 2 0, hBs 2 1]
  ring

/-- The term is the transform of `H'(c) σ : ε*` with `σ` the stress `C (ε − H(c) ε*)`; here `ε` is the
strain calculated from the indicator. -/
theorem elasticTerm_value (h : GoodDims (intDims dims)) (hl : LayoutOk dims)
    (r : Rank4) (hr : StableMaterial r.get) (misfit : Mat3)
    (hp : InPlane dims r misfit) (c : Fin dims.prod → ℝ) (hq : Quiet dims fun y => phaseIndicator (c y)) :
    (elasticTerm dims.prod r misfit c).construct =
      fft dims fun x => ((phaseIndicatorDeriv (c x) *
        form r.get (eps dims r.get (r.contractLast misfit) (fun y => phaseIndicator (c y)) x -
          phaseIndicator (c x) • misfit) misfit : ℝ) : ℂ) := by
  set S := r.contractLast misfit with hS
  set g : Fin dims.prod → ℝ := fun y => phaseIndicator (c y) with hg
  unfold HomoLinElast.construct
  have hfield : ∀ i, (elasticTerm dims.prod r misfit c).field i = c i := fun i => by
    simp [elasticTerm, HomoLinElast.onStepFinished]
  have hmp : (elasticTerm dims.prod r misfit c).matProp = r := rfl
  have hmf : (elasticTerm dims.prod r misfit c).misfit = misfit := rfl
  simp only [force_eq h r misfit hp, hfield, hmp, hmf, ← hS]
  have hst : ∀ i j, (fun k => strain (displacement (fun a => effForce S a (freq3 dims k)
      (fft dims (fun i => ((phaseIndicator (c i) : ℝ) : ℂ)) k)) (freq3 dims k) r.get) (freq3 dims k) i j) =
      ftStrain dims r.get S (fft dims fun x => (g x : ℂ)) i j := fun i j => rfl
  have hdiv : ∀ i j x, divRealScalar (ifft dims (ftStrain dims r.get S (fft dims fun x => (g x : ℂ)) i j))
      ((dims.prod : ℕ) : ℝ) x = ((eps dims r.get S g x i j : ℝ) : ℂ) := by
    intro i j x
    rw [ofReal_eps h hl r.get S g hq]
    unfold divRealScalar
    rw [Complex.ofReal_natCast]
  simp only [hst, hdiv]
  -- inner loop
  simp only [foldl_fun]
  set T : Fin 3 → Fin 3 → Data dims.prod := fun i j => fft dims fun x =>
    ((eps dims r.get S g x i j : ℝ) : ℂ) * ((phaseIndicatorDeriv (c x) : ℝ) : ℂ) with hT
  have hT' : ∀ i j, (fft dims fun x => ((eps dims r.get S g x i j : ℝ) : ℂ) *
      ((phaseIndicatorDeriv (c x) : ℝ) : ℂ)) = T i j := fun i j => rfl
  simp only [hT']
  funext k
  unfold axes
  simp only [sum_if', sum_if, zero_add]
  have e1 : ∀ i j : Fin 3, ((((if i ≠ j then 2 else 1) * S i j : ℝ) : ℂ) * T i j k) =
      (if i ≠ j then (2 : ℂ) else 1) * (S i j : ℂ) * T i j k := by
    intro i j
    split_ifs <;> push_cast <;> ring
  simp only [e1]
  rw [sym_sum dims.length (fun i j => (S i j : ℂ)) (fun i j => T i j k)]
  · have e2 : ∀ x, (((phaseIndicatorDeriv (c x) * form r.get (eps dims r.get S g x - phaseIndicator (c x) • misfit)
        misfit : ℝ)) : ℂ) = (∑ i, ∑ j, (S i j : ℂ) * (((eps dims r.get S g x i j : ℝ) : ℂ) *
          ((phaseIndicatorDeriv (c x) : ℝ) : ℂ))) -
        ((2 * energyDensity r.get misfit : ℝ) : ℂ) *
          ((phaseIndicator (c x) * phaseIndicatorDeriv (c x) : ℝ) : ℂ) := by
      intro x
      rw [form_sub_left, form_smul_left, form_contract r (eps dims r.get S g x) misfit, energyDensity_form, ← hS]
      push_cast
      rw [mul_sub, Finset.mul_sum]
      congr 1
      · refine Finset.sum_congr rfl fun i _ => ?_
        rw [Finset.mul_sum]
        refine Finset.sum_congr rfl fun j _ => ?_
        ring
      · ring
    simp only [e2]
    rw [fft_sub, fft_smul]
    congr 1
    unfold fft
    simp only [hT, fft, Finset.mul_sum, Finset.sum_mul]
    symm
    rw [Finset.sum_comm]
    refine Finset.sum_congr rfl fun i _ => ?_
    rw [Finset.sum_comm]
    refine Finset.sum_congr rfl fun j _ => Finset.sum_congr rfl fun x _ => ?_
    ring
  · intro i j
    exact congrArg (fun z : ℝ => (z : ℂ)) (contract_symm hr misfit i j)
  · intro i j
    simp only [hT, eps_symm r.get S g _ i j]
  · intro i j hi
    by_cases hj : j.val < dims.length
    · have := hp i j hj hi
      rw [← hS] at this
      rw [this]; simp
    · have : ∀ x, eps dims r.get S g x i j = 0 := by
        intro x
        unfold eps ftStrain strain
        have hz : ∀ k, freq3 dims k i = 0 ∧ freq3 dims k j = 0 := fun k =>
          ⟨freq3_pad h k hi, freq3_pad h k (by omega)⟩
        have hn : noNyquist 0 = 0 := by simp [noNyquist]
        simp [hz, hn, ifft]
      simp only [hT, this]
      simp [fft]

/-- C103: before the first time step has finished the term is zero, whatever the field is. -/
theorem c103_initial (r : Rank4) (misfit : Mat3) :
    (newHomogeneousModulus dims.prod r misfit).construct = fun _ => 0 := by
  have hz : phaseIndicator 0 = 0 ∧ phaseIndicatorDeriv 0 = 0 := by
    constructor <;> simp [phaseIndicator, phaseIndicatorDeriv]
  have hfield : ∀ i, (newHomogeneousModulus dims.prod r misfit).field i = 0 := fun i => rfl
  unfold HomoLinElast.construct
  simp only [hfield, hz]
  simp only [foldl_fun]
  have h0 : fft dims (fun _ => (0 : ℂ)) = fun _ => 0 := by funext k; simp [fft]
  simp [h0]

/-- C103: after a time step the term uses the real parts of the field. -/
theorem c103_update (r : Rank4) (misfit : Mat3) (l : List (Data dims.prod)) (b : Data dims.prod) :
    (l ++ [b]).foldl HomoLinElast.onStepFinished (newHomogeneousModulus dims.prod r misfit) =
      elasticTerm dims.prod r misfit fun i => (b i).re := by
  rw [List.foldl_append, List.foldl_cons, List.foldl_nil]
  have : ∀ (l : List (Data dims.prod)) (h : HomoLinElast dims.prod), (l.foldl HomoLinElast.onStepFinished h) =
      { h with field := (l.foldl HomoLinElast.onStepFinished h).field } := by
    intro l
    induction l with
    | nil => intro h; rfl
    | cons x l ih => intro h; rw [List.foldl_cons, ih]; rfl
  rw [this]
  simp [elasticTerm, HomoLinElast.onStepFinished, newHomogeneousModulus]

theorem phaseIndicator_deriv (x : ℝ) : HasDerivAt phaseIndicator (phaseIndicatorDeriv x) x := by
  have h1 : HasDerivAt (fun x : ℝ => 3 * x ^ 2 - 2 * x ^ 3) (3 * (2 * x) - 2 * (3 * x ^ 2)) x := by
    have a := (hasDerivAt_pow 2 x).const_mul 3
    have b := (hasDerivAt_pow 3 x).const_mul 2
    refine (a.sub b).congr_deriv ?_
    push_cast; ring
  have h2 : phaseIndicator = fun x : ℝ => 3 * x ^ 2 - 2 * x ^ 3 := by
    funext x; unfold phaseIndicator; ring
  rw [h2]
  refine h1.congr_deriv ?_
  unfold phaseIndicatorDeriv; ring

theorem hasDerivAt_squeeze {f l u : ℝ → ℝ} {D : ℝ} (hl : HasDerivAt l D 0) (hu : HasDerivAt u D 0)
    (h0 : f 0 = l 0) (h1 : f 0 = u 0) (hlf : ∀ s, l s ≤ f s) (hfu : ∀ s, f s ≤ u s) : HasDerivAt f D 0 := by
  rw [hasDerivAt_iff_isLittleO, Asymptotics.isLittleO_iff] at *
  intro ε hε
  filter_upwards [hl hε, hu hε] with s a b
  rw [Real.norm_eq_abs] at *
  rw [abs_le] at *
  have := hlf s
  have := hfu s
  constructor
  · have := a.1; linarith
  · have := b.2; linarith

/-- C103: with a stable material the term is minus the derivative of the elastic energy with
respect to the field: if `W` gives the elastic energy of every field, then the derivative of `W` at `c` in any
direction `v` is minus the inner product of `v` and the term. This holds at every field whose indicator has no content at
the highest frequency of an axis with an even number of nodes. -/
theorem c103_variational_quiet (h : GoodDims (intDims dims)) (hl : LayoutOk dims)
    (hs : ∀ d ∈ dims, d ≤ 10 ^ 9) (r : Rank4) (hr : StableMaterial r.get) (misfit : Mat3)
    (hp : InPlane dims r misfit) (W : (Fin dims.prod → ℝ) → ℝ)
    (hW : ∀ c : Fin dims.prod → ℝ,
      IsElasticEnergy dims r.get misfit (fun x => phaseIndicator (c x)) (W c))
    (c : Fin dims.prod → ℝ) (hq : Quiet dims fun x => phaseIndicator (c x)) :
    ∃ dW : Fin dims.prod → ℝ,
      (elasticTerm dims.prod r misfit c).construct = fft dims (fun x => ((-dW x : ℝ) : ℂ)) ∧
      ∀ v : Fin dims.prod → ℝ,
        HasDerivAt (fun s : ℝ => W fun x => c x + s * v x) (∑ x, dW x * v x) 0 := by
  set S := r.contractLast misfit with hS
  set g : Fin dims.prod → ℝ := fun x => phaseIndicator (c x) with hg
  -- the stress times the misfit strain
  set T : Fin dims.prod → ℝ := fun x => form r.get (eps dims r.get S g x - g x • misfit) misfit with hT
  refine ⟨fun x => -(phaseIndicatorDeriv (c x) * T x), ?_, ?_⟩
  · rw [elasticTerm_value h hl r hr misfit hp c hq]
    simp only [neg_neg]
    rfl
  intro v
  have hd : ∀ x, HasDerivAt (fun s : ℝ => phaseIndicator (c x + s * v x)) (phaseIndicatorDeriv (c x) * v x) 0 := by
    intro x
    have h1 : HasDerivAt (fun s : ℝ => c x + s * v x) (v x) 0 := by
      have := ((hasDerivAt_id (0 : ℝ)).mul_const (v x)).const_add (c x)
      simpa using this
    have h2 := phaseIndicator_deriv (c x + 0 * v x)
    have := HasDerivAt.comp (0 : ℝ) h2 h1
    simpa [Function.comp_def] using this
  have e0 : ∀ x, phaseIndicator (c x + 0 * v x) = g x := fun x => by simp [g]
  have hleast := eps_isLeast h hl hs r hr misfit g hq
  have hWc : W c = ∑ x, energyDensity r.get (eps dims r.get S g x - g x • misfit) := (hW c).unique hleast
  have hc0 : (fun x => c x + 0 * v x) = c := by funext x; simp
  refine hasDerivAt_squeeze
    (l := fun s => W c + ∑ x, (phaseIndicator (c x + s * v x) - g x) * -T x)
    (u := fun s => ∑ x, energyDensity r.get (eps dims r.get S g x - phaseIndicator (c x + s * v x) • misfit))
    ?_ ?_ ?_ ?_ ?_ ?_
  · have := (HasDerivAt.fun_sum (u := Finset.univ) fun (x : Fin dims.prod) _ =>
      ((hd x).sub_const (g x)).mul_const (-T x)).const_add (W c)
    refine this.congr_deriv (Finset.sum_congr rfl fun x _ => ?_)
    ring
  · have hq2 : ∀ x (p : ℝ), energyDensity r.get (eps dims r.get S g x - p • misfit) =
        1 / 2 * (form r.get (eps dims r.get S g x) (eps dims r.get S g x) -
          2 * (p * form r.get (eps dims r.get S g x) misfit) + p * p * form r.get misfit misfit) := by
      intro x p
      rw [energyDensity_form, form_sub_left, form_sub_right, form_sub_right, form_smul_left, form_smul_left,
        form_smul_right, form_smul_right, form_symm hr.major misfit]
      ring
    simp only [hq2]
    have := HasDerivAt.fun_sum (u := Finset.univ) fun (x : Fin dims.prod) _ =>
      ((((hd x).mul_const (form r.get (eps dims r.get S g x) misfit)).const_mul 2).const_sub
        (form r.get (eps dims r.get S g x) (eps dims r.get S g x))).add
        (((hd x).mul (hd x)).mul_const (form r.get misfit misfit)) |>.const_mul (1 / 2 : ℝ)
    refine this.congr_deriv (Finset.sum_congr rfl fun x _ => ?_)
    simp only [e0, hT, form_sub_left, form_smul_left]
    ring
  · beta_reduce
    simp only [hc0, e0]
    simp
  · simp only [hc0, e0]
    exact hWc
  · intro s
    obtain ⟨u, hu⟩ := (hW fun x => c x + s * v x).1
    rw [hu, hWc]
    exact energy_tangent h hl hs r hr misfit g hq (fun x => phaseIndicator (c x + s * v x)) u
  · intro s
    refine (hW fun x => c x + s * v x).2 ⟨dispField dims r.get S g, ?_⟩
    simp only [eps_eq_symGrad h hl hs r.get S g hq]

/-- C103: in particular, with odd sides, at every field. -/
theorem c103_variational (h : GoodDims (intDims dims)) (hl : LayoutOk dims) (ho : OddSides dims)
    (hs : ∀ d ∈ dims, d ≤ 10 ^ 9) (r : Rank4) (hr : StableMaterial r.get) (misfit : Mat3)
    (hp : InPlane dims r misfit) (W : (Fin dims.prod → ℝ) → ℝ)
    (hW : ∀ c : Fin dims.prod → ℝ,
      IsElasticEnergy dims r.get misfit (fun x => phaseIndicator (c x)) (W c))
    (c : Fin dims.prod → ℝ) :
    ∃ dW : Fin dims.prod → ℝ,
      (elasticTerm dims.prod r misfit c).construct = fft dims (fun x => ((-dW x : ℝ) : ℂ)) ∧
      ∀ v : Fin dims.prod → ℝ,
        HasDerivAt (fun s : ℝ => W fun x => c x + s * v x) (∑ x, dW x * v x) 0 :=
  c103_variational_quiet h hl hs r hr misfit hp W hW c (quiet_of_odd h ho _)

/-- C103: every isotropic material with a positive bulk modulus and a Poisson ratio between −1 and 1/2
is stable. -/
theorem c103_isotropic {bulk poisson : ℝ} (hb : 0 < bulk) (h1 : -1 < poisson) (h2 : poisson < 1 / 2) :
    StableMaterial (isotropic bulk poisson).get := by
  have hs : 0 < shear bulk poisson := by
    unfold shear
    apply div_pos
    · have : 0 < 1 - 2 * poisson := by linarith
      positivity
    · linarith
  obtain ⟨a, b, c⟩ := c53_symmetries bulk poisson
  refine ⟨a, b, c, ?_⟩
  intro e he hne
  rw [c53_energy _ _ _ he]
  have hpos : 0 < ∑ i, ∑ j, e i j ^ 2 := by
    obtain ⟨i, j, hij⟩ : ∃ i j, e i j ≠ 0 := by
      by_contra hall
      push Not at hall
      exact hne (by ext i j; exact hall i j)
    have h3 : 0 < ∑ j, e i j ^ 2 :=
      Finset.sum_pos' (fun _ _ => sq_nonneg _) ⟨j, Finset.mem_univ _, by positivity⟩
    exact Finset.sum_pos' (fun _ _ => Finset.sum_nonneg fun _ _ => sq_nonneg _) ⟨i, Finset.mem_univ _, h3⟩
  have htr : e.trace ^ 2 ≤ 3 * ∑ i, ∑ j, e i j ^ 2 := by
    simp only [Matrix.trace, Matrix.diag, Fin.sum_univ_three]
    nlinarith [sq_nonneg (e 0 0 - e 1 1), sq_nonneg (e 0 0 - e 2 2), sq_nonneg (e 1 1 - e 2 2),
      sq_nonneg (e 0 1), sq_nonneg (e 0 2), sq_nonneg (e 1 0), sq_nonneg (e 1 2), sq_nonneg (e 2 0),
      sq_nonneg (e 2 1)]
  generalize ∑ i, ∑ j, e i j ^ 2 = P at *
  generalize shear bulk poisson = s at *
  have ht := sq_nonneg e.trace
  generalize e.trace ^ 2 = T at *
  have e1 : (bulk - 2 * s / 3) / 2 * T + s * P = bulk * T / 2 + s * (3 * P - T) / 3 := by ring
  rw [e1]
  rcases ht.lt_or_eq with ht | ht
  · have : 0 < bulk * T := by positivity
    have : 0 ≤ s * (3 * P - T) := mul_nonneg hs.le (by linarith)
    linarith
  · have : 0 < s * (3 * P - T) := mul_pos hs (by linarith)
    have : bulk * T = 0 := by rw [← ht, mul_zero]
    linarith

/-- A dilating region in an isotropic material on a domain with odd sides meets the hypotheses. -/
example : ∃ (r : Rank4) (misfit : Mat3), GoodDims (intDims [5, 7]) ∧ LayoutOk [5, 7] ∧ OddSides [5, 7] ∧
    StableMaterial r.get ∧ misfit ≠ 0 ∧ InPlane [5, 7] r misfit := by
  refine ⟨isotropic 60 (1 / 3), (1 : Mat3), ⟨Or.inl rfl, by decide⟩, trivial, by unfold OddSides; decide,
    c103_isotropic (by norm_num) (by norm_num) (by norm_num), one_ne_zero, ?_⟩
  intro i j hj hi
  rw [contractLast_eq]
  unfold isotropic
  simp only [isotropicOf_get]
  have : i = 2 := by
    simp only [List.length_cons, List.length_nil] at hi
    omega
  subst this
  simp only [List.length_cons, List.length_nil] at hj
  have : j ≠ 2 := by rintro rfl; simp at hj
  simp only [Matrix.one_apply, Fin.sum_univ_three]
  fin_cases j <;> simp_all

/-- The displacement at an indicator is one of the fields over which the energy is minimised; energies
are attained. -/
example : ∃ W : (Fin [3, 3].prod → ℝ) → ℝ, ∀ c : Fin [3, 3].prod → ℝ,
    IsElasticEnergy [3, 3] (isotropic 60 (1 / 3)).get 1 (fun x => phaseIndicator (c x)) (W c) :=
  ⟨_, fun c => eps_isLeast (dims := [3, 3]) ⟨Or.inl rfl, by decide⟩ trivial
    (fun d hd => by simp only [List.mem_cons, List.not_mem_nil, or_false] at hd; omega)
    _ (c103_isotropic (by norm_num) (by norm_num) (by norm_num)) 1 (fun x => phaseIndicator (c x))
    (quiet_of_odd ⟨Or.inl rfl, by decide⟩ (by unfold OddSides; decide) _)⟩

/-- A function of the first coordinate of a 4 × 3 domain. -/
noncomputable def rows43 (p q r s : ℝ) (x : Fin [4, 3].prod) : ℝ :=
  if x.val < 3 then p else if x.val < 6 then q else if x.val < 9 then r else s

/-- The frequencies of the bins of the 4 × 3 domain. -/
def table43 (k : ℕ) : ℚ × ℚ :=
  ([0, 1 / 4, 1 / 2, -1 / 4].getD (k / 3) 0, [0, 1 / 3, -1 / 3].getD (k % 3) 0)

theorem freq_table43 : ∀ k : Fin [4, 3].prod, Pfutil.freq ([4, 3].map Int.ofNat) (k.val : Int) =
    some [(table43 k.val).1, (table43 k.val).2] := by decide +kernel

theorem table43_half : ∀ k : Fin [4, 3].prod, (table43 k.val).2 ≠ 1 / 2 ∧ ((table43 k.val).1 = 1 / 2 → ∀ x : Fin 3,
    phase [4, 3] k (x.val + 3) = phase [4, 3] k x + 1 / 2 ∧ phase [4, 3] k (x.val + 6) = phase [4, 3] k x + 1 ∧
      phase [4, 3] k (x.val + 9) = phase [4, 3] k x + 1 / 2 + 1) := by decide +kernel

theorem quiet_rows43 {p q r s : ℝ} (h : p + r = q + s) : Quiet [4, 3] (rows43 p q r s) := by
  intro k a hk
  have hfreq : (table43 k.val).1 = 1 / 2 := by
    unfold freq3 freqOf at hk
    rw [freq_table43 k] at hk
    fin_cases a
    · have : (((table43 k.val).1 : ℚ) : ℝ) = ((1 / 2 : ℚ) : ℝ) := by
        push_cast
        simpa [fcomp] using hk
      exact_mod_cast this
    · exfalso
      apply (table43_half k).1
      have : (((table43 k.val).2 : ℚ) : ℝ) = ((1 / 2 : ℚ) : ℝ) := by
        push_cast
        simpa [fcomp] using hk
      exact_mod_cast this
    · exfalso
      simp [fcomp] at hk
  have hp := (table43_half k).2 hfreq
  have hhalf : cis (-(1 / 2)) = -1 := by
    unfold cis
    have : (2 * Real.pi * Complex.I * ((-(1 / 2) : ℚ) : ℂ)) = -(Real.pi * Complex.I) := by push_cast; ring
    rw [this, Complex.exp_neg, Complex.exp_pi_mul_I]
    norm_num
  have h1 : ∀ t : ℚ, cis (-(t + 1 / 2)) = -cis (-t) := by
    intro t
    rw [neg_add, cis_add, hhalf, mul_neg_one]
  have h2 : ∀ t : ℚ, cis (-(t + 1)) = cis (-t) := by
    intro t
    exact cis_congr ⟨-1, by push_cast; ring⟩
  have key : fft [4, 3] (fun x => ((rows43 p q r s x : ℝ) : ℂ)) k =
      ∑ x : Fin 3, ((p : ℂ) * cis (-phase [4, 3] k x) + q * cis (-phase [4, 3] k (x.val + 3)) +
        r * cis (-phase [4, 3] k (x.val + 6)) + s * cis (-phase [4, 3] k (x.val + 9))) := by
    show ∑ x : Fin 12, ((rows43 p q r s x : ℝ) : ℂ) * cis (-phase [4, 3] k x.val) = _
    generalize phase [4, 3] k = ph
    rw [Fin.sum_univ_three]
    simp only [Fin.sum_univ_succ, Fin.sum_univ_zero]
    simp [rows43, Fin.val_succ]
    ring
  rw [key]
  refine Finset.sum_eq_zero fun x _ => ?_
  rw [(hp x).1, (hp x).2.1, (hp x).2.2, h2, h2, h1]
  have : (p : ℂ) + r = q + s := by exact_mod_cast h
  linear_combination cis (-phase [4, 3] k x) * this

/-- Fields with an indicator without content at the highest frequency exist on domains with even sides: here the
indicator is one, one half, zero, one half along the four nodes of the first axis. -/
example : Quiet [4, 3] fun x => phaseIndicator (rows43 1 (1 / 2) 0 (1 / 2) x) := by
  have : (fun x => phaseIndicator (rows43 1 (1 / 2) 0 (1 / 2) x)) = rows43 1 (1 / 2) 0 (1 / 2) := by
    funext x
    unfold rows43 phaseIndicator
    split_ifs <;> norm_num
  rw [this]
  exact quiet_rows43 (by norm_num)

/-! ## C104 -/

theorem energy_strains
    (r : Rank4) (misfit : Mat3) (hm : misfit.transpose = misfit) (ind : Fin dims.prod → ℝ)
    (h01 : ∀ x, ind x = 0 ∨ ind x = 1) :
    homogeneousModulusEnergy dims ind misfit r =
      (∑ x, energyDensity r.get (eps dims r.get (r.contractLast misfit) ind x - ind x • misfit)) /
        ∑ x, ind x := by
  unfold homogeneousModulusEnergy
  simp only
  refine congrArg (fun z : ℝ => z / ∑ x, ind x) (Finset.sum_congr rfl fun x _ => ?_)
  refine congrArg (energyDensity r.get) ?_
  have sy : ∀ i j, misfit i j = misfit j i := fun i j => congrFun (congrFun hm j) i
  have hmm : ∀ (F : Fin 3 → Fin 3 → ℝ), (∀ i j, F i j = F j i) → ∀ a b, F (min a b) (max a b) = F a b := by
    intro F hF a b
    rcases le_total a b with hab | hab
    · rw [min_eq_left hab, max_eq_right hab]
    · rw [min_eq_right hab, max_eq_left hab, hF]
  have hre : ∀ i j, (ifft dims (fun k => strain (displacement (fun c => effForce (r.contractLast misfit) c
      (freq3 dims k) (fft dims (fun i => ((ind i : ℝ) : ℂ)) k)) (freq3 dims k) r.get) (freq3 dims k) i j) x).re /
        ((dims.prod : ℕ) : ℝ) = eps dims r.get (r.contractLast misfit) ind x i j := by
    intro i j
    unfold eps ftStrain
    rw [Matrix.of_apply, Complex.div_natCast_re]
  ext a b
  rw [Matrix.of_apply, hre, hmm _ (fun i j => eps_symm r.get _ ind x i j), hmm (fun i j => misfit i j) sy]
  rw [Matrix.sub_apply, Matrix.smul_apply, smul_eq_mul]
  rcases h01 x with e | e <;> rw [e] <;> norm_num

/-- C104: the energy per volume of a region is its elastic energy, the least one over all displacement
fields, divided by its volume. -/
theorem c104_energy (h : GoodDims (intDims dims)) (hl : LayoutOk dims)
    (hs : ∀ d ∈ dims, d ≤ 10 ^ 9) (r : Rank4) (hr : StableMaterial r.get) (misfit : Mat3)
    (hm : misfit.transpose = misfit) (ind : Fin dims.prod → ℝ) (hq : Quiet dims ind) (h01 : ∀ x, ind x = 0 ∨ ind x = 1)
    (hv : ∃ x, ind x = 1) :
    IsElasticEnergy dims r.get misfit ind (homogeneousModulusEnergy dims ind misfit r * ∑ x, ind x) := by
  rw [energy_strains r misfit hm ind h01, div_mul_cancel₀]
  · exact eps_isLeast h hl hs r hr misfit ind hq
  · obtain ⟨x, hx⟩ := hv
    have : 0 < ∑ x, ind x :=
      Finset.sum_pos' (fun y _ => by rcases h01 y with e | e <;> rw [e]; norm_num) ⟨x, Finset.mem_univ _, by
        rw [hx]; norm_num⟩
    exact this.ne'

theorem symGrad_zero (x : Fin dims.prod) : symGrad dims (fun _ _ => 0) x = 0 := by
  ext i j
  unfold symGrad gradCalculate divRealScalar
  simp [fft, ifft]

/-- C104: relaxation never costs energy: the energy per volume lies between zero and the energy density of the
misfit strain itself. -/
theorem c104_bounds (h : GoodDims (intDims dims)) (hl : LayoutOk dims)
    (hs : ∀ d ∈ dims, d ≤ 10 ^ 9) (r : Rank4) (hr : StableMaterial r.get) (misfit : Mat3)
    (hm : misfit.transpose = misfit) (ind : Fin dims.prod → ℝ) (hq : Quiet dims ind) (h01 : ∀ x, ind x = 0 ∨ ind x = 1)
    (hv : ∃ x, ind x = 1) :
    0 ≤ homogeneousModulusEnergy dims ind misfit r ∧
      homogeneousModulusEnergy dims ind misfit r ≤ energyDensity r.get misfit := by
  have hV : 0 < ∑ x, ind x := by
    obtain ⟨x, hx⟩ := hv
    exact Finset.sum_pos' (fun y _ => by rcases h01 y with e | e <;> rw [e]; norm_num) ⟨x, Finset.mem_univ _, by
        rw [hx]; norm_num⟩
  have hE := c104_energy h hl hs r hr misfit hm ind hq h01 hv
  constructor
  · obtain ⟨u, hu⟩ := hE.1
    have : 0 ≤ homogeneousModulusEnergy dims ind misfit r * ∑ x, ind x := by
      rw [hu]
      refine Finset.sum_nonneg fun x _ => ?_
      rw [energyDensity_form]
      exact mul_nonneg (by norm_num) (form_nonneg hr _)
    exact nonneg_of_mul_nonneg_left this hV
  · have h2 := hE.2 ⟨fun _ _ => 0, rfl⟩
    have e : ∀ x, energyDensity r.get (symGrad dims (fun _ _ => 0) x - ind x • misfit) =
        energyDensity r.get misfit * ind x := by
      intro x
      rw [symGrad_zero, energyDensity_form, energyDensity_form, form_sub_left, form_sub_right, form_sub_right,
        form_smul_left, form_smul_right, form_smul_right]
      have : form r.get 0 0 = 0 ∧ form r.get 0 misfit = 0 ∧ form r.get misfit 0 = 0 := by simp [form]
      rw [this.1, this.2.1, this.2.2]
      simp only [form_smul_left]
      rcases h01 x with e | e <;> rw [e] <;> ring
    simp only [e, ← Finset.mul_sum] at h2
    exact le_of_mul_le_mul_right h2 hV

/-- A band of a 4 × 3 domain. -/
example : Quiet [4, 3] (rows43 1 1 0 0) ∧ (∀ x, rows43 1 1 0 0 x = 0 ∨ rows43 1 1 0 0 x = 1) ∧ ∃ x, rows43 1 1 0 0 x = 1 := by
  refine ⟨quiet_rows43 (by norm_num), fun x => ?_, ⟨⟨0, by decide⟩, by simp [rows43]⟩⟩
  unfold rows43
  split_ifs <;> simp

/-- One cell of a 3 × 3 domain. -/
example : ∃ ind : Fin [3, 3].prod → ℝ, (∀ x, ind x = 0 ∨ ind x = 1) ∧ (∃ x, ind x = 1) ∧ ∃ x, ind x = 0 :=
  ⟨fun x => if x.val = 4 then 1 else 0, fun x => by dsimp only; split_ifs <;> simp,
    ⟨(⟨4, by decide⟩ : Fin [3, 3].prod), by simp⟩, ⟨(⟨0, by decide⟩ : Fin [3, 3].prod), by simp⟩⟩

end Gopf.Props
