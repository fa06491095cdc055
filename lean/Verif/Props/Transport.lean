import Verif.Props.Derivative

/-!
# C73, C74, C78: diffusion, advection and charge transport
-/

namespace Gopf.Props
open Spec Pfutil Pf
open scoped BigOperators

variable {dims : List ℕ}

theorem foldl_add_sum {α : Type} (l : List α) (g : α → ℂ) (a : ℂ) :
    l.foldl (fun (acc : ℂ) (x : α) => acc + g x) a = a + (l.map g).sum := by
  induction l generalizing a with
  | nil => simp
  | cons x l ih => simp only [List.foldl_cons, ih, List.map_cons, List.sum_cons]; ring

theorem range_sum (n : ℕ) (g : ℕ → ℂ) : ((List.range n).map g).sum = ∑ d ∈ Finset.range n, g d := by
  rw [Finset.sum_range, ← List.sum_ofFn, List.ofFn_eq_map, ← List.map_coe_finRange_eq_range, List.map_map]
  rfl

theorem conj_gradFactor (keep : Bool) (f : ℝ) :
    (starRingEnd ℂ) (gradFactor keep f) = -gradFactor keep f := by
  unfold gradFactor
  split_ifs
  · simp
  · simp [Complex.conj_ofNat]

/-- Integration by parts. -/
theorem grad_antisymm (h : GoodDims (intDims dims)) (hs : ∀ d ∈ dims, d ≤ 10 ^ 9) (comp : ℕ) (keep : Bool)
    (a b : Data dims.prod) :
    ∑ x, a x * (starRingEnd ℂ) (gradCalculate dims comp keep b x) =
      -∑ x, gradCalculate dims comp keep a x * (starRingEnd ℂ) (b x) := by
  have hpos := pos_of_goodDims h
  have hN := prod_ne_zero hpos
  have e1 := parseval hpos a (gradCalculate dims comp keep b)
  have e2 := parseval hpos (gradCalculate dims comp keep a) b
  have e3 : ∑ k, fft dims a k * (starRingEnd ℂ) (fft dims (gradCalculate dims comp keep b) k) =
      -∑ k, fft dims (gradCalculate dims comp keep a) k * (starRingEnd ℂ) (fft dims b k) := by
    rw [← Finset.sum_neg_distrib]
    refine Finset.sum_congr rfl fun k _ => ?_
    rw [fft_grad h hs, fft_grad h hs, map_mul, conj_gradFactor]
    ring
  rw [e1, e2] at e3
  exact mul_left_cancel₀ hN (by linear_combination e3)

/-! ## C73 -/

/-- The transform of `DivGrad`, component by component. -/
theorem divGradTerm_eq (h : GoodDims (intDims dims)) (hs : ∀ d ∈ dims, d ≤ 10 ^ 9)
    (F u : Data dims.prod) (t : ℝ) (k : Fin dims.prod) :
    divGradTerm dims F u (freqOf dims) t k = ∑ d ∈ Finset.range dims.length,
      fft dims (gradCalculate dims d true fun x => F x * gradCalculate dims d false u x) k := by
  unfold divGradTerm divGrad
  rw [foldl_add_sum, range_sum, zero_add]
  refine Finset.sum_congr rfl fun d _ => ?_
  rw [fft_grad h hs]
  unfold gradFactor
  rw [if_neg (by simp)]
  push_cast
  ring

/-- C73: the term is the transform of `Σ_d ∂_d (F ∂_d u)`, where the inner derivative drops the Nyquist
frequency and the outer one keeps it. -/
theorem c73_divergence (h : GoodDims (intDims dims)) (hs : ∀ d ∈ dims, d ≤ 10 ^ 9)
    (F u : Data dims.prod) (t : ℝ) :
    divGradTerm dims F u (freqOf dims) t = fft dims fun x => ∑ d ∈ Finset.range dims.length,
      gradCalculate dims d true (fun y => F y * gradCalculate dims d false u y) x := by
  funext k
  rw [divGradTerm_eq h hs]
  unfold fft
  rw [Finset.sum_comm]
  refine Finset.sum_congr rfl fun x _ => ?_
  rw [Finset.sum_mul]

/-- C73: for a constant `F` the term is `F` times the Laplacian in every bin without a Nyquist
component. -/
theorem c73_constant (h : GoodDims (intDims dims)) (hs : ∀ d ∈ dims, d ≤ 10 ^ 9) (c : ℂ)
    (u : Data dims.prod) (t : ℝ) (k : Fin dims.prod) (hk : ∀ x ∈ freqOf dims k, x ≠ 1 / 2) :
    divGradTerm dims (fun _ => c) u (freqOf dims) t k =
      c * (laplaceSymbol (freqOf dims k) * fft dims u k) := by
  rw [divGradTerm_eq h hs]
  have hl : (freqOf dims k).length = dims.length := by
    obtain ⟨q, -, hq, -, e⟩ := freqOf_eq h k
    rw [e]
    have : q.length = (intDims dims).length := (List.Forall₂.length_eq hq).symm
    simp [this, intDims]
  have hsym : laplaceSymbol (freqOf dims k) =
      ∑ d ∈ Finset.range dims.length, -(4 * Real.pi ^ 2 * (fcomp (freqOf dims k) d : ℂ) ^ 2) := by
    rw [Finset.sum_neg_distrib, ← Finset.mul_sum]
    unfold laplaceSymbol
    have : ((freqOf dims k).map fun x => x ^ 2).sum =
        ∑ d ∈ Finset.range dims.length, fcomp (freqOf dims k) d ^ 2 := by
      rw [← hl]
      generalize freqOf dims k = l
      rw [Finset.sum_range]
      conv_lhs => rw [← List.ofFn_getElem (xs := l), List.map_ofFn, List.sum_ofFn]
      refine Finset.sum_congr rfl fun i _ => ?_
      simp [fcomp]
    rw [this]
    push_cast
    rfl
  rw [hsym, Finset.sum_mul, Finset.mul_sum]
  refine Finset.sum_congr rfl fun d hd => ?_
  rw [fft_grad h hs, fft_smul, fft_grad h hs]
  have hne : fcomp (freqOf dims k) d ≠ 1 / 2 := by
    apply hk
    unfold fcomp
    rw [List.getD_eq_getElem?_getD, List.getElem?_eq_getElem (by rw [hl]; exact Finset.mem_range.mp hd)]
    exact List.getElem_mem _
  unfold gradFactor
  rw [if_neg (by simp), if_neg (by tauto)]
  linear_combination (4 * c * Real.pi ^ 2 * (fcomp (freqOf dims k) d : ℂ) ^ 2 * fft dims u k) * Complex.I_sq

/-- The part of the derivative that is lost by dropping the Nyquist frequency is imaginary. -/
private theorem rest_imag (h : GoodDims (intDims dims)) (hl : LayoutOk dims) (hs : ∀ d ∈ dims, d ≤ 10 ^ 9)
    (comp : ℕ) (u : Data dims.prod) (hu : IsReal u) (x : Fin dims.prod) :
    (gradCalculate dims comp true u x).re = (gradCalculate dims comp false u x).re := by
  have hr : IsReal fun x => Complex.I * (gradCalculate dims comp true u x - gradCalculate dims comp false u x) := by
    apply real_of_hermitian h hl
    intro b c hc
    rw [fft_smul, fft_smul, fft_sub, fft_sub, fft_grad h hs, fft_grad h hs, fft_grad h hs, fft_grad h hs,
      hermitian_fft h hl hu b c hc, map_mul, map_sub, map_mul, map_mul]
    unfold gradFactor
    rcases fcomp_conj h hc comp with e | ⟨e, e'⟩
    · have hb : fcomp (freqOf dims b) comp ≠ 1 / 2 := by
        intro hb
        have := fcomp_gt h c comp
        rw [e, hb] at this; linarith
      have hc2 : fcomp (freqOf dims c) comp ≠ 1 / 2 := by
        intro hb
        have := fcomp_gt h b comp
        rw [hb] at e; linarith
      rw [if_neg (by simp), if_neg (by tauto), if_neg (by simp), if_neg (by tauto)]
      ring
    · rw [if_neg (by simp), if_pos ⟨e, rfl⟩, if_neg (by simp), if_pos ⟨e', rfl⟩, e, e']
      simp [Complex.conj_ofNat]
  have := hr x
  simp only [Complex.mul_im, Complex.I_re, Complex.I_im, zero_mul, one_mul, zero_add, Complex.sub_re] at this
  linarith

/-- C73: for real `u` and `F`, the change of `½ Σ u²` by the term is `-Σ F |∇u|²`: non-negative `F`
dissipates. -/
theorem c73_dissipation (h : GoodDims (intDims dims)) (hl : LayoutOk dims) (hs : ∀ d ∈ dims, d ≤ 10 ^ 9)
    (F u w : Data dims.prod) (hF : IsReal F) (hu : IsReal u) (t : ℝ)
    (hw : fft dims w = divGradTerm dims F u (freqOf dims) t) :
    ∑ x, (u x).re * (w x).re =
      -∑ x, (F x).re * ∑ d ∈ Finset.range dims.length, (gradCalculate dims d false u x).re ^ 2 := by
  have hpos := pos_of_goodDims h
  have hwe : w = fun x => ∑ d ∈ Finset.range dims.length,
      gradCalculate dims d true (fun y => F y * gradCalculate dims d false u y) x := by
    apply fft_injective hpos
    rw [hw, c73_divergence h hs]
  have key : ∀ d, ∑ x, (u x).re *
      (gradCalculate dims d true (fun y => F y * gradCalculate dims d false u y) x).re =
        -∑ x, (F x).re * (gradCalculate dims d false u x).re ^ 2 := by
    intro d
    have hg := c71_real h hl hs d u hu
    have e := grad_antisymm h hs d true u (fun y => F y * gradCalculate dims d false u y)
    have e' := congrArg Complex.re e
    rw [Complex.neg_re, Complex.re_sum, Complex.re_sum] at e'
    have l1 : ∀ x, (u x * (starRingEnd ℂ)
        (gradCalculate dims d true (fun y => F y * gradCalculate dims d false u y) x)).re =
        (u x).re * (gradCalculate dims d true (fun y => F y * gradCalculate dims d false u y) x).re := by
      intro x
      rw [Complex.mul_re, hu x]; simp
    have l2 : ∀ x, (gradCalculate dims d true u x * (starRingEnd ℂ)
        (F x * gradCalculate dims d false u x)).re = (F x).re * (gradCalculate dims d false u x).re ^ 2 := by
      intro x
      rw [map_mul, Complex.mul_re, rest_imag h hl hs d u hu x]
      simp [hF x, hg x]
      ring
    simp only [l1, l2] at e'
    exact e'
  rw [hwe]
  have : ∀ x, (u x).re * (∑ d ∈ Finset.range dims.length,
      gradCalculate dims d true (fun y => F y * gradCalculate dims d false u y) x).re =
      ∑ d ∈ Finset.range dims.length, (u x).re *
        (gradCalculate dims d true (fun y => F y * gradCalculate dims d false u y) x).re := by
    intro x
    rw [Complex.re_sum, Finset.mul_sum]
  simp only [this]
  rw [Finset.sum_comm]
  simp only [key]
  rw [Finset.sum_neg_distrib, Finset.sum_comm]
  congr 1
  refine Finset.sum_congr rfl fun x _ => ?_
  rw [Finset.mul_sum]

/-- C73: the term does not keep real fields real. If there is a bin whose only non-zero frequency
component is the Nyquist frequency (an even side), and a bin whose component along that direction is
neither zero nor Nyquist (a side longer than two), then for some real `u` and real non-negative `F` the
result is not the transform of a real field. -/
theorem c73_not_real (h : GoodDims (intDims dims)) (hl : LayoutOk dims) (hs : ∀ d ∈ dims, d ≤ 10 ^ 9)
    (comp : ℕ) (hcomp : comp < dims.length) (k c : Fin dims.prod)
    (hself : conjugateNode (intDims dims) (k.val : Int) = some (k.val : Int))
    (hk : fcomp (freqOf dims k) comp = 1 / 2) (hk0 : ∀ d, d ≠ comp → fcomp (freqOf dims k) d = 0)
    (hc : fcomp (freqOf dims c) comp ≠ 0) (hc' : fcomp (freqOf dims c) comp ≠ 1 / 2) (t : ℝ) :
    ∃ u F : Data dims.prod, IsReal u ∧ IsReal F ∧ (∀ x, 0 ≤ (F x).re) ∧
      ¬ ∃ w : Data dims.prod, IsReal w ∧ fft dims w = divGradTerm dims F u (freqOf dims) t := by
  have hpos := pos_of_goodDims h
  have hN := prod_ne_zero hpos
  -- a real field with a gradient
  obtain ⟨u, hu, x0, hx0⟩ : ∃ u : Data dims.prod, IsReal u ∧ ∃ x0, gradCalculate dims comp false u x0 ≠ 0 := by
    by_contra hne
    push Not at hne
    let v : Data dims.prod := fun x => ifft dims (fun b => if b = c then 1 else 0) x / (dims.prod : ℂ)
    have hv : fft dims v = fun b => if b = c then 1 else 0 := fft_surjective hpos _
    have hlin := c70_linear h hs comp false 1 Complex.I (fun x => ((v x).re : ℂ)) (fun x => ((v x).im : ℂ))
    have hvv : (fun i => 1 * (((v i).re : ℝ) : ℂ) + Complex.I * (((v i).im : ℝ) : ℂ)) = v := by
      funext i
      conv_rhs => rw [← Complex.re_add_im (v i)]
      ring
    rw [hvv] at hlin
    have hz : gradCalculate dims comp false v = fun _ => 0 := by
      funext x
      rw [hlin, hne _ (fun x => by simp) x, hne _ (fun x => by simp) x]
      simp
    have e := fft_grad h hs comp false v c
    rw [hz, hv] at e
    simp only [fft, zero_mul, Finset.sum_const_zero, if_true, mul_one] at e
    unfold gradFactor at e
    rw [if_neg (by tauto)] at e
    have := e.symm
    simp [Complex.ofReal_eq_zero, Real.pi_ne_zero, hc] at this
  refine ⟨u, fun x => if x = x0 then 1 else 0, hu, fun x => by dsimp only; split_ifs <;> simp,
    fun x => by dsimp only; split_ifs <;> simp, ?_⟩
  rintro ⟨w, hw, e⟩
  have hherm := hermitian_fft h hl hw k k hself
  rw [e, divGradTerm_eq h hs, Finset.sum_eq_single comp] at hherm
  · rw [fft_grad h hs, hk] at hherm
    have hg := c71_real h hl hs comp u hu
    let J : Data dims.prod := fun x => (if x = x0 then (1:ℂ) else 0) * gradCalculate dims comp false u x
    have hJ : IsReal J := by
      intro x
      simp only [J]
      split_ifs
      · simpa using hg x
      · simp
    have hJk := hermitian_fft h hl hJ k k hself
    rw [map_mul, conj_gradFactor, ← hJk] at hherm
    have hJne : fft dims J k = gradCalculate dims comp false u x0 * cis (-phase dims k x0) := by
      unfold fft
      rw [Finset.sum_eq_single x0 (fun x _ hx => by simp [J, hx]) (by simp)]
      simp [J]
    have hcis : cis (-phase dims k x0) ≠ 0 := by unfold cis; exact Complex.exp_ne_zero _
    have h2 : gradFactor true (1 / 2 : ℝ) * fft dims J k = 0 := by linear_combination hherm / 2
    rw [hJne] at h2
    have hgf : gradFactor true (1 / 2 : ℝ) ≠ 0 := by
      unfold gradFactor
      rw [if_neg (by simp)]
      simp [Real.pi_ne_zero]
    exact mul_ne_zero hgf (mul_ne_zero hx0 hcis) h2
  · intro d _ hd
    rw [fft_grad h hs, hk0 d hd]
    simp [gradFactor]
  · intro hn
    exact absurd (Finset.mem_range.mpr hcomp) hn

/-- The conditions of `c73_not_real` hold on the 4×2 domain with bins 4 and 2. -/
example : GoodDims (intDims [4, 2]) ∧ LayoutOk [4, 2] ∧ conjugateNode (intDims [4, 2]) 4 = some 4 ∧
    freq (intDims [4, 2]) 4 = some [1/2, 0] ∧ freq (intDims [4, 2]) 2 = some [1/4, 0] :=
  ⟨⟨by decide, by decide⟩, trivial, by decide +kernel, by decide +kernel, by decide +kernel⟩

/-- The node at distance `x` from the origin along the side `comp`, with its frequency. -/
private theorem axis_node (h : GoodDims (intDims dims)) (comp : ℕ) (hcomp : comp < dims.length) (x : ℕ)
    (hx : x < dims[comp]) : ∃ (b : Fin dims.prod) (q : List Int), pos (intDims dims) (b.val : Int) = some q ∧
      nodeIdx (intDims dims) q = some (b.val : Int) ∧ q.length = dims.length ∧
      (∀ e, q[e]? = if e < dims.length then some (if e = comp then (x : Int) else 0) else none) ∧
      fcomp (freqOf dims b) comp = ((phi x dims[comp] : ℚ) : ℝ) ∧ ∀ e, e ≠ comp → fcomp (freqOf dims b) e = 0 := by
  set q : List Int := (List.range dims.length).map fun e => if e = comp then (x : Int) else 0 with hq
  have hlen : q.length = dims.length := by simp [hq]
  have hget : ∀ e, q[e]? = if e < dims.length then some (if e = comp then (x : Int) else 0) else none := by
    intro e
    rw [hq, List.getElem?_map]
    by_cases he : e < dims.length
    · rw [List.getElem?_range he, if_pos he]; rfl
    · rw [List.getElem?_eq_none (by simpa using he), if_neg he]; rfl
  have hbox : InBox (intDims dims) q := by
    rw [InBox, List.forall₂_iff_get]
    refine ⟨by simp [intDims, hlen], fun e he he' => ?_⟩
    have he2 : e < dims.length := by simpa [intDims] using he
    have h1 : q[e] = if e = comp then (x : Int) else 0 := by
      have := hget e
      rw [List.getElem?_eq_getElem he', if_pos he2] at this
      exact Option.some.inj this
    have hd : 0 < dims[e] := pos_of_goodDims h _ (List.getElem_mem he2)
    simp only [List.get_eq_getElem, h1, intDims, List.getElem_map]
    split_ifs with hc
    · subst hc
      exact ⟨by omega, by simpa using hx⟩
    · exact ⟨le_refl _, by simpa using hd⟩
  obtain ⟨n, h1, h2, h3, h4⟩ := nodeIdx_spec h hbox
  obtain ⟨b, rfl⟩ : ∃ b : ℕ, n = (b : Int) := ⟨n.toNat, by omega⟩
  have hb : b < dims.prod := by
    rw [numNodes_intDims] at h3
    exact_mod_cast h3
  refine ⟨⟨b, hb⟩, q, h4, h1, hlen, hget, ?_⟩
  obtain ⟨q', hq', -, -, e⟩ := freqOf_eq h ⟨b, hb⟩
  rw [h4] at hq'
  obtain rfl := Option.some.inj hq'
  have hz : ∀ e, (List.zipWith phi q (intDims dims)).getD e 0 =
      if e = comp then phi x dims[comp] else 0 := by
    intro e
    rw [List.getD_eq_getElem?_getD, List.getElem?_zipWith, hget e]
    by_cases he : e < dims.length
    · have hd : (intDims dims)[e]? = some ((dims[e] : ℕ) : Int) := by simp [intDims, he]
      rw [if_pos he, hd]
      by_cases hc : e = comp
      · subst hc; simp
      · simp [hc, phi_zero]
    · have hc : e ≠ comp := by omega
      simp [he, hc]
  constructor
  · rw [e, fcomp_map, hz, if_pos rfl]
  · intro d hd
    rw [e, fcomp_map, hz, if_neg hd]
    simp

/-- C73: on every 2D or cubic 3D domain with an even side longer than two, some real `u` and real non-negative `F` give
a result that is not the transform of a real field. -/
theorem c73_even_side (h : GoodDims (intDims dims)) (hl : LayoutOk dims) (hs : ∀ d ∈ dims, d ≤ 10 ^ 9)
    (comp : ℕ) (hcomp : comp < dims.length) (heven : Even dims[comp]) (hlong : 2 < dims[comp]) (t : ℝ) :
    ∃ u F : Data dims.prod, IsReal u ∧ IsReal F ∧ (∀ x, 0 ≤ (F x).re) ∧
      ¬ ∃ w : Data dims.prod, IsReal w ∧ fft dims w = divGradTerm dims F u (freqOf dims) t := by
  obtain ⟨m, hm⟩ := heven
  obtain ⟨k, q, hk1, hk2, hk3, hk4, hk5, hk6⟩ := axis_node h comp hcomp m (by omega)
  obtain ⟨c, -, -, -, -, -, hc5, -⟩ := axis_node h comp hcomp 1 (by omega)
  have hhalf : phi (m : Int) ((dims[comp] : ℕ) : Int) = 1 / 2 := phi_half (by omega) (by omega)
  have hlow := phi_low (x := 1) (d := ((dims[comp] : ℕ) : Int)) (by omega) (by omega)
  have hdpos : (0 : ℚ) < ((((dims[comp] : ℕ) : Int)) : ℚ) := by exact_mod_cast (by omega : 0 < dims[comp])
  have hself : conjugateNode (intDims dims) (k.val : Int) = some (k.val : Int) := by
    obtain ⟨p, j, e1, -, e3, j0, j1, e6, -⟩ := conjugateNode_spec h (i := (k.val : Int)) (by omega) (by
      rw [numNodes_intDims]; exact_mod_cast k.2)
    rw [hk1] at e1
    obtain rfl := Option.some.inj e1
    have hq : conjPos (intDims dims) q = q := by
      apply List.ext_getElem?
      intro e
      rw [conjPos, List.getElem?_zipWith, hk4 e]
      by_cases he : e < dims.length
      · have hd : (intDims dims)[e]? = some ((dims[e] : ℕ) : Int) := by simp [intDims, he]
        have hpos : 0 < dims[e] := pos_of_goodDims h _ (List.getElem_mem he)
        rw [if_pos he, hd]
        by_cases hc : e = comp
        · subst hc
          simp only [if_true, Option.some.injEq]
          have : ((dims[e] : ℕ) : Int) - m = m := by omega
          rw [this, Int.emod_eq_of_lt (by omega) (by omega)]
        · simp [hc]
      · simp [he]
    rw [hq] at e6
    rw [e3]
    obtain ⟨p', f1, -, f3⟩ := pos_spec h j0 j1
    rw [e6] at f1
    obtain rfl := Option.some.inj f1
    rw [hk2] at f3
    exact f3.symm ▸ rfl
  refine c73_not_real h hl hs comp hcomp k c hself ?_ hk6 ?_ ?_ t
  · rw [hk5, hhalf]; norm_num
  · rw [hc5]
    have : (0 : ℚ) < phi 1 ((dims[comp] : ℕ) : Int) := lt_of_lt_of_le (by positivity) hlow.1
    exact_mod_cast this.ne'
  · rw [hc5]
    have h2 : phi 1 ((dims[comp] : ℕ) : Int) < 1 / 2 := by
      refine lt_of_le_of_lt hlow.2 ?_
      have : (0 : ℚ) < 1 / (2 * ((((dims[comp] : ℕ) : Int)) : ℚ)) := by positivity
      linarith
    intro hcon
    have h3 : ((phi 1 ((dims[comp] : ℕ) : Int) : ℚ) : ℝ) < ((1 / 2 : ℚ) : ℝ) := by exact_mod_cast h2
    push_cast at h3 hcon
    linarith

/-- The conditions of `c73_even_side` hold on the 4×3 domain. -/
example : GoodDims (intDims [4, 3]) ∧ LayoutOk [4, 3] ∧ (∀ d ∈ [4, 3], d ≤ 10 ^ 9) ∧ Even [4, 3][0] ∧ 2 < [4, 3][0] :=
  ⟨⟨by decide, by decide⟩, trivial, by simp, ⟨2, rfl⟩, by simp⟩

/-! ## C74 -/

theorem advection_eq (velocity : ℕ → Data dims.prod) (u : Data dims.prod) :
    advection dims velocity u = fft dims fun x => -∑ d ∈ Finset.range dims.length,
      velocity d x * gradCalculate dims d false u x := by
  funext k
  unfold advection
  simp only [foldl_add_sum, range_sum, zero_add]
  unfold fft
  rw [← Finset.sum_neg_distrib]
  exact Finset.sum_congr rfl fun x _ => by ring

/-- C74: the term is the transform of `-v·∇u`, formed node by node with the gradients of the gradient
calculator (C70, C71). -/
theorem c74_value (velocity : ℕ → Data dims.prod) (u : Data dims.prod) :
    advection dims velocity u = fft dims fun x =>
      -∑ d ∈ Finset.range dims.length, velocity d x * gradCalculate dims d false u x :=
  advection_eq velocity u

/-- C74: for a constant velocity every bin is multiplied by `-2πi v·f` (Nyquist components dropped):
the term moves the field along the velocity. -/
theorem c74_constant (h : GoodDims (intDims dims)) (hs : ∀ d ∈ dims, d ≤ 10 ^ 9) (v : ℕ → ℂ)
    (u : Data dims.prod) (k : Fin dims.prod) :
    advection dims (fun d _ => v d) u k = -(∑ d ∈ Finset.range dims.length,
      v d * if fcomp (freqOf dims k) d = 1 / 2 then 0
        else 2 * Real.pi * Complex.I * (fcomp (freqOf dims k) d : ℂ)) * fft dims u k := by
  rw [advection_eq]
  have : ∀ g : Data dims.prod, fft dims (fun x => -g x) k = -fft dims g k := by
    intro g
    have := fft_smul (-1) g k
    simpa using this
  rw [this, neg_mul, Finset.sum_mul]
  congr 1
  have e : fft dims (fun x => ∑ d ∈ Finset.range dims.length, v d * gradCalculate dims d false u x) k =
      ∑ d ∈ Finset.range dims.length, fft dims (fun x => v d * gradCalculate dims d false u x) k := by
    unfold fft
    rw [Finset.sum_comm]
    refine Finset.sum_congr rfl fun x _ => ?_
    rw [Finset.sum_mul]
  rw [e]
  refine Finset.sum_congr rfl fun d _ => ?_
  rw [fft_smul, fft_grad h hs]
  unfold gradFactor
  simp only [and_true]
  ring

/-- C74: real velocities and fields give the transform of a real field. -/
theorem c74_real (h : GoodDims (intDims dims)) (hl : LayoutOk dims) (hs : ∀ d ∈ dims, d ≤ 10 ^ 9)
    (velocity : ℕ → Data dims.prod) (hv : ∀ d, IsReal (velocity d)) (u : Data dims.prod) (hu : IsReal u) :
    Hermitian dims (advection dims velocity u) := by
  rw [advection_eq]
  apply hermitian_fft h hl
  intro x
  have : ∀ d, (velocity d x * gradCalculate dims d false u x).im = 0 := by
    intro d
    rw [Complex.mul_im, hv d x, c71_real h hl hs d u hu x]; simp
  simp [Complex.im_sum, this]

/-- C74: the change of the total `Σ u` is `Σ u ∇·v`; divergence free velocities conserve it. -/
theorem c74_total (h : GoodDims (intDims dims)) (hl : LayoutOk dims) (hs : ∀ d ∈ dims, d ≤ 10 ^ 9)
    (velocity : ℕ → Data dims.prod) (u : Data dims.prod) (hu : IsReal u)
    (k : Fin dims.prod) (hk : k.val = 0) :
    advection dims velocity u k =
      ∑ x, u x * ∑ d ∈ Finset.range dims.length, gradCalculate dims d false (velocity d) x := by
  rw [advection_eq, fft_zero_bin _ k hk, Finset.sum_neg_distrib, Finset.sum_comm]
  have key : ∀ d, ∑ x, velocity d x * gradCalculate dims d false u x =
      -∑ x, u x * gradCalculate dims d false (velocity d) x := by
    intro d
    have e := grad_antisymm h hs d false (velocity d) u
    have r : ∀ x, (starRingEnd ℂ) (gradCalculate dims d false u x) = gradCalculate dims d false u x :=
      fun x => Complex.conj_eq_iff_im.mpr (c71_real h hl hs d u hu x)
    have r' : ∀ x, (starRingEnd ℂ) (u x) = u x := fun x => Complex.conj_eq_iff_im.mpr (hu x)
    simp only [r, r'] at e
    rw [e]
    congr 1
    exact Finset.sum_congr rfl fun x _ => by ring
  simp only [key]
  rw [Finset.sum_neg_distrib, neg_neg, Finset.sum_comm]
  exact Finset.sum_congr rfl fun x _ => by rw [Finset.mul_sum]

/-! ## C78 -/

/-- The conductivity tensor `s` times the identity, in the component order of the code. -/
def isotropic (dim : ℕ) (s : ℝ) : List ℝ := if dim = 2 then [s, s, 0] else [s, s, s, 0, 0, 0]

private theorem isotropic_read {dim : ℕ} (hd : dim = 2 ∨ dim = 3) (s : ℝ) {d d2 : ℕ} (h1 : d < dim)
    (h2 : d2 < dim) : (isotropic dim s).getD (voigtIndex d d2 dim) 0 = if d = d2 then s else 0 := by
  rcases hd with rfl | rfl
  · interval_cases d <;> interval_cases d2 <;> simp [isotropic, voigtIndex]
  · interval_cases d <;> interval_cases d2 <;> simp [isotropic, voigtIndex]

private theorem len_cases (h : GoodDims (intDims dims)) : dims.length = 2 ∨ dims.length = 3 := by
  have := h.1
  simpa [intDims] using this

private theorem current_isotropic (h : GoodDims (intDims dims)) (s : ℝ) (ext : List ℝ)
    (rho : Data dims.prod) {d2 : ℕ} (hd : d2 < dims.length) :
    chargeCurrent dims (fun _ => isotropic dims.length s) ext rho d2 =
      fun i => (s : ℂ) * effField dims ext rho d2 i := by
  funext i
  unfold chargeCurrent
  rw [foldl_add_sum, range_sum, zero_add, Finset.sum_eq_single d2]
  · rw [isotropic_read (len_cases h) s hd hd, if_pos rfl]
  · intro d hd' hne
    rw [isotropic_read (len_cases h) s (Finset.mem_range.mp hd') hd, if_neg hne]
    simp
  · intro hn
    exact absurd (Finset.mem_range.mpr hd) hn

/-- The transform of a constant vanishes away from bin zero. -/
private theorem fft_const (hpos : ∀ d ∈ dims, 0 < d) (c : ℂ) (k : Fin dims.prod) (hk : k.val ≠ 0) :
    fft dims (fun _ => c) k = 0 := by
  have hN : 0 < dims.prod := Nat.pos_of_ne_zero (by
    rw [Ne, List.prod_eq_zero_iff]; intro hm; exact absurd (hpos 0 hm) (by omega))
  have := sum_kernel_fin hpos ⟨0, hN⟩ k
  have hz : ∀ x : ℕ, phase dims x 0 = 0 := by
    intro x
    unfold phase
    have hr : ∀ (ds : List ℕ), rowMajor ds 0 = List.replicate ds.length 0 := by
      intro ds
      induction ds with
      | nil => rfl
      | cons d ds ih => simp [rowMajor, ih, List.replicate_succ]
    rw [hr]
    have hp : ∀ (ds ks : List ℕ) (m : ℕ), phaseSum ds ks (List.replicate m 0) = 0 := by
      intro ds
      induction ds with
      | nil => intro ks m; simp [phaseSum]
      | cons d ds ih =>
        intro ks m
        cases ks with
        | nil => simp [phaseSum]
        | cons k ks =>
          cases m with
          | zero => simp [phaseSum]
          | succ m => simp [phaseSum, List.replicate_succ, ih]
    exact hp _ _ _
  have hne : (⟨0, hN⟩ : Fin dims.prod) ≠ k := fun e => hk (by rw [← e])
  rw [if_neg hne] at this
  simp only [hz, cis_zero, one_mul] at this
  have h2 : ∑ x : Fin dims.prod, cis (-phase dims k x) = 0 := by
    rw [← this]
    exact Finset.sum_congr rfl fun x _ => by rw [phase_symm]
  unfold fft
  rw [← Finset.mul_sum, h2, mul_zero]

/-- C78: in a homogeneous isotropic conductor the term multiplies every bin of the charge density by
`-s θ`, where `θ = 2π k'²/(2π k² + 10⁻¹⁶)` and `k'` is `k` without its Nyquist components, whatever the
(uniform) external field is: charge decays. -/
theorem c78_relaxation (h : GoodDims (intDims dims)) (s : ℝ) (ext : List ℝ) (rho : Data dims.prod)
    (k : Fin dims.prod) :
    chargeTransport dims (fun _ => isotropic dims.length s) ext rho k =
      -(s * (2 * Real.pi * ∑ d ∈ Finset.range dims.length,
          (if abs (abs (fcomp (freqOf dims k) d) - 1 / 2) > 1 / 10 ^ 10 then fcomp (freqOf dims k) d ^ 2 else 0)) /
        (2 * Real.pi * dotR (freqOf dims k) (freqOf dims k) + 1 / 10 ^ 16) : ℝ) * rho k := by
  have hpos := pos_of_goodDims h
  by_cases hk : k.val = 0
  · rw [c48_charge dims _ ext rho k hk]
    simp [fcomp_zero (freqOf_zero dims k hk)]
  unfold chargeTransport
  have hf : ∀ (l : List ℕ) (p : ℕ → Prop) [DecidablePred p] (g : ℕ → ℂ) (a : ℂ),
      l.foldl (fun (acc : ℂ) (d : ℕ) => if p d then acc + g d else acc) a =
        a + (l.map fun d => if p d then g d else 0).sum := by
    intro l p _ g
    induction l with
    | nil => simp
    | cons x l ih =>
      intro a
      simp only [List.foldl_cons, ih, List.map_cons, List.sum_cons]
      split_ifs <;> ring
  have := hf (List.range dims.length) (fun d => abs (abs (fcomp (freqOf dims k) d) - 1 / 2) > 1 / 10 ^ 10)
    (fun d => Complex.I * ((2 * Real.pi * fcomp (freqOf dims k) d : ℝ) : ℂ) *
      fft dims (chargeCurrent dims (fun _ => isotropic dims.length s) ext rho d) k) 0
  refine this.trans ?_
  rw [zero_add, range_sum]
  have hspec : ∀ d, fft dims (effField dims ext rho d) k =
      if abs (abs (fcomp (freqOf dims k) d) - 1 / 2) > 1 / 10 ^ 10 then
        rho k * (Complex.I * ((fcomp (freqOf dims k) d /
          (2 * Real.pi * dotR (freqOf dims k) (freqOf dims k) + 1 / 10 ^ 16) : ℝ) : ℂ)) else 0 := by
    intro d
    unfold effField divRealScalar
    rw [fft_sub, fft_const hpos _ k hk, sub_zero]
    simp only [Complex.ofReal_natCast]
    exact congrFun (fft_surjective hpos _) k
  have hterm : ∀ d ∈ Finset.range dims.length,
      (if abs (abs (fcomp (freqOf dims k) d) - 1 / 2) > 1 / 10 ^ 10 then
        Complex.I * ((2 * Real.pi * fcomp (freqOf dims k) d : ℝ) : ℂ) *
          fft dims (chargeCurrent dims (fun _ => isotropic dims.length s) ext rho d) k else 0) =
      -((s * (2 * Real.pi * (if abs (abs (fcomp (freqOf dims k) d) - 1 / 2) > 1 / 10 ^ 10 then
          fcomp (freqOf dims k) d ^ 2 else 0)) /
        (2 * Real.pi * dotR (freqOf dims k) (freqOf dims k) + 1 / 10 ^ 16) : ℝ) : ℂ) * rho k := by
    intro d hd
    rw [current_isotropic h s ext rho (Finset.mem_range.mp hd), fft_smul, hspec]
    split_ifs
    · push_cast
      linear_combination (s * (2 * Real.pi * (fcomp (freqOf dims k) d : ℂ) ^ 2) /
        (2 * Real.pi * dotR (freqOf dims k) (freqOf dims k) + 1 / 10 ^ 16) * rho k) * Complex.I_sq
    · simp
  rw [Finset.sum_congr rfl hterm, ← Finset.sum_mul, Finset.sum_neg_distrib, ← Complex.ofReal_sum]
  congr 3
  rw [← Finset.sum_div, ← Finset.mul_sum, ← Finset.mul_sum]

/-- C78: the factor `θ` lies between 0 and 1. -/
theorem c78_factor (h : GoodDims (intDims dims)) (k : Fin dims.prod) :
    let θ := (2 * Real.pi * ∑ d ∈ Finset.range dims.length,
          (if abs (abs (fcomp (freqOf dims k) d) - 1 / 2) > 1 / 10 ^ 10 then fcomp (freqOf dims k) d ^ 2 else 0)) /
        (2 * Real.pi * dotR (freqOf dims k) (freqOf dims k) + 1 / 10 ^ 16)
    0 ≤ θ ∧ θ < 1 := by
  have hpi := Real.pi_pos
  have hl : (freqOf dims k).length = dims.length := by
    obtain ⟨q, -, hq, -, e⟩ := freqOf_eq h k
    rw [e]
    have : q.length = (intDims dims).length := (List.Forall₂.length_eq hq).symm
    simp [this, intDims]
  have hdot : dotR (freqOf dims k) (freqOf dims k) =
      ∑ d ∈ Finset.range dims.length, fcomp (freqOf dims k) d ^ 2 := by
    rw [← hl]
    generalize freqOf dims k = l
    rw [Finset.sum_range]
    have e1 : dotR l l = (l.map fun x => x ^ 2).sum := by
      unfold dotR
      congr 1
      induction l with
      | nil => rfl
      | cons a l ih => simp [sq]
    rw [e1]
    conv_lhs => rw [← List.ofFn_getElem (xs := l), List.map_ofFn, List.sum_ofFn]
    refine Finset.sum_congr rfl fun i _ => ?_
    simp [fcomp]
  have h0 : 0 ≤ ∑ d ∈ Finset.range dims.length,
      (if abs (abs (fcomp (freqOf dims k) d) - 1 / 2) > 1 / 10 ^ 10 then fcomp (freqOf dims k) d ^ 2 else 0) :=
    Finset.sum_nonneg fun d _ => by split_ifs <;> positivity
  have h1 : ∑ d ∈ Finset.range dims.length,
      (if abs (abs (fcomp (freqOf dims k) d) - 1 / 2) > 1 / 10 ^ 10 then fcomp (freqOf dims k) d ^ 2 else 0) ≤
      dotR (freqOf dims k) (freqOf dims k) := by
    rw [hdot]
    exact Finset.sum_le_sum fun d _ => by split_ifs <;> [rfl; positivity]
  have h2 : 0 < 2 * Real.pi * dotR (freqOf dims k) (freqOf dims k) + 1 / 10 ^ 16 := by
    have := mul_nonneg (mul_nonneg zero_le_two hpi.le) (h0.trans h1)
    have e16 : (0:ℝ) < 1 / 10 ^ 16 := by norm_num
    linarith
  refine ⟨div_nonneg (by positivity) h2.le, ?_⟩
  rw [div_lt_one h2]
  have := mul_le_mul_of_nonneg_left h1 (mul_nonneg zero_le_two hpi.le)
  have e16 : (0:ℝ) < 1 / 10 ^ 16 := by norm_num
  linarith

/-- C78: for a uniform charge density the reported current obeys Ohm's law `J_d = Σ_e σ_de E_e` at every
node, with the external field. -/
theorem c78_ohm (h : GoodDims (intDims dims)) (sigma : Fin dims.prod → List ℝ) (ext : List ℝ) (c : ℂ)
    (d : ℕ) (i : Fin dims.prod) :
    currentOf dims sigma ext (fun _ => c) d i = ∑ e ∈ Finset.range dims.length,
      conductivityRead (sigma i) dims.length e d * fcomp ext e := by
  have hpos := pos_of_goodDims h
  have heff : ∀ e, effField dims ext (fft dims fun _ => c) e i = -((fcomp ext e : ℝ) : ℂ) := by
    intro e
    have hz : (fun b : Fin dims.prod => if abs (abs (fcomp (freqOf dims b) e) - 1 / 2) > 1 / 10 ^ 10 then
        fft dims (fun _ => c) b * (Complex.I * ((fcomp (freqOf dims b) e /
          (2 * Real.pi * dotR (freqOf dims b) (freqOf dims b) + 1 / 10 ^ 16) : ℝ) : ℂ)) else 0) =
        fun _ => 0 := by
      funext b
      by_cases hb : b.val = 0
      · simp [fcomp_zero (freqOf_zero dims b hb)]
      · rw [fft_const hpos c b hb]; simp
    unfold effField divRealScalar
    simp only [hz]
    simp [ifft]
  unfold currentOf chargeCurrent
  rw [foldl_add_sum, range_sum, zero_add, Complex.re_sum, ← Finset.sum_neg_distrib]
  refine Finset.sum_congr rfl fun e _ => ?_
  rw [heff]
  simp [conductivityRead]

end Gopf.Props
