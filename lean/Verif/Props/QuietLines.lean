import Verif.Props.LinElast
import Verif.Proofs.Symmetry
import Mathlib.Algebra.BigOperators.Group.Finset.Basic

/-!
# C104: which regions have no content at the highest frequencies
-/

namespace Gopf.Props
open Pfutil Pf Elasticity Spec

variable {dims : List ℕ}

/-- `y` lies on the line through `x` parallel to axis `j`. -/
def OnLine (dims : List ℕ) (j : Fin dims.length) (x y : Fin dims.prod) : Prop :=
  ∀ i : Fin dims.length, i ≠ j → coord dims y.val i.val = coord dims x.val i.val

/-- Along every line parallel to axis `j`, the values on the nodes with even and with odd coordinate have the same
sum. -/
def BalancedLines (dims : List ℕ) (j : Fin dims.length) (g : Fin dims.prod → ℝ) : Prop :=
  ∀ x : Fin dims.prod, (∑ᶠ y ∈ {y | OnLine dims j x y ∧ coord dims y.val j.val % 2 = 0}, g y) =
    ∑ᶠ y ∈ {y | OnLine dims j x y ∧ coord dims y.val j.val % 2 = 1}, g y

namespace Quieting

/-- One at even, minus one at odd numbers. -/
def sgn (c : ℤ) : ℝ := if c % 2 = 0 then 1 else -1

theorem sgn_add_one (c : ℤ) : sgn (c + 1) = -sgn c := by
  unfold sgn
  by_cases h : c % 2 = 0
  · rw [if_pos h, if_neg (by omega)]
  · rw [if_neg h, if_pos (by omega), neg_neg]

theorem sgn_congr {c e d : ℤ} (hd : d % 2 = 0) (h : c ≡ e [ZMOD d]) : sgn c = sgn e := by
  have h2 : c % 2 = e % 2 := by
    obtain ⟨k, rfl⟩ : ∃ k, d = 2 * k := ⟨d / 2, by omega⟩
    exact Int.ModEq.of_mul_right k h
  unfold sgn
  rw [h2]

theorem cis_half : cis (1 / 2) = -1 := by
  unfold cis
  have : (2 * Real.pi * Complex.I * ((1 / 2 : ℚ) : ℂ)) = Real.pi * Complex.I := by push_cast; ring
  rw [this, Complex.exp_pi_mul_I]

theorem cis_sgn (c : ℤ) : cis (-((c : ℚ) / 2)) = (sgn c : ℂ) := by
  unfold sgn
  by_cases h : c % 2 = 0
  · rw [if_pos h]
    have : cis (-((c : ℚ) / 2)) = cis 0 := cis_congr ⟨-(c / 2), by
      have : (c : ℚ) = 2 * ((c / 2 : ℤ) : ℚ) := by
        have : c = 2 * (c / 2) := by omega
        exact_mod_cast this
      rw [this]; push_cast; ring⟩
    rw [this, cis_zero]
    norm_num
  · rw [if_neg h]
    have : cis (-((c : ℚ) / 2)) = cis (1 / 2) := cis_congr ⟨-(c / 2) - 1, by
      have : (c : ℚ) = 2 * ((c / 2 : ℤ) : ℚ) + 1 := by
        have : c = 2 * (c / 2) + 1 := by omega
        exact_mod_cast this
      rw [this]; push_cast; ring⟩
    rw [this, cis_half]
    norm_num

/-- The alternating sum along a line. -/
noncomputable def alt (dims : List ℕ) (j : Fin dims.length) (g : Fin dims.prod → ℝ) (x : Fin dims.prod) : ℝ := by
  classical
  exact ∑ y with OnLine dims j x y, sgn (coord dims y.val j.val) * g y

theorem alt_eq (j : Fin dims.length) (g : Fin dims.prod → ℝ) (x : Fin dims.prod) :
    alt dims j g x = (∑ᶠ y ∈ {y | OnLine dims j x y ∧ coord dims y.val j.val % 2 = 0}, g y) -
      ∑ᶠ y ∈ {y | OnLine dims j x y ∧ coord dims y.val j.val % 2 = 1}, g y := by
  classical
  rw [finsum_mem_eq_finite_toFinset_sum _ (Set.toFinite _), finsum_mem_eq_finite_toFinset_sum _ (Set.toFinite _)]
  unfold alt
  have h1 : (Set.toFinite {y | OnLine dims j x y ∧ coord dims y.val j.val % 2 = 0}).toFinset =
      (Finset.univ.filter (OnLine dims j x)).filter fun y => coord dims y.val j.val % 2 = 0 := by
    ext y; simp
  have h2 : (Set.toFinite {y | OnLine dims j x y ∧ coord dims y.val j.val % 2 = 1}).toFinset =
      (Finset.univ.filter (OnLine dims j x)).filter fun y => ¬ coord dims y.val j.val % 2 = 0 := by
    ext y
    simp only [Set.Finite.mem_toFinset, Set.mem_setOf_eq, Finset.mem_filter, Finset.mem_univ, true_and]
    refine and_congr_right fun _ => ?_
    omega
  rw [h1, h2, ← Finset.sum_filter_add_sum_filter_not _ (fun y : Fin dims.prod => coord dims y.val j.val % 2 = 0),
    sub_eq_add_neg, ← Finset.sum_neg_distrib]
  congr 1
  · refine Finset.sum_congr rfl fun y hy => ?_
    rw [sgn, if_pos (Finset.mem_filter.mp hy).2, one_mul]
  · refine Finset.sum_congr rfl fun y hy => ?_
    rw [sgn, if_neg (Finset.mem_filter.mp hy).2, neg_one_mul]

theorem balanced_iff (j : Fin dims.length) (g : Fin dims.prod → ℝ) :
    BalancedLines dims j g ↔ ∀ x, alt dims j g x = 0 := by
  unfold BalancedLines
  refine forall_congr' fun x => ?_
  rw [alt_eq, sub_eq_zero]

/-- The bins of the highest frequency of an axis. -/
theorem half_iff (h : GoodDims (intDims dims)) (k : Fin dims.prod) (a : Fin 3) :
    freq3 dims k a = 1 / 2 ↔ ∃ j : Fin dims.length, j.val = a.val ∧ 2 * coord dims k.val j.val = (dims[j] : ℤ) := by
  unfold freq3 fcomp
  rw [freqOf_coord h]
  by_cases ha : a.val < dims.length
  · rw [List.getD_eq_getElem _ _ (by simpa using ha)]
    simp only [List.getElem_ofFn]
    obtain ⟨c0, c1⟩ := coord_range h k ⟨a.val, ha⟩
    have hd : (0 : ℤ) < dims[(⟨a.val, ha⟩ : Fin dims.length)] := c0.trans_lt c1
    constructor
    · intro e
      refine ⟨⟨a.val, ha⟩, rfl, ?_⟩
      by_contra hne
      have e' : phi (coord dims k.val a.val) (dims[(⟨a.val, ha⟩ : Fin dims.length)] : ℤ) = 1 / 2 := by
        have : ((phi (coord dims k.val a.val) (dims[(⟨a.val, ha⟩ : Fin dims.length)] : ℤ) : ℚ) : ℝ) = ((1 / 2 : ℚ) : ℝ) := by
          rw [e]; norm_num
        exact_mod_cast this
      obtain ⟨m, hm⟩ := phi_int (coord dims k.val a.val) (dims[(⟨a.val, ha⟩ : Fin dims.length)] : ℤ)
      rw [hm] at e'
      dsimp only at c0 c1 hne
      generalize coord dims k.val a.val = c at *
      generalize ((dims[(⟨a.val, ha⟩ : Fin dims.length)] : ℕ) : ℤ) = d at *
      have hd' : (d : ℚ) ≠ 0 := by exact_mod_cast hd.ne'
      have e3 : (2 * c + 2 * m * d : ℤ) = d := by
        field_simp at e'
        have : ((2 * c + 2 * m * d : ℤ) : ℚ) = (d : ℤ) := by push_cast; linarith
        exact_mod_cast this
      have : m = 0 := by
        rcases lt_trichotomy m 0 with hm' | hm' | hm'
        · exfalso; nlinarith
        · exact hm'
        · exfalso; nlinarith
      subst this
      omega
    · rintro ⟨j, hj, e⟩
      have : j = ⟨a.val, ha⟩ := Fin.ext hj
      subst this
      rw [phi_half hd e]
      norm_num
  · rw [List.getD_eq_default _ _ (by simpa using ha)]
    constructor
    · intro e; norm_num at e
    · rintro ⟨j, hj, -⟩
      exact absurd (hj ▸ j.2) ha

/-- Balanced lines cancel in the transform. -/
theorem fft_of_balanced (h : GoodDims (intDims dims)) (hl : LayoutOk dims) (j : Fin dims.length)
    (g : Fin dims.prod → ℝ) (hg : ∀ x, alt dims j g x = 0) (k : Fin dims.prod)
    (hk : 2 * coord dims k.val j.val = (dims[j] : ℤ)) : fft dims (fun x => (g x : ℂ)) k = 0 := by
  classical
  let R : Fin dims.prod → ℚ := fun y => ∑ i ∈ Finset.univ.erase j, (coord dims k.val i.val : ℚ) * coord dims y.val i.val / dims[i]
  have hker : ∀ y : Fin dims.prod, (g y : ℂ) * cis (-phase dims k.val y.val) =
      cis (-R y) * ((sgn (coord dims y.val j.val) * g y : ℝ) : ℂ) := by
    intro y
    rw [cis_phase_coord h hl, ← Finset.add_sum_erase _ _ (Finset.mem_univ j), neg_add, cis_add]
    have hd : (dims[j] : ℚ) ≠ 0 := by
      have := pos_of_goodDims h _ (List.getElem_mem j.2)
      exact_mod_cast this.ne'
    have e : (coord dims k.val j.val : ℚ) * coord dims y.val j.val / dims[j] = (coord dims y.val j.val : ℚ) / 2 := by
      have : (2 * coord dims k.val j.val : ℚ) = dims[j] := by exact_mod_cast hk
      rw [← this]
      rw [← this] at hd
      have hk0 : (coord dims k.val j.val : ℚ) ≠ 0 := fun e => hd (by rw [e, mul_zero])
      field_simp
    rw [e, cis_sgn]
    push_cast
    ring
  let π : Fin dims.prod → (Fin dims.length → ℤ) := fun y => Function.update (fun i => coord dims y.val i.val) j 0
  have hπ : ∀ x y, π y = π x ↔ OnLine dims j x y := by
    intro x y
    constructor
    · intro e i hi
      have := congrFun e i
      simpa [π, Function.update_of_ne hi] using this
    · intro e
      funext i
      by_cases hi : i = j
      · subst hi; simp [π]
      · simp [π, Function.update_of_ne hi, e i hi]
  unfold fft
  rw [← Finset.sum_fiberwise_of_maps_to (t := Finset.univ.image π) (g := π)
    fun y _ => Finset.mem_image_of_mem π (Finset.mem_univ y)]
  refine Finset.sum_eq_zero fun v hv => ?_
  obtain ⟨x, -, rfl⟩ := Finset.mem_image.mp hv
  have e1 : (∑ y with π y = π x, (g y : ℂ) * cis (-phase dims k.val y.val)) =
      cis (-R x) * ((alt dims j g x : ℝ) : ℂ) := by
    unfold alt
    rw [Complex.ofReal_sum, Finset.mul_sum]
    refine Finset.sum_congr (Finset.filter_congr fun y _ => hπ x y) fun y hy => ?_
    rw [hker]
    have : R y = R x := Finset.sum_congr rfl fun i hi => by
      rw [(Finset.mem_filter.mp hy).2 i (Finset.ne_of_mem_erase hi)]
    rw [this]
  rw [e1, hg]
  simp

/-- Along a line, waves of other frequencies cancel in the alternating sum. -/
theorem wave_cancels (h : GoodDims (intDims dims)) (hl : LayoutOk dims) (j : Fin dims.length) (he : dims[j] % 2 = 0)
    (k : Fin dims.prod) (hk : 2 * coord dims k.val j.val ≠ (dims[j] : ℤ)) (x : Fin dims.prod) : by
    classical
    exact (∑ y with OnLine dims j x y, (sgn (coord dims y.val j.val) : ℂ) * cis (phase dims k.val y.val)) = 0 := by
  classical
  obtain ⟨τ, hτ⟩ := exists_moves h (translation dims (Pi.single j 1))
  have hτ' : ∀ (y : Fin dims.prod) (i : Fin dims.length), coord dims (τ y).val i.val ≡
      coord dims y.val i.val + (Pi.single j 1 : Fin dims.length → ℤ) i [ZMOD dims[i]] := by
    intro y i
    simpa [translation] using hτ y i
  have hother : ∀ (y : Fin dims.prod) (i : Fin dims.length), i ≠ j → coord dims (τ y).val i.val = coord dims y.val i.val := by
    intro y i hi
    have := hτ' y i
    rw [Pi.single_eq_of_ne hi, add_zero] at this
    obtain ⟨a0, a1⟩ := coord_range h (τ y) i
    obtain ⟨b0, b1⟩ := coord_range h y i
    rwa [Int.ModEq, Int.emod_eq_of_lt a0 a1, Int.emod_eq_of_lt b0 b1] at this
  have hj : ∀ y : Fin dims.prod, coord dims (τ y).val j.val ≡ coord dims y.val j.val + 1 [ZMOD dims[j]] := by
    intro y
    simpa using hτ' y j
  have hd : (dims[j] : ℚ) ≠ 0 := by
    have := pos_of_goodDims h _ (List.getElem_mem j.2)
    exact_mod_cast this.ne'
  have hph : ∀ y : Fin dims.prod, cis (phase dims k.val (τ y).val) =
      cis ((coord dims k.val j.val : ℚ) / dims[j]) * cis (phase dims k.val y.val) := by
    intro y
    have e : ∀ z : Fin dims.prod, cis (phase dims k.val z.val) =
        cis (∑ i : Fin dims.length, (coord dims k.val i.val : ℚ) * coord dims z.val i.val / dims[i]) := by
      intro z
      have := congrArg (starRingEnd ℂ) (cis_phase_coord h hl k z)
      rwa [cis_conj, cis_conj, neg_neg, neg_neg] at this
    rw [e, e, ← cis_add]
    apply cis_congr
    rw [← Finset.add_sum_erase _ _ (Finset.mem_univ j),
      ← Finset.add_sum_erase _ (fun i : Fin dims.length => (coord dims k.val i.val : ℚ) * coord dims y.val i.val / dims[i]) (Finset.mem_univ j)]
    have e2 : ∑ i ∈ Finset.univ.erase j, (coord dims k.val i.val : ℚ) * coord dims (τ y).val i.val / dims[i] =
        ∑ i ∈ Finset.univ.erase j, (coord dims k.val i.val : ℚ) * coord dims y.val i.val / dims[i] :=
      Finset.sum_congr rfl fun i hi => by rw [hother y i (Finset.ne_of_mem_erase hi)]
    rw [e2]
    obtain ⟨z, hz⟩ := (hj y).symm.dvd
    refine ⟨coord dims k.val j.val * z, ?_⟩
    have hz' : (coord dims (τ y).val j.val : ℚ) = coord dims y.val j.val + 1 + dims[j] * z := by
      have : coord dims (τ y).val j.val = coord dims y.val j.val + 1 + dims[j] * z := by linarith
      exact_mod_cast this
    rw [hz']
    push_cast
    field_simp
    ring
  have hline : ∀ y, OnLine dims j x y ↔ OnLine dims j x (τ y) := fun y =>
    forall_congr' fun i => imp_congr_right fun hi => by rw [hother y i hi]
  set S := ∑ y with OnLine dims j x y, (sgn (coord dims y.val j.val) : ℂ) * cis (phase dims k.val y.val) with hS
  have key : S = -cis ((coord dims k.val j.val : ℚ) / dims[j]) * S := by
    conv_lhs => rw [hS]
    rw [hS, Finset.mul_sum]
    symm
    refine Finset.sum_equiv τ (fun y => ?_) fun y _ => ?_
    · simpa using hline y
    · rw [hph, sgn_congr (by exact_mod_cast he) (hj y), sgn_add_one]
      push_cast
      ring
  by_contra hne
  have h1 : -cis ((coord dims k.val j.val : ℚ) / dims[j]) = 1 := by
    have : (1 + cis ((coord dims k.val j.val : ℚ) / dims[j])) * S = 0 := by linear_combination key
    rcases mul_eq_zero.mp this with h0 | h0
    · linear_combination -h0
    · exact absurd h0 hne
  have h2 : cis ((coord dims k.val j.val : ℚ) / dims[j] + 1 / 2) = 1 := by
    rw [cis_add, cis_half]
    linear_combination h1
  obtain ⟨m, hm⟩ := (cis_eq_one_iff _).mp h2
  obtain ⟨c0, c1⟩ := coord_range h k j
  generalize coord dims k.val j.val = c at *
  have hpos : (0 : ℤ) < dims[j] := c0.trans_lt c1
  generalize hdj : dims[j] = d at *
  have e3 : (2 * c + d : ℤ) = 2 * m * d := by
    field_simp at hm
    have : ((2 * c + d : ℤ) : ℚ) = ((2 * m * d : ℤ) : ℚ) := by push_cast; linarith
    exact_mod_cast this
  have : m = 1 := by
    rcases lt_trichotomy m 1 with hm' | hm' | hm'
    · exfalso; nlinarith
    · exact hm'
    · exfalso; nlinarith
  subst this
  omega

end Quieting
open Quieting

/-- C104: a region has no content at the highest frequencies exactly if, along every line parallel to an axis with an
even number of nodes, as many nodes with even as with odd coordinate belong to it (for indicators with other values: the
sums are equal). -/
theorem c104_quiet_iff (h : GoodDims (intDims dims)) (hl : LayoutOk dims) (g : Fin dims.prod → ℝ) :
    Quiet dims g ↔ ∀ j : Fin dims.length, dims[j] % 2 = 0 → BalancedLines dims j g := by
  classical
  constructor
  · intro hq j he
    rw [balanced_iff]
    intro x
    have hN : (dims.prod : ℂ) ≠ 0 := by
      have := x.pos
      exact_mod_cast this.ne'
    have hlen : dims.length ≤ 3 := by
      rcases goodDims_nat h with ⟨d0, d1, rfl, -, -⟩ | ⟨d0, d1, d2, rfl, -, -, -⟩ <;> simp
    have e : ((alt dims j g x : ℝ) : ℂ) * (dims.prod : ℂ) = 0 := by
      unfold alt
      rw [Complex.ofReal_sum, Finset.sum_mul]
      have : ∀ y : Fin dims.prod, ((sgn (coord dims y.val j.val) * g y : ℝ) : ℂ) * (dims.prod : ℂ) =
          ∑ k, fft dims (fun x => (g x : ℂ)) k * ((sgn (coord dims y.val j.val) : ℂ) * cis (phase dims k.val y.val)) := by
        intro y
        have hi := ifft_fft (pos_of_goodDims h) (fun x => (g x : ℂ)) y
        rw [Complex.ofReal_mul, mul_assoc, mul_comm (g y : ℂ), ← hi]
        unfold ifft
        rw [Finset.mul_sum]
        exact Finset.sum_congr rfl fun k _ => by ring
      rw [Finset.sum_congr rfl fun y _ => this y, Finset.sum_comm]
      refine Finset.sum_eq_zero fun k _ => ?_
      rw [← Finset.mul_sum]
      by_cases hk : 2 * coord dims k.val j.val = (dims[j] : ℤ)
      · rw [hq k ⟨j.val, by omega⟩ ((half_iff h k _).mpr ⟨j, rfl, hk⟩), zero_mul]
      · have := wave_cancels h hl j he k hk x
        rw [this, mul_zero]
    rcases mul_eq_zero.mp e with e0 | e0
    · exact_mod_cast e0
    · exact absurd e0 hN
  · intro hb k a hka
    obtain ⟨j, -, hj⟩ := (half_iff h k a).mp hka
    exact fft_of_balanced h hl j g ((balanced_iff j g).mp (hb j (by omega))) k hj

/-- C104: in particular a region made of blocks of two nodes along every axis with an even number of nodes. -/
theorem c104_blocks (h : GoodDims (intDims dims)) (hl : LayoutOk dims) (g : Fin dims.prod → ℝ)
    (hb : ∀ j : Fin dims.length, dims[j] % 2 = 0 → ∀ x y : Fin dims.prod, OnLine dims j x y →
      coord dims x.val j.val / 2 = coord dims y.val j.val / 2 → g x = g y) : Quiet dims g := by
  classical
  rw [c104_quiet_iff h hl]
  intro j he
  rw [balanced_iff]
  intro x
  have hex : ∀ y : Fin dims.prod, ∃ z : Fin dims.prod, ∀ i : Fin dims.length, coord dims z.val i.val =
      if i = j then 4 * (coord dims y.val j.val / 2) + 1 - coord dims y.val j.val else coord dims y.val i.val := by
    intro y
    refine coord_surjective h _ fun i => ?_
    by_cases hi : i = j
    · subst hi
      rw [if_pos rfl]
      have := coord_range h y i
      omega
    · rw [if_neg hi]
      exact coord_range h y i
  choose σ hσ using hex
  have hσj : ∀ y, coord dims (σ y).val j.val = 4 * (coord dims y.val j.val / 2) + 1 - coord dims y.val j.val := by
    intro y
    rw [hσ y j, if_pos rfl]
  have hσo : ∀ y (i : Fin dims.length), i ≠ j → coord dims (σ y).val i.val = coord dims y.val i.val := by
    intro y i hi
    rw [hσ y i, if_neg hi]
  unfold alt
  refine Finset.sum_involution (fun y _ => σ y) ?_ ?_ ?_ ?_
  · intro y hy
    have hg : g y = g (σ y) := hb j he y (σ y) (fun i hi => hσo y i hi) (by rw [hσj]; omega)
    rw [← hg]
    have hs : sgn (coord dims (σ y).val j.val) = -sgn (coord dims y.val j.val) := by
      rw [hσj]
      unfold sgn
      by_cases h0 : coord dims y.val j.val % 2 = 0
      · rw [if_pos h0, if_neg (by omega)]
      · rw [if_neg h0, if_pos (by omega), neg_neg]
    rw [hs]
    ring
  · intro y hy _ e
    have := hσj y
    rw [e] at this
    omega
  · intro y hy
    simp only [Finset.mem_filter, Finset.mem_univ, true_and] at hy ⊢
    intro i hi
    rw [hσo y i hi, hy i hi]
  · intro y hy
    apply coord_injective h
    intro i
    by_cases hi : i = j
    · subst hi
      rw [hσj, hσj]
      omega
    · rw [hσo _ i hi, hσo _ i hi]

/-- A slab of two layers of the four layers of a 4 × 3 domain is made of such blocks. -/
example : Quiet [4, 3] (rows43 1 1 0 0) := by
  have all : ∀ j : Fin [4, 3].length, [4, 3][j] % 2 = 0 → j.val = 0 := by decide
  refine c104_blocks (dims := [4, 3]) ⟨by decide, by decide⟩ trivial _ ?_
  intro j hj x y _ hc
  rw [all j hj] at hc
  have key : ∀ x y : Fin [4, 3].prod, coord [4, 3] x.val 0 / 2 = coord [4, 3] y.val 0 / 2 →
      (x.val < 6 ↔ y.val < 6) := by decide +kernel
  have := key x y hc
  have e : ∀ z : Fin [4, 3].prod, rows43 1 1 0 0 z = if z.val < 6 then 1 else 0 := by
    intro z
    unfold rows43
    by_cases h3 : z.val < 3
    · rw [if_pos h3, if_pos (by omega)]
    · rw [if_neg h3]
      simp
  rw [e, e]
  simp only [this]

end Gopf.Props
