import Verif.Spec.Symmetry
import Verif.Proofs.Layout
import Verif.Proofs.Hermitian
import Mathlib.Data.Int.ModEq
import Mathlib.Data.List.GetD
import Mathlib.Data.Fintype.EquivFin

namespace Gopf.Pfutil
open Spec Pf

variable {dims : List ℕ}

theorem coord_pos (h : GoodDims (intDims dims)) (x : Fin dims.prod) :
    ∃ p, pos (intDims dims) (x.val : ℤ) = some p ∧ InBox (intDims dims) p ∧ p.length = dims.length ∧
      ∀ j : Fin dims.length, coord dims x.val j.val = p.getD j.val 0 := by
  have hx : ((x : ℕ) : Int) < numNodes (intDims dims) := by rw [numNodes_intDims]; exact_mod_cast x.2
  obtain ⟨p, hp, hb, -⟩ := pos_spec h (by omega) hx
  refine ⟨p, hp, hb, ?_, ?_⟩
  · have := hb.length_eq
    simpa [intDims] using this.symm
  · intro j
    unfold intDims at hp
    rw [coord, hp]
    rfl

theorem coord_range (h : GoodDims (intDims dims)) (x : Fin dims.prod) (j : Fin dims.length) :
    0 ≤ coord dims x.val j.val ∧ coord dims x.val j.val < (dims[j] : ℤ) := by
  obtain ⟨p, -, hb, hl, hc⟩ := coord_pos h x
  rw [hc]
  have h2 := (List.forall₂_iff_get.mp hb).2 j.val (by simp [intDims]) (by rw [hl]; exact j.2)
  rw [List.getD_eq_getElem _ _ (by rw [hl]; exact j.2)]
  simpa [intDims] using h2

theorem coord_injective (h : GoodDims (intDims dims)) {x y : Fin dims.prod}
    (he : ∀ j : Fin dims.length, coord dims x.val j.val = coord dims y.val j.val) : x = y := by
  have hx : ((x : ℕ) : Int) < numNodes (intDims dims) := by rw [numNodes_intDims]; exact_mod_cast x.2
  have hy : ((y : ℕ) : Int) < numNodes (intDims dims) := by rw [numNodes_intDims]; exact_mod_cast y.2
  obtain ⟨p, hp, -, hl, hc⟩ := coord_pos h x
  obtain ⟨q, hq, -, hl', hc'⟩ := coord_pos h y
  obtain ⟨p', hp', -, hn⟩ := pos_spec h (by omega) hx
  obtain ⟨q', hq', -, hn'⟩ := pos_spec h (by omega) hy
  rw [hp] at hp'
  rw [hq] at hq'
  obtain rfl := Option.some.inj hp'
  obtain rfl := Option.some.inj hq'
  have : p = q := by
    apply List.ext_getElem (by rw [hl, hl'])
    intro j h1 h2
    have := he ⟨j, by rw [← hl]; exact h1⟩
    rw [hc, hc', List.getD_eq_getElem _ _ h1, List.getD_eq_getElem _ _ h2] at this
    exact this
  subst this
  rw [hn] at hn'
  have := Option.some.inj hn'
  apply Fin.ext
  exact_mod_cast this

theorem coord_surjective (h : GoodDims (intDims dims)) (c : Fin dims.length → ℤ)
    (hc : ∀ j, 0 ≤ c j ∧ c j < (dims[j] : ℤ)) :
    ∃ x : Fin dims.prod, ∀ j : Fin dims.length, coord dims x.val j.val = c j := by
  have hb : InBox (intDims dims) (List.ofFn c) := by
    refine List.forall₂_iff_get.mpr ⟨by simp [intDims], ?_⟩
    intro i h1 h2
    have := hc ⟨i, by simpa using h2⟩
    simpa [intDims] using this
  obtain ⟨n, -, h0, h1, hp⟩ := nodeIdx_spec h hb
  rw [numNodes_intDims] at h1
  refine ⟨⟨n.toNat, by omega⟩, ?_⟩
  intro j
  have e : ((n.toNat : ℕ) : ℤ) = n := by omega
  unfold intDims at hp
  rw [coord, e, hp]
  simp

theorem freqOf_coord (h : GoodDims (intDims dims)) (b : Fin dims.prod) :
    freqOf dims b = List.ofFn fun j : Fin dims.length => ((phi (coord dims b.val j.val) (dims[j] : ℤ) : ℚ) : ℝ) := by
  have hb : ((b : ℕ) : Int) < numNodes (intDims dims) := by rw [numNodes_intDims]; exact_mod_cast b.2
  obtain ⟨p, hp, -, hl, hc⟩ := coord_pos h b
  have hf := freq_eq h (by omega) hb hp
  unfold freqOf
  unfold intDims at hf
  rw [hf]
  apply List.ext_getElem
  · simp [hl]
  · intro j h1 h2
    have hj : j < dims.length := by simpa using h2
    have := hc ⟨j, hj⟩
    dsimp only at this
    simp [this, hl, hj]

theorem cis_phase_coord (h : GoodDims (intDims dims)) (hl : LayoutOk dims) (b x : Fin dims.prod) :
    cis (-phase dims b.val x.val) =
      cis (-∑ j : Fin dims.length, (coord dims b.val j.val : ℚ) * coord dims x.val j.val / dims[j]) := by
  have hb : ((b : ℕ) : Int) < numNodes (intDims dims) := by rw [numNodes_intDims]; exact_mod_cast b.2
  obtain ⟨p, hp, -, hpl, hc⟩ := coord_pos h b
  obtain ⟨q, hq, -, hql, hc'⟩ := coord_pos h x
  have hf := freq_eq h (by omega) hb hp
  obtain ⟨m, hm⟩ := dot_codePhase h b.2 x.2 hf hq
  rw [phase_codePhase hl (pos_of_goodDims h) b.2 x.2]
  apply cis_congr
  simp only [hc, hc']
  have key : ∃ z : ℤ, dot (List.zipWith phi p (intDims dims)) q =
      ∑ j : Fin dims.length, ((p.getD j.val 0 : ℤ) : ℚ) * ((q.getD j.val 0 : ℤ) : ℚ) / dims[j] + z := by
    clear hm hf hb hc hc' hp hq
    rcases goodDims_nat h with ⟨d0, d1, rfl, -, -⟩ | ⟨d0, d1, d2, rfl, -, -, -⟩
    · obtain ⟨p0, p1, rfl⟩ := List.length_eq_two.mp hpl
      obtain ⟨q0, q1, rfl⟩ := List.length_eq_two.mp hql
      obtain ⟨m0, e0⟩ := phi_int p0 d0
      obtain ⟨m1, e1⟩ := phi_int p1 d1
      refine ⟨m0 * q0 + m1 * q1, ?_⟩
      simp only [dot, intDims, List.map_cons, List.map_nil, List.zipWith_cons_cons, List.zipWith_nil_left,
        List.sum_cons, List.sum_nil, Int.ofNat_eq_natCast, e0, e1]
      have e : ∑ j : Fin [d0, d1].length, (([p0, p1].getD j.val 0 : ℤ) : ℚ) * (([q0, q1].getD j.val 0 : ℤ) : ℚ) /
          (([d0, d1][j] : ℕ) : ℚ) = (p0 : ℚ) * q0 / d0 + (p1 : ℚ) * q1 / d1 := Fin.sum_univ_two _
      rw [e]
      push_cast
      ring
    · obtain ⟨p0, p1, p2, rfl⟩ := List.length_eq_three.mp hpl
      obtain ⟨q0, q1, q2, rfl⟩ := List.length_eq_three.mp hql
      obtain ⟨m0, e0⟩ := phi_int p0 d0
      obtain ⟨m1, e1⟩ := phi_int p1 d1
      obtain ⟨m2, e2⟩ := phi_int p2 d2
      refine ⟨m0 * q0 + m1 * q1 + m2 * q2, ?_⟩
      simp only [dot, intDims, List.map_cons, List.map_nil, List.zipWith_cons_cons, List.zipWith_nil_left,
        List.sum_cons, List.sum_nil, Int.ofNat_eq_natCast, e0, e1, e2]
      have e : ∑ j : Fin [d0, d1, d2].length, (([p0, p1, p2].getD j.val 0 : ℤ) : ℚ) * (([q0, q1, q2].getD j.val 0 : ℤ) : ℚ) /
          (([d0, d1, d2][j] : ℕ) : ℚ) = (p0 : ℚ) * q0 / d0 + (p1 : ℚ) * q1 / d1 + (p2 : ℚ) * q2 / d2 := Fin.sum_univ_three _
      rw [e]
      push_cast
      ring
  obtain ⟨z, hz⟩ := key
  rw [hz] at hm
  refine ⟨m - z, ?_⟩
  push_cast
  linarith

/-- Every symmetry is realised by a permutation of the nodes. -/
theorem exists_moves (h : GoodDims (intDims dims)) (g : GridSymmetry dims) :
    ∃ τ : Equiv.Perm (Fin dims.prod), g.Moves τ := by
  have hd : ∀ j : Fin dims.length, (0 : ℤ) < dims[j] := by
    intro j
    exact_mod_cast pos_of_goodDims h _ (List.getElem_mem j.2)
  have hex : ∀ x : Fin dims.prod, ∃ y : Fin dims.prod, ∀ j : Fin dims.length, coord dims y.val j.val =
      (g.sign j * coord dims x.val (g.axis j).val + g.offset j) % (dims[j] : ℤ) := fun x =>
    coord_surjective h _ fun j => ⟨Int.emod_nonneg _ (hd j).ne', Int.emod_lt_of_pos _ (hd j)⟩
  choose f hf using hex
  have hinj : Function.Injective f := by
    intro x y hxy
    apply coord_injective h
    intro k
    obtain ⟨j, rfl⟩ := g.axis.surjective k
    have e : (g.sign j * coord dims x.val (g.axis j).val + g.offset j) ≡
        (g.sign j * coord dims y.val (g.axis j).val + g.offset j) [ZMOD dims[j]] := by
      have h1 := hf x j
      have h2 := hf y j
      rw [hxy] at h1
      exact h1.symm.trans h2
    have e2 := Int.ModEq.add_right_cancel' _ e
    obtain ⟨x0, x1⟩ := coord_range h x (g.axis j)
    obtain ⟨y0, y1⟩ := coord_range h y (g.axis j)
    rw [g.sides] at x1 y1
    have e3 : coord dims x.val (g.axis j).val ≡ coord dims y.val (g.axis j).val [ZMOD dims[j]] := by
      rcases g.unit j with hs | hs
      · rw [hs, one_mul, one_mul] at e2
        exact e2
      · rw [hs, neg_one_mul, neg_one_mul] at e2
        simpa using e2.neg
    have := e3
    rw [Int.ModEq, Int.emod_eq_of_lt x0 x1, Int.emod_eq_of_lt y0 y1] at this
    exact this
  refine ⟨Equiv.ofBijective f (Finite.injective_iff_bijective.mp hinj), ?_⟩
  intro x j
  rw [Equiv.ofBijective_apply, hf]
  exact Int.mod_modEq _ _

/-- There is a translation from every node to every other one. -/
theorem exists_translation (h : GoodDims (intDims dims)) (x y : Fin dims.prod) :
    ∃ (a : Fin dims.length → ℤ) (τ : Equiv.Perm (Fin dims.prod)), (translation dims a).Moves τ ∧ τ x = y := by
  obtain ⟨τ, hτ⟩ := exists_moves h
    (translation dims fun j : Fin dims.length => coord dims y.val j.val - coord dims x.val j.val)
  refine ⟨_, τ, hτ, coord_injective h fun j => ?_⟩
  have := hτ x j
  simp only [translation, Equiv.refl_apply, one_mul, add_sub_cancel] at this
  obtain ⟨a0, a1⟩ := coord_range h (τ x) j
  obtain ⟨b0, b1⟩ := coord_range h y j
  rwa [Int.ModEq, Int.emod_eq_of_lt a0 a1, Int.emod_eq_of_lt b0 b1] at this

/-- The action of a symmetry on the bins. -/
def binSymmetry (g : GridSymmetry dims) : GridSymmetry dims where
  axis := g.axis.symm
  sides := fun j => by
    obtain ⟨k, rfl⟩ := g.axis.surjective j
    simp only [Equiv.symm_apply_apply]
    exact (g.sides k).symm
  sign := fun j => g.sign (g.axis.symm j)
  unit := fun j => g.unit _
  offset := fun _ => 0

theorem phi_sign {x y d e : ℤ} (hx : 0 ≤ x ∧ x < d) (hy : 0 ≤ y ∧ y < d) (he : e = 1 ∨ e = -1)
    (h : y ≡ e * x [ZMOD d]) : phi y d ^ 2 = phi x d ^ 2 := by
  rcases he with rfl | rfl
  · rw [one_mul, Int.ModEq, Int.emod_eq_of_lt hx.1 hx.2, Int.emod_eq_of_lt hy.1 hy.2] at h
    rw [h]
  · have e : y = (d - x) % d := by
      rw [← Int.emod_eq_of_lt hy.1 hy.2, h]
      rw [neg_one_mul, sub_eq_add_neg, Int.add_emod, Int.emod_self, zero_add, Int.emod_emod]
    rw [e]
    rcases phi_conj hx.1 hx.2 with e | ⟨e0, e⟩
    · rw [e]; ring
    · rw [e, phi_half (hx.1.trans_lt hx.2) e0]; norm_num

/-- What a symmetry of the nodes does to the kernel of the transform and to the frequencies. -/
theorem exists_bins (h : GoodDims (intDims dims)) (hl : LayoutOk dims) {g : GridSymmetry dims}
    {τ : Equiv.Perm (Fin dims.prod)} (hτ : g.Moves τ) :
    ∃ (κ : Equiv.Perm (Fin dims.prod)) (w : Fin dims.prod → ℂ),
      (∀ k x, cis (-phase dims k.val (τ x).val) = w k * cis (-phase dims (κ k).val x.val)) ∧
      (∀ k, w k ≠ 0) ∧
      ∀ k, ((freqOf dims (κ k)).map fun x => x ^ 2).sum = ((freqOf dims k).map fun x => x ^ 2).sum := by
  obtain ⟨κ, hκ⟩ := exists_moves h (binSymmetry g)
  have hd : ∀ j : Fin dims.length, (0 : ℚ) < dims[j] := by
    intro j
    exact_mod_cast pos_of_goodDims h _ (List.getElem_mem j.2)
  have hκ' : ∀ (k : Fin dims.prod) (j : Fin dims.length), coord dims (κ k).val (g.axis j).val ≡ g.sign j * coord dims k.val j.val [ZMOD dims[j]] := by
    intro k j
    have := hκ k (g.axis j)
    simp only [binSymmetry, Equiv.symm_apply_apply, add_zero, g.sides] at this
    exact this
  refine ⟨κ, fun k => cis (-∑ j : Fin dims.length, (coord dims k.val j.val : ℚ) * g.offset j / dims[j]), ?_, ?_, ?_⟩
  · intro k x
    rw [cis_phase_coord h hl, cis_phase_coord h hl, ← cis_add]
    apply cis_congr
    rw [← Equiv.sum_comp g.axis fun j : Fin dims.length =>
      (coord dims (κ k).val j.val : ℚ) * coord dims x.val j.val / dims[j]]
    have hz : ∀ j : Fin dims.length, ∃ z : ℤ, (coord dims (τ x).val j.val : ℚ) =
        g.sign j * coord dims x.val (g.axis j).val + g.offset j + dims[j] * z := by
      intro j
      obtain ⟨z, hz⟩ := (hτ x j).symm.dvd
      refine ⟨z, ?_⟩
      have : coord dims (τ x).val j.val =
        g.sign j * coord dims x.val (g.axis j).val + g.offset j + dims[j] * z := by linarith
      rw [this]; push_cast; ring
    have hz' : ∀ j : Fin dims.length, ∃ z : ℤ, (coord dims (κ k).val (g.axis j).val : ℚ) =
        g.sign j * coord dims k.val j.val + dims[j] * z := by
      intro j
      obtain ⟨z, hz⟩ := (hκ' k j).symm.dvd
      refine ⟨z, ?_⟩
      have : coord dims (κ k).val (g.axis j).val = g.sign j * coord dims k.val j.val + dims[j] * z := by linarith
      rw [this]; push_cast; ring
    choose z hz using hz
    choose z' hz' using hz'
    refine ⟨∑ j : Fin dims.length, (z' j * coord dims x.val (g.axis j).val - coord dims k.val j.val * z j), ?_⟩
    rw [← Finset.sum_neg_distrib, ← Finset.sum_neg_distrib, ← Finset.sum_neg_distrib, Int.cast_sum,
      ← Finset.sum_add_distrib, ← Finset.sum_add_distrib]
    refine Finset.sum_congr rfl fun j _ => ?_
    have hs : (dims[g.axis j] : ℚ) = dims[j] := by rw [g.sides]
    have hne := (hd j).ne'
    rw [hz, hz', hs]
    push_cast
    field_simp
    ring
  · intro k hk
    have := cis_neg_mul (∑ j : Fin dims.length, (coord dims k.val j.val : ℚ) * g.offset j / dims[j])
    dsimp only at hk
    rw [hk, zero_mul] at this
    exact zero_ne_one this
  · intro k
    rw [freqOf_coord h, freqOf_coord h]
    simp only [List.map_ofFn, List.sum_ofFn, Function.comp_def]
    rw [← Equiv.sum_comp g.axis]
    refine Finset.sum_congr rfl fun j _ => ?_
    have hs : dims[g.axis j] = dims[j] := g.sides j
    have hr := coord_range h (κ k) (g.axis j)
    rw [hs] at hr ⊢
    have := phi_sign (coord_range h k j) hr (g.unit j) (hκ' k j)
    exact_mod_cast this

end Gopf.Pfutil
