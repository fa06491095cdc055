import Verif.Props.Elasticity

/-!
# C79, C80: mechanical equilibrium and the perturbation force
-/

namespace Gopf.Props
open Elasticity
open scoped BigOperators

/-! ## C79 -/

/-- C79: if the stiffness is symmetric in its last pair of indices, the displacement calculated from the
effective force of a misfit strain balances the stress: at every bin whose linear system is regular and
that has no component at the highest frequency, the divergence of the stress
`C : (strain - misfit)` vanishes. -/
theorem c79_equilibrium (r : Rank4) (hr : MinorRight r.get) (misfit : Mat3) (ind : ℂ) {f : Fin 3 → ℝ}
    (hf : ¬ (|f 0| < tol ∧ |f 1| < tol ∧ |f 2| < tol)) (hny : ∀ j, tol ≤ abs (abs (f j) - 1 / 2))
    (hdet : (dispMatrix f r.get).det ≠ 0) (m : Fin 3) :
    let force : Fin 3 → ℂ := fun c => effForce (r.contractLast misfit) c f ind
    let u := displacement force f r.get
    ∑ j, (f j : ℂ) * ∑ k, ∑ l, (r.get (m, j, k, l) : ℂ) * (strain u f k l - (misfit k l : ℂ) * ind) = 0 := by
  intro force u
  have hN : ∀ j, noNyquist (f j) = f j := by
    intro j; unfold noNyquist; rw [if_neg (not_lt.mpr (hny j))]
  have hsolve := (displacement_iff hf hdet force u).mp rfl
  have h := hsolve m
  simp only [force] at h
  rw [effForce_eq] at h
  simp only [dispElem_eq, contractLast_eq] at h
  have hpi : (2 * Real.pi * Complex.I : ℂ) ≠ 0 := by
    have : (Real.pi : ℂ) ≠ 0 := by exact_mod_cast Real.pi_pos.ne'
    exact mul_ne_zero (mul_ne_zero two_ne_zero this) Complex.I_ne_zero
  have hI : Complex.I ^ 2 = -1 := Complex.I_sq
  refine mul_left_cancel₀ hpi ?_
  rw [mul_zero]
  simp only [strain, hN]
  push_cast at h ⊢
  have hs : ∀ j k l, (r.get (m, j, l, k) : ℂ) = r.get (m, j, k, l) := fun j k l => by rw [hr]
  have hI2 : 4 * (Real.pi : ℂ) ^ 2 * (∑ j, ∑ k, ∑ l, (r.get (m, j, k, l) : ℂ) * f j * f l * u k) *
      Complex.I ^ 2 = 4 * (Real.pi : ℂ) ^ 2 *
        (∑ j, ∑ k, ∑ l, (r.get (m, j, k, l) : ℂ) * f j * f l * u k) * (-1) := by rw [hI]
  simp only [Fin.sum_univ_three] at h hI2 ⊢
  simp only [hs _ 0 1, hs _ 0 2, hs _ 1 2] at h hI2 ⊢
  linear_combination (-1 : ℂ) * h + hI2

/-- The hypotheses are met by an isotropic material. -/
example : MinorRight (isotropicOf 60 22.5).get ∧ (dispMatrix ![1/4, 0, 0] (isotropicOf 60 22.5).get).det ≠ 0 ∧
    ∀ j, tol ≤ abs (abs ((![1/4, 0, 0] : Fin 3 → ℝ) j) - 1 / 2) := by
  refine ⟨?_, (c57_positive_definite (by norm_num) (by norm_num) ?_).det_pos.ne', ?_⟩
  · have := (c53_symmetries 60 (1/3)).2.1
    unfold isotropic at this
    rwa [show shear 60 (1/3) = 22.5 by norm_num [shear]] at this
  · intro h
    have := congrFun h 0
    norm_num at this
  · intro j
    fin_cases j <;> norm_num [tol, abs_of_pos, abs_of_neg]

/-- C79: without that symmetry the stress is not balanced: for every tensor of `CubicMaterial` with non-zero `c11` and
`c44` there are a shear misfit and a bin with a regular system at which the divergence of the stress is `-c44/8`. (The
calculated shear strain is half of the one that relaxes the misfit.) -/
theorem c79_cubic_fails (c11 c12 c44 : ℝ) (h11 : c11 ≠ 0) (h44 : c44 ≠ 0) :
    ∃ (misfit : Mat3) (f : Fin 3 → ℝ), misfit.transpose = misfit ∧
    ¬ (|f 0| < tol ∧ |f 1| < tol ∧ |f 2| < tol) ∧ (∀ j, tol ≤ abs (abs (f j) - 1 / 2)) ∧
    (dispMatrix f (cubicMaterial c11 c12 c44).get).det ≠ 0 ∧
    let r := cubicMaterial c11 c12 c44
    let force : Fin 3 → ℂ := fun c => effForce (r.contractLast misfit) c f 1
    let u := displacement force f r.get
    ∑ j, (f j : ℂ) * ∑ k, ∑ l, (r.get (1, j, k, l) : ℂ) * (strain u f k l - (misfit k l : ℂ) * 1) = -c44 / 8 := by
  have hpi : (Real.pi : ℂ) ≠ 0 := by exact_mod_cast Real.pi_pos.ne'
  have hc44 : (c44 : ℂ) ≠ 0 := by exact_mod_cast h44
  have hM : ∀ m n, dispMatrix ![1/4, 0, 0] (cubicMaterial c11 c12 c44).get m n =
      (Real.pi ^ 2 / 4) * (!![c11, 0, 0; 0, c44, 0; 0, 0, c44] : Mat3) m n := by
    intro m n
    unfold dispMatrix
    rw [Matrix.of_apply, dispElem_eq]
    simp only [Fin.sum_univ_three, cubicMaterial_get]
    fin_cases m <;> fin_cases n <;> simp <;> ring
  have hf : ¬ (|(![1/4, 0, 0] : Fin 3 → ℝ) 0| < tol ∧ |(![1/4, 0, 0] : Fin 3 → ℝ) 1| < tol ∧
      |(![1/4, 0, 0] : Fin 3 → ℝ) 2| < tol) := by
    intro h
    have := h.1
    norm_num [tol, abs_of_pos] at this
  have hdet : (dispMatrix ![1/4, 0, 0] (cubicMaterial c11 c12 c44).get).det ≠ 0 := by
    rw [Matrix.det_fin_three]
    simp only [hM]
    simp [h11, h44, Real.pi_pos.ne']
  have hny : ∀ j, tol ≤ abs (abs ((![1/4, 0, 0] : Fin 3 → ℝ) j) - 1 / 2) := by
    intro j
    fin_cases j <;> norm_num [tol, abs_of_pos, abs_of_neg]
  refine ⟨!![0, 1, 0; 1, 0, 0; 0, 0, 0], ![1/4, 0, 0], ?_, hf, hny, hdet, ?_⟩
  · ext i j; fin_cases i <;> fin_cases j <;> rfl
  intro r force u
  have hforce : force = fun c => ![0, -(Real.pi * Complex.I) * c44 / 2, 0] c := by
    funext c
    simp only [force]
    rw [effForce_eq]
    simp only [contractLast_eq, r, Fin.sum_univ_three, cubicMaterial_get]
    fin_cases c <;> simp <;> ring
  have hu : u = ![0, -(2 / Real.pi) * Complex.I, 0] := by
    symm
    refine (displacement_iff hf hdet force _).mpr fun m => ?_
    have hM' : ∀ m n, dispElem m n ![1/4, 0, 0] (cubicMaterial c11 c12 c44).get =
      (Real.pi ^ 2 / 4) * (!![c11, 0, 0; 0, c44, 0; 0, 0, c44] : Mat3) m n := hM
    simp only [hM', hforce, Fin.sum_univ_three]
    fin_cases m <;> simp
    field_simp
    ring
  have hN : ∀ j, noNyquist ((![1/4, 0, 0] : Fin 3 → ℝ) j) = (![1/4, 0, 0] : Fin 3 → ℝ) j := by
    intro j; unfold noNyquist; rw [if_neg (not_lt.mpr (hny j))]
  rw [hu]
  simp only [strain, hN, r, cubicMaterial_get, Fin.sum_univ_three]
  have hI : Complex.I ^ 2 = -1 := Complex.I_sq
  simp
  field_simp
  rw [hI]
  ring

/-- C79: hence, for the tensors of `CubicMaterial` with non-zero `c11`, the stress is balanced for all misfit strains and
bins exactly if `c44` is zero. -/
theorem c79_cubic_iff (c11 c12 c44 : ℝ) (h11 : c11 ≠ 0) :
    (∀ (misfit : Mat3) (ind : ℂ) (f : Fin 3 → ℝ), misfit.transpose = misfit →
      ¬ (|f 0| < tol ∧ |f 1| < tol ∧ |f 2| < tol) → (∀ j, tol ≤ abs (abs (f j) - 1 / 2)) →
      (dispMatrix f (cubicMaterial c11 c12 c44).get).det ≠ 0 → ∀ m,
      let r := cubicMaterial c11 c12 c44
      let force : Fin 3 → ℂ := fun c => effForce (r.contractLast misfit) c f ind
      let u := displacement force f r.get
      ∑ j, (f j : ℂ) * ∑ k, ∑ l, (r.get (m, j, k, l) : ℂ) * (strain u f k l - (misfit k l : ℂ) * ind) = 0) ↔
    c44 = 0 := by
  constructor
  · intro h
    by_contra h44
    obtain ⟨misfit, f, hs, hf, hny, hdet, hval⟩ := c79_cubic_fails c11 c12 c44 h11 h44
    have h0 := h misfit 1 f hs hf hny hdet 1
    dsimp only at h0 hval
    rw [hval] at h0
    have : (c44 : ℂ) ≠ 0 := by exact_mod_cast h44
    exact this (by linear_combination -8 * h0)
  · intro h44 misfit ind f _ hf hny hdet m
    exact c79_equilibrium _ ((c55_minor c11 c12 c44).mpr h44) misfit ind hf hny hdet m

/-! ## C80 -/

/-- C80: the force of the documentation, `-δC_{ijkl} i k_j FT(...)_{kl}`. -/
noncomputable def documentedForce (c : Idx4 → ℝ) (f : Fin 3 → ℝ) (S : Fin 3 → Fin 3 → ℂ) (comp : Fin 3) : ℂ :=
  -∑ q, ∑ i, ∑ j, 2 * Real.pi * Complex.I * (c (comp, q, i, j) : ℂ) * (f q : ℂ) * S i j

private theorem perturbedForce_eq (c : Idx4 → ℝ) (hc : MinorRight c) (f : Fin 3 → ℝ)
    (S : Fin 3 → Fin 3 → ℂ) (hS : ∀ i j, S i j = S j i) (comp : Fin 3) :
    perturbedForce c f S comp = documentedForce c (fun _ => f comp) S comp := by
  have hr : List.finRange 3 = [0, 1, 2] := by decide
  have f0 : (List.finRange 3).filter ((0 : Fin 3) ≤ ·) = [0, 1, 2] := by decide
  have f1 : (List.finRange 3).filter ((1 : Fin 3) ≤ ·) = [1, 2] := by decide
  have f2 : (List.finRange 3).filter ((2 : Fin 3) ≤ ·) = [2] := by decide
  unfold perturbedForce documentedForce
  rw [hr, List.foldl_cons, List.foldl_cons, List.foldl_cons, List.foldl_nil, ← hr, f0, f1, f2]
  simp only [List.foldl_cons, List.foldl_nil, perturbedPart, hr, Fin.sum_univ_three]
  rw [hS 1 0, hS 2 0, hS 2 1]
  have h10 : ∀ q, c (comp, q, 1, 0) = c (comp, q, 0, 1) := fun q => hc comp q 0 1
  have h20 : ∀ q, c (comp, q, 2, 0) = c (comp, q, 0, 2) := fun q => hc comp q 0 2
  have h21 : ∀ q, c (comp, q, 2, 1) = c (comp, q, 1, 2) := fun q => hc comp q 1 2
  simp only [h10, h20, h21]
  simp
  ring

/-- C80: the calculated force is the documented one for all wave vectors and strains exactly if all
elements `c (comp, q, i, j)` with `q ≠ comp` vanish: the derivative is taken along the component of the
force instead of along the contracted index. -/
theorem c80_perturbed_force (c : Idx4 → ℝ) (hc : MinorRight c) (comp : Fin 3) :
    (∀ (f : Fin 3 → ℝ) (S : Fin 3 → Fin 3 → ℂ), (∀ i j, S i j = S j i) →
      perturbedForce c f S comp = documentedForce c f S comp) ↔
    ∀ q i j, q ≠ comp → c (comp, q, i, j) = 0 := by
  constructor
  · intro h q i j hq
    have hS : ∀ a b, (fun a b : Fin 3 => if a = i ∧ b = j ∨ a = j ∧ b = i then (1 : ℂ) else 0) a b =
        (fun a b : Fin 3 => if a = i ∧ b = j ∨ a = j ∧ b = i then (1 : ℂ) else 0) b a := by
      intro a b
      have : (a = i ∧ b = j ∨ a = j ∧ b = i) ↔ (b = i ∧ a = j ∨ b = j ∧ a = i) := by tauto
      simp only [this]
    have h1 := h (Pi.single q 1) _ hS
    rw [perturbedForce_eq c hc _ _ hS] at h1
    have hz : (Pi.single q 1 : Fin 3 → ℝ) comp = 0 := by simp [hq.symm]
    unfold documentedForce at h1
    rw [hz] at h1
    simp only [Complex.ofReal_zero, mul_zero, zero_mul, Finset.sum_const_zero, neg_zero] at h1
    rw [Finset.sum_eq_single q] at h1
    · simp only [Pi.single_eq_same, Complex.ofReal_one, mul_one, mul_ite, mul_zero] at h1
      have hpi : (Real.pi : ℂ) ≠ 0 := by exact_mod_cast Real.pi_pos.ne'
      have hij := hc comp q i j
      by_cases hijn : i = j
      · subst hijn
        rw [Finset.sum_eq_single i (by intro a _ ha; simp [ha]) (by simp),
          Finset.sum_eq_single i (by intro a _ ha; simp [ha]) (by simp)] at h1
        simpa [hpi, Complex.I_ne_zero] using h1
      · have h2 : ∑ a, ∑ b, (if a = i ∧ b = j ∨ a = j ∧ b = i then
            2 * (Real.pi : ℂ) * Complex.I * (c (comp, q, a, b) : ℂ) else 0) =
            2 * (Real.pi : ℂ) * Complex.I * (c (comp, q, i, j) : ℂ) +
              2 * (Real.pi : ℂ) * Complex.I * (c (comp, q, j, i) : ℂ) := by
          have hji : ¬ j = i := fun h => hijn h.symm
          rw [← Finset.sum_erase_add _ _ (Finset.mem_univ i), add_comm]
          congr 1
          · rw [Finset.sum_eq_single j (by intro b _ hb; simp [hb, hijn]) (by simp)]
            simp
          · rw [Finset.sum_eq_single j]
            · rw [Finset.sum_eq_single i (by intro b _ hb; simp [hb, hji]) (by simp)]
              simp
            · intro a ha haj
              have hai := (Finset.mem_erase.mp ha).1
              simp [hai, haj]
            · intro hn
              exact absurd (Finset.mem_erase.mpr ⟨hji, Finset.mem_univ j⟩) hn
        rw [h2, hij] at h1
        have h3 : 2 * (Real.pi : ℂ) * Complex.I * (c (comp, q, i, j) : ℂ) = 0 := by
          linear_combination (1/2 : ℂ) * h1
        simpa [hpi, Complex.I_ne_zero] using h3
    · intro b _ hb
      refine Finset.sum_eq_zero fun a _ => Finset.sum_eq_zero fun d _ => ?_
      simp [Pi.single_apply, hb]
    · simp
  · intro h f S hS
    rw [perturbedForce_eq c hc f S hS]
    unfold documentedForce
    congr 1
    refine Finset.sum_congr rfl fun q _ => Finset.sum_congr rfl fun i _ => Finset.sum_congr rfl fun j _ => ?_
    by_cases hq : q = comp
    · rw [hq]
    · rw [h q i j hq]; simp

/-- C80: it is wrong for every isotropic material with a non-zero shear modulus. -/
theorem c80_isotropic_fails (b s : ℝ) (hs : s ≠ 0) (comp : Fin 3) :
    ¬ ∀ (f : Fin 3 → ℝ) (S : Fin 3 → Fin 3 → ℂ), (∀ i j, S i j = S j i) →
      perturbedForce (isotropicOf b s).get f S comp = documentedForce (isotropicOf b s).get f S comp := by
  have hm : MinorRight (isotropicOf b s).get := by
    intro i j k l
    have sy : (1 : Mat3) l k = (1 : Mat3) k l := by simp only [Matrix.one_apply, eq_comm]
    rw [isotropicOf_get, isotropicOf_get, sy]; ring
  rw [c80_perturbed_force _ hm]
  intro h
  have h1 := h (comp + 1) comp (comp + 1) (by fin_cases comp <;> decide)
  rw [isotropicOf_get] at h1
  fin_cases comp <;> simp [Matrix.one_apply] at h1 <;> exact hs h1

end Gopf.Props
