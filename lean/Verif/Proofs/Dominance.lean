import Mathlib.Analysis.Complex.Polynomial.Basic
import Mathlib.LinearAlgebra.Matrix.Charpoly.Eigs
import Mathlib.LinearAlgebra.Matrix.Gershgorin
import Mathlib.LinearAlgebra.Matrix.ToLinearEquiv

/-!
# Eigenvalues of matrices of any size from their entries
-/

namespace Gopf.Proofs

variable {n : Type} [Fintype n] [DecidableEq n] {A : Matrix n n ℂ}

/-- If the real part of every entry on the diagonal and the sizes of the others of its row add up to a negative number,
so are the real parts of the eigenvalues. -/
theorem dominant_inside (h : ∀ i, (∑ j, if j = i then (A i j).re else ‖A i j‖) < 0) {l : ℂ} {w : n → ℂ} (hw : w ≠ 0)
    (hl : A.mulVec w = l • w) : l.re < 0 := by
  have he : Module.End.HasEigenvalue (Matrix.toLin' A) l :=
    Module.End.hasEigenvalue_of_hasEigenvector (x := w) ⟨Module.End.mem_eigenspace_iff.mpr (by rw [Matrix.toLin'_apply, hl]), hw⟩
  obtain ⟨k, hk⟩ := eigenvalue_mem_ball he
  rw [Metric.mem_closedBall, Complex.dist_eq] at hk
  have h1 := h k
  rw [← Finset.add_sum_erase _ _ (Finset.mem_univ k), if_pos rfl] at h1
  have h2 : (∑ j ∈ Finset.univ.erase k, if j = k then (A k j).re else ‖A k j‖) = ∑ j ∈ Finset.univ.erase k, ‖A k j‖ :=
    Finset.sum_congr rfl fun j hj => if_neg (Finset.ne_of_mem_erase hj)
  rw [h2] at h1
  have h3 := Complex.re_le_norm (l - A k k)
  rw [Complex.sub_re] at h3
  linarith

/-- If the real parts on the diagonal add up to a positive number, so is the real part of some eigenvalue. -/
theorem trace_outside (h : 0 < A.trace.re) : ∃ (l : ℂ) (w : n → ℂ), w ≠ 0 ∧ A.mulVec w = l • w ∧ 0 < l.re := by
  have ex : ∃ l ∈ A.charpoly.roots, 0 < l.re := by
    by_contra hcon
    push Not at hcon
    rw [Matrix.trace_eq_sum_roots_charpoly] at h
    have : ∀ s : Multiset ℂ, (∀ l ∈ s, l.re ≤ 0) → s.sum.re ≤ 0 := by
      intro s
      induction s using Multiset.induction with
      | empty => simp
      | cons a s ih =>
        intro hs
        rw [Multiset.sum_cons, Complex.add_re]
        exact add_nonpos (hs a (Multiset.mem_cons_self a s)) (ih fun l hl => hs l (Multiset.mem_cons_of_mem hl))
    exact absurd h (this _ hcon).not_gt
  obtain ⟨l, hl, hpos⟩ := ex
  have hroot := Polynomial.isRoot_of_mem_roots hl
  rw [Polynomial.IsRoot.def, Matrix.eval_charpoly] at hroot
  obtain ⟨w, hw, e⟩ := Matrix.exists_mulVec_eq_zero_iff.mpr hroot
  refine ⟨l, w, hw, ?_, hpos⟩
  rw [Matrix.sub_mulVec, sub_eq_zero] at e
  rw [← e, Matrix.scalar_apply]
  funext i
  rw [Matrix.mulVec_diagonal]
  rfl

end Gopf.Proofs
