import Verif.Model.ImplicitEuler
import Verif.Props.Reality
import Mathlib.Tactic.Ring

/-!
# Lemmas about the vectors of the implicit stepper
-/

namespace Gopf.Pf
open Pfutil Spec

variable {nf nd n : ℕ} {K : Type}

theorem foldl_write_mem {α : Type} {g : α → ℕ} (hg : Function.Injective g) (v : α → K) :
    ∀ (l : List α) (out : SolverVec K) (a : α), a ∈ l →
      l.foldl (fun (out : SolverVec K) (a : α) => Function.update out (g a) (v a)) out (g a) = v a := by
  intro l
  induction l using List.reverseRecOn with
  | nil => intro out a ha; simp at ha
  | append_singleton l b ih =>
    intro out a ha
    rw [List.foldl_append, List.foldl_cons, List.foldl_nil]
    by_cases h : a = b
    · subst h; simp
    · rw [Function.update_of_ne (fun e => h (hg e))]
      exact ih out a (by simpa [h] using ha)

theorem foldl_write_not {α : Type} (g : α → ℕ) (v : α → K) (idx : ℕ) :
    ∀ (l : List α) (out : SolverVec K), (∀ a ∈ l, g a ≠ idx) →
      l.foldl (fun (out : SolverVec K) (a : α) => Function.update out (g a) (v a)) out idx = out idx := by
  intro l
  induction l with
  | nil => intro out _; rfl
  | cons b l ih =>
    intro out h
    rw [List.foldl_cons, ih _ (fun a ha => h a (by simp [ha])),
      Function.update_of_ne (fun e => h b (by simp) e.symm)]

/-- The position of entry `j` of field `i`. -/
def flatIdx (p : Fin nf × Fin n) : ℕ := p.1.val * n + p.2.val

theorem flatIdx_injective : Function.Injective (flatIdx (nf := nf) (n := n)) := by
  rintro ⟨i, j⟩ ⟨i', j'⟩ h
  simp only [flatIdx] at h
  have hj := j.2
  have hj' := j'.2
  have h1 : (i.val * n + j.val) / n = (i'.val * n + j'.val) / n := by rw [h]
  rw [Nat.mul_comm i.val, Nat.mul_comm i'.val, Nat.mul_add_div (by omega), Nat.mul_add_div (by omega),
    Nat.div_eq_of_lt hj, Nat.div_eq_of_lt hj'] at h1
  have hi : i = i' := Fin.ext (by omega)
  subst hi
  exact Prod.ext rfl (Fin.ext (by simpa using h))

theorem flatIdx_lt (p : Fin nf × Fin n) : flatIdx p < nf * n := by
  have h1 := p.1.2
  have h2 := p.2.2
  unfold flatIdx
  calc p.1.val * n + p.2.val < p.1.val * n + n := by omega
    _ = (p.1.val + 1) * n := by ring
    _ ≤ nf * n := Nat.mul_le_mul_right _ h1

theorem flatIdx_surj {idx : ℕ} (h : idx < nf * n) : ∃ p : Fin nf × Fin n, flatIdx p = idx := by
  have hn : 0 < n := Nat.pos_of_ne_zero (by rintro rfl; simp at h)
  refine ⟨(⟨idx / n, Nat.div_lt_of_lt_mul (by rwa [Nat.mul_comm])⟩, ⟨idx % n, Nat.mod_lt _ hn⟩), ?_⟩
  simp only [flatIdx]
  rw [Nat.mul_comm]
  exact Nat.div_add_mod idx n

/-- Nested loops that write entry `j` of field `i` at its position. -/
theorem nested_write (v : Fin nf × Fin n → K) (out : SolverVec K) (p : Fin nf × Fin n) :
    (List.finRange nf).foldl (fun (out : SolverVec K) (i : Fin nf) =>
      (List.finRange n).foldl (fun (out : SolverVec K) (j : Fin n) =>
        Function.update out (i.val * n + j.val) (v (i, j))) out) out (flatIdx p) = v p := by
  have e : ∀ (l : List (Fin nf)) (out : SolverVec K),
      l.foldl (fun (out : SolverVec K) (i : Fin nf) =>
        (List.finRange n).foldl (fun (out : SolverVec K) (j : Fin n) =>
          Function.update out (i.val * n + j.val) (v (i, j))) out) out =
      (l.flatMap fun i => (List.finRange n).map fun j => (i, j)).foldl
        (fun (out : SolverVec K) (p : Fin nf × Fin n) => Function.update out (flatIdx p) (v p)) out := by
    intro l
    induction l with
    | nil => intro out; rfl
    | cons i l ih =>
      intro out
      rw [List.foldl_cons, ih, List.flatMap_cons, List.foldl_append, List.foldl_map]
      rfl
  rw [e]
  apply foldl_write_mem flatIdx_injective
  simp

theorem fields2vec_apply (fields : Fin nf → Data n) (out : SolverVec ℝ) (p : Fin nf × Fin n) :
    fields2vec fields out (flatIdx p) = (fields p.1 p.2).re := by
  unfold fields2vec fieldData2vec
  exact nested_write (fun p => (fields p.1 p.2).re) out p

theorem collectRHS_apply (m : Model nf nd n) (s : Stepper n) (st : Store nf nd n) (p : Fin nf × Fin n) :
    collectRHS m s st (flatIdx p) = m.getRHS p.1 st s.freq (ieTime s) p.2 :=
  nested_write (fun p => m.getRHS p.1 st s.freq (ieTime s) p.2) _ p

theorem vec2fields_inner (vec : SolverVec ℝ) (i : Fin nf) : ∀ (l : List (Fin n)), l.Nodup →
    ∀ (c : ℕ) (F : Fin nf → Data n),
    l.foldl (fun (p : ℕ × (Fin nf → Data n)) (j : Fin n) =>
      (p.1 + 1, Function.update p.2 i (Function.update (p.2 i) j ((vec p.1 : ℝ) : ℂ)))) (c, F) =
    (c + l.length, Function.update F i fun j => if j ∈ l then ((vec (c + l.idxOf j) : ℝ) : ℂ) else F i j) := by
  intro l
  induction l with
  | nil => intro _ c F; simp
  | cons a l ih =>
    intro hl c F
    rw [List.nodup_cons] at hl
    rw [List.foldl_cons, ih hl.2]
    refine Prod.ext ?_ ?_
    · simp only [List.length_cons]; omega
    · simp only [Function.update_self, Function.update_idem]
      congr 1
      funext j
      by_cases hj : j = a
      · subst hj
        simp [hl.1]
      · rw [Function.update_of_ne hj]
        by_cases hm : j ∈ l
        · rw [if_pos hm, if_pos (by simp [hm]), List.idxOf_cons_ne _ (fun e => hj e.symm)]
          congr 2; omega
        · rw [if_neg hm, if_neg (by simp [hm, hj])]

theorem vec2fields_apply (vec : SolverVec ℝ) (fields : Fin nf → Data n) (p : Fin nf × Fin n) :
    vec2fields vec fields p.1 p.2 = ((vec (flatIdx p) : ℝ) : ℂ) := by
  have hinner : ∀ (i : Fin nf) (q : ℕ × (Fin nf → Data n)),
      (List.finRange n).foldl (fun (p : ℕ × (Fin nf → Data n)) (j : Fin n) =>
        (p.1 + 1, Function.update p.2 i (Function.update (p.2 i) j ((vec p.1 : ℝ) : ℂ)))) q =
      (q.1 + n, Function.update q.2 i fun j => ((vec (q.1 + j.val) : ℝ) : ℂ)) := by
    intro i q
    rw [show q = (q.1, q.2) from rfl, vec2fields_inner vec i _ (List.nodup_finRange n)]
    simp
  have houter : ∀ (l : List (Fin nf)), l.Nodup → ∀ (q : ℕ × (Fin nf → Data n)) (i : Fin nf) (j : Fin n),
      (l.foldl (fun (p : ℕ × (Fin nf → Data n)) (i : Fin nf) =>
        (p.1 + n, Function.update p.2 i fun j : Fin n => ((vec (p.1 + j.val) : ℝ) : ℂ))) q).2 i j =
      if i ∈ l then ((vec (q.1 + l.idxOf i * n + j.val) : ℝ) : ℂ) else q.2 i j := by
    intro l
    induction l with
    | nil => intro _ q i j; simp
    | cons a l ih =>
      intro hl q i j
      rw [List.nodup_cons] at hl
      rw [List.foldl_cons, ih hl.2]
      by_cases hi : i = a
      · subst hi
        simp [hl.1]
      · by_cases hm : i ∈ l
        · rw [if_pos hm, if_pos (by simp [hm]), List.idxOf_cons_ne _ (fun e => hi e.symm)]
          congr 2
          rw [Nat.succ_mul]
          omega
        · rw [if_neg hm, if_neg (by simp [hm, hi])]
          simp [Function.update_of_ne hi]
  unfold vec2fields
  simp only [hinner]
  rw [houter _ (List.nodup_finRange nf), if_pos (by simp), List.idxOf_finRange]
  simp [flatIdx]

variable {dims : List ℕ}

/-- The spectrum of the residual of equation `i`. -/
noncomputable def residualSpectrum (m : Model nf nd dims.prod) (s : Stepper dims.prod) (rhsPrev : SolverVec ℂ)
    (orig : Fin nf → Data dims.prod) (st1 : Store nf nd dims.prod) (i : Fin nf) : Data dims.prod :=
  fun j => st1.fields i j - (orig i j * Complex.exp (m.getDenum i st1 s.freq (ieTime s) j * (s.dt : ℂ)) +
    nonlinearIntegral s.dt (m.getDenum i st1 s.freq (ieTime s) j) (m.getRHS i st1 s.freq (ieTime s) j)
      (rhsPrev (i.val * dims.prod + j.val)))

theorem updateEquation_apply (m : Model nf nd dims.prod) (s : Stepper dims.prod) (rhsPrev : SolverVec ℂ)
    (orig : Fin nf → Data dims.prod) (st : Store nf nd dims.prod) (x out : SolverVec ℝ)
    (p : Fin nf × Fin dims.prod) :
    updateEquation m s rhsPrev orig st x out (flatIdx p) =
      (divRealScalar (ifft dims (residualSpectrum m s rhsPrev orig
        (ieFft m { st with fields := vec2fields x st.fields }) p.1)) (dims.prod : ℕ) p.2).re := by
  unfold updateEquation fieldData2vec
  exact nested_write (fun p => (divRealScalar (ifft dims (residualSpectrum m s rhsPrev orig
        (ieFft m { st with fields := vec2fields x st.fields }) p.1)) (dims.prod : ℕ) p.2).re) out p

end Gopf.Pf
