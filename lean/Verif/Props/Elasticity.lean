import Verif.Proofs.Elasticity
import Mathlib.Analysis.Matrix.PosDef
import Mathlib.Tactic.Linarith
import Mathlib.Tactic.NormNum
import Mathlib.Tactic.Positivity
import Mathlib.Tactic.FieldSimp
import Mathlib.Tactic.LinearCombination

/-!
# C51–C57: elasticity
-/

namespace Gopf.Props
open Elasticity
open scoped BigOperators Kronecker

/-! ## C51 -/

/-- C51: the flat index is a bijection between index tuples and storage positions. -/
theorem c51_index : Function.Bijective indexF := by
  refine (Fintype.bijective_iff_injective_and_card _).mpr ⟨indexF_injective, ?_⟩
  simp

/-- C51: after any history of writes, reading a position returns what the last write to this position
wrote, and the original value if there was none. -/
theorem c51_history (r : Rank4) (writes : List (Idx4 × ℝ)) (t : Idx4) :
    (writes.foldl (fun (r : Rank4) w => r.set w.1 w.2) r).get t =
      (((writes.filter (fun w => w.1 = t)).getLast?).map Prod.snd).getD (r.get t) := by
  induction writes using List.reverseRecOn with
  | nil => simp
  | append_singleton l w ih =>
    rw [List.foldl_append, List.foldl_cons, List.foldl_nil, get_set, ih, List.filter_append]
    by_cases h : w.1 = t
    · simp [h]
    · have h' : ¬ t = w.1 := fun e => h e.symm
      simp [h, h']

example : ((newRank4.set (0, 1, 2, 0) 5).set (0, 1, 2, 1) 7).get (0, 1, 2, 0) = 5 := by
  simp [get_set]

/-! ## C52 -/

/-- The matrix acting on all four indices. -/
private def K4 (R : Mat3) : Matrix Idx4 Idx4 ℝ := R ⊗ₖ (R ⊗ₖ (R ⊗ₖ R))

private theorem rotate_eq (r : Rank4) (R : Mat3) : (r.rotate R).get = (K4 R).mulVec r.get := by
  funext t
  rw [get_rotate]
  unfold K4 Matrix.mulVec dotProduct
  refine Finset.sum_congr rfl fun u _ => ?_
  simp only [Matrix.kroneckerMap_apply]
  ring

private theorem K4_mul (A B : Mat3) : K4 (A * B) = K4 A * K4 B := by
  unfold K4
  simp only [Matrix.mul_kronecker_mul]

private theorem K4_one : K4 1 = 1 := by
  unfold K4
  simp only [Matrix.one_kronecker_one]

private theorem K4_transpose (A : Mat3) : K4 A.transpose = (K4 A).transpose := by
  unfold K4
  simp only [Matrix.kroneckerMap_transpose]

/-- C52: rotation by the identity changes nothing. -/
theorem c52_identity (r : Rank4) (t : Idx4) : (r.rotate 1).get t = r.get t := by
  rw [rotate_eq, K4_one, Matrix.one_mulVec]

/-- C52: rotating by `R1` and then by `R2` is rotating by `R2 R1`. -/
theorem c52_compose (r : Rank4) (R1 R2 : Mat3) (t : Idx4) :
    ((r.rotate R1).rotate R2).get t = (r.rotate (R2 * R1)).get t := by
  rw [rotate_eq, rotate_eq, rotate_eq, Matrix.mulVec_mulVec, K4_mul]

/-- Symmetry in the first pair of indices. -/
def MinorLeft (c : Idx4 → ℝ) : Prop := ∀ i j k l, c (j, i, k, l) = c (i, j, k, l)
/-- Symmetry in the last pair of indices. -/
def MinorRight (c : Idx4 → ℝ) : Prop := ∀ i j k l, c (i, j, l, k) = c (i, j, k, l)
/-- Symmetry under exchange of the pairs. -/
def Major (c : Idx4 → ℝ) : Prop := ∀ i j k l, c (k, l, i, j) = c (i, j, k, l)

/-- C52: all three symmetries survive rotation by any matrix. -/
theorem c52_symmetries (r : Rank4) (R : Mat3) :
    (MinorLeft r.get → MinorLeft (r.rotate R).get) ∧ (MinorRight r.get → MinorRight (r.rotate R).get) ∧
      (Major r.get → Major (r.rotate R).get) := by
  refine ⟨fun h i j k l => ?_, fun h i j k l => ?_, fun h i j k l => ?_⟩ <;>
    rw [get_rotate, get_rotate, sum_idx, sum_idx] <;> simp only
  · rw [Finset.sum_comm]
    refine Finset.sum_congr rfl fun a _ => Finset.sum_congr rfl fun b _ =>
      Finset.sum_congr rfl fun c _ => Finset.sum_congr rfl fun d _ => ?_
    rw [h a b c d]; ring
  · refine Finset.sum_congr rfl fun a _ => Finset.sum_congr rfl fun b _ => ?_
    rw [Finset.sum_comm]
    refine Finset.sum_congr rfl fun c _ => Finset.sum_congr rfl fun d _ => ?_
    rw [h a b c d]; ring
  · have : ∀ F : Fin 3 → Fin 3 → Fin 3 → Fin 3 → ℝ,
        ∑ a, ∑ b, ∑ c, ∑ d, F a b c d = ∑ c, ∑ d, ∑ a, ∑ b, F a b c d := by
      intro F
      calc ∑ a, ∑ b, ∑ c, ∑ d, F a b c d = ∑ a, ∑ c, ∑ b, ∑ d, F a b c d :=
            Finset.sum_congr rfl fun a _ => Finset.sum_comm
        _ = ∑ c, ∑ a, ∑ b, ∑ d, F a b c d := Finset.sum_comm
        _ = ∑ c, ∑ a, ∑ d, ∑ b, F a b c d :=
            Finset.sum_congr rfl fun c _ => Finset.sum_congr rfl fun a _ => Finset.sum_comm
        _ = ∑ c, ∑ d, ∑ a, ∑ b, F a b c d :=
            Finset.sum_congr rfl fun c _ => Finset.sum_comm
    rw [this]
    refine Finset.sum_congr rfl fun a _ => Finset.sum_congr rfl fun b _ =>
      Finset.sum_congr rfl fun c _ => Finset.sum_congr rfl fun d _ => ?_
    rw [h a b c d]; ring

/-- C52: the energy density does not change if tensor and strain are rotated by the same orthogonal
matrix. -/
theorem c52_energy (r : Rank4) (R e : Mat3) (hR : R.transpose * R = 1) :
    energyDensity (r.rotate R).get (R * e * R.transpose) = energyDensity r.get e := by
  rw [energyDensity_eq, energyDensity_eq]
  refine congrArg (fun x : ℝ => 1 / 2 * x) ?_
  let ee : Mat3 → Idx4 → ℝ := fun e t => e t.1 t.2.1 * e t.2.2.1 t.2.2.2
  have hdot : ∀ (c : Idx4 → ℝ) (e : Mat3), ∑ t : Idx4, c t * e t.1 t.2.1 * e t.2.2.1 t.2.2.2 =
      dotProduct c (ee e) := by
    intro c e
    refine Finset.sum_congr rfl fun t _ => ?_
    simp only [ee]; ring
  have hee : ee (R * e * R.transpose) = (K4 R).mulVec (ee e) := by
    funext t
    simp only [ee, K4, Matrix.mulVec, dotProduct, Matrix.kroneckerMap_apply]
    rw [sum_idx]
    simp only [Matrix.mul_apply, Matrix.transpose_apply, Finset.sum_mul, Finset.mul_sum]
    have hc : ∀ F : Fin 3 → Fin 3 → Fin 3 → Fin 3 → ℝ,
        ∑ a, ∑ b, ∑ c, ∑ d, F a b c d = ∑ d, ∑ c, ∑ b, ∑ a, F a b c d := by
      intro F
      simp only [Fin.sum_univ_three]; ring
    rw [hc]
    simp only [Fin.sum_univ_three]
    ring
  rw [hdot, hdot, rotate_eq, hee, Matrix.dotProduct_mulVec, Matrix.vecMul_mulVec, ← K4_transpose,
    ← K4_mul, hR, K4_one, Matrix.vecMul_one]

example : ((newRank4.set (0, 0, 0, 1) 1).rotate !![0, 1, 0; 1, 0, 0; 0, 0, 1]).get (1, 1, 1, 0) = 1 := by
  rw [get_rotate, sum_idx]
  simp [get_set, get_new, Fin.sum_univ_three]

/-! ## C53 -/

theorem isotropicOf_get (b s : ℝ) (i j k l : Fin 3) : (isotropicOf b s).get (i, j, k, l) =
    (b - 2 * s / 3) * ((1 : Mat3) i j * (1 : Mat3) k l) +
      s * ((1 : Mat3) i k * (1 : Mat3) j l + (1 : Mat3) i l * (1 : Mat3) j k) := by
  unfold isotropicOf
  refine (get_foldl_set (fun t =>
    let value : ℝ := 0
    let value := if t.1 = t.2.1 ∧ t.2.2.1 = t.2.2.2 then value + (b - 2 * s / 3) else value
    let value := if t.1 = t.2.2.1 ∧ t.2.1 = t.2.2.2 then value + s else value
    if t.1 = t.2.2.2 ∧ t.2.1 = t.2.2.1 then value + s else value) loops newRank4 (i, j, k, l)).trans ?_
  rw [if_pos (mem_loops _)]
  simp only [Matrix.one_apply]
  split_ifs <;> simp_all <;> ring

/-- C53: the isotropic tensor is unchanged by every rotation or reflection. -/
theorem c53_invariant (bulk poisson : ℝ) (R : Mat3) (hR : R * R.transpose = 1) (t : Idx4) :
    ((isotropic bulk poisson).rotate R).get t = (isotropic bulk poisson).get t := by
  obtain ⟨i, j, k, l⟩ := t
  have ho : ∀ a b, ∑ m, R a m * R b m = (1 : Mat3) a b := by
    intro a b
    have := congrFun (congrFun hR a) b
    simpa [Matrix.mul_apply] using this
  unfold isotropic
  generalize shear bulk poisson = s
  rw [get_rotate, sum_idx]
  simp only [isotropicOf_get, ← ho]
  have h1 : ∀ F : Fin 3 → Fin 3 → ℝ, ∀ m n : Fin 3, F m n * (1 : Mat3) m n = if m = n then F m n else 0 := by
    intro F m n; rw [Matrix.one_apply]; simp
  have e1 : ∑ m, ∑ n, ∑ p, ∑ q, R i m * R j n * R k p * R l q * ((1 : Mat3) m n * (1 : Mat3) p q) =
      (∑ m, R i m * R j m) * ∑ m, R k m * R l m := by
    simp only [Fin.sum_univ_three, Matrix.one_apply]
    simp
    ring
  have e2 : ∑ m, ∑ n, ∑ p, ∑ q, R i m * R j n * R k p * R l q * ((1 : Mat3) m p * (1 : Mat3) n q) =
      (∑ m, R i m * R k m) * ∑ m, R j m * R l m := by
    simp only [Fin.sum_univ_three, Matrix.one_apply]
    simp
    ring
  have e3 : ∑ m, ∑ n, ∑ p, ∑ q, R i m * R j n * R k p * R l q * ((1 : Mat3) m q * (1 : Mat3) n p) =
      (∑ m, R i m * R l m) * ∑ m, R j m * R k m := by
    simp only [Fin.sum_univ_three, Matrix.one_apply]
    simp
    ring
  have hsplit : ∀ m n p q : Fin 3, R i m * R j n * R k p * R l q *
      ((bulk - 2 * s / 3) * ((1 : Mat3) m n * (1 : Mat3) p q) +
        s * ((1 : Mat3) m p * (1 : Mat3) n q + (1 : Mat3) m q * (1 : Mat3) n p)) =
      (bulk - 2 * s / 3) * (R i m * R j n * R k p * R l q * ((1 : Mat3) m n * (1 : Mat3) p q)) +
      (s * (R i m * R j n * R k p * R l q * ((1 : Mat3) m p * (1 : Mat3) n q)) +
      s * (R i m * R j n * R k p * R l q * ((1 : Mat3) m q * (1 : Mat3) n p))) := by
    intros; ring
  have hR' : ∀ a b, (1 : Mat3) a b = ∑ m, R a m * R b m := fun a b => (ho a b).symm
  calc _ = ∑ m, ∑ n, ∑ p, ∑ q, R i m * R j n * R k p * R l q *
      ((bulk - 2 * s / 3) * ((1 : Mat3) m n * (1 : Mat3) p q) +
        s * ((1 : Mat3) m p * (1 : Mat3) n q + (1 : Mat3) m q * (1 : Mat3) n p)) := by
        simp only [ho]
    _ = _ := by
        simp only [hsplit, Finset.sum_add_distrib, ← Finset.mul_sum, e1, e2, e3]
        ring

/-- C53: the isotropic tensor has all minor and major symmetries. -/
theorem c53_symmetries (bulk poisson : ℝ) : MinorLeft (isotropic bulk poisson).get ∧
    MinorRight (isotropic bulk poisson).get ∧ Major (isotropic bulk poisson).get := by
  have sy : ∀ a b : Fin 3, (1 : Mat3) a b = (1 : Mat3) b a := by
    intro a b; simp only [Matrix.one_apply, eq_comm]
  unfold isotropic
  refine ⟨fun i j k l => ?_, fun i j k l => ?_, fun i j k l => ?_⟩ <;> simp only [isotropicOf_get]
  · rw [sy j i]; ring
  · rw [sy l k]; ring
  · rw [sy k i, sy l j, sy k j, sy l i]; ring

/-- C53: the energy density of a symmetric strain is `λ/2 (tr e)² + μ e:e`. -/
theorem c53_energy (bulk poisson : ℝ) (e : Mat3) (he : e.transpose = e) :
    energyDensity (isotropic bulk poisson).get e =
      (bulk - 2 * shear bulk poisson / 3) / 2 * e.trace ^ 2 +
        shear bulk poisson * ∑ i, ∑ j, e i j ^ 2 := by
  have sy : ∀ i j, e i j = e j i := fun i j => congrFun (congrFun he j) i
  rw [energyDensity_eq, sum_idx]
  unfold isotropic
  simp only [isotropicOf_get, Matrix.one_apply, Fin.sum_univ_three, Matrix.trace, Matrix.diag]
  simp
  rw [sy 1 0, sy 2 0, sy 2 1]
  ring

/-- C53: the shear modulus is the one of the bulk modulus and the Poisson ratio. -/
theorem c53_shear (bulk poisson : ℝ) (h : 1 + poisson ≠ 0) :
    2 * (1 + poisson) * shear bulk poisson = 3 * bulk * (1 - 2 * poisson) := by
  unfold shear
  field_simp

example : (isotropic 60 (1/3)).get (0, 1, 0, 1) = 22.5 := by
  unfold isotropic
  rw [isotropicOf_get]
  norm_num [shear, Matrix.one_apply]

/-! ## C54 -/

/-- The Voigt number of a pair: xx, yy, zz, yz, xz, xy are 0 to 5. -/
def vo (i j : Fin 3) : Fin 6 := if h : i = j then ⟨i, by omega⟩ else ⟨6 - i - j, by omega⟩

/-- A 6×6 matrix written row by row. -/
def flat6 (V : Matrix (Fin 6) (Fin 6) ℝ) : List ℝ :=
  List.ofFn fun n : Fin 36 => V ⟨n / 6, by omega⟩ ⟨n % 6, by omega⟩

/-- The four positions written for entry `n`. -/
private def voigtKeys (n : ℕ) : List Idx4 :=
  match voigtMap (n / 6), voigtMap (n % 6) with
  | some i1, some i2 => [(i1.1, i1.2, i2.1, i2.2), (i1.1, i1.2, i2.2, i2.1), (i1.2, i1.1, i2.1, i2.2),
      (i1.2, i1.1, i2.2, i2.1)]
  | _, _ => []

private theorem voigtStep_eq (r : Rank4) (x : ℝ × ℕ) (h : x.2 < 36) :
    voigtStep r x = some (((voigtKeys x.2).map fun t => (t, x.1)).foldl
      (fun (r : Rank4) w => r.set w.1 w.2) r) := by
  obtain ⟨x, n⟩ := x
  simp only at h
  have h1 : n / 6 < 6 := by omega
  have h2 : n % 6 < 6 := by omega
  obtain ⟨i1, e1⟩ : ∃ i, voigtMap (n / 6) = some i := by
    unfold voigtMap
    exact ⟨_, List.getElem?_eq_getElem (by simpa using h1)⟩
  obtain ⟨i2, e2⟩ : ∃ i, voigtMap (n % 6) = some i := by
    unfold voigtMap
    exact ⟨_, List.getElem?_eq_getElem (by simpa using h2)⟩
  simp [voigtStep, voigtKeys, e1, e2]

private theorem foldlM_voigt (l : List (ℝ × ℕ)) (h : ∀ x ∈ l, x.2 < 36) (r : Rank4) :
    l.foldlM voigtStep r = some ((l.flatMap fun x => (voigtKeys x.2).map fun t => (t, x.1)).foldl
      (fun (r : Rank4) w => r.set w.1 w.2) r) := by
  induction l generalizing r with
  | nil => rfl
  | cons x l ih =>
    rw [List.foldlM_cons, voigtStep_eq r x (h x (by simp))]
    simp only [Option.bind_eq_bind, Option.bind_some]
    rw [ih (fun y hy => h y (by simp [hy])), List.flatMap_cons, List.foldl_append]

private theorem voigtKeys_spec : ∀ n : Fin 36, ∀ t ∈ voigtKeys n,
    (vo t.1 t.2.1 : ℕ) = n / 6 ∧ (vo t.2.2.1 t.2.2.2 : ℕ) = n % 6 := by decide +kernel

private theorem voigtKeys_all : ∀ t : Idx4, ∃ n : Fin 36, t ∈ voigtKeys n := by decide +kernel

/-- C54: the element `(i,j,k,l)` is the matrix element of the two Voigt numbers. -/
theorem c54_value (V : Matrix (Fin 6) (Fin 6) ℝ) :
    ∃ r, fromFlatVoigt (flat6 V) = some r ∧ ∀ i j k l, r.get (i, j, k, l) = V (vo i j) (vo k l) := by
  have hz : ∀ x ∈ (flat6 V).zipIdx, ∃ n : Fin 36, x.2 = n ∧
      x.1 = V ⟨n / 6, by omega⟩ ⟨n % 6, by omega⟩ := by
    rintro ⟨x, n⟩ hx
    have := List.mem_zipIdx' hx
    have hn : n < 36 := by simpa [flat6] using this.1
    refine ⟨⟨n, hn⟩, rfl, ?_⟩
    rw [this.2]
    simp only [flat6, List.getElem_ofFn]
  refine ⟨_, foldlM_voigt _ (fun x hx => ?_) _, fun i j k l => ?_⟩
  · obtain ⟨n, h, -⟩ := hz x hx
    rw [h]; exact n.2
  · refine (get_foldl_writes (fun t => V (vo t.1 t.2.1) (vo t.2.2.1 t.2.2.2)) _ ?_ _ _).trans ?_
    · intro w hw
      obtain ⟨x, hx, hw⟩ := List.mem_flatMap.mp hw
      obtain ⟨t, ht, rfl⟩ := List.mem_map.mp hw
      obtain ⟨n, hn, hv⟩ := hz x hx
      rw [hn] at ht
      have := voigtKeys_spec n t ht
      simp only [hv]
      congr 1 <;> ext <;> simp [this]
    · rw [if_pos]
      obtain ⟨n, hn⟩ := voigtKeys_all (i, j, k, l)
      rw [List.mem_map]
      have hlen : (n : ℕ) < (flat6 V).length := by simp [flat6]
      refine ⟨((i, j, k, l), (flat6 V)[n]), List.mem_flatMap.mpr ⟨((flat6 V)[n], n), ?_,
        List.mem_map.mpr ⟨_, hn, rfl⟩⟩, rfl⟩
      rw [List.mem_zipIdx_iff_getElem?]
      simp

private theorem vo_comm (i j : Fin 3) : vo i j = vo j i := by revert i j; decide

private theorem vo_surj : ∀ p : Fin 6, ∃ i j, vo i j = p := by decide

/-- C54: the minor symmetries always hold, the major symmetry exactly for symmetric matrices. -/
theorem c54_symmetries (V : Matrix (Fin 6) (Fin 6) ℝ) {r : Rank4} (h : fromFlatVoigt (flat6 V) = some r) :
    MinorLeft r.get ∧ MinorRight r.get ∧ (Major r.get ↔ V.transpose = V) := by
  obtain ⟨r', h', hg⟩ := c54_value V
  obtain rfl : r' = r := Option.some.inj (h'.symm.trans h)
  refine ⟨fun i j k l => ?_, fun i j k l => ?_, fun hm => ?_, fun hs i j k l => ?_⟩
  · rw [hg, hg, vo_comm]
  · rw [hg, hg, vo_comm l k]
  · ext p q
    obtain ⟨i, j, rfl⟩ := vo_surj p
    obtain ⟨k, l, rfl⟩ := vo_surj q
    have := hm i j k l
    rw [hg, hg] at this
    exact this
  · rw [hg, hg]
    exact congrFun (congrFun hs (vo i j)) (vo k l)

/-- The engineering strain vector. -/
def engineering (e : Mat3) : Fin 6 → ℝ :=
  ![e 0 0, e 1 1, e 2 2, 2 * e 1 2, 2 * e 0 2, 2 * e 0 1]

/-- C54: contraction with a symmetric strain is multiplication of the matrix with the engineering
strain. -/
theorem c54_contract (V : Matrix (Fin 6) (Fin 6) ℝ) {r : Rank4} (h : fromFlatVoigt (flat6 V) = some r)
    (e : Mat3) (he : e.transpose = e) (i j : Fin 3) :
    r.contractLast e i j = V.mulVec (engineering e) (vo i j) := by
  have sy : ∀ i j, e i j = e j i := fun i j => congrFun (congrFun he j) i
  obtain ⟨r', h', hg⟩ := c54_value V
  obtain rfl : r' = r := Option.some.inj (h'.symm.trans h)
  rw [contractLast_eq]
  simp only [hg]
  generalize vo i j = p
  have v00 : vo 0 0 = 0 := by decide
  have v01 : vo 0 1 = 5 := by decide
  have v02 : vo 0 2 = 4 := by decide
  have v10 : vo 1 0 = 5 := by decide
  have v11 : vo 1 1 = 1 := by decide
  have v12 : vo 1 2 = 3 := by decide
  have v20 : vo 2 0 = 4 := by decide
  have v21 : vo 2 1 = 3 := by decide
  have v22 : vo 2 2 = 2 := by decide
  simp only [Fin.sum_univ_three, v00, v01, v02, v10, v11, v12, v20, v21, v22, Matrix.mulVec, dotProduct,
    Fin.sum_univ_six, engineering]
  simp
  rw [sy 1 0, sy 2 0, sy 2 1]
  ring

/-- C54: a list with more than 36 entries panics. -/
theorem c54_too_long (v : List ℝ) (h : 36 < v.length) : fromFlatVoigt v = none := by
  have hsome : ∀ (l : List (ℝ × ℕ)) (r : Rank4), (∃ x ∈ l, x.2 = 36) → l.foldlM voigtStep r = none := by
    intro l
    induction l with
    | nil => simp
    | cons x l ih =>
      rintro r ⟨y, hy, h36⟩
      rw [List.foldlM_cons]
      rcases List.mem_cons.mp hy with rfl | hy
      · have : voigtStep r y = none := by
          unfold voigtStep
          rw [h36]
          rfl
        rw [this]; rfl
      · cases hx : voigtStep r x with
        | none => rfl
        | some r' => exact ih r' ⟨y, hy, h36⟩
  refine hsome _ _ ⟨(v[36], 36), ?_, rfl⟩
  rw [List.mem_zipIdx_iff_getElem?]
  simp [h]

/-! ## C55 -/

private def cubicWrites (c11 c12 c44 : ℝ) : List (Idx4 × ℝ) :=
  [((0,0,0,0), c11), ((1,1,1,1), c11), ((2,2,2,2), c11),
   ((0,0,1,1), c12), ((1,1,0,0), c12), ((0,1,0,1), c44), ((1,0,1,0), c44),
   ((0,0,2,2), c12), ((2,2,0,0), c12), ((0,2,0,2), c44), ((2,0,2,0), c44),
   ((1,1,2,2), c12), ((2,2,1,1), c12), ((1,2,1,2), c44), ((2,1,2,1), c44)]

private theorem cubic_keys : ∀ t : Idx4,
    (t.1 = t.2.1 ∧ t.2.2.1 = t.2.2.2 ∨ t.1 = t.2.2.1 ∧ t.2.1 = t.2.2.2) →
    t ∈ ([(0,0,0,0), (1,1,1,1), (2,2,2,2), (0,0,1,1), (1,1,0,0), (0,1,0,1), (1,0,1,0),
      (0,0,2,2), (2,2,0,0), (0,2,0,2), (2,0,2,0), (1,1,2,2), (2,2,1,1), (1,2,1,2), (2,1,2,1)] : List Idx4) := by
  decide +kernel

theorem cubicMaterial_get (c11 c12 c44 : ℝ) (i j k l : Fin 3) :
    (cubicMaterial c11 c12 c44).get (i, j, k, l) =
      if i = j ∧ j = k ∧ k = l then c11 else if i = j ∧ k = l then c12
      else if i = k ∧ j = l then c44 else 0 := by
  have hw : cubicMaterial c11 c12 c44 =
      (cubicWrites c11 c12 c44).foldl (fun (r : Rank4) w => r.set w.1 w.2) newRank4 := rfl
  rw [hw]
  refine (get_foldl_writes (fun t : Idx4 => if t.1 = t.2.1 ∧ t.2.1 = t.2.2.1 ∧ t.2.2.1 = t.2.2.2 then c11
    else if t.1 = t.2.1 ∧ t.2.2.1 = t.2.2.2 then c12 else if t.1 = t.2.2.1 ∧ t.2.1 = t.2.2.2 then c44
    else 0) _ ?_ _ _).trans ?_
  · intro w hw
    simp only [cubicWrites, List.mem_cons, List.not_mem_nil, or_false] at hw
    rcases hw with rfl | rfl | rfl | rfl | rfl | rfl | rfl | rfl | rfl | rfl | rfl | rfl | rfl | rfl | rfl <;>
      simp
  · by_cases h1 : (i, j, k, l) ∈ (cubicWrites c11 c12 c44).map Prod.fst
    · rw [if_pos h1]
    · rw [if_neg h1, get_new, if_neg fun h2 => h1 (cubic_keys _ (Or.inl ⟨h2.1, h2.2.2⟩)),
        if_neg fun h3 => h1 (cubic_keys _ (Or.inl h3)), if_neg fun h4 => h1 (cubic_keys _ (Or.inr h4))]

/-- The Voigt matrix of a cubic material. -/
def cubicVoigt (c11 c12 c44 : ℝ) : Matrix (Fin 6) (Fin 6) ℝ :=
  !![c11, c12, c12, 0, 0, 0; c12, c11, c12, 0, 0, 0; c12, c12, c11, 0, 0, 0;
     0, 0, 0, c44, 0, 0; 0, 0, 0, 0, c44, 0; 0, 0, 0, 0, 0, c44]

/-- C55: the tensor has the minor symmetry exactly if `c44 = 0`. -/
theorem c55_minor (c11 c12 c44 : ℝ) : MinorRight (cubicMaterial c11 c12 c44).get ↔ c44 = 0 := by
  constructor
  · intro h
    have := h 0 1 0 1
    rw [cubicMaterial_get, cubicMaterial_get] at this
    simpa using this.symm
  · rintro rfl i j k l
    rw [cubicMaterial_get, cubicMaterial_get]
    have a : (i = j ∧ j = l ∧ l = k) ↔ (i = j ∧ j = k ∧ k = l) := by
      constructor <;> (rintro ⟨rfl, rfl, rfl⟩; simp)
    have b : (i = j ∧ l = k) ↔ (i = j ∧ k = l) := by rw [@eq_comm _ l k]
    simp only [ite_self, a, b]

/-- C55: the tensor is the one of the Voigt matrix exactly if `c44 = 0`. -/
theorem c55_voigt (c11 c12 c44 : ℝ) {r : Rank4}
    (h : fromFlatVoigt (flat6 (cubicVoigt c11 c12 c44)) = some r) :
    (∀ t, (cubicMaterial c11 c12 c44).get t = r.get t) ↔ c44 = 0 := by
  obtain ⟨r', h', hg⟩ := c54_value (cubicVoigt c11 c12 c44)
  obtain rfl : r' = r := Option.some.inj (h'.symm.trans h)
  constructor
  · intro hall
    refine (c55_minor c11 c12 c44).mp ?_
    have := (c54_symmetries _ h).2.1
    rwa [show (cubicMaterial c11 c12 c44).get = r'.get from funext hall]
  · rintro rfl ⟨i, j, k, l⟩
    rw [hg, cubicMaterial_get]
    fin_cases i <;> fin_cases j <;> fin_cases k <;> fin_cases l <;>
      simp [vo, cubicVoigt]

/-- C55: for a symmetric strain the shear stress is half of `2 c44 e_ij`. -/
theorem c55_shear_stress (c11 c12 c44 : ℝ) (e : Mat3) {i j : Fin 3} (hij : i ≠ j) :
    (cubicMaterial c11 c12 c44).contractLast e i j = c44 * e i j := by
  rw [contractLast_eq]
  rw [Finset.sum_eq_single i, Finset.sum_eq_single j]
  · rw [cubicMaterial_get]; simp [hij]
  · intro l _ hl
    rw [cubicMaterial_get]; simp [hij, hl.symm]
  · simp
  · intro k _ hk
    refine Finset.sum_eq_zero fun l _ => ?_
    rw [cubicMaterial_get]; simp [hij, hk.symm]
  · simp

example : ¬ MinorRight (cubicMaterial 110 60 30).get := by
  rw [c55_minor]; norm_num

/-! ## C56 -/

private theorem axis_cases {axis : ℤ} (h0 : 0 ≤ axis) (h2 : axis ≤ 2) : axis = 0 ∨ axis = 1 ∨ axis = 2 := by
  omega

/-- C56: the matrices are orthogonal with determinant one. -/
theorem c56_orthogonal (angle : ℝ) {axis : ℤ} (h0 : 0 ≤ axis) (h2 : axis ≤ 2) :
    rotationMatrix angle axis * (rotationMatrix angle axis).transpose = 1 ∧
      (rotationMatrix angle axis).det = 1 := by
  have hcs := Real.sin_sq_add_cos_sq angle
  rcases axis_cases h0 h2 with rfl | rfl | rfl
  all_goals
    refine ⟨?_, ?_⟩
    · ext i j
      fin_cases i <;> fin_cases j <;>
        simp [rotationMatrix, Matrix.mul_apply, Fin.sum_univ_three] <;> linarith
    · simp [rotationMatrix, Matrix.det_fin_three]
      linarith

/-- C56: angles add up and angle zero is the identity. -/
theorem c56_group (a b : ℝ) {axis : ℤ} (h0 : 0 ≤ axis) (h2 : axis ≤ 2) :
    rotationMatrix a axis * rotationMatrix b axis = rotationMatrix (a + b) axis ∧
      rotationMatrix 0 axis = 1 := by
  rcases axis_cases h0 h2 with rfl | rfl | rfl
  all_goals
    refine ⟨?_, ?_⟩
    · ext i j
      fin_cases i <;> fin_cases j <;>
        simp [rotationMatrix, Matrix.mul_apply, Fin.sum_univ_three, Real.cos_add, Real.sin_add] <;> ring
    · ext i j
      fin_cases i <;> fin_cases j <;> simp [rotationMatrix]

/-- C56: the axis itself is not moved. -/
theorem c56_axis (angle : ℝ) (axis : Fin 3) :
    (rotationMatrix angle (axis.val : ℤ)).mulVec (Pi.single axis 1) = Pi.single axis 1 := by
  fin_cases axis <;> ext i <;> fin_cases i <;>
    simp [rotationMatrix, Matrix.mulVec, dotProduct, Fin.sum_univ_three]

/-- C56: any other axis gives the zero matrix. -/
theorem c56_other_axis (angle : ℝ) {axis : ℤ} (h : axis < 0 ∨ 2 < axis) : rotationMatrix angle axis = 0 := by
  unfold rotationMatrix
  rw [if_neg (by omega), if_neg (by omega), if_neg (by omega)]

/-- Cyclic relabelling x → y → z → x. -/
def cyclic : Mat3 := !![0, 0, 1; 1, 0, 0; 0, 1, 0]

/-- C56: the sense of rotation is not the same for all axes: relabelling the axes cyclically carries the
rotation about x to the inverse of the rotation about y, and that about z to that about x. -/
theorem c56_handedness (angle : ℝ) :
    cyclic * rotationMatrix angle 0 * cyclic.transpose = rotationMatrix (-angle) 1 ∧
    cyclic * rotationMatrix angle 1 * cyclic.transpose = rotationMatrix (-angle) 2 ∧
    cyclic * rotationMatrix angle 2 * cyclic.transpose = rotationMatrix angle 0 := by
  refine ⟨?_, ?_, ?_⟩ <;> ext i j <;> fin_cases i <;> fin_cases j <;>
    simp [rotationMatrix, cyclic, Matrix.mul_apply, Fin.sum_univ_three]

/-! ## C57 -/

/-- The matrix of the linear system for the displacements. -/
noncomputable def dispMatrix (f : Fin 3 → ℝ) (c : Idx4 → ℝ) : Mat3 := Matrix.of fun m n => dispElem m n f c

/-- C57: for an isotropic material with positive shear modulus `s` and positive P-wave modulus
`b + 4 s/3` the matrix is symmetric and positive definite for every non-zero wave vector. -/
theorem c57_positive_definite {b s : ℝ} (hs : 0 < s) (hp : 0 < b + 4 * s / 3) {f : Fin 3 → ℝ} (hf : f ≠ 0) :
    (dispMatrix f (isotropicOf b s).get).PosDef := by
  have hM : ∀ m n, dispMatrix f (isotropicOf b s).get m n = (2 * Real.pi) ^ 2 *
      ((b + s / 3) * (f m * f n) + s * (f 0 ^ 2 + f 1 ^ 2 + f 2 ^ 2) * (1 : Mat3) m n) := by
    intro m n
    unfold dispMatrix
    rw [Matrix.of_apply, dispElem_eq]
    congr 1
    simp only [isotropicOf_get, Matrix.one_apply, Fin.sum_univ_three]
    fin_cases m <;> fin_cases n <;> simp <;> ring
  have hk : 0 < f 0 ^ 2 + f 1 ^ 2 + f 2 ^ 2 := by
    by_contra hc
    apply hf
    have h0 : f 0 = 0 := by nlinarith [sq_nonneg (f 0), sq_nonneg (f 1), sq_nonneg (f 2)]
    have h1 : f 1 = 0 := by nlinarith [sq_nonneg (f 0), sq_nonneg (f 1), sq_nonneg (f 2)]
    have h2 : f 2 = 0 := by nlinarith [sq_nonneg (f 0), sq_nonneg (f 1), sq_nonneg (f 2)]
    funext i; fin_cases i <;> simp [h0, h1, h2]
  refine Matrix.PosDef.of_dotProduct_mulVec_pos ?_ fun x hx => ?_
  · ext m n
    rw [Matrix.conjTranspose_apply, star_trivial, hM, hM, mul_comm (f n) (f m)]
    simp only [Matrix.one_apply, eq_comm]
  · have hx2 : 0 < x 0 ^ 2 + x 1 ^ 2 + x 2 ^ 2 := by
      by_contra hc
      apply hx
      have h0 : x 0 = 0 := by nlinarith [sq_nonneg (x 0), sq_nonneg (x 1), sq_nonneg (x 2)]
      have h1 : x 1 = 0 := by nlinarith [sq_nonneg (x 0), sq_nonneg (x 1), sq_nonneg (x 2)]
      have h2 : x 2 = 0 := by nlinarith [sq_nonneg (x 0), sq_nonneg (x 1), sq_nonneg (x 2)]
      funext i; fin_cases i <;> simp [h0, h1, h2]
    have hq : dotProduct (star x) ((dispMatrix f (isotropicOf b s).get).mulVec x) = (2 * Real.pi) ^ 2 *
        ((b + s / 3) * (f 0 * x 0 + f 1 * x 1 + f 2 * x 2) ^ 2 +
          s * (f 0 ^ 2 + f 1 ^ 2 + f 2 ^ 2) * (x 0 ^ 2 + x 1 ^ 2 + x 2 ^ 2)) := by
      simp only [Matrix.mulVec, dotProduct, hM, Fin.sum_univ_three, Matrix.one_apply, Pi.star_apply,
        star_trivial]
      simp
      ring
    rw [hq]
    have hcs : (f 0 * x 0 + f 1 * x 1 + f 2 * x 2) ^ 2 ≤
        (f 0 ^ 2 + f 1 ^ 2 + f 2 ^ 2) * (x 0 ^ 2 + x 1 ^ 2 + x 2 ^ 2) := by
      nlinarith [sq_nonneg (f 0 * x 1 - f 1 * x 0), sq_nonneg (f 0 * x 2 - f 2 * x 0),
        sq_nonneg (f 1 * x 2 - f 2 * x 1)]
    refine mul_pos (by have := Real.pi_pos; positivity) ?_
    have hfx := mul_pos hk hx2
    set D := (f 0 * x 0 + f 1 * x 1 + f 2 * x 2) ^ 2 with hD
    have hD0 : 0 ≤ D := sq_nonneg _
    set P := (f 0 ^ 2 + f 1 ^ 2 + f 2 ^ 2) * (x 0 ^ 2 + x 1 ^ 2 + x 2 ^ 2) with hP
    have : s * (f 0 ^ 2 + f 1 ^ 2 + f 2 ^ 2) * (x 0 ^ 2 + x 1 ^ 2 + x 2 ^ 2) = s * P := by rw [hP]; ring
    rw [this]
    by_cases hb : 0 ≤ b + s / 3
    · have := mul_nonneg hb hD0
      have := mul_pos hs hfx
      linarith
    · push Not at hb
      have h1 : (b + s / 3) * P ≤ (b + s / 3) * D := mul_le_mul_of_nonpos_left hcs hb.le
      have h2 : 0 < (b + 4 * s / 3) * P := mul_pos hp hfx
      have h3 : (b + s / 3) * P + s * P = (b + 4 * s / 3) * P := by ring
      linarith

/-- Where the linear system is regular, the displacement is its unique solution. -/
theorem displacement_iff {c : Idx4 → ℝ} {f : Fin 3 → ℝ}
    (hf : ¬ (|f 0| < tol ∧ |f 1| < tol ∧ |f 2| < tol)) (hdet : (dispMatrix f c).det ≠ 0)
    (force u : Fin 3 → ℂ) :
    u = displacement force f c ↔ ∀ m, ∑ n, (dispElem m n f c : ℂ) * u n = force m := by
  have hdet : IsUnit (dispMatrix f c).det := isUnit_iff_ne_zero.mpr hdet
  set M := dispMatrix f c with hMdef
  have hsys : (∀ m, ∑ n, (dispElem m n f c : ℂ) * u n = force m) ↔
      M.mulVec (fun j => (u j).re) = (fun j => (force j).re) ∧
        M.mulVec (fun j => (u j).im) = fun j => (force j).im := by
    have hre : ∀ m, (∑ n, (dispElem m n f c : ℂ) * u n).re = M.mulVec (fun j => (u j).re) m := by
      intro m
      simp [Matrix.mulVec, dotProduct, hMdef, dispMatrix, Complex.re_sum]
    have him : ∀ m, (∑ n, (dispElem m n f c : ℂ) * u n).im = M.mulVec (fun j => (u j).im) m := by
      intro m
      simp [Matrix.mulVec, dotProduct, hMdef, dispMatrix, Complex.im_sum]
    constructor
    · intro h
      exact ⟨funext fun m => by rw [← hre, h m], funext fun m => by rw [← him, h m]⟩
    · rintro ⟨h1, h2⟩ m
      apply Complex.ext
      · rw [hre, h1]
      · rw [him, h2]
  have hinv : ∀ v w : Fin 3 → ℝ, v = M⁻¹.mulVec w ↔ M.mulVec v = w := by
    intro v w
    constructor
    · rintro rfl
      rw [Matrix.mulVec_mulVec, Matrix.mul_nonsing_inv _ hdet, Matrix.one_mulVec]
    · rintro rfl
      rw [Matrix.mulVec_mulVec, Matrix.nonsing_inv_mul _ hdet, Matrix.one_mulVec]
  rw [hsys, ← hinv, ← hinv]
  unfold displacement
  rw [if_neg hf]
  constructor
  · rintro rfl
    exact ⟨rfl, rfl⟩
  · rintro ⟨h1, h2⟩
    funext j
    exact Complex.ext (congrFun h1 j) (congrFun h2 j)

/-- C57: hence the displacement is the unique solution of the linear system, at every wave vector with
a component of at least `1e-10`. -/
theorem c57_displacement {b s : ℝ} (hs : 0 < s) (hp : 0 < b + 4 * s / 3) {f : Fin 3 → ℝ}
    (hf : ¬ (|f 0| < tol ∧ |f 1| < tol ∧ |f 2| < tol)) (force u : Fin 3 → ℂ) :
    u = displacement force f (isotropicOf b s).get ↔
      ∀ m, ∑ n, (dispElem m n f (isotropicOf b s).get : ℂ) * u n = force m := by
  have hf0 : f ≠ 0 := by
    rintro rfl
    apply hf
    simp [tol]
  exact displacement_iff hf (c57_positive_definite hs hp hf0).det_pos.ne' force u

example : (0:ℝ) < 22.5 ∧ (0:ℝ) < 60 + 4 * 22.5 / 3 := by norm_num

end Gopf.Props
