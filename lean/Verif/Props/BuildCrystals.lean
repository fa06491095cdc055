import Verif.Model.BuildCrystals
import Verif.Props.Crystal

/-!
# C149: what the crystal example writes
-/

namespace Gopf.Props
open Spec Pfutil Pfc
open scoped BigOperators

/-! ### The order in which cells are drawn -/

theorem minMax_le (first : ℝ) (data : List ℝ) : (minMax first data).1 ≤ (minMax first data).2 := by
  unfold minMax
  have key : ∀ (l : List ℝ) (m : ℝ × ℝ), m.1 ≤ m.2 →
      (l.foldl (fun (m : ℝ × ℝ) x => (if x < m.1 then x else m.1, if x > m.2 then x else m.2)) m).1 ≤
        (l.foldl (fun (m : ℝ × ℝ) x => (if x < m.1 then x else m.1, if x > m.2 then x else m.2)) m).2 := by
    intro l
    induction l with
    | nil => intro m h; exact h
    | cons x l ih =>
      intro m h
      refine ih _ ?_
      dsimp only
      split_ifs <;> linarith
  exact key _ _ le_rfl

/-- Row by row. -/
def CellBefore (o o' : Fin 2 → ℝ) : Prop := o 0 < o' 0 ∨ o 0 = o' 0 ∧ o 1 < o' 1

theorem sc2D_mulVec (a : ℝ) (v : Fin 2 → ℝ) : (sc2D a).mulVec v = ![a * v 0, a * v 1] := by
  ext i
  fin_cases i <;> simp [sc2D, Matrix.mulVec, dotProduct, Fin.sum_univ_two]

/-- C149: cells of a square lattice are drawn row by row. -/
theorem c149_order {a : ℝ} (ha : 0 < a) {dims : List Int} {m : ℝ} {os : List (Fin 2 → ℝ)}
    (h : crystalOrigins (sc2D a) dims = some (m, os)) : os.Pairwise CellBefore := by
  unfold crystalOrigins at h
  cases hc : cornersScaledCrd (sc2D a) dims with
  | none => rw [hc] at h; simp at h
  | some corners =>
    rw [hc] at h
    simp only [Option.bind_eq_bind, Option.bind_some] at h
    cases hf : (corners.flatMap fun c => (List.finRange 2).map c).head? with
    | none => rw [hf] at h; simp at h
    | some first =>
      rw [hf] at h
      simp only [Option.bind_some] at h
      have hle := minMax_le first (corners.flatMap fun c => (List.finRange 2).map c)
      generalize minMax first (corners.flatMap fun c => (List.finRange 2).map c) = mm at h hle
      have htr : truncInt (mm.2 - mm.1) = ⌊mm.2 - mm.1⌋ := by
        unfold truncInt; rw [if_pos (by linarith)]
      have hfl : 0 ≤ ⌊mm.2 - mm.1⌋ := Int.floor_nonneg.mpr (by linarith)
      obtain ⟨ts, hts, hsort, hin⟩ : ∃ ts, productLoop (List.replicate 2 (truncInt (mm.2 - mm.1) + 1)) = some ts ∧
          ts.Pairwise (List.Lex (· < ·)) ∧ ∀ t ∈ ts, t.length = 2 := by
        obtain ⟨he, hn⟩ := pos_eq_ofNat (List.replicate 2 (truncInt (mm.2 - mm.1) + 1)) (by
          intro e he; rw [List.eq_of_mem_replicate he, htr]; omega)
        refine ⟨allTuples ((List.replicate 2 (truncInt (mm.2 - mm.1) + 1)).map Int.toNat), ?_, allTuples_sorted _, ?_⟩
        · unfold productLoop
          conv_lhs => rw [he]
          refine forLoop_new _ (by simp) hn _ ?_
          rw [prodInt_eq, prod_ofNat, Int.toNat_natCast]
        · intro t ht
          have := (allTuples_mem _ t).mp ht
          have := this.length_eq
          simpa using this.symm
      rw [hts] at h
      simp only [Option.bind_some, Option.pure_def, Option.some.injEq, Prod.mk.injEq] at h
      rw [← h.2]
      apply List.Pairwise.filter
      rw [List.pairwise_map]
      refine (List.Pairwise.and_mem.mp hsort).imp ?_
      rintro t t' ⟨ht, ht', hlt⟩
      obtain ⟨x, y, rfl⟩ := List.length_eq_two.mp (hin t ht)
      obtain ⟨x', y', rfl⟩ := List.length_eq_two.mp (hin t' ht')
      have hxy : x < x' ∨ x = x' ∧ y < y' := by
        cases hlt with
        | rel hr => exact Or.inl hr
        | cons hr =>
          cases hr with
          | rel hr => exact Or.inr ⟨rfl, hr⟩
          | cons hr => cases hr
      simp only [CellBefore, sc2D_mulVec, vecOf, Matrix.cons_val_zero, Matrix.cons_val_one, Fin.val_zero, Fin.val_one,
        List.getD_cons_zero, List.getD_cons_succ]
      rcases hxy with hx | ⟨rfl, hy⟩
      · left
        have : (x : ℝ) < x' := by exact_mod_cast hx
        exact mul_lt_mul_of_pos_left (by linarith) ha
      · right
        have : (y : ℝ) < y' := by exact_mod_cast hy
        exact ⟨rfl, mul_lt_mul_of_pos_left (by linarith) ha⟩

/-! ### The atoms -/

/-- The atom at the corner (`k = 0`) or in the middle (`k = 1`) of the cell `(i, j)`. -/
def latticeAtom (i j k : ℕ) : Fin 2 → ℝ := ![32 * (i : ℝ) + 16 * k, 32 * (j : ℝ) + 16 * k]

theorem latticeAtom_inj {i j k i' j' k' : ℕ} (hk : k < 2) (hk' : k' < 2)
    (h : latticeAtom i j k = latticeAtom i' j' k') : i = i' ∧ j = j' ∧ k = k' := by
  have h0 := congrFun h 0
  have h1 := congrFun h 1
  simp only [latticeAtom, Matrix.cons_val_zero, Matrix.cons_val_one] at h0 h1
  have h0' : 32 * i + 16 * k = 32 * i' + 16 * k' := by exact_mod_cast h0
  have h1' : 32 * j + 16 * k = 32 * j' + 16 * k' := by exact_mod_cast h1
  omega

/-- The order of the numbers of the atoms. -/
def NumberBefore (i j k i' j' k' : ℕ) : Prop := i < i' ∨ i = i' ∧ (j < j' ∨ j = j' ∧ k < k')

/-- The order in which the atoms are drawn. -/
def AtomBefore (a a' : Fin 2 → ℝ) : Prop :=
  ∃ i j k i' j' k', k < 2 ∧ k' < 2 ∧ a = latticeAtom i j k ∧ a' = latticeAtom i' j' k' ∧ NumberBefore i j k i' j' k'

/-- The atoms of `N0` by `N1` cells and their order. -/
theorem atoms_spec (N0 N1 : ℕ) :
    ∃ m os, crystalOrigins (sc2D 32) [((32 * N0 : ℕ) : Int), ((32 * N1 : ℕ) : Int)] = some (m, os) ∧
      (∀ a, a ∈ atomsOf (sc2D 32) os exampleBasis ↔ ∃ i j k, i < N0 ∧ j < N1 ∧ k < 2 ∧ a = latticeAtom i j k) ∧
      (atomsOf (sc2D 32) os exampleBasis).Pairwise AtomBefore := by
  obtain ⟨m, os, ho, -, hmem⟩ := c106_square (a := 32) N0 N1 (by norm_num)
  rw [mul_comm N0, mul_comm N1] at ho
  have h32 : ((32 : ℕ) : ℝ) = 32 := by norm_num
  rw [h32] at ho hmem
  have hb : ∀ i j : ℕ, (exampleBasis.map fun b => ![32 * (i : ℝ), 32 * (j : ℝ)] + (sc2D 32).mulVec b) =
      [latticeAtom i j 0, latticeAtom i j 1] := by
    intro i j
    simp only [exampleBasis, List.map_cons, List.map_nil, sc2D_mulVec, latticeAtom]
    congr 1
    · ext c; fin_cases c <;> simp
    · congr 1
      ext c; fin_cases c <;> simp <;> norm_num
  refine ⟨m, os, ho, ?_, ?_⟩
  · intro a
    unfold atomsOf
    rw [List.mem_flatMap]
    constructor
    · rintro ⟨o, h1, h2⟩
      obtain ⟨i, j, hi, hj, rfl⟩ := (hmem o).mp h1
      rw [hb] at h2
      rcases List.mem_cons.mp h2 with rfl | h2
      · exact ⟨i, j, 0, hi, hj, by norm_num, rfl⟩
      · rw [List.mem_singleton] at h2
        exact ⟨i, j, 1, hi, hj, by norm_num, h2⟩
    · rintro ⟨i, j, k, hi, hj, hk, rfl⟩
      refine ⟨_, (hmem _).mpr ⟨i, j, hi, hj, rfl⟩, ?_⟩
      rw [hb]
      have : k = 0 ∨ k = 1 := by omega
      rcases this with rfl | rfl <;> simp
  · unfold atomsOf
    rw [List.pairwise_flatMap]
    constructor
    · intro o h1
      obtain ⟨i, j, hi, hj, rfl⟩ := (hmem o).mp h1
      rw [hb]
      simp only [List.pairwise_cons, List.mem_singleton, forall_eq, List.not_mem_nil, false_implies, implies_true,
        List.Pairwise.nil, and_true]
      exact ⟨i, j, 0, i, j, 1, by norm_num, by norm_num, rfl, rfl, Or.inr ⟨rfl, Or.inr ⟨rfl, by norm_num⟩⟩⟩
    · refine (List.Pairwise.and_mem.mp (c149_order (by norm_num) ho)).imp ?_
      rintro o o' ⟨h1, h2, hlt⟩ a ha a' ha'
      obtain ⟨i, j, hi, hj, rfl⟩ := (hmem o).mp h1
      obtain ⟨i', j', hi', hj', rfl⟩ := (hmem o').mp h2
      rw [hb] at ha ha'
      have hnum : ∀ k k', NumberBefore i j k i' j' k' := by
        intro k k'
        simp only [CellBefore, Matrix.cons_val_zero, Matrix.cons_val_one] at hlt
        rcases hlt with h | ⟨h, h'⟩
        · left
          have : (i : ℝ) < i' := by linarith
          exact_mod_cast this
        · right
          have e : (i : ℝ) = i' := by linarith
          have e' : (j : ℝ) < j' := by linarith
          exact ⟨by exact_mod_cast e, Or.inl (by exact_mod_cast e')⟩
      have hin : ∀ {i j : ℕ} {a : Fin 2 → ℝ}, a ∈ [latticeAtom i j 0, latticeAtom i j 1] →
          ∃ k, k < 2 ∧ a = latticeAtom i j k := by
        intro i j a h
        rcases List.mem_cons.mp h with rfl | h
        · exact ⟨0, by norm_num, rfl⟩
        · exact ⟨1, by norm_num, List.mem_singleton.mp h⟩
      obtain ⟨k, hk, rfl⟩ := hin ha
      obtain ⟨k', hk', rfl⟩ := hin ha'
      exact ⟨i, j, k, i', j', k', hk, hk', rfl, rfl, hnum k k'⟩

/-! ### What one atom reaches, along one axis -/

theorem trunc_half (v : Int) : truncInt ((v : ℝ) + 1 / 2) = if 0 ≤ v then v else v + 1 := by
  unfold truncInt
  by_cases h : 0 ≤ v
  · have h' : (0 : ℝ) ≤ v := by exact_mod_cast h
    rw [if_pos h, if_pos (by linarith), Int.floor_eq_iff]
    constructor <;> linarith
  · have h' : v + 1 ≤ 0 := by omega
    have h' : ((v : ℝ) + 1) ≤ 0 := by exact_mod_cast h'
    rw [if_neg h, if_neg (by linarith), Int.ceil_eq_iff]
    constructor <;> push_cast <;> linarith

/-- Specification: along an axis with `N` cells of 32 nodes the node `x` is within reach of the atoms at the corners
of the cells number `c`, at the distance `d / 2` from the middle of the node. Behind the last cell follows the first;
there the distance is counted from half a node further on. -/
def NearCorner (N : ℕ) (x : Int) (c : ℕ) (d : Int) : Prop :=
  (x % 32 < 12 ∧ (c : Int) = x / 32 ∧ d = 2 * (x % 32) + 1) ∨
  (20 ≤ x % 32 ∧ x / 32 + 1 < N ∧ (c : Int) = x / 32 + 1 ∧ d = 2 * (x % 32) - 63) ∨
  (21 ≤ x % 32 ∧ x / 32 + 1 = N ∧ c = 0 ∧ d = 2 * (x % 32) - 65)

/-- Specification: the node `x` is within reach of the atoms in the middle of its cell. -/
def NearMiddle (x : Int) (c : ℕ) (d : Int) : Prop := 4 ≤ x % 32 ∧ x % 32 < 28 ∧ (c : Int) = x / 32 ∧ d = 2 * (x % 32) - 31

/-- Specification: within reach of the atoms of kind `k`. -/
def NearAtom (N : ℕ) (x : Int) (k c : ℕ) (d : Int) : Prop :=
  (k = 0 ∧ NearCorner N x c d) ∨ (k = 1 ∧ NearMiddle x c d)

theorem mod_small {v D : Int} (h0 : 0 ≤ v) (h1 : v < D) : v % D = v := Int.emod_eq_of_lt h0 h1

theorem mod_below {v D : Int} (h0 : v < 0) (h1 : -D ≤ v) : v % D = v + D := by
  rw [← Int.add_emod_right, mod_small (by omega) (by omega)]

/-- The nodes visited for an atom, along one axis. -/
theorem near_iff {N : ℕ} {x : Int} (x0 : 0 ≤ x) (x1 : x < 32 * N) {c k : ℕ} (hc : c < N) (hk : k < 2) (q : Int)
    (q0 : 0 ≤ q) (q1 : q < 24)
    (h : x = truncInt ((q : ℝ) - 12 + 1 / 2 + (32 * (c : ℝ) + 16 * k)) % (32 * N : Int)) :
    ∃ d, NearAtom N x k c d ∧ (d : ℝ) ^ 2 = 4 * ((q : ℝ) - 12 + 1 / 2) ^ 2 := by
  have e : (q : ℝ) - 12 + 1 / 2 + (32 * (c : ℝ) + 16 * k) = ((q - 12 + (32 * c + 16 * k) : Int) : ℝ) + 1 / 2 := by
    push_cast; ring
  rw [e, trunc_half] at h
  have hk' : k = 0 ∨ k = 1 := by omega
  have hsq : ∀ d : Int, d = 2 * q - 23 ∨ d = 23 - 2 * q → (d : ℝ) ^ 2 = 4 * ((q : ℝ) - 12 + 1 / 2) ^ 2 := by
    rintro d (rfl | rfl) <;> (push_cast; ring)
  rcases hk' with rfl | rfl
  · by_cases hv : 0 ≤ q - 12 + (32 * (c : Int) + 16 * ((0 : ℕ) : Int))
    · rw [if_pos hv, mod_small hv (by omega)] at h
      refine ⟨2 * q - 23, Or.inl ⟨rfl, ?_⟩, hsq _ (Or.inl rfl)⟩
      unfold NearCorner
      omega
    · rw [if_neg hv] at h
      by_cases hv' : q - 12 + (32 * (c : Int) + 16 * ((0 : ℕ) : Int)) + 1 = 0
      · rw [hv', Int.zero_emod] at h
        refine ⟨23 - 2 * q, Or.inl ⟨rfl, ?_⟩, hsq _ (Or.inr rfl)⟩
        unfold NearCorner
        omega
      · rw [mod_below (by omega) (by omega)] at h
        refine ⟨2 * q - 23, Or.inl ⟨rfl, ?_⟩, hsq _ (Or.inl rfl)⟩
        unfold NearCorner
        omega
  · have hv : 0 ≤ q - 12 + (32 * (c : Int) + 16 * ((1 : ℕ) : Int)) := by omega
    rw [if_pos hv, mod_small hv (by omega)] at h
    refine ⟨2 * q - 23, Or.inr ⟨rfl, ?_⟩, hsq _ (Or.inl rfl)⟩
    unfold NearMiddle
    omega

theorem near_reached {N : ℕ} {x : Int} (x0 : 0 ≤ x) (x1 : x < 32 * N) {c k : ℕ} {d : Int} (h : NearAtom N x k c d) :
    c < N ∧ k < 2 ∧ ∃ q : Int, 0 ≤ q ∧ q < 24 ∧ (d : ℝ) ^ 2 = 4 * ((q : ℝ) - 12 + 1 / 2) ^ 2 ∧
      x = truncInt ((q : ℝ) - 12 + 1 / 2 + (32 * (c : ℝ) + 16 * k)) % (32 * N : Int) := by
  have e : ∀ q : Int, (q : ℝ) - 12 + 1 / 2 + (32 * (c : ℝ) + 16 * k) = ((q - 12 + (32 * c + 16 * k) : Int) : ℝ) + 1 / 2 := by
    intro q; push_cast; ring
  have hsq : ∀ q d : Int, d = 2 * q - 23 → (d : ℝ) ^ 2 = 4 * ((q : ℝ) - 12 + 1 / 2) ^ 2 := by
    rintro q d rfl; (push_cast; ring)
  rcases h with ⟨rfl, h⟩ | ⟨rfl, h⟩
  · rcases h with ⟨h1, h2, h3⟩ | ⟨h1, h2, h3, h4⟩ | ⟨h1, h2, h3, h4⟩
    · refine ⟨by omega, by omega, x % 32 + 12, by omega, by omega, hsq _ _ (by omega), ?_⟩
      rw [e, trunc_half, if_pos (by omega), mod_small (by omega) (by omega)]
      omega
    · refine ⟨by omega, by omega, x % 32 - 20, by omega, by omega, hsq _ _ (by omega), ?_⟩
      rw [e, trunc_half, if_pos (by omega), mod_small (by omega) (by omega)]
      omega
    · refine ⟨by omega, by omega, x % 32 - 21, by omega, by omega, hsq _ _ (by omega), ?_⟩
      rw [e, trunc_half, if_neg (by omega), mod_below (by omega) (by omega)]
      omega
  · obtain ⟨h1, h2, h3, h4⟩ := h
    refine ⟨by omega, by omega, x % 32 - 4, by omega, by omega, hsq _ _ (by omega), ?_⟩
    rw [e, trunc_half, if_pos (by omega), mod_small (by omega) (by omega)]
    omega

theorem near_unique {N : ℕ} {x : Int} {k c c' : ℕ} {d d' : Int} (h : NearAtom N x k c d) (h' : NearAtom N x k c' d') :
    c = c' ∧ d = d' := by
  unfold NearAtom NearCorner NearMiddle at h h'
  omega

/-- Specification: atom `k` of the cell `(i, j)` reaches the node `(x, y)`, at half the root of `d²+e²`. -/
def ReachedBy (N0 N1 : ℕ) (x y : Int) (i j k : ℕ) (d e : Int) : Prop := NearAtom N0 x k i d ∧ NearAtom N1 y k j e

theorem stamps_iff {N0 N1 : ℕ} {x y : Int} (x0 : 0 ≤ x) (x1 : x < 32 * N0) (y0 : 0 ≤ y) (y1 : y < 32 * N1)
    {i j k : ℕ} (hi : i < N0) (hj : j < N1) (hk : k < 2) (r : ℝ) :
    Stamps [((32 * N0 : ℕ) : Int), ((32 * N1 : ℕ) : Int)] 12 (latticeAtom i j k) [x, y] r ↔
      ∃ d e, ReachedBy N0 N1 x y i j k d e ∧ r = Real.sqrt ((d : ℝ) ^ 2 + (e : ℝ) ^ 2) / 2 := by
  have hroot : ∀ (d e : Int) (p q : Int), (d : ℝ) ^ 2 = 4 * ((p : ℝ) - 12 + 1 / 2) ^ 2 →
      (e : ℝ) ^ 2 = 4 * ((q : ℝ) - 12 + 1 / 2) ^ 2 →
      Real.sqrt (((p : ℝ) - 12 + 1 / 2) ^ 2 + ((q : ℝ) - 12 + 1 / 2) ^ 2) = Real.sqrt ((d : ℝ) ^ 2 + (e : ℝ) ^ 2) / 2 := by
    intro d e p q h1 h2
    rw [h1, h2, ← mul_add, Real.sqrt_mul (by norm_num), show (4 : ℝ) = 2 ^ 2 by norm_num, Real.sqrt_sq (by norm_num)]
    ring
  constructor
  · rintro ⟨q, hq, hp, hr⟩
    simp only [List.ofFn_succ, List.ofFn_zero, List.cons.injEq, and_true, latticeAtom, Fin.succ_zero_eq_one,
      Matrix.cons_val_zero, Matrix.cons_val_one, Fin.val_zero, Fin.val_one, List.getD_cons_zero,
      List.getD_cons_succ, Nat.cast_mul, Nat.cast_ofNat] at hp
    have hq' : ∀ c, q c < 24 := by
      intro c
      have := (hq c).2
      have : ((q c + 1 : Int) : ℝ) ≤ ((24 : Int) : ℝ) := by push_cast; linarith
      have := Int.cast_le.mp this
      omega
    obtain ⟨d, hd, hd2⟩ := near_iff x0 x1 hi hk (q 0) (hq 0).1 (hq' 0) hp.1
    obtain ⟨e, he, he2⟩ := near_iff y0 y1 hj hk (q 1) (hq 1).1 (hq' 1) hp.2
    refine ⟨d, e, ⟨hd, he⟩, ?_⟩
    rw [hr, Fin.sum_univ_two, hroot d e _ _ hd2 he2]
  · rintro ⟨d, e, ⟨hd, he⟩, rfl⟩
    obtain ⟨-, -, p, p0, p1, p2, p3⟩ := near_reached x0 x1 hd
    obtain ⟨-, -, q, q0, q1, q2, q3⟩ := near_reached y0 y1 he
    have bound : ∀ z : Int, z < 24 → (z : ℝ) + 1 ≤ 2 * 12 := by
      intro z hz
      have : z + 1 ≤ 24 := by omega
      have : ((z + 1 : Int) : ℝ) ≤ ((24 : Int) : ℝ) := Int.cast_le.mpr this
      push_cast at this
      linarith
    refine ⟨![p, q], ?_, ?_, ?_⟩
    · intro c
      fin_cases c
      · exact ⟨p0, bound p p1⟩
      · exact ⟨q0, bound q q1⟩
    · simp only [List.ofFn_succ, List.ofFn_zero, latticeAtom, Fin.succ_zero_eq_one,
        Matrix.cons_val_zero, Matrix.cons_val_one, Fin.val_zero, Fin.val_one, List.getD_cons_zero,
        List.getD_cons_succ, Nat.cast_mul, Nat.cast_ofNat]
      rw [← p3, ← q3]
    · rw [Fin.sum_univ_two]
      exact (hroot d e _ _ p2 q2).symm

/-! ### The crystal -/

theorem foldlM_keeps {α β : Type} (P : β → Prop) (f : β → α → Option β)
    (hf : ∀ b a b', P b → f b a = some b' → P b') : ∀ (l : List α) (b b' : β), P b → l.foldlM f b = some b' → P b'
  | [], b, b', hb, h => by
    rw [List.foldlM_nil] at h
    cases h
    exact hb
  | a :: l, b, b', hb, h => by
    rw [List.foldlM_cons] at h
    cases hm : f b a with
    | none => rw [hm] at h; simp at h
    | some c =>
      rw [hm] at h
      exact foldlM_keeps P f hf l c b' (hf b a c hb hm) h

theorem set_length {g g' : Grid ℝ} {p : List Int} {v : ℝ} (h : g.set p v = some g') : g'.data.length = g.data.length := by
  unfold Grid.set at h
  cases hi : g.index p with
  | none => rw [hi] at h; simp at h
  | some i =>
    rw [hi] at h
    simp only [Option.bind_eq_bind, Option.bind_some] at h
    unfold goSet at h
    split_ifs at h
    · simp only [Option.bind_some, Option.pure_def, Option.some.injEq] at h
      rw [← h]
      simp
    · simp at h

theorem build_length {n : ℕ} {C : Matrix (Fin n) (Fin n) ℝ} {basis : List (Fin n → ℝ)} {kernel : AtomicKernel}
    {g g' : Grid ℝ} (h : buildCrystal C basis kernel g = some g') : g'.data.length = g.data.length := by
  unfold buildCrystal at h
  cases ho : crystalOrigins C g.dims with
  | none => rw [ho] at h; simp at h
  | some mo =>
    rw [ho] at h
    simp only [Option.bind_eq_bind, Option.bind_some] at h
    refine foldlM_keeps (fun b : Grid ℝ => b.data.length = g.data.length) _ ?_ _ _ _ rfl h
    intro b o b' hb hs
    refine foldlM_keeps (fun b : Grid ℝ => b.data.length = g.data.length) _ ?_ _ _ _ hb hs
    intro b v b' hb hs
    cases hl : productLoop (List.replicate n (truncInt (2 * kernel.cutoff))) with
    | none => rw [hl] at hs; simp at hs
    | some nodes =>
      rw [hl] at hs
      simp only [Option.bind_some] at hs
      refine foldlM_keeps (fun b : Grid ℝ => b.data.length = g.data.length) _ ?_ _ _ _ hb hs
      intro b q b' hb hs
      cases hw : wrap ((List.finRange n).map fun k => truncInt (vecOf q k - kernel.cutoff + 1 / 2 + o k + C.mulVec v k))
          b.dims with
      | none => rw [hw] at hs; simp at hs
      | some w =>
        rw [hw] at hs
        simp only [Option.bind_some] at hs
        exact (set_length hs).trans hb

/-- C149: a square lattice with an atom at the corner and one in the middle of each cell of 32 by 32 nodes, drawn with
a kernel that reaches twelve nodes: every node holds the kernel of its distance to the atom that was drawn last among
those that reach it. Atoms are drawn cell by cell, row by row; in a cell the one at the corner comes first. -/
theorem c149_value {N0 N1 : ℕ} (h0 : 0 < N0) (h1 : 0 < N1) (kernel : AtomicKernel) (hk : kernel.cutoff = 12) (g : Grid ℝ)
    (hd : g.dims = [((32 * N0 : ℕ) : Int), ((32 * N1 : ℕ) : Int)]) (hlen : g.data.length = 32 * N0 * (32 * N1)) :
    ∃ g', buildCrystal (sc2D 32) exampleBasis kernel g = some g' ∧ g'.dims = g.dims ∧
      g'.data.length = g.data.length ∧ ∀ x y : Int, 0 ≤ x → x < 32 * N0 → 0 ≤ y → y < 32 * N1 →
        (∀ i j k d e, ReachedBy N0 N1 x y i j k d e →
          (∀ i' j' k' d' e', ReachedBy N0 N1 x y i' j' k' d' e' → ¬ NumberBefore i j k i' j' k') →
          g'.get [x, y] = some (kernel.eval (Real.sqrt ((d : ℝ) ^ 2 + (e : ℝ) ^ 2) / 2))) ∧
        ((∀ i j k d e, ¬ ReachedBy N0 N1 x y i j k d e) → g'.get [x, y] = g.get [x, y]) := by
  have hgd : GoodDims g.dims := by
    rw [hd]
    exact ⟨Or.inl rfl, by simp; omega⟩
  obtain ⟨m, os, g', ho, hb, hdim, hval⟩ := c106_value (Or.inl rfl) (sc2D 32) (by simp [sc2D, Matrix.det_fin_two])
    exampleBasis kernel (by rw [hk]; norm_num) g hgd (by rw [hd]; rfl) (by
      rw [hlen, hd]
      simp [numNodes])
  obtain ⟨m', os', ho', hmem, hord⟩ := atoms_spec N0 N1
  rw [hd, ho'] at ho
  simp only [Option.some.injEq, Prod.mk.injEq] at ho
  obtain ⟨rfl, rfl⟩ := ho
  refine ⟨g', hb, hdim, build_length hb, ?_⟩
  intro x y x0 x1 y0 y1
  have hbox : InBox g.dims [x, y] := by
    rw [hd]
    refine .cons ⟨x0, ?_⟩ (.cons ⟨y0, ?_⟩ .nil)
    · push_cast; exact x1
    · push_cast; exact y1
  have hv := hval [x, y] hbox
  rw [hd, hk] at hv
  have hidx : ∀ {i j k d e}, ReachedBy N0 N1 x y i j k d e → i < N0 ∧ j < N1 ∧ k < 2 := by
    intro i j k d e h
    exact ⟨(near_reached x0 x1 h.1).1, (near_reached y0 y1 h.2).1, (near_reached x0 x1 h.1).2.1⟩
  constructor
  · intro i j k d e hr hlast
    obtain ⟨hi, hj, hk2⟩ := hidx hr
    have hst := (stamps_iff x0 x1 y0 y1 hi hj hk2 _).mpr ⟨d, e, hr, rfl⟩
    have hin := (hmem _).mpr ⟨i, j, k, hi, hj, hk2, rfl⟩
    rcases hv with ⟨-, hno⟩ | ⟨l1, a, l2, r, hl, hs, he, hno⟩
    · exact absurd hst (hno _ hin _)
    · have ha : a ∈ atomsOf (sc2D 32) os' exampleBasis := by rw [hl]; simp
      obtain ⟨i', j', k', hi', hj', hk', rfl⟩ := (hmem a).mp ha
      obtain ⟨d', e', hr', rfl⟩ := (stamps_iff x0 x1 y0 y1 hi' hj' hk' r).mp hs
      have hsame : i = i' ∧ j = j' ∧ k = k' := by
        rw [hl] at hin hord
        rcases List.mem_append.mp hin with h | h
        · exfalso
          have hR := (List.pairwise_append.mp hord).2.2 _ h (latticeAtom i' j' k') (by simp)
          obtain ⟨a1, a2, a3, b1, b2, b3, ka, kb, ea, eb, hlt⟩ := hR
          obtain ⟨rfl, rfl, rfl⟩ := latticeAtom_inj hk2 ka ea
          obtain ⟨rfl, rfl, rfl⟩ := latticeAtom_inj hk' kb eb
          exact hlast _ _ _ _ _ hr' hlt
        · rcases List.mem_cons.mp h with h | h
          · exact latticeAtom_inj hk2 hk' h
          · exact absurd hst (hno _ h _)
      obtain ⟨rfl, rfl, rfl⟩ := hsame
      rw [he, (near_unique hr.1 hr'.1).2, (near_unique hr.2 hr'.2).2]
  · intro hno
    rcases hv with ⟨he, -⟩ | ⟨l1, a, l2, r, hl, hs, -, -⟩
    · exact he
    · have ha : a ∈ atomsOf (sc2D 32) os' exampleBasis := by rw [hl]; simp
      obtain ⟨i', j', k', hi', hj', hk', rfl⟩ := (hmem a).mp ha
      obtain ⟨d', e', hr', -⟩ := (stamps_iff x0 x1 y0 y1 hi' hj' hk' r).mp hs
      exact absurd hr' (hno _ _ _ _ _)

theorem gaussian_four (d e : ℝ) :
    (gaussianKernel 4).eval (Real.sqrt (d ^ 2 + e ^ 2) / 2) = Real.exp (-(d ^ 2 + e ^ 2) / 128) := by
  simp only [gaussianKernel]
  rw [div_pow, div_pow, Real.sq_sqrt (by positivity)]
  congr 1
  ring

/-- C149: the first file of the program. Every node that an atom reaches holds the Gaussian of the distance to the atom
drawn last among them; all others are zero. -/
theorem c149_program : ∃ grid boundary, buildCrystals = some (grid, boundary) ∧ PlaneGrid grid 512 512 ∧
    (∀ x y : Int, 0 ≤ x → x < 512 → 0 ≤ y → y < 512 →
      (∀ i j k d e, ReachedBy 16 16 x y i j k d e →
        (∀ i' j' k' d' e', ReachedBy 16 16 x y i' j' k' d' e' → ¬ NumberBefore i j k i' j' k') →
        grid.get [x, y] = some (Real.exp (-((d : ℝ) ^ 2 + (e : ℝ) ^ 2) / 128))) ∧
      ((∀ i j k d e, ¬ ReachedBy 16 16 x y i j k d e) → grid.get [x, y] = some 0)) ∧
    ∃ r s, grid.rotate2D (Real.pi / 24) = some r ∧ grid.rotate2D (-(Real.pi / 24)) = some s ∧
      PlaneGrid boundary 512 512 ∧ ∀ x y : Int, 0 ≤ x → x < 512 → 0 ≤ y → y < 512 →
        boundary.get [x, y] = if x < 256 then r.get [x, y] else s.get [x, y] := by
  obtain ⟨g0, hg0⟩ : ∃ g : Grid ℝ, g = ⟨[512, 512], List.replicate (512 * 512) 0⟩ := ⟨_, rfl⟩
  have hnew : newGrid (α := ℝ) [512, 512] = some g0 := by rw [hg0]; rfl
  have hl0 : g0.data.length = 512 * 512 := by rw [hg0]; simp only [List.length_replicate]
  have hd0 : g0.dims = [((32 * 16 : ℕ) : Int), ((32 * 16 : ℕ) : Int)] := by rw [hg0]; rfl
  obtain ⟨grid, hb, hdim, hlen, hval⟩ := c149_value (N0 := 16) (N1 := 16) (by norm_num) (by norm_num) (gaussianKernel 4)
    (by simp only [gaussianKernel]; norm_num) g0 hd0 (by rw [hl0])
  have hz : ∀ x y : Int, 0 ≤ x → x < 512 → 0 ≤ y → y < 512 → g0.get [x, y] = some 0 := by
    intro x y x0 x1 y0 y1
    have hgd : GoodDims [(512 : Int), 512] := ⟨by simp, by simp⟩
    obtain ⟨n, hn, n0, n1, -⟩ := nodeIdx_spec hgd (p := [x, y]) (.cons ⟨x0, x1⟩ (.cons ⟨y0, y1⟩ .nil))
    have hk : n.toNat < 512 * 512 := by
      simp only [numNodes, List.prod_cons, List.prod_nil] at n1
      omega
    rw [hg0]
    simp only [Grid.get, Grid.index, hn, goGet, n0, if_true, Option.bind_eq_bind, Option.bind_some,
      List.getElem?_replicate, hk]
  have hp : PlaneGrid grid 512 512 := by
    refine ⟨?_, by norm_num, by norm_num, ?_⟩
    · rw [hdim, hg0]
    · rw [hlen, hl0]
      norm_num
  obtain ⟨r, s, boundary, hr, hs, ht, hpb, hbv⟩ := c105_tilt hp (15 * Real.pi / 180)
  have ha : 15 * Real.pi / 180 / 2 = Real.pi / 24 := by ring
  rw [ha] at hr hs
  refine ⟨grid, boundary, ?_, hp, ?_, r, s, hr, hs, hpb, ?_⟩
  · simp only [buildCrystals, singleCrystal, hnew, hb, ht, Option.bind_eq_bind, Option.bind_some, Option.pure_def]
  · intro x y x0 x1 y0 y1
    obtain ⟨v1, v2⟩ := hval x y x0 (by omega) y0 (by omega)
    constructor
    · intro i j k d e h1 h2
      rw [v1 i j k d e h1 h2, gaussian_four]
    · intro h
      rw [v2 h, hz x y x0 x1 y0 y1]
  · intro x y x0 x1 y0 y1
    rw [hbv x y x0 x1 y0 y1]
    rfl

/-- C149: atoms cut pieces out of each other. Next to every corner there are nodes where the kernel of the atom at the
corner is `exp 7` times what is written, because the atom in the middle of the cell was drawn later; and nodes where
the same happens to the atom in the middle, because of the atom at the corner of the next cell. -/
theorem c149_dents : ∃ grid boundary, buildCrystals = some (grid, boundary) ∧ ∀ i j : ℕ, i < 15 → j < 15 →
    (ReachedBy 16 16 (32 * i + 4) (32 * j + 4) i j 0 9 9 ∧ ∃ v, grid.get [32 * (i : Int) + 4, 32 * (j : Int) + 4] = some v ∧
      Real.exp (-((9 : ℝ) ^ 2 + 9 ^ 2) / 128) = Real.exp 7 * v) ∧
    (ReachedBy 16 16 (32 * i + 20) (32 * j + 20) i j 1 9 9 ∧
      ∃ v, grid.get [32 * (i : Int) + 20, 32 * (j : Int) + 20] = some v ∧
        Real.exp (-((9 : ℝ) ^ 2 + 9 ^ 2) / 128) = Real.exp 7 * v) ∧ (1000 : ℝ) < Real.exp 7 := by
  obtain ⟨grid, boundary, hb, -, hv, -⟩ := c149_program
  refine ⟨grid, boundary, hb, fun i j hi hj => ⟨⟨?_, ?_⟩, ⟨?_, ?_⟩, ?_⟩⟩
  · exact ⟨Or.inl ⟨rfl, Or.inl ⟨by omega, by omega, by omega⟩⟩, Or.inl ⟨rfl, Or.inl ⟨by omega, by omega, by omega⟩⟩⟩
  · obtain ⟨h1, -⟩ := hv (32 * (i : Int) + 4) (32 * (j : Int) + 4) (by omega) (by omega) (by omega) (by omega)
    refine ⟨_, h1 i j 1 (-23) (-23) ?_ ?_, ?_⟩
    · exact ⟨Or.inr ⟨rfl, by omega, by omega, by omega, by omega⟩, Or.inr ⟨rfl, by omega, by omega, by omega, by omega⟩⟩
    · intro i' j' k' d' e' h
      simp only [ReachedBy, NearAtom, NearCorner, NearMiddle] at h
      unfold NumberBefore
      omega
    · rw [← Real.exp_add]
      congr 1
      push_cast
      norm_num
  · exact ⟨Or.inr ⟨rfl, by omega, by omega, by omega, by omega⟩, Or.inr ⟨rfl, by omega, by omega, by omega, by omega⟩⟩
  · obtain ⟨h1, -⟩ := hv (32 * (i : Int) + 20) (32 * (j : Int) + 20) (by omega) (by omega) (by omega) (by omega)
    refine ⟨_, h1 (i + 1) (j + 1) 0 (-23) (-23) ?_ ?_, ?_⟩
    · exact ⟨Or.inl ⟨rfl, Or.inr (Or.inl ⟨by omega, by omega, by omega, by omega⟩)⟩,
        Or.inl ⟨rfl, Or.inr (Or.inl ⟨by omega, by omega, by omega, by omega⟩)⟩⟩
    · intro i' j' k' d' e' h
      simp only [ReachedBy, NearAtom, NearCorner, NearMiddle] at h
      unfold NumberBefore
      omega
    · rw [← Real.exp_add]
      congr 1
      push_cast
      norm_num
  · have h7 : Real.exp 7 = Real.exp 1 ^ 7 := by
      rw [← Real.exp_nat_mul]; norm_num
    rw [h7]
    calc (1000 : ℝ) < 2.7182818283 ^ 7 := by norm_num
      _ < Real.exp 1 ^ 7 := pow_lt_pow_left₀ Real.exp_one_gt_d9 (by norm_num) (by norm_num)

/-- C149: atoms inside the domain are drawn with their middle between two nodes, those on its first row and column with
the middle on a node. -/
theorem c149_half_node {N : ℕ} (hN : 2 ≤ N) :
    (∀ c : ℕ, 0 < c → c < N → NearCorner N (32 * c - 1) c (-1) ∧ NearCorner N (32 * c) c 1) ∧
    NearCorner N (32 * N - 1) 0 (-3) ∧ NearCorner N 0 0 1 ∧ NearCorner N 1 0 3 := by
  refine ⟨fun c h0 h1 => ⟨?_, ?_⟩, ?_, ?_, ?_⟩ <;> (unfold NearCorner; omega)

end Gopf.Props
