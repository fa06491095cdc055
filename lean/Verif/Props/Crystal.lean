import Mathlib.Analysis.Complex.ExponentialBounds
import Mathlib.Data.List.OfFn
import Verif.Props.Rotate
import Verif.Proofs.Product

/-!
# C106: building a crystal
-/

namespace Gopf.Props
open Spec Pfutil Pfc
open scoped BigOperators

/-- A corner of the box with the sides `dims`. -/
def IsCorner {n : ℕ} (dims : List Int) (v : Fin n → ℝ) : Prop :=
  ∀ i, v i = 0 ∨ v i = ((dims.getD i 0 : Int) : ℝ)

/-- The least scaled coordinate of a corner. -/
def IsLeastScaled {n : ℕ} (C : Matrix (Fin n) (Fin n) ℝ) (dims : List Int) (m : ℝ) : Prop :=
  IsLeast {s : ℝ | ∃ v : Fin n → ℝ, IsCorner dims v ∧ ∃ i, s = C⁻¹.mulVec v i} m

/-- `M` is the greatest of all scaled coordinates of the corners. -/
def IsGreatestScaled {n : ℕ} (C : Matrix (Fin n) (Fin n) ℝ) (dims : List Int) (M : ℝ) : Prop :=
  IsGreatest {s | ∃ v : Fin n → ℝ, IsCorner dims v ∧ ∃ i, s = C⁻¹.mulVec v i} M

private theorem inBox_replicate {n : ℕ} {e : Int} {t : List Int} :
    InBox (List.replicate n e) t ↔ ∃ m : Fin n → Int, t = List.ofFn m ∧ ∀ i, 0 ≤ m i ∧ m i < e := by
  unfold InBox
  rw [List.forall₂_iff_get]
  constructor
  · rintro ⟨hl, h⟩
    simp only [List.length_replicate] at hl
    refine ⟨fun i => t[i.val]'(by rw [← hl]; exact i.isLt), ?_, ?_⟩
    · apply List.ext_getElem
      · simp [← hl]
      · intro i h1 h2; simp
    · intro i
      have := h i.val (by simp) (by rw [← hl]; exact i.isLt)
      simpa using this
  · rintro ⟨m, rfl, h⟩
    refine ⟨by simp, ?_⟩
    intro i h1 h2
    have := h ⟨i, by simpa using h1⟩
    simpa using this

private theorem getD_ofFn {n : ℕ} (m : Fin n → Int) (i : Fin n) : (List.ofFn m).getD i.val 0 = m i := by
  rw [List.getD_eq_getElem?_getD, List.getElem?_ofFn, dif_pos i.isLt]
  rfl

private theorem minMax_spec (first : ℝ) (data : List ℝ) :
    IsLeast {x | x ∈ first :: data} (minMax first data).1 ∧ IsGreatest {x | x ∈ first :: data} (minMax first data).2 := by
  unfold minMax
  have key : ∀ (l pre : List ℝ) (a b : ℝ), IsLeast {x | x ∈ pre} a → IsGreatest {x | x ∈ pre} b →
      IsLeast {x | x ∈ pre ++ l} (l.foldl (fun (m : ℝ × ℝ) x => (if x < m.1 then x else m.1, if x > m.2 then x else m.2))
        (a, b)).1 ∧ IsGreatest {x | x ∈ pre ++ l} (l.foldl (fun (m : ℝ × ℝ) x => (if x < m.1 then x else m.1,
          if x > m.2 then x else m.2)) (a, b)).2 := by
    intro l
    induction l with
    | nil => intro pre a b ha hb; simpa using ⟨ha, hb⟩
    | cons x l ih =>
      intro pre a b ha hb
      rw [List.foldl_cons, show pre ++ x :: l = (pre ++ [x]) ++ l by simp]
      apply ih
      · constructor
        · show _ ∈ _
          simp only
          split_ifs
          · simp
          · exact List.mem_append_left _ ha.1
        · intro y hy
          have hy' : y ∈ pre ∨ y = x := by simpa using hy
          simp only
          split_ifs with h
          · rcases hy' with hy' | rfl
            · exact h.le.trans (ha.2 hy')
            · exact le_rfl
          · rcases hy' with hy' | rfl
            · exact ha.2 hy'
            · exact not_lt.mp h
      · constructor
        · show _ ∈ _
          simp only
          split_ifs
          · simp
          · exact List.mem_append_left _ hb.1
        · intro y hy
          have hy' : y ∈ pre ∨ y = x := by simpa using hy
          simp only
          split_ifs with h
          · rcases hy' with hy' | rfl
            · exact (hb.2 hy').trans h.le
            · exact le_rfl
          · rcases hy' with hy' | rfl
            · exact hb.2 hy'
            · exact not_lt.mp h
  have := key data [first] first first (by simp [IsLeast, lowerBounds]) (by simp [IsGreatest, upperBounds])
  simpa using this

private theorem mulVec_sum {n : ℕ} (M : Matrix (Fin n) (Fin n) ℝ) (v : Fin n → ℝ) (i : Fin n) :
    M.mulVec v i = ∑ j, M i j * v j := rfl

private theorem corner_iff {n : ℕ} (dims : List Int) (v : Fin n → ℝ) :
    IsCorner dims v ↔ ∃ m : Fin n → Int, (∀ i, 0 ≤ m i ∧ m i < 2) ∧
      v = fun (i : Fin n) => ((dims.getD i.val 0 * m i : Int) : ℝ) := by
  constructor
  · intro h
    refine ⟨fun i => if v i = 0 then 0 else 1, fun i => by dsimp only; split_ifs <;> simp, ?_⟩
    funext i
    by_cases h0 : v i = 0
    · simp [h0]
    · simp only [h0, if_false, mul_one]
      exact (h i).resolve_left h0
  · rintro ⟨m, hm, rfl⟩ i
    have : m i = 0 ∨ m i = 1 := by have := hm i; omega
    rcases this with e | e <;> simp [e]

/-- The cells tried are those with scaled coordinates between the least and the greatest of the corners. -/
private theorem origins_core {n : ℕ} (hn : 0 < n) (C : Matrix (Fin n) (Fin n) ℝ) (hC : C.det ≠ 0) (dims : List Int) :
    ∃ m M os, crystalOrigins C dims = some (m, os) ∧ IsLeastScaled C dims m ∧ IsGreatestScaled C dims M ∧ os.Nodup ∧
      ∀ o : Fin n → ℝ, o ∈ os ↔ (∃ k : Fin n → ℤ, (∀ i, 0 ≤ k i ∧ (k i : ℝ) ≤ M - m) ∧
          o = C.mulVec fun i => (k i : ℝ) + m) ∧
        isInsideBox o dims ((cubeRoot (volume C)).map fun r => r / 2) = true := by
  obtain ⟨ts, hts, -, -, hmem⟩ := forLoop_box (List.replicate n 2) (by
    intro h; have := congrArg List.length h; simp at this; omega) (by
      intro e he; rw [List.eq_of_mem_replicate he]; norm_num)
  set corners : List (Fin n → ℝ) := ts.map fun l => C⁻¹.mulVec fun i => ((dims.getD i 0 * l.getD i 0 : Int) : ℝ)
    with hcorners
  have hcor : cornersScaledCrd C dims = some corners := by
    unfold cornersScaledCrd productLoop
    rw [hts]
    rfl
  have hcm : ∀ w, w ∈ corners ↔ ∃ v, IsCorner dims v ∧ w = C⁻¹.mulVec v := by
    intro w
    rw [hcorners, List.mem_map]
    constructor
    · rintro ⟨l, hl, rfl⟩
      obtain ⟨m, rfl, hm⟩ := inBox_replicate.mp ((hmem l).mp hl)
      refine ⟨fun (i : Fin n) => ((dims.getD i.val 0 * m i : Int) : ℝ), (corner_iff dims _).mpr ⟨m, hm, rfl⟩, ?_⟩
      simp only [getD_ofFn]
    · rintro ⟨v, hv, rfl⟩
      obtain ⟨m, hm, rfl⟩ := (corner_iff dims v).mp hv
      refine ⟨List.ofFn m, (hmem _).mpr (inBox_replicate.mpr ⟨m, rfl, hm⟩), ?_⟩
      simp only [getD_ofFn]
  set data := corners.flatMap fun c => (List.finRange n).map c with hdata
  have hdm : ∀ s, s ∈ data ↔ ∃ v : Fin n → ℝ, IsCorner dims v ∧ ∃ i, s = C⁻¹.mulVec v i := by
    intro s
    rw [hdata, List.mem_flatMap]
    constructor
    · rintro ⟨c, hc, hs⟩
      obtain ⟨v, hv, rfl⟩ := (hcm c).mp hc
      obtain ⟨i, -, rfl⟩ := List.mem_map.mp hs
      exact ⟨v, hv, i, rfl⟩
    · rintro ⟨v, hv, i, rfl⟩
      exact ⟨_, (hcm _).mpr ⟨v, hv, rfl⟩, List.mem_map.mpr ⟨i, List.mem_finRange i, rfl⟩⟩
  obtain ⟨first, hfirst⟩ : ∃ first, data.head? = some first := by
    cases hdt : data with
    | cons x l => exact ⟨x, rfl⟩
    | nil =>
      have : (C⁻¹.mulVec (0 : Fin n → ℝ) ⟨0, hn⟩) ∈ data := (hdm _).mpr ⟨0, fun i => Or.inl rfl, ⟨0, hn⟩, rfl⟩
      rw [hdt] at this
      cases this
  have hfm : first ∈ data := List.mem_of_mem_head? hfirst
  have hset : {x | x ∈ first :: data} = {s : ℝ | ∃ v : Fin n → ℝ, IsCorner dims v ∧ ∃ i, s = C⁻¹.mulVec v i} := by
    ext s
    rw [Set.mem_ofPred_eq, List.mem_cons, Set.mem_ofPred_eq, ← hdm]
    constructor
    · rintro (rfl | h)
      · exact hfm
      · exact h
    · exact Or.inr
  have hmm := minMax_spec first data
  rw [hset] at hmm
  obtain ⟨hmin, hmax⟩ := hmm
  set minval := (minMax first data).1 with hminval
  set maxval := (minMax first data).2 with hmaxval
  have hle : minval ≤ maxval := hmin.2 hmax.1
  have htr : truncInt (maxval - minval) = ⌊maxval - minval⌋ := by
    unfold truncInt; rw [if_pos (by linarith)]
  obtain ⟨ix, hix, -, hnd, hixm⟩ := forLoop_box (List.replicate n (truncInt (maxval - minval) + 1)) (by
    intro h; have := congrArg List.length h; simp at this; omega) (by
      intro e he
      rw [List.eq_of_mem_replicate he, htr]
      have : 0 ≤ ⌊maxval - minval⌋ := Int.floor_nonneg.mpr (by linarith)
      omega)
  have hunit : IsUnit C.det := isUnit_iff_ne_zero.mpr hC
  have hinj : ∀ a b : Fin n → ℝ, C.mulVec a = C.mulVec b → a = b := by
    intro a b h
    have := congrArg C⁻¹.mulVec h
    rwa [Matrix.mulVec_mulVec, Matrix.mulVec_mulVec, Matrix.nonsing_inv_mul _ hunit, Matrix.one_mulVec,
      Matrix.one_mulVec] at this
  refine ⟨minval, maxval, (ix.map fun l => C.mulVec fun i => vecOf l i + minval).filter fun o =>
    isInsideBox o dims ((cubeRoot (volume C)).map fun r => r / 2), ?_, hmin, hmax, ?_, ?_⟩
  · unfold crystalOrigins
    rw [hcor]
    simp only [Option.bind_eq_bind, Option.bind_some]
    rw [← hdata, hfirst]
    simp only [Option.bind_some]
    unfold productLoop
    rw [← hminval, ← hmaxval, hix]
    rfl
  · apply List.Nodup.filter
    refine List.Nodup.map_on ?_ hnd
    intro l hl l' hl' e
    obtain ⟨m, rfl, -⟩ := inBox_replicate.mp ((hixm l).mp hl)
    obtain ⟨m', rfl, -⟩ := inBox_replicate.mp ((hixm l').mp hl')
    have h2 := hinj _ _ e
    congr 1
    funext i
    have h3 := congrFun h2 i
    simp only [vecOf, getD_ofFn] at h3
    have : ((m i : Int) : ℝ) = m' i := by linarith
    exact_mod_cast this
  · intro o
    rw [List.mem_filter, List.mem_map]
    constructor
    · rintro ⟨⟨l, hl, rfl⟩, hbox⟩
      obtain ⟨m, rfl, hm⟩ := inBox_replicate.mp ((hixm l).mp hl)
      refine ⟨⟨m, fun i => ⟨(hm i).1, ?_⟩, ?_⟩, hbox⟩
      · have h1 := (hm i).2
        rw [htr] at h1
        exact Int.le_floor.mp (by omega)
      · simp only [vecOf, getD_ofFn]
    · rintro ⟨⟨k, hk, rfl⟩, hbox⟩
      refine ⟨⟨List.ofFn k, (hixm _).mpr (inBox_replicate.mpr ⟨k, rfl, fun i => ⟨(hk i).1, ?_⟩⟩), ?_⟩, hbox⟩
      · rw [htr]
        have := Int.le_floor.mpr (hk i).2
        omega
      · simp only [vecOf, getD_ofFn]

/-- The scaled coordinates of a point in the box lie between those of the corners. -/
private theorem scaled_between {n : ℕ} (C : Matrix (Fin n) (Fin n) ℝ) (hC : C.det ≠ 0) (dims : List Int) {m M : ℝ}
    (hmin : IsLeastScaled C dims m) (hmax : IsGreatestScaled C dims M) (s : Fin n → ℝ)
    (hob : ∀ j, 0 ≤ C.mulVec s j ∧ C.mulVec s j ≤ ((dims.getD j 0 : Int) : ℝ)) (i : Fin n) : m ≤ s i ∧ s i ≤ M := by
  have hunit : IsUnit C.det := isUnit_iff_ne_zero.mpr hC
  have hsC : C⁻¹.mulVec (C.mulVec s) = s := by
    rw [Matrix.mulVec_mulVec, Matrix.nonsing_inv_mul _ hunit, Matrix.one_mulVec]
  constructor
  · refine le_trans (hmin.2 ⟨fun j => if 0 ≤ C⁻¹ i j then 0 else ((dims.getD j 0 : Int) : ℝ), ?_, i, rfl⟩) ?_
    · intro j
      dsimp only
      split_ifs
      · exact Or.inl rfl
      · exact Or.inr rfl
    · conv_rhs => rw [← hsC]
      simp only [mulVec_sum]
      refine Finset.sum_le_sum fun j _ => ?_
      split_ifs with hj
      · rw [mul_zero]
        exact mul_nonneg hj (hob j).1
      · exact mul_le_mul_of_nonpos_left (hob j).2 (not_le.mp hj).le
  · refine le_trans ?_ (hmax.2 ⟨fun j => if 0 ≤ C⁻¹ i j then ((dims.getD j 0 : Int) : ℝ) else 0, ?_, i, rfl⟩)
    · conv_lhs => rw [← hsC]
      simp only [mulVec_sum]
      refine Finset.sum_le_sum fun j _ => ?_
      split_ifs with hj
      · exact mul_le_mul_of_nonneg_left (hob j).2 hj
      · rw [mul_zero]
        exact mul_nonpos_of_nonpos_of_nonneg (not_le.mp hj).le (hob j).1
    · intro j
      dsimp only
      split_ifs
      · exact Or.inr rfl
      · exact Or.inl rfl

/-- C106: the unit cells that are drawn are exactly those of the lattice, shifted to the least scaled
coordinate of the corners, whose origin lies in the box with the distance `V^(1/3)/2` to the far sides; none is
missed and none is drawn twice. -/
theorem c106_origins {n : ℕ} (hn : 0 < n) (C : Matrix (Fin n) (Fin n) ℝ) (hC : 0 < C.det) (dims : List Int)
    (_hd : dims.length = n) :
    ∃ m os, crystalOrigins C dims = some (m, os) ∧ IsLeastScaled C dims m ∧ os.Nodup ∧
      ∀ o : Fin n → ℝ, o ∈ os ↔ (∃ k : Fin n → ℤ, o = C.mulVec fun i => (k i : ℝ) + m) ∧
        ∀ i, 0 ≤ o i ∧ o i + C.det ^ ((1 : ℝ) / 3) / 2 ≤ ((dims.getD i 0 : Int) : ℝ) := by
  obtain ⟨m, M, os, hos, hmin, hmax, hnd, hmem⟩ := origins_core hn C hC.ne' dims
  refine ⟨m, os, hos, hmin, hnd, fun o => ?_⟩
  have hin : isInsideBox o dims ((cubeRoot (volume C)).map fun r => r / 2) = true ↔
      ∀ i, 0 ≤ o i ∧ o i + C.det ^ ((1 : ℝ) / 3) / 2 ≤ ((dims.getD i 0 : Int) : ℝ) := by
    unfold isInsideBox volume cubeRoot
    rw [if_neg (not_lt.mpr hC.le), List.all_eq_true]
    simp only [Option.map_some, tooFar, decide_eq_true_eq, not_or, not_lt, gt_iff_lt, List.mem_finRange, forall_const]
  rw [hmem, hin]
  constructor
  · rintro ⟨⟨k, -, rfl⟩, hbox⟩
    exact ⟨⟨k, rfl⟩, hbox⟩
  · rintro ⟨⟨k, rfl⟩, hbox⟩
    refine ⟨⟨k, fun i => ?_, rfl⟩, hbox⟩
    have hvol : 0 ≤ C.det ^ ((1 : ℝ) / 3) / 2 := by positivity
    obtain ⟨h1, h2⟩ := scaled_between C hC.ne' dims hmin hmax (fun i => (k i : ℝ) + m)
      (fun j => ⟨(hbox j).1, by have := (hbox j).2; linarith⟩) i
    have h3 : (0 : ℝ) ≤ k i := by linarith
    exact ⟨by exact_mod_cast h3, by linarith⟩

/-- C106: for a left-handed cell (negative volume) the margin is not a number and nothing is checked at the far sides:
the cells drawn are all cells of the range of scaled coordinates of the corners whose origin has no negative
coordinate, wherever they end. In particular all cells with their origin in the box, far sides included, are drawn. -/
theorem c106_left_handed {n : ℕ} (hn : 0 < n) (C : Matrix (Fin n) (Fin n) ℝ) (hC : C.det < 0) (dims : List Int) :
    ∃ m M os, crystalOrigins C dims = some (m, os) ∧ IsLeastScaled C dims m ∧ IsGreatestScaled C dims M ∧ os.Nodup ∧
      (∀ o : Fin n → ℝ, o ∈ os ↔ ∃ k : Fin n → ℤ, (∀ i, 0 ≤ k i ∧ (k i : ℝ) ≤ M - m) ∧
        o = (C.mulVec fun i => (k i : ℝ) + m) ∧ ∀ i, 0 ≤ o i) ∧
      ∀ o : Fin n → ℝ, (∃ k : Fin n → ℤ, o = C.mulVec fun i => (k i : ℝ) + m) →
        (∀ i, 0 ≤ o i ∧ o i ≤ ((dims.getD i 0 : Int) : ℝ)) → o ∈ os := by
  obtain ⟨m, M, os, hos, hmin, hmax, hnd, hmem⟩ := origins_core hn C hC.ne dims
  have hin : ∀ o : Fin n → ℝ, isInsideBox o dims ((cubeRoot (volume C)).map fun r => r / 2) = true ↔ ∀ i, 0 ≤ o i := by
    intro o
    unfold isInsideBox volume cubeRoot
    rw [if_pos hC, List.all_eq_true]
    simp [tooFar]
  have hall : ∀ o : Fin n → ℝ, o ∈ os ↔ ∃ k : Fin n → ℤ, (∀ i, 0 ≤ k i ∧ (k i : ℝ) ≤ M - m) ∧
      o = (C.mulVec fun i => (k i : ℝ) + m) ∧ ∀ i, 0 ≤ o i := by
    intro o
    rw [hmem, hin]
    constructor
    · rintro ⟨⟨k, hk, e⟩, h0⟩
      exact ⟨k, hk, e, h0⟩
    · rintro ⟨k, hk, e, h0⟩
      exact ⟨⟨k, hk, e⟩, h0⟩
  refine ⟨m, M, os, hos, hmin, hmax, hnd, hall, ?_⟩
  rintro o ⟨k, rfl⟩ hbox
  refine (hall _).mpr ⟨k, fun i => ?_, rfl, fun i => (hbox i).1⟩
  obtain ⟨h1, h2⟩ := scaled_between C hC.ne dims hmin hmax (fun i => (k i : ℝ) + m) hbox i
  have h3 : (0 : ℝ) ≤ k i := by linarith
  exact ⟨by exact_mod_cast h3, by linarith⟩

/-- The square cell with the two cell vectors swapped. -/
def swapped2D (a : ℝ) : Matrix (Fin 2) (Fin 2) ℝ := !![0, a; a, 0]

example : (swapped2D 32).det < 0 := by norm_num [swapped2D, Matrix.det_fin_two]

/-- C106: swapping the two vectors of the square cell changes what is drawn. Instead of the `N₀ N₁` cells of
`c106_square`, all cells with the origins `(a i, a j)` with `i` and `j` from 0 to the greater of `N₀` and `N₁`
(included) are drawn: also those that begin at the far sides, and beyond the shorter side. -/
theorem c106_swapped {a : ℕ} (N0 N1 : ℕ) (ha : 0 < a) :
    ∃ m os, crystalOrigins (swapped2D a) [((N0 * a : ℕ) : Int), ((N1 * a : ℕ) : Int)] = some (m, os) ∧ os.Nodup ∧
      ∀ o : Fin 2 → ℝ, o ∈ os ↔ ∃ i j : ℕ, i ≤ max N0 N1 ∧ j ≤ max N0 N1 ∧ o = ![(a : ℝ) * i, (a : ℝ) * j] := by
  have haR : (0 : ℝ) < a := by exact_mod_cast ha
  have hdet : (swapped2D (a : ℝ)).det < 0 := by
    simp only [swapped2D, Matrix.det_fin_two_of]
    nlinarith
  have hmul : ∀ v : Fin 2 → ℝ, (swapped2D (a : ℝ)).mulVec v = ![(a : ℝ) * v 1, (a : ℝ) * v 0] := by
    intro v
    ext i
    fin_cases i <;> simp [swapped2D, Matrix.mulVec, dotProduct, Fin.sum_univ_two]
  have hunit : IsUnit (swapped2D (a : ℝ)).det := isUnit_iff_ne_zero.mpr hdet.ne
  have hinv : ∀ (v : Fin 2 → ℝ), (swapped2D (a : ℝ))⁻¹.mulVec v = ![v 1 / a, v 0 / a] := by
    intro v
    have e : (swapped2D (a : ℝ)).mulVec ![v 1 / a, v 0 / a] = v := by
      rw [hmul]
      ext i
      fin_cases i <;> simp <;> field_simp
    have := congrArg (fun w => (swapped2D (a : ℝ))⁻¹.mulVec w) e
    simp only [Matrix.mulVec_mulVec, Matrix.nonsing_inv_mul _ hunit, Matrix.one_mulVec] at this
    exact this.symm
  obtain ⟨m, M, os, hos, hmin, hmax, hnd, hall, -⟩ := c106_left_handed (n := 2) (by norm_num) (swapped2D a) hdet
    [((N0 * a : ℕ) : Int), ((N1 * a : ℕ) : Int)]
  have hcc : ∀ (v : Fin 2 → ℝ), IsCorner [((N0 * a : ℕ) : Int), ((N1 * a : ℕ) : Int)] v →
      (v 0 = 0 ∨ v 0 = N0 * a) ∧ (v 1 = 0 ∨ v 1 = N1 * a) := by
    intro v hv
    have h0 := hv 0
    have h1 := hv 1
    simp at h0 h1
    exact ⟨h0, h1⟩
  have hm0 : m = 0 := by
    apply le_antisymm
    · refine hmin.2 ⟨0, fun i => Or.inl rfl, 0, ?_⟩
      simp
    · obtain ⟨v, hv, i, rfl⟩ := hmin.1
      obtain ⟨h0, h1⟩ := hcc v hv
      rw [hinv]
      have p0 : 0 ≤ v 0 := by rcases h0 with e | e <;> rw [e]; positivity
      have p1 : 0 ≤ v 1 := by rcases h1 with e | e <;> rw [e]; positivity
      fin_cases i
      · simpa using div_nonneg p1 haR.le
      · simpa using div_nonneg p0 haR.le
  have hM0 : M = ((max N0 N1 : ℕ) : ℝ) := by
    apply le_antisymm
    · obtain ⟨v, hv, i, rfl⟩ := hmax.1
      obtain ⟨h0, h1⟩ := hcc v hv
      rw [hinv]
      have l0 : (N0 : ℝ) ≤ ((max N0 N1 : ℕ) : ℝ) := by exact_mod_cast le_max_left N0 N1
      have l1 : (N1 : ℝ) ≤ ((max N0 N1 : ℕ) : ℝ) := by exact_mod_cast le_max_right N0 N1
      have z : (0 : ℝ) ≤ ((max N0 N1 : ℕ) : ℝ) := Nat.cast_nonneg _
      have p0 : v 0 / a ≤ ((max N0 N1 : ℕ) : ℝ) := by
        rcases h0 with e | e <;> rw [e]
        · rw [zero_div]; exact z
        · rw [mul_div_assoc, div_self haR.ne', mul_one]; exact l0
      have p1 : v 1 / a ≤ ((max N0 N1 : ℕ) : ℝ) := by
        rcases h1 with e | e <;> rw [e]
        · rw [zero_div]; exact z
        · rw [mul_div_assoc, div_self haR.ne', mul_one]; exact l1
      fin_cases i
      · simpa using p1
      · simpa using p0
    · have hc : IsCorner [((N0 * a : ℕ) : Int), ((N1 * a : ℕ) : Int)] (![(N0 : ℝ) * a, (N1 : ℝ) * a] : Fin 2 → ℝ) := by
        intro i
        fin_cases i <;> simp
      rcases le_total N0 N1 with h | h
      · rw [max_eq_right h]
        refine hmax.2 ⟨_, hc, 0, ?_⟩
        rw [hinv]
        simp [mul_div_assoc, div_self haR.ne']
      · rw [max_eq_left h]
        refine hmax.2 ⟨_, hc, 1, ?_⟩
        rw [hinv]
        simp [mul_div_assoc, div_self haR.ne']
  refine ⟨m, os, hos, hnd, fun o => ?_⟩
  rw [hall, hm0, hM0]
  simp only [hmul, add_zero, sub_zero]
  constructor
  · rintro ⟨k, hk, rfl, -⟩
    obtain ⟨i, hi⟩ := Int.eq_ofNat_of_zero_le (hk 1).1
    obtain ⟨j, hj⟩ := Int.eq_ofNat_of_zero_le (hk 0).1
    refine ⟨i, j, ?_, ?_, ?_⟩
    · have := (hk 1).2
      rw [hi] at this
      exact_mod_cast this
    · have := (hk 0).2
      rw [hj] at this
      exact_mod_cast this
    · rw [hi, hj]
      norm_cast
  · rintro ⟨i, j, hi, hj, rfl⟩
    refine ⟨![(j : ℤ), (i : ℤ)], ?_, ?_, ?_⟩
    · intro q
      fin_cases q
      · refine ⟨by simp, ?_⟩
        simp only [Fin.zero_eta, Matrix.cons_val_zero, Int.cast_natCast]
        exact_mod_cast hj
      · refine ⟨by simp, ?_⟩
        simp only [Fin.mk_one, Matrix.cons_val_one, Matrix.cons_val_fin_one, Int.cast_natCast]
        exact_mod_cast hi
    · simp
    · intro q
      fin_cases q <;> simp <;> positivity

example : 0 < (triangular2D 8).det ∧ ([32, 40] : List Int).length = 2 := by
  refine ⟨?_, rfl⟩
  simp [triangular2D, Matrix.det_fin_two]

/-- C106: a box of `N₀ × N₁` square cells with side `a` is filled completely: exactly the `N₀ N₁` cells with
the origins `(a i, a j)` are drawn. -/
theorem c106_square {a : ℕ} (N0 N1 : ℕ) (ha : 0 < a) :
    ∃ m os, crystalOrigins (sc2D a) [((N0 * a : ℕ) : Int), ((N1 * a : ℕ) : Int)] = some (m, os) ∧ os.Nodup ∧
      ∀ o : Fin 2 → ℝ, o ∈ os ↔ ∃ i j : ℕ, i < N0 ∧ j < N1 ∧ o = ![(a : ℝ) * i, (a : ℝ) * j] := by
  have haR : (0 : ℝ) < a := by exact_mod_cast ha
  have hdet : (sc2D (a : ℝ)).det = (a : ℝ) * a := by simp [sc2D, Matrix.det_fin_two]
  have hmul : ∀ v : Fin 2 → ℝ, (sc2D (a : ℝ)).mulVec v = ![(a : ℝ) * v 0, (a : ℝ) * v 1] := by
    intro v
    ext i
    fin_cases i <;> simp [sc2D, Matrix.mulVec, dotProduct, Fin.sum_univ_two]
  have hunit : IsUnit (sc2D (a : ℝ)).det := by rw [hdet]; exact isUnit_iff_ne_zero.mpr (by positivity)
  have hinv : ∀ (v : Fin 2 → ℝ) i, (sc2D (a : ℝ))⁻¹.mulVec v i = v i / a := by
    intro v i
    have e : (sc2D (a : ℝ)).mulVec (fun i => v i / a) = v := by
      rw [hmul]
      ext i
      fin_cases i <;> simp <;> field_simp
    have := congrArg (fun w => (sc2D (a : ℝ))⁻¹.mulVec w i) e
    simp only [Matrix.mulVec_mulVec, Matrix.nonsing_inv_mul _ hunit, Matrix.one_mulVec] at this
    exact this.symm
  obtain ⟨m, os, e, hm, hnd, hmem⟩ := c106_origins (by norm_num) (sc2D (a : ℝ)) (by rw [hdet]; positivity)
    [((N0 * a : ℕ) : Int), ((N1 * a : ℕ) : Int)] rfl
  refine ⟨m, os, e, hnd, ?_⟩
  have hm0 : m = 0 := by
    apply le_antisymm
    · exact hm.2 ⟨0, fun i => Or.inl rfl, 0, by rw [hinv]; simp⟩
    · obtain ⟨v, hv, i, rfl⟩ := hm.1
      rw [hinv]
      refine div_nonneg ?_ haR.le
      rcases hv i with h | h
      · rw [h]
      · rw [h]
        fin_cases i
        · simp; positivity
        · simp; positivity
  have hL : 0 < (sc2D (a : ℝ)).det ^ ((1 : ℝ) / 3) / 2 ∧ (sc2D (a : ℝ)).det ^ ((1 : ℝ) / 3) / 2 ≤ a := by
    rw [hdet]
    have ha1 : (1 : ℝ) ≤ a := by exact_mod_cast ha
    constructor
    · positivity
    · have h2 : ((a : ℝ) * a) ^ ((1 : ℝ) / 3) ≤ ((a : ℝ) * a) ^ ((1 : ℝ) / 2) :=
        Real.rpow_le_rpow_of_exponent_le (by nlinarith) (by norm_num)
      have h3 : ((a : ℝ) * a) ^ ((1 : ℝ) / 2) = a := by
        rw [← Real.sqrt_eq_rpow, Real.sqrt_mul_self haR.le]
      rw [h3] at h2
      linarith
  obtain ⟨hL0, hL1⟩ := hL
  set L := (sc2D (a : ℝ)).det ^ ((1 : ℝ) / 3) / 2
  intro o
  rw [hmem, hm0]
  simp only [add_zero]
  have hone : ∀ (k : ℤ) (N : ℕ), (0 ≤ (a : ℝ) * k ∧ (a : ℝ) * k + L ≤ ((N * a : ℕ) : ℝ)) ↔ ∃ i : ℕ, i < N ∧ k = i := by
    intro k N
    constructor
    · rintro ⟨hk, hk2⟩
      have k0 : (0 : ℝ) ≤ k := nonneg_of_mul_nonneg_right hk haR
      have k0' : 0 ≤ k := by exact_mod_cast k0
      have hlt : (a : ℝ) * k < a * N := by push_cast at hk2; linarith [mul_comm (a : ℝ) N]
      have hlt' : (k : ℝ) < N := lt_of_mul_lt_mul_left hlt haR.le
      have hlt2 : k < N := by exact_mod_cast hlt'
      exact ⟨k.toNat, by omega, by omega⟩
    · rintro ⟨i, hi, rfl⟩
      refine ⟨by positivity, ?_⟩
      have : ((i : ℝ) + 1) ≤ N := by exact_mod_cast hi
      push_cast
      nlinarith
  constructor
  · rintro ⟨⟨k, rfl⟩, hb⟩
    rw [hmul] at hb ⊢
    have b0 := hb 0
    have b1 := hb 1
    simp only [Matrix.cons_val_zero, Matrix.cons_val_one, Fin.val_zero, Fin.val_one, List.getD_cons_zero,
      List.getD_cons_succ, Int.cast_natCast] at b0 b1
    obtain ⟨i, hi, ei⟩ := (hone _ _).mp b0
    obtain ⟨j, hj, ej⟩ := (hone _ _).mp b1
    refine ⟨i, j, hi, hj, ?_⟩
    simp only [ei, ej, Int.cast_natCast]
  · rintro ⟨i, j, hi, hj, rfl⟩
    refine ⟨⟨![(i : ℤ), (j : ℤ)], ?_⟩, ?_⟩
    · rw [hmul]; simp
    · intro c
      have b0 := (hone i N0).mpr ⟨i, hi, rfl⟩
      have b1 := (hone j N1).mpr ⟨j, hj, rfl⟩
      fin_cases c
      · simpa using b0
      · simpa using b1

/-- What drawing one atom does: the node `p` is reached with the distance `r`. The nodes around the atom are
visited in steps of one, starting `cutoff - 1/2` before it in each direction; decimals of the resulting
coordinates are cut off and the result is wrapped. -/
def Stamps {n : ℕ} (dims : List Int) (cutoff : ℝ) (atom : Fin n → ℝ) (p : List Int) (r : ℝ) : Prop :=
  ∃ q : Fin n → ℤ, (∀ k, 0 ≤ q k ∧ ((q k : ℤ) : ℝ) + 1 ≤ 2 * cutoff) ∧
    (p = List.ofFn fun k => truncInt ((q k : ℝ) - cutoff + 1 / 2 + atom k) % dims.getD k 0) ∧
    r = Real.sqrt (∑ k, ((q k : ℝ) - cutoff + 1 / 2) ^ 2)

private theorem writes_append {α : Type} (g : Grid α) (a b : List (List Int × α)) :
    writes g (a ++ b) = (writes g a).bind fun g => writes g b := by
  induction a generalizing g with
  | nil => rfl
  | cons x a ih =>
    obtain ⟨p, v⟩ := x
    simp only [List.cons_append, writes]
    cases g.set p v with
    | none => rfl
    | some g' => simp only [Option.bind_some]; exact ih g'

private theorem set_dims {α : Type} {g g' : Grid α} {p : List Int} {v : α} (h : g.set p v = some g') :
    g'.dims = g.dims := by
  unfold Grid.set at h
  rw [Option.bind_eq_bind, Option.bind_eq_some_iff] at h
  obtain ⟨i, -, h⟩ := h
  rw [Option.bind_eq_bind, Option.bind_eq_some_iff] at h
  obtain ⟨d, -, h⟩ := h
  cases h
  rfl

private theorem writes_dims {α : Type} {g g' : Grid α} {ws : List (List Int × α)} (h : writes g ws = some g') :
    g'.dims = g.dims := by
  induction ws generalizing g with
  | nil => cases h; rfl
  | cons x ws ih =>
    obtain ⟨p, v⟩ := x
    simp only [writes] at h
    obtain ⟨g1, h1, h2⟩ := Option.bind_eq_some_iff.mp h
    rw [ih h2, set_dims h1]

private theorem foldlM_writes {α β : Type} (D : List Int) (f : Grid α → β → Option (Grid α))
    (W : β → List (List Int × α)) (l : List β) (hf : ∀ x ∈ l, ∀ g : Grid α, g.dims = D → f g x = writes g (W x))
    (g : Grid α) (hg : g.dims = D) : l.foldlM f g = writes g (l.flatMap W) := by
  induction l generalizing g with
  | nil => rfl
  | cons x l ih =>
    rw [List.foldlM_cons, hf x (by simp) g hg, List.flatMap_cons, writes_append]
    cases hw : writes g (W x) with
    | none => rfl
    | some g' =>
      simp only [Option.bind_eq_bind, Option.bind_some]
      exact ih (fun y hy => hf y (by simp [hy])) g' (by rw [writes_dims hw, hg])

private theorem find_last {β γ : Type} (W : β → List γ) (P : γ → Bool) (l : List β) {w : γ}
    (h : (l.flatMap W).reverse.find? P = some w) :
    ∃ l1 a l2, l = l1 ++ a :: l2 ∧ w ∈ W a ∧ P w = true ∧ ∀ a' ∈ l2, ∀ w' ∈ W a', ¬ P w' = true := by
  induction l using List.reverseRecOn with
  | nil => simp at h
  | append_singleton l a ih =>
    rw [List.flatMap_append, List.flatMap_singleton, List.reverse_append, List.find?_append] at h
    cases hf : (W a).reverse.find? P with
    | some w' =>
      rw [hf] at h
      cases h
      have h1 := List.mem_of_find?_eq_some hf
      rw [List.mem_reverse] at h1
      exact ⟨l, a, [], rfl, h1, List.find?_some hf, fun a' h => by cases h⟩
    | none =>
      rw [hf, Option.none_or] at h
      obtain ⟨l1, b, l2, rfl, hw, hP, hl2⟩ := ih h
      refine ⟨l1, b, l2 ++ [a], by simp, hw, hP, ?_⟩
      intro a' ha' w' hw'
      rcases List.mem_append.mp ha' with h' | h'
      · exact hl2 a' h' w' hw'
      · rw [List.mem_singleton] at h'
        subst h'
        rw [List.find?_eq_none] at hf
        exact hf w' (by simpa using hw')

/-- The positions of the atoms in the order in which they are drawn: cell by cell, and within a cell in the
order of the basis. -/
def atomsOf {n : ℕ} (C : Matrix (Fin n) (Fin n) ℝ) (os basis : List (Fin n → ℝ)) : List (Fin n → ℝ) :=
  os.flatMap fun o => basis.map fun b => o + C.mulVec b

/-- C106: after building the crystal every node holds the kernel of its distance to the atom drawn last among
those that reach it (contributions of several atoms are not added), and nodes reached by no atom keep their
value. The atoms are the basis atoms of the drawn cells (`c106_origins`). -/
theorem c106_value {n : ℕ} (hn : n = 2 ∨ n = 3) (C : Matrix (Fin n) (Fin n) ℝ) (hC : 0 < C.det)
    (basis : List (Fin n → ℝ)) (kernel : AtomicKernel) (hk : 1 / 2 ≤ kernel.cutoff) (g : Grid ℝ)
    (hg : GoodDims g.dims) (hd : g.dims.length = n) (hlen : (g.data.length : Int) = numNodes g.dims) :
    ∃ m os g', crystalOrigins C g.dims = some (m, os) ∧ buildCrystal C basis kernel g = some g' ∧
      g'.dims = g.dims ∧ ∀ p, InBox g.dims p →
        (g'.get p = g.get p ∧ ∀ a ∈ atomsOf C os basis, ∀ r, ¬ Stamps g.dims kernel.cutoff a p r) ∨
        (∃ l1 a l2 r, atomsOf C os basis = l1 ++ a :: l2 ∧ Stamps g.dims kernel.cutoff a p r ∧
          g'.get p = some (kernel.eval r) ∧ ∀ a' ∈ l2, ∀ r, ¬ Stamps g.dims kernel.cutoff a' p r) := by
  have hn0 : 0 < n := by omega
  obtain ⟨m, os, hos, -, -, -⟩ := c106_origins hn0 C hC g.dims hd
  have htr : truncInt (2 * kernel.cutoff) = ⌊2 * kernel.cutoff⌋ := by
    unfold truncInt; rw [if_pos (by linarith)]
  have hfl : 1 ≤ ⌊2 * kernel.cutoff⌋ := Int.le_floor.mpr (by push_cast; linarith)
  obtain ⟨nodes, hnodes, -, -, hnm⟩ := forLoop_box (List.replicate n (truncInt (2 * kernel.cutoff))) (by
    intro h; have := congrArg List.length h; simp at this; omega) (by
      intro e he
      rw [List.eq_of_mem_replicate he, htr]
      omega)
  let node : (Fin n → ℝ) → List Int → List Int := fun atom q => List.ofFn fun k : Fin n =>
    truncInt (vecOf q k - kernel.cutoff + 1 / 2 + atom k) % g.dims.getD k 0
  let dist : List Int → ℝ := fun q => Real.sqrt (∑ k : Fin n, (vecOf q k - kernel.cutoff + 1 / 2) ^ 2)
  let W : (Fin n → ℝ) → List (List Int × ℝ) := fun atom =>
    nodes.flatMap fun q => [(node atom q, kernel.eval (dist q))]
  let ws : List (List Int × ℝ) := os.flatMap fun o => basis.flatMap fun b => W fun k => o k + C.mulVec b k
  have hws : ws = (atomsOf C os basis).flatMap W := by
    simp only [ws, atomsOf, List.flatMap_assoc, List.flatMap_map]
    rfl
  have hbuild : buildCrystal C basis kernel g = writes g ws := by
    unfold buildCrystal
    rw [hos]
    simp only [Option.bind_eq_bind, Option.bind_some]
    refine foldlM_writes g.dims _ _ os (fun o _ g1 hg1 => ?_) g rfl
    refine foldlM_writes g.dims _ _ basis (fun b _ g2 hg2 => ?_) g1 hg1
    unfold productLoop
    rw [hnodes]
    simp only [Option.bind_some]
    refine foldlM_writes g.dims _ _ nodes (fun q _ g3 hg3 => ?_) g2 hg2
    have hw : wrap ((List.finRange n).map fun k => truncInt (vecOf q k - kernel.cutoff + 1 / 2 + o k + C.mulVec b k))
        g3.dims = some (node (fun k => o k + C.mulVec b k) q) := by
      rw [hg3, wrap_eq_emod (by simp [hd]) hg.2]
      congr 1
      apply List.ext_getElem
      · simp [node, hd]
      · intro i h1 h2
        simp only [node, List.getElem_zipWith, List.getElem_map, List.getElem_finRange, List.getElem_ofFn]
        have hi : i < n := by simpa [node] using h2
        rw [List.getD_eq_getElem?_getD, List.getElem?_eq_getElem (by simpa [hd] using hi)]
        simp only [Option.getD_some]
        congr 2
        simp only [Fin.cast_mk]
        ring
    have hdist : Real.sqrt (((List.finRange n).map fun k => (vecOf q k - kernel.cutoff + 1 / 2) ^ 2).foldl (· + ·) 0) =
        dist q := by
      simp only [dist]
      congr 1
      rw [← List.sum_eq_foldl, ← List.ofFn_eq_map, List.sum_ofFn]
    simp only [writes]
    rw [hw, hdist]
    simp only [Option.bind_some]
    cases g3.set (node (fun k => o k + C.mulVec b k) q) (kernel.eval (dist q)) <;> rfl
  have hin : ∀ w ∈ ws, InBox g.dims w.1 := by
    intro w hw
    simp only [ws, W, List.mem_flatMap, List.mem_singleton] at hw
    obtain ⟨o, -, b, -, q, -, rfl⟩ := hw
    unfold InBox
    rw [List.forall₂_iff_get]
    refine ⟨by simp [node, hd], fun i h1 h2 => ?_⟩
    simp only [node, List.get_eq_getElem, List.getElem_ofFn]
    rw [List.getD_eq_getElem?_getD, List.getElem?_eq_getElem h1]
    simp only [Option.getD_some]
    have := hg.2 _ (List.getElem_mem h1)
    exact ⟨Int.emod_nonneg _ this.ne', Int.emod_lt_of_pos _ this⟩
  obtain ⟨g', hw, hget⟩ := c04_history ws g hg hlen hin
  have hst : ∀ (a : Fin n → ℝ) (p : List Int) (r : ℝ),
      Stamps g.dims kernel.cutoff a p r ↔
        ∃ q ∈ nodes, p = node a q ∧ r = dist q := by
    intro a p r
    have hbound : ∀ z : ℤ, z < truncInt (2 * kernel.cutoff) ↔ ((z : ℤ) : ℝ) + 1 ≤ 2 * kernel.cutoff := by
      intro z
      rw [htr, ← Int.add_one_le_iff, Int.le_floor]
      push_cast
      rfl
    constructor
    · rintro ⟨q, hq, hp, hr⟩
      refine ⟨List.ofFn q, (hnm _).mpr (inBox_replicate.mpr ⟨q, rfl, fun k => ⟨(hq k).1, (hbound _).mpr (hq k).2⟩⟩),
        ?_, ?_⟩
      · rw [hp]; simp only [node, vecOf, getD_ofFn]
      · rw [hr]; simp only [dist, vecOf, getD_ofFn]
    · rintro ⟨l, hl, hp, hr⟩
      obtain ⟨q, rfl, hq⟩ := inBox_replicate.mp ((hnm l).mp hl)
      refine ⟨q, fun k => ⟨(hq k).1, (hbound _).mp (hq k).2⟩, ?_, ?_⟩
      · rw [hp]; simp only [node, vecOf, getD_ofFn]
      · rw [hr]; simp only [dist, vecOf, getD_ofFn]
  refine ⟨m, os, g', hos, by rw [hbuild, hw], writes_dims hw, fun p hp => ?_⟩
  rw [hget p hp]
  cases hf : ws.reverse.find? (fun w => w.1 == p) with
  | none =>
    refine Or.inl ⟨rfl, ?_⟩
    intro a ha r hs
    obtain ⟨q, hq, hpq, -⟩ := (hst a p r).mp hs
    rw [List.find?_eq_none] at hf
    refine hf (node a q, kernel.eval (dist q)) ?_ (by simp [hpq])
    rw [List.mem_reverse, hws]
    simp only [W, List.mem_flatMap, List.mem_singleton]
    exact ⟨a, ha, q, hq, rfl⟩
  | some w =>
    right
    rw [hws] at hf
    obtain ⟨l1, a, l2, hsplit, hw, hP, hl2⟩ := find_last W _ _ hf
    simp only [W, List.mem_flatMap, List.mem_singleton] at hw
    obtain ⟨q, hq, rfl⟩ := hw
    have hp' : node a q = p := by simpa using hP
    refine ⟨l1, a, l2, dist q, hsplit, (hst a p _).mpr ⟨q, hq, hp'.symm, rfl⟩, rfl, ?_⟩
    intro a' ha' r hs
    obtain ⟨q', hq', hpq', -⟩ := (hst a' p r).mp hs
    refine hl2 a' ha' (node a' q', kernel.eval (dist q')) ?_ (by simp [hpq'])
    simp only [W, List.mem_flatMap, List.mem_singleton]
    exact ⟨q', hq', rfl⟩

example : (1 : ℝ) / 2 ≤ (circleKernel 8).cutoff ∧ GoodDims ([32, 40] : List Int) := by
  refine ⟨by simp [circleKernel]; norm_num, Or.inl rfl, by decide⟩

/-- C106: with a kernel whose cutoff is below one half the loop over the nodes around an atom never ends. -/
theorem c106_small_kernel (n : ℕ) {cutoff : ℝ} (h0 : 0 ≤ cutoff) (h1 : cutoff < 1 / 2) (fuel : ℕ) :
    Product.forLoop fuel (newProduct (List.replicate (n + 1) (truncInt (2 * cutoff)))) = none := by
  have htr : truncInt (2 * cutoff) = 0 := by
    unfold truncInt
    rw [if_pos (by linarith), Int.floor_eq_iff]
    constructor <;> push_cast <;> linarith
  rw [htr]
  have hrun : ∀ (fuel : ℕ) (k : Int), 0 ≤ k → Product.forLoop fuel
      ⟨List.replicate (n + 1) 0, List.replicate n 0 ++ [k], false⟩ = none := by
    intro fuel
    induction fuel with
    | zero => intro k _; rfl
    | succ fuel ih =>
      intro k hk
      have hnext : Product.next ⟨List.replicate (n + 1) 0, List.replicate n 0 ++ [k], false⟩ =
          some (some (List.replicate n 0 ++ [k + 1]), ⟨List.replicate (n + 1) 0, List.replicate n 0 ++ [k + 1], false⟩) := by
        unfold Product.next
        have e1 : (List.replicate n (0 : Int) ++ [k]).length = n + 1 := by simp
        have e2 : (List.replicate n (0 : Int) ++ [k])[n]? = some k := by simp
        have e3 : (List.replicate (n + 1) (0 : Int))[n]? = some 0 := by
          rw [List.getElem?_replicate, if_pos (by omega)]
        have e4 : (List.replicate n (0 : Int) ++ [k]).set n (k + 1) = List.replicate n 0 ++ [k + 1] := by
          rw [List.set_append_right _ _ (by simp)]
          simp
        simp only [Bool.false_eq_true, if_false, e1, Nat.add_sub_cancel, List.length_replicate, e2, e3,
          Option.bind_eq_bind, Option.bind_some, e4]
        rw [if_neg (by omega), if_neg (by omega)]
        rw [if_pos (by
          rw [List.any_append]
          simp
          omega)]
        rfl
      rw [Product.forLoop, hnext]
      simp only [Option.bind_eq_bind, Option.bind_some]
      rw [ih (k + 1) (by omega)]
      rfl
  cases fuel with
  | zero => rfl
  | succ fuel =>
    have hfirst : newProduct (List.replicate (n + 1) 0) =
        ⟨List.replicate (n + 1) 0, List.replicate n 0 ++ [0], true⟩ := by
      unfold newProduct
      rw [List.length_replicate, List.replicate_succ']
    rw [hfirst, Product.forLoop]
    unfold Product.next
    simp only [if_true, Option.bind_eq_bind, Option.bind_some]
    rw [hrun fuel 0 le_rfl]
    rfl

/-- C106: the Gaussian kernel is one at the atom, falls strictly with the distance, and beyond its cutoff
it is below 0.0112 but never zero. -/
theorem c106_gaussian {w : ℝ} (hw : 0 < w) :
    (gaussianKernel w).eval 0 = 1 ∧
    (∀ x y, 0 ≤ x → x < y → (gaussianKernel w).eval y < (gaussianKernel w).eval x) ∧
    (∀ x, (gaussianKernel w).cutoff ≤ x →
      0 < (gaussianKernel w).eval x ∧ (gaussianKernel w).eval x < 112 / 10000) ∧
    (gaussianKernel w).eval w = Real.exp (-1 / 2) := by
  refine ⟨by simp [gaussianKernel], ?_, ?_, by simp [gaussianKernel, hw.ne']⟩
  · intro x y hx hxy
    simp only [gaussianKernel, Real.exp_lt_exp]
    have h1 : x / w < y / w := div_lt_div_of_pos_right hxy hw
    have h0 : 0 ≤ x / w := div_nonneg hx hw.le
    nlinarith
  · intro x hx
    simp only [gaussianKernel] at *
    refine ⟨Real.exp_pos _, ?_⟩
    have h3 : 3 ≤ x / w := by rwa [le_div_iff₀ hw]
    have h1 : -(x / w) ^ 2 / 2 ≤ -(9 / 2 : ℝ) := by nlinarith
    refine (Real.exp_le_exp.2 h1).trans_lt ?_
    have h2 : (2.7182818283 : ℝ) ^ 9 < Real.exp 9 := by
      have := Real.exp_one_gt_d9
      have h9 : Real.exp 9 = Real.exp 1 ^ 9 := by
        rw [← Real.exp_nat_mul]; norm_num
      rw [h9]
      exact pow_lt_pow_left₀ (by linarith) (by norm_num) (by norm_num)
    have h4 : Real.exp (-(9 / 2 : ℝ)) ^ 2 * Real.exp 9 = 1 := by
      rw [← Real.exp_nat_mul, ← Real.exp_add]
      norm_num
    by_contra hcon
    push Not at hcon
    have h5 : (112 / 10000 : ℝ) ^ 2 ≤ Real.exp (-(9 / 2 : ℝ)) ^ 2 := pow_le_pow_left₀ (by norm_num) hcon 2
    have h6 : (112 / 10000 : ℝ) ^ 2 * (2.7182818283 : ℝ) ^ 9 ≤
        Real.exp (-(9 / 2 : ℝ)) ^ 2 * Real.exp 9 := by
      gcongr
    rw [h4] at h6
    norm_num at h6

/-- C106: the circle kernel is one exactly for distances from zero up to one beyond its radius, so it is
not zero everywhere beyond its cutoff. -/
theorem c106_circle {r : ℝ} (hr : 0 ≤ r) :
    (∀ x, (circleKernel r).eval x = 1 ↔ 0 ≤ x ∧ x < r + 1) ∧
    (∀ x, (circleKernel r).eval x = 0 ↔ x < 0 ∨ r + 1 ≤ x) ∧
    ∃ x, (circleKernel r).cutoff < x ∧ (circleKernel r).eval x = 1 := by
  refine ⟨fun x => ?_, fun x => ?_, r + 1 / 2, ?_, ?_⟩
  · simp [circleKernel]
  · simp only [circleKernel]
    split_ifs with h
    · simp only [one_ne_zero, false_iff, not_or, not_lt, not_le]
      exact h
    · simp only [true_iff]
      by_contra hcon
      push Not at hcon
      exact h hcon
  · simp only [circleKernel]
    linarith
  · simp only [circleKernel]
    rw [if_pos ⟨by linarith, by linarith⟩]

end Gopf.Props
