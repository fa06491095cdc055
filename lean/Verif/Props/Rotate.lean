import Verif.Proofs.Index
import Verif.Props.Index
import Verif.Model.Crystal

/-!
# C105: rotation of grids and tilt grain boundaries
-/

namespace Gopf.Props
open Spec Pfutil Pfc

private theorem mapM_some {α β : Type} {f : α → Option β} {h : α → β} {l : List α}
    (hf : ∀ x ∈ l, f x = some (h x)) : l.mapM f = some (l.map h) := by
  induction l with
  | nil => rfl
  | cons x l ih =>
    rw [List.mapM_cons, hf x (by simp), ih fun y hy => hf y (by simp [hy])]
    rfl

theorem inBox_pair {d0 d1 x y : Int} : InBox [d0, d1] [x, y] ↔ (0 ≤ x ∧ x < d0) ∧ (0 ≤ y ∧ y < d1) := by
  unfold InBox
  simp

/-- The closest integer towards zero. -/
theorem truncInt_spec (r : ℝ) : |(truncInt r : ℝ)| ≤ |r| ∧ |r - truncInt r| < 1 := by
  unfold truncInt
  split_ifs with h
  · have h1 : (0 : ℝ) ≤ ⌊r⌋ := by exact_mod_cast Int.floor_nonneg.mpr h
    have h2 := Int.floor_le r
    have h3 := Int.lt_floor_add_one r
    rw [abs_of_nonneg h1, abs_of_nonneg h, abs_of_nonneg (by linarith)]
    exact ⟨h2, by linarith⟩
  · push Not at h
    have h1 : ((⌈r⌉ : ℤ) : ℝ) ≤ 0 := by
      have : ⌈r⌉ ≤ 0 := Int.ceil_le.mpr (by simpa using h.le)
      exact_mod_cast this
    have h2 := Int.le_ceil r
    have h3 := Int.ceil_lt_add_one r
    rw [abs_of_nonpos h1, abs_of_neg h, abs_of_nonpos (by linarith)]
    exact ⟨by linarith, by linarith⟩

theorem truncInt_unique {r : ℝ} {m : ℤ} (h1 : |(m : ℝ)| ≤ |r|) (h2 : |r - m| < 1) : truncInt r = m := by
  unfold truncInt
  rw [abs_lt] at h2
  split_ifs with h
  · rw [abs_of_nonneg h, abs_le] at h1
    exact Int.floor_eq_iff.mpr ⟨h1.2, by linarith⟩
  · push Not at h
    rw [abs_of_neg h, abs_le] at h1
    exact Int.ceil_eq_iff.mpr ⟨by linarith, by linarith⟩

theorem truncInt_int (m : ℤ) : truncInt (m : ℝ) = m :=
  truncInt_unique le_rfl (by simp)

/-- The shape of a valid grid in the plane. -/
structure PlaneGrid {α : Type} (g : Grid α) (d0 d1 : Int) : Prop where
  dims : g.dims = [d0, d1]
  pos0 : 0 < d0
  pos1 : 0 < d1
  len : (g.data.length : Int) = d0 * d1

private theorem rotate_eq {α : Type} {g : Grid α} {d0 d1 : Int} (hg : PlaneGrid g d0 d1) (angle : ℝ) :
    ∃ g', g.rotate2D angle = some g' ∧ PlaneGrid g' d0 d1 ∧ ∀ x y : Int, 0 ≤ x → x < d0 → 0 ≤ y → y < d1 →
      g'.get [x, y] = g.get [
        (truncInt (((x - d0 / 2 : Int) : ℝ) * Real.cos angle - ((y - d1 / 2 : Int) : ℝ) * Real.sin angle) + d0 / 2) % d0,
        (truncInt (((y - d1 / 2 : Int) : ℝ) * Real.cos angle + ((x - d0 / 2 : Int) : ℝ) * Real.sin angle) + d1 / 2) % d1] := by
  obtain ⟨hd, h0, h1, hl⟩ := hg
  have hG : GoodDims g.dims := by rw [hd]; exact ⟨Or.inl rfl, by simp [h0, h1]⟩
  have hN : numNodes g.dims = d0 * d1 := by rw [hd]; simp [numNodes]
  let src : Int → Int → List Int := fun x y => [
        (truncInt (((x - d0 / 2 : Int) : ℝ) * Real.cos angle - ((y - d1 / 2 : Int) : ℝ) * Real.sin angle) + d0 / 2) % d0,
        (truncInt (((y - d1 / 2 : Int) : ℝ) * Real.cos angle + ((x - d0 / 2 : Int) : ℝ) * Real.sin angle) + d1 / 2) % d1]
  have hwrap : ∀ x y, wrap (Grid.rotSource d0 d1 angle x y) g.dims = some (src x y) := by
    intro x y
    rw [hd, wrap_eq_emod (by simp [Grid.rotSource]) (by simp [h0, h1])]
    unfold Grid.rotSource
    simp only [Real.cos_neg, Real.sin_neg, mul_neg, sub_neg_eq_add, ← sub_eq_add_neg,
      Int.tdiv_eq_ediv_of_nonneg h0.le, Int.tdiv_eq_ediv_of_nonneg h1.le, List.zipWith_cons_cons,
      List.zipWith_nil_right, src]
  have hsrc : ∀ x y, InBox g.dims (src x y) := by
    intro x y
    rw [hd]
    exact inBox_pair.mpr ⟨⟨Int.emod_nonneg _ h0.ne', Int.emod_lt_of_pos _ h0⟩,
      Int.emod_nonneg _ h1.ne', Int.emod_lt_of_pos _ h1⟩
  have hget : ∀ p, InBox g.dims p → ∃ v, g.get p = some v := by
    intro p hp
    obtain ⟨n, hn, n0, n1, -⟩ := nodeIdx_spec hG hp
    have : n.toNat < g.data.length := by rw [hN] at n1; omega
    exact ⟨g.data[n.toNat], by simp [Grid.get, Grid.index, hn, goGet, n0, this]⟩
  have hNe : Nonempty α := by
    have : 0 < d0 * d1 := mul_pos h0 h1
    exact ⟨g.data[0]'(by omega)⟩
  choose! val hval using hget
  have hstep : ∀ i ∈ List.range g.data.length, g.rotNode d0 d1 angle i = some (val (src ((i : Int) / d1) ((i : Int) % d1))) := by
    intro i hi
    have hp : g.pos (i : Int) = some [(i : Int) / d1, (i : Int) % d1] := by
      unfold Grid.pos
      rw [hd]
      exact pos2_eq h1 (by omega)
    unfold Grid.rotNode
    rw [hp]
    simp only [Option.bind_eq_bind, Option.bind_some]
    rw [hwrap]
    exact hval _ (hsrc _ _)
  refine ⟨⟨g.dims, (List.range g.data.length).map fun (i : ℕ) => val (src ((i : Int) / d1) ((i : Int) % d1))⟩, ?_, ?_, ?_⟩
  · unfold Grid.rotate2D
    rw [hd]
    simp only
    rw [mapM_some hstep]
    rfl
  · exact ⟨hd, h0, h1, by simpa using hl⟩
  · intro x y x0 xd y0 yd
    have hxy : InBox g.dims [x, y] := by rw [hd]; exact inBox_pair.mpr ⟨⟨x0, xd⟩, y0, yd⟩
    obtain ⟨n, hn, n0, n1, hp⟩ := nodeIdx_spec hG hxy
    have hlt : n.toNat < g.data.length := by rw [hN] at n1; omega
    have hn' : ((n.toNat : ℕ) : Int) = n := Int.toNat_of_nonneg n0
    have hdiv : n / d1 = x ∧ n % d1 = y := by
      rw [hd] at hp
      have h2 : pos [d0, d1] n = some [n / d1, n % d1] := pos2_eq h1 n0
      rw [h2] at hp
      simpa using hp
    show ({ dims := g.dims, data := _ } : Grid α).get [x, y] = g.get (src x y)
    rw [hval _ (hsrc x y)]
    simp only [Grid.get, Grid.index, hn, goGet, Option.bind_eq_bind, Option.bind_some, n0, if_true]
    rw [List.getElem?_map, List.getElem?_range hlt, Option.map_some, hn', hdiv.1, hdiv.2]

/-- C105: the rotated grid holds, at every node, the value of the node one gets by turning the offset from
the centre by `angle` (counter clockwise in the coordinates of the grid), cutting decimals off and
wrapping. So the content is turned the other way round, by `-angle`. -/
theorem c105_rotate {α : Type} {g : Grid α} {d0 d1 : Int} (hg : PlaneGrid g d0 d1) (angle : ℝ) :
    ∃ g', g.rotate2D angle = some g' ∧ PlaneGrid g' d0 d1 ∧
      ∀ x y : Int, 0 ≤ x → x < d0 → 0 ≤ y → y < d1 → ∀ u v : ℝ,
        u = (x - d0 / 2 : Int) * Real.cos angle - (y - d1 / 2 : Int) * Real.sin angle →
        v = (x - d0 / 2 : Int) * Real.sin angle + (y - d1 / 2 : Int) * Real.cos angle →
        ∃ s t : Int, |(s : ℝ)| ≤ |u| ∧ |u - s| < 1 ∧ |(t : ℝ)| ≤ |v| ∧ |v - t| < 1 ∧
          g'.get [x, y] = g.get [(d0 / 2 + s) % d0, (d1 / 2 + t) % d1] := by
  obtain ⟨g', h1, h2, h3⟩ := rotate_eq hg angle
  refine ⟨g', h1, h2, ?_⟩
  rintro x y x0 xd y0 yd u v rfl rfl
  refine ⟨truncInt _, truncInt _, (truncInt_spec _).1, (truncInt_spec _).2, (truncInt_spec _).1,
    (truncInt_spec _).2, ?_⟩
  rw [h3 x y x0 xd y0 yd]
  congr 3
  · rw [add_comm]
  · rw [add_comm]
    congr 3
    ring

/-- C105: nothing but values of the grid appears in the rotated grid. -/
theorem c105_values {α : Type} {g g' : Grid α} {d0 d1 : Int} (hg : PlaneGrid g d0 d1) (angle : ℝ)
    (h : g.rotate2D angle = some g') : ∀ v ∈ g'.data, v ∈ g.data := by
  intro v hv
  obtain ⟨g'', h1, h2, h3⟩ := rotate_eq hg angle
  rw [h] at h1
  cases h1
  obtain ⟨n, hn, rfl⟩ := List.getElem_of_mem hv
  have hG : GoodDims g'.dims := by rw [h2.dims]; exact ⟨Or.inl rfl, by simp [hg.pos0, hg.pos1]⟩
  have hlen := h2.len
  obtain ⟨p, hp, hb, hi⟩ := pos_spec hG (n := (n : Int)) (by omega) (by
    rw [h2.dims]
    simp only [numNodes, List.prod_cons, List.prod_nil, mul_one]
    omega)
  rw [h2.dims] at hb
  match p, hb with
  | [x, y], hb =>
    obtain ⟨⟨x0, xd⟩, y0, yd⟩ := inBox_pair.mp hb
    have hgv := h3 x y x0 xd y0 yd
    have e : g'.get [x, y] = some g'.data[n] := by
      simp [Grid.get, Grid.index, hi, goGet, hn]
    rw [e] at hgv
    have : ∀ (p : List Int) (v : α), g.get p = some v → v ∈ g.data := by
      intro p v hv
      unfold Grid.get at hv
      rw [Option.bind_eq_bind, Option.bind_eq_some_iff] at hv
      obtain ⟨i, -, hv⟩ := hv
      unfold goGet at hv
      split_ifs at hv
      exact List.mem_of_getElem? hv
    exact this _ _ hgv.symm
  | [], hb => cases hb
  | [_], hb => cases hb; rename_i hb; cases hb
  | _ :: _ :: _ :: _, hb => cases hb; rename_i hb; cases hb; rename_i hb; cases hb

theorem plane_ext {α : Type} {g g' : Grid α} {d0 d1 : Int} (hg : PlaneGrid g d0 d1) (hg' : PlaneGrid g' d0 d1)
    (h : ∀ x y : Int, 0 ≤ x → x < d0 → 0 ≤ y → y < d1 → g.get [x, y] = g'.get [x, y]) : g = g' := by
  obtain ⟨hd, h0, h1, hl⟩ := hg
  obtain ⟨hd', -, -, hl'⟩ := hg'
  have hG : GoodDims [d0, d1] := ⟨Or.inl rfl, by simp [h0, h1]⟩
  have hdata : g.data = g'.data := by
    apply List.ext_getElem?
    intro n
    by_cases hn : (n : Int) < d0 * d1
    · obtain ⟨p, hp, hb, hi⟩ := pos_spec hG (n := (n : Int)) (by omega) (by
        simp only [numNodes, List.prod_cons, List.prod_nil, mul_one]; omega)
      match p, hb with
      | [x, y], hb =>
        obtain ⟨⟨x0, xd⟩, y0, yd⟩ := inBox_pair.mp hb
        have := h x y x0 xd y0 yd
        simpa [Grid.get, Grid.index, hd, hd', hi, goGet] using this
      | [], hb => cases hb
      | [_], hb => cases hb; rename_i hb; cases hb
      | _ :: _ :: _ :: _, hb => cases hb; rename_i hb; cases hb; rename_i hb; cases hb
    · rw [List.getElem?_eq_none (by omega), List.getElem?_eq_none (by omega)]
  cases g
  cases g'
  simp_all

/-- C105: rotation by zero does nothing. -/
theorem c105_zero {α : Type} {g : Grid α} {d0 d1 : Int} (hg : PlaneGrid g d0 d1) : g.rotate2D 0 = some g := by
  obtain ⟨g', h1, h2, h3⟩ := rotate_eq hg 0
  rw [h1]
  congr 1
  refine plane_ext h2 hg fun x y x0 xd y0 yd => ?_
  rw [h3 x y x0 xd y0 yd]
  simp only [Real.cos_zero, Real.sin_zero, mul_one, mul_zero, sub_zero, add_zero, truncInt_int, sub_add_cancel]
  rw [Int.emod_eq_of_lt x0 xd, Int.emod_eq_of_lt y0 yd]

/-- C105: a quarter turn of a square grid moves every value exactly, with the coordinates counted from the
centre and wrapped. -/
theorem c105_quarter {α : Type} {g : Grid α} {d : Int} (hg : PlaneGrid g d d) :
    ∃ g', g.rotate2D (Real.pi / 2) = some g' ∧ PlaneGrid g' d d ∧ ∀ x y : Int, 0 ≤ x → x < d → 0 ≤ y → y < d →
      g'.get [x, y] = g.get [(2 * (d / 2) - y) % d, x] := by
  obtain ⟨g', h1, h2, h3⟩ := rotate_eq hg (Real.pi / 2)
  refine ⟨g', h1, h2, fun x y x0 xd y0 yd => ?_⟩
  rw [h3 x y x0 xd y0 yd]
  simp only [Real.cos_pi_div_two, Real.sin_pi_div_two, mul_one, mul_zero, zero_sub, zero_add]
  rw [← Int.cast_neg, truncInt_int, truncInt_int, sub_add_cancel, Int.emod_eq_of_lt x0 xd]
  congr 3
  ring

/-- C105: four quarter turns of a square grid restore it. -/
theorem c105_full_turn {α : Type} {g : Grid α} {d : Int} (hg : PlaneGrid g d d) :
    (((g.rotate2D (Real.pi / 2)).bind fun g => g.rotate2D (Real.pi / 2)).bind fun g =>
      g.rotate2D (Real.pi / 2)).bind (fun g => g.rotate2D (Real.pi / 2)) = some g := by
  obtain ⟨g1, a1, p1, e1⟩ := c105_quarter hg
  obtain ⟨g2, a2, p2, e2⟩ := c105_quarter p1
  obtain ⟨g3, a3, p3, e3⟩ := c105_quarter p2
  obtain ⟨g4, a4, p4, e4⟩ := c105_quarter p3
  rw [a1, Option.bind_some, a2, Option.bind_some, a3, Option.bind_some, a4]
  congr 1
  refine plane_ext p4 hg fun x y x0 xd y0 yd => ?_
  have hd := hg.pos0
  have hm : ∀ z : Int, 0 ≤ (2 * (d / 2) - z) % d ∧ (2 * (d / 2) - z) % d < d := fun z =>
    ⟨Int.emod_nonneg _ hd.ne', Int.emod_lt_of_pos _ hd⟩
  have hinv : ∀ z : Int, 0 ≤ z → z < d → (2 * (d / 2) - (2 * (d / 2) - z) % d) % d = z := by
    intro z z0 zd
    rw [Int.sub_emod, Int.emod_emod, ← Int.sub_emod]
    rw [show 2 * (d / 2) - (2 * (d / 2) - z) = z by ring, Int.emod_eq_of_lt z0 zd]
  rw [e4 x y x0 xd y0 yd, e3 _ _ (hm y).1 (hm y).2 x0 xd, e2 _ _ (hm x).1 (hm x).2 (hm y).1 (hm y).2,
    e1 _ _ (hm _).1 (hm _).2 (hm x).1 (hm x).2, hinv x x0 xd, hinv y y0 yd]

/-- C105: a grid that is not two dimensional is refused. -/
theorem c105_panics {α : Type} (g : Grid α) (h : g.dims.length ≠ 2) (angle : ℝ) : g.rotate2D angle = none := by
  unfold Grid.rotate2D
  match hd : g.dims with
  | [] => rfl
  | [_] => rfl
  | [_, _] => rw [hd] at h; simp at h
  | _ :: _ :: _ :: _ => rfl

private theorem fill_rows {α : Type} {d0 d1 : Int} (val : Int → Int → α) (rows : ℕ) (hr : (rows : Int) ≤ d0)
    {g : Grid α} (hg : PlaneGrid g d0 d1) (step : Grid α → ℕ → ℕ → Option (Grid α))
    (hstep : ∀ (g : Grid α) (ix iy : ℕ), (ix : Int) < d0 → (iy : Int) < d1 → step g ix iy = g.set [(ix : Int), (iy : Int)] (val ix iy)) :
    ∃ g', (List.range rows).foldlM (fun g ix => (List.range d1.toNat).foldlM (fun g iy => step g ix iy) g) g = some g' ∧
      PlaneGrid g' d0 d1 ∧ ∀ x y : Int, 0 ≤ x → x < d0 → 0 ≤ y → y < d1 →
        g'.get [x, y] = if x < rows then some (val x y) else g.get [x, y] := by
  have hrow : ∀ (ix : ℕ) (hix : (ix : Int) < d0) (cols : ℕ) (hc : (cols : Int) ≤ d1) (g : Grid α), PlaneGrid g d0 d1 →
      ∃ g', (List.range cols).foldlM (fun g iy => step g ix iy) g = some g' ∧ PlaneGrid g' d0 d1 ∧
        ∀ x y : Int, 0 ≤ x → x < d0 → 0 ≤ y → y < d1 →
          g'.get [x, y] = if x = ix ∧ y < cols then some (val x y) else g.get [x, y] := by
    intro ix hix cols
    induction cols with
    | zero =>
      intro _ g hg
      exact ⟨g, rfl, hg, fun x y _ _ y0 _ => by rw [if_neg (by omega)]⟩
    | succ cols ih =>
      intro hc g hg
      obtain ⟨g1, h1, p1, e1⟩ := ih (by omega) g hg
      have hG : GoodDims g1.dims := by rw [p1.dims]; exact ⟨Or.inl rfl, by simp [p1.pos0, p1.pos1]⟩
      have hb : InBox g1.dims [(ix : Int), (cols : Int)] := by
        rw [p1.dims]; exact inBox_pair.mpr ⟨⟨by omega, hix⟩, by omega, by omega⟩
      obtain ⟨g2, h2, hd2, hl2, e2⟩ := c04_get_set g1 hG (by
        rw [p1.len, p1.dims]; simp [numNodes]) _ hb (val ix cols)
      refine ⟨g2, ?_, ⟨by rw [hd2, p1.dims], p1.pos0, p1.pos1, by rw [hl2, p1.len]⟩, ?_⟩
      · rw [List.range_succ, List.foldlM_append, h1]
        simp only [Option.bind_eq_bind, Option.bind_some, List.foldlM_cons, List.foldlM_nil, hstep g1 ix cols hix (by omega), h2]
        rfl
      · intro x y x0 xd y0 yd
        rw [e2 [x, y] (by rw [p1.dims]; exact inBox_pair.mpr ⟨⟨x0, xd⟩, y0, yd⟩), e1 x y x0 xd y0 yd]
        by_cases hxy : ([x, y] : List Int) = [(ix : Int), (cols : Int)]
        · rw [if_pos hxy]
          simp only [List.cons.injEq, and_true] at hxy
          rw [if_pos ⟨hxy.1, by omega⟩, hxy.1, hxy.2]
        · rw [if_neg hxy]
          have : ¬ (x = ix ∧ y = cols) := by simpa using hxy
          by_cases hc2 : x = ix ∧ y < cols
          · rw [if_pos hc2, if_pos ⟨hc2.1, by omega⟩]
          · rw [if_neg hc2, if_neg (by omega)]
  induction rows with
  | zero => exact ⟨g, rfl, hg, fun x y x0 _ _ _ => by rw [if_neg (by omega)]⟩
  | succ rows ih =>
    obtain ⟨g1, h1, p1, e1⟩ := ih (by omega)
    obtain ⟨g2, h2, p2, e2⟩ := hrow rows (by omega) d1.toNat (by have := hg.pos1; omega) g1 p1
    refine ⟨g2, ?_, p2, ?_⟩
    · rw [List.range_succ, List.foldlM_append, h1]
      simp only [Option.bind_eq_bind, Option.bind_some, List.foldlM_cons, List.foldlM_nil, h2]
      rfl
    · intro x y x0 xd y0 yd
      rw [e2 x y x0 xd y0 yd, e1 x y x0 xd y0 yd]
      have := hg.pos1
      by_cases hx : x = rows
      · rw [if_pos ⟨hx, by omega⟩, if_pos (by omega)]
      · rw [if_neg (by omega)]
        by_cases hx2 : x < rows
        · rw [if_pos hx2, if_pos (by omega)]
        · rw [if_neg hx2, if_neg (by omega)]

/-- C105: the tilt grain boundary consists of the grid rotated by half of the angle in the first half and
of the grid rotated by half of the angle in the other direction in the second half. -/
theorem c105_tilt {α : Type} {g : Grid α} {d0 d1 : Int} (hg : PlaneGrid g d0 d1) (angle : ℝ) :
    ∃ r s g', g.rotate2D (angle / 2) = some r ∧ g.rotate2D (-(angle / 2)) = some s ∧
      tiltGB g angle = some g' ∧ PlaneGrid g' d0 d1 ∧
      ∀ x y : Int, 0 ≤ x → x < d0 → 0 ≤ y → y < d1 →
        g'.get [x, y] = if x < d0 / 2 then r.get [x, y] else s.get [x, y] := by
  obtain ⟨r, hr, pr, -⟩ := rotate_eq hg (angle / 2)
  obtain ⟨s, hs, ps, -⟩ := rotate_eq hg (-(angle / 2))
  have hget : ∀ x y : Int, 0 ≤ x → x < d0 → 0 ≤ y → y < d1 → ∃ v, r.get [x, y] = some v := by
    intro x y x0 xd y0 yd
    have hG : GoodDims r.dims := by rw [pr.dims]; exact ⟨Or.inl rfl, by simp [pr.pos0, pr.pos1]⟩
    obtain ⟨n, hn, n0, n1, -⟩ := nodeIdx_spec hG (p := [x, y]) (by
      rw [pr.dims]; exact inBox_pair.mpr ⟨⟨x0, xd⟩, y0, yd⟩)
    have hN : numNodes r.dims = d0 * d1 := by rw [pr.dims]; simp [numNodes]
    have := pr.len
    have : n.toNat < r.data.length := by rw [hN] at n1; omega
    exact ⟨r.data[n.toNat], by simp [Grid.get, Grid.index, hn, goGet, n0, this]⟩
  have h0 := hg.pos0
  have h1 := hg.pos1
  obtain ⟨v0, hv0⟩ := hget 0 0 le_rfl h0 le_rfl h1
  let val : Int → Int → α := fun x y => (r.get [x, y]).getD v0
  have hrows : (((d0 / 2).toNat : ℕ) : Int) = d0 / 2 := Int.toNat_of_nonneg (by omega)
  have key : ∃ g', (List.range (d0.tdiv 2).toNat).foldlM (fun (g : Grid α) (ix : ℕ) =>
      (List.range d1.toNat).foldlM (fun (g : Grid α) (iy : ℕ) => do
        let v ← r.get [(ix : Int), (iy : Int)]
        g.set [(ix : Int), (iy : Int)] v) g) s = some g' ∧
      PlaneGrid g' d0 d1 ∧ ∀ x y : Int, 0 ≤ x → x < d0 → 0 ≤ y → y < d1 →
        g'.get [x, y] = if x < d0 / 2 then some (val x y) else s.get [x, y] := by
    obtain ⟨g', a, b, c⟩ := fill_rows val (d0 / 2).toNat (by omega) ps
      (fun g ix iy => do
        let v ← r.get [(ix : Int), (iy : Int)]
        g.set [(ix : Int), (iy : Int)] v) (by
          intro g ix iy hx hy
          obtain ⟨v, hv⟩ := hget ix iy (by omega) hx (by omega) hy
          simp only [val, hv, Option.getD_some]
          rfl)
    refine ⟨g', ?_, b, ?_⟩
    · rw [← a, Int.tdiv_eq_ediv_of_nonneg h0.le]
    · intro x y x0 xd y0 yd
      rw [c x y x0 xd y0 yd, hrows]
  obtain ⟨g', a, b, c⟩ := key
  refine ⟨r, s, g', hr, hs, ?_, b, ?_⟩
  · unfold tiltGB
    rw [hg.dims]
    simp only [Grid.copy]
    have hs' : g.rotate2D (-angle / 2) = some s := by rw [neg_div]; exact hs
    have hr' : ({ dims := g.dims, data := g.data } : Grid α).rotate2D (angle / 2) = some r := hr
    rw [hr', hs']
    exact a
  · intro x y x0 xd y0 yd
    rw [c x y x0 xd y0 yd]
    split_ifs with hx
    · obtain ⟨v, hv⟩ := hget x y x0 xd y0 yd
      simp only [val, hv, Option.getD_some]
    · rfl

example : PlaneGrid (⟨[2, 3], [1, 2, 3, 4, 5, 6]⟩ : Grid ℝ) 2 3 := ⟨rfl, by decide, by decide, by decide⟩

end Gopf.Props
