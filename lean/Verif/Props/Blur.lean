import Verif.Proofs.Blur

/-!
# C05, C06: blurring on a periodic grid
-/

namespace Gopf.Props
open Spec Pfutil

variable {K : Type} [Field K]

/-- C05: the sum over all nodes is preserved by every kernel with non-vanishing total weight. -/
theorem c05_sum (dims : List Int) (h : GoodDims dims) (data : List K)
    (hlen : (data.length : Int) = numNodes dims) (kernel : BlurKernel K)
    (hcut : 0 ≤ kernel.cutoff)
    (hw : windowWeight kernel.value dims.length kernel.cutoff ≠ 0) :
    ∃ out, blur data dims kernel = some out ∧ out.length = data.length ∧ out.sum = data.sum := by
  refine ⟨_, blur_eq h hlen kernel hcut, by simp, ?_⟩
  rw [range_map_sum, ← Finset.sum_div, sum_list_comm, div_eq_iff hw]
  have hN : data.length = (numNodes dims).toNat := by omega
  have key : (window dims.length kernel.cutoff).map
      (fun s => ∑ i ∈ Finset.range data.length, data.getD (shiftNode dims s i) 0 * kernel.value s) =
      (window dims.length kernel.cutoff).map (fun s => data.sum * kernel.value s) := by
    apply List.map_congr_left
    intro s hs
    rw [← Finset.sum_mul, hN, sum_shift h (window_length hcut hs) (fun i => data.getD i 0), ← hN,
      ← list_sum_eq_range]
  rw [key, List.sum_map_mul_left]
  rfl

/-- C05: a constant grid is unchanged. -/
theorem c05_constant (dims : List Int) (h : GoodDims dims) (v : K) (kernel : BlurKernel K)
    (hcut : 0 ≤ kernel.cutoff)
    (hw : windowWeight kernel.value dims.length kernel.cutoff ≠ 0) :
    blur (List.replicate (numNodes dims).toNat v) dims kernel =
      some (List.replicate (numNodes dims).toNat v) := by
  have hN := numNodes_nonneg h
  rw [blur_eq h (by simp; omega) kernel hcut]
  congr 1
  apply List.ext_getElem (by simp)
  intro i h1 h2
  simp only [List.length_map, List.length_range, List.length_replicate] at h1
  simp only [List.getElem_map, List.getElem_range, List.getElem_replicate]
  rw [div_eq_iff hw, windowWeight, ← List.sum_map_mul_left]
  congr 1
  apply List.map_congr_left
  intro s hs
  obtain ⟨_, _, _, _, hlt, _⟩ := shiftNode_spec h (window_length hcut hs) (i := i) (by omega)
  have : shiftNode dims s i < (numNodes dims).toNat := by omega
  simp [List.getD_eq_getElem?_getD, this]

/-- C05: with a non-negative kernel no value leaves the range of the input. -/
theorem c05_bounds [LinearOrder K] [IsStrictOrderedRing K] (dims : List Int) (h : GoodDims dims)
    (data : List K) (hlen : (data.length : Int) = numNodes dims) (kernel : BlurKernel K)
    (hcut : 0 ≤ kernel.cutoff) (hk : ∀ s, 0 ≤ kernel.value s)
    (hw : windowWeight kernel.value dims.length kernel.cutoff ≠ 0) (lo hi : K)
    (hlo : ∀ x ∈ data, lo ≤ x) (hhi : ∀ x ∈ data, x ≤ hi) :
    ∃ out, blur data dims kernel = some out ∧ ∀ y ∈ out, lo ≤ y ∧ y ≤ hi := by
  refine ⟨_, blur_eq h hlen kernel hcut, ?_⟩
  intro y hy
  obtain ⟨i, hi', rfl⟩ := List.mem_map.mp hy
  rw [List.mem_range] at hi'
  have hwpos : 0 < windowWeight kernel.value dims.length kernel.cutoff := by
    refine lt_of_le_of_ne ?_ (Ne.symm hw)
    apply List.sum_nonneg
    intro x hx
    obtain ⟨s, _, rfl⟩ := List.mem_map.mp hx
    exact hk s
  have hmem : ∀ s ∈ window dims.length kernel.cutoff, data.getD (shiftNode dims s i) 0 ∈ data := by
    intro s hs
    obtain ⟨_, _, _, _, hlt, _⟩ := shiftNode_spec h (window_length hcut hs) (i := i) (by omega)
    have hlt' : shiftNode dims s i < data.length := by omega
    rw [List.getD_eq_getElem?_getD, List.getElem?_eq_getElem hlt']
    exact List.getElem_mem hlt'
  constructor
  · rw [le_div_iff₀ hwpos, windowWeight, ← List.sum_map_mul_left]
    apply List.sum_le_sum
    intro s hs
    exact mul_le_mul_of_nonneg_right (hlo _ (hmem s hs)) (hk s)
  · rw [div_le_iff₀ hwpos, windowWeight, ← List.sum_map_mul_left]
    apply List.sum_le_sum
    intro s hs
    exact mul_le_mul_of_nonneg_right (hhi _ (hmem s hs)) (hk s)

/-- C05: the blurred value at a node is the weighted mean of the values at the periodic translates
of its position. -/
theorem c05_pointwise (dims : List Int) (h : GoodDims dims) (g : Grid K)
    (hdims : g.dims = dims) (hlen : (g.data.length : Int) = numNodes dims) (kernel : BlurKernel K)
    (hcut : 0 ≤ kernel.cutoff) :
    ∃ out, blur g.data dims kernel = some out ∧ ∀ p, InBox dims p →
      Grid.get ⟨dims, out⟩ p = some (((window dims.length kernel.cutoff).map fun s =>
        (g.get (torusShift dims p s)).getD 0 * kernel.value s).sum /
          windowWeight kernel.value dims.length kernel.cutoff) := by
  refine ⟨_, blur_eq h hlen kernel hcut, ?_⟩
  intro p hp
  obtain ⟨n, hn, n0, n1, hpn⟩ := nodeIdx_spec h hp
  have hnl : n.toNat < g.data.length := by omega
  have hnn : ((n.toNat : Nat) : Int) = n := by omega
  simp only [Grid.get, Grid.index, hn, Option.bind_eq_bind, Option.bind_some, goGet, n0, if_true,
    List.getElem?_map, List.getElem?_range hnl, Option.map_some]
  congr 3
  apply List.map_congr_left
  intro s hs
  obtain ⟨c, hc, hb, hsn, hlt, _⟩ := shiftNode_spec h (window_length hcut hs) (i := n.toNat) (by omega)
  rw [hnn, hpn] at hc
  obtain rfl : p = c := by simpa using hc
  have hlt' : shiftNode dims s n.toNat < g.data.length := by omega
  rw [hdims, hsn]
  simp [List.getD_eq_getElem?_getD]

example : GoodDims [3, 2] ∧ (([1, 2, 3, 4, 5, 7] : List ℚ).length : Int) = numNodes [3, 2] ∧
    0 ≤ (boxKernel ℚ 1).cutoff ∧ (∀ s, 0 ≤ (boxKernel ℚ 1).value s) ∧
    windowWeight (boxKernel ℚ 1).value 2 (boxKernel ℚ 1).cutoff ≠ 0 := by
  refine ⟨⟨by simp, by simp⟩, by decide, by decide, ?_, by decide +kernel⟩
  intro s
  simp only [boxKernel]
  split_ifs <;> simp

/-- C06: the contract of a blur kernel, "zero beyond the cut-off" (pfutil/blur.go:8-11). -/
def ZeroBeyondCutoff (kernel : BlurKernel K) : Prop :=
  ∀ x : List Int, (∃ xi ∈ x, xi > kernel.cutoff ∨ xi < -kernel.cutoff) → kernel.value x = 0

/-- C06: the box kernel meets the contract exactly for widths up to two. -/
theorem c06_box_contract (w : Int) (hw : 0 ≤ w) :
    ZeroBeyondCutoff (boxKernel K w) ↔ w ≤ 2 := by
  have hdiv : w.tdiv 2 = w / 2 := Int.tdiv_eq_ediv_of_nonneg hw
  constructor
  · intro h
    by_contra hgt
    have := h [w] ⟨w, by simp, Or.inl (by simp [boxKernel, hdiv]; omega)⟩
    simp [boxKernel] at this
    omega
  · intro h2 x hx
    obtain ⟨xi, hxi, hlt⟩ := hx
    simp only [boxKernel, hdiv] at hlt ⊢
    rw [if_pos]
    rw [List.any_eq_true]
    refine ⟨xi, hxi, ?_⟩
    simp
    omega

/-- C06: with width at least one, every shift of the scanned window has weight one: the blur is the
plain average over a window of `2 * (w / 2 + 1) + 1` nodes per direction. -/
theorem c06_box_is_average (dims : List Int) (h : GoodDims dims) (g : Grid K)
    (hdims : g.dims = dims) (hlen : (g.data.length : Int) = numNodes dims) (w : Int) (hw : 1 ≤ w) :
    ∃ out, blur g.data dims (boxKernel K w) = some out ∧ ∀ p, InBox dims p →
      Grid.get ⟨dims, out⟩ p = some (((window dims.length (w / 2 + 1)).map fun s =>
        (g.get (torusShift dims p s)).getD 0).sum /
          (((2 * (w / 2 + 1) + 1) ^ dims.length : Int) : K)) := by
  have hc : (boxKernel K w).cutoff = w / 2 + 1 := by
    simp [boxKernel, Int.tdiv_eq_ediv_of_nonneg (by omega : 0 ≤ w)]
  have hc0 : 0 ≤ w / 2 + 1 := by omega
  have hv : ∀ s ∈ window dims.length (w / 2 + 1), (boxKernel K w).value s = 1 := by
    intro s hs
    have := ((mem_window hc0 s).mp hs).2
    simp only [boxKernel]
    rw [if_neg]
    simp only [List.any_eq_true, not_exists, not_and]
    intro x hx
    have := this x hx
    simp
    omega
  obtain ⟨out, ho, hp⟩ := c05_pointwise dims h g hdims hlen (boxKernel K w) (by rw [hc]; exact hc0)
  refine ⟨out, ho, fun p hpb => ?_⟩
  rw [hp p hpb, hc]
  congr 2
  · congr 1
    apply List.map_congr_left
    intro s hs
    rw [hv s hs, mul_one]
  · rw [windowWeight, List.map_congr_left (g := fun _ => (1 : K)) hv]
    have hlen : (window dims.length (w / 2 + 1)).length = (2 * (w / 2 + 1) + 1).toNat ^ dims.length := by
      simp [window, allTuples_length]
    rw [List.map_const', List.sum_replicate, hlen, nsmul_eq_mul, mul_one]
    have : ((2 * (w / 2 + 1) + 1).toNat : Int) = 2 * (w / 2 + 1) + 1 := by omega
    rw [← this]
    push_cast
    rfl

/-- C06: width zero is the identity. -/
theorem c06_box_zero (dims : List Int) (h : GoodDims dims) (data : List K)
    (hlen : (data.length : Int) = numNodes dims) :
    blur data dims (boxKernel K 0) = some data := by
  have hc : (boxKernel K 0).cutoff = 1 := by simp [boxKernel]
  have hz : List.replicate dims.length (0 : Int) ∈ window dims.length 1 := by
    rw [mem_window (by decide)]
    refine ⟨by simp, ?_⟩
    intro x hx
    rw [List.mem_replicate] at hx
    omega
  have hv : ∀ s ∈ window dims.length 1, s ≠ List.replicate dims.length (0 : Int) →
      (boxKernel K 0).value s = 0 := by
    intro s hs hne
    have hl := ((mem_window (by decide) s).mp hs).1
    simp only [boxKernel]
    rw [if_pos]
    by_contra hcon
    apply hne
    rw [List.eq_replicate_iff]
    refine ⟨hl, ?_⟩
    intro x hx
    simp only [List.any_eq_true, not_exists, not_and] at hcon
    have := hcon x hx
    simp at this
    omega
  have hv0 : (boxKernel K 0).value (List.replicate dims.length (0 : Int)) = 1 := by
    simp only [boxKernel]
    rw [if_neg]
    simp only [List.any_eq_true, not_exists, not_and]
    intro x hx
    rw [List.mem_replicate] at hx
    simp [hx.2]
  rw [blur_eq h hlen _ (by rw [hc]; decide), hc, windowWeight,
    sum_map_single _ (window_nodup _ _) _ hz _ hv, hv0]
  congr 1
  apply List.ext_getElem (by simp)
  intro i h1 h2
  simp only [List.getElem_map, List.getElem_range, div_one]
  rw [sum_map_single _ (window_nodup _ _) _ hz _ (fun s hs hne => by rw [hv s hs hne, mul_zero]),
    hv0, mul_one]
  obtain ⟨c, hcp, hb, hsn, hlt, hp⟩ := shiftNode_spec h (s := List.replicate dims.length 0)
    (by simp) (i := i) (by omega)
  have hts : ∀ (ds c : List Int), InBox ds c → torusShift ds c (List.replicate ds.length 0) = c := by
    intro ds c hb
    induction hb with
    | nil => rfl
    | cons h1 _ ih =>
      simp only [torusShift, List.length_cons, List.replicate_succ, List.zipWith_cons_cons,
        List.cons.injEq] at ih ⊢
      exact ⟨by rw [add_zero, Int.emod_eq_of_lt h1.1 h1.2], ih⟩
  rw [hts _ _ hb] at hsn
  obtain ⟨c', hc', _, hn'⟩ := pos_spec h (Int.natCast_nonneg i) (by omega : (i : Int) < numNodes dims)
  rw [hcp] at hc'
  obtain rfl : c = c' := by simpa using hc'
  rw [hn'] at hsn
  have : shiftNode dims (List.replicate dims.length 0) i = i := by
    have := Option.some.inj hsn
    omega
  rw [this]
  simp [List.getD_eq_getElem?_getD, h2]

end Gopf.Props
