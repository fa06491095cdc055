import Verif.Props.Conduction
import Verif.Props.Blur

/-!
# C142: the grains of the conductivity example
-/

namespace Gopf.Props
open Spec Pf Pfutil
open scoped BigOperators Topology
open Filter

/-! ### Specification -/

/-- The value of a list of node values at a position. -/
noncomputable def fieldAt (N : ℕ) (l : List ℝ) (p : List Int) : ℝ := ((Grid.get ⟨[(N : Int), N], l⟩ p).getD 0)

/-- The grain at a position. -/
def grainAt (N : ℕ) (labels : List Int) (p : List Int) : Int := ((Grid.get ⟨[(N : Int), N], labels⟩ p).getD 0)

/-- The mean over the square of 11×11 nodes around a position, with periodic boundaries. -/
noncomputable def squareMean (N : ℕ) (u : List Int → ℝ) (p : List Int) : ℝ :=
  ((window 2 5).map fun s => u (torusShift [(N : Int), N] p s)).sum / 121

/-- The largest label, zero if there is none. -/
def Largest (labels : List Int) (m : ℕ) : Prop := (∀ l ∈ labels, l ≤ m) ∧ (m = 0 ∨ (m : Int) ∈ labels)

/-! ### The fields -/

theorem count_ge (l : List Int) (a : Int) :
    a ≤ l.foldl (fun n v => if v > n then v else n) a ∧ (∀ x ∈ l, x ≤ l.foldl (fun n v => if v > n then v else n) a) ∧
      (l.foldl (fun n v => if v > n then v else n) a = a ∨ l.foldl (fun n v => if v > n then v else n) a ∈ l) := by
  induction l generalizing a with
  | nil => simp
  | cons x l ih =>
    simp only [List.foldl_cons]
    split_ifs with hx
    · obtain ⟨h1, h2, h3⟩ := ih x
      refine ⟨by omega, ?_, ?_⟩
      · intro y hy
        rcases List.mem_cons.mp hy with rfl | hy
        · exact h1
        · exact h2 y hy
      · right
        rcases h3 with h3 | h3
        · rw [h3]; simp
        · exact List.mem_cons_of_mem _ h3
    · obtain ⟨h1, h2, h3⟩ := ih a
      refine ⟨h1, ?_, ?_⟩
      · intro y hy
        rcases List.mem_cons.mp hy with rfl | hy
        · omega
        · exact h2 y hy
      · rcases h3 with h3 | h3
        · exact Or.inl h3
        · exact Or.inr (List.mem_cons_of_mem _ h3)

theorem count_largest (labels : List Int) : Largest labels (countGrains labels).toNat := by
  obtain ⟨h1, h2, h3⟩ := count_ge labels 0
  unfold countGrains
  refine ⟨fun l hl => ?_, ?_⟩
  · have := h2 l hl
    omega
  · rcases h3 with h3 | h3
    · left; rw [h3]; rfl
    · right
      rw [Int.toNat_of_nonneg h1]
      exact h3

theorem largest_unique {labels : List Int} {m m' : ℕ} (h : Largest labels m) (h' : Largest labels m') : m = m' := by
  obtain ⟨a, b⟩ := h
  obtain ⟨a', b'⟩ := h'
  rcases b with b | b <;> rcases b' with b' | b'
  · omega
  · have := a _ b'; omega
  · have := a' _ b; omega
  · have := a _ b'
    have := a' _ b
    omega

theorem square_good {N : ℕ} (hN : 0 < N) : GoodDims [(N : Int), N] :=
  ⟨Or.inl rfl, by intro d hd; simp at hd; omega⟩

theorem square_nodes (N : ℕ) : numNodes [(N : Int), N] = ((N * N : ℕ) : Int) := by
  simp [numNodes]

theorem get_index {α : Type} {N : ℕ} {p : List Int} {i : ℕ} (hi : nodeIdx [(N : Int), N] p = some (i : Int)) (l : List α) :
    Grid.get ⟨[(N : Int), N], l⟩ p = l[i]? := by
  unfold Grid.get Grid.index
  simp only [hi]
  show goGet l (i : Int) = _
  unfold goGet
  simp

theorem box_index {N : ℕ} (hN : 0 < N) {p : List Int} (hp : InBox [(N : Int), N] p) :
    ∃ i : ℕ, i < N * N ∧ nodeIdx [(N : Int), N] p = some (i : Int) := by
  obtain ⟨n, hn, n0, n1, -⟩ := nodeIdx_spec (square_good hN) hp
  rw [square_nodes] at n1
  refine ⟨n.toNat, by omega, ?_⟩
  rw [hn]
  congr 1
  omega

theorem window_length : (window 2 5).length = 121 := by decide +kernel

/-- Blurring a list. -/
theorem blur_mean {N : ℕ} (hN : 0 < N) (data : List ℝ) (hd : data.length = N * N) :
    ∃ out, blur data [(N : Int), N] (boxKernel ℝ 8) = some out ∧ out.length = N * N ∧ out.sum = data.sum ∧
      ∀ p, InBox [(N : Int), N] p → fieldAt N out p = squareMean N (fieldAt N data) p := by
  have hlen : (data.length : Int) = numNodes [(N : Int), N] := by rw [hd, square_nodes]
  obtain ⟨out, ho, hp⟩ := c06_box_is_average [(N : Int), N] (square_good hN) (⟨[(N : Int), N], data⟩ : Grid ℝ) rfl hlen 8 (by norm_num)
  refine ⟨out, ho, ?_, ?_, ?_⟩
  · rw [blur_eq (square_good hN) hlen _ (by decide)] at ho
    obtain rfl := Option.some.inj ho
    simpa using hd
  · obtain ⟨out', ho', -, hs⟩ := c05_sum [(N : Int), N] (square_good hN) data hlen (boxKernel ℝ 8) (by decide) (by
      unfold windowWeight
      have hv : ∀ s ∈ window 2 (boxKernel ℝ 8).cutoff, (boxKernel ℝ 8).value s = 1 := by
        intro s hs
        have := ((mem_window (by decide) s).mp hs).2
        have hc : (boxKernel ℝ 8).cutoff = 5 := by decide
        rw [hc] at this
        simp only [boxKernel]
        rw [if_neg]
        simp only [List.any_eq_true, not_exists, not_and]
        intro x hx
        have := this x hx
        simp
        omega
      have hc : (boxKernel ℝ 8).cutoff = 5 := by decide
      show ((window 2 (boxKernel ℝ 8).cutoff).map _).sum ≠ 0
      rw [List.map_congr_left hv, List.map_const', List.sum_replicate, hc, window_length]
      norm_num)
    rw [ho] at ho'
    obtain rfl := Option.some.inj ho'
    exact hs
  · intro p hp'
    unfold fieldAt squareMean
    rw [hp p hp']
    simp only [Option.getD_some]
    norm_num

theorem mark_value {N : ℕ} (hN : 0 < N) {labels : List Int} (hl : labels.length = N * N) {work : List ℝ} (hw : work.length = N * N)
    (g : ℕ) {p : List Int} (hp : InBox [(N : Int), N] p) :
    fieldAt N (markGrain labels g work) p = if grainAt N labels p = (g : Int) then 1 else fieldAt N work p := by
  obtain ⟨i, hi, hidx⟩ := box_index hN hp
  unfold fieldAt grainAt markGrain
  rw [get_index hidx, get_index hidx, get_index hidx, List.getElem?_zipWith, List.getElem?_eq_getElem (by omega),
    List.getElem?_eq_getElem (by omega)]
  rfl

theorem mark_length {N : ℕ} {labels : List Int} (hl : labels.length = N * N) {work : List ℝ} (hw : work.length = N * N) (g : ℕ) :
    (markGrain labels g work).length = N * N := by
  simp [markGrain, hl, hw]

theorem mean_congr {N : ℕ} (hN : 0 < N) {u v : List Int → ℝ} (huv : ∀ q, InBox [(N : Int), N] q → u q = v q) {p : List Int}
    (hp : InBox [(N : Int), N] p) : squareMean N u p = squareMean N v p := by
  unfold squareMean
  congr 2
  refine List.map_congr_left fun s hs => huv _ ?_
  exact torusShift_inBox (square_good hN).2 hp ((mem_window (by decide) s).mp hs).1

theorem loop_fields {N : ℕ} (hN : 0 < N) {labels : List Int} (hl : labels.length = N * N) (c a : ℕ) (work : List ℝ)
    (hw : work.length = N * N) :
    ∃ fields, grainLoop N labels (List.range' a c) work = some fields ∧ fields.length = c ∧
      (∀ f ∈ fields, f.length = N * N) ∧
      (∀ (g : ℕ) (hg : g < fields.length), fields[g].sum = (markGrain labels (a + g) ((work :: fields).getD g [])).sum) ∧
      ∀ (g : ℕ) (hg : g < fields.length) p, InBox [(N : Int), N] p → fieldAt N fields[g] p = squareMean N (fun q =>
        if grainAt N labels q = ((a + g : ℕ) : Int) then 1 else fieldAt N ((work :: fields).getD g []) q) p := by
  induction c generalizing a work with
  | zero => exact ⟨[], rfl, rfl, by simp, by simp, by simp⟩
  | succ c ih =>
    obtain ⟨out, ho, hol, hos, hov⟩ := blur_mean hN (markGrain labels a work) (mark_length hl hw a)
    obtain ⟨rest, hr, hrl, hrf, hrs, hrv⟩ := ih (a + 1) out hol
    refine ⟨out :: rest, ?_, by simp [hrl], ?_, ?_, ?_⟩
    · rw [List.range'_succ]
      unfold grainLoop
      rw [ho]
      simp [hr]
    · intro f hf
      rcases List.mem_cons.mp hf with rfl | hf
      · exact hol
      · exact hrf f hf
    · intro g hg
      cases g with
      | zero => exact hos
      | succ g =>
        have hg' : g < rest.length := by simpa using hg
        have e : a + (g + 1) = a + 1 + g := by ring
        rw [e]
        exact hrs g hg'
    · intro g hg p hp
      cases g with
      | zero =>
        show fieldAt N out p = _
        rw [hov p hp]
        refine mean_congr hN (fun q hq => ?_) hp
        rw [mark_value hN hl hw a hq]
        rfl
      | succ g =>
        have hg' : g < rest.length := by simpa using hg
        show fieldAt N rest[g] p = _
        rw [hrv g hg' p hp]
        have e : a + (g + 1) = a + 1 + g := by ring
        rw [e]
        rfl

/-- C142: GetFields makes as many fields as the largest label. The field of grain `g` is the mean over 11×11 nodes of one at the
nodes of the grain and the field before, instead of zero, elsewhere. -/
theorem c142_fields {N : ℕ} (hN : 0 < N) {labels : List Int} (hl : labels.length = N * N) {m : ℕ} (hm : Largest labels m) :
    ∃ fields, getFields N labels = some fields ∧ fields.length = m ∧ (∀ f ∈ fields, f.length = N * N) ∧
      ∀ (g : ℕ) (hg : g < fields.length) p, InBox [(N : Int), N] p → fieldAt N fields[g] p = squareMean N (fun q =>
        if grainAt N labels q = (g : Int) then 1 else if g = 0 then 0 else fieldAt N (fields.getD (g - 1) []) q) p := by
  have hc : (countGrains labels).toNat = m := largest_unique (count_largest labels) hm
  obtain ⟨fields, h1, h2, h3, -, h4⟩ := loop_fields hN hl m 0 (List.replicate (N * N) 0) (by simp)
  refine ⟨fields, ?_, h2, h3, ?_⟩
  · unfold getFields
    rw [hc, List.range_eq_range']
    exact h1
  · intro g hg p hp
    rw [h4 g hg p hp]
    refine mean_congr hN (fun q hq => ?_) hp
    rw [Nat.zero_add]
    cases g with
    | zero =>
      simp only [if_true]
      obtain ⟨i, hi, hidx⟩ := box_index hN hq
      have : fieldAt N (List.replicate (N * N) 0) q = 0 := by
        unfold fieldAt
        rw [get_index hidx]
        simp [hi]
      show (if _ then (1 : ℝ) else fieldAt N (List.replicate (N * N) 0) q) = _
      rw [this]
    | succ g => rfl

/-- C142: a label that no node has gets a field all the same, with the sum of the field before. -/
theorem c142_empty {N : ℕ} (hN : 0 < N) {labels : List Int} (hl : labels.length = N * N) {fields : List (List ℝ)}
    (hf : getFields N labels = some fields) {g : ℕ} (hg : g + 1 < fields.length) (hno : ((g + 1 : ℕ) : Int) ∉ labels) :
    (fields[g + 1]).sum = fields[g].sum := by
  have hm := count_largest labels
  obtain ⟨fields', h1, h2, h3, h4, -⟩ := loop_fields hN hl (countGrains labels).toNat 0 (List.replicate (N * N) 0) (by simp)
  have : getFields N labels = some fields' := by
    unfold getFields
    rw [List.range_eq_range']
    exact h1
  obtain rfl := Option.some.inj (hf.symm.trans this)
  rw [h4 (g + 1) hg]
  have e1 : (List.replicate (N * N) (0 : ℝ) :: fields).getD (g + 1) [] = fields[g] := by
    simp [List.getD_eq_getElem?_getD, List.getElem?_eq_getElem (by omega : g < fields.length)]
  rw [e1, Nat.zero_add]
  congr 1
  have e2 : labels.length = (fields[g]).length := by rw [hl, h3 _ (List.getElem_mem _)]
  unfold markGrain
  generalize fields[g] = w at e2
  clear h1 h2 h3 h4 hf this e1 hm hl hg
  induction labels generalizing w with
  | nil => cases w <;> simp_all
  | cons x labels ih =>
    cases w with
    | nil => simp at e2
    | cons y w =>
      simp only [List.zipWith_cons_cons]
      simp only [List.mem_cons, not_or] at hno
      rw [if_neg (Ne.symm hno.1), ih hno.2 w (by simpa using e2)]

theorem mean_bounds {N : ℕ} (hN : 0 < N) {u : List Int → ℝ} {lo hi : ℝ} (hu : ∀ q, InBox [(N : Int), N] q → lo ≤ u q ∧ u q ≤ hi)
    {p : List Int} (hp : InBox [(N : Int), N] p) : lo ≤ squareMean N u p ∧ squareMean N u p ≤ hi := by
  have hs : ∀ s ∈ window 2 5, InBox [(N : Int), N] (torusShift [(N : Int), N] p s) := fun s hs =>
    torusShift_inBox (square_good hN).2 hp ((mem_window (by decide) s).mp hs).1
  have h1 := List.card_nsmul_le_sum ((window 2 5).map fun s => u (torusShift [(N : Int), N] p s)) lo (by
    intro x hx
    obtain ⟨s, h, rfl⟩ := List.mem_map.mp hx
    exact (hu _ (hs s h)).1)
  have h2 := List.sum_le_card_nsmul ((window 2 5).map fun s => u (torusShift [(N : Int), N] p s)) hi (by
    intro x hx
    obtain ⟨s, h, rfl⟩ := List.mem_map.mp hx
    exact (hu _ (hs s h)).2)
  rw [List.length_map, window_length, nsmul_eq_mul] at h1 h2
  unfold squareMean
  push_cast at h1 h2
  constructor
  · rw [le_div_iff₀ (by norm_num)]; linarith
  · rw [div_le_iff₀ (by norm_num)]; linarith

theorem mean_pos {N : ℕ} (hN : 0 < N) {u : List Int → ℝ} (hu : ∀ q, InBox [(N : Int), N] q → 0 ≤ u q)
    {p : List Int} (hp : InBox [(N : Int), N] p) {s : List Int} (hs : s ∈ window 2 5)
    (h : 0 < u (torusShift [(N : Int), N] p s)) : 0 < squareMean N u p := by
  have hs' : ∀ s ∈ window 2 5, InBox [(N : Int), N] (torusShift [(N : Int), N] p s) := fun s hs =>
    torusShift_inBox (square_good hN).2 hp ((mem_window (by decide) s).mp hs).1
  have h1 : u (torusShift [(N : Int), N] p s) ≤ ((window 2 5).map fun s => u (torusShift [(N : Int), N] p s)).sum :=
    List.single_le_sum (by
      intro x hx
      obtain ⟨s, h, rfl⟩ := List.mem_map.mp hx
      exact hu _ (hs' s h)) _ (List.mem_map.mpr ⟨s, hs, rfl⟩)
  unfold squareMean
  exact div_pos (h.trans_le h1) (by norm_num)

/-- C142: the fields of the grains have values between zero and one. -/
theorem c142_range {N : ℕ} (hN : 0 < N) {labels : List Int} (hl : labels.length = N * N) {fields : List (List ℝ)}
    (hf : getFields N labels = some fields) (g : ℕ) (hg : g < fields.length) {p : List Int} (hp : InBox [(N : Int), N] p) :
    0 ≤ fieldAt N fields[g] p ∧ fieldAt N fields[g] p ≤ 1 := by
  obtain ⟨fields', h1, -, -, h4⟩ := c142_fields hN hl (count_largest labels)
  obtain rfl := Option.some.inj (hf.symm.trans h1)
  induction g generalizing p with
  | zero =>
    rw [h4 0 hg p hp]
    refine mean_bounds hN (fun q hq => ?_) hp
    by_cases hgq : grainAt N labels q = ((0 : ℕ) : Int)
    · rw [if_pos hgq]; norm_num
    · rw [if_neg hgq, if_pos rfl]; norm_num
  | succ g ih =>
    rw [h4 (g + 1) hg p hp]
    refine mean_bounds hN (fun q hq => ?_) hp
    have e1 : fields.getD (g + 1 - 1) [] = fields[g] := by
      simp [List.getD_eq_getElem?_getD, List.getElem?_eq_getElem (by omega : g < fields.length)]
    rw [if_neg (Nat.succ_ne_zero g), e1]
    have := ih (by omega) hq
    split_ifs
    · norm_num
    · exact this

theorem two_steps {N : ℕ} (hN : 0 < N) (h21 : N ≤ 21) (x y : Int) (hx : 0 ≤ x ∧ x < N) (hy : 0 ≤ y ∧ y < N) :
    ∃ a b : Int, (-5 ≤ a ∧ a ≤ 5) ∧ (-5 ≤ b ∧ b ≤ 5) ∧ ((x + a) % N + b) % N = y := by
  have key : ∀ d : Int, -10 ≤ d → d ≤ 10 → (x + d) % N = y →
      ∃ a b : Int, (-5 ≤ a ∧ a ≤ 5) ∧ (-5 ≤ b ∧ b ≤ 5) ∧ ((x + a) % N + b) % N = y := by
    intro d h1 h2 h3
    refine ⟨d / 2, d - d / 2, by omega, by omega, ?_⟩
    rw [Int.emod_add_emod]
    rw [← h3]
    congr 1
    ring
  by_cases h1 : y - x ≤ 10 ∧ -10 ≤ y - x
  · refine key (y - x) h1.2 h1.1 ?_
    rw [add_sub_cancel]
    exact Int.emod_eq_of_lt hy.1 hy.2
  by_cases h2 : y - x > 10
  · refine key (y - x - N) (by omega) (by omega) ?_
    have : x + (y - x - N) = y + N * (-1) := by ring
    rw [this, Int.add_mul_emod_self_left]
    exact Int.emod_eq_of_lt hy.1 hy.2
  · refine key (y - x + N) (by omega) (by omega) ?_
    have : x + (y - x + N) = y + N * 1 := by ring
    rw [this, Int.add_mul_emod_self_left]
    exact Int.emod_eq_of_lt hy.1 hy.2

theorem box_pair {N : ℕ} {p : List Int} (hp : InBox [(N : Int), N] p) :
    ∃ r c : Int, p = [r, c] ∧ (0 ≤ r ∧ r < N) ∧ (0 ≤ c ∧ c < N) := by
  unfold InBox at hp
  cases hp with
  | cons h1 h2 =>
    cases h2 with
    | cons h3 h4 =>
      cases h4
      exact ⟨_, _, rfl, h1, h3⟩

/-- C142: on grids of up to 21×21 nodes, if the first grain has a node and there are at least three labels, the weights are
positive at every node. -/
theorem c142_covered {N : ℕ} (hN : 0 < N) (h21 : N ≤ 21) {labels : List Int} (hl : labels.length = N * N) (h0 : (0 : Int) ∈ labels)
    {m : ℕ} (hm : Largest labels m) (h2 : 2 ≤ m) {fields : List (List ℝ)} (hf : getFields N labels = some fields) :
    ∃ h : 1 < fields.length, ∀ p, InBox [(N : Int), N] p → (0 : ℝ) < fieldAt N fields[1] p := by
  obtain ⟨fields', h1, hlen, -, h4⟩ := c142_fields hN hl hm
  obtain rfl := Option.some.inj (hf.symm.trans h1)
  refine ⟨by omega, fun p hp => ?_⟩
  obtain ⟨n, hn, hn0⟩ := List.mem_iff_getElem.mp h0
  obtain ⟨q, hq, hqb, hqn⟩ := pos_spec (square_good hN) (Int.natCast_nonneg n) (by rw [square_nodes]; omega)
  have hg0 : grainAt N labels q = 0 := by
    unfold grainAt
    rw [get_index hqn, List.getElem?_eq_getElem hn, hn0]
    rfl
  obtain ⟨r, c, rfl, hr, hc⟩ := box_pair hp
  obtain ⟨r', c', rfl, hr', hc'⟩ := box_pair hqb
  obtain ⟨a, b, ha, hb, hab⟩ := two_steps hN h21 r r' hr hr'
  obtain ⟨a', b', ha', hb', hab'⟩ := two_steps hN h21 c c' hc hc'
  have hw1 : [a, a'] ∈ window 2 5 := (mem_window (by decide) _).mpr ⟨rfl, by intro x hx; simp at hx; omega⟩
  have hw2 : [b, b'] ∈ window 2 5 := (mem_window (by decide) _).mpr ⟨rfl, by intro x hx; simp at hx; omega⟩
  have hmid : InBox [(N : Int), N] (torusShift [(N : Int), N] [r, c] [a, a']) :=
    torusShift_inBox (square_good hN).2 hp rfl
  rw [h4 1 (by omega) _ hp]
  refine mean_pos hN (fun q hq => ?_) hp hw1 ?_
  · have := (c142_range hN hl hf 0 (by omega) hq).1
    have e1 : fields.getD (1 - 1) [] = fields[0] := by
      simp [List.getD_eq_getElem?_getD, List.getElem?_eq_getElem (by omega : 0 < fields.length)]
    rw [if_neg one_ne_zero, e1]
    split_ifs
    · norm_num
    · exact this
  · have e1 : fields.getD (1 - 1) [] = fields[0] := by
      simp [List.getD_eq_getElem?_getD, List.getElem?_eq_getElem (by omega : 0 < fields.length)]
    rw [if_neg one_ne_zero, e1, h4 0 (by omega) _ hmid]
    by_cases hg1 : grainAt N labels (torusShift [(N : Int), N] [r, c] [a, a']) = ((1 : ℕ) : Int)
    · rw [if_pos hg1]; norm_num
    · rw [if_neg hg1]
      refine mean_pos hN (fun q hq => ?_) hmid hw2 ?_
      · by_cases hgq : grainAt N labels q = ((0 : ℕ) : Int)
        · rw [if_pos hgq]; norm_num
        · rw [if_neg hgq, if_pos rfl]
      · have : torusShift [(N : Int), N] (torusShift [(N : Int), N] [r, c] [a, a']) [b, b'] = [r', c'] := by
          simp [torusShift, hab, hab']
        rw [this, hg0]
        simp

/-! ### The conductivity -/

theorem sum_loop (ref : Matrix (Fin 2) (Fin 2) ℝ) (i : ℕ) : ∀ (grains : List (List ℝ)) (rots : List (Matrix (Fin 2) (Fin 2) ℝ))
    (a b c w : ℝ), grains.length ≤ rots.length → (∀ g ∈ grains, i < g.length) →
    conductivitySum ref i grains rots ([a, b, c], w) =
      some ([a + (List.zipWith (fun g r => g.getD i 0 * (rotateConductivity ref r).getD 0 0) grains rots).sum,
        b + (List.zipWith (fun g r => g.getD i 0 * (rotateConductivity ref r).getD 1 0) grains rots).sum,
        c + (List.zipWith (fun g r => g.getD i 0 * (rotateConductivity ref r).getD 2 0) grains rots).sum],
        w + (grains.map fun g => g.getD i 0).sum)
  | [], rots, a, b, c, w, _, _ => by simp [conductivitySum]
  | g :: gs, [], a, b, c, w, h, _ => by simp at h
  | g :: gs, r :: rs, a, b, c, w, h, hi => by
    have hg := hi g (by simp)
    unfold conductivitySum
    rw [List.getElem?_eq_getElem hg]
    have e : g.getD i 0 = g[i] := by simp [List.getD_eq_getElem?_getD, List.getElem?_eq_getElem hg]
    have ih := sum_loop ref i gs rs (a + g[i] * (rotateConductivity ref r).getD 0 0) (b + g[i] * (rotateConductivity ref r).getD 1 0)
      (c + g[i] * (rotateConductivity ref r).getD 2 0) (w + g[i]) (by simpa using h) (fun g' hg' => hi g' (by simp [hg']))
    refine Eq.trans ?_ (ih.trans ?_)
    · simp [rotateConductivity]
    · simp only [List.zipWith_cons_cons, List.sum_cons, List.map_cons, e, add_assoc]

/-- C142: the conductivity of a node is the mean of the rotated conductivities of the grains, weighted with the fields; where the
weights add up to zero there is none. -/
theorem c142_mixture (grains : List (List ℝ)) (ref : Matrix (Fin 2) (Fin 2) ℝ) (rots : List (Matrix (Fin 2) (Fin 2) ℝ)) (i : ℕ)
    (hl : grains.length ≤ rots.length) (hi : ∀ g ∈ grains, i < g.length) :
    ((grains.map fun g => g.getD i 0).sum = 0 → grainConductivity grains ref rots i = none) ∧
    ((grains.map fun g => g.getD i 0).sum ≠ 0 → ∃ sigma, grainConductivity grains ref rots i = some sigma ∧ sigma.length = 3 ∧
      ∀ j < 3, sigma.getD j 0 * (grains.map fun g => g.getD i 0).sum =
        (List.zipWith (fun g r => g.getD i 0 * (rotateConductivity ref r).getD j 0) grains rots).sum) := by
  have h := sum_loop ref i grains rots 0 0 0 0 hl hi
  simp only [zero_add] at h
  set S : ℕ → ℝ := fun j => (List.zipWith (fun g r => g.getD i 0 * (rotateConductivity ref r).getD j 0) grains rots).sum with hS
  have h' : conductivitySum ref i grains rots ([0, 0, 0], 0) = some ([S 0, S 1, S 2], (grains.map fun g => g.getD i 0).sum) := h
  have hg : ∀ j, (List.zipWith (fun g r => g.getD i 0 * (rotateConductivity ref r).getD j 0) grains rots).sum = S j := fun _ => rfl
  simp only [hg]
  clear hg h
  clear_value S
  generalize (grains.map fun g => g.getD i 0).sum = w at *
  have e : grainConductivity grains ref rots i = if w = 0 then none else some [S 0 / w, S 1 / w, S 2 / w] := by
    unfold grainConductivity
    rw [h']
    rfl
  rw [e]
  constructor
  · intro h0
    rw [if_pos h0]
  · intro h0
    rw [if_neg h0]
    refine ⟨_, rfl, rfl, ?_⟩
    intro j hj
    have : ∀ t : ℝ, t / w * w = t := fun t => div_mul_cancel₀ t h0
    interval_cases j
    · exact this _
    · exact this _
    · exact this _

/-- C142: if there are only the labels 0 and 1, the orientation of the second grain has no effect: where the conductivity is
defined it is that of the first grain. -/
theorem c142_two_grains {N : ℕ} (hN : 0 < N) {labels : List Int} (hl : labels.length = N * N) (hm : Largest labels 1)
    (ref r0 : Matrix (Fin 2) (Fin 2) ℝ) (rots : List (Matrix (Fin 2) (Fin 2) ℝ)) {fields : List (List ℝ)}
    (hf : getFields N labels = some fields) (i : ℕ) (hi : i < N * N) {sigma : List ℝ}
    (hs : grainConductivity fields ref (r0 :: rots) i = some sigma) : sigma = rotateConductivity ref r0 := by
  obtain ⟨fields', h1, h2, h3, -⟩ := c142_fields hN hl hm
  obtain rfl := Option.some.inj (hf.symm.trans h1)
  obtain ⟨f, rfl⟩ := List.length_eq_one_iff.mp h2
  have hfl := h3 f (by simp)
  obtain ⟨a1, a2⟩ := c142_mixture [f] ref (r0 :: rots) i (by simp) (by simp [hfl, hi])
  by_cases h0 : ([f].map fun g => g.getD i 0).sum = 0
  · rw [a1 h0] at hs
    simp at hs
  · obtain ⟨sigma', h4, h5, h6⟩ := a2 h0
    obtain rfl := Option.some.inj (hs.symm.trans h4)
    have hv : f.getD i 0 ≠ 0 := by simpa using h0
    apply List.ext_getElem
    · rw [h5]; rfl
    · intro j hj hj'
      have h7 := h6 j (by omega)
      simp only [List.map_cons, List.map_nil, List.sum_cons, List.sum_nil, add_zero, List.zipWith_cons_cons, List.zipWith_nil_left] at h7
      rw [mul_comm] at h7
      have h8 := mul_left_cancel₀ hv h7
      rw [List.getD_eq_getElem _ _ hj, List.getD_eq_getElem _ _ hj'] at h8
      exact h8

/-- C142: if all nodes belong to the first grain, there is no field and no conductivity. -/
theorem c142_one_grain {N : ℕ} (hN : 0 < N) {labels : List Int} (hl : labels.length = N * N) (hm : Largest labels 0)
    (ref : Matrix (Fin 2) (Fin 2) ℝ) (rots : List (Matrix (Fin 2) (Fin 2) ℝ)) (i : ℕ) :
    getFields N labels = some [] ∧ grainConductivity [] ref rots i = none := by
  obtain ⟨fields', h1, h2, -⟩ := c142_fields hN hl hm
  obtain rfl := List.length_eq_zero_iff.mp h2
  exact ⟨h1, (c142_mixture [] ref rots i (by simp) (by simp)).1 (by simp)⟩

/-- The quadratic form of a tensor given by its components. -/
def planeForm (t : List ℝ) (x y : ℝ) : ℝ := t.getD 0 0 * x ^ 2 + t.getD 1 0 * y ^ 2 + 2 * t.getD 2 0 * x * y

/-- C142: a rotation keeps the bounds of the conductivity. -/
theorem c142_rotated (ref : Matrix (Fin 2) (Fin 2) ℝ) (hsym : ref 0 1 = ref 1 0) (angle x y : ℝ) :
    planeForm (rotateConductivity ref (rotMatrix angle)) x y =
      planeForm [ref 0 0, ref 1 1, ref 0 1] (Real.cos angle * x - Real.sin angle * y) (Real.sin angle * x + Real.cos angle * y) := by
  simp only [planeForm, rotateConductivity, rotMatrix, Matrix.mul_apply, Matrix.transpose_apply, Fin.sum_univ_two]
  simp
  rw [← hsym]
  ring

theorem zip_linear (ref : Matrix (Fin 2) (Fin 2) ℝ) (i : ℕ) (x y : ℝ) : ∀ (grains : List (List ℝ))
    (rots : List (Matrix (Fin 2) (Fin 2) ℝ)),
    (List.zipWith (fun g r => g.getD i 0 * planeForm (rotateConductivity ref r) x y) grains rots).sum =
      (List.zipWith (fun g r => g.getD i 0 * (rotateConductivity ref r).getD 0 0) grains rots).sum * x ^ 2 +
      (List.zipWith (fun g r => g.getD i 0 * (rotateConductivity ref r).getD 1 0) grains rots).sum * y ^ 2 +
      2 * (List.zipWith (fun g r => g.getD i 0 * (rotateConductivity ref r).getD 2 0) grains rots).sum * x * y
  | [], _ => by simp
  | _ :: _, [] => by simp
  | g :: gs, r :: rs => by
    simp only [List.zipWith_cons_cons, List.sum_cons]
    rw [zip_linear ref i x y gs rs]
    unfold planeForm
    ring

theorem zip_bounds {ref : Matrix (Fin 2) (Fin 2) ℝ} {lo hi : ℝ} (hsym : ref 0 1 = ref 1 0)
    (hb : ∀ x y, lo * (x ^ 2 + y ^ 2) ≤ planeForm [ref 0 0, ref 1 1, ref 0 1] x y ∧
      planeForm [ref 0 0, ref 1 1, ref 0 1] x y ≤ hi * (x ^ 2 + y ^ 2)) (i : ℕ) (x y : ℝ) : ∀ (grains : List (List ℝ)) (angles : List ℝ),
    grains.length ≤ angles.length → (∀ g ∈ grains, 0 ≤ g.getD i 0) →
    lo * (x ^ 2 + y ^ 2) * (grains.map fun g => g.getD i 0).sum ≤
        (List.zipWith (fun g r => g.getD i 0 * planeForm (rotateConductivity ref r) x y) grains (angles.map rotMatrix)).sum ∧
      (List.zipWith (fun g r => g.getD i 0 * planeForm (rotateConductivity ref r) x y) grains (angles.map rotMatrix)).sum ≤
        hi * (x ^ 2 + y ^ 2) * (grains.map fun g => g.getD i 0).sum
  | [], _, _, _ => by simp
  | _ :: _, [], h, _ => by simp at h
  | g :: gs, a :: as, h, h0 => by
    obtain ⟨h1, h2⟩ := zip_bounds hsym hb i x y gs as (by simpa using h) (fun g' hg' => h0 g' (by simp [hg']))
    have hr := c142_rotated ref hsym a x y
    have hn : (Real.cos a * x - Real.sin a * y) ^ 2 + (Real.sin a * x + Real.cos a * y) ^ 2 = x ^ 2 + y ^ 2 := by
      have := Real.sin_sq_add_cos_sq a
      have e : (Real.cos a * x - Real.sin a * y) ^ 2 + (Real.sin a * x + Real.cos a * y) ^ 2 =
        (Real.sin a ^ 2 + Real.cos a ^ 2) * (x ^ 2 + y ^ 2) := by ring
      rw [e, this, one_mul]
    obtain ⟨h3, h4⟩ := hb (Real.cos a * x - Real.sin a * y) (Real.sin a * x + Real.cos a * y)
    rw [hn, ← hr] at h3 h4
    have hg := h0 g (by simp)
    have h5 := mul_le_mul_of_nonneg_left h3 hg
    have h6 := mul_le_mul_of_nonneg_left h4 hg
    simp only [List.map_cons, List.zipWith_cons_cons, List.sum_cons]
    constructor <;> linarith

theorem plane_form {N : ℕ} (sigma : Fin ([N, N] : List ℕ).prod → List ℝ) (x : Fin ([N, N] : List ℕ).prod)
    (v : Fin ([N, N] : List ℕ).length → ℝ) :
    ∑ d, ∑ e, conductivityAt sigma x d e * v d * v e = planeForm (sigma x) (v 0) (v 1) := by
  have hs : ∀ g : Fin ([N, N] : List ℕ).length → ℝ, ∑ d, g d = g 0 + g 1 := fun g => Fin.sum_univ_two g
  rw [hs, hs, hs]
  have e00 : conductivityAt sigma x (0 : Fin ([N, N] : List ℕ).length) (0 : Fin ([N, N] : List ℕ).length) = (sigma x).getD 0 0 := rfl
  have e01 : conductivityAt sigma x (0 : Fin ([N, N] : List ℕ).length) (1 : Fin ([N, N] : List ℕ).length) = (sigma x).getD 2 0 := rfl
  have e10 : conductivityAt sigma x (1 : Fin ([N, N] : List ℕ).length) (0 : Fin ([N, N] : List ℕ).length) = (sigma x).getD 2 0 := rfl
  have e11 : conductivityAt sigma x (1 : Fin ([N, N] : List ℕ).length) (1 : Fin ([N, N] : List ℕ).length) = (sigma x).getD 1 0 := rfl
  rw [e00, e01, e10, e11]
  unfold planeForm
  ring

/-- C142: with positive total weights the conductivity of the mixture has the bounds of the conductivity without rotation at every
node, for all grains and angles. -/
theorem c142_conducting {N : ℕ} {grains : List (List ℝ)} {ref : Matrix (Fin 2) (Fin 2) ℝ} {lo hi : ℝ} (hsym : ref 0 1 = ref 1 0)
    (hb : ∀ x y, lo * (x ^ 2 + y ^ 2) ≤ planeForm [ref 0 0, ref 1 1, ref 0 1] x y ∧
      planeForm [ref 0 0, ref 1 1, ref 0 1] x y ≤ hi * (x ^ 2 + y ^ 2)) {angles : List ℝ} (hl : grains.length ≤ angles.length)
    (hlen : ∀ g ∈ grains, g.length = N * N) (hnn : ∀ g ∈ grains, ∀ v ∈ g, 0 ≤ v)
    (hpos : ∀ i < N * N, 0 < (grains.map fun g => g.getD i 0).sum) :
    ∃ sigma : Fin ([N, N] : List ℕ).prod → List ℝ,
      (∀ x : Fin ([N, N] : List ℕ).prod, grainConductivity grains ref (angles.map rotMatrix) x.val = some (sigma x)) ∧ Conducting sigma lo hi := by
  have hprod : ([N, N] : List ℕ).prod = N * N := by simp
  have key : ∀ x : Fin ([N, N] : List ℕ).prod, ∃ sigma, grainConductivity grains ref (angles.map rotMatrix) x = some sigma ∧
      ∀ a b, lo * (a ^ 2 + b ^ 2) ≤ planeForm sigma a b ∧ planeForm sigma a b ≤ hi * (a ^ 2 + b ^ 2) := by
    intro x
    have hx : x.val < N * N := by have := x.2; omega
    have hw := hpos x.val hx
    obtain ⟨sigma, h1, -, h3⟩ := (c142_mixture grains ref (angles.map rotMatrix) x.val (by simpa using hl)
      (fun g hg => by rw [hlen g hg]; exact hx)).2 hw.ne'
    refine ⟨sigma, h1, fun a b => ?_⟩
    have hg0 : ∀ g ∈ grains, 0 ≤ g.getD x.val 0 := fun g hg => by
      have hgx : x.val < g.length := by rw [hlen g hg]; exact hx
      rw [List.getD_eq_getElem _ _ hgx]
      exact hnn g hg _ (List.getElem_mem _)
    obtain ⟨h4, h5⟩ := zip_bounds hsym hb x.val a b grains angles hl hg0
    rw [zip_linear, ← h3 0 (by norm_num), ← h3 1 (by norm_num), ← h3 2 (by norm_num)] at h4 h5
    generalize (grains.map fun g => g.getD x.val 0).sum = w at *
    have e : sigma.getD 0 0 * w * a ^ 2 + sigma.getD 1 0 * w * b ^ 2 + 2 * (sigma.getD 2 0 * w) * a * b = planeForm sigma a b * w := by
      unfold planeForm
      ring
    rw [e] at h4 h5
    exact ⟨le_of_mul_le_mul_right h4 hw, le_of_mul_le_mul_right h5 hw⟩
  choose sigma h1 h2 using key
  refine ⟨sigma, h1, ?_, ?_⟩
  · intro x v
    have hs : ∀ g : Fin ([N, N] : List ℕ).length → ℝ, ∑ d, g d = g 0 + g 1 := fun g => Fin.sum_univ_two g
    rw [plane_form, hs]
    exact (h2 x _ _).1
  · intro x v
    have hs : ∀ g : Fin ([N, N] : List ℕ).length → ℝ, ∑ d, g d = g 0 + g 1 := fun g => Fin.sum_univ_two g
    rw [plane_form, hs]
    exact (h2 x _ _).2

/-! ### The program -/

/-- What is checked of the grains of the program. -/
def grainsChecked (labels : List Int) : Bool :=
  labels.length == 256 && labels.all (fun l => l == 0 || l == 1 || l == 4) && labels.elem 0 && labels.elem 1 && labels.elem 4

/-- The check succeeds. -/
def exampleChecked : Bool := exampleGrains.elim false grainsChecked

theorem example_checked : exampleChecked = true := by decide +kernel

/-- C142: only three of the seven points of the program get a grain, those with the labels 0, 1 and 4. -/
theorem c142_labels : ∃ labels, exampleGrains = some labels ∧ labels.length = 256 ∧ (∀ l ∈ labels, l = 0 ∨ l = 1 ∨ l = 4) ∧
    0 ∈ labels ∧ 1 ∈ labels ∧ 4 ∈ labels := by
  have h := example_checked
  unfold exampleChecked at h
  generalize exampleGrains = o at h ⊢
  cases o with
  | none => exact absurd h (by simp)
  | some labels =>
    have h2 : grainsChecked labels = true := h
    refine ⟨labels, rfl, ?_⟩
    simp only [grainsChecked, Bool.and_eq_true, beq_iff_eq, List.all_eq_true, Bool.or_eq_true, List.elem_eq_mem, decide_eq_true_eq] at h2
    obtain ⟨⟨⟨⟨a, b⟩, c⟩, d⟩, e⟩ := h2
    exact ⟨a, fun l hl => by have := b l hl; tauto, c, d, e⟩

theorem value_node {N : ℕ} (hN : 0 < N) {l : List ℝ} (i : ℕ) (hi : i < N * N) :
    ∃ p, InBox [(N : Int), N] p ∧ fieldAt N l p = l.getD i 0 := by
  obtain ⟨q, hq, hqb, hqn⟩ := pos_spec (square_good hN) (Int.natCast_nonneg i) (by rw [square_nodes]; omega)
  refine ⟨q, hqb, ?_⟩
  unfold fieldAt
  rw [get_index hqn, List.getD_eq_getElem?_getD]

/-- C142: for all labels on a grid of up to 21×21 nodes of which 0 and one above 1 occur, the conductivity is defined at every node
and lies between 1 and 3 in every direction. -/
theorem c142_weights {N : ℕ} (hN : 0 < N) (h21 : N ≤ 21) {labels : List Int} (hl : labels.length = N * N) (h0 : (0 : Int) ∈ labels)
    {m : ℕ} (hm : Largest labels m) (h2 : 2 ≤ m) {angles : List ℝ} (ha : m ≤ angles.length) :
    ∃ (fields : List (List ℝ)) (sigma : Fin ([N, N] : List ℕ).prod → List ℝ), getFields N labels = some fields ∧
      (∀ x : Fin ([N, N] : List ℕ).prod, grainConductivity fields refConductivity (angles.map rotMatrix) x.val = some (sigma x)) ∧ Conducting sigma 1 3 := by
  obtain ⟨fields, h1, hlen, hfl, -⟩ := c142_fields hN hl hm
  have hnn : ∀ g ∈ fields, ∀ v ∈ g, 0 ≤ v := by
    intro g hg v hv
    obtain ⟨i, hi, rfl⟩ := List.mem_iff_getElem.mp hv
    obtain ⟨j, hj, rfl⟩ := List.mem_iff_getElem.mp hg
    have hlj := hfl _ (List.getElem_mem hj)
    obtain ⟨p, hp, hpv⟩ := value_node hN (l := fields[j]) i (by omega)
    have := (c142_range hN hl h1 j hj hp).1
    rw [hpv, List.getD_eq_getElem _ _ hi] at this
    exact this
  obtain ⟨hone, hcov⟩ := c142_covered hN h21 hl h0 hm h2 h1
  have hpos : ∀ i < N * N, 0 < (fields.map fun g => g.getD i 0).sum := by
    intro i hi
    obtain ⟨p, hp, hpv⟩ := value_node hN (l := fields[1]) i hi
    have hlt := hcov p hp
    rw [hpv] at hlt
    refine hlt.trans_le (List.single_le_sum ?_ _ (List.mem_map.mpr ⟨fields[1], List.getElem_mem _, rfl⟩))
    intro x hx
    obtain ⟨g, hg, rfl⟩ := List.mem_map.mp hx
    have hgi : i < g.length := by rw [hfl g hg]; exact hi
    rw [List.getD_eq_getElem _ _ hgi]
    exact hnn g hg _ (List.getElem_mem _)
  obtain ⟨sigma, h3, h4⟩ := c142_conducting (N := N) (grains := fields) (ref := refConductivity) (lo := 1) (hi := 3)
    (by simp [refConductivity]) (by
      intro x y
      simp only [refConductivity, planeForm]
      simp
      constructor <;> nlinarith [sq_nonneg x, sq_nonneg y])
    (angles := angles) (by omega) hfl hnn hpos
  exact ⟨fields, sigma, h1, h3, h4⟩

/-- C142: the run of the program converges to charges at rest, with a current without divergence. The program makes four fields,
two of which belong to labels that no node has, and none for the grain with the label 4. -/
theorem c142_program : ∃ (labels : List Int) (fields : List (List ℝ)) (sigma : Fin ([16, 16] : List ℕ).prod → List ℝ),
    exampleGrains = some labels ∧ getFields 16 labels = some fields ∧ fields.length = 4 ∧ (2 : Int) ∉ labels ∧ (3 : Int) ∉ labels ∧
    (∀ x : Fin ([16, 16] : List ℕ).prod, grainConductivity fields refConductivity exampleRotations x.val = some (sigma x)) ∧ Conducting sigma 1 3 ∧
    ∀ (c : Str → ℂ) (m0 m : EqModel ([16, 16] : List ℕ).prod) M, conductionModel [16, 16] sigma [1, 0] = some m0 →
      m0.addEquation conductionEquation = some m → m.assemble c = some M → ∀ (s : Stepper ([16, 16] : List ℕ).prod),
      s.filter = none → s.dt = 0.1 → ∀ (st : Store m.fields.length m.derived.length ([16, 16] : List ℕ).prod)
      (i : Fin m.fields.length), ∃ (p : Data ([16, 16] : List ℕ).prod) (C r : ℝ), 0 ≤ r ∧ r < 1 ∧
        (∀ steps x, ‖(eulerPropagate M steps (s, st)).2.fields i x - p x‖ ≤ C * r ^ steps) ∧ AtRest sigma [1, 0] p := by
  obtain ⟨labels, h1, h2, h3, h4, h5, h6⟩ := c142_labels
  have hm : Largest labels 4 := ⟨fun l hl => by rcases h3 l hl with h | h | h <;> omega, Or.inr h6⟩
  obtain ⟨fields, sigma, h7, h8, h9⟩ := c142_weights (N := 16) (by norm_num) (by norm_num) (by rw [h2]) h4 hm (by norm_num)
    (angles := (List.range voronoiPts.length).map fun i : ℕ => (i : ℝ) * Real.pi / 9) (by simp [voronoiPts])
  obtain ⟨fields', a1, a2, -⟩ := c142_fields (N := 16) (by norm_num) (by rw [h2]) hm
  obtain rfl := Option.some.inj (h7.symm.trans a1)
  refine ⟨labels, fields, sigma, h1, h7, a2, fun h => by have := h3 _ h; omega, fun h => by have := h3 _ h; omega, ?_, h9, ?_⟩
  · intro x
    rw [← h8 x]
    unfold exampleRotations
    rw [List.map_map]
    rfl
  · intro c m0 m M b1 b2 b3 s hs hdt st i
    obtain ⟨p, C, r, c1, c2, c3, -, c4, -⟩ := c141_converges (dims := [16, 16]) ⟨by decide, by decide⟩ h9 one_pos [1, 0] c b1 b2 b3 s hs
      (by rw [hdt]; norm_num) (by rw [hdt]; norm_num) st i
    exact ⟨p, C, r, c1, c2, c3, c4⟩

/-- The hypotheses of `c142_two_grains` hold for a grid with two grains. -/
example : Largest [0, 0, 1, 1] 1 ∧ ([0, 0, 1, 1] : List Int).length = 2 * 2 ∧ Largest [0, 0, 0, 0] 0 := by
  refine ⟨⟨by decide, Or.inr (by decide)⟩, rfl, ⟨by decide, Or.inl rfl⟩⟩

end Gopf.Props
