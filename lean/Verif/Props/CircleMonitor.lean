import Verif.Props.Diffusion

/-!
# C144: what the circle monitors of the database example report
-/

namespace Gopf.Props
open Spec Pf Pfutil Cmd

variable {nf nd n : ℕ}

/-! ### The specification -/

/-- The nodes of a grid closer to `(X, Y)` than `R`. -/
def disc (nx ny : ℕ) (R X Y : ℤ) : Finset (Fin [nx, ny].prod) :=
  Finset.univ.filter fun x => (coord [nx, ny] x.val 0 - X) ^ 2 + (coord [nx, ny] x.val 1 - Y) ^ 2 < R ^ 2

/-- The mean of the real parts over a set of nodes. -/
noncomputable def meanOver (A : Finset (Fin n)) (u : Data n) : ℝ := (∑ x ∈ A, (u x).re) / A.card

/-- The mean squared distance from the mean over a set of nodes. -/
noncomputable def varianceOver (A : Finset (Fin n)) (u : Data n) : ℝ :=
  (∑ x ∈ A, ((u x).re - meanOver A u) ^ 2) / A.card

/-- The whole disc lies on the grid. -/
def DiscInside (nx ny : ℕ) (cm : CircleMonitor) : Prop :=
  0 < cm.radius ∧ cm.radius ≤ cm.x + 1 ∧ cm.x + cm.radius ≤ nx ∧ cm.radius ≤ cm.y + 1 ∧ cm.y + cm.radius ≤ ny

/-! ### The loops -/

theorem mem_loopRange {lo hi i : ℤ} : i ∈ loopRange lo hi ↔ lo ≤ i ∧ i < hi := by
  unfold loopRange
  rw [List.mem_map]
  constructor
  · rintro ⟨a, ha, rfl⟩
    rw [List.mem_range] at ha
    omega
  · rintro ⟨h1, h2⟩
    exact ⟨(i - lo).toNat, by rw [List.mem_range]; omega, by omega⟩

theorem loopRange_nodup (lo hi : ℤ) : (loopRange lo hi).Nodup := by
  unfold loopRange
  refine List.Nodup.map (fun a b hab => ?_) List.nodup_range
  omega

theorem nested_foldlM {α β γ : Type} (f : γ → α → β → Option γ) (ys : List β) (xs : List α) (acc : γ) :
    xs.foldlM (fun acc x => ys.foldlM (fun acc y => f acc x y) acc) acc =
      (xs.flatMap fun x => ys.map fun y => (x, y)).foldlM (fun acc p => f acc p.1 p.2) acc := by
  induction xs generalizing acc with
  | nil => rfl
  | cons x xs ih =>
    rw [List.foldlM_cons, List.flatMap_cons, List.foldlM_append, List.foldlM_map]
    congr 1
    funext acc'
    exact ih acc'

/-- The pairs the loops visit. -/
def circlePairs (cm : CircleMonitor) : List (ℤ × ℤ) :=
  (loopRange (cm.x - cm.radius) (cm.x + cm.radius)).flatMap fun x =>
    (loopRange (cm.y - cm.radius) (cm.y + cm.radius)).map fun y => (x, y)

theorem mem_circlePairs {cm : CircleMonitor} {p : ℤ × ℤ} : p ∈ circlePairs cm ↔
    (cm.x - cm.radius ≤ p.1 ∧ p.1 < cm.x + cm.radius) ∧ cm.y - cm.radius ≤ p.2 ∧ p.2 < cm.y + cm.radius := by
  obtain ⟨a, b⟩ := p
  simp [circlePairs, mem_loopRange]

theorem circlePairs_nodup (cm : CircleMonitor) : (circlePairs cm).Nodup :=
  List.Nodup.product (loopRange_nodup _ _) (loopRange_nodup _ _)

/-- Within the radius. -/
def inCircle (cm : CircleMonitor) (p : ℤ × ℤ) : Bool :=
  decide ((p.1 - cm.x) * (p.1 - cm.x) + (p.2 - cm.y) * (p.2 - cm.y) < cm.radius * cm.radius)

theorem circleSums_pairs (cm : CircleMonitor) (u : Data n) (ds : List ℤ) :
    circleSums cm u ds = (circlePairs cm).foldlM (fun acc p => circleNode cm u ds acc p.1 p.2) (0, 0, 0) :=
  nested_foldlM (fun acc ix iy => circleNode cm u ds acc ix iy) _ _ _

theorem circleNode_in {cm : CircleMonitor} {u : Data n} {ds : List ℤ} {acc : ℝ × ℝ × ℕ} {p : ℤ × ℤ} {z : ℂ}
    (hp : inCircle cm p = true) (hz : (nodeIdx ds [p.1, p.2]).bind (dataAt u) = some z) :
    circleNode cm u ds acc p.1 p.2 = some (acc.1 + z.re, acc.2.1 + z.re ^ 2, acc.2.2 + 1) := by
  unfold circleNode
  dsimp only
  rw [if_pos (by simpa [inCircle] using hp)]
  cases hn : nodeIdx ds [p.1, p.2] with
  | none => rw [hn] at hz; simp at hz
  | some idx =>
    rw [hn] at hz
    have hz' : dataAt u idx = some z := hz
    show ((dataAt u idx).bind fun z => some (acc.1 + z.re, acc.2.1 + z.re ^ 2, acc.2.2 + 1)) = _
    rw [hz']
    rfl

theorem circleNode_out {cm : CircleMonitor} {u : Data n} {ds : List ℤ} {acc : ℝ × ℝ × ℕ} {p : ℤ × ℤ}
    (hp : inCircle cm p = false) : circleNode cm u ds acc p.1 p.2 = some acc := by
  unfold circleNode
  dsimp only
  rw [if_neg (by simpa [inCircle] using hp)]

theorem circle_fold {cm : CircleMonitor} {u : Data n} {ds : List ℤ} (v : ℤ × ℤ → ℂ) (l : List (ℤ × ℤ))
    (hv : ∀ p ∈ l, inCircle cm p = true → (nodeIdx ds [p.1, p.2]).bind (dataAt u) = some (v p)) (acc : ℝ × ℝ × ℕ) :
    l.foldlM (fun acc p => circleNode cm u ds acc p.1 p.2) acc =
      some (acc.1 + ((l.filter (inCircle cm)).map fun p => (v p).re).sum,
        acc.2.1 + ((l.filter (inCircle cm)).map fun p => (v p).re ^ 2).sum, acc.2.2 + (l.filter (inCircle cm)).length) := by
  induction l generalizing acc with
  | nil => simp
  | cons p l ih =>
    have ih' := ih (fun q hq => hv q (by simp [hq]))
    rw [List.foldlM_cons]
    cases hp : inCircle cm p with
    | false =>
      rw [circleNode_out hp, List.filter_cons_of_neg (by simp [hp])]
      exact ih' acc
    | true =>
      rw [circleNode_in hp (hv p (by simp) hp), List.filter_cons_of_pos hp]
      refine (ih' _).trans ?_
      simp only [List.map_cons, List.sum_cons, List.length_cons, Option.some.injEq, Prod.mk.injEq]
      exact ⟨by ring, by ring, by ring⟩

theorem circle_fails {cm : CircleMonitor} {u : Data n} {ds : List ℤ} {l : List (ℤ × ℤ)} {p : ℤ × ℤ} (hp : p ∈ l)
    (hin : inCircle cm p = true) (hbad : (nodeIdx ds [p.1, p.2]).bind (dataAt u) = none) (acc : ℝ × ℝ × ℕ) :
    l.foldlM (fun acc p => circleNode cm u ds acc p.1 p.2) acc = none := by
  induction l generalizing acc with
  | nil => simp at hp
  | cons q l ih =>
    rw [List.foldlM_cons]
    rcases List.mem_cons.mp hp with rfl | hp'
    · have : circleNode cm u ds acc p.1 p.2 = none := by
        unfold circleNode
        dsimp only
        rw [if_pos (by simpa [inCircle] using hin)]
        cases hn : nodeIdx ds [p.1, p.2] with
        | none => rfl
        | some idx =>
          rw [hn] at hbad
          have hb' : dataAt u idx = none := hbad
          show ((dataAt u idx).bind fun z => some (acc.1 + z.re, acc.2.1 + z.re ^ 2, acc.2.2 + 1)) = _
          rw [hb']
          rfl
      rw [this]
      rfl
    · cases circleNode cm u ds acc q.1 q.2 with
      | none => rfl
      | some a => exact ih hp' a

/-! ### Discs on the grid -/

theorem inCircle_square {cm : CircleMonitor} {p : ℤ × ℤ} (hR : 0 < cm.radius) (hp : inCircle cm p = true) :
    (-cm.radius < p.1 - cm.x ∧ p.1 - cm.x < cm.radius) ∧ -cm.radius < p.2 - cm.y ∧ p.2 - cm.y < cm.radius := by
  have h := of_decide_eq_true hp
  refine ⟨abs_lt.mp ?_, abs_lt.mp ?_⟩
  · refine abs_lt_of_sq_lt_sq ?_ hR.le
    nlinarith [mul_self_nonneg (p.2 - cm.y)]
  · refine abs_lt_of_sq_lt_sq ?_ hR.le
    nlinarith [mul_self_nonneg (p.1 - cm.x)]

theorem pair_node {nx ny : ℕ} {p : ℤ × ℤ} (hx : 0 ≤ p.1 ∧ p.1 < nx) (hy : 0 ≤ p.2 ∧ p.2 < ny) (u : Data [nx, ny].prod) :
    ∃ x : Fin [nx, ny].prod, coord [nx, ny] x.val 0 = p.1 ∧ coord [nx, ny] x.val 1 = p.2 ∧
      (nodeIdx [(nx : ℤ), (ny : ℤ)] [p.1, p.2]).bind (dataAt u) = some (u x) := by
  have h : GoodDims (intDims [nx, ny]) := ⟨Or.inl rfl, by simp [intDims]; omega⟩
  have hb : InBox (intDims [nx, ny]) [p.1, p.2] := .cons hx (.cons hy .nil)
  obtain ⟨k, e1, e2, e3, e4⟩ := nodeIdx_spec h hb
  rw [numNodes_intDims] at e3
  obtain ⟨hk, e5⟩ := dataAt_some u k e2 e3
  refine ⟨⟨k.toNat, hk⟩, ?_, ?_, ?_⟩
  · have : ((k.toNat : ℕ) : ℤ) = k := by omega
    unfold coord
    dsimp only
    unfold intDims at e4
    rw [this, e4]
    rfl
  · have : ((k.toNat : ℕ) : ℤ) = k := by omega
    unfold coord
    dsimp only
    unfold intDims at e4
    rw [this, e4]
    rfl
  · have e1' : nodeIdx [(nx : ℤ), (ny : ℤ)] [p.1, p.2] = some k := e1
    rw [e1']
    exact e5

theorem grid_good {nx ny : ℕ} (hx : 0 < nx) (hy : 0 < ny) : GoodDims (intDims [nx, ny]) :=
  ⟨Or.inl rfl, by simp [intDims]; omega⟩

theorem coords_injective {nx ny : ℕ} (hx : 0 < nx) (hy : 0 < ny) {a b : Fin [nx, ny].prod}
    (h0 : coord [nx, ny] a.val 0 = coord [nx, ny] b.val 0) (h1 : coord [nx, ny] a.val 1 = coord [nx, ny] b.val 1) : a = b := by
  refine coord_injective (grid_good hx hy) fun j => ?_
  match j with
  | ⟨0, _⟩ => exact h0
  | ⟨1, _⟩ => exact h1

/-- Sums over the loops are sums over the disc. -/
theorem circle_sum {nx ny : ℕ} {cm : CircleMonitor} (hin : DiscInside nx ny cm) (u : Data [nx, ny].prod) (f : ℂ → ℝ) :
    ((circlePairs cm).filter (inCircle cm) |>.map fun p =>
      f (((nodeIdx [(nx : ℤ), (ny : ℤ)] [p.1, p.2]).bind (dataAt u)).getD 0)).sum = ∑ x ∈ disc nx ny cm.radius cm.x cm.y, f (u x) := by
  obtain ⟨hR, i1, i2, i3, i4⟩ := hin
  have hx : 0 < nx := by omega
  have hy : 0 < ny := by omega
  rw [← List.sum_toFinset _ ((circlePairs_nodup cm).filter _)]
  symm
  have hval : ∀ x : Fin [nx, ny].prod, (nodeIdx [(nx : ℤ), (ny : ℤ)]
      [coord [nx, ny] x.val 0, coord [nx, ny] x.val 1]).bind (dataAt u) = some (u x) := by
    intro x
    have r0 := coord_range (grid_good hx hy) x ⟨0, by simp⟩
    have r1 := coord_range (grid_good hx hy) x ⟨1, by simp⟩
    obtain ⟨y, e0, e1, e2⟩ := pair_node (p := (coord [nx, ny] x.val 0, coord [nx, ny] x.val 1)) r0 r1 u
    rw [coords_injective hx hy e0 e1] at e2
    exact e2
  refine Finset.sum_bij (fun x _ => (coord [nx, ny] x.val 0, coord [nx, ny] x.val 1)) ?_ ?_ ?_ ?_
  · intro x hxd
    have hlt := (Finset.mem_filter.mp hxd).2
    have hc : inCircle cm (coord [nx, ny] x.val 0, coord [nx, ny] x.val 1) = true := by
      refine decide_eq_true ?_
      dsimp only
      linarith
    rw [List.mem_toFinset, List.mem_filter, mem_circlePairs]
    have := inCircle_square hR hc
    dsimp only at this ⊢
    exact ⟨⟨⟨by omega, by omega⟩, by omega, by omega⟩, hc⟩
  · intro a _ b _ hab
    rw [Prod.mk.injEq] at hab
    exact coords_injective hx hy hab.1 hab.2
  · intro p hp
    rw [List.mem_toFinset, List.mem_filter] at hp
    have hsq := inCircle_square hR hp.2
    obtain ⟨y, e0, e1, -⟩ := pair_node (nx := nx) (ny := ny) (p := p) ⟨by omega, by omega⟩ ⟨by omega, by omega⟩ u
    refine ⟨y, ?_, by rw [e0, e1]⟩
    refine Finset.mem_filter.mpr ⟨Finset.mem_univ _, ?_⟩
    have := of_decide_eq_true hp.2
    rw [e0, e1]
    linarith
  · intro x _
    dsimp only
    rw [hval x]
    rfl

/-- The number of nodes counted is the number of nodes of the disc. -/
theorem circle_count {nx ny : ℕ} {cm : CircleMonitor} (hin : DiscInside nx ny cm) :
    ((circlePairs cm).filter (inCircle cm)).length = (disc nx ny cm.radius cm.x cm.y).card := by
  have := circle_sum hin (fun _ => 0) (fun _ => 1)
  simp only [List.map_const', List.sum_replicate, Finset.sum_const, nsmul_eq_mul, mul_one] at this
  exact_mod_cast this

theorem disc_nonempty {nx ny : ℕ} {cm : CircleMonitor} (hin : DiscInside nx ny cm) : 0 < (disc nx ny cm.radius cm.x cm.y).card := by
  rw [← circle_count hin]
  refine List.length_pos_of_mem (a := (cm.x, cm.y)) ?_
  obtain ⟨hR, -⟩ := hin
  rw [List.mem_filter, mem_circlePairs]
  refine ⟨⟨⟨by omega, by omega⟩, by omega, by omega⟩, ?_⟩
  refine decide_eq_true ?_
  have := mul_pos hR hR
  dsimp only
  linarith

theorem variance_eq (A : Finset (Fin n)) (hA : 0 < A.card) (u : Data n) :
    (∑ x ∈ A, (u x).re ^ 2) / A.card - meanOver A u * meanOver A u = varianceOver A u := by
  have hc : (0 : ℝ) < A.card := by exact_mod_cast hA
  have hs : ∑ x ∈ A, (u x).re = A.card * meanOver A u := by
    unfold meanOver
    field_simp
  unfold varianceOver
  have : ∑ x ∈ A, ((u x).re - meanOver A u) ^ 2 =
      ∑ x ∈ A, (u x).re ^ 2 - 2 * meanOver A u * ∑ x ∈ A, (u x).re + A.card * meanOver A u ^ 2 := by
    rw [Finset.mul_sum, ← Finset.sum_sub_distrib, ← nsmul_eq_mul, ← Finset.sum_const, ← Finset.sum_add_distrib]
    exact Finset.sum_congr rfl fun x _ => by ring
  rw [this, hs]
  field_simp
  ring

/-! ### The results -/

/-- C144: a monitor whose disc lies on the grid reports the mean and the standard deviation of the field over exactly the nodes
closer to its centre than its radius. -/
theorem c144_inside {nx ny : ℕ} {cm : CircleMonitor} (hin : DiscInside nx ny cm) (u : Data [nx, ny].prod) :
    cm.eval u [(nx : ℤ), (ny : ℤ)] = some (some (meanOver (disc nx ny cm.radius cm.x cm.y) u,
      Real.sqrt (varianceOver (disc nx ny cm.radius cm.x cm.y) u))) := by
  have hcard := disc_nonempty hin
  have hfold := circle_fold (cm := cm) (u := u) (ds := [(nx : ℤ), (ny : ℤ)])
    (fun p => ((nodeIdx [(nx : ℤ), (ny : ℤ)] [p.1, p.2]).bind (dataAt u)).getD 0) (circlePairs cm) (by
      intro p _ hc
      obtain ⟨hR, i1, i2, i3, i4⟩ := hin
      have hsq := inCircle_square hR hc
      obtain ⟨y, -, -, e⟩ := pair_node (nx := nx) (ny := ny) (p := p) ⟨by omega, by omega⟩ ⟨by omega, by omega⟩ u
      rw [e]
      rfl) (0, 0, 0)
  rw [circle_sum hin u fun z => z.re, circle_sum hin u fun z => z.re ^ 2, circle_count hin] at hfold
  unfold CircleMonitor.eval
  rw [circleSums_pairs, hfold]
  simp only [zero_add]
  show (if (disc nx ny cm.radius cm.x cm.y).card = 0 then (some none : Option (Option (ℝ × ℝ))) else some (some _)) = _
  rw [if_neg hcard.ne', ← variance_eq _ hcard]
  rfl

/-- C144: the deviation reported is zero exactly when the field has one value on the disc; the mean lies between the
smallest and the largest value there. -/
theorem c144_uniform {nx ny : ℕ} {cm : CircleMonitor} (hin : DiscInside nx ny cm) (u : Data [nx, ny].prod) {mean std : ℝ}
    (he : cm.eval u [(nx : ℤ), (ny : ℤ)] = some (some (mean, std))) :
    0 ≤ std ∧ (std = 0 ↔ ∀ x ∈ disc nx ny cm.radius cm.x cm.y, (u x).re = mean) ∧
    (∀ lo hi : ℝ, (∀ x ∈ disc nx ny cm.radius cm.x cm.y, lo ≤ (u x).re ∧ (u x).re ≤ hi) → lo ≤ mean ∧ mean ≤ hi) := by
  rw [c144_inside hin] at he
  simp only [Option.some.injEq, Prod.mk.injEq] at he
  obtain ⟨rfl, rfl⟩ := he
  have hcard := disc_nonempty hin
  have hc : (0 : ℝ) < (disc nx ny cm.radius cm.x cm.y).card := by exact_mod_cast hcard
  set A := disc nx ny cm.radius cm.x cm.y with hA
  have hv : 0 ≤ varianceOver A u := div_nonneg (Finset.sum_nonneg fun x _ => sq_nonneg _) hc.le
  refine ⟨Real.sqrt_nonneg _, ?_, ?_⟩
  · rw [Real.sqrt_eq_zero hv]
    unfold varianceOver
    rw [div_eq_zero_iff, or_iff_left hc.ne', Finset.sum_eq_zero_iff_of_nonneg fun x _ => sq_nonneg _]
    refine forall₂_congr fun x _ => ?_
    rw [sq_eq_zero_iff, sub_eq_zero]
  · intro lo hi hb
    unfold meanOver
    rw [le_div_iff₀ hc, div_le_iff₀ hc]
    constructor
    · have := Finset.card_nsmul_le_sum A (fun x => (u x).re) lo fun x hx => (hb x hx).1
      rw [nsmul_eq_mul] at this
      linarith
    · have := Finset.sum_le_card_nsmul A (fun x => (u x).re) hi fun x hx => (hb x hx).2
      rw [nsmul_eq_mul] at this
      linarith

/-- C144: a monitor with no radius reports NaN. -/
theorem c144_empty {cm : CircleMonitor} (hR : cm.radius ≤ 0) (u : Data n) (ds : List ℤ) : cm.eval u ds = some none := by
  have hl : loopRange (cm.x - cm.radius) (cm.x + cm.radius) = [] := by
    unfold loopRange
    have : (cm.x + cm.radius - (cm.x - cm.radius)).toNat = 0 := by omega
    rw [this]
    rfl
  unfold CircleMonitor.eval circleSums
  rw [hl]
  rfl

/-- C144: a disc that reaches over the first or the last row panics, though the grid is periodic. -/
theorem c144_rows {nx ny : ℕ} {cm : CircleMonitor} (hR : 0 < cm.radius) (hy : 0 ≤ cm.y ∧ cm.y < ny)
    (hout : cm.x + 1 < cm.radius ∨ (nx : ℤ) < cm.x + cm.radius) (u : Data [nx, ny].prod) :
    cm.eval u [(nx : ℤ), (ny : ℤ)] = none := by
  have hprod : (([nx, ny].prod : ℕ) : ℤ) = nx * ny := by simp
  have hny : (0 : ℤ) < ny := by omega
  have key : ∀ r : ℤ, (r < 0 ∨ (nx : ℤ) ≤ r) → (nodeIdx [(nx : ℤ), (ny : ℤ)] [r, cm.y]).bind (dataAt u) = none := by
    intro r hr
    show dataAt u (r * ny + cm.y) = none
    unfold dataAt
    refine dif_neg ?_
    rintro ⟨h0, h1⟩
    have h1' : r * ny + cm.y < (nx : ℤ) * ny := by
      have : (((r * ny + cm.y).toNat : ℕ) : ℤ) < ([nx, ny].prod : ℕ) := by exact_mod_cast h1
      rw [hprod] at this
      omega
    rcases hr with hr | hr
    · have : r * ny ≤ (-1) * ny := mul_le_mul_of_nonneg_right (by omega) hny.le
      omega
    · have : (nx : ℤ) * ny ≤ r * ny := mul_le_mul_of_nonneg_right hr hny.le
      omega
  have hmem : ∀ r : ℤ, (r = cm.x - (cm.radius - 1) ∨ r = cm.x + (cm.radius - 1)) →
      (r, cm.y) ∈ circlePairs cm ∧ inCircle cm (r, cm.y) = true := by
    intro r hr
    refine ⟨mem_circlePairs.mpr ⟨⟨?_, ?_⟩, ?_, ?_⟩, decide_eq_true ?_⟩
    · dsimp only; omega
    · dsimp only; omega
    · dsimp only; omega
    · dsimp only; omega
    · dsimp only
      rcases hr with rfl | rfl <;> nlinarith
  unfold CircleMonitor.eval
  rw [circleSums_pairs]
  rcases hout with ho | ho
  · obtain ⟨a, b⟩ := hmem _ (Or.inl rfl)
    rw [circle_fails a b (key _ (Or.inl (by omega)))]
    rfl
  · obtain ⟨a, b⟩ := hmem _ (Or.inr rfl)
    rw [circle_fails a b (key _ (Or.inr (by omega)))]
    rfl

/-- C144: a disc that reaches over the last column takes nodes of the next row instead: with the centre in the last column a
single one at a node `R` rows away counts towards the mean. -/
theorem c144_columns {nx ny : ℕ} {cm : CircleMonitor} (hR : 2 ≤ cm.radius) (hny : cm.radius ≤ ny) (hy : cm.y = ny - 1)
    (hlo : cm.radius ≤ cm.x + 1) (hhi : cm.x + cm.radius < nx) {x0 : Fin [nx, ny].prod}
    (h0 : coord [nx, ny] x0.val 0 = cm.x + cm.radius) (h1 : coord [nx, ny] x0.val 1 = 0) :
    ∃ mean std, cm.eval (Pi.single x0 1) [(nx : ℤ), (ny : ℤ)] = some (some (mean, std)) ∧ 0 < mean ∧
      x0 ∉ disc nx ny cm.radius cm.x cm.y ∧ meanOver (disc nx ny cm.radius cm.x cm.y) (Pi.single x0 1) = 0 := by
  have hprod : (([nx, ny].prod : ℕ) : ℤ) = nx * ny := by simp
  set u : Data [nx, ny].prod := Pi.single x0 1 with hu
  set v : ℤ × ℤ → ℂ := fun p => ((nodeIdx [(nx : ℤ), (ny : ℤ)] [p.1, p.2]).bind (dataAt u)).getD 0 with hv
  have hsome : ∀ p ∈ circlePairs cm, inCircle cm p = true →
      (nodeIdx [(nx : ℤ), (ny : ℤ)] [p.1, p.2]).bind (dataAt u) = some (v p) := by
    intro p _ hc
    have hsq := inCircle_square (by omega) hc
    have a0 : 0 ≤ p.1 * ny + p.2 := by
      have := mul_nonneg (by omega : (0 : ℤ) ≤ p.1) (by omega : (0 : ℤ) ≤ ny)
      omega
    have a1 : p.1 * ny + p.2 < (([nx, ny].prod : ℕ) : ℤ) := by
      rw [hprod]
      have := mul_le_mul_of_nonneg_right (by omega : p.1 + 2 ≤ nx) (by omega : (0 : ℤ) ≤ ny)
      have e : (p.1 + 2) * (ny : ℤ) = p.1 * ny + 2 * ny := by ring
      omega
    obtain ⟨hk, e⟩ := dataAt_some u _ a0 a1
    have e' : (nodeIdx [(nx : ℤ), (ny : ℤ)] [p.1, p.2]).bind (dataAt u) = some (u ⟨_, hk⟩) := e
    rw [hv]
    dsimp only
    rw [e']
    rfl
  have hfold := circle_fold (cm := cm) (u := u) (ds := [(nx : ℤ), (ny : ℤ)]) v (circlePairs cm) hsome (0, 0, 0)
  -- the node of the next row
  have hpm : (cm.x + cm.radius - 1, (ny : ℤ)) ∈ (circlePairs cm).filter (inCircle cm) := by
    rw [List.mem_filter, mem_circlePairs]
    refine ⟨⟨⟨?_, ?_⟩, ?_, ?_⟩, decide_eq_true ?_⟩
    · dsimp only; omega
    · dsimp only; omega
    · dsimp only; omega
    · dsimp only; omega
    · dsimp only
      rw [hy]
      nlinarith
  have hnode : nodeIdx [(nx : ℤ), (ny : ℤ)] [cm.x + cm.radius, 0] = some (x0.val : ℤ) := by
    have h : GoodDims (intDims [nx, ny]) := grid_good (by omega) (by omega)
    obtain ⟨k, e1, e2, e3, e4⟩ := nodeIdx_spec h (p := [cm.x + cm.radius, 0])
      (.cons ⟨by omega, by simpa using hhi⟩ (.cons ⟨le_refl _, by simp; omega⟩ .nil))
    rw [numNodes_intDims] at e3
    have ek : ((k.toNat : ℕ) : ℤ) = k := by omega
    have hk : k.toNat < [nx, ny].prod := by omega
    have hc : (⟨k.toNat, hk⟩ : Fin [nx, ny].prod) = x0 := by
      refine coords_injective (by omega) (by omega) ?_ ?_
      · rw [h0]
        unfold coord
        unfold intDims at e4
        dsimp only
        rw [ek, e4]
        rfl
      · rw [h1]
        unfold coord
        unfold intDims at e4
        dsimp only
        rw [ek, e4]
        rfl
    refine e1.trans ?_
    rw [← hc, ek]
  have hpv : v (cm.x + cm.radius - 1, (ny : ℤ)) = 1 := by
    have e : nodeIdx [(nx : ℤ), (ny : ℤ)] [cm.x + cm.radius - 1, (ny : ℤ)] = some (x0.val : ℤ) := by
      rw [← hnode]
      show some ((cm.x + cm.radius - 1) * (ny : ℤ) + ny) = some ((cm.x + cm.radius) * (ny : ℤ) + 0)
      congr 1
      ring
    obtain ⟨hk, e2⟩ := dataAt_some u (x0.val : ℤ) (by omega) (by exact_mod_cast x0.2)
    rw [hv]
    dsimp only
    rw [e]
    show (dataAt u (x0.val : ℤ)).getD 0 = 1
    rw [e2, Option.getD_some, hu]
    have : (⟨((x0.val : ℕ) : ℤ).toNat, hk⟩ : Fin [nx, ny].prod) = x0 := Fin.ext (by simp)
    rw [this, Pi.single_eq_same]
  have hnn : ∀ w ∈ ((circlePairs cm).filter (inCircle cm)).map (fun p => (v p).re), (0 : ℝ) ≤ w := by
    intro w hw
    obtain ⟨p, hp, rfl⟩ := List.mem_map.mp hw
    obtain ⟨hp1, hp2⟩ := List.mem_filter.mp hp
    have e := hsome p hp1 hp2
    have e' : dataAt u (p.1 * ny + p.2) = some (v p) := e
    unfold dataAt at e'
    split_ifs at e' with hd
    · rw [← Option.some.inj e', hu, Pi.single_apply]
      split_ifs <;> simp
  have hsum : (1 : ℝ) ≤ (((circlePairs cm).filter (inCircle cm)).map fun p => (v p).re).sum := by
    have := List.single_le_sum hnn (v (cm.x + cm.radius - 1, (ny : ℤ))).re (List.mem_map.mpr ⟨_, hpm, rfl⟩)
    rw [hpv] at this
    exact_mod_cast this
  have hnum : 0 < ((circlePairs cm).filter (inCircle cm)).length := List.length_pos_of_mem hpm
  have hnot : x0 ∉ disc nx ny cm.radius cm.x cm.y := by
    intro hm
    have := (Finset.mem_filter.mp hm).2
    rw [h0, h1] at this
    nlinarith [sq_nonneg (0 - cm.y)]
  simp only [zero_add] at hfold
  generalize (((circlePairs cm).filter (inCircle cm)).map fun p => (v p).re).sum = S at hfold hsum
  generalize (((circlePairs cm).filter (inCircle cm)).map fun p => (v p).re ^ 2).sum = Q at hfold
  generalize ((circlePairs cm).filter (inCircle cm)).length = N at hfold hnum
  refine ⟨S / N, Real.sqrt (Q / N - S / N * (S / N)), ?_, ?_, hnot, ?_⟩
  · unfold CircleMonitor.eval
    rw [circleSums_pairs, hfold]
    show (if N = 0 then (some none : Option (Option (ℝ × ℝ))) else some (some _)) = _
    rw [if_neg hnum.ne']
  · have : (0 : ℝ) < N := by exact_mod_cast hnum
    positivity
  · unfold meanOver
    rw [Finset.sum_eq_zero, zero_div]
    intro x hx
    have hne : x ≠ x0 := fun e => hnot (by rw [← e]; exact hx)
    rw [hu, Pi.single_apply, if_neg hne]
    rfl

/-- C144: in a diffusion run the mean of every monitor tends to the mean of the whole field and its deviation to zero. -/
theorem c144_limit {nx ny : ℕ} {c : Str → ℂ} {m : EqModel [nx, ny].prod} (h1 : exampleDiffusion [nx, ny].prod = some m)
    {M : Model m.fields.length m.derived.length [nx, ny].prod} (h2 : m.assemble c = some M)
    {s : SolverState m.fields.length m.derived.length [nx, ny]} (hs : Plain s) (i : Fin m.fields.length)
    {cm : CircleMonitor} (hin : DiscInside nx ny cm) :
    ∃ mean std : ℕ → ℝ, (∀ steps, cm.eval ((storeAfter M s steps).fields i) [(nx : ℤ), (ny : ℤ)] = some (some (mean steps, std steps))) ∧
      Filter.Tendsto mean Filter.atTop (nhds (fieldMean (s.store.fields i)).re) ∧
      Filter.Tendsto std Filter.atTop (nhds 0) := by
  have hcard := disc_nonempty hin
  have hc : ((disc nx ny cm.radius cm.x cm.y).card : ℝ) ≠ 0 := by exact_mod_cast hcard.ne'
  have h : GoodDims (intDims [nx, ny]) := grid_good (by obtain ⟨h0, h3, h4, -⟩ := hin; omega) (by obtain ⟨h0, -, -, h3, h4⟩ := hin; omega)
  set A := disc nx ny cm.radius cm.x cm.y with hA
  have hx : ∀ x, Filter.Tendsto (fun steps => ((storeAfter M s steps).fields i x).re) Filter.atTop
      (nhds (fieldMean (s.store.fields i)).re) := fun x =>
    (Complex.continuous_re.tendsto _).comp (c143_converges h h1 h2 hs i x)
  have hmean : Filter.Tendsto (fun steps => meanOver A ((storeAfter M s steps).fields i)) Filter.atTop
      (nhds (fieldMean (s.store.fields i)).re) := by
    have := (tendsto_finsetSum A fun x _ => hx x).div_const (A.card : ℝ)
    rw [Finset.sum_const, nsmul_eq_mul, mul_div_cancel_left₀ _ hc] at this
    exact this
  have hvar : Filter.Tendsto (fun steps => varianceOver A ((storeAfter M s steps).fields i)) Filter.atTop (nhds 0) := by
    have := (tendsto_finsetSum A fun x _ => ((hx x).sub hmean).pow 2).div_const (A.card : ℝ)
    simp only [sub_self, ne_eq, OfNat.ofNat_ne_zero, not_false_eq_true, zero_pow, Finset.sum_const_zero, zero_div] at this
    exact this
  refine ⟨_, _, fun steps => c144_inside hin _, hmean, ?_⟩
  have := hvar.sqrt
  rwa [Real.sqrt_zero] at this

/-! ### The writer -/

theorem writeMonitor_inside {nx ny : ℕ} {cm : CircleMonitor} (hin : DiscInside nx ny cm) (u : Data [nx, ny].prod)
    (data : Str → Option (Option ℝ)) :
    writeMonitor u [(nx : ℤ), (ny : ℤ)] data cm =
      some (Function.update (Function.update data (cm.name ++ "_mean".toList)
        (some (some (meanOver (disc nx ny cm.radius cm.x cm.y) u))))
        (cm.name ++ "_std".toList) (some (some (Real.sqrt (varianceOver (disc nx ny cm.radius cm.x cm.y) u))))) := by
  unfold writeMonitor
  rw [c144_inside hin]
  rfl

theorem keys_differ (a b : Str) : a ++ "_mean".toList ≠ b ++ "_std".toList := by
  intro h
  have := congrArg List.getLast? h
  simp at this

/-- C144: what the writer hands to the database. With all discs on the grid the time series has, for every monitor that no later
one shares its name with, the mean under `name_mean` and the deviation under `name_std`, and no other key than these; the
fields are saved at the multiples of ten. -/
theorem c144_writer {nx ny : ℕ} {monitors : List CircleMonitor} (hin : ∀ cm ∈ monitors, DiscInside nx ny cm)
    (u : Data [nx, ny].prod) (timestep : ℤ) :
    ∃ data saved, dbWriterEval monitors u [(nx : ℤ), (ny : ℤ)] timestep = some (data, saved) ∧ (saved = true ↔ 10 ∣ timestep) ∧
      (∀ pre cm post, monitors = pre ++ cm :: post → (∀ cm' ∈ post, cm'.name ≠ cm.name) →
        data (cm.name ++ "_mean".toList) = some (some (meanOver (disc nx ny cm.radius cm.x cm.y) u)) ∧
        data (cm.name ++ "_std".toList) = some (some (Real.sqrt (varianceOver (disc nx ny cm.radius cm.x cm.y) u)))) ∧
      ∀ key, (∀ cm ∈ monitors, key ≠ cm.name ++ "_mean".toList ∧ key ≠ cm.name ++ "_std".toList) → data key = none := by
  have hfold : ∀ (l : List CircleMonitor), (∀ cm ∈ l, DiscInside nx ny cm) → ∀ data0, ∃ data,
      l.foldlM (writeMonitor u [(nx : ℤ), (ny : ℤ)]) data0 = some data ∧
      (∀ pre cm post, l = pre ++ cm :: post → (∀ cm' ∈ post, cm'.name ≠ cm.name) →
        data (cm.name ++ "_mean".toList) = some (some (meanOver (disc nx ny cm.radius cm.x cm.y) u)) ∧
        data (cm.name ++ "_std".toList) = some (some (Real.sqrt (varianceOver (disc nx ny cm.radius cm.x cm.y) u)))) ∧
      ∀ key, (∀ cm ∈ l, key ≠ cm.name ++ "_mean".toList ∧ key ≠ cm.name ++ "_std".toList) → data key = data0 key := by
    intro l
    induction l with
    | nil =>
      intro _ data0
      exact ⟨data0, rfl, by simp, fun _ _ => rfl⟩
    | cons cm l ih =>
      intro hl data0
      obtain ⟨data, e1, e2, e3⟩ := ih (fun c hc => hl c (by simp [hc])) (Function.update (Function.update data0
        (cm.name ++ "_mean".toList) (some (some (meanOver (disc nx ny cm.radius cm.x cm.y) u))))
        (cm.name ++ "_std".toList) (some (some (Real.sqrt (varianceOver (disc nx ny cm.radius cm.x cm.y) u)))))
      refine ⟨data, ?_, ?_, ?_⟩
      · rw [List.foldlM_cons, writeMonitor_inside (hl cm (by simp))]
        exact e1
      · intro pre cm' post hpre hpost
        cases pre with
        | nil =>
          obtain ⟨rfl, rfl⟩ := List.cons.inj hpre
          have hm : ∀ c ∈ l, cm.name ++ "_mean".toList ≠ c.name ++ "_mean".toList ∧ cm.name ++ "_mean".toList ≠ c.name ++ "_std".toList :=
            fun c hc => ⟨fun e => hpost c hc (List.append_cancel_right e).symm, keys_differ _ _⟩
          have hs : ∀ c ∈ l, cm.name ++ "_std".toList ≠ c.name ++ "_mean".toList ∧ cm.name ++ "_std".toList ≠ c.name ++ "_std".toList :=
            fun c hc => ⟨fun e => keys_differ _ _ e.symm, fun e => hpost c hc (List.append_cancel_right e).symm⟩
          rw [e3 _ hm, e3 _ hs, Function.update_self, Function.update_of_ne (keys_differ _ _), Function.update_self]
          exact ⟨rfl, rfl⟩
        | cons a pre => exact e2 pre cm' post (List.cons.inj hpre).2 hpost
      · intro key hkey
        rw [e3 key fun c hc => hkey c (by simp [hc])]
        obtain ⟨k1, k2⟩ := hkey cm (by simp)
        rw [Function.update_of_ne k2, Function.update_of_ne k1]
  obtain ⟨data, e1, e2, e3⟩ := hfold monitors hin fun _ => none
  refine ⟨data, decide (Int.tmod timestep 10 = 0), ?_, ?_, e2, fun key hkey => e3 key hkey⟩
  · unfold dbWriterEval
    rw [e1]
    rfl
  · rw [decide_eq_true_iff]
    exact (Int.dvd_iff_tmod_eq_zero).symm

/-- C144: the two monitors of the program lie on its grid and cover 69 nodes each, out of the hundred their loops visit. -/
theorem c144_program : ∀ cm ∈ exampleMonitors, DiscInside 128 128 cm ∧ (disc 128 128 cm.radius cm.x cm.y).card = 69 ∧
    (circlePairs cm).length = 100 := by
  have hcount : ∀ cm ∈ exampleMonitors, ((circlePairs cm).filter (inCircle cm)).length = 69 ∧ (circlePairs cm).length = 100 := by
    decide +kernel
  intro cm hcm
  have hin : DiscInside 128 128 cm := by
    simp only [exampleMonitors, List.mem_cons, List.not_mem_nil, or_false] at hcm
    rcases hcm with rfl | rfl <;> exact ⟨by norm_num, by norm_num, by norm_num, by norm_num, by norm_num⟩
  exact ⟨hin, by rw [← circle_count hin]; exact (hcount cm hcm).1, (hcount cm hcm).2⟩

/-- A disc of radius two fits on a grid of five by five nodes; one of radius four does not. A disc in the last column that
meets the hypotheses of `c144_columns`. -/
example : DiscInside 5 5 ⟨2, 2, 2, []⟩ ∧ ¬ DiscInside 5 5 ⟨4, 2, 2, []⟩ ∧ (2 : ℤ) ≤ 2 ∧ (2 : ℤ) ≤ ((5 : ℕ) : ℤ) ∧
    (1 : ℤ) + 2 < ((5 : ℕ) : ℤ) := by
  refine ⟨⟨by norm_num, by norm_num, by norm_num, by norm_num, by norm_num⟩, ?_, by norm_num, by norm_num, by norm_num⟩
  rintro ⟨-, h, -⟩
  norm_num at h

end Gopf.Props
