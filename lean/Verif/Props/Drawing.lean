import Verif.Model.DrawingExample
import Verif.Props.Affine
import Verif.Props.Blur

/-!
# C148: where figures end up, and what the drawing example writes
-/

namespace Gopf.Props
open Spec Pfutil

/-- Specification: on the plane `z = 0` the transformation measures the position relative to the centre `(c0, c1)`,
turns it by `α` and multiplies its coordinates by `s0` and `s1`; the plane is kept. -/
structure Placed (t : Affine) (c0 c1 α s0 s1 : ℝ) : Prop where
  plane : KeepsPlane t
  first : ∀ x y, imageCoord t 0 x y 0 = s0 * (Real.cos α * (x - c0) - Real.sin α * (y - c1))
  second : ∀ x y, imageCoord t 1 x y 0 = s1 * (Real.sin α * (x - c0) + Real.cos α * (y - c1))

/-- C148: the four ways of putting transformations together that the example uses: a translation to minus the centre,
followed by a rotation, by a scaling, or by both. -/
theorem c148_chain (c0 c1 α s0 s1 : ℝ) : ∃ t s, translation [-c0, -c1] = some t ∧ scaling [s0, s1] = some s ∧
    Placed t c0 c1 0 1 1 ∧ Placed (t.append (rotZ α)) c0 c1 α 1 1 ∧ Placed (t.append s) c0 c1 0 s0 s1 ∧
    Placed ((t.append (rotZ α)).append s) c0 c1 α s0 s1 := by
  refine ⟨_, _, rfl, rfl, ⟨?_, ?_, ?_⟩, ⟨?_, ?_, ?_⟩, ⟨?_, ?_, ?_⟩, ⟨?_, ?_, ?_⟩⟩ <;> intro x y <;>
    simp [imageCoord, Affine.append, Matrix.mul_apply, Fin.sum_univ_four, rotZ, Matrix.vecHead, Matrix.vecTail] <;> ring

/-- Undoing the turn. -/
theorem unturn (α a b u v : ℝ) :
    (u = Real.cos α * a - Real.sin α * b ∧ v = Real.sin α * a + Real.cos α * b) ↔
      (a = Real.cos α * u + Real.sin α * v ∧ b = -(Real.sin α * u) + Real.cos α * v) := by
  have h := Real.sin_sq_add_cos_sq α
  constructor
  · rintro ⟨rfl, rfl⟩
    constructor
    · linear_combination -a * h
    · linear_combination -b * h
  · rintro ⟨rfl, rfl⟩
    constructor
    · linear_combination -u * h
    · linear_combination -v * h

theorem box_covers (t : Affine) (d0 d1 : ℝ) (x y : Int) :
    boxInterior [d0, d1] (imagePoint t [x, y]) = some true ↔
      |imageCoord t 0 x y 0| ≤ d0 / 2 ∧ |imageCoord t 1 x y 0| ≤ d1 / 2 := by
  simp only [boxInterior, imagePoint, List.length_cons, List.length_nil, gt_iff_lt, lt_irrefl, if_false,
    Option.some.injEq, List.zip_cons_cons, List.all_cons, List.zip_nil_left, List.all_nil, Bool.and_true,
    Bool.and_eq_true, decide_eq_true_eq, not_or, not_lt, abs_le, neg_div]
  tauto

theorem ball_covers (t : Affine) (r : ℝ) (x y : Int) :
    ballInterior r (imagePoint t [x, y]) = some true ↔
      imageCoord t 0 x y 0 * imageCoord t 0 x y 0 + imageCoord t 1 x y 0 * imageCoord t 1 x y 0 < r * r := by
  simp [ballInterior, imagePoint]

/-- C148: a box drawn with such a transformation covers exactly a box around the centre, turned by minus the angle,
with the sides divided (not multiplied) by the scaling factors. -/
theorem c148_box {t : Affine} {c0 c1 α s0 s1 d0 d1 : ℝ} (h : Placed t c0 c1 α s0 s1) (h0 : 0 < s0) (h1 : 0 < s1)
    (p0 : 0 ≤ d0) (p1 : 0 ≤ d1) :
    ∃ s, boxShape [d0, d1] = some s ∧ s.check = true ∧ ∀ x y : Int,
      (s.interior (imagePoint t [x, y]) = some true ↔ ∃ u v : ℝ, |u| ≤ d0 / (2 * s0) ∧ |v| ≤ d1 / (2 * s1) ∧
        x = c0 + (Real.cos α * u + Real.sin α * v) ∧ y = c1 + (-(Real.sin α * u) + Real.cos α * v)) := by
  obtain ⟨b, hb, -, hc⟩ := c68_box [d0, d1] (by simp) (by simp [p0, p1]) [0, 0] (by
    simp [boxInterior]; constructor <;> constructor <;> linarith)
  refine ⟨⟨boxInterior [d0, d1], b.1, b.2⟩, by simp [boxShape, hb], hc, fun x y => ?_⟩
  have e := box_covers t d0 d1 x y
  show boxInterior [d0, d1] (imagePoint t [x, y]) = some true ↔ _
  rw [e, h.first, h.second]
  have key : ∀ s d w : ℝ, 0 < s → (|s * w| ≤ d / 2 ↔ |w| ≤ d / (2 * s)) := by
    intro s d w hs
    rw [abs_mul, abs_of_pos hs, ← div_div, le_div_iff₀ hs, mul_comm]
  rw [key _ _ _ h0, key _ _ _ h1]
  constructor
  · rintro ⟨a, b⟩
    have := (unturn α (x - c0) (y - c1) _ _).mp ⟨rfl, rfl⟩
    exact ⟨_, _, a, b, by linarith [this.1], by linarith [this.2]⟩
  · rintro ⟨u, v, hu, hv, hx, hy⟩
    have := (unturn α (x - c0) (y - c1) u v).mpr ⟨by linarith, by linarith⟩
    rw [← this.1, ← this.2]
    exact ⟨hu, hv⟩

example : ∃ t s, translation [-35, -70] = some t ∧ scaling [1, 2] = some s ∧
    Placed ((t.append (rotZ (Real.pi / 4))).append s) 35 70 (Real.pi / 4) 1 2 := by
  obtain ⟨t, s, h1, h2, -, -, -, h3⟩ := c148_chain 35 70 (Real.pi / 4) 1 2
  exact ⟨t, s, h1, h2, h3⟩

/-- C148: likewise a ball becomes an ellipse whose half axes are the radius divided by the scaling factors. -/
theorem c148_ball {t : Affine} {c0 c1 α s0 s1 r : ℝ} (h : Placed t c0 c1 α s0 s1) (hr : 0 < r) :
    (ballShape r).check = true ∧ ∀ x y : Int,
      ((ballShape r).interior (imagePoint t [x, y]) = some true ↔
        ∃ u v : ℝ, (u * s0 / r) ^ 2 + (v * s1 / r) ^ 2 < 1 ∧
        x = c0 + (Real.cos α * u + Real.sin α * v) ∧ y = c1 + (-(Real.sin α * u) + Real.cos α * v)) := by
  refine ⟨(c68_ball r hr.le [0] (by simp [ballInterior]; exact hr.ne')).2, fun x y => ?_⟩
  have e : (ballShape r).interior _ = some true ↔ _ := ball_covers t r x y
  rw [e, h.first, h.second]
  have key : ∀ u v : ℝ, s0 * u * (s0 * u) + s1 * v * (s1 * v) < r * r ↔ (u * s0 / r) ^ 2 + (v * s1 / r) ^ 2 < 1 := by
    intro u v
    rw [div_pow, div_pow, ← add_div, div_lt_one (by positivity)]
    constructor <;> intro h <;> nlinarith
  rw [key]
  constructor
  · intro a
    have := (unturn α (x - c0) (y - c1) _ _).mp ⟨rfl, rfl⟩
    exact ⟨_, _, a, by linarith [this.1], by linarith [this.2]⟩
  · rintro ⟨u, v, hu, hx, hy⟩
    have := (unturn α (x - c0) (y - c1) u v).mpr ⟨by linarith, by linarith⟩
    rw [← this.1, ← this.2]
    exact hu

/-- A figure that may be drawn on a grid with these sides. -/
def Drawable (dims : List Int) (f : Figure) : Prop :=
  f.1.check = true ∧ (∀ p : List ℝ, p.length = dims.length → f.1.interior p ≠ none) ∧
    (dims.length = 2 → KeepsPlane f.2)

/-- The figure covers the node. -/
def Covers (f : Figure) (p : List Int) : Prop := f.1.interior (imagePoint f.2 p) = some true

/-- C148: drawing figures one after the other with one value sets exactly the nodes covered by one of them. -/
theorem c148_figures (value : ℝ) : ∀ (figures : List Figure) (g : Grid ℝ) (_ : GoodDims g.dims)
    (_ : (g.data.length : Int) = numNodes g.dims) (_ : ∀ f ∈ figures, Drawable g.dims f),
    ∃ g', drawFigures value figures g = some g' ∧ g'.dims = g.dims ∧ g'.data.length = g.data.length ∧
      ∀ p, InBox g.dims p → ((∃ f ∈ figures, Covers f p) → g'.get p = some value) ∧
        ((∀ f ∈ figures, ¬ Covers f p) → g'.get p = g.get p)
  | [], g, _, _, _ => ⟨g, rfl, rfl, rfl, fun p _ => ⟨by simp, fun _ => rfl⟩⟩
  | f :: rest, g, hg, hlen, hf => by
    obtain ⟨fc, fi, fp⟩ := hf f (by simp)
    obtain ⟨res, hres, hrl, hpaint⟩ := c12_draw f.1 fc g hg fi f.2 fp value
    obtain ⟨g', h1, h2, h3, h4⟩ := c148_figures value rest ⟨g.dims, res⟩ hg (by rw [hrl]; exact hlen)
      fun f' hf' => hf f' (by simp [hf'])
    refine ⟨g', ?_, h2, h3.trans hrl, fun p hp => ?_⟩
    · rw [drawFigures, List.foldlM_cons, hres]
      exact h1
    have hq := h4 p hp
    obtain ⟨n, hn, n0, n1, hpn⟩ := nodeIdx_spec hg hp
    have hk : n.toNat < g.data.length := by omega
    have hk' : n.toNat < res.length := by omega
    have hP := hpaint n.toNat hk hk' p (by rw [Int.toNat_of_nonneg n0]; exact hpn)
    have eg : g.get p = some g.data[n.toNat] := by
      simp [Grid.get, Grid.index, hn, goGet, n0, hk]
    have er : (⟨g.dims, res⟩ : Grid ℝ).get p = some res[n.toNat] := by
      simp [Grid.get, Grid.index, hn, goGet, n0, hk']
    have hne : f.1.interior (imagePoint f.2 p) ≠ none := by
      apply fi
      rcases goodDims_cases hg with ⟨d0, d1, e, _, _⟩ | ⟨d0, d1, d2, e, _, _, _⟩
      · rw [e] at hp
        obtain ⟨a, b, rfl, _⟩ := inBox2 hp
        rw [e]; rfl
      · rw [e] at hp
        obtain ⟨a, b, c, rfl, _⟩ := inBox3 hp
        rw [e]; rfl
    constructor
    · rintro ⟨f', hf', hc⟩
      by_cases hr : ∃ f ∈ rest, Covers f p
      · exact hq.1 hr
      · push Not at hr
        rcases List.mem_cons.mp hf' with rfl | hm
        · rw [hq.2 hr, er, hP.1 hc]
        · exact absurd hc (hr f' hm)
    · intro hno
      rw [hq.2 fun f' hf' => hno f' (by simp [hf']), er, eg]
      refine congrArg some (hP.2 ?_)
      obtain ⟨b, hb⟩ := Option.ne_none_iff_exists'.mp hne
      cases b with
      | true => exact absurd hb (hno f (by simp))
      | false => exact hb

/-! ### The example -/

/-- The square with 31 by 31 nodes. -/
def squareNodes (x y : Int) : Bool := 10 ≤ x ∧ x ≤ 40 ∧ 10 ≤ y ∧ y ≤ 40

/-- The square standing on a corner. -/
def turnedSquareNodes (x y : Int) : Bool :=
  -21 ≤ x - 35 - (y - 70) ∧ x - 35 - (y - 70) ≤ 21 ∧ -21 ≤ x - 35 + (y - 70) ∧ x - 35 + (y - 70) ≤ 21

/-- The rectangle with 31 by 15 nodes. -/
def rectangleNodes (x y : Int) : Bool := 20 ≤ x ∧ x ≤ 50 ∧ 103 ≤ y ∧ y ≤ 117

/-- The rectangle turned by 45 degrees. -/
def turnedRectangleNodes (x y : Int) : Bool :=
  -21 ≤ x - 85 - (y - 25) ∧ x - 85 - (y - 25) ≤ 21 ∧ -10 ≤ x - 85 + (y - 25) ∧ x - 85 + (y - 25) ≤ 10

/-- The circle. -/
def circleNodes (x y : Int) : Bool := (x - 85) ^ 2 + (y - 65) ^ 2 < 15 ^ 2

/-- The ellipse: its half axes are 7.5 and 15. -/
def ellipseNodes (x y : Int) : Bool := (2 * (x - 85)) ^ 2 + (y - 110) ^ 2 < 15 ^ 2

/-- The figures of the example. -/
def figureNodes : List (Int → Int → Bool) :=
  [squareNodes, turnedSquareNodes, rectangleNodes, turnedRectangleNodes, circleNodes, ellipseNodes]

/-- One of the figures covers the node. -/
def drawnNode (x y : Int) : Bool := figureNodes.any fun f => f x y

/-- Integers below a bound on a multiple of a half of the root of two. -/
theorem half_root_bound {q : ℝ} {k m : Int} (hq : 0 ≤ q) (hk : 0 ≤ k) (h1 : (k : ℝ) ^ 2 ≤ 2 * q ^ 2)
    (h2 : 2 * q ^ 2 < ((k : ℝ) + 1) ^ 2) : |Real.sqrt 2 / 2 * (m : ℝ)| ≤ q ↔ |m| ≤ k := by
  have e : |Real.sqrt 2 / 2 * (m : ℝ)| ≤ q ↔ (m : ℝ) ^ 2 ≤ 2 * q ^ 2 := by
    rw [← sq_le_sq₀ (abs_nonneg _) hq, sq_abs, mul_pow, div_pow, Real.sq_sqrt (by norm_num)]
    constructor <;> intro h <;> linarith
  rw [e]
  constructor
  · intro h
    by_contra hc
    have hc' : k + 1 ≤ |m| := by omega
    have h3 : ((k : ℝ) + 1) ≤ |(m : ℝ)| := by exact_mod_cast hc'
    have hk' : (0 : ℝ) ≤ k := by exact_mod_cast hk
    have h4 : ((k : ℝ) + 1) ^ 2 ≤ |(m : ℝ)| ^ 2 := pow_le_pow_left₀ (by linarith) h3 2
    rw [sq_abs] at h4
    linarith
  · intro h
    have h3 : |(m : ℝ)| ≤ (k : ℝ) := by exact_mod_cast h
    have h4 : |(m : ℝ)| ^ 2 ≤ (k : ℝ) ^ 2 := pow_le_pow_left₀ (abs_nonneg _) h3 2
    rw [sq_abs] at h4
    linarith

theorem int_abs_bound {q : ℝ} {k m : Int} (h1 : (k : ℝ) ≤ q) (h2 : q < (k : ℝ) + 1) : |(m : ℝ)| ≤ q ↔ |m| ≤ k := by
  constructor
  · intro h
    have : |(m : ℝ)| < ((k + 1 : Int) : ℝ) := by push_cast; linarith
    have : |m| < k + 1 := by exact_mod_cast this
    omega
  · intro h
    have h3 : |(m : ℝ)| ≤ (k : ℝ) := by exact_mod_cast h
    linarith

/-- C148: the six figures of the example can be drawn, and cover exactly the nodes named here. -/
theorem c148_example_figures : ∃ f1 f2 f3 f4 f5 f6 : Figure, exampleFigures = some [f1, f2, f3, f4, f5, f6] ∧
    (∀ f ∈ [f1, f2, f3, f4, f5, f6], Drawable [128, 128] f) ∧ ∀ x y : Int,
      (Covers f1 [x, y] ↔ squareNodes x y) ∧ (Covers f2 [x, y] ↔ turnedSquareNodes x y) ∧
      (Covers f3 [x, y] ↔ rectangleNodes x y) ∧ (Covers f4 [x, y] ↔ turnedRectangleNodes x y) ∧
      (Covers f5 [x, y] ↔ circleNodes x y) ∧ (Covers f6 [x, y] ↔ ellipseNodes x y) := by
  obtain ⟨t1, -, e1, -, p1, -, -, -⟩ := c148_chain 25 25 0 1 1
  obtain ⟨t2, -, e2, -, -, p2, -, -⟩ := c148_chain 35 70 (Real.pi / 4) 1 1
  obtain ⟨t3, s3, e3, es3, -, -, p3, -⟩ := c148_chain 35 110 0 1 2
  obtain ⟨t4, s4, e4, es4, -, -, -, p4⟩ := c148_chain 85 25 (Real.pi / 4) 1 2
  obtain ⟨t5, -, e5, -, p5, -, -, -⟩ := c148_chain 85 65 0 1 1
  obtain ⟨t6, s6, e6, es6, -, -, p6, -⟩ := c148_chain 85 110 0 2 1
  obtain ⟨sq, hsq, hc, -⟩ := c148_box (d0 := 30) (d1 := 30) p1 one_pos one_pos (by norm_num) (by norm_num)
  have hb : (ballShape 15).check = true := (c148_ball (r := 15) p5 (by norm_num)).1
  have hi : sq.interior = boxInterior [30, 30] := by
    unfold boxShape at hsq
    cases hbb : boxBBox [(30 : ℝ), 30] with
    | none => rw [hbb] at hsq; simp at hsq
    | some b =>
      rw [hbb] at hsq
      simp only [Option.bind_eq_bind, Option.bind_some, Option.pure_def, Option.some.injEq] at hsq
      rw [← hsq]
  have hn : ∀ p : List ℝ, p.length = [(128 : Int), 128].length → sq.interior p ≠ none := by
    intro p hp
    rw [hi]
    simp at hp
    simp [boxInterior, hp]
  have hm : ∀ p : List ℝ, p.length = [(128 : Int), 128].length → (ballShape 15).interior p ≠ none := by
    intro p _
    simp [ballShape, ballInterior]
  refine ⟨(sq, t1), (sq, t2.append (rotZ (Real.pi / 4))), (sq, t3.append s3),
    (sq, (t4.append (rotZ (Real.pi / 4))).append s4), (ballShape 15, t5), (ballShape 15, t6.append s6), ?_, ?_, ?_⟩
  · have es : s4 = s3 := Option.some.inj (es4.symm.trans es3)
    subst es
    simp only [exampleFigures, hsq, e1, e2, e3, e4, e5, e6, es4, es6, Option.bind_eq_bind, Option.bind_some,
      Option.pure_def]
  · intro f hf
    simp only [List.mem_cons, List.not_mem_nil, or_false] at hf
    rcases hf with rfl | rfl | rfl | rfl | rfl | rfl
    · exact ⟨hc, hn, fun _ => p1.plane⟩
    · exact ⟨hc, hn, fun _ => p2.plane⟩
    · exact ⟨hc, hn, fun _ => p3.plane⟩
    · exact ⟨hc, hn, fun _ => p4.plane⟩
    · exact ⟨hb, hm, fun _ => p5.plane⟩
    · exact ⟨hb, hm, fun _ => p6.plane⟩
  · intro x y
    refine ⟨?_, ?_, ?_, ?_, ?_, ?_⟩
    · simp only [Covers, hi, box_covers, p1.first, p1.second, Real.cos_zero, Real.sin_zero, squareNodes]
      have a := int_abs_bound (q := 30 / 2) (k := 15) (m := x - 25) (by norm_num) (by norm_num)
      have b := int_abs_bound (q := 30 / 2) (k := 15) (m := y - 25) (by norm_num) (by norm_num)
      push_cast at a b
      simp only [zero_mul, sub_zero, zero_add, one_mul, a, b, abs_le, decide_eq_true_eq]
      omega
    · simp only [Covers, hi, box_covers, p2.first, p2.second, Real.cos_pi_div_four, Real.sin_pi_div_four,
        turnedSquareNodes, ← mul_sub, ← mul_add, one_mul]
      have a := half_root_bound (q := 30 / 2) (k := 21) (m := x - 35 - (y - 70)) (by norm_num) (by norm_num)
        (by norm_num) (by norm_num)
      have b := half_root_bound (q := 30 / 2) (k := 21) (m := x - 35 + (y - 70)) (by norm_num) (by norm_num)
        (by norm_num) (by norm_num)
      push_cast at a b
      rw [a, b, decide_eq_true_eq, abs_le, abs_le]
      tauto
    · simp only [Covers, hi, box_covers, p3.first, p3.second, Real.cos_zero, Real.sin_zero, rectangleNodes]
      have a := int_abs_bound (q := 30 / 2) (k := 15) (m := x - 35) (by norm_num) (by norm_num)
      have b := int_abs_bound (q := 30 / 2) (k := 15) (m := 2 * (y - 110)) (by norm_num) (by norm_num)
      push_cast at a b
      simp only [zero_mul, sub_zero, zero_add, one_mul, a, b, abs_le, decide_eq_true_eq]
      omega
    · simp only [Covers, hi, box_covers, p4.first, p4.second, Real.cos_pi_div_four, Real.sin_pi_div_four,
        turnedRectangleNodes, ← mul_sub, ← mul_add, one_mul]
      have a := half_root_bound (q := 30 / 2) (k := 21) (m := x - 85 - (y - 25)) (by norm_num) (by norm_num)
        (by norm_num) (by norm_num)
      have b := half_root_bound (q := 30 / 2) (k := 21) (m := 2 * (x - 85 + (y - 25))) (by norm_num) (by norm_num)
        (by norm_num) (by norm_num)
      push_cast at a b
      rw [a, mul_left_comm, b, decide_eq_true_eq, abs_le, abs_le]
      omega
    · simp only [Covers, ballShape, ball_covers, p5.first, p5.second, Real.cos_zero, Real.sin_zero, circleNodes,
        zero_mul, sub_zero, zero_add, one_mul, decide_eq_true_eq]
      rw [← Int.cast_lt (R := ℝ)]
      push_cast
      constructor <;> intro h <;> linarith
    · simp only [Covers, ballShape, ball_covers, p6.first, p6.second, Real.cos_zero, Real.sin_zero, ellipseNodes,
        zero_mul, sub_zero, zero_add, one_mul, decide_eq_true_eq]
      rw [← Int.cast_lt (R := ℝ)]
      push_cast
      constructor <;> intro h <;> linarith

/-- All nodes of the grid of the example, row by row. -/
def exampleNodes : List (Int × Int) :=
  (List.range (128 * 128)).map fun (i : Nat) => (((i / 128 : Nat) : Int), ((i % 128 : Nat) : Int))

/-- The shifts of a window with five by five nodes. -/
def fiveByFive : List (Int × Int) :=
  [-2, -1, 0, 1, 2].flatMap fun (a : Int) => [-2, -1, 0, 1, 2].map fun (b : Int) => (a, b)

theorem turnedSquare_bounds {x y : Int} (h : turnedSquareNodes x y = true) : 14 ≤ x ∧ x ≤ 56 ∧ 49 ≤ y ∧ y ≤ 91 := by
  simp only [turnedSquareNodes, decide_eq_true_eq] at h
  omega

theorem turnedRectangle_bounds {x y : Int} (h : turnedRectangleNodes x y = true) :
    70 ≤ x ∧ x ≤ 100 ∧ 10 ≤ y ∧ y ≤ 40 := by
  simp only [turnedRectangleNodes, decide_eq_true_eq] at h
  omega

theorem circle_bounds {x y : Int} (h : circleNodes x y = true) : 71 ≤ x ∧ x ≤ 99 ∧ 51 ≤ y ∧ y ≤ 79 := by
  simp only [circleNodes, decide_eq_true_eq] at h
  have h1 : -15 < x - 85 ∧ x - 85 < 15 := abs_lt_of_sq_lt_sq' (by nlinarith [sq_nonneg (y - 65)]) (by norm_num)
  have h2 : -15 < y - 65 ∧ y - 65 < 15 := abs_lt_of_sq_lt_sq' (by nlinarith [sq_nonneg (x - 85)]) (by norm_num)
  omega

theorem ellipse_bounds {x y : Int} (h : ellipseNodes x y = true) : 78 ≤ x ∧ x ≤ 92 ∧ 96 ≤ y ∧ y ≤ 124 := by
  simp only [ellipseNodes, decide_eq_true_eq] at h
  have h1 : -15 < 2 * (x - 85) ∧ 2 * (x - 85) < 15 :=
    abs_lt_of_sq_lt_sq' (by nlinarith [sq_nonneg (y - 110)]) (by norm_num)
  have h2 : -15 < y - 110 ∧ y - 110 < 15 :=
    abs_lt_of_sq_lt_sq' (by nlinarith [sq_nonneg (2 * (x - 85))]) (by norm_num)
  omega

theorem square_bounds {x y : Int} (h : squareNodes x y = true) : 10 ≤ x ∧ x ≤ 40 ∧ 10 ≤ y ∧ y ≤ 40 := by
  simpa only [squareNodes, decide_eq_true_eq] using h

theorem rectangle_bounds {x y : Int} (h : rectangleNodes x y = true) : 20 ≤ x ∧ x ≤ 50 ∧ 103 ≤ y ∧ y ≤ 117 := by
  simpa only [rectangleNodes, decide_eq_true_eq] using h

theorem drawn_bounds {x y : Int} (h : drawnNode x y = true) : 10 ≤ x ∧ x ≤ 100 ∧ 10 ≤ y ∧ y ≤ 124 := by
  simp only [drawnNode, figureNodes, List.any_cons, List.any_nil, Bool.or_false, Bool.or_eq_true] at h
  rcases h with h | h | h | h | h | h
  · have := square_bounds h; omega
  · have := turnedSquare_bounds h; omega
  · have := rectangle_bounds h; omega
  · have := turnedRectangle_bounds h; omega
  · have := circle_bounds h; omega
  · have := ellipse_bounds h; omega

/-- C148: no two figures of the example overlap, and none of them reaches the border of the grid. -/
theorem c148_disjoint : figureNodes.Pairwise (fun f g => ∀ x y, f x y = true → g x y = false) ∧
    ∀ x y, drawnNode x y = true → 10 ≤ x ∧ x ≤ 100 ∧ 10 ≤ y ∧ y ≤ 124 := by
  refine ⟨?_, fun x y => drawn_bounds⟩
  have no : ∀ b : Bool, (b = true → False) → b = false := by decide
  simp only [figureNodes, List.pairwise_cons, List.mem_cons, List.not_mem_nil, or_false, forall_eq_or_imp, forall_eq,
    List.Pairwise.nil, and_true, false_implies, implies_true]
  refine ⟨⟨?_, ?_, ?_, ?_, ?_⟩, ⟨?_, ?_, ?_, ?_⟩, ⟨?_, ?_, ?_⟩, ⟨?_, ?_⟩, ?_⟩ <;> intro x y h <;> refine no _ fun h' => ?_
  · have := square_bounds h; have := turnedSquare_bounds h'; omega
  · have := square_bounds h; have := rectangle_bounds h'; omega
  · have := square_bounds h; have := turnedRectangle_bounds h'; omega
  · have := square_bounds h; have := circle_bounds h'; omega
  · have := square_bounds h; have := ellipse_bounds h'; omega
  · have := turnedSquare_bounds h; have := rectangle_bounds h'; omega
  · have := turnedSquare_bounds h; have := turnedRectangle_bounds h'; omega
  · have := turnedSquare_bounds h; have := circle_bounds h'; omega
  · have := turnedSquare_bounds h; have := ellipse_bounds h'; omega
  · have := rectangle_bounds h; have := turnedRectangle_bounds h'; omega
  · have := rectangle_bounds h; have := circle_bounds h'; omega
  · have := rectangle_bounds h; have := ellipse_bounds h'; omega
  · have := turnedRectangle_bounds h; have := circle_bounds h'; omega
  · have := turnedRectangle_bounds h; have := ellipse_bounds h'; omega
  · have := circle_bounds h; have := ellipse_bounds h'; omega

theorem drawn_wrapped {x a : Int} (h0 : 0 ≤ x) (h1 : x < 128) (ha : -2 ≤ a) (ha' : a ≤ 2) :
    (x + a) % 128 = x + a ∨ ((x + a < 0 ∨ 128 ≤ x + a) ∧ ((x + a) % 128 < 10 ∨ 124 < (x + a) % 128)) := by
  omega

/-- Wrapping does not matter: the figures stay away from the borders. -/
theorem drawn_mod {x y a b : Int} (x0 : 0 ≤ x) (x1 : x < 128) (y0 : 0 ≤ y) (y1 : y < 128) (a0 : -2 ≤ a) (a1 : a ≤ 2)
    (b0 : -2 ≤ b) (b1 : b ≤ 2) : drawnNode ((x + a) % 128) ((y + b) % 128) = drawnNode (x + a) (y + b) := by
  rw [Bool.eq_iff_iff]
  rcases drawn_wrapped x0 x1 a0 a1 with ha | ⟨ha, ha'⟩ <;> rcases drawn_wrapped y0 y1 b0 b1 with hb | ⟨hb, hb'⟩
  · rw [ha, hb]
  all_goals constructor <;> intro h <;> have := drawn_bounds h <;> omega

/-- The number of nodes in the figures. -/
def drawnTable : Bool := exampleNodes.countP (fun p => drawnNode p.1 p.2) == 3850

set_option maxRecDepth 100000 in
theorem drawnTable_true : drawnTable = true := by decide +kernel

theorem sum_indicator {α : Type} (p : α → Bool) : ∀ l : List α,
    (l.map fun x => if p x then (1 : ℝ) else 0).sum = l.countP p
  | [] => by simp
  | x :: l => by
    rw [List.map_cons, List.sum_cons, sum_indicator p l, List.countP_cons]
    by_cases h : p x = true
    · rw [if_pos h, if_pos h]; push_cast; ring
    · rw [if_neg h, if_neg h]; push_cast; ring

/-- C148: the program does not panic. At every node it writes the share of the nodes in the window of five by five
nodes around it that belong to a figure (the width three of the kernel is not the width of the window). -/
theorem c148_program : ∃ out, drawingExample = some out ∧ out.length = 128 * 128 ∧
    (∀ x y : Int, 0 ≤ x → x < 128 → 0 ≤ y → y < 128 → Grid.get ⟨[128, 128], out⟩ [x, y] =
      some ((fiveByFive.countP (fun s => drawnNode (x + s.1) (y + s.2)) : ℝ) / 25)) ∧
    out.sum = 3850 ∧ ∀ v ∈ out, 0 ≤ v ∧ v ≤ 1 := by
  obtain ⟨f1, f2, f3, f4, f5, f6, hf, hd, hc⟩ := c148_example_figures
  have hgd : GoodDims [(128 : Int), 128] := ⟨by simp, by simp⟩
  obtain ⟨g, hg⟩ : ∃ g : Grid ℝ, g = ⟨[128, 128], List.replicate (128 * 128) 0⟩ := ⟨_, rfl⟩
  have hgl : (g.data.length : Int) = numNodes [128, 128] := by
    rw [hg]
    simp only [List.length_replicate]
    rfl
  have hgdim : g.dims = [128, 128] := by rw [hg]
  obtain ⟨g', h1, h2, h3, h4⟩ := c148_figures 1 [f1, f2, f3, f4, f5, f6] g (by rw [hgdim]; exact hgd)
    (by rw [hgdim]; exact hgl) (by rw [hgdim]; exact hd)
  rw [hgdim] at h2 h4
  have hgl' : (g'.data.length : Int) = numNodes [128, 128] := by rw [h3]; exact hgl
  have hval : ∀ x y : Int, 0 ≤ x → x < 128 → 0 ≤ y → y < 128 →
      g'.get [x, y] = some (if drawnNode x y then 1 else 0) := by
    intro x y x0 x1 y0 y1
    have hb : InBox [128, 128] [x, y] := .cons ⟨x0, x1⟩ (.cons ⟨y0, y1⟩ .nil)
    obtain ⟨q1, q2⟩ := h4 [x, y] hb
    obtain ⟨c1, c2, c3, c4, c5, c6⟩ := hc x y
    have hcov : (∃ f ∈ [f1, f2, f3, f4, f5, f6], Covers f [x, y]) ↔ drawnNode x y = true := by
      simp only [drawnNode, figureNodes, List.any_cons, List.any_nil, Bool.or_false, Bool.or_eq_true, ← c1, ← c2, ← c3,
        ← c4, ← c5, ← c6, List.mem_cons, List.not_mem_nil, or_false, exists_eq_or_imp, exists_eq_left]
    by_cases hdn : drawnNode x y = true
    · rw [if_pos hdn, q1 (hcov.mpr hdn)]
    · rw [if_neg hdn, q2 fun f hf hfc => hdn (hcov.mp ⟨f, hf, hfc⟩)]
      obtain ⟨n, hn, n0, n1, hpn⟩ := nodeIdx_spec hgd hb
      have hk : n.toNat < 128 * 128 := by
        simp [numNodes] at n1
        omega
      rw [hg]
      simp only [Grid.get, Grid.index, hn, goGet, n0, if_true, Option.bind_eq_bind, Option.bind_some,
        List.getElem?_replicate, hk]
  obtain ⟨out, ho, hp⟩ := c06_box_is_average [128, 128] hgd g' h2 hgl' (3 : Int) (by norm_num)
  have hk : ∀ s, 0 ≤ (boxKernel ℝ 3).value s := by
    intro s
    simp only [boxKernel]
    split_ifs <;> simp
  have hw : windowWeight (boxKernel ℝ 3).value 2 (boxKernel ℝ 3).cutoff ≠ 0 := by
    have hz : ([0, 0] : List Int) ∈ window 2 (boxKernel ℝ 3).cutoff := by
      rw [mem_window (by decide)]
      decide
    have hs : (boxKernel ℝ 3).value [0, 0] ≤ windowWeight (boxKernel ℝ 3).value 2 (boxKernel ℝ 3).cutoff := by
      rw [windowWeight]
      refine List.single_le_sum ?_ _ (List.mem_map_of_mem hz)
      intro v hv
      obtain ⟨s, -, rfl⟩ := List.mem_map.mp hv
      exact hk s
    have h1 : (boxKernel ℝ 3).value [0, 0] = 1 := by
      simp [boxKernel]
    rw [h1] at hs
    exact (lt_of_lt_of_le one_pos hs).ne'
  obtain ⟨o1, ho1, hl, hsum⟩ := c05_sum [128, 128] hgd g'.data hgl' (boxKernel ℝ 3) (by decide) hw
  rw [ho] at ho1
  obtain rfl := Option.some.inj ho1
  have hdata : g'.data = exampleNodes.map fun p => if drawnNode p.1 p.2 then (1 : ℝ) else 0 := by
    have hl' : g'.data.length = 128 * 128 := by
      rw [h3, hg]
      simp only [List.length_replicate]
    apply List.ext_getElem
    · rw [hl']
      simp only [exampleNodes, List.length_map, List.length_range]
    · intro i i1 i2
      have e := pos2_eq (d1 := 128) (n := (i : Int)) (by norm_num) (by omega)
      obtain ⟨p, hp1, hp2, hp3⟩ := pos_spec hgd (n := (i : Int)) (by omega) (by omega)
      have : p = [(i : Int) / 128, (i : Int) % 128] := Option.some.inj (hp1.symm.trans e)
      subst this
      have := hval ((i : Int) / 128) ((i : Int) % 128) (by omega) (by omega) (by omega) (by omega)
      rw [Grid.get, Grid.index, h2, hp3] at this
      simp only [Option.bind_eq_bind, Option.bind_some, goGet, Int.natCast_nonneg, if_true, Int.toNat_natCast,
        List.getElem?_eq_getElem i1, Option.some.injEq] at this
      rw [this]
      simp only [exampleNodes, List.map_map, List.getElem_map, List.getElem_range, Function.comp, Int.natCast_ediv,
        Int.natCast_emod, Nat.cast_ofNat]
  have hmem : ∀ v ∈ g'.data, 0 ≤ v ∧ v ≤ 1 := by
    intro v hv
    rw [hdata] at hv
    obtain ⟨p, -, rfl⟩ := List.mem_map.mp hv
    split_ifs <;> norm_num
  obtain ⟨o2, ho2, hbd⟩ := c05_bounds [128, 128] hgd g'.data hgl' (boxKernel ℝ 3) (by decide) hk hw 0 1
    (fun v hv => (hmem v hv).1) (fun v hv => (hmem v hv).2)
  rw [ho] at ho2
  obtain rfl := Option.some.inj ho2
  refine ⟨out, ?_, ?_, ?_, ?_, hbd⟩
  · have hn : newGrid (α := ℝ) [128, 128] = some g := by
      rw [hg]; rfl
    simp only [drawingExample, hn, hf, h1, h2, ho, Option.bind_eq_bind, Option.bind_some]
  · rw [hl, h3, hg]
    simp only [List.length_replicate]
  · intro x y x0 x1 y0 y1
    rw [hp [x, y] (.cons ⟨x0, x1⟩ (.cons ⟨y0, y1⟩ .nil))]
    have hwin : window [(128 : Int), 128].length (3 / 2 + 1) = fiveByFive.map fun s => [s.1, s.2] := by decide
    have hsm : ∀ s ∈ fiveByFive, (-2 ≤ s.1 ∧ s.1 ≤ 2) ∧ -2 ≤ s.2 ∧ s.2 ≤ 2 := by decide
    rw [hwin, List.map_map, ← sum_indicator]
    congr 2
    · congr 1
      apply List.map_congr_left
      intro s hs
      obtain ⟨⟨a0, a1⟩, b0, b1⟩ := hsm s hs
      have e : torusShift [128, 128] [x, y] [s.1, s.2] = [(x + s.1) % 128, (y + s.2) % 128] := rfl
      show ((g'.get (torusShift [128, 128] [x, y] [s.1, s.2])).getD 0 : ℝ) = _
      rw [e, hval _ _ (by omega) (by omega) (by omega) (by omega), Option.getD_some,
        drawn_mod x0 x1 y0 y1 a0 a1 b0 b1]
  · rw [hsum, hdata, sum_indicator]
    have := drawnTable_true
    simp only [drawnTable, beq_iff_eq] at this
    rw [this]
    norm_num

/-- The value at four nodes: in the middle of the square, at its corner, two nodes away from it and three nodes away. -/
example : ∃ out, drawingExample = some out ∧ Grid.get ⟨[128, 128], out⟩ [25, 25] = some 1 ∧
    Grid.get ⟨[128, 128], out⟩ [10, 10] = some (9 / 25) ∧ Grid.get ⟨[128, 128], out⟩ [8, 8] = some (1 / 25) ∧
    Grid.get ⟨[128, 128], out⟩ [7, 25] = some 0 := by
  obtain ⟨out, h, -, hv, -⟩ := c148_program
  refine ⟨out, h, ?_, ?_, ?_, ?_⟩
  · rw [hv _ _ (by decide) (by decide) (by decide) (by decide),
      show fiveByFive.countP (fun s => drawnNode (25 + s.1) (25 + s.2)) = 25 by decide +kernel]
    norm_num
  · rw [hv _ _ (by decide) (by decide) (by decide) (by decide),
      show fiveByFive.countP (fun s => drawnNode (10 + s.1) (10 + s.2)) = 9 by decide +kernel]
    norm_num
  · rw [hv _ _ (by decide) (by decide) (by decide) (by decide),
      show fiveByFive.countP (fun s => drawnNode (8 + s.1) (8 + s.2)) = 1 by decide +kernel]
    norm_num
  · rw [hv _ _ (by decide) (by decide) (by decide) (by decide),
      show fiveByFive.countP (fun s => drawnNode (7 + s.1) (25 + s.2)) = 0 by decide +kernel]
    norm_num

end Gopf.Props
