import Verif.Model.Affine
import Verif.Spec.Space
import Verif.Proofs.Index
import Mathlib.Tactic.Linarith
import Mathlib.Tactic.Ring
import Mathlib.Tactic.FinCases
import Mathlib.Tactic.FieldSimp
import Mathlib.Tactic.LinearCombination

/-!
# C11, C12, C68: affine maps and shapes
-/

namespace Gopf.Props
open Spec Pfutil

private theorem apply3 (a : Affine) (x y z : ℝ) : Affine.apply a [x, y, z] =
    some [imageCoord a 0 x y z, imageCoord a 1 x y z, imageCoord a 2 x y z] := by
  simp [Affine.apply, List.finRange_succ, Matrix.mulVec, dotProduct, Fin.sum_univ_four,
    homogeneous, imageCoord]

private theorem apply2 (a : Affine) (x y : ℝ) : Affine.apply a [x, y] =
    some [imageCoord a 0 x y 0, imageCoord a 1 x y 0] := by
  simp [Affine.apply, List.finRange_succ, Matrix.mulVec, dotProduct, Fin.sum_univ_four,
    homogeneous, imageCoord]

private theorem append_coord {a b : Affine} (ha : IsAffine a) (r : Fin 4) (x y z : ℝ) :
    imageCoord (Affine.append a b) r x y z =
      imageCoord b r (imageCoord a 0 x y z) (imageCoord a 1 x y z) (imageCoord a 2 x y z) := by
  obtain ⟨h0, h1, h2, h3⟩ := ha
  simp only [imageCoord, Affine.append, Matrix.mul_apply, Fin.sum_univ_four, h0, h1, h2, h3]
  ring

/-- C11: applying the appended map to a point of space is applying the receiver and then the
argument; in the plane the same holds if the receiver keeps the plane `z = 0`. -/
theorem c11_append {a b : Affine} (ha : IsAffine a) :
    (∀ p : List ℝ, p.length = 3 →
      Affine.apply (Affine.append a b) p = (Affine.apply a p).bind (Affine.apply b)) ∧
    (KeepsPlane a → ∀ p : List ℝ, p.length = 2 →
      Affine.apply (Affine.append a b) p = (Affine.apply a p).bind (Affine.apply b)) := by
  constructor
  · intro p hp
    obtain ⟨x, y, z, rfl⟩ := List.length_eq_three.mp hp
    simp only [apply3, Option.bind_some, append_coord ha]
  · intro hk p hp
    obtain ⟨x, y, rfl⟩ := List.length_eq_two.mp hp
    simp only [apply2, Option.bind_some, append_coord ha, hk x y]

/-- C11: without that condition the planar statement fails: two quarter turns about the x-axis. -/
theorem c11_append_plane_fails : ∃ a b : Affine, IsAffine a ∧ ∃ p : List ℝ, p.length = 2 ∧
    Affine.apply (Affine.append a b) p ≠ (Affine.apply a p).bind (Affine.apply b) := by
  refine ⟨rotX (Real.pi / 2), rotX (Real.pi / 2), ?_, [0, 1], rfl, ?_⟩
  · simp [IsAffine, rotX]
  · simp [apply2, imageCoord, Affine.append, rotX]

/-- C11: points with up to four coordinates are accepted and keep their number of coordinates, longer ones are refused.
The fourth coordinate is not read: it counts as one. -/
theorem c11_accepted (a : Affine) (p : List ℝ) :
    (p.length ≤ 4 → ∃ q, Affine.apply a p = some q ∧ q.length = p.length) ∧ (4 < p.length → Affine.apply a p = none) ∧
    ∀ x y z w w', Affine.apply a [x, y, z, w] = Affine.apply a [x, y, z, w'] := by
  refine ⟨fun h => ?_, fun h => ?_, fun x y z w w' => ?_⟩
  · unfold Affine.apply
    rw [if_pos h]
    exact ⟨_, rfl, by simpa using h⟩
  · unfold Affine.apply
    rw [if_neg (by omega)]
  · unfold Affine.apply
    have : homogeneous [x, y, z, w] = homogeneous [x, y, z, w'] := by
      funext i
      fin_cases i <;> simp [homogeneous]
    rw [this]
    simp

/-- C11: appending is associative, the identity is neutral, and all constructors give affine
matrices, a class closed under appending. -/
theorem c11_monoid (a b c : Affine) :
    Affine.append (Affine.append a b) c = Affine.append a (Affine.append b c) ∧
    Affine.append identity a = a ∧ Affine.append a identity = a ∧ IsAffine identity ∧
    (IsAffine a → IsAffine b → IsAffine (Affine.append a b)) := by
  have hid : identity = (1 : Matrix (Fin 4) (Fin 4) ℝ) := by
    ext i j; simp [identity, Matrix.one_apply]
  refine ⟨?_, ?_, ?_, ?_, ?_⟩
  · simp [Affine.append, mul_assoc]
  · simp [Affine.append, hid]
  · simp [Affine.append, hid]
  · simp [IsAffine, identity]
  · rintro ⟨a0, a1, a2, a3⟩ ⟨b0, b1, b2, b3⟩
    simp [IsAffine, Affine.append, Matrix.mul_apply, Fin.sum_univ_four, a0, a1, a2, a3, b0, b1, b2, b3]

/-- C11: what the constructors do to a point. -/
theorem c11_translation (u v w x y z : ℝ) :
    ∃ t, translation [u, v, w] = some t ∧ IsAffine t ∧
      Affine.apply t [x, y, z] = some [x + u, y + v, z + w] ∧
      ∃ t', translation [-u, -v, -w] = some t' ∧ Affine.append t t' = identity := by
  refine ⟨_, rfl, ?_, ?_, _, rfl, ?_⟩
  · simp [IsAffine]
  · rw [apply3]; simp [imageCoord]
  · ext i j
    fin_cases i <;> fin_cases j <;>
      simp [Affine.append, Matrix.mul_apply, Fin.sum_univ_four, identity]

theorem c11_scaling (u v w x y z : ℝ) (hu : u ≠ 0) (hv : v ≠ 0) (hw : w ≠ 0) :
    ∃ t, scaling [u, v, w] = some t ∧ IsAffine t ∧
      Affine.apply t [x, y, z] = some [u * x, v * y, w * z] ∧
      ∃ t', scaling [1 / u, 1 / v, 1 / w] = some t' ∧ Affine.append t t' = identity := by
  refine ⟨_, rfl, ?_, ?_, _, rfl, ?_⟩
  · simp [IsAffine]
  · rw [apply3]; simp [imageCoord]
  · ext i j
    fin_cases i <;> fin_cases j <;>
      simp [Affine.append, Matrix.mul_apply, Fin.sum_univ_four, identity, hu, hv, hw]

example : (2 : ℝ) ≠ 0 ∧ (-3 : ℝ) ≠ 0 := by norm_num

/-- C11: the planar constructors: two entries translate or scale the plane. -/
theorem c11_planar (u v x y : ℝ) :
    ∃ t s, translation [u, v] = some t ∧ scaling [u, v] = some s ∧ KeepsPlane t ∧ KeepsPlane s ∧
      Affine.apply t [x, y] = some [x + u, y + v] ∧ Affine.apply s [x, y] = some [u * x, v * y] := by
  refine ⟨_, _, rfl, rfl, ?_, ?_, ?_, ?_⟩
  · intro x y; simp [imageCoord]
  · intro x y; simp [imageCoord]
  · rw [apply2]; simp [imageCoord]
  · rw [apply2]; simp [imageCoord]

/-- C11: a scaling with fewer than three entries does not leave the other coordinates alone, it sets them
to zero. -/
theorem c11_short_scaling (u v x y z : ℝ) :
    (∃ t, scaling [u, v] = some t ∧ Affine.apply t [x, y, z] = some [u * x, v * y, 0]) ∧
    (∃ t, scaling [u] = some t ∧ Affine.apply t [x, y, z] = some [u * x, 0, 0] ∧
      Affine.apply t [x, y] = some [u * x, 0]) := by
  refine ⟨⟨_, rfl, ?_⟩, _, rfl, ?_, ?_⟩
  · rw [apply3]; simp [imageCoord]
  · rw [apply3]; simp [imageCoord]
  · rw [apply2]; simp [imageCoord]

/-- C11: the rotations about the three axes turn the two other axes by the angle (each in the
right-handed sense), leave the axis fixed and preserve distances. -/
theorem c11_rotations (α x y z : ℝ) :
    Affine.apply (rotX α) [x, y, z] =
      some [x, Real.cos α * y - Real.sin α * z, Real.sin α * y + Real.cos α * z] ∧
    Affine.apply (rotY α) [x, y, z] =
      some [Real.sin α * z + Real.cos α * x, y, Real.cos α * z - Real.sin α * x] ∧
    Affine.apply (rotZ α) [x, y, z] =
      some [Real.cos α * x - Real.sin α * y, Real.sin α * x + Real.cos α * y, z] := by
  simp only [apply3, imageCoord, rotX, rotY, rotZ]
  refine ⟨?_, ?_, ?_⟩ <;> (simp; ring_nf; try simp)

theorem c11_isometry (α : ℝ) (m : Affine) (hm : m = rotX α ∨ m = rotY α ∨ m = rotZ α)
    (p q : List ℝ) (hp : p.length = 3) (hq : q.length = 3) :
    ∃ p' q', Affine.apply m p = some p' ∧ Affine.apply m q = some q' ∧ distSq p' q' = distSq p q := by
  obtain ⟨x, y, z, rfl⟩ := List.length_eq_three.mp hp
  obtain ⟨u, v, w, rfl⟩ := List.length_eq_three.mp hq
  refine ⟨_, _, apply3 _ _ _ _, apply3 _ _ _ _, ?_⟩
  have hsc := Real.sin_sq_add_cos_sq α
  rcases hm with rfl | rfl | rfl <;>
    simp [distSq, imageCoord, rotX, rotY, rotZ]
  · linear_combination ((y - v) ^ 2 + (z - w) ^ 2) * hsc
  · linear_combination ((x - u) ^ 2 + (z - w) ^ 2) * hsc
  · linear_combination ((x - u) ^ 2 + (y - v) ^ 2) * hsc

/-- C11: rotations about the same axis compose by adding the angles. -/
theorem c11_angles (α β : ℝ) :
    Affine.append (rotX α) (rotX β) = rotX (α + β) ∧
    Affine.append (rotY α) (rotY β) = rotY (α + β) ∧
    Affine.append (rotZ α) (rotZ β) = rotZ (α + β) := by
  refine ⟨?_, ?_, ?_⟩ <;>
  · ext i j
    fin_cases i <;> fin_cases j <;>
      simp [Affine.append, Matrix.mul_apply, Fin.sum_univ_four, rotX, rotY, rotZ, Real.cos_add,
        Real.sin_add] <;> ring

/-! ### Draw -/

/-- The planar or spatial image of a grid position. -/
def imagePoint (t : Affine) (p : List Int) : List ℝ :=
  match p with
  | [x, y] => [imageCoord t 0 x y 0, imageCoord t 1 x y 0]
  | [x, y, z] => [imageCoord t 0 x y z, imageCoord t 1 x y z, imageCoord t 2 x y z]
  | _ => []

/-- The pixel value `Draw` should produce. -/
def Painted (s : Shape) (t : Affine) (value old : ℝ) (p : List Int) (new : ℝ) : Prop :=
  (s.interior (imagePoint t p) = some true → new = value) ∧
  (s.interior (imagePoint t p) = some false → new = old)

private theorem pos_some2 {d0 d1 : Int} (h1 : 0 < d1) (i : ℕ) : ∃ a b, pos [d0, d1] (i : Int) = some [a, b] := by
  exact ⟨_, _, pos2_eq (n := (i : Int)) h1 (by omega)⟩

private theorem pos_some3 {d0 d1 d2 : Int} (h0 : 0 < d0) (h1 : 0 < d1) (i : ℕ) :
    ∃ a b c, pos [d0, d1, d2] (i : Int) = some [a, b, c] := by
  exact ⟨_, _, _, pos3_eq (n := (i : Int)) h0 h1 (by omega)⟩

private theorem draw2 (s : Shape) {d0 d1 : Int} (h1 : 0 < d1) {t : Affine}
    (hk : KeepsPlane t) (value : ℝ)
    (hint : ∀ p : List ℝ, p.length = 2 → s.interior p ≠ none) :
    ∀ (data : List ℝ) (i : ℕ) (u v : ℝ),
    ∃ res, drawLoop s [d0, d1] t value data i [u, v, 0] = some res ∧ res.length = data.length ∧
      ∀ (k : ℕ) (hk : k < data.length) (hk' : k < res.length) (p : List Int),
        pos [d0, d1] ((i + k : ℕ) : Int) = some p → Painted s t value data[k] p res[k]
  | [], i, u, v => ⟨[], rfl, rfl, fun k hk => by simp at hk⟩
  | x :: rest, i, u, v => by
    obtain ⟨a, b, hab⟩ := pos_some2 (d0 := d0) h1 i
    obtain ⟨res, hr, hl, hP⟩ := draw2 s (d0 := d0) h1 hk value hint rest (i + 1) (imageCoord t 0 a b 0)
      (imageCoord t 1 a b 0)
    have hins : s.interior (imagePoint t [a, b]) ≠ none := hint _ rfl
    obtain ⟨ins, hi⟩ := Option.ne_none_iff_exists'.mp hins
    refine ⟨(if ins then value else x) :: res, ?_, by simp [hl], ?_⟩
    · have ho : overwrite [u, v, 0] [a, b] = [(a:ℝ), b, 0] := by simp [overwrite]
      have ht : [imageCoord t 0 a b 0, imageCoord t 1 a b 0, imageCoord t 2 a b 0].take
          [d0, d1].length = imagePoint t [a, b] := rfl
      simp only [drawLoop, hab, ho, apply3, Option.bind_eq_bind, Option.bind_some, ht, hi]
      rw [hk (a:ℝ) b, hr]; rfl
    · intro k hk1 hk2 p hp
      cases k with
      | zero =>
        rw [Nat.add_zero, hab, Option.some.injEq] at hp
        subst hp
        constructor
        · intro h; rw [hi, Option.some.injEq] at h; simp [h]
        · intro h; rw [hi, Option.some.injEq] at h; simp [h]
      | succ k =>
        simp only [List.getElem_cons_succ]
        exact hP k (by simpa using hk1) (by simpa using hk2) p (by rw [← hp]; congr 2; omega)

private theorem draw3 (s : Shape) {d0 d1 d2 : Int} (h0 : 0 < d0) (h1 : 0 < d1) {t : Affine} (value : ℝ)
    (hint : ∀ p : List ℝ, p.length = 3 → s.interior p ≠ none) :
    ∀ (data : List ℝ) (i : ℕ) (u v w : ℝ),
    ∃ res, drawLoop s [d0, d1, d2] t value data i [u, v, w] = some res ∧ res.length = data.length ∧
      ∀ (k : ℕ) (hk : k < data.length) (hk' : k < res.length) (p : List Int),
        pos [d0, d1, d2] ((i + k : ℕ) : Int) = some p → Painted s t value data[k] p res[k]
  | [], i, u, v, w => ⟨[], rfl, rfl, fun k hk => by simp at hk⟩
  | x :: rest, i, u, v, w => by
    obtain ⟨a, b, c, hab⟩ := pos_some3 (d2 := d2) h0 h1 i
    obtain ⟨res, hr, hl, hP⟩ := draw3 s (d2 := d2) h0 h1 value hint rest (i + 1) (imageCoord t 0 a b c)
      (imageCoord t 1 a b c) (imageCoord t 2 a b c)
    have hins : s.interior (imagePoint t [a, b, c]) ≠ none := hint _ rfl
    obtain ⟨ins, hi⟩ := Option.ne_none_iff_exists'.mp hins
    refine ⟨(if ins then value else x) :: res, ?_, by simp [hl], ?_⟩
    · have ho : overwrite [u, v, w] [a, b, c] = [(a:ℝ), b, c] := by simp [overwrite]
      have ht : [imageCoord t 0 a b c, imageCoord t 1 a b c, imageCoord t 2 a b c].take
          [d0, d1, d2].length = imagePoint t [a, b, c] := rfl
      simp only [drawLoop, hab, ho, apply3, Option.bind_eq_bind, Option.bind_some, ht, hi]
      rw [hr]; rfl
    · intro k hk1 hk2 p hp
      cases k with
      | zero =>
        rw [Nat.add_zero, hab, Option.some.injEq] at hp
        subst hp
        constructor
        · intro h; rw [hi, Option.some.injEq] at h; simp [h]
        · intro h; rw [hi, Option.some.injEq] at h; simp [h]
      | succ k =>
        simp only [List.getElem_cons_succ]
        exact hP k (by simpa using hk1) (by simpa using hk2) p (by rw [← hp]; congr 2; omega)

/-- C12: `Draw` does not panic and overwrites exactly the nodes whose image under the transformation
is inside the shape. On 2D grids the transformation has to map the plane to itself. The shape may be
any shape with an admissible bounding box whose test does not panic in the dimension of the grid. -/
theorem c12_draw (s : Shape) (hs : s.check = true) (g : Grid ℝ) (hg : GoodDims g.dims)
    (hint : ∀ p : List ℝ, p.length = g.dims.length → s.interior p ≠ none) (t : Affine)
    (ht : g.dims.length = 2 → KeepsPlane t) (value : ℝ) :
    ∃ res, draw s g (some t) value = some res ∧ res.length = g.data.length ∧
      ∀ (k : ℕ) (hk : k < g.data.length) (hk' : k < res.length) (p : List Int),
        pos g.dims (k : Int) = some p → Painted s t value g.data[k] p res[k] := by
  obtain ⟨dims, data⟩ := g
  simp only [draw, hs, if_true, Option.getD_some] at *
  rcases goodDims_cases hg with ⟨d0, d1, rfl, p0, p1⟩ | ⟨d0, d1, d2, rfl, p0, p1, p2⟩
  · obtain ⟨res, h1, h2, h3⟩ := draw2 s (d0 := d0) p1 (ht rfl) value hint data 0 0 0
    exact ⟨res, h1, h2, fun k hk hk' p hp => h3 k hk hk' p (by rwa [Nat.zero_add])⟩
  · obtain ⟨res, h1, h2, h3⟩ := draw3 s (d2 := d2) p0 p1 (t := t) value hint data 0 0 0 0
    exact ⟨res, h1, h2, fun k hk hk' p hp => h3 k hk hk' p (by rwa [Nat.zero_add])⟩

/-- The shape `Box` with a planar diagonal. -/
noncomputable def planeBox (d : List ℝ) (mn mx : List Int) : Shape := ⟨boxInterior d, mn, mx⟩

example : ∃ (s : Shape) (g : Grid ℝ) (t : Affine), s.check = true ∧ GoodDims g.dims ∧
    (∀ p : List ℝ, p.length = g.dims.length → s.interior p ≠ none) ∧
    (g.dims.length = 2 → KeepsPlane t) ∧ s.interior [0, 0] = some true ∧
    s.interior [1, 0] = some false := by
  refine ⟨planeBox [1, 1] [-1, -1, 0] [1, 1, 0], ⟨[3, 2], List.replicate 6 0⟩, rotZ 1, by decide,
    ⟨by decide, by decide⟩, ?_, ?_, ?_, ?_⟩
  · intro p hp; simp at hp; simp [planeBox, boxInterior, hp]
  · intro _ x y; simp [imageCoord, rotZ]
  · simp [planeBox, boxInterior]; norm_num
  · simp [planeBox, boxInterior]; norm_num

/-- C12: on a 2D grid a quarter turn about the y-axis leaves a pixel unpainted although its image is
inside the box: the third coordinate of one pixel leaks into the next. -/
theorem c12_leak : ∃ (s : Shape) (g : Grid ℝ) (t : Affine) (res : List ℝ), s.check = true ∧
    GoodDims g.dims ∧ draw s g (some t) 1 = some res ∧ g.data[2]? = some 0 ∧ res[2]? = some 0 ∧
    pos g.dims 2 = some [2, 0] ∧ s.interior (imagePoint t [2, 0]) = some true := by
  refine ⟨planeBox [1, 1] [-1, -1, 0] [1, 1, 0], ⟨[3, 1], [0, 0, 0]⟩, rotY (Real.pi / 2), [1, 1, 0],
    by decide, ⟨by decide, by decide⟩, ?_, rfl, rfl, by decide, ?_⟩
  · have e0 : pos [3, 1] ((0 : ℕ) : Int) = some [0, 0] := by decide
    have e1 : pos [3, 1] ((1 : ℕ) : Int) = some [1, 0] := by decide
    have e2 : pos [3, 1] ((2 : ℕ) : Int) = some [2, 0] := by decide
    have hc : (planeBox [1, 1] [-1, -1, 0] [1, 1, 0]).check = true := by decide
    simp only [draw, hc, if_true, drawLoop, Option.getD_some, zero_add, Nat.reduceAdd, e0, e1, e2,
      Option.bind_eq_bind, Option.bind_some, overwrite]
    simp [apply3, imageCoord, rotY, planeBox, boxInterior]
  · simp [imagePoint, imageCoord, rotY, planeBox, boxInterior]
    norm_num

/-- C12: the bounding box passes the check exactly when it has three lower and three upper bounds and no lower bound is
above its upper bound; a shape whose box does not is never drawn, whatever the grid is. -/
theorem c12_box (s : Shape) :
    (s.check = true ↔ ∃ a b c a' b' c' : Int, s.bboxMin = [a, b, c] ∧ s.bboxMax = [a', b', c'] ∧ a ≤ a' ∧ b ≤ b' ∧ c ≤ c') ∧
    (s.check = false → ∀ (g : Grid ℝ) (t : Option Affine) (value : ℝ), draw s g t value = none) := by
  constructor
  · unfold Shape.check
    rw [decide_eq_true_iff]
    constructor
    · rintro ⟨h1, h2, h3⟩
      obtain ⟨a, b, c, ha⟩ := List.length_eq_three.mp h1
      obtain ⟨a', b', c', hb⟩ := List.length_eq_three.mp h2
      rw [ha, hb] at h3
      simp at h3
      exact ⟨a, b, c, a', b', c', ha, hb, h3.1, h3.2.1, h3.2.2⟩
    · rintro ⟨a, b, c, a', b', c', ha, hb, h1, h2, h3⟩
      rw [ha, hb]
      simp [h1, h2, h3]
  · intro h g t value
    unfold draw
    rw [h]
    rfl

/-- A box with its bounds exchanged is refused. -/
example : (⟨ballInterior 1, [1, 1, 1], [-1, -1, -1]⟩ : Shape).check = false := by decide

/-- C12: a nil transformation is the identity. -/
theorem c12_nil (s : Shape) (g : Grid ℝ) (value : ℝ) :
    draw s g none value = draw s g (some identity) value ∧
      ∀ x y z : ℝ, Affine.apply identity [x, y, z] = some [x, y, z] := by
  refine ⟨rfl, fun x y z => ?_⟩
  rw [apply3]; simp [imageCoord, identity]

/-! ### Bounding boxes -/

private theorem trunc_nonneg {x : ℝ} (h : 0 ≤ x) : x < truncInt x + 1 := by
  simp only [truncInt, h, if_true]
  exact Int.lt_floor_add_one x

/-- C68: the bounding box of a ball strictly contains every interior point, and passes the check
that `Draw` makes. -/
theorem c68_ball (radius : ℝ) (hr : 0 ≤ radius) (p : List ℝ)
    (h : ballInterior radius p = some true) :
    (∀ (k : ℕ) (x : ℝ) (lo hi : Int), p[k]? = some x → (ballBBox radius).1[k]? = some lo →
      (ballBBox radius).2[k]? = some hi → (lo : ℝ) < x ∧ x < hi) ∧
    (Shape.mk (ballInterior radius) (ballBBox radius).1 (ballBBox radius).2).check = true := by
  have ht := trunc_nonneg hr
  have ht0 : 0 ≤ truncInt radius := by
    simp only [truncInt, hr, if_true]; exact Int.floor_nonneg.mpr hr
  constructor
  · intro k x lo hi hx hlo hhi
    simp only [ballInterior, Option.some.injEq, decide_eq_true_eq] at h
    have hsum : ∀ (l : List ℝ) (a : ℝ), 0 ≤ a → (∀ y ∈ l, 0 ≤ y) →
        (a ≤ l.foldl (· + ·) a) ∧ ∀ y ∈ l, y ≤ l.foldl (· + ·) a := by
      intro l
      induction l with
      | nil => intro a _ _; simp
      | cons b l ih =>
        intro a ha hl
        have hb : 0 ≤ b := hl b (by simp)
        obtain ⟨i1, i2⟩ := ih (a + b) (by linarith) (fun y hy => hl y (by simp [hy]))
        rw [List.foldl_cons]
        refine ⟨by linarith, ?_⟩
        intro y hy
        rcases List.mem_cons.mp hy with rfl | hy
        · linarith
        · exact i2 y hy
    have hx2 : x * x ≤ (p.map fun x => x * x).foldl (· + ·) 0 := by
      refine (hsum _ 0 le_rfl ?_).2 _ ?_
      · intro y hy
        obtain ⟨z, -, rfl⟩ := List.mem_map.mp hy
        exact mul_self_nonneg z
      · exact List.mem_map.mpr ⟨x, List.mem_of_getElem? hx, rfl⟩
    have habs : |x| < radius := by
      apply abs_lt_of_sq_lt_sq _ hr
      nlinarith
    obtain ⟨a1, a2⟩ := abs_lt.mp habs
    have hk : lo = -truncInt radius - 1 ∧ hi = truncInt radius + 1 := by
      simp only [ballBBox] at hlo hhi
      exact ⟨List.eq_of_mem_replicate (List.mem_of_getElem? hlo),
        List.eq_of_mem_replicate (List.mem_of_getElem? hhi)⟩
    rw [hk.1, hk.2]
    push_cast
    constructor <;> linarith
  · simp [Shape.check, ballBBox]
    omega

/-- C68: the bounding box of a box contains every interior point, and passes the check, if the sides
are not negative. -/
theorem c68_box (diagonal : List ℝ) (hl : diagonal.length ≤ 3) (hd : ∀ d ∈ diagonal, 0 ≤ d)
    (p : List ℝ) (h : boxInterior diagonal p = some true) :
    ∃ b, boxBBox diagonal = some b ∧
    (∀ (k : ℕ) (x : ℝ) (lo hi : Int), p[k]? = some x → b.1[k]? = some lo →
      b.2[k]? = some hi → (lo : ℝ) < x ∧ x < hi) ∧
    (Shape.mk (boxInterior diagonal) b.1 b.2).check = true := by
  refine ⟨_, by rw [boxBBox, if_pos hl], ?_, ?_⟩
  · intro k x lo hi hx hlo hhi
    unfold boxInterior at h
    split_ifs at h with hlen
    simp only [Option.some.injEq, List.all_eq_true, decide_eq_true_eq] at h
    obtain ⟨hk, hx'⟩ := List.getElem?_eq_some_iff.mp hx
    have hkd : k < diagonal.length := by omega
    have hz := h (p[k], diagonal[k]) (by
      rw [← List.getElem_zip (h := by simp; omega)]; exact List.getElem_mem _)
    simp only [not_or, not_lt] at hz
    rw [List.getElem?_append_left (by simpa using hkd), List.getElem?_map,
      List.getElem?_eq_getElem hkd] at hlo hhi
    simp only [Option.map_some, Option.some.injEq] at hlo hhi
    have h0 : 0 ≤ diagonal[k] / 2 := by have := hd _ (List.getElem_mem hkd); linarith
    have ht := trunc_nonneg h0
    rw [hx'] at hz
    rw [← hlo, ← hhi]
    push_cast
    constructor
    · have := hz.2; linarith
    · have := hz.1; linarith
  · have key : ∀ d : ℝ, 0 ≤ d → -truncInt (d / 2) ≤ truncInt (d / 2) + 1 + 1 := by
      intro d hd
      have h0 : 0 ≤ d / 2 := by linarith
      have : 0 ≤ truncInt (d / 2) := by
        simp only [truncInt, h0, if_true]; exact Int.floor_nonneg.mpr h0
      omega
    match diagonal, hl, hd with
    | [], _, _ => simp [Shape.check]
    | [a], _, hd => simp [Shape.check]; exact key a (hd a (by simp))
    | [a, b], _, hd => simp [Shape.check]; exact ⟨key a (hd a (by simp)), key b (hd b (by simp))⟩
    | [a, b, c], _, hd =>
      simp [Shape.check]
      exact ⟨key a (hd a (by simp)), key b (hd b (by simp)), key c (hd c (by simp))⟩

example : ballInterior 2 [1, -1, 0] = some true ∧ boxInterior [3, 2] [-1, 1] = some true := by
  constructor
  · simp [ballInterior]; norm_num
  · simp [boxInterior]; norm_num

end Gopf.Props
