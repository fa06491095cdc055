import Verif.Proofs.ModeSolver
import Verif.Props.Miller
import Mathlib.Analysis.Calculus.Deriv.Mul
import Mathlib.Analysis.Calculus.Deriv.Add
import Mathlib.Analysis.Calculus.Deriv.Pow
import Mathlib.Analysis.SpecialFunctions.Trigonometric.Deriv

/-!
# C64, C81–C84, C90, C91: the mode solver
-/

namespace Gopf.Props
open Pfc

/-! ## C64 -/

/-- C64: exponent vectors of the same length have the same key only if they are equal. -/
theorem c64_keys (p q : List ℕ) (hl : p.length = q.length) (h : power2key p = power2key q) : p = q := by
  rw [power2key_eq, power2key_eq] at h
  exact keyFrom_injective p q 0 hl h

/-- C64: trailing zero exponents do not show in the key, so vectors of different lengths can share it. -/
theorem c64_trailing_zero (p : List ℕ) : power2key (p ++ [0]) = power2key p := by
  have : ∀ (p : List ℕ) (i : ℕ), keyFrom i (p ++ [0]) = keyFrom i p := by
    intro p
    induction p with
    | nil => intro i; simp [keyFrom]
    | cons x p ih => intro i; simp [keyFrom, ih]
  rw [power2key_eq, power2key_eq, this]

example : power2key [1, 0, 12] = "m0p1m2p12".toList := by decide +kernel

/-! ## C81 -/

/-- The density with amplitudes `A` at a position given in scaled coordinates. -/
noncomputable def density (millers : List Miller) (A : ℕ → ℝ) (pos : List ℝ) : ℝ :=
  ∑ j ∈ Finset.range millers.length, A j * modeDensity (millers.getD j ⟨0, 0, 0⟩) pos

/-- The average of a function of the position over the unit cell, as computed by the quadrature rule. -/
noncomputable def average (dim : ℕ) (rule : ℕ → ℕ → ℝ × ℝ) (order : ℕ) (f : List ℝ → ℝ) : ℝ :=
  if dim = 2 then
    ∑ i ∈ Finset.range order, ∑ j ∈ Finset.range order,
      (rule order i).2 * (rule order j).2 * f [(rule order i).1, (rule order j).1]
  else
    ∑ i ∈ Finset.range order, ∑ j ∈ Finset.range order, ∑ k ∈ Finset.range order,
      (rule order i).2 * (rule order j).2 * (rule order k).2 *
        f [(rule order i).1, (rule order j).1, (rule order k).1]

private theorem costFunc_eq (n : ℕ) (terms : TermMap) (A : ℕ → ℝ) : costFunc n terms A = value n A terms := by
  unfold costFunc value mono
  rw [foldl_add_list]
  simp only [foldl_mul_range, one_mul, zero_add]

private theorem integralOf_eq (millers : List Miller) (dim : ℕ) (rule : ℕ → ℕ → ℝ × ℝ) (order : ℕ)
    (powers : List ℕ) (hl : powers.length = millers.length) :
    integralOf millers dim rule order powers = average dim rule order fun pos =>
      mono millers.length (fun j => modeDensity (millers.getD j ⟨0, 0, 0⟩) pos) powers := by
  unfold integralOf average
  simp only [quadSquare_eq, quadCube_eq, integrand_eq, hl]

private theorem average_list {β : Type} (dim : ℕ) (rule : ℕ → ℕ → ℝ × ℝ) (order : ℕ) (l : List β)
    (f : β → List ℝ → ℝ) : (l.map fun b => average dim rule order (f b)).sum =
      average dim rule order fun pos => (l.map fun b => f b pos).sum := by
  unfold average
  split
  · simp only [sum_list_finset, ← List.sum_map_mul_left]
  · simp only [sum_list_finset, ← List.sum_map_mul_left]

private theorem average_mul (dim : ℕ) (rule : ℕ → ℕ → ℝ × ℝ) (order : ℕ) (c : ℝ) (f : List ℝ → ℝ) :
    c * average dim rule order f = average dim rule order fun pos => c * f pos := by
  unfold average
  split
  · simp only [Finset.mul_sum]
    refine Finset.sum_congr rfl fun i _ => Finset.sum_congr rfl fun j _ => by ring
  · simp only [Finset.mul_sum]
    refine Finset.sum_congr rfl fun i _ => Finset.sum_congr rfl fun j _ =>
      Finset.sum_congr rfl fun k _ => by ring

private theorem average_add (dim : ℕ) (rule : ℕ → ℕ → ℝ × ℝ) (order : ℕ) (f g : List ℝ → ℝ) :
    average dim rule order f + average dim rule order g = average dim rule order fun pos => f pos + g pos := by
  unfold average
  split <;> simp only [← Finset.sum_add_distrib, mul_add]

private theorem build_spec (millers : List Miller) (dim : ℕ) (rule : ℕ → ℕ → ℝ × ℝ) (power order : ℕ)
    (hm : millers ≠ []) (hp : power ≠ 0) :
    ∃ terms, build millers dim rule power order = some terms ∧ GoodMap millers.length power terms ∧
      ∀ A, value millers.length A terms =
        average dim rule order fun pos => density millers A pos ^ power := by
  have hpos : 0 < millers.length := List.length_pos_iff.mpr hm
  have hloop := Pfutil.forLoop_new (List.replicate power millers.length) (by simpa using hp)
    (by intro n hn; rw [List.eq_of_mem_replicate hn]; exact hpos) (millers.length ^ power + 1)
    (by simp)
  have hidx : ∀ idx ∈ Spec.allTuples (List.replicate power millers.length),
      (∀ i ∈ idx, 0 ≤ i ∧ i < millers.length) ∧ idx.length = power := by
    intro idx h
    have h2 := (Pfutil.allTuples_mem _ idx).mp h
    have hlen := h2.length_eq
    refine ⟨?_, by simpa using hlen.symm⟩
    intro i hi
    obtain ⟨k, hk, rfl⟩ := List.getElem_of_mem hi
    have := List.Forall₂.get h2 (i := k) (by rw [hlen]; exact hk) hk
    simpa using this
  obtain ⟨terms, pws, h1, h2, h3, h4⟩ := buildLoop_eq millers dim rule order power
    (Spec.allTuples (List.replicate power millers.length)) []
    ⟨by simp, by simp, by simp, by simp⟩ hidx
  refine ⟨terms, ?_, h2, fun A => ?_⟩
  · unfold build
    have : List.replicate power (millers.length : Int) =
        (List.replicate power millers.length).map Int.ofNat := by simp
    rw [this, hloop]
    exact h1
  · rw [h4]
    simp only [value, List.map_nil, List.sum_nil, zero_add]
    have hsum : (pws.map fun powers => mono millers.length A powers *
        integralOf millers dim rule order powers).sum =
        ((Spec.allTuples (List.replicate power millers.length)).map fun idx =>
          average dim rule order fun pos => (idx.map fun i =>
            A i.toNat * modeDensity (millers.getD i.toNat ⟨0, 0, 0⟩) pos).prod).sum := by
      symm
      refine sum_forall₂ _ _ _ ?_ _ _ h3
      intro idx powers ⟨hl, hB⟩
      rw [integralOf_eq _ _ _ _ _ hl, average_mul]
      congr 1
      funext pos
      rw [hB, hB]
      simp only [List.prod_map_mul]
    rw [hsum, average_list]
    congr 1
    funext pos
    have := allTuples_sum millers.length (fun i => A i * modeDensity (millers.getD i ⟨0, 0, 0⟩) pos) power
    exact this

/-- C81: the terms built for a power of the density represent, for all amplitudes, the average of that
power of the density over the unit cell (as computed by the quadrature rule). -/
theorem c81_build (millers : List Miller) (dim : ℕ) (rule : ℕ → ℕ → ℝ × ℝ) (power order : ℕ)
    (hm : millers ≠ []) (hp : power ≠ 0) :
    ∃ terms, build millers dim rule power order = some terms ∧
      ∀ A, costFunc millers.length terms A =
        average dim rule order fun pos => density millers A pos ^ power := by
  obtain ⟨terms, h1, _, h3⟩ := build_spec millers dim rule power order hm hp
  exact ⟨terms, h1, fun A => by rw [costFunc_eq, h3]⟩

/-- C81: every term built for a power of the density is a product of that many amplitudes, and no product of amplitudes
occurs in two terms. -/
theorem c81_degree (millers : List Miller) (dim : ℕ) (rule : ℕ → ℕ → ℝ × ℝ) (power order : ℕ)
    (hm : millers ≠ []) (hp : power ≠ 0) :
    ∃ terms, build millers dim rule power order = some terms ∧
      (∀ e ∈ terms, e.2.power = power ∧ e.2.powers.length = millers.length) ∧
      (terms.map fun e => e.2.powers).Nodup := by
  obtain ⟨terms, h1, h2, _⟩ := build_spec millers dim rule power order hm hp
  refine ⟨terms, h1, fun e he => ⟨?_, h2.len e he⟩, ?_⟩
  · have : e.2.power = e.2.powers.sum := by
      unfold FTerm.power
      rw [List.sum_eq_foldl]
    rw [this, h2.sum e he]
  · have h := h2.nodup
    rw [List.map_congr_left (g := fun e => power2key e.2.powers) fun e he => h2.key e he] at h
    have e : (terms.map fun e => power2key e.2.powers) = (terms.map fun e => e.2.powers).map power2key := by
      rw [List.map_map]; rfl
    rw [e] at h
    exact h.of_map _

private theorem value_scale (n : ℕ) (A : ℕ → ℝ) (c : ℝ) (m : TermMap) :
    value n A (scaleTerms c m) = c * value n A m := by
  unfold value scaleTerms
  rw [← List.sum_map_mul_left, List.map_map]
  congr 1
  refine List.map_congr_left fun e _ => ?_
  simp only [Function.comp_apply]; ring

private theorem merge_disjoint (src dst : TermMap) (hn : (src.map Prod.fst).Nodup)
    (hd : ∀ k ∈ src.map Prod.fst, k ∉ dst.map Prod.fst) : mergeTerms dst src = dst ++ src := by
  unfold mergeTerms
  induction src generalizing dst with
  | nil => simp
  | cons e src ih =>
    rw [List.foldl_cons, put_of_not_mem _ _ _ (hd e.1 (by simp))]
    rw [List.map_cons, List.nodup_cons] at hn
    rw [ih _ hn.2]
    · simp
    · intro k hk hk2
      rw [List.map_append, List.mem_append] at hk2
      rcases hk2 with h | h
      · exact hd k (by simp [hk]) h
      · simp at h
        subst h
        exact hn.1 hk

/-- C81: the energy assembled from the cubic and quartic terms is the average of the cubic and quartic
part of the ideal mixing energy of the density, before small coefficients are dropped. -/
theorem c81_energy (im : IdealMix) (millers : List Miller) (dim : ℕ) (rule : ℕ → ℕ → ℝ × ℝ)
    (hm : millers ≠ []) :
    ∃ terms, allTerms im millers dim rule = some terms ∧
      ∀ A, costFunc millers.length terms A = average dim rule 32 fun pos =>
        -im.C3 / 6 * density millers A pos ^ 3 + im.C4 / 12 * density millers A pos ^ 4 := by
  obtain ⟨t3, a1, a2, a3⟩ := build_spec millers dim rule 3 32 hm (by norm_num)
  obtain ⟨t4, b1, b2, b3⟩ := build_spec millers dim rule 4 32 hm (by norm_num)
  have hk : ∀ (c : ℝ) (m : TermMap), (scaleTerms c m).map Prod.fst = m.map Prod.fst := by
    intro c m; simp [scaleTerms, Function.comp_def]
  have m1 : mergeTerms [] (scaleTerms im.thirdOrderPrefactor t3) = scaleTerms im.thirdOrderPrefactor t3 := by
    rw [merge_disjoint _ _ (by rw [hk]; exact a2.nodup) (by simp)]; simp
  have m2 : mergeTerms (scaleTerms im.thirdOrderPrefactor t3) (scaleTerms im.fourthOrderPrefactor t4) =
      scaleTerms im.thirdOrderPrefactor t3 ++ scaleTerms im.fourthOrderPrefactor t4 := by
    refine merge_disjoint _ _ (by rw [hk]; exact b2.nodup) ?_
    intro k h4 h3
    rw [hk] at h3 h4
    obtain ⟨e, he, rfl⟩ := List.mem_map.mp h4
    obtain ⟨f, hf, hfe⟩ := List.mem_map.mp h3
    rw [b2.key e he, a2.key f hf] at hfe
    have := c64_keys _ _ ((a2.len f hf).trans (b2.len e he).symm) hfe
    have h1 := a2.sum f hf
    have h2 := b2.sum e he
    rw [this] at h1
    omega
  refine ⟨scaleTerms im.thirdOrderPrefactor t3 ++ scaleTerms im.fourthOrderPrefactor t4, ?_, ?_⟩
  · unfold allTerms
    simp only [a1, b1, Option.bind_eq_bind, Option.bind_some, Option.pure_def, m1, m2]
  · intro A
    rw [costFunc_eq]
    have : value millers.length A (scaleTerms im.thirdOrderPrefactor t3 ++ scaleTerms im.fourthOrderPrefactor t4) =
        value millers.length A (scaleTerms im.thirdOrderPrefactor t3) +
        value millers.length A (scaleTerms im.fourthOrderPrefactor t4) := by simp [value]
    rw [this, value_scale, value_scale, a3, b3, average_mul, average_mul, average_add]
    rfl

private theorem maxCoeff_fold (m : TermMap) (c : ℝ) :
    c ≤ m.foldl (fun (c : ℝ) e => if |e.2.coeff| > c then |e.2.coeff| else c) c ∧
    (∀ e ∈ m, |e.2.coeff| ≤ m.foldl (fun (c : ℝ) e => if |e.2.coeff| > c then |e.2.coeff| else c) c) ∧
    (m.foldl (fun (c : ℝ) e => if |e.2.coeff| > c then |e.2.coeff| else c) c = c ∨
      ∃ e ∈ m, m.foldl (fun (c : ℝ) e => if |e.2.coeff| > c then |e.2.coeff| else c) c = |e.2.coeff|) := by
  induction m generalizing c with
  | nil => simp
  | cons e m ih =>
    rw [List.foldl_cons]
    obtain ⟨h1, h2, h3⟩ := ih (if |e.2.coeff| > c then |e.2.coeff| else c)
    have hc : c ≤ (if |e.2.coeff| > c then |e.2.coeff| else c) := by split <;> linarith
    have he : |e.2.coeff| ≤ (if |e.2.coeff| > c then |e.2.coeff| else c) := by split <;> linarith
    refine ⟨hc.trans h1, ?_, ?_⟩
    · intro x hx
      rcases List.mem_cons.mp hx with rfl | hx
      · exact he.trans h1
      · exact h2 x hx
    · rcases h3 with h | ⟨x, hx, h⟩
      · rw [h]
        split
        · exact Or.inr ⟨e, by simp, rfl⟩
        · exact Or.inl rfl
      · exact Or.inr ⟨x, by simp [hx], h⟩

/-- C81: the reference for dropping coefficients is the largest magnitude. -/
theorem c81_max (terms : TermMap) (hne : terms ≠ []) :
    (∀ e ∈ terms, |e.2.coeff| ≤ maxCoeff terms) ∧ ∃ e ∈ terms, maxCoeff terms = |e.2.coeff| := by
  obtain ⟨h1, h2, h3⟩ := maxCoeff_fold terms 0
  refine ⟨h2, ?_⟩
  rcases h3 with h | h
  · obtain ⟨e, he⟩ := List.exists_mem_of_ne_nil _ hne
    refine ⟨e, he, ?_⟩
    have h4 := h2 e he
    rw [h] at h4
    rw [maxCoeff, h]
    exact le_antisymm (abs_nonneg _) h4
  · exact h

/-- C81: dropping the coefficients that are small compared with the largest one changes the energy by at
most 1e-4 times the largest coefficient times the sum of the magnitudes of all monomials. -/
theorem c81_truncation (n : ℕ) (terms : TermMap) (A : ℕ → ℝ) :
    |costFunc n terms A - costFunc n (keepTerms terms) A| ≤
      1e-4 * maxCoeff terms *
        (terms.map fun e => |∏ j ∈ Finset.range n, A j ^ e.2.powers.getD j 0|).sum := by
  rw [costFunc_eq, costFunc_eq]
  unfold keepTerms
  have hc : 0 ≤ (1e-4 : ℝ) * maxCoeff terms := mul_nonneg (by norm_num) (maxCoeff_fold terms 0).1
  generalize (1e-4 : ℝ) * maxCoeff terms = c at hc
  unfold value mono
  induction terms with
  | nil => simp
  | cons e t ih =>
    rw [List.filter_cons]
    simp only [List.map_cons, List.sum_cons]
    set M := ∏ j ∈ Finset.range n, A j ^ e.2.powers.getD j 0 with hM
    have hcm : 0 ≤ c * |M| := mul_nonneg hc (abs_nonneg _)
    by_cases h : |e.2.coeff| > c
    · rw [if_pos (by simpa using h)]
      simp only [List.map_cons, List.sum_cons]
      rw [← hM, add_sub_add_left_eq_sub, mul_add]
      linarith
    · rw [if_neg (by simpa using h)]
      rw [mul_add, add_sub_assoc]
      refine (abs_add_le _ _).trans (add_le_add ?_ ih)
      rw [abs_mul, mul_comm]
      exact mul_le_mul_of_nonneg_right (not_lt.mp h) (abs_nonneg _)

/-- C81: the hypotheses are met by a square lattice with two modes, and there the second power of the
density has three terms. -/
example : (build [⟨1, 0, 0⟩, ⟨1, 1, 0⟩] 2 (fun _ _ => (0, 1)) 2 1).map (fun m => m.map Prod.fst) =
    some ["m0p2".toList, "m0p1m1p1".toList, "m1p2".toList] := by
  have h : Pfutil.Product.forLoop 5 (Pfutil.newProduct [2, 2]) =
      some [[0, 0], [0, 1], [1, 0], [1, 1]] := by decide +kernel
  have e : ∀ m : TermMap, ∀ k, m.get k = (m.find? fun e => e.1 = k).map Prod.snd := fun _ _ => rfl
  simp only [build, List.length_cons, List.length_nil, Nat.reduceAdd, Nat.reducePow, Nat.cast_ofNat,
    List.replicate, h, Option.bind_eq_bind, Option.bind_some]
  have c1 : countPowers 2 [0, 0] = some [2, 0] := by decide +kernel
  have c2 : countPowers 2 [0, 1] = some [1, 1] := by decide +kernel
  have c3 : countPowers 2 [1, 0] = some [1, 1] := by decide +kernel
  have c4 : countPowers 2 [1, 1] = some [0, 2] := by decide +kernel
  have k1 : power2key [2, 0] = "m0p2".toList := by decide +kernel
  have k2 : power2key [1, 1] = "m0p1m1p1".toList := by decide +kernel
  have k3 : power2key [0, 2] = "m1p2".toList := by decide +kernel
  simp [buildStep, c1, c2, c3, c4, k1, k2, k3, unitcellIntegral, TermMap.get, TermMap.put]

/-! ## C82 -/

/-- Derivative of a power. -/
private noncomputable def D1 (p : ℕ) (a : ℝ) : ℝ := (p : ℝ) * a ^ (p - 1)
/-- Second derivative of a power. -/
private noncomputable def D2 (p : ℕ) (a : ℝ) : ℝ := (p : ℝ) * ((p : ℝ) - 1) * a ^ (p - 2)

private theorem D1_zero (a : ℝ) : D1 0 a = 0 := by simp [D1]
private theorem D2_zero (a : ℝ) : D2 0 a = 0 := by simp [D2]
private theorem D2_one (a : ℝ) : D2 1 a = 0 := by simp [D2]

private theorem D1_deriv (p : ℕ) (a : ℝ) : HasDerivAt (fun x : ℝ => x ^ p) (D1 p a) a := hasDerivAt_pow p a

private theorem D2_deriv (p : ℕ) (a : ℝ) : HasDerivAt (D1 p) (D2 p a) a := by
  have h := HasDerivAt.const_mul (p : ℝ) (hasDerivAt_pow (p - 1) a)
  refine h.congr_deriv ?_
  unfold D2
  rcases p with _ | _ | p
  · simp
  · simp
  · push_cast
    simp
    ring

private theorem prod_update_deriv (n : ℕ) (F : ℕ → ℝ → ℝ) (A : ℕ → ℝ) (d : ℕ) (hd : d < n) (F' : ℝ)
    (h : HasDerivAt (F d) F' (A d)) :
    HasDerivAt (fun x => ∏ j ∈ Finset.range n, F j (Function.update A d x j))
      (∏ j ∈ Finset.range n, if j = d then F' else F j (A j)) (A d) := by
  have hm := Finset.mem_range.mpr hd
  have e1 : (fun x => ∏ j ∈ Finset.range n, F j (Function.update A d x j)) =
      fun x => F d x * ∏ j ∈ (Finset.range n).erase d, F j (A j) := by
    funext x
    rw [← Finset.mul_prod_erase _ _ hm, Function.update_self]
    congr 1
    refine Finset.prod_congr rfl fun j hj => ?_
    rw [Function.update_of_ne (Finset.ne_of_mem_erase hj)]
  have e2 : (∏ j ∈ Finset.range n, if j = d then F' else F j (A j)) =
      F' * ∏ j ∈ (Finset.range n).erase d, F j (A j) := by
    rw [← Finset.mul_prod_erase _ _ hm, if_pos rfl]
    congr 1
    refine Finset.prod_congr rfl fun j hj => ?_
    rw [if_neg (Finset.ne_of_mem_erase hj)]
  rw [e1, e2]
  exact h.mul_const _

private theorem sum_deriv {α : Type} (l : List α) (f : α → ℝ → ℝ) (f' : α → ℝ) (x : ℝ)
    (h : ∀ a ∈ l, HasDerivAt (f a) (f' a) x) :
    HasDerivAt (fun y => (l.map fun a => f a y).sum) (l.map f').sum x := by
  induction l with
  | nil => simpa using hasDerivAt_const x (0 : ℝ)
  | cons a l ih =>
    simp only [List.map_cons, List.sum_cons]
    exact (h a (by simp)).add (ih fun b hb => h b (by simp [hb]))

private theorem costGrad_eq (n : ℕ) (terms : TermMap) (A : ℕ → ℝ) (d : ℕ) (hd : d < n) :
    costGrad n terms A d = (terms.map fun e => (∏ j ∈ Finset.range n,
      if j = d then D1 (e.2.powers.getD d 0) (A d) else A j ^ e.2.powers.getD j 0) * e.2.coeff).sum := by
  unfold costGrad
  have : (fun (g : ℝ) (e : Pf.Str × FTerm) => if e.2.powers.getD d 0 = 0 then g
      else g + (List.range n).foldl (fun (p : ℝ) j =>
        if j = d then p * ((e.2.powers.getD d 0 : ℕ) * A j ^ (e.2.powers.getD d 0 - 1))
        else p * A j ^ e.2.powers.getD j 0) 1 * e.2.coeff) =
      fun (g : ℝ) (e : Pf.Str × FTerm) => g + (∏ j ∈ Finset.range n,
      if j = d then D1 (e.2.powers.getD d 0) (A d) else A j ^ e.2.powers.getD j 0) * e.2.coeff := by
    funext g e
    have hf : (fun (p : ℝ) j =>
        if j = d then p * ((e.2.powers.getD d 0 : ℕ) * A j ^ (e.2.powers.getD d 0 - 1))
        else p * A j ^ e.2.powers.getD j 0) = fun (p : ℝ) j => p *
          (if j = d then D1 (e.2.powers.getD d 0) (A d) else A j ^ e.2.powers.getD j 0) := by
      funext p j
      by_cases h : j = d
      · subst h; simp [D1]
      · simp [h]
    rw [hf, foldl_mul_range, one_mul]
    by_cases h : e.2.powers.getD d 0 = 0
    · rw [if_pos h]
      have : (∏ j ∈ Finset.range n,
          if j = d then D1 (e.2.powers.getD d 0) (A d) else A j ^ e.2.powers.getD j 0) = 0 := by
        refine Finset.prod_eq_zero (Finset.mem_range.mpr hd) ?_
        rw [if_pos rfl, h, D1_zero]
      rw [this]; simp
    · rw [if_neg h]
  rw [this, foldl_add_list, zero_add]

/-- C82: the gradient handed to the minimiser consists of the partial derivatives of the energy. -/
theorem c82_gradient (n : ℕ) (terms : TermMap) (A : ℕ → ℝ) (d : ℕ) (hd : d < n) :
    HasDerivAt (fun x => costFunc n terms (Function.update A d x)) (costGrad n terms A d) (A d) := by
  rw [costGrad_eq n terms A d hd]
  simp only [costFunc_eq, value, mono]
  refine sum_deriv terms (fun e x => (∏ j ∈ Finset.range n, Function.update A d x j ^ e.2.powers.getD j 0) *
    e.2.coeff) _ (A d) ?_
  intro e _
  exact (prod_update_deriv n (fun j a => a ^ e.2.powers.getD j 0) A d hd _
    (D1_deriv _ _)).mul_const _

private theorem costHessValue_eq (n : ℕ) (terms : TermMap) (A : ℕ → ℝ) (d1 d2 : ℕ) :
    costHessValue n terms A d1 d2 = (terms.map fun e => (∏ j ∈ Finset.range n,
      if j = d2 then (if d2 = d1 then D2 (e.2.powers.getD d2 0) (A d2) else D1 (e.2.powers.getD d2 0) (A d2))
      else (if j = d1 then D1 (e.2.powers.getD d1 0) (A d1) else A j ^ e.2.powers.getD j 0)) *
        e.2.coeff).sum := by
  unfold costHessValue
  have : ∀ e : Pf.Str × FTerm, (fun (p : ℝ) j =>
      if j = d1 ∧ j = d2 then
        if e.2.powers.getD j 0 < 2 then p * 0
        else p * ((e.2.powers.getD j 0 : ℕ) * ((e.2.powers.getD j 0 : ℕ) - 1) *
          A j ^ (e.2.powers.getD j 0 - 2))
      else if j = d1 ∨ j = d2 then
        if e.2.powers.getD j 0 = 0 then p * 0
        else p * ((e.2.powers.getD j 0 : ℕ) * A j ^ (e.2.powers.getD j 0 - 1))
      else p * A j ^ e.2.powers.getD j 0) = fun (p : ℝ) j => p *
      (if j = d2 then (if d2 = d1 then D2 (e.2.powers.getD d2 0) (A d2) else D1 (e.2.powers.getD d2 0) (A d2))
      else (if j = d1 then D1 (e.2.powers.getD d1 0) (A d1) else A j ^ e.2.powers.getD j 0)) := by
    intro e
    funext p j
    by_cases h2 : j = d2
    · subst h2
      by_cases h1 : j = d1
      · subst h1
        simp only [and_self, if_true]
        split
        · rename_i hlt
          have : D2 (e.2.powers.getD j 0) (A j) = 0 := by
            have : e.2.powers.getD j 0 = 0 ∨ e.2.powers.getD j 0 = 1 := by omega
            rcases this with h | h
            · rw [h, D2_zero]
            · rw [h, D2_one]
          rw [this]
        · rfl
      · simp only [h1, false_and, if_false, if_true, or_true]
        split
        · rename_i h0; rw [h0, D1_zero]
        · rfl
    · by_cases h1 : j = d1
      · subst h1
        simp only [h2, and_false, if_false, or_false, if_true]
        split
        · rename_i h0; rw [h0, D1_zero]
        · rfl
      · simp [h1, h2]
  simp only [this, foldl_mul_range, one_mul]
  rw [foldl_add_list, zero_add]

private theorem costHessValue_symm (n : ℕ) (terms : TermMap) (A : ℕ → ℝ) (d1 d2 : ℕ) :
    costHessValue n terms A d1 d2 = costHessValue n terms A d2 d1 := by
  unfold costHessValue
  have e1 : ∀ j : ℕ, (j = d1 ∧ j = d2) = (j = d2 ∧ j = d1) := fun j => propext and_comm
  have e2 : ∀ j : ℕ, (j = d1 ∨ j = d2) = (j = d2 ∨ j = d1) := fun j => propext or_comm
  simp only [e1, e2]

/-- C82: the Hessian handed to the minimiser consists of the partial derivatives of the gradient. -/
theorem c82_hessian (n : ℕ) (terms : TermMap) (A : ℕ → ℝ) (d1 d2 : ℕ) (h1 : d1 < n) (h2 : d2 < n) :
    HasDerivAt (fun x => costGrad n terms (Function.update A d2 x) d1) (costHess n terms A d1 d2) (A d2) := by
  have hh : costHess n terms A d1 d2 = costHessValue n terms A d1 d2 := by
    unfold costHess
    rcases le_total d1 d2 with h | h
    · rw [min_eq_left h, max_eq_right h]
    · rw [min_eq_right h, max_eq_left h, costHessValue_symm]
  rw [hh, costHessValue_eq]
  simp only [costGrad_eq n terms _ d1 h1]
  refine sum_deriv terms (fun e x => (∏ j ∈ Finset.range n, if j = d1 then
    D1 (e.2.powers.getD d1 0) (Function.update A d2 x d1) else Function.update A d2 x j ^ e.2.powers.getD j 0) *
    e.2.coeff) _ (A d2) ?_
  intro e _
  have hF : HasDerivAt ((fun j a => if j = d1 then D1 (e.2.powers.getD d1 0) a else a ^ e.2.powers.getD j 0) d2)
      (if d2 = d1 then D2 (e.2.powers.getD d2 0) (A d2) else D1 (e.2.powers.getD d2 0) (A d2)) (A d2) := by
    by_cases h : d2 = d1
    · subst h
      simp only [if_true]
      exact D2_deriv _ _
    · simp only [h, if_false]
      exact D1_deriv _ _
  have hp := prod_update_deriv n
    (fun j a => if j = d1 then D1 (e.2.powers.getD d1 0) a else a ^ e.2.powers.getD j 0) A d2 h2 _ hF
  have e1 : (fun x => ∏ j ∈ Finset.range n, if j = d1 then D1 (e.2.powers.getD d1 0) (Function.update A d2 x j)
      else Function.update A d2 x j ^ e.2.powers.getD j 0) =
      fun x => ∏ j ∈ Finset.range n, if j = d1 then D1 (e.2.powers.getD d1 0) (Function.update A d2 x d1)
      else Function.update A d2 x j ^ e.2.powers.getD j 0 := by
    funext x
    refine Finset.prod_congr rfl fun j _ => ?_
    by_cases h : j = d1
    · subst h; rfl
    · simp [h]
  have e2 : (∏ j ∈ Finset.range n, if j = d2 then (if d2 = d1 then D2 (e.2.powers.getD d2 0) (A d2) else
      D1 (e.2.powers.getD d2 0) (A d2)) else (if j = d1 then D1 (e.2.powers.getD d1 0) (A j) else
      A j ^ e.2.powers.getD j 0)) = ∏ j ∈ Finset.range n, if j = d2 then (if d2 = d1 then
      D2 (e.2.powers.getD d2 0) (A d2) else D1 (e.2.powers.getD d2 0) (A d2)) else (if j = d1 then
      D1 (e.2.powers.getD d1 0) (A d1) else A j ^ e.2.powers.getD j 0) := by
    refine Finset.prod_congr rfl fun j _ => ?_
    by_cases h : j = d1
    · subst h; rfl
    · simp [h]
  simp only [e1, e2] at hp
  exact hp.mul_const _

/-- C82: a case with a mixed second derivative: energy `A₀² A₁`, at `A = (3, 5)`. -/
example : costGrad 2 [("".toList, ⟨[2, 1], 1⟩)] (fun j => if j = 0 then 3 else 5) 0 = 30 ∧
    costHess 2 [("".toList, ⟨[2, 1], 1⟩)] (fun j => if j = 0 then 3 else 5) 1 0 = 6 := by
  constructor <;> norm_num [costGrad, costHess, costHessValue, List.range_succ]

/-! ## C83 -/

private theorem sum_update_deriv (n : ℕ) (F : ℕ → ℝ → ℝ) (A : ℕ → ℝ) (d : ℕ) (hd : d < n) (F' : ℝ)
    (h : HasDerivAt (F d) F' (A d)) :
    HasDerivAt (fun x => ∑ j ∈ Finset.range n, F j (Function.update A d x j)) F' (A d) := by
  have hm := Finset.mem_range.mpr hd
  have e1 : (fun x => ∑ j ∈ Finset.range n, F j (Function.update A d x j)) =
      fun x => F d x + ∑ j ∈ (Finset.range n).erase d, F j (A j) := by
    funext x
    rw [← Finset.add_sum_erase _ _ hm, Function.update_self]
    congr 1
    refine Finset.sum_congr rfl fun j hj => ?_
    rw [Function.update_of_ne (Finset.ne_of_mem_erase hj)]
  rw [e1]
  exact h.add_const _

/-- C83: the gradient used when fitting elastic properties consists of the partial derivatives of the
cost function. -/
theorem c83_gradient (n : ℕ) (props : List (ℝ × (ℕ → ℝ))) (penalty : ℝ) (x : ℕ → ℝ) (j : ℕ) (hj : j < n) :
    HasDerivAt (fun y => fitFunc n props penalty (Function.update x j y)) (fitGrad n props penalty x j)
      (x j) := by
  have hf : ∀ y : ℕ → ℝ, fitFunc n props penalty y =
      (props.map fun p => (p.1 - ∑ i ∈ Finset.range n, y i * y i * p.2 i) ^ 2).sum +
        ∑ i ∈ Finset.range n, penalty * y i * y i * y i * y i := by
    intro y
    unfold fitFunc
    simp only [foldl_add_range, zero_add]
    rw [foldl_add_list, zero_add]
  have hg : fitGrad n props penalty x j =
      (props.map fun p => -(4 * (p.1 - ∑ i ∈ Finset.range n, x i * x i * p.2 i) * x j * p.2 j)).sum +
        4 * penalty * x j * x j * x j := by
    unfold fitGrad
    simp only [foldl_add_range, zero_add, sub_eq_add_neg]
    rw [foldl_add_list, zero_add]
  simp only [hf, hg]
  refine HasDerivAt.add ?_ ?_
  · refine sum_deriv props (fun p y => (p.1 - ∑ i ∈ Finset.range n,
      Function.update x j y i * Function.update x j y i * p.2 i) ^ 2) _ (x j) ?_
    intro p _
    have h1 : HasDerivAt (fun a : ℝ => a * a * p.2 j) ((1 * x j + x j * 1) * p.2 j) (x j) :=
      ((hasDerivAt_id (x j)).mul (hasDerivAt_id (x j))).mul_const _
    have h2 := sum_update_deriv n (fun i a => a * a * p.2 i) x j hj _ h1
    have h3 := (h2.const_sub p.1).pow 2
    refine h3.congr_deriv ?_
    simp
    ring
  · refine sum_update_deriv n (fun _ a => penalty * a * a * a * a) x j hj _ ?_
    have h := HasDerivAt.const_mul penalty (hasDerivAt_pow 4 (x j))
    have e : (fun a : ℝ => penalty * a * a * a * a) = fun a => penalty * a ^ 4 := by funext a; ring
    rw [e]
    refine h.congr_deriv ?_
    norm_num
    ring

/-- C83: there is a width exactly in two and three dimensions. It is not negative, and it is the one for which the
peak contributes the squared fitted amplitude: half the number of equivalent indices times (mode amplitude / width)². -/
theorem c83_widths (m : Miller) (dim : Int) (a amp : ℝ) :
    ((peakWidth m dim a amp).isSome ↔ dim = 2 ∨ dim = 3) ∧
    ∀ w, peakWidth m dim a amp = some w → ∃ k, numEquivalent m dim = some k ∧ 0 ≤ w ∧
      (a ≠ 0 → amp ≠ 0 → k ≠ 0 → amp ^ 2 = (k : ℝ) / 2 * (a / w) ^ 2) := by
  constructor
  · unfold peakWidth numEquivalent
    rw [Option.isSome_map]
    split_ifs with h1 h2 <;> simp [h1]
    · exact h2
    · exact h2
  · intro w hw
    unfold peakWidth at hw
    rw [Option.map_eq_some_iff] at hw
    obtain ⟨k, hk, rfl⟩ := hw
    refine ⟨k, hk, by positivity, fun ha hamp hk0 => ?_⟩
    have hk' : (0 : ℝ) < k := by exact_mod_cast Nat.pos_of_ne_zero hk0
    have h1 : Real.sqrt (0.5 * (k : ℝ)) ^ 2 = 0.5 * (k : ℝ) := Real.sq_sqrt (by positivity)
    rw [div_pow, mul_pow, h1, sq_abs, div_pow]
    field_simp
    norm_num

/-- C83: the fit cannot be started with fewer than two modes: the start vector is indexed out of
range. -/
theorem c83_start (n : ℕ) : (fitStart n).isSome ↔ 2 ≤ n := by
  unfold fitStart
  rcases n with _ | _ | n <;> simp

/-! ## C84 -/

/-- The stiffness contributed by a mode with Miller indices `m`, as documented: `m_t Q_su m_v`. -/
noncomputable def modeStiffness (m : Miller) (Q : Matrix (Fin 3) (Fin 3) ℝ) (s t u v : Fin 3) : ℝ :=
  m.at t.val * Q s u * m.at v.val

/-- Voigt average of the bulk modulus of a stiffness tensor. -/
noncomputable def voigtBulk (C : Fin 3 → Fin 3 → Fin 3 → Fin 3 → ℝ) : ℝ :=
  (C 0 0 0 0 + C 1 1 1 1 + C 2 2 2 2 + 2 * (C 0 0 1 1 + C 1 1 2 2 + C 0 0 2 2)) / 9

/-- Voigt average of the shear modulus of a stiffness tensor. -/
noncomputable def voigtShear (C : Fin 3 → Fin 3 → Fin 3 → Fin 3 → ℝ) : ℝ :=
  (C 0 0 0 0 + C 1 1 1 1 + C 2 2 2 2 - (C 0 0 1 1 + C 1 1 2 2 + C 0 0 2 2) +
    3 * (C 1 2 1 2 + C 0 2 0 2 + C 0 1 0 1)) / 15

private theorem finRange3 : List.finRange 3 = [0, 1, 2] := by decide

private theorem filt0 : (List.finRange 3).filter (fun j : Fin 3 => (0 : Fin 3).val + 1 ≤ j.val) = [1, 2] := by decide
private theorem filt1 : (List.finRange 3).filter (fun j : Fin 3 => (1 : Fin 3).val + 1 ≤ j.val) = [2] := by decide
private theorem filt2 : (List.finRange 3).filter (fun j : Fin 3 => (2 : Fin 3).val + 1 ≤ j.val) = [] := by decide

/-- C84: the bulk and shear weights are the Voigt averages of the mode's stiffness tensor (the
documentation calls them Reuss averages). -/
theorem c84_voigt (m : Miller) (Q : Matrix (Fin 3) (Fin 3) ℝ) :
    bulkModWeight m Q = voigtBulk (modeStiffness m Q) ∧
    shearModWeight m Q = voigtShear (modeStiffness m Q) := by
  constructor
  · unfold bulkModWeight voigtBulk modeStiffness
    simp only [finRange3]
    simp only [← finRange3]
    simp only [List.foldl_cons, List.foldl_nil, finRange3, filt0, filt1, filt2]
    simp only [← finRange3, filt0, filt1, filt2, List.foldl_cons, List.foldl_nil]
    ring
  · unfold shearModWeight voigtShear modeStiffness
    simp only [finRange3]
    simp only [← finRange3]
    simp only [List.foldl_cons, List.foldl_nil, finRange3, filt0, filt1, filt2]
    simp only [← finRange3, filt0, filt1, filt2, List.foldl_cons, List.foldl_nil]
    ring

/-- C84: the bulk weight is a ninth of the squared length of the mode's reciprocal lattice vector, the
area weight in two dimensions a quarter of it. -/
theorem c84_squared_length (m : Miller) (B : Matrix (Fin 3) (Fin 3) ℝ) (B2 : Matrix (Fin 2) (Fin 2) ℝ) :
    bulkModWeight m (B.transpose * B) = (∑ i, hklVector (k := 1) B m i ^ 2) / 9 ∧
    areaModulusWeight (k := 0) m (B2.transpose * B2) = (∑ i, hklVector (k := 0) B2 m i ^ 2) / 4 := by
  constructor
  · rw [(c84_voigt m _).1]
    unfold voigtBulk modeStiffness hklVector
    simp only [Matrix.mul_apply, Matrix.transpose_apply, Fin.sum_univ_three, Miller.at, Nat.reduceAdd,
      if_true]
    simp
    ring
  · unfold areaModulusWeight hklVector
    simp only [Matrix.mul_apply, Matrix.transpose_apply, Fin.sum_univ_two, Miller.at]
    simp
    ring

/-- C84: none of the two 3D weights is negative, so a negative target can not be met. -/
theorem c84_nonneg (m : Miller) (B : Matrix (Fin 3) (Fin 3) ℝ) :
    0 ≤ bulkModWeight m (B.transpose * B) ∧ 0 ≤ shearModWeight m (B.transpose * B) := by
  constructor
  · rw [(c84_squared_length m B 1).1]
    exact div_nonneg (Finset.sum_nonneg fun i _ => sq_nonneg _) (by norm_num)
  · rw [(c84_voigt m _).2]
    unfold voigtShear modeStiffness
    refine div_nonneg ?_ (by norm_num)
    simp only [Matrix.mul_apply, Matrix.transpose_apply, Fin.sum_univ_three, Miller.at]
    simp only [Fin.val_zero, Fin.val_one, Fin.val_two]
    norm_num
    generalize (m.H : ℝ) = h
    generalize (m.K : ℝ) = k
    generalize (m.L : ℝ) = l
    have e : ∀ a b c d e f g p q : ℝ,
        h * (a * a + b * b + c * c) * h + k * (d * d + e * e + f * f) * k + l * (g * g + p * p + q * q) * l -
          (h * (a * d + b * e + c * f) * k + k * (d * g + e * p + f * q) * l + h * (a * g + b * p + c * q) * l) +
          3 * (l * (d * d + e * e + f * f) * l + l * (a * a + b * b + c * c) * l +
            k * (a * a + b * b + c * c) * k) =
        ((h * a - k * d) ^ 2 + (h * b - k * e) ^ 2 + (h * c - k * f) ^ 2 +
         (k * d - l * g) ^ 2 + (k * e - l * p) ^ 2 + (k * f - l * q) ^ 2 +
         (h * a - l * g) ^ 2 + (h * b - l * p) ^ 2 + (h * c - l * q) ^ 2) / 2 +
        3 * ((l * d) ^ 2 + (l * e) ^ 2 + (l * f) ^ 2 + (l * a) ^ 2 + (l * b) ^ 2 + (l * c) ^ 2 +
          (k * a) ^ 2 + (k * b) ^ 2 + (k * c) ^ 2) := by intros; ring
    rw [e]
    positivity

/-- C84: on a simple cubic cell the bulk weight is the same for all equivalent Miller indices. -/
theorem c84_bulk_invariant (m m' : Miller) (h : Equivalent m m') (q : ℝ) :
    bulkModWeight m (q • (1 : Matrix (Fin 3) (Fin 3) ℝ)) = bulkModWeight m' (q • (1 : Matrix (Fin 3) (Fin 3) ℝ)) := by
  rw [(c84_voigt m _).1, (c84_voigt m' _).1]
  unfold voigtBulk modeStiffness
  have hs := (h.map (fun x : ℕ => ((x : ℝ)) ^ 2)).sum_eq
  simp only [List.map_cons, List.map_nil, List.sum_cons, List.sum_nil, add_zero] at hs
  have hab : ∀ x : ℤ, ((x.natAbs : ℕ) : ℝ) ^ 2 = (x : ℝ) * x := by
    intro x
    rw [Nat.cast_natAbs, Int.cast_abs, sq_abs, sq]
  rw [hab, hab, hab, hab, hab, hab] at hs
  simp [Miller.at, Matrix.one_apply]
  linear_combination q * hs

/-- C84: the shear weights are not: on a simple cubic cell the equivalent modes (1 0 0) and (0 0 1)
have different shear weights, and in the plane (1 0) and (0 1) have different ones. -/
theorem c84_shear_depends_on_choice :
    shearModWeight ⟨1, 0, 0⟩ (1 : Matrix (Fin 3) (Fin 3) ℝ) = 1 / 15 ∧
    shearModWeight ⟨0, 0, 1⟩ (1 : Matrix (Fin 3) (Fin 3) ℝ) = 7 / 15 ∧
    xyPlaneShearWeight (k := 0) ⟨1, 0, 0⟩ 1 = 5 / 8 ∧ xyPlaneShearWeight (k := 0) ⟨0, 1, 0⟩ 1 = 1 / 8 := by
  refine ⟨?_, ?_, ?_, ?_⟩
  · rw [(c84_voigt _ _).2]; norm_num [voigtShear, modeStiffness, Miller.at, Matrix.one_apply]
  · rw [(c84_voigt _ _).2]; norm_num [voigtShear, modeStiffness, Miller.at, Matrix.one_apply]
  · norm_num [xyPlaneShearWeight, Miller.at, Matrix.one_apply]
  · norm_num [xyPlaneShearWeight, Miller.at, Matrix.one_apply]

/-! ## C90 -/

private noncomputable def wave3 (x y z : ℝ) (e : Miller) : ℝ :=
  Real.cos (2 * Real.pi * ((e.H : ℝ) * x + (e.K : ℝ) * y + (e.L : ℝ) * z))

private theorem density3_eq (m : Miller) (x y z : ℝ) :
    modeDensity m [x, y, z] = ((equivalentMiller m).map (wave3 x y z)).sum := by
  unfold modeDensity
  simp only [List.length_cons, List.length_nil, Nat.reduceAdd, Nat.reduceEqDiff, false_and, if_false,
    if_true, List.getD_cons_zero, List.getD_cons_succ]
  rw [foldl_add_list, zero_add]
  rfl

private theorem perm_of_iff {l l' : List Miller} (h : l.Nodup) (h' : l'.Nodup) (hm : ∀ a, a ∈ l ↔ a ∈ l') :
    l.Perm l' := (List.perm_ext_iff_of_nodup h h').mpr hm

/-- An invertible map that respects equivalence permutes the list of equivalent indices. -/
private theorem perm_map (m : Miller) (g g' : Miller → Miller) (hg : ∀ a, g' (g a) = a)
    (hg' : ∀ a, g (g' a) = a) (he : ∀ a, Equivalent (g a) a) :
    ((equivalentMiller m).map g).Perm (equivalentMiller m) := by
  obtain ⟨h1, h2⟩ := c58_equivalent m
  refine perm_of_iff (h1.map ?_) h1 ?_
  · intro a b hab
    rw [← hg a, hab, hg]
  · intro a
    rw [List.mem_map]
    constructor
    · rintro ⟨b, hb, rfl⟩
      rw [h2] at hb ⊢
      exact (he b).trans hb
    · intro ha
      refine ⟨g' a, ?_, hg' a⟩
      rw [h2] at ha ⊢
      have := (he (g' a)).symm
      rw [hg'] at this
      exact this.trans ha

/-- C90: the density of a mode does not depend on which of the equivalent Miller indices is given. -/
theorem c90_representative (m m' : Miller) (h : Equivalent m m') (x y z : ℝ) :
    modeDensity m [x, y, z] = modeDensity m' [x, y, z] := by
  rw [density3_eq, density3_eq]
  refine List.Perm.sum_eq (List.Perm.map _ ?_)
  refine perm_of_iff (c58_equivalent m).1 (c58_equivalent m').1 fun a => ?_
  rw [(c58_equivalent m).2, (c58_equivalent m').2]
  exact ⟨fun ha => List.Perm.trans ha h, fun ha => List.Perm.trans ha h.symm⟩

/-- C90: the density of a mode is periodic in scaled coordinates. -/
theorem c90_periodic (m : Miller) (x y z : ℝ) (a b c : ℤ) :
    modeDensity m [x + a, y + b, z + c] = modeDensity m [x, y, z] := by
  rw [density3_eq, density3_eq]
  congr 1
  refine List.map_congr_left fun e _ => ?_
  unfold wave3
  have := Real.cos_add_int_mul_two_pi (2 * Real.pi * ((e.H : ℝ) * x + (e.K : ℝ) * y + (e.L : ℝ) * z))
    (e.H * a + e.K * b + e.L * c)
  rw [← this]
  congr 1
  push_cast
  ring

/-- C90: it has the full cubic symmetry: it is unchanged when coordinates are interchanged or reflected
(these operations generate all symmetries of the cube). -/
theorem c90_cubic_symmetry (m : Miller) (x y z : ℝ) :
    modeDensity m [y, x, z] = modeDensity m [x, y, z] ∧ modeDensity m [x, z, y] = modeDensity m [x, y, z] ∧
    modeDensity m [-x, y, z] = modeDensity m [x, y, z] := by
  refine ⟨?_, ?_, ?_⟩
  · rw [density3_eq, density3_eq]
    have hp := perm_map m (fun a => ⟨a.K, a.H, a.L⟩) (fun a => ⟨a.K, a.H, a.L⟩) (fun _ => rfl) (fun _ => rfl)
      (fun a => List.Perm.swap _ _ _)
    rw [← (hp.map (wave3 x y z)).sum_eq, List.map_map]
    congr 1
    refine List.map_congr_left fun e _ => ?_
    simp only [wave3, Function.comp_apply]
    congr 1; ring
  · rw [density3_eq, density3_eq]
    have hp := perm_map m (fun a => ⟨a.H, a.L, a.K⟩) (fun a => ⟨a.H, a.L, a.K⟩) (fun _ => rfl) (fun _ => rfl)
      (fun a => List.Perm.cons _ (List.Perm.swap _ _ _))
    rw [← (hp.map (wave3 x y z)).sum_eq, List.map_map]
    congr 1
    refine List.map_congr_left fun e _ => ?_
    simp only [wave3, Function.comp_apply]
    congr 1; ring
  · rw [density3_eq, density3_eq]
    have hp := perm_map m (fun a => ⟨-a.H, a.K, a.L⟩) (fun a => ⟨-a.H, a.K, a.L⟩) (fun a => by simp)
      (fun a => by simp) (fun a => by unfold Equivalent; simp)
    rw [← (hp.map (wave3 x y z)).sum_eq, List.map_map]
    congr 1
    refine List.map_congr_left fun e _ => ?_
    simp only [wave3, Function.comp_apply]
    congr 1; push_cast; ring

/-- C90: the density is largest at the atom at the origin, where it is the number of equivalent
indices. -/
theorem c90_maximum (m : Miller) (x y z : ℝ) :
    modeDensity m [0, 0, 0] = (equivalentMiller m).length ∧
    |modeDensity m [x, y, z]| ≤ modeDensity m [0, 0, 0] := by
  have h0 : modeDensity m [0, 0, 0] = (equivalentMiller m).length := by
    rw [density3_eq]
    have : (equivalentMiller m).map (wave3 0 0 0) = (equivalentMiller m).map fun _ => (1 : ℝ) := by
      refine List.map_congr_left fun e _ => ?_
      simp [wave3]
    rw [this]; simp
  refine ⟨h0, ?_⟩
  rw [h0, density3_eq]
  generalize equivalentMiller m = l
  induction l with
  | nil => simp
  | cons e l ih =>
    rw [List.map_cons, List.sum_cons, List.length_cons]
    push_cast
    have : |wave3 x y z e| ≤ 1 := Real.abs_cos_le_one _
    refine (abs_add_le _ _).trans ?_
    linarith

/-- C90: in two dimensions a mode all of whose indices differ from zero has no density at all. -/
theorem c90_two_dimensions (m : Miller) (hH : m.H ≠ 0) (hK : m.K ≠ 0) (hL : m.L ≠ 0) (x y : ℝ) :
    modeDensity m [x, y] = 0 := by
  unfold modeDensity
  have : ∀ e ∈ equivalentMiller m, e.L ≠ 0 := by
    intro e he h0
    rw [(c58_equivalent m).2] at he
    have h1 : e.L.natAbs ∈ [m.H.natAbs, m.K.natAbs, m.L.natAbs] := List.Perm.subset he (by simp)
    rw [h0] at h1
    simp at h1
    omega
  generalize equivalentMiller m = l at this
  suffices h : ∀ a : ℝ, l.foldl (fun (density : ℝ) e => if ([x, y] : List ℝ).length = 2 ∧ e.L ≠ 0 then density
      else
        let arg := (e.H : ℝ) * ([x, y] : List ℝ).getD 0 0 + (e.K : ℝ) * ([x, y] : List ℝ).getD 1 0
        let arg := if ([x, y] : List ℝ).length = 3 then arg + (e.L : ℝ) * ([x, y] : List ℝ).getD 2 0 else arg
        density + Real.cos (2 * Real.pi * arg)) a = a from h 0
  induction l with
  | nil => intro a; rfl
  | cons e l ih =>
    intro a
    rw [List.foldl_cons, if_pos ⟨rfl, this e (by simp)⟩]
    exact ih (fun e he => this e (by simp [he])) a

/-! ## C91 -/

/-- C91: the reported solution is at least as good as every local minimum found, and as zero
amplitudes; it is one of them. -/
theorem c91_best (n : ℕ) (minimize : List ℚ → ℝ × List ℝ) (starts : List (List ℚ)) :
    (∀ x ∈ starts, (selectBest n minimize starts).1 ≤ (minimize x).1) ∧
    (selectBest n minimize starts).1 ≤ 0 ∧
    (selectBest n minimize starts = (0, List.replicate n 0) ∨
      ∃ x ∈ starts, selectBest n minimize starts = minimize x) := by
  have key : ∀ (l : List (List ℚ)) (r : ℝ × List ℝ),
      (∀ x ∈ l, (l.foldl (fun (r : ℝ × List ℝ) x0 => if (minimize x0).1 < r.1 then minimize x0 else r) r).1 ≤
        (minimize x).1) ∧
      (l.foldl (fun (r : ℝ × List ℝ) x0 => if (minimize x0).1 < r.1 then minimize x0 else r) r).1 ≤ r.1 ∧
      (l.foldl (fun (r : ℝ × List ℝ) x0 => if (minimize x0).1 < r.1 then minimize x0 else r) r = r ∨
        ∃ x ∈ l, l.foldl (fun (r : ℝ × List ℝ) x0 => if (minimize x0).1 < r.1 then minimize x0 else r) r =
          minimize x) := by
    intro l
    induction l with
    | nil => intro r; simp
    | cons x l ih =>
      intro r
      rw [List.foldl_cons]
      obtain ⟨h1, h2, h3⟩ := ih (if (minimize x).1 < r.1 then minimize x else r)
      have ha : (if (minimize x).1 < r.1 then minimize x else r).1 ≤ (minimize x).1 := by
        split <;> linarith
      have hb : (if (minimize x).1 < r.1 then minimize x else r).1 ≤ r.1 := by
        split <;> linarith
      refine ⟨?_, h2.trans hb, ?_⟩
      · intro y hy
        rcases List.mem_cons.mp hy with rfl | hy
        · exact h2.trans ha
        · exact h1 y hy
      · rcases h3 with h | ⟨y, hy, h⟩
        · rw [h]
          split
          · exact Or.inr ⟨x, by simp, rfl⟩
          · exact Or.inl rfl
        · exact Or.inr ⟨y, by simp [hy], h⟩
  exact key starts (0, List.replicate n 0)

end Gopf.Props
