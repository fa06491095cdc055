import Verif.Model.ModeSolver
import Verif.Proofs.Product
import Mathlib.Algebra.BigOperators.Ring.Finset
import Mathlib.Tactic.Ring
import Mathlib.Tactic.Linarith

/-!
# Lemmas about the mode solver
-/

namespace Gopf.Pfc
open Pf (Str fmtInt)

/-! ## Keys -/

/-- The key of the modes from number `i` on. -/
def keyFrom (i : ℕ) : List ℕ → Str
  | [] => []
  | p :: ps =>
    (if p ≠ 0 then 'm' :: (Nat.toDigits 10 i ++ 'p' :: Nat.toDigits 10 p) else []) ++ keyFrom (i + 1) ps

theorem fmtInt_nat (n : ℕ) : fmtInt (n : ℤ) = Nat.toDigits 10 n := by
  unfold fmtInt
  rw [if_neg (by omega)]
  simp

theorem power2key_eq (powers : List ℕ) : power2key powers = keyFrom 0 powers := by
  have h : ∀ (ps : List ℕ) (i : ℕ) (key : Str),
      (ps.zipIdx i).foldl (fun (key : Str) (e : ℕ × ℕ) =>
        if e.1 ≠ 0 then key ++ 'm' :: (fmtInt e.2 ++ 'p' :: fmtInt e.1) else key) key =
        key ++ keyFrom i ps := by
    intro ps
    induction ps with
    | nil => intro i key; simp [keyFrom]
    | cons p ps ih =>
      intro i key
      rw [List.zipIdx_cons, List.foldl_cons, ih, keyFrom]
      by_cases hp : p = 0
      · simp [hp]
      · simp [hp, fmtInt_nat]
  simpa [power2key] using h powers 0 []

theorem digits_split (a b : ℕ) (s t : Str) (hs : ∀ c ∈ s.head?, c.isDigit = false)
    (ht : ∀ c ∈ t.head?, c.isDigit = false)
    (h : Nat.toDigits 10 a ++ s = Nat.toDigits 10 b ++ t) : a = b ∧ s = t := by
  have htw : ∀ (n : ℕ) (u : Str), (∀ c ∈ u.head?, c.isDigit = false) →
      (Nat.toDigits 10 n ++ u).takeWhile Char.isDigit = Nat.toDigits 10 n := by
    intro n u hu
    rw [List.takeWhile_append_of_pos
      (fun _ hc => Nat.isDigit_of_mem_toDigits (by norm_num) (by norm_num) hc)]
    cases u with
    | nil => simp
    | cons c u => simp [List.takeWhile_cons, hu c (by simp)]
  have h1 := congrArg (List.takeWhile Char.isDigit) h
  rw [htw a s hs, htw b t ht] at h1
  refine ⟨?_, ?_⟩
  · rw [← Nat.ofDigitChars_ten_toDigits (n := a), h1, Nat.ofDigitChars_ten_toDigits]
  · rw [h1] at h
    exact List.append_cancel_left h

theorem keyFrom_head (i : ℕ) (ps : List ℕ) : ∀ c ∈ (keyFrom i ps).head?, c = 'm' := by
  induction ps generalizing i with
  | nil => simp [keyFrom]
  | cons p ps ih =>
    rw [keyFrom]
    by_cases hp : p = 0
    · simpa [hp] using ih (i + 1)
    · simp [hp]

/-- If a key starts with `m<j>p`, then `j` is at least the number of the first mode. -/
theorem keyFrom_index (i j : ℕ) (ps : List ℕ) (t : Str)
    (h : keyFrom i ps = 'm' :: (Nat.toDigits 10 j ++ 'p' :: t)) : i ≤ j := by
  induction ps generalizing i with
  | nil => simp [keyFrom] at h
  | cons p ps ih =>
    rw [keyFrom] at h
    by_cases hp : p = 0
    · simp only [hp, ne_eq, not_true_eq_false, if_false, List.nil_append] at h
      have := ih (i + 1) h
      omega
    · simp only [ne_eq, hp, not_false_eq_true, if_true, List.cons_append, List.cons.injEq, true_and,
        List.append_assoc] at h
      have := (digits_split i j _ _ (by simp) (by simp) h).1
      omega

theorem keyFrom_injective (ps qs : List ℕ) (i : ℕ) (hl : ps.length = qs.length)
    (h : keyFrom i ps = keyFrom i qs) : ps = qs := by
  induction ps generalizing qs i with
  | nil =>
    cases qs with
    | nil => rfl
    | cons q qs => simp at hl
  | cons p ps ih =>
    cases qs with
    | nil => simp at hl
    | cons q qs =>
      have hl' : ps.length = qs.length := by simpa using hl
      rw [keyFrom, keyFrom] at h
      by_cases hp : p = 0 <;> by_cases hq : q = 0
      · simp only [hp, hq, ne_eq, not_true_eq_false, if_false, List.nil_append] at h
        rw [hp, hq, ih qs (i + 1) hl' h]
      · simp only [hp, hq, ne_eq, not_true_eq_false, not_false_eq_true, if_true, if_false,
          List.nil_append, List.cons_append, List.append_assoc] at h
        have := keyFrom_index (i + 1) i ps _ h
        omega
      · simp only [hp, hq, ne_eq, not_true_eq_false, not_false_eq_true, if_true, if_false,
          List.nil_append, List.cons_append, List.append_assoc] at h
        have := keyFrom_index (i + 1) i qs _ h.symm
        omega
      · simp only [hp, hq, ne_eq, not_false_eq_true, if_true, List.cons_append, List.append_assoc,
          List.cons.injEq, true_and] at h
        have h2 := (digits_split i i _ _ (by simp) (by simp) h).2
        simp only [List.cons.injEq, true_and] at h2
        have nd : ∀ k : List ℕ, ∀ c ∈ (keyFrom (i + 1) k).head?, c.isDigit = false := by
          intro k c hc
          rw [keyFrom_head _ _ c hc]; rfl
        obtain ⟨h3, h4⟩ := digits_split p q _ _ (nd ps) (nd qs) h2
        rw [h3, ih qs (i + 1) hl' h4]

/-! ## Folds -/

theorem foldl_mul_range (n : ℕ) (f : ℕ → ℝ) (a : ℝ) :
    (List.range n).foldl (fun (p : ℝ) j => p * f j) a = a * ∏ j ∈ Finset.range n, f j := by
  induction n with
  | zero => simp
  | succ n ih => rw [List.range_succ, List.foldl_append, ih, Finset.prod_range_succ]; simp; ring

theorem foldl_add_range (n : ℕ) (f : ℕ → ℝ) (a : ℝ) :
    (List.range n).foldl (fun (p : ℝ) j => p + f j) a = a + ∑ j ∈ Finset.range n, f j := by
  induction n with
  | zero => simp
  | succ n ih => rw [List.range_succ, List.foldl_append, ih, Finset.sum_range_succ]; simp; ring

theorem foldl_add_list {α : Type} (l : List α) (f : α → ℝ) (a : ℝ) :
    l.foldl (fun (p : ℝ) e => p + f e) a = a + (l.map f).sum := by
  induction l generalizing a with
  | nil => simp
  | cons e l ih => rw [List.foldl_cons, ih]; simp; ring

theorem quadSquare_eq (rule : ℕ → ℝ × ℝ) (n : ℕ) (f : ℝ → ℝ → ℝ) : quadSquare rule n f =
    ∑ i ∈ Finset.range n, ∑ j ∈ Finset.range n, (rule i).2 * (rule j).2 * f (rule i).1 (rule j).1 := by
  unfold quadSquare
  simp only [foldl_add_range]
  simp

theorem quadCube_eq (rule : ℕ → ℝ × ℝ) (n : ℕ) (f : ℝ → ℝ → ℝ → ℝ) : quadCube rule n f =
    ∑ i ∈ Finset.range n, ∑ j ∈ Finset.range n, ∑ k ∈ Finset.range n,
      (rule i).2 * (rule j).2 * (rule k).2 * f (rule i).1 (rule j).1 (rule k).1 := by
  unfold quadCube
  simp only [foldl_add_range]
  simp

/-- The product of the powers of `B`. -/
noncomputable def mono (n : ℕ) (B : ℕ → ℝ) (powers : List ℕ) : ℝ :=
  ∏ j ∈ Finset.range n, B j ^ powers.getD j 0

theorem integrand_eq (millers : List Miller) (powers : List ℕ) (pos : List ℝ) :
    integrand millers powers pos =
      mono powers.length (fun j => modeDensity (millers.getD j ⟨0, 0, 0⟩) pos) powers := by
  unfold integrand mono
  have : (fun (res : ℝ) mode => if powers.getD mode 0 ≠ 0 then
      res * modeDensity (millers.getD mode ⟨0, 0, 0⟩) pos ^ powers.getD mode 0 else res) =
      fun (res : ℝ) mode => res * modeDensity (millers.getD mode ⟨0, 0, 0⟩) pos ^ powers.getD mode 0 := by
    funext r mode
    by_cases h : powers.getD mode 0 = 0
    · rw [if_neg (by simpa using h), h]; simp
    · rw [if_pos h]
  rw [this, foldl_mul_range, one_mul]

/-! ## Counting -/

theorem mono_modify (n : ℕ) (B : ℕ → ℝ) (powers : List ℕ) (i : ℕ) (hi : i < n) (hl : powers.length = n) :
    mono n B (powers.modify i (· + 1)) = mono n B powers * B i := by
  unfold mono
  have hm := Finset.mem_range.mpr hi
  rw [← Finset.mul_prod_erase _ _ hm, ← Finset.mul_prod_erase (Finset.range n) (fun j => B j ^ powers.getD j 0) hm]
  have h1 : (powers.modify i (· + 1)).getD i 0 = powers.getD i 0 + 1 := by
    simp [List.getD, hl, hi]
  have h2 : ∏ j ∈ (Finset.range n).erase i, B j ^ (powers.modify i (· + 1)).getD j 0 =
      ∏ j ∈ (Finset.range n).erase i, B j ^ powers.getD j 0 := by
    refine Finset.prod_congr rfl fun j hj => ?_
    have : j ≠ i := Finset.ne_of_mem_erase hj
    simp [List.getD, List.getElem?_modify, this.symm]
  rw [h1, h2, pow_succ]
  ring

/-- What the counting loop computes for indices in range. -/
theorem countPowers_eq (n : ℕ) (idx : List Int) (h : ∀ i ∈ idx, 0 ≤ i ∧ i < n) :
    ∃ powers, countPowers n idx = some powers ∧ powers.length = n ∧ powers.sum = idx.length ∧
      ∀ B : ℕ → ℝ, mono n B powers = (idx.map fun i => B i.toNat).prod := by
  have key : ∀ (idx : List Int), (∀ i ∈ idx, 0 ≤ i ∧ i < n) → ∀ start : List ℕ, start.length = n →
      ∃ powers, idx.foldlM (fun (powers : List ℕ) (i : Int) =>
        if 0 ≤ i ∧ i.toNat < powers.length then some (powers.modify i.toNat (· + 1)) else none) start =
          some powers ∧ powers.length = n ∧ powers.sum = start.sum + idx.length ∧
        ∀ B : ℕ → ℝ, mono n B powers = mono n B start * (idx.map fun i => B i.toNat).prod := by
    intro idx
    induction idx with
    | nil => intro _ start hs; exact ⟨start, rfl, hs, by simp, by simp⟩
    | cons i idx ih =>
      intro h start hs
      obtain ⟨h0, h1⟩ := h i (by simp)
      have hi : i.toNat < n := by omega
      obtain ⟨powers, e1, e2, e3, e4⟩ := ih (fun j hj => h j (by simp [hj]))
        (start.modify i.toNat (· + 1)) (by simp [hs])
      refine ⟨powers, ?_, e2, ?_, ?_⟩
      · rw [List.foldlM_cons, if_pos ⟨h0, by omega⟩]
        exact e1
      · rw [e3]
        have : (start.modify i.toNat (· + 1)).sum = start.sum + 1 := by
          have hi' : i.toNat < start.length := by omega
          clear * - hi'
          generalize i.toNat = k at hi'
          induction start generalizing k with
          | nil => simp at hi'
          | cons a s ih =>
            cases k with
            | zero => simp; omega
            | succ k =>
              have := ih k (by simpa using hi')
              simp [List.modify_succ_cons, this]; omega
        rw [this]; simp; omega
      · intro B
        rw [e4, mono_modify n B start i.toNat hi hs]
        simp; ring
  obtain ⟨powers, h1, h2, h3, h4⟩ := key idx h (List.replicate n 0) (by simp)
  refine ⟨powers, h1, h2, by simpa using h3, fun B => ?_⟩
  rw [h4]
  have : mono n B (List.replicate n 0) = 1 := by
    unfold mono
    refine Finset.prod_eq_one fun j hj => ?_
    have : j < n := Finset.mem_range.mp hj
    simp [List.getD, this]
  rw [this, one_mul]

/-! ## The expansion -/

theorem sum_flatMap {α β : Type} (l : List α) (f : α → List β) (g : β → ℝ) :
    ((l.flatMap f).map g).sum = (l.map fun a => ((f a).map g).sum).sum := by
  induction l with
  | nil => rfl
  | cons a l ih => simp [List.flatMap_cons, ih]

theorem allTuples_sum (m : ℕ) (B : ℕ → ℝ) (power : ℕ) :
    ((Spec.allTuples (List.replicate power m)).map fun idx => (idx.map fun i => B i.toNat).prod).sum =
      (∑ j ∈ Finset.range m, B j) ^ power := by
  induction power with
  | zero => simp [Spec.allTuples]
  | succ p ih =>
    rw [List.replicate_succ, Spec.allTuples, sum_flatMap]
    have : (fun a : ℕ => (((Spec.allTuples (List.replicate p m)).map fun t => (a : Int) :: t).map
        fun idx => (idx.map fun i => B i.toNat).prod).sum) =
        fun a : ℕ => B a * (∑ j ∈ Finset.range m, B j) ^ p := by
      funext a
      rw [← ih, List.map_map, ← List.sum_map_mul_left]
      congr 1
    rw [this, pow_succ, mul_comm]
    rw [List.sum_map_mul_right]
    congr 1

/-! ## The map of terms -/

/-- Entries are stored under the key of their powers, no key twice. -/
structure GoodMap (n : ℕ) (power : ℕ) (m : TermMap) : Prop where
  key : ∀ e ∈ m, e.1 = power2key e.2.powers
  len : ∀ e ∈ m, e.2.powers.length = n
  sum : ∀ e ∈ m, e.2.powers.sum = power
  nodup : (m.map Prod.fst).Nodup

/-- The polynomial represented by a map. -/
noncomputable def value (n : ℕ) (A : ℕ → ℝ) (m : TermMap) : ℝ :=
  (m.map fun e => mono n A e.2.powers * e.2.coeff).sum

theorem put_of_not_mem (m : TermMap) (k : Str) (v : FTerm) (h : k ∉ m.map Prod.fst) :
    m.put k v = m ++ [(k, v)] := by
  unfold TermMap.put
  rw [if_neg]
  simp only [List.any_eq_true, decide_eq_true_eq, not_exists, not_and]
  intro e he hk
  exact h (by rw [← hk]; exact List.mem_map_of_mem he)

theorem get_none (m : TermMap) (k : Str) (h : m.get k = none) : k ∉ m.map Prod.fst := by
  unfold TermMap.get at h
  rw [Option.map_eq_none_iff, List.find?_eq_none] at h
  intro hk
  obtain ⟨e, he, rfl⟩ := List.mem_map.mp hk
  exact h e he (by simp)

theorem get_split (m : TermMap) (k : Str) (v : FTerm) (h : m.get k = some v) :
    ∃ a b, m = a ++ (k, v) :: b := by
  unfold TermMap.get at h
  rw [Option.map_eq_some_iff] at h
  obtain ⟨e, he, rfl⟩ := h
  obtain ⟨h1, a, b, h2, _⟩ := List.find?_eq_some_iff_append.mp he
  refine ⟨a, b, ?_⟩
  rw [h2]
  simp at h1
  rw [← h1]

theorem put_split (a b : TermMap) (k : Str) (v w : FTerm)
    (hn : ((a ++ (k, v) :: b).map Prod.fst).Nodup) :
    TermMap.put (a ++ (k, v) :: b) k w = a ++ (k, w) :: b := by
  unfold TermMap.put
  rw [if_pos (by simp)]
  simp only [List.map_append, List.map_cons, List.nodup_append, List.nodup_cons] at hn
  obtain ⟨_, ⟨h1, _⟩, h2⟩ := hn
  rw [List.map_append, List.map_cons]
  simp only [if_true]
  have ha : a.map (fun e => if e.1 = k then (k, w) else e) = a := by
    conv_rhs => rw [← List.map_id a]
    refine List.map_congr_left fun e he => ?_
    rw [if_neg]
    · rfl
    · intro hk
      exact h2 e.1 (List.mem_map_of_mem he) k (by simp) hk
  have hb : b.map (fun e => if e.1 = k then (k, w) else e) = b := by
    conv_rhs => rw [← List.map_id b]
    refine List.map_congr_left fun e he => ?_
    rw [if_neg]
    · rfl
    · intro hk
      exact h1 (by rw [← hk]; exact List.mem_map_of_mem he)
  rw [ha, hb]

/-- The integral used by `build`, for powers of the right length. -/
noncomputable def integralOf (millers : List Miller) (dim : ℕ) (rule : ℕ → ℕ → ℝ × ℝ) (order : ℕ)
    (powers : List ℕ) : ℝ :=
  if dim = 2 then quadSquare (rule order) order fun sx sy => integrand millers powers [sx, sy]
  else quadCube (rule order) order fun sx sy sz => integrand millers powers [sx, sy, sz]

theorem buildStep_eq (millers : List Miller) (dim : ℕ) (rule : ℕ → ℕ → ℝ × ℝ) (order power : ℕ)
    (terms : TermMap) (idx : List Int) (hg : GoodMap millers.length power terms)
    (hidx : ∀ i ∈ idx, 0 ≤ i ∧ i < millers.length) (hlen : idx.length = power) :
    ∃ terms' powers, buildStep millers dim rule order terms idx = some terms' ∧
      GoodMap millers.length power terms' ∧ powers.length = millers.length ∧
      (∀ B : ℕ → ℝ, mono millers.length B powers = (idx.map fun i => B i.toNat).prod) ∧
      ∀ A, value millers.length A terms' = value millers.length A terms +
        mono millers.length A powers * integralOf millers dim rule order powers := by
  obtain ⟨powers, h1, h2, h3, h4⟩ := countPowers_eq millers.length idx hidx
  have hint : unitcellIntegral millers dim rule powers order = some (integralOf millers dim rule order powers) := by
    unfold unitcellIntegral integralOf
    rw [if_neg (by simpa using h2)]
    split <;> rfl
  unfold buildStep
  simp only [h1, hint, Option.bind_eq_bind, Option.bind_some, Option.pure_def]
  cases hget : terms.get (power2key powers) with
  | none =>
    have hn := get_none _ _ hget
    refine ⟨_, powers, rfl, ?_, h2, h4, ?_⟩
    · rw [put_of_not_mem _ _ _ hn]
      refine ⟨?_, ?_, ?_, ?_⟩
      · intro e he
        rcases List.mem_append.mp he with h | h
        · exact hg.key e h
        · simp at h; subst h; rfl
      · intro e he
        rcases List.mem_append.mp he with h | h
        · exact hg.len e h
        · simp at h; subst h; exact h2
      · intro e he
        rcases List.mem_append.mp he with h | h
        · exact hg.sum e h
        · simp at h; subst h; rw [h3, hlen]
      · rw [List.map_append, List.nodup_append]
        refine ⟨hg.nodup, by simp, ?_⟩
        rintro a ha b hb rfl
        simp at hb
        subst hb
        exact hn ha
    · intro A
      rw [put_of_not_mem _ _ _ hn]
      simp [value]
  | some v =>
    obtain ⟨a, b, hab⟩ := get_split _ _ _ hget
    have hvk := hg.key (power2key powers, v) (by rw [hab]; simp)
    have hvl := hg.len (power2key powers, v) (by rw [hab]; simp)
    simp only at hvk hvl
    rw [power2key_eq, power2key_eq] at hvk
    have hvp : powers = v.powers := keyFrom_injective _ _ 0 (h2.trans hvl.symm) hvk
    have hnd := hg.nodup
    rw [hab] at hnd
    have hput := put_split a b (power2key powers) v
      ⟨powers, v.coeff + integralOf millers dim rule order powers⟩ hnd
    refine ⟨_, powers, rfl, ?_, h2, h4, ?_⟩
    · rw [hab, hput]
      have hsub : ∀ e ∈ a ++ (power2key powers,
          (⟨powers, v.coeff + integralOf millers dim rule order powers⟩ : FTerm)) :: b,
          e ∈ terms ∨ e = (power2key powers, ⟨powers, v.coeff + integralOf millers dim rule order powers⟩) := by
        intro e he
        rw [hab]
        simp only [List.mem_append, List.mem_cons] at he ⊢
        tauto
      refine ⟨?_, ?_, ?_, ?_⟩
      · intro e he
        rcases hsub e he with h | rfl
        · exact hg.key e h
        · rfl
      · intro e he
        rcases hsub e he with h | rfl
        · exact hg.len e h
        · exact h2
      · intro e he
        rcases hsub e he with h | rfl
        · exact hg.sum e h
        · rw [h3, hlen]
      · simpa using hnd
    · intro A
      rw [hab, hput]
      simp only [value, List.map_append, List.map_cons, List.sum_append, List.sum_cons]
      rw [← hvp]
      ring

theorem buildLoop_eq (millers : List Miller) (dim : ℕ) (rule : ℕ → ℕ → ℝ × ℝ) (order power : ℕ)
    (idxs : List (List Int)) (terms : TermMap) (hg : GoodMap millers.length power terms)
    (hidx : ∀ idx ∈ idxs, (∀ i ∈ idx, 0 ≤ i ∧ i < millers.length) ∧ idx.length = power) :
    ∃ terms' pws, idxs.foldlM (buildStep millers dim rule order) terms = some terms' ∧
      GoodMap millers.length power terms' ∧
      List.Forall₂ (fun (idx : List Int) (powers : List ℕ) => powers.length = millers.length ∧
        ∀ B : ℕ → ℝ, mono millers.length B powers = (idx.map fun i => B i.toNat).prod) idxs pws ∧
      ∀ A, value millers.length A terms' = value millers.length A terms +
        (pws.map fun powers => mono millers.length A powers * integralOf millers dim rule order powers).sum := by
  induction idxs generalizing terms with
  | nil => exact ⟨terms, [], rfl, hg, List.Forall₂.nil, by simp⟩
  | cons idx idxs ih =>
    obtain ⟨t1, powers, e1, e2, e3, e4, e5⟩ := buildStep_eq millers dim rule order power terms idx hg
      (hidx idx (by simp)).1 (hidx idx (by simp)).2
    obtain ⟨t2, pws, f1, f2, f3, f4⟩ := ih t1 e2 (fun i hi => hidx i (by simp [hi]))
    refine ⟨t2, powers :: pws, ?_, f2, List.Forall₂.cons ⟨e3, e4⟩ f3, fun A => ?_⟩
    · rw [List.foldlM_cons, e1]; exact f1
    · rw [f4, e5]; simp; ring

theorem sum_forall₂ {α β : Type} (R : α → β → Prop) (f : α → ℝ) (g : β → ℝ) (h : ∀ a b, R a b → f a = g b)
    (l : List α) (m : List β) (hl : List.Forall₂ R l m) : (l.map f).sum = (m.map g).sum := by
  induction hl with
  | nil => rfl
  | cons h1 _ ih => simp [h _ _ h1, ih]

theorem sum_list_finset {β γ : Type} (l : List β) (s : Finset γ) (f : β → γ → ℝ) :
    (l.map fun b => ∑ c ∈ s, f b c).sum = ∑ c ∈ s, (l.map fun b => f b c).sum := by
  induction l with
  | nil => simp
  | cons b l ih => simp [ih, Finset.sum_add_distrib]

end Gopf.Pfc
