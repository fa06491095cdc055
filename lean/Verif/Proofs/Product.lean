import Verif.Model.Product
import Verif.Proofs.Index
import Mathlib.Data.List.Lex
import Mathlib.Data.List.Chain

namespace Gopf.Pfutil
open Spec

/-- Structural odometer: `(overflow, new digits)`. -/
def incr : List Int → List Int → Bool × List Int
  | n :: ns, x :: xs =>
    if (incr ns xs).1 then
      if x + 1 < n then (false, (x + 1) :: (incr ns xs).2) else (true, 0 :: (incr ns xs).2)
    else (false, x :: (incr ns xs).2)
  | _, _ => (true, [])

theorem incr_length : ∀ (e c : List Int), e.length = c.length → (incr e c).2.length = c.length
  | [], [], _ => rfl
  | n :: ns, x :: xs, h => by
    have := incr_length ns xs (by simpa using h)
    simp only [incr]; split_ifs <;> simp [this]

theorem carryLoop_cons (n x : Int) (ns : List Int) : ∀ (k : Nat) (xs : List Int),
    carryLoop (n :: ns) (k + 1) (x :: xs) =
      (carryLoop ns k xs).bind fun r =>
        if r.2 then some (x :: r.1, true)
        else if x + 1 < n then some ((x + 1) :: r.1, true) else some (0 :: r.1, false)
  | 0, xs => by
    simp only [carryLoop]
    simp
  | k + 1, xs => by
    rw [carryLoop]
    conv_rhs => rw [carryLoop]
    simp only [List.getElem?_cons_succ, List.set_cons_succ]
    cases h1 : xs[k]? with
    | none => rfl
    | some ci =>
      cases h2 : ns[k]? with
      | none => rfl
      | some ei =>
        simp only [Option.bind_eq_bind, Option.bind_some]
        by_cases h : ci + 1 < ei
        · rw [if_pos h, if_pos h]; rfl
        · rw [if_neg h, if_neg h]; exact carryLoop_cons n x ns k _

theorem next_eq_incr_aux : ∀ (e c : List Int), e.length = c.length → c ≠ [] →
    (∀ i (h : i < c.length) (h' : i < e.length), c[i] < e[i]) →
    ∃ x e', c[c.length - 1]? = some x ∧ e[e.length - 1]? = some e' ∧
      (if x + 1 = e' then carryLoop e (c.length - 1) ((c.set (c.length - 1) (x + 1)).set (c.length - 1) 0)
       else some (c.set (c.length - 1) (x + 1), false)) =
      some ((incr e c).2, if x + 1 = e' then !(incr e c).1 else false)
      ∧ (x + 1 ≠ e' → (incr e c).1 = false)
  | [], [], _, hc, _ => absurd rfl hc
  | [n], [x], _, _, hlt => by
    refine ⟨x, n, rfl, rfl, ?_⟩
    have : x < n := hlt 0 (by simp) (by simp)
    simp only [incr]
    by_cases h : x + 1 = n
    · have : ¬ (x + 1 < n) := by omega
      simp [h, carryLoop]
    · have : x + 1 < n := by omega
      simp [h, this]
  | n :: m :: ns, x :: y :: xs, hl, _, hlt => by
    obtain ⟨z, e', h1, h2, h3, h4⟩ := next_eq_incr_aux (m :: ns) (y :: xs) (by simpa using hl) (by simp)
      (fun i h h' => hlt (i + 1) (by simpa using h) (by simpa using h'))
    refine ⟨z, e', ?_, ?_, ?_, ?_⟩
    · simpa using h1
    · simpa using h2
    · simp only [List.length_cons, Nat.add_sub_cancel] at h3 ⊢
      rw [List.set_cons_succ]
      by_cases h : z + 1 = e'
      · simp only [h, if_true] at h3 ⊢
        rw [List.set_cons_succ, carryLoop_cons]
        rw [h3]
        have hi : incr (n :: m :: ns) (x :: y :: xs) =
          if (incr (m :: ns) (y :: xs)).1 then
            if x + 1 < n then (false, (x + 1) :: (incr (m :: ns) (y :: xs)).2)
            else (true, 0 :: (incr (m :: ns) (y :: xs)).2)
          else (false, x :: (incr (m :: ns) (y :: xs)).2) := rfl
        rw [hi]
        generalize incr (m :: ns) (y :: xs) = r
        obtain ⟨o, c⟩ := r
        cases o
        · rfl
        · by_cases hx : x + 1 < n <;> simp [hx]
      · simp only [h, if_false] at h3 ⊢
        have h4 := h4 h
        rw [incr, h4]
        simp only [Option.some.injEq, Prod.mk.injEq, and_true] at h3
        simp [← h3]
    · intro h
      have := h4 h
      rw [incr, this]; rfl

theorem incr_true_zero : ∀ (e c : List Int), e.length = c.length → (incr e c).1 = true →
    ∀ y ∈ (incr e c).2, y = 0
  | [], [], _, _ => by simp [incr]
  | n :: ns, x :: xs, hl, h => by
    simp only [incr] at h ⊢
    split_ifs at h ⊢ with h1 h2
    · intro y hy
      rcases List.mem_cons.mp hy with rfl | hy
      · rfl
      · exact incr_true_zero ns xs (by simpa using hl) h1 y hy

theorem incr_false_nonzero : ∀ (e c : List Int), e.length = c.length → (∀ y ∈ c, 0 ≤ y) →
    (incr e c).1 = false → ∃ y ∈ (incr e c).2, y ≠ 0
  | [], [], _, _, h => by simp [incr] at h
  | n :: ns, x :: xs, hl, hc, h => by
    have hx := hc x (by simp)
    simp only [incr] at h ⊢
    split_ifs at h ⊢ with h1 h2
    · exact ⟨x + 1, by simp, by omega⟩
    · obtain ⟨y, hy, hy'⟩ := incr_false_nonzero ns xs (by simpa using hl) (fun y hy => hc y (by simp [hy]))
        (by simpa using h1)
      exact ⟨y, by simp [hy], hy'⟩

/-- One call of `Next` (not the first) is one odometer increment, reporting nil on overflow. -/
theorem next_eq_incr (e c : List Int) (hl : e.length = c.length) (hc : c ≠ [])
    (hb : InBox e c) :
    Product.next ⟨e, c, false⟩ =
      some (if (incr e c).1 then none else some (incr e c).2, ⟨e, (incr e c).2, false⟩) := by
  have hb' := List.forall₂_iff_get.mp hb
  obtain ⟨x, e', h1, h2, h3, h4⟩ := next_eq_incr_aux e c hl hc
    (fun i h h' => (hb'.2 i h' h).2)
  have hne : ¬ c.length = 0 := by simpa using hc
  have hnn : ∀ y ∈ c, 0 ≤ y := by
    intro y hy
    obtain ⟨i, hi, rfl⟩ := List.getElem_of_mem hy
    exact (hb'.2 i (hl ▸ hi) hi).1
  have hn : Product.next ⟨e, c, false⟩ =
      (if x + 1 = e' then carryLoop e (c.length - 1) ((c.set (c.length - 1) (x + 1)).set (c.length - 1) 0)
       else some (c.set (c.length - 1) (x + 1), false)).bind fun r =>
        if r.2 then some (some r.1, ⟨e, r.1, false⟩)
        else if r.1.any (fun y => y ≠ 0) then some (some r.1, ⟨e, r.1, false⟩)
        else some (none, ⟨e, r.1, false⟩) := by
    simp only [Product.next, Bool.false_eq_true, if_false, h1, h2, hne, Option.bind_eq_bind,
      Option.bind_some]
    by_cases h : x + 1 = e'
    · simp only [h, if_true]; rfl
    · simp only [h, if_false]; rfl
  rw [hn, h3]
  simp only [Option.bind_some]
  cases ho : (incr e c).1 with
  | true =>
    have : x + 1 = e' := by by_contra h; simp [h4 h] at ho
    have hz := incr_true_zero e c hl ho
    simp only [this, if_true, Bool.not_true, Bool.false_eq_true, if_false]
    rw [if_neg]
    simp only [List.any_eq_true, not_exists, not_and]
    intro y hy; simp [hz y hy]
  | false =>
    obtain ⟨y, hy, hy'⟩ := incr_false_nonzero e c hl hnn ho
    have hany : (incr e c).2.any (fun y => y ≠ 0) = true := by
      rw [List.any_eq_true]; exact ⟨y, hy, by simpa using hy'⟩
    by_cases h : x + 1 = e'
    · simp [h]
    · simp only [h, if_false, Bool.false_eq_true, hany, if_true]

/-! ### The odometer enumerates `allTuples` -/

theorem allTuples_mem : ∀ (ns : List Nat) (t : List Int),
    t ∈ allTuples ns ↔ InBox (ns.map Int.ofNat) t
  | [], t => by simp [allTuples, InBox]
  | n :: ns, t => by
    simp only [allTuples, List.mem_flatMap, List.mem_map, List.map_cons, InBox]
    constructor
    · rintro ⟨i, hi, s, hs, rfl⟩
      exact .cons ⟨by omega, by simpa using List.mem_range.mp hi⟩ ((allTuples_mem ns s).mp hs)
    · intro h
      cases h with
      | cons h1 h2 =>
        rename_i x s
        refine ⟨x.toNat, ?_, s, (allTuples_mem ns s).mpr h2, ?_⟩
        · have h1' : x < (n : Int) := h1.2
          have := h1.1
          rw [List.mem_range]; omega
        · simp [h1.1]

theorem allTuples_length : ∀ ns : List Nat, (allTuples ns).length = ns.prod
  | [] => rfl
  | n :: ns => by simp [allTuples, List.length_flatMap, allTuples_length ns]

theorem allTuples_sorted : ∀ ns : List Nat, (allTuples ns).Pairwise (List.Lex (· < ·))
  | [] => by simp [allTuples]
  | n :: ns => by
    rw [allTuples, List.pairwise_flatMap]
    constructor
    · intro i _
      rw [List.pairwise_map]
      exact (allTuples_sorted ns).imp fun h => List.Lex.cons h
    · refine List.Pairwise.imp ?_ List.pairwise_lt_range
      intro a b hab x hx y hy
      simp only [List.mem_map] at hx hy
      obtain ⟨_, _, rfl⟩ := hx
      obtain ⟨_, _, rfl⟩ := hy
      exact List.Lex.rel (by exact_mod_cast hab)

/-- `l` lists successive odometer states starting at zero and ending with an overflow. -/
def Enum (e : List Int) (l : List (List Int)) : Prop :=
  l.IsChain (fun a b => incr e a = (false, b)) ∧
  l.head? = some (List.replicate e.length 0) ∧
  (∀ t, l.getLast? = some t → incr e t = (true, List.replicate e.length 0))

theorem enum_block (n : Int) (e : List Int) (l : List (List Int)) (h : Enum e l) :
    ∀ (k : Nat) (i : Int), i + (k + 1 : Int) = n →
    (((List.range (k + 1)).flatMap fun (j : Nat) => l.map fun t => (i + (j : Int)) :: t)).IsChain
        (fun a b => incr (n :: e) a = (false, b)) ∧
    (((List.range (k + 1)).flatMap fun (j : Nat) => l.map fun t => (i + (j : Int)) :: t)).head? =
        some (i :: List.replicate e.length 0) ∧
    (∀ t, (((List.range (k + 1)).flatMap fun (j : Nat) => l.map fun t => (i + (j : Int)) :: t)).getLast? = some t →
        incr (n :: e) t = (true, List.replicate (e.length + 1) 0)) := by
  obtain ⟨hc, hh, hl⟩ := h
  have hne : l ≠ [] := by intro h; simp [h] at hh
  have hchain : ∀ i : Int, (l.map fun t => i :: t).IsChain (fun a b => incr (n :: e) a = (false, b)) := by
    intro i
    rw [List.isChain_map]
    exact hc.imp fun a b hab => by simp [incr, hab]
  have hlast : ∃ t, l.getLast? = some t := ⟨_, List.getLast?_eq_getLast_of_ne_nil hne⟩
  obtain ⟨t, ht⟩ := hlast
  have ho := hl t ht
  intro k
  induction k with
  | zero =>
    intro i hi
    simp only [Nat.cast_zero, zero_add, List.range_one, List.flatMap_cons, List.flatMap_nil,
      List.append_nil, add_zero] at hi ⊢
    refine ⟨hchain i, by simp [hh], ?_⟩
    intro s hs
    rw [List.getLast?_map, ht] at hs
    simp only [Option.map_some, Option.some.injEq] at hs
    subst hs
    have : ¬ (i + 1 < n) := by omega
    simp [incr, ho, this, List.replicate_succ]
  | succ k ih =>
    intro i hi
    have hi' : (i + 1) + ((k : Int) + 1) = n := by push_cast at hi; omega
    obtain ⟨c1, c2, c3⟩ := ih (i + 1) hi'
    have hr : (List.range (k + 1 + 1)).flatMap (fun (j : Nat) => l.map fun t => (i + (j : Int)) :: t) =
        (l.map fun t => i :: t) ++
        (List.range (k + 1)).flatMap fun (j : Nat) => l.map fun t => (i + 1 + (j : Int)) :: t := by
      rw [List.range_succ_eq_map, List.flatMap_cons, List.flatMap_map]
      congr 1
      · simp
      · apply List.flatMap_congr; intro j _; simp [add_comm, add_left_comm]
    rw [hr]
    refine ⟨?_, ?_, ?_⟩
    · rw [List.isChain_append]
      refine ⟨hchain i, c1, ?_⟩
      intro a ha b hb
      rw [List.getLast?_map, ht] at ha
      rw [c2] at hb
      simp only [Option.map_some, Option.mem_def, Option.some.injEq] at ha hb
      subst ha; subst hb
      have : i + 1 < n := by push_cast at hi; omega
      simp [incr, ho, this]
    · rw [List.head?_append]; simp [hh]
    · intro s hs
      rw [List.getLast?_append] at hs
      have hne2 : (List.range (k + 1)).flatMap (fun (j : Nat) => l.map fun t => (i + 1 + (j : Int)) :: t) ≠ [] := by
        intro h; rw [h] at c2; simp at c2
      rw [List.getLast?_eq_getLast_of_ne_nil hne2] at hs c3
      simp only [Option.some_or] at hs
      exact c3 s hs

theorem enum_allTuples : ∀ ns : List Nat, (∀ n ∈ ns, 0 < n) → Enum (ns.map Int.ofNat) (allTuples ns)
  | [], _ => by
    refine ⟨by simp [allTuples], by simp [allTuples], ?_⟩
    intro t ht; simp [allTuples] at ht; subst ht; simp [incr]
  | n :: ns, h => by
    have ih := enum_allTuples ns (fun m hm => h m (by simp [hm]))
    obtain ⟨k, rfl⟩ : ∃ k, n = k + 1 := ⟨n - 1, by have := h n (by simp); omega⟩
    obtain ⟨c1, c2, c3⟩ := enum_block (Int.ofNat (k + 1)) _ _ ih k 0 (by simp)
    simp only [zero_add] at c1 c2 c3
    exact ⟨c1, by simpa [List.replicate_succ, allTuples] using c2,
      by simpa [allTuples] using c3⟩

/-- From the state holding the first element of a chain of odometer states, the following calls
return the rest of the chain and then nil. -/
theorem calls_chain (e : List Int) (he : e ≠ []) : ∀ (l : List (List Int)) (t : List Int),
    (t :: l).IsChain (fun a b => incr e a = (false, b)) →
    (∀ s ∈ t :: l, InBox e s) →
    (∀ s, (t :: l).getLast? = some s → incr e s = (true, List.replicate e.length 0)) →
    Product.calls (l.length + 1) ⟨e, t, false⟩ =
      some (l.map some ++ [none], ⟨e, List.replicate e.length 0, false⟩)
  | [], t, _, hb, hl => by
    have hbt := hb t (by simp)
    have hlen := hbt.length_eq
    have hne : t ≠ [] := by rintro rfl; simp at hlen; exact he hlen
    simp [Product.calls, next_eq_incr e t hlen hne hbt, hl t (by simp)]
  | s :: l, t, hc, hb, hl => by
    have hbt := hb t (by simp)
    have hlen := hbt.length_eq
    have hne : t ≠ [] := by rintro rfl; simp at hlen; exact he hlen
    rw [List.isChain_cons_cons] at hc
    have ih := calls_chain e he l s hc.2 (fun x hx => hb x (by simp [List.mem_cons.mp hx]))
      (fun x hx => hl x (by rw [List.getLast?_cons_cons]; exact hx))
    rw [List.length_cons, Product.calls, next_eq_incr e t hlen hne hbt, hc.1]
    simp only [Bool.false_eq_true, if_false, Option.bind_eq_bind, Option.bind_some, ih]
    rfl

theorem calls_new (ns : List Nat) (hne : ns ≠ []) (hpos : ∀ n ∈ ns, 0 < n) :
    Product.calls (ns.prod + 1) (newProduct (ns.map Int.ofNat)) =
      some ((allTuples ns).map some ++ [none],
        ⟨ns.map Int.ofNat, List.replicate ns.length 0, false⟩) := by
  obtain ⟨h1, h2, h3⟩ := enum_allTuples ns hpos
  have hmem := allTuples_mem ns
  have hlen := allTuples_length ns
  cases hall : allTuples ns with
  | nil => rw [hall] at h2; simp at h2
  | cons t l =>
    rw [hall] at h1 h2 h3 hmem hlen
    have ht : t = List.replicate ns.length 0 := by simpa using h2
    rw [← hlen, List.length_cons, Product.calls]
    have hn : (newProduct (ns.map Int.ofNat)).next =
        some (some t, ⟨ns.map Int.ofNat, t, false⟩) := by
      simp [newProduct, Product.next, ht]
    rw [hn]
    simp only [Option.bind_eq_bind, Option.bind_some]
    rw [calls_chain _ (by simpa using hne) l t h1 (fun s hs => (hmem s).mp hs) h3]
    simp

theorem forLoop_of_calls : ∀ (ts : List (List Int)) (p : Product) (q : Product),
    Product.calls (ts.length + 1) p = some (ts.map some ++ [none], q) →
    ∀ fuel, ts.length + 1 ≤ fuel → Product.forLoop fuel p = some ts
  | [], p, q, h, fuel, hf => by
    obtain ⟨f, rfl⟩ : ∃ f, fuel = f + 1 := ⟨fuel - 1, by simp at hf; omega⟩
    rw [Product.calls] at h
    cases hn : p.next with
    | none => simp [hn] at h
    | some r =>
      obtain ⟨r, p'⟩ := r
      simp [hn, Product.calls] at h
      simp [Product.forLoop, hn, h.1]
  | t :: ts, p, q, h, fuel, hf => by
    obtain ⟨f, rfl⟩ : ∃ f, fuel = f + 1 := ⟨fuel - 1, by simp at hf; omega⟩
    rw [Product.calls] at h
    cases hn : p.next with
    | none => simp [hn] at h
    | some r =>
      obtain ⟨r, p'⟩ := r
      simp only [hn, Option.bind_eq_bind, Option.bind_some] at h
      rw [List.length_cons] at h
      cases hc : Product.calls (ts.length + 1) p' with
      | none => simp [hc] at h
      | some rs =>
        obtain ⟨rs, p''⟩ := rs
        simp [hc] at h
        obtain ⟨⟨rfl, rfl⟩, rfl⟩ := h
        have := forLoop_of_calls ts p' p'' (by simpa using hc) f (by simp at hf; omega)
        simp [Product.forLoop, hn, this]

theorem forLoop_new (ns : List Nat) (hne : ns ≠ []) (hpos : ∀ n ∈ ns, 0 < n) (fuel : Nat)
    (hf : ns.prod + 1 ≤ fuel) :
    Product.forLoop fuel (newProduct (ns.map Int.ofNat)) = some (allTuples ns) :=
  forLoop_of_calls _ _ _ (by rw [allTuples_length]; exact calls_new ns hne hpos) _
    (by rw [allTuples_length]; exact hf)

theorem pos_eq_ofNat (ends : List Int) (hpos : ∀ e ∈ ends, 0 < e) :
    ends = (ends.map Int.toNat).map Int.ofNat ∧ ∀ n ∈ ends.map Int.toNat, 0 < n := by
  constructor
  · rw [List.map_map]
    conv_lhs => rw [← List.map_id ends]
    apply List.map_congr_left
    intro x hx
    have := hpos x hx
    simp; omega
  · intro n hn
    obtain ⟨x, hx, rfl⟩ := List.mem_map.mp hn
    have := hpos x hx; omega

theorem prod_ofNat (l : List Nat) : (l.map Int.ofNat).prod = (l.prod : Int) := by
  induction l with
  | nil => rfl
  | cons a l ih => simp only [List.map_cons, List.prod_cons, ih]; simp

theorem allTuples_nodup (ns : List Nat) : (allTuples ns).Nodup := by
  refine (allTuples_sorted ns).imp ?_
  rintro a b h rfl
  exact (inferInstance : Std.Irrefl (List.Lex (α := Int) (· < ·))).irrefl _ h

/-- The callers' loop over a box with positive sides, in terms of integer bounds. -/
theorem forLoop_box (ends : List Int) (hne : ends ≠ []) (hpos : ∀ e ∈ ends, 0 < e) :
    ∃ ts, Product.forLoop ((prodInt ends).toNat + 1) (newProduct ends) = some ts ∧
      (ts.length : Int) = ends.prod ∧ ts.Nodup ∧ ∀ t, t ∈ ts ↔ InBox ends t := by
  obtain ⟨he, hn⟩ := pos_eq_ofNat ends hpos
  have hprod : ends.prod = ((ends.map Int.toNat).prod : Nat) := by
    conv_lhs => rw [he]
    exact prod_ofNat _
  refine ⟨allTuples (ends.map Int.toNat), ?_, ?_, allTuples_nodup _, ?_⟩
  · conv_lhs => rw [he]
    apply forLoop_new _ (by simpa using hne) hn
    rw [prodInt_eq, ← he, hprod]; simp
  · rw [allTuples_length, hprod]
  · intro t
    rw [allTuples_mem, ← he]

end Gopf.Pfutil
