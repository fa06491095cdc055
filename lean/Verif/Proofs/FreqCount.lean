import Verif.Proofs.Freq
import Mathlib.Data.Finset.Card
import Mathlib.Data.Finset.Prod
import Mathlib.Algebra.Ring.Parity

namespace Gopf.Pfutil
open Spec

/-- Counting pairs quotient/remainder. -/
theorem card_divmod (a b : Nat) (hb : 0 < b) (P Q : Nat → Prop) [DecidablePred P] [DecidablePred Q] :
    ((Finset.range (a * b)).filter fun i => P (i / b) ∧ Q (i % b)).card =
      ((Finset.range a).filter P).card * ((Finset.range b).filter Q).card := by
  rw [← Finset.card_product]
  refine Finset.card_nbij' (fun i => (i / b, i % b)) (fun p => p.1 * b + p.2) ?_ ?_ ?_ ?_
  · intro i hi
    simp only [Finset.coe_filter, Finset.mem_range, Set.mem_ofPred_eq, Finset.coe_product,
      Set.mem_prod] at hi ⊢
    exact ⟨⟨Nat.div_lt_of_lt_mul (by rw [mul_comm]; exact hi.1), hi.2.1⟩, Nat.mod_lt _ hb, hi.2.2⟩
  · rintro ⟨x, y⟩ hp
    simp only [Finset.coe_filter, Finset.mem_range, Set.mem_ofPred_eq, Finset.coe_product,
      Set.mem_prod] at hp ⊢
    obtain ⟨⟨h1, h2⟩, h3, h4⟩ := hp
    have e1 : (x * b + y) / b = x := by
      rw [add_comm, Nat.add_mul_div_right _ _ hb, Nat.div_eq_of_lt h3, zero_add]
    have e2 : (x * b + y) % b = y := by rw [add_comm, Nat.add_mul_mod_self_right, Nat.mod_eq_of_lt h3]
    rw [e1, e2]
    refine ⟨?_, h2, h4⟩
    calc x * b + y < x * b + b := by omega
      _ = (x + 1) * b := by ring
      _ ≤ a * b := Nat.mul_le_mul_right _ h1
  · intro i _
    simp only []
    rw [mul_comm]; exact Nat.div_add_mod i b
  · rintro ⟨x, y⟩ hp
    simp only [Finset.coe_product, Finset.coe_filter, Finset.mem_range, Set.mem_prod, Set.mem_ofPred_eq] at hp
    obtain ⟨⟨h1, h2⟩, h3, h4⟩ := hp
    simp only [Prod.mk.injEq]
    exact ⟨by rw [add_comm, Nat.add_mul_div_right _ _ hb, Nat.div_eq_of_lt h3, zero_add],
      by rw [add_comm, Nat.add_mul_mod_self_right, Nat.mod_eq_of_lt h3]⟩

/-- Self-conjugate coordinate. -/
def Self (d x : Nat) : Prop := x = 0 ∨ 2 * x = d

instance (d : Nat) : DecidablePred (Self d) := fun x => by unfold Self; infer_instance

theorem card_self (d : Nat) (hd : 0 < d) :
    ((Finset.range d).filter (Self d)).card = if Even d then 2 else 1 := by
  split_ifs with h
  · obtain ⟨k, rfl⟩ := h
    have : (Finset.range (k + k)).filter (Self (k + k)) = {0, k} := by
      ext x; simp only [Finset.mem_filter, Finset.mem_range, Self, Finset.mem_insert,
        Finset.mem_singleton]; omega
    rw [this, Finset.card_pair (by omega)]
  · have : (Finset.range d).filter (Self d) = {0} := by
      ext x; simp only [Finset.mem_filter, Finset.mem_range, Self, Finset.mem_singleton]
      constructor
      · rintro ⟨h1, h2 | h2⟩
        · exact h2
        · exact absurd ⟨x, by omega⟩ h
      · rintro rfl; exact ⟨hd, Or.inl rfl⟩
    rw [this, Finset.card_singleton]

theorem self_iff {d x : Nat} (hx : x < d) : ((d : Int) - x) % d = x ↔ Self d x := by
  unfold Self
  rcases conj1 (x := x) (d := d) (by omega) (by omega) with ⟨a, b⟩ | ⟨a, b⟩
  · rw [b]; omega
  · rw [b]; omega

theorem conj_self_iff {dims : List Int} (h : GoodDims dims) {i : Int} (hi : 0 ≤ i)
    (hi' : i < numNodes dims) {p : List Int} (hp : pos dims i = some p) :
    conjugateNode dims i = some i ↔ conjPos dims p = p := by
  obtain ⟨p', hp', hb, hn⟩ := pos_spec h hi hi'
  obtain rfl : p = p' := by rw [hp] at hp'; simpa using hp'
  rw [conjugateNode_eq h hi hi' hp]
  constructor
  · intro e
    obtain ⟨j, hj, j0, j1, hpj⟩ := nodeIdx_spec h (conjPos_inBox hb)
    rw [hj, Option.some.injEq] at e
    subst e
    rw [hp] at hpj; simpa using hpj.symm
  · intro e; rw [e, hn]

theorem count_self {dims : List Int} (h : GoodDims dims) :
    ((List.range (numNodes dims).toNat).filter fun (i : Nat) =>
      decide (conjugateNode dims (i : Int) = some (i : Int))).length =
      2 ^ (dims.filter fun d => decide (Even d)).length := by
  have hfil : ∀ (n : Nat) (P : Nat → Prop) [DecidablePred P],
      ((List.range n).filter fun i => decide (P i)).length = ((Finset.range n).filter P).card := by
    intro n P _
    simp [Finset.card, Finset.filter, Finset.range, Multiset.range]
  rw [hfil]
  have ev : ∀ n : Nat, Even (n : Int) ↔ Even n := fun n => Int.even_coe_nat n
  rcases goodDims_cases h with ⟨d0, d1, rfl, p0, p1⟩ | ⟨d0, d1, d2, rfl, p0, p1, p2⟩
  · lift d0 to ℕ using p0.le
    lift d1 to ℕ using p1.le
    have hN : numNodes [(d0:Int), d1] = ((d0 * d1 : ℕ) : Int) := by simp [numNodes]
    have q0 : 0 < d0 := by exact_mod_cast p0
    have q1 : 0 < d1 := by exact_mod_cast p1
    have key : (Finset.range (numNodes [(d0:Int), d1]).toNat).filter
        (fun i : Nat => conjugateNode [(d0:Int), d1] i = some (i:Int)) =
        (Finset.range (d0 * d1)).filter fun i => Self d0 (i / d1) ∧ Self d1 (i % d1) := by
      rw [hN, Int.toNat_natCast]
      refine Finset.filter_congr fun i hi => ?_
      rw [Finset.mem_range] at hi
      rw [conj_self_iff h (by omega) (by rw [hN]; exact_mod_cast hi)
        (by simp only [pos]; exact pos2_eq p1 (by omega))]
      rw [← self_iff (Nat.div_lt_of_lt_mul (by rwa [mul_comm])), ← self_iff (Nat.mod_lt i q1)]
      simp [conjPos]
    rw [key, card_divmod _ _ q1, card_self _ q0, card_self _ q1]
    simp only [List.filter_cons, ev]
    by_cases e0 : Even d0 <;> by_cases e1 : Even d1 <;> simp [e0, e1]
  · lift d0 to ℕ using p0.le
    lift d1 to ℕ using p1.le
    lift d2 to ℕ using p2.le
    have hN : numNodes [(d0:Int), d1, d2] = ((d2 * d0 * d1 : ℕ) : Int) := by simp [numNodes]; ring
    have q0 : 0 < d0 := by exact_mod_cast p0
    have q1 : 0 < d1 := by exact_mod_cast p1
    have q2 : 0 < d2 := by exact_mod_cast p2
    have key : (Finset.range (numNodes [(d0:Int), d1, d2]).toNat).filter
        (fun i : Nat => conjugateNode [(d0:Int), d1, d2] i = some (i:Int)) =
        (Finset.range (d2 * d0 * d1)).filter fun i =>
          (Self d2 ((i / d1) / d0) ∧ Self d0 (i / d1 % d0)) ∧ Self d1 (i % d1) := by
      rw [hN, Int.toNat_natCast]
      refine Finset.filter_congr fun i hi => ?_
      rw [Finset.mem_range] at hi
      rw [conj_self_iff h (by omega) (by rw [hN]; exact_mod_cast hi)
        (by simp only [pos]; exact pos3_eq p0 p1 (by omega))]
      have l1 : i / d1 < d2 * d0 := Nat.div_lt_of_lt_mul (by rwa [mul_comm])
      rw [← self_iff (Nat.div_lt_of_lt_mul (by rwa [mul_comm])), ← self_iff (Nat.mod_lt i q1),
        ← self_iff (Nat.mod_lt _ q0), Nat.div_div_eq_div_mul]
      simp only [conjPos, List.zipWith_cons_cons, List.zipWith_nil_right, List.cons.injEq, and_true]
      push_cast
      rw [mul_comm (d1 : Int) d0]
      tauto
    rw [key, card_divmod (d2 * d0) d1 q1 (fun x => Self d2 (x / d0) ∧ Self d0 (x % d0)) (Self d1),
      card_divmod _ _ q0, card_self _ q0, card_self _ q1, card_self _ q2]
    simp only [List.filter_cons, ev]
    by_cases e0 : Even d0 <;> by_cases e1 : Even d1 <;> by_cases e2 : Even d2 <;> simp [e0, e1, e2]

end Gopf.Pfutil
