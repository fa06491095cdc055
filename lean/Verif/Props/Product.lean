import Verif.Proofs.Product

/-!
# C03: the product iterator
-/

namespace Gopf.Props
open Spec Pfutil

/-- C03: the calls of `Next` on a fresh iterator return a list of tuples followed by nil; the
tuples are strictly increasing in the lexicographic order (so no tuple is repeated) and are exactly
the tuples inside the box. -/
theorem c03_product (ends : List Int) (hne : ends ≠ []) (hpos : ∀ e ∈ ends, 0 < e) :
    ∃ (ts : List (List Int)) (q : Product),
      Product.calls (ts.length + 1) (newProduct ends) = some (ts.map some ++ [none], q) ∧
      ts.Pairwise (List.Lex (· < ·)) ∧
      ∀ t, t ∈ ts ↔ InBox ends t := by
  obtain ⟨he, hn⟩ := pos_eq_ofNat ends hpos
  refine ⟨allTuples (ends.map Int.toNat), ⟨(ends.map Int.toNat).map Int.ofNat,
    List.replicate (ends.map Int.toNat).length 0, false⟩, ?_,
    allTuples_sorted _, ?_⟩
  · have h := calls_new _ (by simpa using hne) hn
    rw [← he] at h ⊢
    rw [allTuples_length]
    exact h
  · intro t
    rw [allTuples_mem, ← he]

example : ([3, 1, 2] : List Int) ≠ [] ∧ (∀ e ∈ ([3, 1, 2] : List Int), 0 < e) := by decide

/-- C03: the number of tuples is the product of the bounds, i.e. a caller's loop body runs that
many times and the loop terminates. -/
theorem c03_loop_terminates (ends : List Int) (hne : ends ≠ []) (hpos : ∀ e ∈ ends, 0 < e) :
    ∃ ts, Product.forLoop ((prodInt ends).toNat + 1) (newProduct ends) = some ts ∧
      (ts.length : Int) = ends.prod ∧ ts.Nodup ∧ ∀ t, t ∈ ts ↔ InBox ends t :=
  forLoop_box ends hne hpos

/-- C03: after the final nil the iterator does not stay exhausted: the following calls return the
same tuples in the same order, but without the first one (the zero tuple), then nil, and so on for
ever. -/
theorem c03_again (ends : List Int) (hne : ends ≠ []) (hpos : ∀ e ∈ ends, 0 < e) :
    ∃ (ts : List (List Int)) (q : Product),
      Product.calls (ts.length + 2) (newProduct ends) =
        some (some (List.replicate ends.length 0) :: ts.map some ++ [none], q) ∧
      Product.calls (ts.length + 1) q = some (ts.map some ++ [none], q) := by
  obtain ⟨he, hn⟩ := pos_eq_ofNat ends hpos
  have hne' : ends.map Int.toNat ≠ [] := by simpa using hne
  have hnew := calls_new _ hne' hn
  obtain ⟨h1, h2, h3⟩ := enum_allTuples _ hn
  have hmem := allTuples_mem (ends.map Int.toNat)
  have hlen := allTuples_length (ends.map Int.toNat)
  rw [← he] at hnew h1 h2 h3 hmem
  cases hall : allTuples (ends.map Int.toNat) with
  | nil => rw [hall] at h2; simp at h2
  | cons t l =>
    rw [hall] at h1 h2 h3 hmem hlen hnew
    have ht : t = List.replicate ends.length 0 := by simpa using h2
    rw [← hlen, List.length_map] at hnew
    have hc := calls_chain ends hne l t h1 (fun s hs => (hmem s).mp hs) h3
    refine ⟨l, ⟨ends, List.replicate ends.length 0, false⟩, ?_, ?_⟩
    · rw [← ht]
      rw [← ht] at hnew
      exact hnew
    · rw [ht] at hc
      exact hc

/-- C03: for instance with bound 2 in one dimension the third call is nil and the fourth is not. -/
theorem c03_not_sticky :
    (Product.calls 4 (newProduct [2])).map Prod.fst = some [some [0], some [1], none, some [1]] := by
  decide

end Gopf.Props
