import Verif.Proofs.Index

/-!
# C01, C02, C04: node numbering, periodic wrap, grid access
-/

namespace Gopf.Props
open Spec Pfutil

/-- C01: node number → position → node number. Every node number of the domain has an in-range
position, and converting that position back gives the node number. -/
theorem c01_pos_then_nodeIdx (dims : List Int) (h : GoodDims dims) (n : Int)
    (h0 : 0 ≤ n) (hn : n < numNodes dims) :
    ∃ p, pos dims n = some p ∧ InBox dims p ∧ nodeIdx dims p = some n :=
  pos_spec h h0 hn

/-- C01: position → node number → position. Every in-range position has a node number below the
number of nodes, and converting it back gives the position. -/
theorem c01_nodeIdx_then_pos (dims : List Int) (h : GoodDims dims) (p : List Int)
    (hp : InBox dims p) :
    ∃ n, nodeIdx dims p = some n ∧ 0 ≤ n ∧ n < numNodes dims ∧ pos dims n = some p :=
  nodeIdx_spec h hp

/-- C01: any number of dimensions other than 2 or 3 panics. -/
theorem c01_panics (dims : List Int) (h : dims.length ≠ 2 ∧ dims.length ≠ 3) (n : Int)
    (p : List Int) : pos dims n = none ∧ nodeIdx dims p = none := by
  match dims, h with
  | [], _ => simp [pos, nodeIdx]
  | [_], _ => simp [pos, nodeIdx]
  | [_, _], h => simp at h
  | [_, _, _], h => simp at h
  | _ :: _ :: _ :: _ :: _, _ => simp [pos, nodeIdx]

example : GoodDims [4, 7, 3] ∧ (0:Int) ≤ 58 ∧ 58 < numNodes [4, 7, 3] ∧
    pos [4, 7, 3] 58 = some [0, 2, 2] ∧ InBox [4, 7, 3] [0, 2, 2] := by
  refine ⟨⟨by simp, by simp⟩, by decide, by decide, by decide, ?_⟩
  repeat first | exact .nil | refine .cons (by decide) ?_

/-- C02: every coordinate of the wrapped position is the unique value in `[0, d)` that differs
from the original by a multiple of the side length `d`. -/
theorem c02_wrap (dims p : List Int) (hl : p.length = dims.length) (hd : ∀ d ∈ dims, 0 < d) :
    ∃ r, wrap p dims = some r ∧ InBox dims r ∧
      ∀ q : List Int, (InBox dims q ∧ q.length = p.length ∧
        ∀ i (hi : i < q.length) (hi' : i < p.length) (hd' : i < dims.length),
          ∃ k, q[i] = p[i] + k * dims[i]) ↔ q = r := by
  refine ⟨_, wrap_eq_emod hl hd, ?_, ?_⟩
  · induction p generalizing dims with
    | nil => cases dims <;> simp_all [InBox]
    | cons a p ih => cases dims with
      | nil => simp at hl
      | cons d ds =>
        refine .cons ⟨Int.emod_nonneg _ (hd d (by simp)).ne', Int.emod_lt_of_pos _ (hd d (by simp))⟩
          (ih ds (by simpa using hl) (fun x hx => hd x (by simp [hx])))
  · intro q
    constructor
    · rintro ⟨hb, hql, hq⟩
      apply List.ext_getElem
      · simp [hql, hl]
      · intro i h1 h2
        obtain ⟨k, hk⟩ := hq i h1 (hql ▸ h1) (by rw [← hl, ← hql]; exact h1)
        have hb' := (List.forall₂_iff_get.mp hb).2 i (by rw [← hl, ← hql]; exact h1) h1
        simp only [List.get_eq_getElem] at hb'
        rw [List.getElem_zipWith, ← Int.emod_eq_of_lt hb'.1 hb'.2, hk, Int.add_mul_emod_self_right]
    · rintro rfl
      refine ⟨?_, by simp [hl], ?_⟩
      · rw [InBox, List.forall₂_iff_get]
        refine ⟨by simp [hl], fun i h1 h2 => ?_⟩
        simp only [List.get_eq_getElem, List.getElem_zipWith]
        have := hd _ (List.getElem_mem h1)
        exact ⟨Int.emod_nonneg _ this.ne', Int.emod_lt_of_pos _ this⟩
      · intro i h1 h2 h3
        refine ⟨-(p[i] / dims[i]), ?_⟩
        rw [List.getElem_zipWith]
        have := Int.mul_ediv_add_emod p[i] dims[i]
        linarith [mul_comm dims[i] (p[i] / dims[i]), neg_mul (p[i] / dims[i]) dims[i]]

/-- C02: positions inside the domain are not moved. -/
theorem c02_wrap_inside (dims p : List Int) (h : InBox dims p) : wrap p dims = some p := by
  induction h with
  | nil => rfl
  | cons h1 _ ih =>
    simp only [wrap, wrap1_eq_emod (lt_of_le_of_lt h1.1 h1.2), ih]
    simp [Int.emod_eq_of_lt h1.1 h1.2]

example : wrap [-17, 23, -5] [5, 7, 5] = some [3, 2, 0] := by decide

/-- C04: after a write at an in-range position, reading it gives the value written and every other
in-range position reads as before. -/
theorem c04_get_set {α : Type} (g : Grid α) (h : GoodDims g.dims)
    (hlen : (g.data.length : Int) = numNodes g.dims) (p : List Int) (hp : InBox g.dims p) (v : α) :
    ∃ g', g.set p v = some g' ∧ g'.dims = g.dims ∧ g'.data.length = g.data.length ∧
      ∀ q, InBox g.dims q → g'.get q = if q = p then some v else g.get q := by
  obtain ⟨n, hn, n0, n1, hpn⟩ := nodeIdx_spec h hp
  have hr : 0 ≤ n ∧ n < g.data.length := ⟨n0, by omega⟩
  refine ⟨⟨g.dims, g.data.set n.toNat v⟩, ?_, rfl, by simp, ?_⟩
  · simp [Grid.set, Grid.index, hn, goSet, hr]
  · intro q hq
    obtain ⟨m, hm, m0, m1, hqm⟩ := nodeIdx_spec h hq
    simp only [Grid.get, Grid.index, hm, goGet, Option.bind_eq_bind, Option.bind_some, m0, if_true]
    by_cases hqp : q = p
    · subst hqp
      have : m = n := by rw [hn] at hm; simpa using hm.symm
      subst this
      have : m.toNat < g.data.length := by omega
      simp [List.getElem?_set_self this]
    · have : n.toNat ≠ m.toNat := by
        intro he
        have : n = m := by omega
        subst this
        rw [hpn] at hqm
        exact hqp (by simpa using hqm.symm)
      rw [if_neg hqp, List.getElem?_set_ne this]

example : ∃ g : Grid Int, newGrid [2, 3] = some g ∧ GoodDims g.dims ∧
    (g.data.length : Int) = numNodes g.dims ∧ InBox g.dims [1, 2] := by
  refine ⟨⟨[2, 3], List.replicate 6 0⟩, rfl, ⟨by simp, by simp⟩, by decide, ?_⟩
  repeat first | exact .nil | refine .cons (by decide) ?_

/-- Applying a history of writes, stopping at the first panic. -/
def writes {α : Type} (g : Grid α) : List (List Int × α) → Option (Grid α)
  | [] => some g
  | (p, v) :: ws => (g.set p v).bind fun g' => writes g' ws

/-- C04: after any history of in-range writes, an in-range position reads as the last value written
to it, or as its initial value if it was never written. -/
theorem c04_history {α : Type} (ws : List (List Int × α)) (g : Grid α) (h : GoodDims g.dims)
    (hlen : (g.data.length : Int) = numNodes g.dims) (hw : ∀ w ∈ ws, InBox g.dims w.1) :
    ∃ g', writes g ws = some g' ∧ ∀ q, InBox g.dims q →
      g'.get q = match ws.reverse.find? (fun w => w.1 == q) with
        | some w => some w.2
        | none => g.get q := by
  induction ws generalizing g with
  | nil => exact ⟨g, rfl, fun q _ => rfl⟩
  | cons w ws ih =>
    obtain ⟨p, v⟩ := w
    obtain ⟨g1, h1, hd, hl, hget⟩ := c04_get_set g h hlen p (hw (p, v) (by simp)) v
    obtain ⟨g2, h2, hget2⟩ := ih g1 (hd ▸ h) (by rw [hl, hd]; exact hlen)
      (fun w hw' => hd ▸ hw w (by simp [hw']))
    refine ⟨g2, by simp [writes, h1, h2], fun q hq => ?_⟩
    rw [hget2 q (hd ▸ hq), hget q hq, List.reverse_cons, List.find?_append]
    cases hf : ws.reverse.find? (fun w => w.1 == q) with
    | some w => simp
    | none =>
      by_cases hqp : q = p
      · subst hqp; simp
      · simp [hqp, Ne.symm hqp]

/-- C04: a freshly created grid has one zero entry per node and is therefore a valid grid. -/
theorem c04_newGrid {α : Type} [Zero α] (dims : List Int) (h : GoodDims dims) :
    ∃ g : Grid α, newGrid dims = some g ∧ g.dims = dims ∧
      (g.data.length : Int) = numNodes dims ∧ ∀ p, InBox dims p → g.get p = some 0 := by
  have hpos : 0 ≤ prodInt dims := by rw [prodInt_eq]; exact (numNodes_nonneg h).le
  refine ⟨⟨dims, List.replicate (prodInt dims).toNat 0⟩, by simp [newGrid, hpos], rfl, ?_, ?_⟩
  · have := prodInt_eq dims
    simp only [List.length_replicate, numNodes]
    omega
  · intro p hp
    obtain ⟨n, hn, n0, n1, -⟩ := nodeIdx_spec h hp
    have : n.toNat < (prodInt dims).toNat := by
      rw [prodInt_eq]; unfold numNodes at n1; omega
    simp [Grid.get, Grid.index, hn, goGet, n0, this]

end Gopf.Props
