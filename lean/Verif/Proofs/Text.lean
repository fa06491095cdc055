import Verif.Model.Text
import Verif.Spec.Terms
import Mathlib.Data.List.Perm.Basic

namespace Gopf.Pf
open Spec

theorem goSplit_append {c : Char} : ∀ {a : Str} (_ : c ∉ a) (b : Str), ∃ h t, goSplit c b = h :: t ∧
    goSplit c (a ++ b) = (a ++ h) :: t
  | [], _, b => by
    cases hb : goSplit c b with
    | nil => exact absurd hb (goSplit_ne_nil c b)
    | cons h t => exact ⟨h, t, rfl, by simpa using hb⟩
  | x :: a, ha, b => by
    obtain ⟨h, t, h1, h2⟩ := goSplit_append (a := a) (c := c) (fun h => ha (by simp [h])) b
    refine ⟨h, t, h1, ?_⟩
    have hx : x ≠ c := fun e => ha (by simp [e])
    simp only [List.cons_append, goSplit, if_neg hx, h2]

theorem goSplit_none {c : Char} {a : Str} (ha : c ∉ a) : goSplit c a = [a] := by
  obtain ⟨h, t, h1, h2⟩ := goSplit_append ha []
  simp only [goSplit, List.cons.injEq] at h1
  obtain ⟨rfl, rfl⟩ := h1
  simpa using h2

/-- Groups of the pairs of a sum, cut at the sign `c`. -/
def groups (c : Char) (t0 : Str) (lead : Option Char) : List (Char × Str) → List SignedSum
  | [] => [⟨lead, t0, []⟩]
  | (d, t) :: l =>
    if d = c then ⟨lead, t0, []⟩ :: groups c t none l
    else match groups c t none l with
      | [] => []
      | g :: gs => ⟨lead, t0, (d, g.head) :: g.tail⟩ :: gs

theorem groups_ne_nil (c : Char) : ∀ (l : List (Char × Str)) (t0 : Str) (lead : Option Char),
    ∃ g gs, groups c t0 lead l = g :: gs ∧ g.lead = lead ∧ g.head = t0 ∧ ∀ g' ∈ gs, g'.lead = none
  | [], t0, lead => ⟨_, _, rfl, rfl, rfl, by simp⟩
  | (d, t) :: l, t0, lead => by
    obtain ⟨g, gs, h1, h2, h3, h4⟩ := groups_ne_nil c l t none
    simp only [groups, h1]
    split_ifs
    · refine ⟨_, _, rfl, rfl, rfl, ?_⟩
      intro g' hg'
      rcases List.mem_cons.mp hg' with rfl | hg'
      · exact h2
      · exact h4 g' hg'
    · exact ⟨_, _, rfl, rfl, rfl, h4⟩

/-- Splitting the text of a sum on `c` gives the texts of the groups. -/
theorem goSplit_render {signs : List Char} (c : Char) (hc : c ∈ signs) :
    ∀ (l : List (Char × Str)) (t0 : Str),
    (∀ p ∈ l, p.1 ∈ signs ∧ IsTerm signs p.2) → IsTerm signs t0 →
    goSplit c (t0 ++ renderTail l) = (groups c t0 none l).map SignedSum.render
  | [], t0, _, h0 => by
    have : c ∉ t0 := fun h => h0.2 c h hc
    simp [renderTail, groups, SignedSum.render, goSplit_none this]
  | (d, t) :: l, t0, hl, h0 => by
    have hct : c ∉ t0 := fun h => h0.2 c h hc
    have hd := hl (d, t) (by simp)
    have ih := goSplit_render c hc l t (fun p hp => hl p (by simp [hp])) hd.2
    obtain ⟨g, gs, h1, h2, h3, h4⟩ := groups_ne_nil c l t none
    obtain ⟨hh, tt, e1, e2⟩ := goSplit_append hct (renderTail ((d, t) :: l))
    rw [e2]
    simp only [renderTail, goSplit, ih, h1, List.map_cons] at e1
    simp only [groups, h1]
    split_ifs with hdc
    · rw [if_pos hdc] at e1
      obtain ⟨rfl, rfl⟩ := List.cons.inj e1
      simp [SignedSum.render, renderTail]
    · rw [if_neg hdc] at e1
      obtain ⟨rfl, rfl⟩ := List.cons.inj e1
      simp [SignedSum.render, renderTail, h2, h3]

/-- The same for a whole sum with an optional leading sign. -/
theorem removeEmpty_render {signs : List Char} (c : Char) (hc : c ∈ signs) (s : SignedSum)
    (hs : s.WellFormed signs) :
    removeEmpty (goSplit c s.render) =
      (groups c s.head (if s.lead = some c then none else s.lead) s.tail).map SignedSum.render := by
  obtain ⟨lead, t0, l⟩ := s
  obtain ⟨hlead, h0, hl⟩ := hs
  simp only [] at *
  have hne : ∀ (l : List (Char × Str)) (t0 : Str) (lead : Option Char),
      (∀ p ∈ l, p.1 ∈ signs ∧ IsTerm signs p.2) → IsTerm signs t0 →
      removeEmpty ((groups c t0 lead l).map SignedSum.render) =
        (groups c t0 lead l).map SignedSum.render := by
    intro l
    induction l with
    | nil =>
      intro t0 lead _ h0
      simp only [groups, List.map_cons, List.map_nil, removeEmpty]
      rw [List.filter_eq_self]
      intro a ha
      obtain rfl := List.mem_singleton.mp ha
      have := h0.1
      simp [SignedSum.render, this]
    | cons p l ih =>
      obtain ⟨d, t⟩ := p
      intro t0 lead hl h0
      have ih' := ih t none (fun p hp => hl p (by simp [hp])) (hl (d, t) (by simp)).2
      obtain ⟨g, gs, h1, h2, h3, h4⟩ := groups_ne_nil c l t none
      have n0 := h0.1
      simp only [groups]
      split_ifs
      · simp only [removeEmpty, List.map_cons, List.filter_cons] at ih' ⊢
        rw [if_pos (by simp [SignedSum.render, n0]), ih']
      · rw [h1] at ih' ⊢
        simp only [removeEmpty, List.map_cons, List.filter_cons] at ih' ⊢
        rw [if_pos (by simp [SignedSum.render, n0])]
        rw [if_pos (by simp [SignedSum.render, h3, (hl (d, t) (by simp)).2.1])] at ih'
        rw [(List.cons.inj ih').2]
  have base := goSplit_render c hc l t0 hl h0
  obtain ⟨g, gs, h1, h2, h3, h4⟩ := groups_ne_nil c l t0 none
  cases lead with
  | none =>
    simp only [SignedSum.render, Option.toList_none, List.nil_append]
    rw [base]
    simp only [reduceCtorEq, if_false]
    exact hne l t0 none hl h0
  | some d =>
    have happ : SignedSum.render ⟨some d, t0, l⟩ = d :: (t0 ++ renderTail l) := by
      simp [SignedSum.render]
    rw [happ]
    simp only [goSplit]
    by_cases hdc : d = c
    · rw [if_pos hdc, base]
      subst hdc
      simp only [if_true]
      rw [← hne l t0 none hl h0]
      simp [removeEmpty]
    · rw [if_neg hdc, base, h1]
      have hso : (if some d = some c then none else some d) = some d := by
        rw [if_neg]; simpa using hdc
      rw [hso, ← hne l t0 (some d) hl h0]
      congr 1
      cases l with
      | nil =>
        simp only [groups] at h1 ⊢
        obtain ⟨rfl, rfl⟩ := List.cons.inj h1
        simp [SignedSum.render]
      | cons p l =>
        obtain ⟨e, t⟩ := p
        obtain ⟨g', gs', k1, k2, k3, k4⟩ := groups_ne_nil c l t none
        simp only [groups, k1] at h1 ⊢
        split_ifs at h1 ⊢ with hec
        · obtain ⟨rfl, rfl⟩ := List.cons.inj h1
          simp [SignedSum.render]
        · obtain ⟨rfl, rfl⟩ := List.cons.inj h1
          simp [SignedSum.render]

/-- The groups are well-formed and their terms are the terms of the sum. -/
theorem groups_spec {signs : List Char} (c : Char) :
    ∀ (l : List (Char × Str)) (t0 : Str) (lead : Option Char), (∀ d ∈ lead, d ∈ signs) →
    (∀ p ∈ l, p.1 ∈ signs ∧ IsTerm signs p.2) → IsTerm signs t0 →
    (∀ g ∈ groups c t0 lead l, g.WellFormed signs) ∧
    ∀ g gs, groups c t0 lead l = g :: gs →
      l.map (fun p => (p.2, some p.1)) =
        g.tail.map (fun p => (p.2, some p.1)) ++
          gs.flatMap fun g => (g.head, some c) :: g.tail.map fun p => (p.2, some p.1)
  | [], t0, lead, hlead, _, h0 => by
    constructor
    · intro g hg
      obtain rfl := List.mem_singleton.mp hg
      exact ⟨hlead, h0, by simp⟩
    · intro g gs h
      simp only [groups] at h
      obtain ⟨rfl, rfl⟩ := List.cons.inj h
      simp
  | (d, t) :: l, t0, lead, hlead, hl, h0 => by
    have hd := hl (d, t) (by simp)
    obtain ⟨i1, i2⟩ := groups_spec c l t none (by simp) (fun p hp => hl p (by simp [hp])) hd.2
    obtain ⟨g', gs', k1, k2, k3, k4⟩ := groups_ne_nil c l t none
    have i2' := i2 g' gs' k1
    rw [k1] at i1
    simp only [groups, k1]
    split_ifs with hdc
    · constructor
      · intro g hg
        rcases List.mem_cons.mp hg with rfl | hg
        · exact ⟨hlead, h0, by simp⟩
        · exact i1 g hg
      · intro g gs h
        obtain ⟨rfl, rfl⟩ := List.cons.inj h
        simp [i2', k3, hdc]
    · constructor
      · intro g hg
        rcases List.mem_cons.mp hg with rfl | hg
        · refine ⟨hlead, h0, ?_⟩
          have := (i1 g' (by simp)).2.2
          intro p hp
          rcases List.mem_cons.mp hp with rfl | hp
          · exact ⟨hd.1, by simpa [k3] using hd.2⟩
          · exact this p hp
        · exact i1 g (by simp [hg])
      · intro g gs h
        obtain ⟨rfl, rfl⟩ := List.cons.inj h
        simp [i2', k3]

/-- Correctness of the work queue: it is described by a list of sums and recorded delimiters. -/
theorem splitLoop_spec (delims : List Char) : ∀ (n : Nat) (q : List (SignedSum × Option Char))
    (queue out : List SubDelim), queueSize delims queue ≤ n →
    queue = q.map (fun x => (⟨x.1.render, x.2⟩ : SubDelim)) → (∀ x ∈ q, x.1.WellFormed delims) →
    ∃ res, splitLoop delims queue out = some res ∧
      (res.map fun x => (x.sub, x.delim)).Perm
        (out.map (fun x => (x.sub, x.delim)) ++
          q.flatMap fun x => (x.1.head, x.2) :: x.1.tail.map fun p => (p.2, some p.1)) := by
  intro n
  induction n with
  | zero =>
    intro q queue out hn hq hw
    cases q with
    | nil => subst hq; exact ⟨out, by simp [splitLoop], by simp⟩
    | cons x q => subst hq; simp [queueSize] at hn
  | succ n ih =>
    intro q queue out hn hq hw
    cases q with
    | nil => subst hq; exact ⟨out, by simp [splitLoop], by simp⟩
    | cons x q =>
      obtain ⟨s, d⟩ := x
      subst hq
      have hs := hw (s, d) (by simp)
      rw [List.map_cons, splitLoop]
      split
      · -- no delimiter left: the sum is a single term
        rename_i hnone
        rw [List.find?_eq_none] at hnone
        have hno : ∀ c ∈ delims, c ∉ s.render := fun c hc => by simpa using hnone c hc
        obtain ⟨lead, t0, l⟩ := s
        obtain ⟨hlead, h0, hl⟩ := hs
        have hl0 : lead = none := by
          cases lead with
          | none => rfl
          | some c => exact absurd (by simp [SignedSum.render]) (hno c (hlead c (by simp)))
        have hl1 : l = [] := by
          cases l with
          | nil => rfl
          | cons p l => exact absurd (by simp [SignedSum.render, renderTail]) (hno p.1 (hl p (by simp)).1)
        subst hl0 hl1
        obtain ⟨res, hr, hp⟩ := ih q _ (out ++ [⟨t0, d⟩]) (by
          simp only [queueSize, List.map_cons, List.sum_cons] at hn ⊢; omega) rfl
          (fun x hx => hw x (by simp [hx]))
        refine ⟨res, ?_, ?_⟩
        · simpa [SignedSum.render, renderTail] using hr
        · simpa using hp
      · rename_i c hfind
        have hc := List.mem_of_find?_eq_some hfind
        have hcs : c ∈ s.render := by simpa using List.find?_some hfind
        have hsplit := removeEmpty_render c hc s hs
        have hsize := split_size delims c hc s.render hcs
        obtain ⟨g, gs, k1, k2, k3, k4⟩ := groups_ne_nil c s.tail s.head
          (if s.lead = some c then none else s.lead)
        obtain ⟨gw, gt⟩ := groups_spec c s.tail s.head
          (if s.lead = some c then none else s.lead) (by
            intro e he; split_ifs at he
            · simp at he
            · exact hs.1 e he) hs.2.2 hs.2.1
        rw [k1] at hsplit gw
        have gt' := gt g gs k1
        split
        · rename_i hnil
          rw [hsplit] at hnil; simp at hnil
        · rename_i s0 more hcons
          rw [hcons] at hsize
          have hcons' := hcons
          rw [hsplit] at hcons
          obtain ⟨rfl, rfl⟩ := List.cons.inj hcons
          obtain ⟨res, hr, hp⟩ := ih (q ++ (g, d) :: gs.map fun g => (g, some c)) _ out (by
            simp only [queueSize, List.map_append, List.map_cons, List.sum_append, List.sum_cons,
              List.map_map, Function.comp_def] at hn hsize ⊢
            omega) rfl (by
            intro x hx
            simp only [List.mem_append, List.mem_cons, List.mem_map] at hx
            rcases hx with hx | rfl | ⟨g', hg', rfl⟩
            · exact hw x (by simp [hx])
            · exact gw g (by simp)
            · exact gw g' (by simp [hg']))
          refine ⟨res, ?_, ?_⟩
          · rw [← hr]
            congr 1
            simp [List.map_map, Function.comp_def]
          · refine hp.trans ?_
            refine List.Perm.append_left _ ?_
            simp only [List.flatMap_append, List.flatMap_cons, List.flatMap_map]
            refine List.perm_append_comm.trans ?_
            rw [k3, gt']
            simp

end Gopf.Pf

namespace Gopf.Pf

theorem splitLoop_skip {delims : List Char} {item : SubDelim} (rest out : List SubDelim)
    (h : ∀ d ∈ delims, d ∉ item.sub) :
    splitLoop delims (item :: rest) out = splitLoop delims rest (out ++ [item]) := by
  rw [splitLoop]
  split
  · rfl
  · rename_i c hc
    exact absurd (by simpa using List.find?_some hc) (h c (List.mem_of_find?_eq_some hc))

theorem splitLoop_split {delims : List Char} {item : SubDelim} (rest out : List SubDelim) {c : Char}
    {s0 : Str} {more : List Str} (h : (delims.find? fun d => item.sub.contains d) = some c)
    (hs : removeEmpty (goSplit c item.sub) = s0 :: more) :
    splitLoop delims (item :: rest) out =
      splitLoop delims (rest ++ (⟨s0, item.delim⟩ :: more.map fun s => ⟨s, some c⟩)) out := by
  rw [splitLoop]
  split
  · rename_i hn; rw [h] at hn; cases hn
  · rename_i c' hc
    rw [h] at hc
    obtain rfl := Option.some.inj hc
    split
    · rename_i hn; rw [hs] at hn; cases hn
    · rename_i s1 m1 hm
      rw [hs] at hm
      obtain ⟨rfl, rfl⟩ := List.cons.inj hm
      rfl

theorem splitLoop_panic {delims : List Char} {item : SubDelim} (rest out : List SubDelim) {c : Char}
    (h : (delims.find? fun d => item.sub.contains d) = some c)
    (hs : removeEmpty (goSplit c item.sub) = []) :
    splitLoop delims (item :: rest) out = none := by
  rw [splitLoop]
  split
  · rename_i hn; rw [h] at hn; cases hn
  · rename_i c' hc
    rw [h] at hc
    obtain rfl := Option.some.inj hc
    split
    · rfl
    · rename_i s1 m1 hm
      rw [hs] at hm; cases hm

end Gopf.Pf
