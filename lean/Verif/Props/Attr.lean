import Verif.Model.Attr
import Verif.Props.Cmd

/-!
# Properties of attributes and comments stored with a simulation (C108, C109, C110)
-/

namespace Gopf.Props

open Pf (Str)
open Cmd

variable {V : Type}

/-! ## Specification -/

/-- A call that stores attributes: the simulation and the entries of the map that is passed. -/
inductive AttrCall (V : Type) where
  | number (simID : Int) (attr : List (Str × V))
  | text (simID : Int) (attr : List (Str × Str))

/-- The database after one more call. -/
def AttrCall.run (db : AttrDB V) : AttrCall V → AttrDB V
  | .number s a => db.setAttr s a
  | .text s a => db.setTextAttr s a

/-- The database after a history of calls, the oldest first. -/
def afterCalls (calls : List (AttrCall V)) : AttrDB V := calls.foldl AttrCall.run ⟨[], []⟩

/-- The number a call stores under a name for a simulation. -/
def AttrCall.numberFor (s : Int) (k : Str) : AttrCall V → Option V
  | .number s' a => if s' = s then a.lookup k else none
  | .text _ _ => none

/-- The text a call stores under a name for a simulation. -/
def AttrCall.textFor (s : Int) (k : Str) : AttrCall V → Option Str
  | .number _ _ => none
  | .text s' a => if s' = s then a.lookup k else none

/-- The names in the map passed to a call. -/
def AttrCall.names : AttrCall V → List Str
  | .number _ a => a.map Prod.fst
  | .text _ a => a.map Prod.fst

/-- The simulation of a call. -/
def AttrCall.sim : AttrCall V → Int
  | .number s _ => s
  | .text s _ => s

/-- What a user expects to be shown: the text given last, or the number given last, or nothing. -/
def expectedCell (fmtNum : V → Str) (calls : List (AttrCall V)) (s : Int) (k : Str) : Str :=
  match calls.reverse.findSome? (AttrCall.textFor s k) with
  | some t => t
  | none => match calls.reverse.findSome? (AttrCall.numberFor s k) with
    | some v => fmtNum v
    | none => []

/-! ## The tables after a history of calls -/

private def AttrCall.numRows : AttrCall V → List (AttrRow V)
  | .number s a => attrRows s a
  | .text _ _ => []

private def AttrCall.textRows : AttrCall V → List (AttrRow Str)
  | .number _ _ => []
  | .text s a => attrRows s a

private theorem afterCalls_tables (calls : List (AttrCall V)) :
    (afterCalls calls).numbers = calls.flatMap AttrCall.numRows ∧
    (afterCalls calls).texts = calls.flatMap AttrCall.textRows := by
  have key : ∀ (db : AttrDB V),
      (calls.foldl AttrCall.run db).numbers = db.numbers ++ calls.flatMap AttrCall.numRows ∧
      (calls.foldl AttrCall.run db).texts = db.texts ++ calls.flatMap AttrCall.textRows := by
    induction calls with
    | nil => intro db; simp
    | cons c cs ih =>
      intro db
      obtain ⟨h1, h2⟩ := ih (c.run db)
      rw [List.foldl_cons, h1, h2]
      cases c <;>
        simp [AttrCall.run, AttrDB.setAttr, AttrDB.setTextAttr, AttrCall.numRows, AttrCall.textRows]
  simpa [afterCalls] using key ⟨[], []⟩

/-- The value of the last row of a simulation with a name. -/
private def lastRow {A : Type} (s : Int) (k : Str) (rows : List (AttrRow A)) : Option A :=
  rows.reverse.findSome? fun r => if r.simID = s ∧ r.key = k then some r.value else none

private theorem lastRow_append {A : Type} (s : Int) (k : Str) (l r : List (AttrRow A)) :
    lastRow s k (l ++ r) = (lastRow s k r).or (lastRow s k l) := by
  simp only [lastRow, List.reverse_append, List.findSome?_append]

private theorem lastRow_attrRows {A : Type} (s s' : Int) (k : Str) (a : List (Str × A))
    (h : (a.map Prod.fst).Nodup) :
    lastRow s k (attrRows s' a) = if s' = s then a.lookup k else none := by
  induction a with
  | nil => simp [lastRow, attrRows]
  | cons x xs ih =>
    have hx := (List.nodup_cons.1 (by simpa using h) : x.1 ∉ xs.map Prod.fst ∧ (xs.map Prod.fst).Nodup)
    have e : attrRows s' (x :: xs) = [⟨x.1, x.2, s'⟩] ++ attrRows s' xs := rfl
    rw [e, lastRow_append, ih hx.2]
    by_cases hs : s' = s
    · subst hs
      obtain ⟨x1, x2⟩ := x
      simp only [lastRow, List.reverse_singleton, List.findSome?_cons, List.findSome?_nil, true_and,
        List.lookup_cons, if_true]
      by_cases hk : x1 = k
      · subst hk
        have : List.lookup x1 xs = none := by
          rw [List.lookup_eq_none_iff]
          intro p hp
          have := hx.1
          simp only [List.mem_map, not_exists, not_and] at this
          simpa using fun h : x1 = p.1 => this p hp h.symm
        simp [this]
      · have : (k == x1) = false := by simpa using fun h : k = x1 => hk h.symm
        simp [hk, this]
    · simp [hs, lastRow]

private theorem lastRow_filter {A : Type} (s : Int) (k : Str) (p : AttrRow A → Bool)
    (rows : List (AttrRow A)) (hp : ∀ r : AttrRow A, r.simID = s → p r = true) :
    lastRow s k (rows.filter p) = lastRow s k rows := by
  induction rows with
  | nil => rfl
  | cons r rs ih =>
    have e : r :: rs = [r] ++ rs := rfl
    rw [e, List.filter_append, lastRow_append, lastRow_append, ih]
    congr 1
    by_cases h : p r = true
    · simp [h]
    · have : r.simID ≠ s := fun h' => h (hp r h')
      simp [h, lastRow, this]

private theorem lastRow_none {A : Type} (s : Int) (k : Str) (rows : List (AttrRow A))
    (h : ∀ r ∈ rows, r.simID ≠ s) : lastRow s k rows = none := by
  simp only [lastRow, List.findSome?_eq_none_iff, List.mem_reverse]
  intro r hr
  simp [h r hr]

private theorem lastRow_numbers (calls : List (AttrCall V)) (hmap : ∀ c ∈ calls, c.names.Nodup)
    (s : Int) (k : Str) :
    lastRow s k (afterCalls calls).numbers = calls.reverse.findSome? (AttrCall.numberFor s k) := by
  rw [(afterCalls_tables calls).1]
  induction calls with
  | nil => rfl
  | cons c cs ih =>
    rw [List.flatMap_cons, lastRow_append, ih (fun c hc => hmap c (List.mem_cons_of_mem _ hc)),
      List.reverse_cons, List.findSome?_append]
    congr 1
    cases c with
    | number s' a =>
      have := lastRow_attrRows s s' k a (hmap _ List.mem_cons_self)
      simp [AttrCall.numRows, this, AttrCall.numberFor]
    | text s' a => simp [lastRow, AttrCall.numRows, AttrCall.numberFor]

private theorem lastRow_texts (calls : List (AttrCall V)) (hmap : ∀ c ∈ calls, c.names.Nodup)
    (s : Int) (k : Str) :
    lastRow s k (afterCalls calls).texts = calls.reverse.findSome? (AttrCall.textFor s k) := by
  rw [(afterCalls_tables calls).2]
  induction calls with
  | nil => rfl
  | cons c cs ih =>
    rw [List.flatMap_cons, lastRow_append, ih (fun c hc => hmap c (List.mem_cons_of_mem _ hc)),
      List.reverse_cons, List.findSome?_append]
    congr 1
    cases c with
    | text s' a =>
      have := lastRow_attrRows s s' k a (hmap _ List.mem_cons_self)
      simp [AttrCall.textRows, this, AttrCall.textFor]
    | number s' a => simp [lastRow, AttrCall.textRows, AttrCall.textFor]

/-! ## The maps filled by the listing -/

private theorem fill_append {A : Type} (fmt : A → Str) (m : AttrMap) (r : AttrRow A) (rs : List (AttrRow A)) :
    m.fill fmt (rs ++ [r]) = (m.fill fmt rs).put r.simID r.key (fmt r.value) := by
  simp [AttrMap.fill]

private theorem fill_cell {A : Type} (fmt : A → Str) (m : AttrMap) (rows : List (AttrRow A)) (s : Int) (k : Str) :
    (m.fill fmt rows).cell s k = ((lastRow s k rows).map fmt).or (m.cell s k) := by
  induction rows using List.reverseRecOn with
  | nil => simp [AttrMap.fill, lastRow]
  | append_singleton rs r ih =>
    rw [fill_append, lastRow_append]
    by_cases hs : s = r.simID
    · subst hs
      by_cases hk : k = r.key
      · subst hk
        simp [AttrMap.put, lastRow]
      · have hk' : r.key ≠ k := fun h => hk h.symm
        simp [AttrMap.put, hk, ih, lastRow, hk']
    · have hs' : r.simID ≠ s := fun h => hs h.symm
      simp [AttrMap.put, hs, ih, lastRow, hs']

private theorem fill_ids {A : Type} (fmt : A → Str) (m : AttrMap) (hm : m.ids.Nodup) (rows : List (AttrRow A)) :
    (m.fill fmt rows).ids.Nodup ∧
    ∀ s, s ∈ (m.fill fmt rows).ids ↔ s ∈ m.ids ∨ ∃ r ∈ rows, r.simID = s := by
  induction rows using List.reverseRecOn with
  | nil => simpa [AttrMap.fill] using hm
  | append_singleton rs r ih =>
    rw [fill_append]
    simp only [AttrMap.put]
    split_ifs with h
    · refine ⟨ih.1, fun s => ?_⟩
      rw [ih.2 s]
      constructor
      · rintro (h1 | ⟨q, hq, rfl⟩)
        · exact Or.inl h1
        · exact Or.inr ⟨q, by simp [hq], rfl⟩
      · rintro (h1 | ⟨q, hq, rfl⟩)
        · exact Or.inl h1
        · rcases List.mem_append.1 hq with hq | hq
          · exact Or.inr ⟨q, hq, rfl⟩
          · rw [List.mem_singleton] at hq
            subst hq
            exact (ih.2 _).1 h
    · refine ⟨by
        rw [List.nodup_append]
        refine ⟨ih.1, by simp, ?_⟩
        intro a ha b hb
        rw [List.mem_singleton] at hb
        subst hb
        exact fun e => h (e ▸ ha), fun s => ?_⟩
      simp only [List.mem_append, List.mem_singleton, ih.2 s]
      constructor
      · rintro ((h1 | ⟨q, hq, rfl⟩) | rfl)
        · exact Or.inl h1
        · exact Or.inr ⟨q, Or.inl hq, rfl⟩
        · exact Or.inr ⟨r, Or.inr rfl, rfl⟩
      · rintro (h1 | ⟨q, hq | rfl, rfl⟩)
        · exact Or.inl (Or.inl h1)
        · exact Or.inl (Or.inr ⟨q, hq, rfl⟩)
        · exact Or.inr rfl

private theorem fill_keys {A : Type} (fmt : A → Str) (m : AttrMap) (hm : m.keys.Nodup) (rows : List (AttrRow A)) :
    (m.fill fmt rows).keys.Nodup ∧
    ∀ s, s ∈ (m.fill fmt rows).keys ↔ s ∈ m.keys ∨ ∃ r ∈ rows, r.key = s := by
  induction rows using List.reverseRecOn with
  | nil => simpa [AttrMap.fill] using hm
  | append_singleton rs r ih =>
    rw [fill_append]
    simp only [AttrMap.put]
    split_ifs with h
    · refine ⟨ih.1, fun s => ?_⟩
      rw [ih.2 s]
      constructor
      · rintro (h1 | ⟨q, hq, rfl⟩)
        · exact Or.inl h1
        · exact Or.inr ⟨q, by simp [hq], rfl⟩
      · rintro (h1 | ⟨q, hq, rfl⟩)
        · exact Or.inl h1
        · rcases List.mem_append.1 hq with hq | hq
          · exact Or.inr ⟨q, hq, rfl⟩
          · rw [List.mem_singleton] at hq
            subst hq
            exact (ih.2 _).1 h
    · refine ⟨by
        rw [List.nodup_append]
        refine ⟨ih.1, by simp, ?_⟩
        intro a ha b hb
        rw [List.mem_singleton] at hb
        subst hb
        exact fun e => h (e ▸ ha), fun s => ?_⟩
      simp only [List.mem_append, List.mem_singleton, ih.2 s]
      constructor
      · rintro ((h1 | ⟨q, hq, rfl⟩) | rfl)
        · exact Or.inl h1
        · exact Or.inr ⟨q, Or.inl hq, rfl⟩
        · exact Or.inr ⟨r, Or.inr rfl, rfl⟩
      · rintro (h1 | ⟨q, hq | rfl, rfl⟩)
        · exact Or.inl (Or.inl h1)
        · exact Or.inl (Or.inr ⟨q, hq, rfl⟩)
        · exact Or.inr rfl

/-- The calls whose attributes are read for a flag `--simid`. -/
private def readCall (simid : Int) : AttrCall V → Bool
  | .number s _ => decide (simid ≤ 0 ∨ s = simid)
  | .text s _ => decide (simid < 0 ∨ s = simid)

private theorem attrRows_filter {A : Type} (s simid : Int) (a : List (Str × A)) :
    (attrRows s a).filter (fun r => decide (r.simID = simid)) = if s = simid then attrRows s a else [] := by
  split_ifs with h
  · rw [List.filter_eq_self]
    intro r hr
    simp only [attrRows, List.mem_map] at hr
    obtain ⟨x, -, rfl⟩ := hr
    simpa using h
  · rw [List.filter_eq_nil_iff]
    intro r hr
    simp only [attrRows, List.mem_map] at hr
    obtain ⟨x, -, rfl⟩ := hr
    simpa using h

private theorem numbersRead_eq (calls : List (AttrCall V)) (simid : Int) :
    numbersRead (afterCalls calls) simid = (afterCalls (calls.filter (readCall simid))).numbers := by
  rw [numbersRead, (afterCalls_tables _).1, (afterCalls_tables _).1, ofSim]
  induction calls with
  | nil => simp
  | cons c cs ih =>
    rw [List.filter_cons]
    cases c with
    | number s a =>
      by_cases h1 : simid > 0
      · rw [if_pos h1] at ih ⊢
        rw [List.flatMap_cons, List.filter_append, ih]
        by_cases h2 : s = simid
        · simp [readCall, AttrCall.numRows, attrRows_filter, h2]
        · have : ¬ simid ≤ 0 := by omega
          simp [readCall, AttrCall.numRows, attrRows_filter, h2, this]
      · rw [if_neg h1] at ih ⊢
        have : simid ≤ 0 := by omega
        rw [List.flatMap_cons, ih]
        simp [readCall, this]
    | text s a =>
      by_cases h1 : simid > 0
      · rw [if_pos h1] at ih ⊢
        rw [List.flatMap_cons, List.filter_append, ih]
        split_ifs <;> simp [AttrCall.numRows]
      · rw [if_neg h1] at ih ⊢
        rw [List.flatMap_cons, ih]
        split_ifs <;> simp [AttrCall.numRows]

private theorem textsRead_eq (calls : List (AttrCall V)) (simid : Int) :
    textsRead (afterCalls calls) simid = (afterCalls (calls.filter (readCall simid))).texts := by
  rw [textsRead, (afterCalls_tables _).2, (afterCalls_tables _).2, ofSim]
  induction calls with
  | nil => simp
  | cons c cs ih =>
    rw [List.filter_cons]
    cases c with
    | text s a =>
      by_cases h1 : simid < 0
      · rw [if_pos h1] at ih ⊢
        rw [List.flatMap_cons, ih]
        simp [readCall, h1]
      · rw [if_neg h1] at ih ⊢
        rw [List.flatMap_cons, List.filter_append, ih]
        by_cases h2 : s = simid
        · simp [readCall, AttrCall.textRows, attrRows_filter, h2]
        · simp [readCall, AttrCall.textRows, attrRows_filter, h2, h1]
    | number s a =>
      by_cases h1 : simid < 0
      · rw [if_pos h1] at ih ⊢
        rw [List.flatMap_cons, ih]
        split_ifs <;> simp [AttrCall.textRows]
      · rw [if_neg h1] at ih ⊢
        rw [List.flatMap_cons, List.filter_append, ih]
        split_ifs <;> simp [AttrCall.textRows]

private theorem attrMap_spec (fmtNum : V → Str) (calls : List (AttrCall V))
    (hmap : ∀ c ∈ calls, c.names.Nodup) (simid : Int) :
    let m := attrMap fmtNum (afterCalls calls) simid
    let seen := calls.filter (readCall simid)
    (∀ s k, (m.cell s k).getD [] = expectedCell fmtNum seen s k) ∧
    m.ids.Nodup ∧ (∀ s, s ∈ m.ids ↔ ∃ c ∈ seen, c.sim = s ∧ c.names ≠ []) ∧
    m.keys.Nodup ∧ (∀ k, k ∈ m.keys ↔ ∃ c ∈ seen, k ∈ c.names) := by
  intro m seen
  have hseen : ∀ c ∈ seen, c.names.Nodup := fun c hc => hmap c (List.mem_filter.1 hc).1
  have hm : m = ((⟨[], [], fun _ _ => none⟩ : AttrMap).fill fmtNum (afterCalls seen).numbers).fill id
      (afterCalls seen).texts := by
    simp only [m, attrMap, numbersRead_eq, textsRead_eq, seen]
  have hrows : ∀ {P : Int → Str → Prop}, ((∃ r ∈ (afterCalls seen).numbers, P r.simID r.key) ∨
      ∃ r ∈ (afterCalls seen).texts, P r.simID r.key) ↔ ∃ c ∈ seen, ∃ k ∈ c.names, P c.sim k := by
    intro P
    rw [(afterCalls_tables seen).1, (afterCalls_tables seen).2]
    simp only [List.mem_flatMap]
    constructor
    · rintro (⟨r, ⟨c, hc, hr⟩, hP⟩ | ⟨r, ⟨c, hc, hr⟩, hP⟩)
      · cases c with
        | number s a =>
          simp only [AttrCall.numRows, attrRows, List.mem_map] at hr
          obtain ⟨x, hx, rfl⟩ := hr
          exact ⟨_, hc, x.1, List.mem_map_of_mem hx, hP⟩
        | text s a => simp [AttrCall.numRows] at hr
      · cases c with
        | text s a =>
          simp only [AttrCall.textRows, attrRows, List.mem_map] at hr
          obtain ⟨x, hx, rfl⟩ := hr
          exact ⟨_, hc, x.1, List.mem_map_of_mem hx, hP⟩
        | number s a => simp [AttrCall.textRows] at hr
    · rintro ⟨c, hc, k, hk, hP⟩
      cases c with
      | number s a =>
        simp only [AttrCall.names, List.mem_map] at hk
        obtain ⟨x, hx, rfl⟩ := hk
        exact Or.inl ⟨⟨x.1, x.2, s⟩, ⟨_, hc, List.mem_map_of_mem hx⟩, hP⟩
      | text s a =>
        simp only [AttrCall.names, List.mem_map] at hk
        obtain ⟨x, hx, rfl⟩ := hk
        exact Or.inr ⟨⟨x.1, x.2, s⟩, ⟨_, hc, List.mem_map_of_mem hx⟩, hP⟩
  have i1 := fill_ids fmtNum (⟨[], [], fun _ _ => none⟩ : AttrMap) List.nodup_nil (afterCalls seen).numbers
  have i2 := fill_ids id _ i1.1 (afterCalls seen).texts
  have k1 := fill_keys fmtNum (⟨[], [], fun _ _ => none⟩ : AttrMap) List.nodup_nil (afterCalls seen).numbers
  have k2 := fill_keys id _ k1.1 (afterCalls seen).texts
  refine ⟨?_, by rw [hm]; exact i2.1, ?_, by rw [hm]; exact k2.1, ?_⟩
  · intro s k
    rw [hm, fill_cell, fill_cell, lastRow_numbers seen hseen, lastRow_texts seen hseen, expectedCell]
    cases seen.reverse.findSome? (AttrCall.textFor s k) with
    | some t => simp
    | none =>
      cases seen.reverse.findSome? (AttrCall.numberFor s k) <;> simp
  · intro s
    rw [hm, i2.2, i1.2]
    simp only [List.not_mem_nil, false_or]
    rw [hrows (P := fun s' _ => s' = s)]
    constructor
    · rintro ⟨c, hc, k, hk, rfl⟩
      exact ⟨c, hc, rfl, List.ne_nil_of_mem hk⟩
    · rintro ⟨c, hc, rfl, hk⟩
      obtain ⟨k, hk⟩ := List.exists_mem_of_ne_nil _ hk
      exact ⟨c, hc, k, hk, rfl⟩
  · intro k
    rw [hm, k2.2, k1.2]
    simp only [List.not_mem_nil, false_or]
    rw [hrows (P := fun _ k' => k' = k)]
    constructor
    · rintro ⟨c, hc, k, hk, rfl⟩
      exact ⟨c, hc, hk⟩
    · rintro ⟨c, hc, hk⟩
      exact ⟨c, hc, k, hk, rfl⟩

private theorem listing (orderIds : List Int → List Int) (orderKeys : List Str → List Str)
    (hi : ∀ l, (orderIds l).Perm l) (hk : ∀ l, (orderKeys l).Perm l) (fmtNum : V → Str)
    (calls : List (AttrCall V)) (hmap : ∀ c ∈ calls, c.names.Nodup) (simid : Int) :
    let out := listAttributes orderIds orderKeys fmtNum (afterCalls calls) simid
    let seen := calls.filter (readCall simid)
    (∀ t ∈ out, ∀ l ∈ t.2, l.2 = t.1.map (expectedCell fmtNum seen l.1)) ∧
    (∀ t ∈ out, (t.2.map Prod.fst).Nodup ∧
      ∀ s, s ∈ t.2.map Prod.fst ↔ ∃ c ∈ seen, c.sim = s ∧ c.names ≠ []) ∧
    (out.map Prod.fst).flatten.Nodup ∧
    (∀ k, k ∈ (out.map Prod.fst).flatten ↔ ∃ c ∈ seen, k ∈ c.names) ∧
    ∀ t ∈ out, t.1.length ≤ 10 := by
  intro out seen
  obtain ⟨h1, h2, h3, h4, h5⟩ := attrMap_spec fmtNum calls hmap simid
  obtain ⟨t1, t2, -⟩ := c67_attributeTables (orderKeys (attrMap fmtNum (afterCalls calls) simid).keys)
  have hfst : (out.map Prod.fst).flatten = orderKeys (attrMap fmtNum (afterCalls calls) simid).keys := by
    rw [← t1]
    simp [out, listAttributes, Function.comp_def]
  refine ⟨?_, ?_, ?_, ?_, ?_⟩
  · intro t ht l hl
    simp only [out, listAttributes, List.mem_map] at ht
    obtain ⟨header, -, rfl⟩ := ht
    simp only [List.mem_map] at hl
    obtain ⟨i, -, rfl⟩ := hl
    exact List.map_congr_left fun k _ => h1 i k
  · intro t ht
    simp only [out, listAttributes, List.mem_map] at ht
    obtain ⟨header, -, rfl⟩ := ht
    simp only [List.map_map, Function.comp_def, List.map_id']
    refine ⟨(hi _).nodup_iff.2 h2, fun s => ?_⟩
    rw [(hi _).mem_iff, h3]
  · rw [hfst]
    exact (hk _).nodup_iff.2 h4
  · intro k
    rw [hfst, (hk _).mem_iff, h5]
  · intro t ht
    simp only [out, listAttributes, List.mem_map] at ht
    obtain ⟨header, hh, rfl⟩ := ht
    exact t2 header hh

/-- C108: after any history of calls storing numbers and texts, the attribute listing of one simulation
(positive id), or of all of them (negative id), has for every simulation with attributes one line per
table, every attribute name in exactly one table, at most ten names per table, and in each cell the text
given last under that name, or if there is none the number given last, or nothing. The order in which
Go traverses its maps does not matter. -/
theorem c108_listing (orderIds : List Int → List Int) (orderKeys : List Str → List Str)
    (hi : ∀ l, (orderIds l).Perm l) (hk : ∀ l, (orderKeys l).Perm l) (fmtNum : V → Str)
    (calls : List (AttrCall V)) (hmap : ∀ c ∈ calls, c.names.Nodup) (simid : Int) (h0 : simid ≠ 0) :
    let out := listAttributes orderIds orderKeys fmtNum (afterCalls calls) simid
    (∀ t ∈ out, ∀ l ∈ t.2, l.2 = t.1.map (expectedCell fmtNum calls l.1)) ∧
    (∀ t ∈ out, (t.2.map Prod.fst).Nodup ∧ ∀ s, s ∈ t.2.map Prod.fst ↔
      (simid < 0 ∨ s = simid) ∧ ∃ c ∈ calls, c.sim = s ∧ c.names ≠ []) ∧
    (out.map Prod.fst).flatten.Nodup ∧
    (∀ k, k ∈ (out.map Prod.fst).flatten ↔
      ∃ c ∈ calls, (simid < 0 ∨ c.sim = simid) ∧ k ∈ c.names) ∧
    ∀ t ∈ out, t.1.length ≤ 10 := by
  intro out
  obtain ⟨h1, h2, h3, h4, h5⟩ := listing orderIds orderKeys hi hk fmtNum calls hmap simid
  have hr : ∀ c : AttrCall V, readCall simid c = decide (simid < 0 ∨ c.sim = simid) := by
    intro c
    have : simid ≤ 0 ↔ simid < 0 := by omega
    cases c with
    | number s a =>
      change decide (simid ≤ 0 ∨ s = simid) = decide (simid < 0 ∨ s = simid)
      simp [this]
    | text s a => rfl
  have hcell : ∀ s k, (simid < 0 ∨ s = simid) →
      expectedCell fmtNum (calls.filter (readCall simid)) s k = expectedCell fmtNum calls s k := by
    intro s k hs
    have e1 : ∀ {β : Type} (f : AttrCall V → Option β), (∀ c, (f c).isSome → c.sim = s) →
        (calls.filter (readCall simid)).reverse.findSome? f = calls.reverse.findSome? f := by
      intro β f hf
      rw [← List.filter_reverse]
      induction calls.reverse with
      | nil => rfl
      | cons c cs ih =>
        rw [List.filter_cons]
        split_ifs with hc
        · rw [List.findSome?_cons, List.findSome?_cons, ih]
        · have : f c = none := by
            by_contra hne
            have := hf c (Option.isSome_iff_ne_none.2 hne)
            rw [hr] at hc
            apply hc
            rw [this]
            simpa using hs
          rw [List.findSome?_cons, this, ih]
    have e2 := e1 (AttrCall.textFor s k) (by
      intro c
      cases c <;> simp [AttrCall.textFor, AttrCall.sim]
      split_ifs <;> simp_all)
    have e3 := e1 (AttrCall.numberFor s k) (by
      intro c
      cases c <;> simp [AttrCall.numberFor, AttrCall.sim]
      split_ifs <;> simp_all)
    rw [expectedCell, expectedCell, e2, e3]
  have hlines : ∀ t ∈ out, (t.2.map Prod.fst).Nodup ∧ ∀ s, s ∈ t.2.map Prod.fst ↔
      (simid < 0 ∨ s = simid) ∧ ∃ c ∈ calls, c.sim = s ∧ c.names ≠ [] := by
    intro t ht
    refine ⟨(h2 t ht).1, fun s => ?_⟩
    rw [(h2 t ht).2 s]
    simp only [List.mem_filter, hr, decide_eq_true_eq]
    constructor
    · rintro ⟨c, ⟨hc, hv⟩, rfl, hn⟩
      exact ⟨hv, c, hc, rfl, hn⟩
    · rintro ⟨hv, c, hc, rfl, hn⟩
      exact ⟨c, ⟨hc, hv⟩, rfl, hn⟩
  refine ⟨?_, hlines, h3, ?_, h5⟩
  · intro t ht l hl
    rw [h1 t ht l hl]
    exact List.map_congr_left fun k _ => hcell l.1 k
      (((hlines t ht).2 l.1).1 (List.mem_map_of_mem hl)).1
  · intro k
    rw [h4 k]
    simp only [List.mem_filter, hr, decide_eq_true_eq, and_assoc]

/-- C108: for simulation id zero the numbers of all simulations are listed, but no text of any simulation
with another id. -/
theorem c108_zero (orderIds : List Int → List Int) (orderKeys : List Str → List Str)
    (hi : ∀ l, (orderIds l).Perm l) (hk : ∀ l, (orderKeys l).Perm l) (fmtNum : V → Str)
    (calls : List (AttrCall V)) (hmap : ∀ c ∈ calls, c.names.Nodup) :
    ∀ t ∈ listAttributes orderIds orderKeys fmtNum (afterCalls calls) 0, ∀ l ∈ t.2, l.1 ≠ 0 →
      l.2 = t.1.map fun k => ((calls.reverse.findSome? (AttrCall.numberFor l.1 k)).map fmtNum).getD [] := by
  intro t ht l hl hne
  obtain ⟨h1, -⟩ := listing orderIds orderKeys hi hk fmtNum calls hmap 0
  rw [h1 t ht l hl]
  refine List.map_congr_left fun k _ => ?_
  have e1 : (calls.filter (readCall 0)).reverse.findSome? (AttrCall.textFor l.1 k) = none := by
    rw [List.findSome?_eq_none_iff]
    intro c hc
    simp only [List.mem_reverse, List.mem_filter] at hc
    cases c with
    | number s a => rfl
    | text s a =>
      have : s = 0 := by simpa [readCall] using hc.2
      subst this
      rw [AttrCall.textFor, if_neg fun h : (0 : Int) = l.1 => hne h.symm]
  have e2 : (calls.filter (readCall 0)).reverse.findSome? (AttrCall.numberFor l.1 k) =
      calls.reverse.findSome? (AttrCall.numberFor l.1 k) := by
    rw [← List.filter_reverse]
    induction calls.reverse with
    | nil => rfl
    | cons c cs ih =>
      cases c with
      | number s a =>
        have : readCall 0 (AttrCall.number s a) = true := by simp [readCall]
        rw [List.filter_cons, if_pos this, List.findSome?_cons, List.findSome?_cons, ih]
      | text s a =>
        rw [List.filter_cons]
        split_ifs
        · rw [List.findSome?_cons, List.findSome?_cons, ih]
        · rw [List.findSome?_cons, AttrCall.numberFor, ih]
  rw [expectedCell, e1, e2]
  cases calls.reverse.findSome? (AttrCall.numberFor l.1 k) <;> rfl

/-- C108: the list of unique names has every name stored for some simulation, as number or as text, once
and in alphabetic order. -/
theorem c108_unique (calls : List (AttrCall V)) :
    (listUniqueAttributes (afterCalls calls)).Nodup ∧
    (listUniqueAttributes (afterCalls calls)).Pairwise (· ≤ ·) ∧
    ∀ k, k ∈ listUniqueAttributes (afterCalls calls) ↔ ∃ c ∈ calls, k ∈ c.names := by
  have hp : (listUniqueAttributes (afterCalls calls)).Perm
      ((afterCalls calls).numbers.map (·.key) ++ (afterCalls calls).texts.map (·.key)).dedup :=
    List.perm_insertionSort _ _
  refine ⟨hp.nodup_iff.2 (List.nodup_dedup _), List.pairwise_insertionSort _ _, fun k => ?_⟩
  rw [hp.mem_iff, List.mem_dedup, (afterCalls_tables calls).1, (afterCalls_tables calls).2]
  simp only [List.mem_append, List.mem_map, List.mem_flatMap]
  constructor
  · rintro (⟨r, ⟨c, hc, hr⟩, rfl⟩ | ⟨r, ⟨c, hc, hr⟩, rfl⟩)
    · cases c with
      | number s a =>
        simp only [AttrCall.numRows, attrRows, List.mem_map] at hr
        obtain ⟨x, hx, rfl⟩ := hr
        exact ⟨_, hc, List.mem_map_of_mem hx⟩
      | text s a => simp [AttrCall.numRows] at hr
    · cases c with
      | text s a =>
        simp only [AttrCall.textRows, attrRows, List.mem_map] at hr
        obtain ⟨x, hx, rfl⟩ := hr
        exact ⟨_, hc, List.mem_map_of_mem hx⟩
      | number s a => simp [AttrCall.textRows] at hr
  · rintro ⟨c, hc, hk⟩
    cases c with
    | number s a =>
      simp only [AttrCall.names, List.mem_map] at hk
      obtain ⟨x, hx, rfl⟩ := hk
      exact Or.inl ⟨⟨x.1, x.2, s⟩, ⟨_, hc, List.mem_map_of_mem hx⟩, rfl⟩
    | text s a =>
      simp only [AttrCall.names, List.mem_map] at hk
      obtain ⟨x, hx, rfl⟩ := hk
      exact Or.inr ⟨⟨x.1, x.2, s⟩, ⟨_, hc, List.mem_map_of_mem hx⟩, rfl⟩

/-- Two simulations; the name `a` is stored as a number twice and as a text afterwards, `b` only as a
number. -/
private def demoCalls : List (AttrCall ℕ) :=
  [.number 3 [("a".toList, 1), ("b".toList, 2)], .number 7 [("a".toList, 5)], .text 3 [("a".toList, "x".toList)],
    .number 7 [("a".toList, 6)]]

example : (∀ c ∈ demoCalls, c.names.Nodup) ∧
    listAttributes id id (fun n : ℕ => List.replicate n '|') (afterCalls demoCalls) (-1) =
      [(["a".toList, "b".toList], [(3, ["x".toList, "||".toList]), (7, ["||||||".toList, []])])] ∧
    listAttributes id id (fun n : ℕ => List.replicate n '|') (afterCalls demoCalls) 7 =
      [(["a".toList], [(7, ["||||||".toList])])] ∧
    listAttributes id id (fun n : ℕ => List.replicate n '|') (afterCalls demoCalls) 0 =
      [(["a".toList, "b".toList], [(3, ["|".toList, "||".toList]), (7, ["||||||".toList, []])])] := by
  refine ⟨by decide, ?_, ?_, ?_⟩ <;> decide +kernel

/-! ## C109 one attribute -/

/-- The numbers stored under a name, with their simulations, the oldest first. -/
def storedNumbers (calls : List (AttrCall V)) (simid : Int) (name : Str) : List (Int × V) :=
  (calls.filter fun c => decide (simid ≤ 0) || decide (c.sim = simid)).filterMap fun c =>
    (c.numberFor c.sim name).map fun v => (c.sim, v)

/-- The texts stored under a name, with their simulations, the oldest first. -/
def storedTexts (calls : List (AttrCall V)) (simid : Int) (name : Str) : List (Int × Str) :=
  (calls.filter fun c => decide (simid ≤ 0) || decide (c.sim = simid)).filterMap fun c =>
    (c.textFor c.sim name).map fun v => (c.sim, v)

private theorem namedRows_attrRows {A : Type} (s simid : Int) (name : Str) (a : List (Str × A))
    (h : (a.map Prod.fst).Nodup) :
    (namedRows (attrRows s a) simid name).map (fun r => (r.simID, r.value)) =
      if simid ≤ 0 ∨ s = simid then ((a.lookup name).map fun v => (s, v)).toList else [] := by
  have hflag : (if simid > 0 then decide (s = simid) else true) = decide (simid ≤ 0 ∨ s = simid) := by
    split_ifs with h1
    · have : ¬ simid ≤ 0 := by omega
      simp [this]
    · have : simid ≤ 0 := by omega
      simp [this]
  induction a with
  | nil => simp [namedRows, attrRows]
  | cons x xs ih =>
    have hx := (List.nodup_cons.1 (by simpa using h) : x.1 ∉ xs.map Prod.fst ∧ (xs.map Prod.fst).Nodup)
    obtain ⟨x1, x2⟩ := x
    have e : namedRows (attrRows s ((x1, x2) :: xs)) simid name =
        (if decide (x1 = name) && (if simid > 0 then decide (s = simid) else true) then [⟨x1, x2, s⟩] else []) ++
          namedRows (attrRows s xs) simid name := by
      simp only [namedRows, attrRows, List.map_cons, List.filter_cons]
      split_ifs <;> simp
    rw [e, List.map_append, ih hx.2, hflag]
    by_cases hv : simid ≤ 0 ∨ s = simid
    · by_cases hk : x1 = name
      · subst hk
        have : List.lookup x1 xs = none := by
          rw [List.lookup_eq_none_iff]
          intro p hp
          have := hx.1
          simp only [List.mem_map, not_exists, not_and] at this
          simpa using fun h : x1 = p.1 => this p hp h.symm
        simp [this, hv]
      · have : (name == x1) = false := by simpa using fun h : name = x1 => hk h.symm
        simp [hk, this, List.lookup_cons]
    · simp [hv]

private theorem storedNumbers_eq (calls : List (AttrCall V)) (hmap : ∀ c ∈ calls, c.names.Nodup)
    (simid : Int) (name : Str) :
    (namedRows (afterCalls calls).numbers simid name).map (fun r => (r.simID, r.value)) =
      storedNumbers calls simid name := by
  rw [(afterCalls_tables calls).1]
  induction calls with
  | nil => rfl
  | cons c cs ih =>
    have ih := ih (fun c hc => hmap c (List.mem_cons_of_mem _ hc))
    have e : namedRows ((c :: cs).flatMap AttrCall.numRows) simid name =
        namedRows c.numRows simid name ++ namedRows (cs.flatMap AttrCall.numRows) simid name := by
      simp [namedRows]
    rw [e, List.map_append, ih]
    cases c with
    | number s a =>
      have := namedRows_attrRows s simid name a (hmap _ List.mem_cons_self)
      simp only [AttrCall.numRows]
      rw [this]
      simp only [storedNumbers, List.filter_cons]
      by_cases hv : simid ≤ 0 ∨ s = simid
      · have hv' : (decide (simid ≤ 0) || decide ((AttrCall.number s a : AttrCall V).sim = simid)) = true := by
          rw [Bool.or_eq_true]
          exact hv.imp decide_eq_true decide_eq_true
        have hf : (AttrCall.number s a : AttrCall V).numberFor (AttrCall.number s a : AttrCall V).sim name =
            List.lookup name a := if_pos rfl
        rw [if_pos hv, if_pos hv', List.filterMap_cons, hf]
        cases List.lookup name a <;> rfl
      · have hv' : ¬ (decide (simid ≤ 0) || decide ((AttrCall.number s a : AttrCall V).sim = simid)) = true := by
          rw [Bool.or_eq_true]
          exact fun h => hv (h.imp of_decide_eq_true of_decide_eq_true)
        rw [if_neg hv, if_neg hv', List.nil_append]
    | text s a =>
      simp only [storedNumbers, List.filter_cons]
      split_ifs <;> simp [AttrCall.numRows, namedRows, AttrCall.numberFor]

private theorem storedTexts_eq (calls : List (AttrCall V)) (hmap : ∀ c ∈ calls, c.names.Nodup)
    (simid : Int) (name : Str) :
    (namedRows (afterCalls calls).texts simid name).map (fun r => (r.simID, r.value)) =
      storedTexts calls simid name := by
  rw [(afterCalls_tables calls).2]
  induction calls with
  | nil => rfl
  | cons c cs ih =>
    have ih := ih (fun c hc => hmap c (List.mem_cons_of_mem _ hc))
    have e : namedRows ((c :: cs).flatMap AttrCall.textRows) simid name =
        namedRows c.textRows simid name ++ namedRows (cs.flatMap AttrCall.textRows) simid name := by
      simp [namedRows]
    rw [e, List.map_append, ih]
    cases c with
    | text s a =>
      have := namedRows_attrRows s simid name a (hmap _ List.mem_cons_self)
      simp only [AttrCall.textRows]
      rw [this]
      simp only [storedTexts, List.filter_cons]
      by_cases hv : simid ≤ 0 ∨ s = simid
      · have hv' : (decide (simid ≤ 0) || decide ((AttrCall.text s a : AttrCall V).sim = simid)) = true := by
          rw [Bool.or_eq_true]
          exact hv.imp decide_eq_true decide_eq_true
        have hf : (AttrCall.text s a : AttrCall V).textFor (AttrCall.text s a : AttrCall V).sim name =
            List.lookup name a := if_pos rfl
        rw [if_pos hv, if_pos hv', List.filterMap_cons, hf]
        cases List.lookup name a <;> rfl
      · have hv' : ¬ (decide (simid ≤ 0) || decide ((AttrCall.text s a : AttrCall V).sim = simid)) = true := by
          rw [Bool.or_eq_true]
          exact fun h => hv (h.imp of_decide_eq_true of_decide_eq_true)
        rw [if_neg hv, if_neg hv', List.nil_append]
    | number s a =>
      simp only [storedTexts, List.filter_cons]
      split_ifs <;> simp [AttrCall.textRows, namedRows, AttrCall.textFor]

private theorem textLoop_eq (parse : Str → Option V) (rows : List (AttrRow Str)) (id0 : Int) :
    textLoop parse rows id0 = (List.range rows.length).map fun i : ℕ =>
      (((((rows.take (i + 1)).filter fun r => (parse r.value).isSome).map (·.simID)).getLast?).getD id0, []) := by
  induction rows generalizing id0 with
  | nil => rfl
  | cons r rs ih =>
    rw [textLoop, List.length_cons, List.range_succ_eq_map, List.map_cons, ih, List.map_map]
    congr 1
    · by_cases h : (parse r.value).isSome <;> simp [h]
    · refine List.map_congr_left fun i _ => ?_
      simp only [Function.comp_apply, Nat.succ_eq_add_one]
      rw [List.take_succ_cons, List.filter_cons]
      split_ifs with h
      · rw [List.map_cons, List.getLast?_cons]
        rfl
      · rfl

/-- C109: the listing of one attribute prints the stored numbers with their simulations, in the order in
which they were stored, and then one line per stored text. No text is ever printed: the value in those
lines is empty, and the id in them is that of the last number, or the last text that can be read as a
number, printed before or in that line (or 0 without such a line). -/
theorem c109_output (fmtNum : V → Str) (parse : Str → Option V) (calls : List (AttrCall V))
    (hmap : ∀ c ∈ calls, c.names.Nodup) (simid : Int) (name : Str) :
    listSingleAttribute fmtNum parse (afterCalls calls) simid name =
      (storedNumbers calls simid name).map (fun x => (x.1, fmtNum x.2)) ++
      (List.range (storedTexts calls simid name).length).map fun i : ℕ =>
        (((((storedNumbers calls simid name).map Prod.fst ++
          (((storedTexts calls simid name).take (i + 1)).filter fun x => (parse x.2).isSome).map
            Prod.fst).getLast?).getD 0, []) : Int × Str) := by
  rw [← storedNumbers_eq calls hmap, ← storedTexts_eq calls hmap, listSingleAttribute]
  simp only [List.map_map, List.length_map]
  congr 1
  rw [textLoop_eq]
  refine List.map_congr_left fun i _ => ?_
  congr 1
  have hl : (namedRows (afterCalls calls).numbers simid name).foldl
      (fun (_ : Int) (r : AttrRow V) => r.simID) 0 =
      (((namedRows (afterCalls calls).numbers simid name).map (·.simID)).getLast?).getD 0 := by
    induction namedRows (afterCalls calls).numbers simid name using List.reverseRecOn with
    | nil => rfl
    | append_singleton l r _ => simp
  rw [hl, ← List.map_take, List.filter_map, List.map_map, List.getLast?_append]
  simp only [Function.comp_def]
  cases ((((namedRows (afterCalls calls).texts simid name).take (i + 1)).filter
    fun r => (parse r.value).isSome).map (·.simID)).getLast? <;> rfl

/-- C109: if the attribute was stored only as texts that are not numerals, every line names simulation 0
and shows nothing. -/
theorem c109_text_only (fmtNum : V → Str) (parse : Str → Option V) (calls : List (AttrCall V))
    (hmap : ∀ c ∈ calls, c.names.Nodup) (simid : Int) (name : Str)
    (hn : storedNumbers calls simid name = [])
    (ht : ∀ x ∈ storedTexts calls simid name, parse x.2 = none) :
    listSingleAttribute fmtNum parse (afterCalls calls) simid name =
      List.replicate (storedTexts calls simid name).length (0, []) := by
  rw [c109_output fmtNum parse calls hmap, hn]
  simp only [List.map_nil, List.nil_append]
  rw [List.eq_replicate_iff]
  refine ⟨by simp, ?_⟩
  intro b hb
  simp only [List.mem_map] at hb
  obtain ⟨i, -, rfl⟩ := hb
  have : ((storedTexts calls simid name).take (i + 1)).filter (fun x => (parse x.2).isSome) = [] := by
    rw [List.filter_eq_nil_iff]
    intro x hx
    simp [ht x (List.mem_of_mem_take hx)]
  simp [this]

example : storedNumbers demoCalls (-1) "a".toList = [(3, 1), (7, 5), (7, 6)] ∧
    storedTexts demoCalls (-1) "a".toList = [(3, "x".toList)] ∧
    listSingleAttribute (fun n : ℕ => List.replicate n '|') (fun _ => none) (afterCalls demoCalls) (-1) "a".toList =
      [(3, "|".toList), (7, "|||||".toList), (7, "||||||".toList), (7, [])] := by
  refine ⟨?_, ?_, ?_⟩ <;> decide +kernel

example : storedNumbers ([.text 3 [("a".toList, "x".toList)]] : List (AttrCall ℕ)) (-1) "a".toList = [] ∧
    storedTexts ([.text 3 [("a".toList, "x".toList)]] : List (AttrCall ℕ)) (-1) "a".toList =
      [(3, "x".toList)] := by
  refine ⟨?_, ?_⟩ <;> decide +kernel

/-! ## C110 comments -/

/-- What can happen to the comments of a database: a simulation comments, or the command line tool is
called with an id and a new text. -/
inductive CommentOp where
  | comment (simID : Int) (text : Str)
  | command (simID : Int) (new : Str)

/-- The table of comments after a history, the oldest first. -/
def commentTable (ops : List CommentOp) : List (Int × Str) :=
  ops.foldl (fun (rows : List (Int × Str)) (o : CommentOp) => match o with
    | .comment s c => addComment rows s c
    | .command s new => (commentCmd rows s new).1) []

/-- The current comment of a simulation; the history is given with the newest entry first. A simulation's
own comments are kept on one line. The tool can only replace a comment that exists. -/
def currentComment (s : Int) : List CommentOp → Option Str
  | [] => none
  | .comment s' c :: ops =>
    if s' = s then some (c.map fun ch => if ch = '\n' then ' ' else ch) else currentComment s ops
  | .command s' new :: ops =>
    if s' = s ∧ 0 ≤ s ∧ new ≠ [] ∧ (currentComment s ops).isSome then some new else currentComment s ops

private theorem commentsOf_update (rows : List (Int × Str)) (s s' : Int) (new : Str) :
    commentsOf (updateComment rows s' new) s =
      if s' = s then List.replicate (commentsOf rows s).length new else commentsOf rows s := by
  induction rows with
  | nil => simp [commentsOf, updateComment]
  | cons r rs ih =>
    simp only [commentsOf, updateComment, List.map_cons, List.filter_cons] at ih ⊢
    by_cases h1 : r.1 = s' <;> by_cases h2 : r.1 = s <;> by_cases h3 : s' = s <;>
      simp_all [List.replicate_succ]

private theorem commentTable_append (ops : List CommentOp) (o : CommentOp) :
    commentTable (ops ++ [o]) = match o with
    | .comment s c => addComment (commentTable ops) s c
    | .command s new => (commentCmd (commentTable ops) s new).1 := by
  simp only [commentTable, List.foldl_append, List.foldl_cons, List.foldl_nil]

/-- C110: after any history, the newest comment of a simulation in the table is its current comment: the
text of its last comment with line breaks replaced, or what the tool replaced it with. -/
theorem c110_last (ops : List CommentOp) (s : Int) :
    (commentsOf (commentTable ops) s).getLast? = currentComment s ops.reverse := by
  induction ops using List.reverseRecOn with
  | nil => rfl
  | append_singleton ops o ih =>
    rw [commentTable_append, List.reverse_append]
    cases o with
    | comment s' c =>
      simp only [List.reverse_singleton, List.singleton_append, currentComment]
      by_cases h : s' = s
      · simp [h, commentsOf, addComment, oneLine]
      · rw [if_neg h, ← ih]
        simp [h, commentsOf, addComment]
    | command s' new =>
      simp only [List.reverse_singleton, List.singleton_append, currentComment]
      rw [← ih]
      by_cases hneg : s' < 0
      · have : ¬ (s' = s ∧ 0 ≤ s ∧ new ≠ [] ∧ ((commentsOf (commentTable ops) s).getLast?).isSome) := by
          rintro ⟨rfl, h, -⟩
          omega
        rw [if_neg this, commentCmd, if_pos hneg]
      · rw [commentCmd, if_neg hneg]
        by_cases hnew : new = []
        · have : ¬ (s' = s ∧ 0 ≤ s ∧ new ≠ [] ∧ ((commentsOf (commentTable ops) s).getLast?).isSome) :=
            fun h => h.2.2.1 hnew
          rw [if_neg this, if_neg (not_not.2 hnew)]
        · rw [if_pos hnew, commentsOf_update]
          by_cases h : s' = s
          · subst h
            rw [if_pos rfl]
            by_cases he : commentsOf (commentTable ops) s' = []
            · simp [he]
            · have hlen : 0 < (commentsOf (commentTable ops) s').length := List.length_pos_iff.2 he
              have : ((commentsOf (commentTable ops) s').getLast?).isSome := by simpa using he
              rw [if_pos ⟨rfl, by omega, hnew, this⟩, List.getLast?_replicate, if_neg (by omega)]
          · rw [if_neg h, if_neg (fun h' => h h'.1)]

/-- C110: called with an id and without a new text, the tool shows the current comment of that simulation
and changes nothing. -/
theorem c110_shown (ops : List CommentOp) (s : Int) (hs : 0 ≤ s) :
    commentCmd (commentTable ops) s [] =
      (commentTable ops, .comment s ((currentComment s ops.reverse).getD [])) := by
  rw [commentCmd, if_neg (by omega), if_neg (by simp), ← c110_last, shownComment]
  congr 2
  induction commentsOf (commentTable ops) s using List.reverseRecOn with
  | nil => rfl
  | append_singleton l r _ => simp

/-- C110: called with a new text, the tool always reports success; the new text is the current comment from
then on, and every comment stored for the simulation is replaced by it, if and only if the simulation had
one. Comments of other simulations stay. -/
theorem c110_update (ops : List CommentOp) (s : Int) (hs : 0 ≤ s) (new : Str) (hn : new ≠ []) :
    (commentCmd (commentTable ops) s new).2 = .updated s ∧
    (currentComment s (.command s new :: ops.reverse) = some new ↔
      (currentComment s ops.reverse).isSome) ∧
    (∀ c ∈ commentsOf (commentCmd (commentTable ops) s new).1 s, c = new) ∧
    ∀ s', s' ≠ s → commentsOf (commentCmd (commentTable ops) s new).1 s' =
      commentsOf (commentTable ops) s' := by
  have hc : commentCmd (commentTable ops) s new = (updateComment (commentTable ops) s new, .updated s) := by
    rw [commentCmd, if_neg (by omega), if_pos hn]
  refine ⟨by rw [hc], ?_, ?_, ?_⟩
  · rw [currentComment]
    cases h : currentComment s ops.reverse with
    | none => simp
    | some c => simp [hs, hn]
  · rw [hc]
    intro c h
    simp only at h
    rw [commentsOf_update, if_pos rfl] at h
    exact List.eq_of_mem_replicate h
  · intro s' h
    rw [hc]
    simp only
    rw [commentsOf_update, if_neg (fun e => h e.symm)]

/-- C110: a new text for a simulation without a comment is reported as a success and lost. -/
theorem c110_lost (s : Int) (hs : 0 ≤ s) (new : Str) (hn : new ≠ []) (rows : List (Int × Str))
    (h : ∀ r ∈ rows, r.1 ≠ s) : commentCmd rows s new = (rows, .updated s) := by
  rw [commentCmd, if_neg (by omega), if_pos hn]
  congr 1
  rw [updateComment]
  conv_rhs => rw [← List.map_id rows]
  exact List.map_congr_left fun r hr => by rw [if_neg (h r hr)]; rfl

example : commentTable [.comment 3 "a\nb".toList, .comment 4 "c".toList, .command 3 "new".toList] =
    [(3, "new".toList), (4, "c".toList)] ∧
    currentComment 3 [.comment 3 "a\nb".toList] = some "a b".toList ∧
    commentCmd [(4, "c".toList)] 3 "new".toList = ([(4, "c".toList)], .updated 3) := by
  refine ⟨?_, ?_, ?_⟩
  · decide +kernel
  · decide +kernel
  · exact c110_lost 3 (by decide) _ (by decide) _ (by decide)

end Gopf.Props
