import Verif.Model.Overview
import Verif.Props.Database
import Verif.Props.Cmd
import Mathlib.Data.List.Sort
import Mathlib.Data.List.Lex
import Mathlib.Data.Char

/-!
# C120: which simulations a database holds, newest first
-/

namespace Gopf.Props
open Spec Pfutil Pf Cmd

/-! ## Specification -/

/-- A date and a time of day that the format can show. -/
structure Moment.Valid (t : Moment) : Prop where
  year : t.year < 10000
  month : t.month < 100
  day : t.day < 100
  hour : t.hour < 100
  minute : t.minute < 100
  second : t.second < 100

/-- The clock showed `a` before it showed `b`, as long as nobody sets it back. -/
def Earlier (a b : Moment) : Prop :=
  a.year < b.year ∨ a.year = b.year ∧ (a.month < b.month ∨ a.month = b.month ∧ (a.day < b.day ∨
    a.day = b.day ∧ (a.hour < b.hour ∨ a.hour = b.hour ∧ (a.minute < b.minute ∨
      a.minute = b.minute ∧ a.second < b.second))))

/-- The table after simulations with these numbers were created at these times. -/
def history (l : List (Int × Moment)) : SimTable :=
  l.foldl (fun (rows : SimTable) (s : Int × Moment) => registerSim rows s.1 s.2) []

/-! ## Times as text -/

theorem padDigits_length (k n : ℕ) : (padDigits k n).length = k := by
  induction k generalizing n with
  | zero => rfl
  | succ k ih => simp [padDigits, ih]

theorem lt_append {a b : Str} (h : a < b) (hl : a.length = b.length) (x y : Str) : a ++ x < b ++ y := by
  induction a generalizing b with
  | nil => cases b with
    | nil => exact absurd h (List.lt_irrefl _)
    | cons c b => simp at hl
  | cons c a ih => cases b with
    | nil => simp at hl
    | cons d b =>
      rw [List.cons_append, List.cons_append, List.cons_lt_cons_iff]
      rw [List.cons_lt_cons_iff] at h
      rcases h with h | ⟨h, h'⟩
      · exact Or.inl h
      · exact Or.inr ⟨h, ih h' (by simpa using hl)⟩

theorem append_lt (a : Str) {x y : Str} (h : x < y) : a ++ x < a ++ y := by
  induction a with
  | nil => exact h
  | cons c a ih => rw [List.cons_append, List.cons_append, List.cons_lt_cons_iff]; exact Or.inr ⟨rfl, ih⟩

private theorem digit_lt : ∀ m < 10, ∀ n < m, Nat.digitChar n < Nat.digitChar m := by decide

theorem padDigits_lt (k : ℕ) {m n : ℕ} (h : m < n) (hn : n < 10 ^ k) : padDigits k m < padDigits k n := by
  induction k generalizing m n with
  | zero => omega
  | succ k ih =>
    unfold padDigits
    rcases Nat.lt_or_ge (m / 10) (n / 10) with h1 | h1
    · refine lt_append (ih h1 ?_) (by rw [padDigits_length, padDigits_length]) _ _
      rw [pow_succ] at hn
      omega
    · have h2 : m / 10 = n / 10 := le_antisymm (Nat.div_le_div_right h.le) h1
      rw [h2]
      refine append_lt _ ?_
      rw [List.cons_lt_cons_iff]
      exact Or.inl (digit_lt _ (Nat.mod_lt _ (by norm_num)) _ (by omega))

private theorem part_lt (k : ℕ) {m n : ℕ} (hn : n < 10 ^ k) (c : Char) {x y : Str} (h : m < n ∨ m = n ∧ x < y) :
    padDigits k m ++ c :: x < padDigits k n ++ c :: y := by
  rcases h with h | ⟨rfl, h⟩
  · exact lt_append (padDigits_lt k h hn) (by rw [padDigits_length, padDigits_length]) _ _
  · refine append_lt _ ?_
    rw [List.cons_lt_cons_iff]
    exact Or.inr ⟨rfl, h⟩

/-- C120: the texts of the creation times are ordered as the times. -/
theorem c120_times {a b : Moment} (hb : Moment.Valid b) (h : Earlier a b) : datetime a < datetime b := by
  unfold datetime
  refine part_lt 4 hb.year _ (Or.imp_right (And.imp_right fun h => ?_) h)
  refine part_lt 2 hb.month _ (Or.imp_right (And.imp_right fun h => ?_) h)
  refine part_lt 2 hb.day _ (Or.imp_right (And.imp_right fun h => ?_) h)
  refine part_lt 2 hb.hour _ (Or.imp_right (And.imp_right fun h => ?_) h)
  refine part_lt 2 hb.minute _ (Or.imp_right (And.imp_right fun h => ?_) h)
  exact padDigits_lt 2 h hb.second

/-! ## Newest first -/

private theorem history_eq (l : List (Int × Moment)) (hn : (l.map (·.1)).Nodup) :
    history l = l.map fun s => (s.1, datetime s.2) := by
  have key : ∀ (l : List (Int × Moment)) (rows : SimTable), (rows.map (·.1) ++ l.map (·.1)).Nodup →
      l.foldl (fun (rows : SimTable) (s : Int × Moment) => registerSim rows s.1 s.2) rows =
        rows ++ l.map fun s => (s.1, datetime s.2) := by
    intro l
    induction l with
    | nil => intro rows _; simp
    | cons s l ih =>
      intro rows h
      have hs : s.1 ∉ rows.map (·.1) := by
        intro hm
        rw [List.nodup_append] at h
        exact h.2.2 _ hm _ (by simp) rfl
      rw [List.foldl_cons, registerSim, if_neg hs, ih]
      · simp
      · simpa using h
  have := key l [] (by simpa using hn)
  rwa [List.nil_append] at this

/-- C120: if the clock showed another second for every simulation and was never set back, the simulations are
listed newest first, as many as asked for (all for a negative number), each with its creation time. -/
theorem c120_newest_first (l : List (Int × Moment)) (hn : (l.map (·.1)).Nodup)
    (hv : ∀ s ∈ l, Moment.Valid s.2) (ho : l.Pairwise fun a b => Earlier a.2 b.2) (max : Int) (res : SimTable) :
    IsNewest (history l) max res ↔ res = (if max < 0 then l.reverse else l.reverse.take max.toNat).map
      fun s => (s.1, datetime s.2) := by
  rw [history_eq l hn]
  have hp : (l.map fun s => (s.1, datetime s.2)).Pairwise fun a b => a.2 < b.2 := by
    rw [List.pairwise_map]
    exact ho.imp_of_mem fun {a b} _ hb h => c120_times (hv b hb) h
  generalize hrows : (l.map fun s => (s.1, datetime s.2)) = rows at hp
  have hrev : rows.reverse.Pairwise fun a b => ¬ a.2 < b.2 := by
    rw [List.pairwise_reverse]
    exact hp.imp fun {a b} h => List.lt_asymm h
  have hinj : ∀ a ∈ rows, ∀ b ∈ rows, a.2 = b.2 → a = b := by
    intro a ha b hb e
    have hnd : (rows.map (·.2)).Nodup := by
      rw [List.Nodup, List.pairwise_map]
      exact hp.imp fun {a b} h e => by rw [e] at h; exact List.lt_irrefl _ h
    exact List.inj_on_of_nodup_map hnd ha hb e
  have huniq : ∀ sorted : SimTable, sorted.Perm rows → sorted.Pairwise (fun a b => ¬ a.2 < b.2) →
      sorted = rows.reverse := by
    intro sorted hs1 hs2
    refine List.Perm.eq_of_pairwise ?_ hs2 hrev (hs1.trans (List.reverse_perm _).symm)
    intro a b ha hb h1 h2
    exact hinj a (hs1.mem_iff.mp ha) b (List.mem_reverse.mp hb) (List.le_antisymm (List.not_lt.mp h2) (List.not_lt.mp h1))
  have hm : (if max < 0 then l.reverse else l.reverse.take max.toNat).map (fun s => (s.1, datetime s.2)) =
      if max < 0 then rows.reverse else rows.reverse.take max.toNat := by
    rw [← hrows]
    split_ifs <;> simp [List.map_reverse, List.map_take]
  rw [hm]
  constructor
  · rintro ⟨sorted, h1, h2, rfl⟩
    rw [huniq sorted h1 h2]
  · rintro rfl
    exact ⟨rows.reverse, List.reverse_perm _, hrev, rfl⟩

/-- Three simulations of one evening and the following night. -/
example : ([((7 : Int), (⟨2020, 12, 31, 23, 59, 58⟩ : Moment)), (3, ⟨2020, 12, 31, 23, 59, 59⟩),
    (5, ⟨2021, 1, 1, 0, 0, 0⟩)]).Pairwise fun a b => Earlier a.2 b.2 := by
  simp [Earlier]

/-- C120: whatever the clock did, as many simulations are listed as asked for, if there are so many, and none
that is left out has a later creation time than one that is listed. -/
theorem c120_listed {rows res : SimTable} {max : Int} (h : IsNewest rows max res) :
    (res.length : Int) = (if max < 0 then (rows.length : Int) else min max rows.length) ∧
    ∃ rest, (res ++ rest).Perm rows ∧ ∀ a ∈ res, ∀ b ∈ rest, ¬ a.2 < b.2 := by
  obtain ⟨sorted, h1, h2, rfl⟩ := h
  have hl := h1.length_eq
  split_ifs with hm
  · exact ⟨by rw [hl], [], by simpa using h1, by simp⟩
  · refine ⟨by rw [List.length_take]; omega, sorted.drop max.toNat, by rw [List.take_append_drop]; exact h1, ?_⟩
    intro a ha b hb
    have := h2
    rw [← List.take_append_drop max.toNat sorted, List.pairwise_append] at this
    exact this.2.2 a ha b hb

/-- C120: the remark on the number of rows appears exactly when rows are left out, or for every negative limit,
for which nothing is left out. -/
theorem c120_remark {rows res : SimTable} {max : Int} (h : IsNewest rows max res) :
    showingRemark rows max = (if res.length < rows.length ∨ max < 0 then some (max, (rows.length : Int)) else none) := by
  have hl := (c120_listed h).1
  unfold showingRemark
  split_ifs at hl ⊢ <;> first | rfl | omega

/-- C120: the newest simulation, which the commands take when no id is given, is the one created last. -/
theorem c120_newest (l : List (Int × Moment)) (s : Int × Moment) (hn : ((l ++ [s]).map (·.1)).Nodup)
    (hv : ∀ t ∈ l ++ [s], Moment.Valid t.2) (ho : (l ++ [s]).Pairwise fun a b => Earlier a.2 b.2) {res : SimTable}
    (h : IsNewest (history (l ++ [s])) 1 res) : newestSimulationID res = s.1 := by
  rw [(c120_newest_first _ hn hv ho 1 res).mp h]
  simp [newestSimulationID]

/-- C120: without simulations zero is taken. -/
theorem c120_newest_empty {res : SimTable} (h : IsNewest (history []) 1 res) : newestSimulationID res = 0 := by
  obtain ⟨sorted, h1, -, rfl⟩ := h
  obtain rfl := h1.eq_nil
  rfl

/-- C120: of two simulations created in the same second either can be taken for the newest. -/
theorem c120_same_second (a b : Int) (hab : a ≠ b) (t : Moment) : ∀ id ∈ [a, b], ∃ res,
    IsNewest (history [(a, t), (b, t)]) 1 res ∧ newestSimulationID res = id := by
  rw [history_eq _ (by simpa using hab)]
  intro id hid
  rcases List.mem_cons.mp hid with rfl | hid
  · refine ⟨[(id, datetime t)], ⟨[(id, datetime t), (b, datetime t)], by simp, ?_, rfl⟩, rfl⟩
    simp
  · obtain rfl := List.mem_singleton.mp hid
    refine ⟨[(id, datetime t)], ⟨[(id, datetime t), (a, datetime t)], List.Perm.swap _ _ _, ?_, rfl⟩, rfl⟩
    simp

/-- C120: local time is used: when the clock is set back between two simulations the first is taken for the
newest. -/
theorem c120_set_back (a b : Int) (hab : a ≠ b) {t u : Moment} (ht : Moment.Valid t) (hut : Earlier u t)
    {res : SimTable} (h : IsNewest (history [(a, t), (b, u)]) 1 res) : newestSimulationID res = a := by
  rw [history_eq _ (by simpa using hab)] at h
  have hlt := c120_times ht hut
  have h2 : IsNewest (history [(b, u), (a, t)]) 1 res := by
    rw [history_eq _ (by simpa using hab.symm)]
    obtain ⟨sorted, h1, h3, h4⟩ := h
    exact ⟨sorted, h1.trans (List.Perm.swap _ _ _), h3, h4⟩
  obtain ⟨sorted, h1, h3, rfl⟩ := h
  have hs : sorted = [(a, datetime t), (b, datetime u)] := by
    refine List.Perm.eq_of_pairwise ?_ h3 ?_ h1
    · intro x y hx hy h5 h6
      have e := List.le_antisymm (List.not_lt.mp h6) (List.not_lt.mp h5)
      have hx' := h1.mem_iff.mp hx
      simp only [List.map_cons, List.map_nil, List.mem_cons, List.not_mem_nil, or_false] at hx' hy
      rcases hx' with rfl | rfl <;> rcases hy with rfl | rfl
      · rfl
      · exact absurd hlt (by rw [show datetime t = datetime u from e]; exact List.lt_irrefl _)
      · exact absurd hlt (by rw [show datetime u = datetime t from e]; exact List.lt_irrefl _)
      · rfl
    · simp only [List.pairwise_cons, List.mem_cons, List.not_mem_nil, or_false, forall_eq, List.Pairwise.nil,
        and_true, IsEmpty.forall_iff, implies_true]
      exact List.lt_asymm hlt
  rw [hs]
  rfl

/-- C120: the command `time` prints the creation time of the simulation it names; for an unknown id nothing. -/
theorem c120_time (l : List (Int × Moment)) (hn : (l.map (·.1)).Nodup) (res : SimTable) (id : Int) (h0 : 0 ≤ id) :
    (∀ t, (id, t) ∈ l → timeCmd (history l) res id = (id, datetime t)) ∧
    (id ∉ l.map (·.1) → timeCmd (history l) res id = (id, [])) := by
  unfold timeCmd
  rw [if_neg (not_lt.mpr h0), history_eq l hn]
  dsimp only
  constructor
  · intro t ht
    have : (l.map fun s => (s.1, datetime s.2)).filter (fun r => decide (r.1 = id)) = [(id, datetime t)] := by
      induction l with
      | nil => simp at ht
      | cons s l ih =>
        rw [List.map_cons, List.nodup_cons] at hn
        rcases List.mem_cons.mp ht with rfl | ht
        · rw [List.map_cons, List.filter_cons_of_pos (by simp), List.filter_eq_nil_iff.mpr]
          intro x hx
          obtain ⟨y, hy, rfl⟩ := List.mem_map.mp hx
          simp only [decide_eq_true_eq]
          intro e
          exact hn.1 (List.mem_map.mpr ⟨y, hy, e⟩)
        · rw [List.map_cons, List.filter_cons_of_neg, ih hn.2 ht]
          simp only [decide_eq_true_eq]
          intro e
          exact hn.1 (List.mem_map.mpr ⟨_, ht, e.symm⟩)
    rw [this]
    rfl
  · intro ht
    have : (l.map fun s => (s.1, datetime s.2)).filter (fun r => decide (r.1 = id)) = [] := by
      rw [List.filter_eq_nil_iff]
      intro x hx
      obtain ⟨y, hy, rfl⟩ := List.mem_map.mp hx
      simp only [decide_eq_true_eq]
      intro e
      exact ht (List.mem_map.mpr ⟨y, hy, e⟩)
    rw [this]
    rfl

/-- C120: an id that is drawn a second time keeps its first creation time and is counted once. -/
theorem c120_drawn_again (l : List (Int × Moment)) (s : Int × Moment) (h : s.1 ∈ l.map (·.1))
    (hn : (l.map (·.1)).Nodup) : history (l ++ [s]) = history l := by
  unfold history
  rw [List.foldl_append]
  change registerSim (history l) s.1 s.2 = history l
  unfold registerSim
  rw [if_pos]
  rw [history_eq l hn, List.map_map]
  exact h

/-! ## The summary -/

variable {V : Type}

/-- C120: `info` shows the sides of the domain (a missing one as 1), every field name and every attribute
name. A name is shown twice exactly if it is the name of a number and of a text. -/
theorem c120_info {dims : List Int} (hd : GoodDims dims) (hN : 2 ≤ numNodes dims) {db : DB V}
    {as : List (Attempt V)} (h : Run dims db as) (hs : ∃ a ∈ as, a.crashed = false)
    (order : List Str → List Str) (hord : ∀ l, (order l).Perm l) (sims : SimTable) (attrs : AttrDB V)
    (series : List (SeriesRow V)) :
    let info := infoCmd order sims db attrs series
    info.dims = (dims.getD 0 1, dims.getD 1 1, dims.getD 2 1) ∧
    (∀ nm, nm ∈ info.fields ↔ ∃ r ∈ db.fields, r.name = nm) ∧ info.fields.Nodup ∧
    (∀ nm, info.attributes.count nm = (if ∃ r ∈ attrs.numbers, r.key = nm then 1 else 0) +
      (if ∃ r ∈ attrs.texts, r.key = nm then 1 else 0)) ∧
    (∀ nm, nm ∈ info.series ↔ ∃ r ∈ series, r.key = nm) ∧ info.series.Nodup := by
  obtain ⟨-, -, -, hfull⟩ := run_inv hd hN h
  have hp := hfull hs
  refine ⟨?_, ?_, ?_, ?_, ?_, ?_⟩
  · unfold infoCmd
    rw [hp]
    simp only
    have hc : ∀ k, maxOrZero ((fullTable dims).map fun row => row.getD k 0) + 1 = dims.getD k 1 := by
      intro k
      by_cases hk : k < dims.length
      · rw [maxOrZero_col hd k hk, List.getD_eq_getElem?_getD, List.getElem?_eq_getElem hk]
        simp
      · rw [List.getD_eq_getElem?_getD (i := k) (l := dims), List.getElem?_eq_none (by omega), Option.getD_none]
        have h0 : ∀ x ∈ (fullTable dims).map (fun row => row.getD k 0), x = 0 := by
          intro x hx
          simp only [fullTable, List.map_map, List.mem_map, List.mem_range, Function.comp] at hx
          obtain ⟨i, hi, rfl⟩ := hx
          obtain ⟨p, hp, hb, -⟩ := pos_spec hd (n := (i : Int)) (by omega) (by omega)
          simp only [padPos, hp, Option.getD_some]
          have hl : p.length ≤ k := by rw [← hb.length_eq]; omega
          rw [List.getD_eq_getElem?_getD, List.getElem?_append_right hl, List.getElem?_replicate]
          split_ifs <;> rfl
        have : maxOrZero ((fullTable dims).map fun row => row.getD k 0) = 0 := by
          unfold maxOrZero
          cases hm : ((fullTable dims).map fun row => row.getD k 0).max? with
          | none => rfl
          | some m => exact h0 m (List.max?_eq_some_iff.mp hm).1
        rw [this]; rfl
    rw [hc, hc, hc]
  · intro nm
    simp only [infoCmd, (hord _).mem_iff, List.mem_dedup, List.mem_map]
  · exact (hord _).nodup_iff.mpr (List.nodup_dedup _)
  · intro nm
    have hc : ∀ keys : List Str, keys.dedup.count nm = if nm ∈ keys then 1 else 0 := by
      intro keys
      split_ifs with hm
      · exact List.count_eq_one_of_mem (List.nodup_dedup _) (List.mem_dedup.mpr hm)
      · exact List.count_eq_zero.mpr fun h => hm (List.mem_dedup.mp h)
    simp only [infoCmd, List.count_append, (hord _).count_eq, hc, List.mem_map]
  · intro nm
    simp only [infoCmd, (hord _).mem_iff, List.mem_dedup, List.mem_map]
  · exact (hord _).nodup_iff.mpr (List.nodup_dedup _)

/-- C120: an empty database is shown with dimensions (1, 1, 1). -/
theorem c120_info_empty (order : List Str → List Str) (sims : SimTable) (attrs : AttrDB V) (series : List (SeriesRow V)) :
    (infoCmd order sims ⟨[], [], []⟩ attrs series).dims = (1, 1, 1) := rfl

theorem padRight_length {w : ℕ} {s : Str} (h : s.length ≤ w) : (padRight w s).length = w := by
  unfold padRight
  rw [List.length_append, List.length_replicate]
  omega

theorem padLeft_length {w : ℕ} {s : Str} (h : s.length ≤ w) : (padLeft w s).length = w := by
  unfold padLeft
  rw [List.length_append, List.length_replicate]
  omega

theorem infoLine_length {d v : Str} (hd : d.length ≤ 16) (hv : v.length ≤ 60) : (infoLine d v).length = 83 := by
  unfold infoLine
  have h1 := padRight_length (w := descWidth) hd
  have h2 := padLeft_length (w := valueWidth) hv
  simp only [List.length_append, h1, h2]
  rfl

/-- The text between the bars of the second column. -/
def valueColumn (line : Str) : Str := (line.drop 21).take 60

theorem valueColumn_infoLine {d v : Str} (hd : d.length ≤ 16) (hv : v.length ≤ 60) :
    valueColumn (infoLine d v) = padLeft 60 v := by
  unfold valueColumn infoLine
  have h1 := padRight_length (w := descWidth) hd
  have h2 : (padLeft valueWidth v).length = 60 := padLeft_length (w := valueWidth) hv
  have h0 : ("| ".toList ++ padRight descWidth d ++ " | ".toList).length = 21 := by
    simp only [List.length_append, h1]
    rfl
  rw [List.append_assoc (_ ++ padRight descWidth d ++ _), List.drop_append_of_le_length h0.ge, List.drop_of_length_le h0.le,
    List.nil_append, List.take_append_of_le_length h2.ge, List.take_of_length_le h2.le]
  rfl

/-- C120: the table of `info` is rectangular, whatever the names in the database are: every line has 83 characters, as
long as the number of simulations and the sides of the domain fit into a column of 60. -/
theorem c120_info_lines (i : Info) (h1 : (Pf.fmtInt i.numCalc).length ≤ 60) (h2 : (dimString i.dims).length ≤ 60) :
    ∀ line ∈ infoLines i, line.length = 83 := by
  have hlist : ∀ (name : Str) (array : List Str), name.length ≤ 16 → ∀ line ∈ listLines name array, line.length = 83 := by
    intro name array hn line hl
    unfold listLines at hl
    obtain ⟨⟨c, k⟩, hc, rfl⟩ := List.mem_map.mp hl
    have hm := (c67_printList array).2.1 c (List.mem_zipIdx' hc |>.2 ▸ List.getElem_mem _)
    refine infoLine_length ?_ hm
    dsimp only
    split_ifs
    · simp
    · exact hn
  intro line hl
  unfold infoLines at hl
  simp only [List.mem_append, List.mem_cons, List.not_mem_nil, or_false] at hl
  rcases hl with ((((rfl | rfl | rfl | rfl | rfl) | hl) | hl) | hl) | rfl
  · rfl
  · rfl
  · rfl
  · exact infoLine_length (by decide) h1
  · exact infoLine_length (by decide) h2
  · exact hlist _ _ (by decide) _ hl
  · exact hlist _ _ (by decide) _ hl
  · exact hlist _ _ (by decide) _ hl
  · rfl

/-- C120: and the names of a list can be read off: the value columns of its lines, one after the other, are the names
joined by commas, with blanks put before the last piece. -/
theorem c120_info_list (name : Str) (hn : name.length ≤ 16) (array : List Str) :
    ∃ blanks : ℕ, ∃ before last : Str, before ++ last = listText array ∧
      ((listLines name array).map valueColumn).flatten = before ++ List.replicate blanks ' ' ++ last := by
  obtain ⟨hf, hle, hlen, hfull⟩ := c67_printList array
  have hval : (listLines name array).map valueColumn = (printList array).map (padLeft 60) := by
    unfold listLines
    rw [List.map_map]
    have : ∀ c ∈ (printList array).zipIdx, (valueColumn ∘ fun c : Str × ℕ => infoLine (if c.2 > 0 then [] else name) c.1) c =
        padLeft 60 c.1 := by
      rintro ⟨c, k⟩ hc
      have hm := hle c (List.mem_zipIdx' hc |>.2 ▸ List.getElem_mem _)
      refine valueColumn_infoLine ?_ hm
      dsimp only
      split_ifs
      · simp
      · exact hn
    rw [List.map_congr_left this]
    rw [show (fun c : Str × ℕ => padLeft 60 c.1) = padLeft 60 ∘ Prod.fst from rfl, ← List.map_map, List.zipIdx_map_fst]
  have hne : printList array ≠ [] := by
    intro e
    rw [e] at hlen
    simp at hlen
  have hsplit := List.dropLast_append_getLast hne
  have hid : ∀ c ∈ (printList array).dropLast, padLeft 60 c = c := by
    intro c hc
    unfold padLeft
    rw [hfull c hc]
    rfl
  refine ⟨60 - ((printList array).getLast hne).length, (printList array).dropLast.flatten, (printList array).getLast hne, ?_, ?_⟩
  · rw [← hf]
    conv_rhs => rw [← hsplit]
    rw [List.flatten_append, List.flatten_cons, List.flatten_nil, List.append_nil]
  · rw [hval]
    conv_lhs => rw [← hsplit]
    rw [List.map_append, List.map_congr_left hid, List.map_id', List.flatten_append]
    simp [padLeft]

end Gopf.Props
