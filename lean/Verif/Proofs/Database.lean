import Verif.Model.Database
import Verif.Spec.Snapshot
import Verif.Proofs.Index

/-!
# Lemmas about the database model
-/

namespace Gopf.Pf
open Spec Pfutil

variable {V : Type}

/-- Position of node `i` with missing coordinates set to zero. -/
def padPos (dims : List Int) (i : ℕ) : List Int :=
  ((pos dims (i : Int)).getD []) ++ List.replicate (3 - dims.length) 0

/-- The complete position table. -/
def fullTable (dims : List Int) : List (List Int) :=
  (List.range (numNodes dims).toNat).map (padPos dims)

theorem pos_length {dims : List Int} (h : GoodDims dims) {i : ℕ} (hi : (i : Int) < numNodes dims) :
    ∃ p, pos dims (i : Int) = some p ∧ p.length = dims.length := by
  obtain ⟨p, hp, hb, -⟩ := pos_spec h (by omega) hi
  exact ⟨p, hp, hb.length_eq.symm⟩

theorem populateLoop_eq {dims : List Int} (h : GoodDims dims) (nodes : List ℕ)
    (hn : ∀ i ∈ nodes, (i : Int) < numNodes dims) :
    ∃ sc, populateLoop dims nodes = some (sc, nodes.map (padPos dims)) := by
  have h3 : dims.length ≤ 3 := by rcases h.1 with e | e <;> omega
  have key : ∀ (nodes : List ℕ) (acc : List Int × List (List Int)),
      (∀ i ∈ nodes, (i : Int) < numNodes dims) → acc.1.length = 3 →
      acc.1.drop dims.length = List.replicate (3 - dims.length) 0 →
      ∃ sc, nodes.foldlM (fun (acc : List Int × List (List Int)) (i : ℕ) => do
        let p ← Pfutil.pos dims (i : Int)
        let scratch := goCopy acc.1 p
        return (scratch, acc.2 ++ [scratch])) acc = some (sc, acc.2 ++ nodes.map (padPos dims)) := by
    intro nodes
    induction nodes with
    | nil => intro acc _ _ _; exact ⟨acc.1, by simp⟩
    | cons i l ih =>
      intro acc hn hlen hdrop
      obtain ⟨p, hp, hpl⟩ := pos_length h (hn i (by simp))
      have hc : goCopy acc.1 p = padPos dims i := by
        unfold goCopy padPos
        rw [hp, hpl, hdrop, List.take_of_length_le (by omega)]
        rfl
      have hlen2 : (padPos dims i).length = 3 := by
        simp only [padPos, hp, Option.getD_some, List.length_append, hpl, List.length_replicate]
        omega
      have hdrop2 : (padPos dims i).drop dims.length = List.replicate (3 - dims.length) 0 := by
        simp only [padPos, hp, Option.getD_some, ← hpl, List.drop_left]
      obtain ⟨sc, hsc⟩ := ih (padPos dims i, acc.2 ++ [padPos dims i])
        (fun j hj => hn j (by simp [hj])) hlen2 hdrop2
      refine ⟨sc, ?_⟩
      rw [List.foldlM_cons, hp]
      simp only [Option.bind_eq_bind, Option.bind_some, hc, Option.pure_def]
      rw [← List.append_cons] at hsc
      simpa using hsc
  obtain ⟨sc, hsc⟩ := key nodes ([0, 0, 0], []) hn rfl (by
    rcases h.1 with e | e <;> rw [e] <;> rfl)
  exact ⟨sc, by simpa [populateLoop] using hsc⟩

theorem populate_eq {dims : List Int} (h : GoodDims dims) {c : FieldDB} (hc : c.domainSize = dims)
    (db : DB V) : populatePositionsTable c db = some { db with positions := db.positions ++ fullTable dims } := by
  obtain ⟨sc, hsc⟩ := populateLoop_eq h (List.range (numNodes dims).toNat) (fun i hi => by
    rw [List.mem_range] at hi; omega)
  unfold populatePositionsTable
  rw [hc, prodInt_eq]
  change (do let r ← populateLoop dims (List.range (numNodes dims).toNat); _) = _
  rw [hsc]
  rfl

theorem fullTable_length (dims : List Int) : (fullTable dims).length = (numNodes dims).toNat := by
  simp [fullTable]

/-- The corner position is in the table, and no coordinate exceeds it. -/
theorem maxOrZero_col {dims : List Int} (h : GoodDims dims) (k : ℕ) (hk : k < dims.length) :
    maxOrZero ((fullTable dims).map fun row => row.getD k 0) = dims[k] - 1 := by
  have hle : ∀ x ∈ (fullTable dims).map (fun row => row.getD k 0), x ≤ dims[k] - 1 := by
    intro x hx
    simp only [fullTable, List.map_map, List.mem_map, List.mem_range, Function.comp] at hx
    obtain ⟨i, hi, rfl⟩ := hx
    obtain ⟨p, hp, hb, -⟩ := pos_spec h (n := (i : Int)) (by omega) (by omega)
    have hl : k < p.length := by rw [← hb.length_eq]; exact hk
    simp only [padPos, hp, Option.getD_some]
    rw [List.getD_eq_getElem?_getD, List.getElem?_append_left hl, List.getElem?_eq_getElem hl]
    have := List.forall₂_iff_get.mp hb
    have := (this.2 k hk hl).2
    simp only [Option.getD_some]
    simp only [List.get_eq_getElem] at this
    omega
  have hmem : dims[k] - 1 ∈ (fullTable dims).map (fun row => row.getD k 0) := by
    have hcorner : InBox dims (dims.map (· - 1)) := by
      rw [InBox, List.forall₂_map_right_iff, List.forall₂_same]
      intro d hd
      have := h.2 d hd
      omega
    obtain ⟨n, -, hn0, hn1, hpos⟩ := nodeIdx_spec h hcorner
    simp only [fullTable, List.map_map, List.mem_map, List.mem_range, Function.comp]
    refine ⟨n.toNat, by omega, ?_⟩
    simp only [padPos, Int.toNat_of_nonneg hn0, hpos, Option.getD_some]
    rw [List.getD_eq_getElem?_getD, List.getElem?_append_left (by simpa using hk)]
    simp [hk]
  unfold maxOrZero
  have hne : (fullTable dims).map (fun row => row.getD k 0) ≠ [] := List.ne_nil_of_mem hmem
  have : ((fullTable dims).map (fun row => row.getD k 0)).max? = some (dims[k] - 1) :=
    List.max?_eq_some_iff.mpr ⟨hmem, hle⟩
  rw [this]; rfl

theorem domainSizeOk_full {dims : List Int} (h : GoodDims dims) {c : FieldDB}
    (hc : c.domainSize = dims) {db : DB V} (hp : db.positions = fullTable dims) :
    domainSizeOk c db = some true := by
  have h3 : ¬ dims.length > 3 := by rcases h.1 with e | e <;> omega
  unfold domainSizeOk
  rw [hc, if_neg h3, hp]
  congr 1
  rw [List.all_eq_true]
  rintro ⟨d, k⟩ hd
  have hk := List.mem_zipIdx' hd
  rw [decide_eq_true_eq, maxOrZero_col h k hk.1]
  exact congrArg (· - 1) hk.2.symm

/-- What the tables look like after a log of saves. -/
structure Inv (dims : List Int) (db : DB V) (log : List (Save V)) : Prop where
  fields_eq : db.fields = log.flatMap fun e => e.fs.flatMap (rowsOf e.sim e.ts)
  positions_eq : (db.positions = [] ∧ db.fields = []) ∨ db.positions = fullTable dims
  sizes : ∀ e ∈ log, ∀ f ∈ e.fs, (f.2.length : Int) = numNodes dims

theorem inv_empty (dims : List Int) : Inv dims (⟨[], [], []⟩ : DB V) [] :=
  ⟨rfl, Or.inl ⟨rfl, rfl⟩, by simp⟩

/-- Saving nothing. -/
theorem Inv.append_nil {dims : List Int} {db : DB V} {log : List (Save V)} (h : Inv dims db log)
    (sim ts : Int) : Inv dims db (log ++ [⟨sim, ts, []⟩]) := by
  refine ⟨by simp [h.fields_eq], h.positions_eq, ?_⟩
  intro e he f hf
  rcases List.mem_append.mp he with h1 | h1
  · exact h.sizes e h1 f hf
  · obtain rfl := List.mem_singleton.mp h1
    simp at hf

theorem ensureInitialized_spec (c : FieldDB) (draw : Int) (db : DB V) :
    (ensureInitialized c draw db).1.domainSize = c.domainSize ∧
    (ensureInitialized c draw db).2.positions = db.positions ∧
    (ensureInitialized c draw db).2.fields = db.fields := by
  unfold ensureInitialized dbInitialize
  split_ifs <;> simp

theorem Inv.congr {dims : List Int} {db db' : DB V} {log : List (Save V)} (h : Inv dims db log)
    (hp : db'.positions = db.positions) (hf : db'.fields = db.fields) : Inv dims db' log :=
  ⟨by rw [hf, h.fields_eq], by rw [hp, hf]; exact h.positions_eq, h.sizes⟩

theorem two_le {dims : List Int} (hN : 2 ≤ numNodes dims) : (fullTable dims).length > 1 := by
  rw [fullTable_length]; omega

theorem ensurePositions_eq {dims : List Int} (h : GoodDims dims) (hN : 2 ≤ numNodes dims)
    {c : FieldDB} (hc : c.domainSize = dims) {db : DB V}
    (hp : db.positions = [] ∨ db.positions = fullTable dims) :
    ensurePositions c db = some { db with positions := fullTable dims } := by
  unfold ensurePositions positionTableIsPopulated
  rcases hp with e | e
  · rw [populate_eq h hc, e]
    simp
  · rw [e]
    have := two_le hN
    simp only [gt_iff_lt] at this
    simp only [gt_iff_lt, this, decide_true, if_true]
    rw [← e]

theorem Inv.insert {dims : List Int} (hd : GoodDims dims) {db : DB V} {log : List (Save V)} {sim ts : Int}
    {done : List (FieldData V)} (h : Inv dims db (log ++ [⟨sim, ts, done⟩]))
    (hfull : db.positions = fullTable dims)
    {c : FieldDB} (hc : c.domainSize = dims) (hs : c.simID = sim) (f : FieldData V) :
    (insertRealPart c ts f db = none ∧ (f.2.length : Int) ≠ numNodes dims) ∨
    ∃ db', insertRealPart c ts f db = some db' ∧ (f.2.length : Int) = numNodes dims ∧
      Inv dims db' (log ++ [⟨sim, ts, done ++ [f]⟩]) ∧ db'.positions = fullTable dims := by
  have hpi : prodInt c.domainSize = numNodes dims := by rw [hc, prodInt_eq]; rfl
  unfold insertRealPart
  rw [domainSizeOk_full hd hc hfull, hpi]
  by_cases hl : (f.2.length : Int) = numNodes dims
  · right
    refine ⟨{ db with fields := db.fields ++ rowsOf c.simID ts f }, by simp [hl], hl, ⟨?_, Or.inr hfull, ?_⟩, hfull⟩
    · simp only [h.fields_eq, hs]
      simp
    · intro e he g hg
      rcases List.mem_append.mp he with h1 | h1
      · exact h.sizes e (List.mem_append_left _ h1) g hg
      · obtain rfl := List.mem_singleton.mp h1
        rcases List.mem_append.mp hg with h2 | h2
        · exact h.sizes ⟨sim, ts, done⟩ (by simp) g h2
        · obtain rfl := List.mem_singleton.mp h2
          exact hl
  · left
    exact ⟨by simp [hl], hl⟩

theorem insertAll_spec {dims : List Int} (hd : GoodDims dims) {log : List (Save V)} {sim ts : Int}
    {c : FieldDB} (hc : c.domainSize = dims) (hs : c.simID = sim) :
    ∀ (fs : List (FieldData V)) (done : List (FieldData V)) (db : DB V),
    Inv dims db (log ++ [⟨sim, ts, done⟩]) → db.positions = fullTable dims →
    (∀ db' ∈ (insertAll c ts fs db).1, ∃ k, Inv dims db' (log ++ [⟨sim, ts, done ++ fs.take k⟩])) ∧
    (∀ db', (insertAll c ts fs db).2 = some db' → Inv dims db' (log ++ [⟨sim, ts, done ++ fs⟩]) ∧
      db'.positions = fullTable dims) ∧
    ((∀ f ∈ fs, (f.2.length : Int) = numNodes dims) → (insertAll c ts fs db).2.isSome)
  | [], done, db, h, hf => by simp [insertAll, h, hf]
  | f :: fs, done, db, h, hf => by
    rcases h.insert hd hf hc hs f with ⟨h1, h2⟩ | ⟨db1, h1, h2, h3, h4⟩
    · simp only [insertAll, h1]
      refine ⟨by simp, by simp, fun hall => absurd (hall f (by simp)) h2⟩
    · obtain ⟨i1, i2, i3⟩ := insertAll_spec hd hc hs fs (done ++ [f]) db1 h3 h4
      simp only [insertAll, h1]
      refine ⟨?_, ?_, ?_⟩
      · intro db' hdb'
        rcases List.mem_cons.mp hdb' with rfl | hm
        · exact ⟨1, by simpa using h3⟩
        · obtain ⟨k, hk⟩ := i1 db' hm
          exact ⟨k + 1, by simpa using hk⟩
      · intro db' hdb'
        simpa using i2 db' hdb'
      · intro hall
        exact i3 fun g hg => hall g (by simp [hg])

/-- Summary for one save. -/
theorem saveFields_spec {dims : List Int} (hd : GoodDims dims) (hN : 2 ≤ numNodes dims)
    {log : List (Save V)} {c : FieldDB} (hc : c.domainSize = dims) (draw ts : Int)
    (fs : List (FieldData V)) {db : DB V} (h : Inv dims db log) :
    (∀ db' ∈ (saveFields c draw ts fs db).1, ∃ k, Inv dims db'
      (log ++ [⟨(ensureInitialized c draw db).1.simID, ts, fs.take k⟩])) ∧
    (∀ c' db', (saveFields c draw ts fs db).2 = some (c', db') →
      c' = (ensureInitialized c draw db).1 ∧ db'.positions = fullTable dims ∧
      Inv dims db' (log ++ [⟨c'.simID, ts, fs⟩])) ∧
    ((∀ f ∈ fs, (f.2.length : Int) = numNodes dims) → (saveFields c draw ts fs db).2.isSome) := by
  obtain ⟨e1, e2, e3⟩ := ensureInitialized_spec c draw db
  set c1 := (ensureInitialized c draw db).1 with hc1
  set db1 := (ensureInitialized c draw db).2 with hdb1
  have hp : db1.positions = [] ∨ db1.positions = fullTable dims := by
    rw [e2]; rcases h.positions_eq with ⟨a, -⟩ | a
    · exact Or.inl a
    · exact Or.inr a
  have hpos := ensurePositions_eq hd hN (c := c1) (by rw [e1, hc]) hp
  have hI1 : Inv dims db1 (log ++ [⟨c1.simID, ts, []⟩]) := (h.congr e2 e3).append_nil _ _
  have hI2 : Inv dims { db1 with positions := fullTable dims } (log ++ [⟨c1.simID, ts, []⟩]) :=
    ⟨hI1.fields_eq, Or.inr rfl, hI1.sizes⟩
  obtain ⟨s1, s2, s3⟩ := insertAll_spec hd (c := c1) (by rw [e1, hc]) rfl fs [] _ hI2 rfl
  unfold saveFields
  rw [← hc1, ← hdb1, hpos]
  dsimp only
  refine ⟨?_, ?_, ?_⟩
  · intro db' hm
    simp only [List.mem_cons] at hm
    rcases hm with rfl | rfl | rfl | hm
    · exact ⟨0, by simpa using h.append_nil _ _⟩
    · exact ⟨0, by simpa using hI1⟩
    · exact ⟨0, by simpa using hI2⟩
    · obtain ⟨k, hk⟩ := s1 db' hm
      exact ⟨k, by simpa using hk⟩
  · intro c' db' he
    simp only [Option.map_eq_some_iff, Prod.mk.injEq] at he
    obtain ⟨a, ha, rfl, rfl⟩ := he
    have := s2 _ ha
    exact ⟨rfl, this.2, by simpa using this.1⟩
  · intro hall
    simpa using s3 hall

/-! ### Loading -/

section load
variable [Zero V]

theorem fill_field (N : ℕ) (sim ts : Int) (nm : Str) (data : List (V × V)) (hl : data.length = N)
    (m : Str → List (V × V)) (hm : (m nm).length = N) :
    (rowsOf sim ts (nm, data)).foldlM (fun (m : Str → List (V × V)) (r : FieldRow V) => do
      let d ← goSet (m r.name) r.positionId (r.value, 0)
      return Function.update m r.name d) m =
    some (Function.update m nm (data.map fun v => (v.1, 0))) := by
  have key : ∀ (l : List (V × V)) (k : ℕ) (m : Str → List (V × V)), (m nm).length = N →
      k + l.length = N →
      ((l.zipIdx k).map fun v => (⟨nm, v.1.1, (v.2 : Int), ts, sim⟩ : FieldRow V)).foldlM
        (fun (m : Str → List (V × V)) (r : FieldRow V) => do
        let d ← goSet (m r.name) r.positionId (r.value, 0)
        return Function.update m r.name d) m =
      some (Function.update m nm ((m nm).take k ++ l.map fun v => (v.1, 0))) := by
    intro l
    induction l with
    | nil =>
      intro k m hm hk
      simp only [List.length_nil, Nat.add_zero] at hk
      simp only [List.zipIdx_nil, List.map_nil, List.foldlM_nil, List.append_nil]
      rw [List.take_of_length_le (by omega), Function.update_eq_self]
      rfl
    | cons v l ih =>
      intro k m hm hk
      rw [List.length_cons] at hk
      have hs : goSet (m nm) (k : Int) (v.1, 0) = some ((m nm).set k (v.1, 0)) := by
        unfold goSet
        rw [if_pos ⟨by omega, by omega⟩]
        simp
      rw [List.zipIdx_cons, List.map_cons, List.foldlM_cons]
      simp only [hs, Option.bind_eq_bind, Option.bind_some, Option.pure_def]
      have := ih (k + 1) (Function.update m nm ((m nm).set k (v.1, 0))) (by simp [hm]) (by omega)
      simp only [Option.bind_eq_bind, Option.pure_def] at this
      rw [this, Function.update_self, Function.update_idem]
      congr 2
      rw [List.take_add_one, List.take_set_of_le (le_refl k)]
      simp [hm, show k < N by omega]
  have := key data 0 m hm (by omega)
  simp only [List.take_zero, List.nil_append] at this
  exact this

theorem fill_entries (N : ℕ) (sim ts : Int) (fs : List (FieldData V))
    (hl : ∀ f ∈ fs, f.2.length = N) (m : Str → List (V × V)) (hm : ∀ nm, (m nm).length = N) :
    ∃ m', (fs.flatMap (rowsOf sim ts)).foldlM (fun (m : Str → List (V × V)) (r : FieldRow V) => do
      let d ← goSet (m r.name) r.positionId (r.value, 0)
      return Function.update m r.name d) m = some m' ∧
    ∀ nm, m' nm = ((fs.filterMap fun f => if f.1 = nm then some f.2 else none).getLast?.map
      fun d => d.map fun v => (v.1, (0 : V))).getD (m nm) := by
  induction fs generalizing m with
  | nil => exact ⟨m, rfl, fun nm => rfl⟩
  | cons f fs ih =>
    rw [List.flatMap_cons, List.foldlM_append]
    rw [show rowsOf sim ts f = rowsOf sim ts (f.1, f.2) from rfl,
      fill_field N sim ts f.1 f.2 (hl f (by simp)) m (hm f.1)]
    have hm2 : ∀ nm, (Function.update m f.1 (f.2.map fun v => (v.1, (0 : V))) nm).length = N := by
      intro nm
      by_cases e : nm = f.1
      · subst e; simp [hl f (by simp)]
      · rw [Function.update_of_ne e]; exact hm nm
    obtain ⟨m', h1, h2⟩ := ih (fun g hg => hl g (by simp [hg])) _ hm2
    refine ⟨m', h1, fun nm => ?_⟩
    rw [h2 nm, List.filterMap_cons]
    by_cases e : f.1 = nm
    · subst e
      simp only [if_true, Function.update_self]
      generalize fs.filterMap _ = q
      cases q with
      | nil => simp
      | cons a q => rw [List.getLast?_cons_cons]; simp [List.getLast?_eq_some_getLast]
    · simp only [if_neg e]
      rw [Function.update_of_ne (Ne.symm e)]

/-- The rows of a simulation and time step. -/
theorem selectRows_eq {dims : List Int} {db : DB V} {log : List (Save V)} (h : Inv dims db log)
    (sim ts : Int) : selectRows db sim ts =
      (log.flatMap fun e => if e.sim = sim ∧ e.ts = ts then e.fs else []).flatMap (rowsOf sim ts) := by
  unfold selectRows
  rw [h.fields_eq]
  clear h
  induction log with
  | nil => rfl
  | cons e log ih =>
    rw [List.flatMap_cons, List.filter_append, ih, List.flatMap_cons, List.flatMap_append]
    congr 1
    have hr : ∀ r ∈ e.fs.flatMap (rowsOf e.sim e.ts), r.simID = e.sim ∧ r.timestep = e.ts := by
      intro r hr
      simp only [List.mem_flatMap, rowsOf, List.mem_map] at hr
      obtain ⟨f, -, v, -, rfl⟩ := hr
      exact ⟨rfl, rfl⟩
    by_cases hc : e.sim = sim ∧ e.ts = ts
    · rw [if_pos hc, List.filter_eq_self.mpr]
      · rw [hc.1, hc.2]
      · intro r h2; simp [hr r h2, hc]
    · rw [if_neg hc]
      rw [List.flatMap_nil, List.filter_eq_nil_iff]
      intro r h2
      rw [(hr r h2).1, (hr r h2).2]
      simpa using hc

theorem selected_sizes {dims : List Int} {db : DB V} {log : List (Save V)} (h : Inv dims db log)
    (sim ts : Int) : ∀ f ∈ log.flatMap fun e => if e.sim = sim ∧ e.ts = ts then e.fs else [],
      (f.2.length : Int) = numNodes dims := by
  intro f hf
  simp only [List.mem_flatMap] at hf
  obtain ⟨e, he, hf⟩ := hf
  split_ifs at hf
  · exact h.sizes e he f hf
  · simp at hf

theorem rowsOf_names (sim ts : Int) (f : FieldData V) : ∀ r ∈ rowsOf sim ts f, r.name = f.1 := by
  intro r hr
  simp only [rowsOf, List.mem_map] at hr
  obtain ⟨v, -, rfl⟩ := hr
  rfl

theorem mem_row_names (sim ts : Int) (fs : List (FieldData V)) (N : ℕ) (hN : 0 < N)
    (hl : ∀ f ∈ fs, f.2.length = N) (nm : Str) :
    nm ∈ (fs.flatMap (rowsOf sim ts)).map (·.name) ↔ ∃ f ∈ fs, f.1 = nm := by
  simp only [List.mem_map, List.mem_flatMap]
  constructor
  · rintro ⟨r, ⟨f, hf, hr⟩, rfl⟩
    exact ⟨f, hf, (rowsOf_names sim ts f r hr).symm⟩
  · rintro ⟨f, hf, rfl⟩
    obtain ⟨v, l, hv⟩ := List.exists_cons_of_length_pos (l := f.2) (by rw [hl f hf]; exact hN)
    refine ⟨⟨f.1, v.1, 0, ts, sim⟩, ⟨f, hf, ?_⟩, rfl⟩
    simp only [rowsOf, List.mem_map]
    exact ⟨(v, 0), by rw [hv]; simp, by simp⟩

theorem sortedDistinct_pairwise (l : List Str) : (sortedDistinct l).Pairwise (· < ·) := by
  unfold sortedDistinct sortStrings
  have h1 : (l.dedup.insertionSort (· ≤ ·)).Pairwise (· ≤ ·) := List.pairwise_insertionSort _ _
  have h2 : (l.dedup.insertionSort (· ≤ ·)).Nodup :=
    (List.perm_insertionSort (· ≤ ·) l.dedup).nodup_iff.mpr (List.nodup_dedup l)
  exact h1.imp₂ (fun a b hab hne => (List.le_iff_lt_or_eq.mp hab).resolve_right hne) h2

theorem mem_sortedDistinct (l : List Str) (nm : Str) : nm ∈ sortedDistinct l ↔ nm ∈ l := by
  unfold sortedDistinct sortStrings
  rw [(List.perm_insertionSort (· ≤ ·) l.dedup).mem_iff, List.mem_dedup]

theorem load_snapshot {dims : List Int} (hN : 2 ≤ numNodes dims) {db : DB V} {log : List (Save V)}
    (h : Inv dims db log) (sim ts : Int) :
    ∃ L, load db sim ts = some L ∧ IsSnapshot log sim ts L := by
  set fs := log.flatMap fun e => if e.sim = sim ∧ e.ts = ts then e.fs else [] with hfs
  have hrows := selectRows_eq h sim ts
  rw [← hfs] at hrows
  have hsz : ∀ f ∈ fs, f.2.length = (numNodes dims).toNat := fun f hf => by
    have := selected_sizes h sim ts f hf; omega
  have hfill : ∃ m', fillFields db.positions.length (selectRows db sim ts) = some m' ∧
      ∀ nm d, ((fs.filterMap fun f => if f.1 = nm then some f.2 else none).getLast?) = some d →
        m' nm = d.map fun v => (v.1, (0 : V)) := by
    rcases h.positions_eq with ⟨-, hnil⟩ | hfull
    · have : selectRows db sim ts = [] := by simp [selectRows, hnil]
      rw [this] at hrows ⊢
      refine ⟨_, rfl, ?_⟩
      intro nm d hd
      exfalso
      have hm := List.mem_of_getLast? hd
      simp only [List.mem_filterMap] at hm
      obtain ⟨f, hf, hfd⟩ := hm
      have : rowsOf sim ts f ≠ [] := by
        intro e
        have h0 : f.2.length = 0 := by
          have := congrArg List.length e
          simpa [rowsOf] using this
        have := hsz f hf
        omega
      have hsub : ∀ r ∈ rowsOf sim ts f, r ∈ fs.flatMap (rowsOf sim ts) := fun r hr =>
        List.mem_flatMap.mpr ⟨f, hf, hr⟩
      rw [← hrows] at hsub
      obtain ⟨r, hr⟩ := List.exists_mem_of_ne_nil _ this
      exact absurd (hsub r hr) (by simp)
    · rw [hfull, fullTable_length, hrows]
      obtain ⟨m', h1, h2⟩ := fill_entries (numNodes dims).toNat sim ts fs hsz
        (fun _ => List.replicate (numNodes dims).toNat (0, 0)) (fun _ => by simp)
      exact ⟨m', h1, fun nm d hd => by rw [h2, hd]; rfl⟩
  obtain ⟨m', hm1, hm2⟩ := hfill
  refine ⟨(sortedDistinct ((selectRows db sim ts).map (·.name))).map fun nm => (nm, m' nm), ?_, ?_, ?_⟩
  · simp [load, hm1]
  · rw [List.map_map]
    have : (Prod.fst ∘ fun nm => (nm, m' nm)) = id := rfl
    rw [this, List.map_id]
    exact sortedDistinct_pairwise _
  · intro nm data
    have hmem : nm ∈ sortedDistinct ((selectRows db sim ts).map (·.name)) ↔
        ∃ d, (savedUnder log sim ts nm).getLast? = some d := by
      rw [mem_sortedDistinct, hrows, mem_row_names sim ts fs (numNodes dims).toNat (by omega) hsz]
      unfold savedUnder
      rw [← hfs]
      constructor
      · rintro ⟨f, hf, rfl⟩
        have : f.2 ∈ fs.filterMap fun g => if g.1 = f.1 then some g.2 else none :=
          List.mem_filterMap.mpr ⟨f, hf, by simp⟩
        exact ⟨_, List.getLast?_eq_some_getLast (List.ne_nil_of_mem this)⟩
      · rintro ⟨d, hd⟩
        have hm := List.mem_of_getLast? hd
        simp only [List.mem_filterMap] at hm
        obtain ⟨f, hf, hfd⟩ := hm
        refine ⟨f, hf, ?_⟩
        by_contra hne
        simp [hne] at hfd
    simp only [List.mem_map, Prod.mk.injEq]
    constructor
    · rintro ⟨nm', hm, rfl, rfl⟩
      obtain ⟨d, hd⟩ := hmem.mp hm
      exact ⟨d, hd, hm2 _ d hd⟩
    · rintro ⟨d, hd, rfl⟩
      exact ⟨nm, hmem.mpr ⟨d, hd⟩, rfl, hm2 nm d hd⟩

end load
end Gopf.Pf
