import Verif.Props.Restart
import Verif.Props.FileIO
import Verif.Props.Database

/-!
# C122: continuing a run from saved fields, the files
-/

namespace Gopf.Props
open Pf Pfutil Spec

variable {nf nd : ℕ} {dims : List ℕ}

/-- What is handed to the writer of the files: the names of the fields and the bit patterns of the real parts. -/
noncomputable def snapshot (names : Fin nf → Str) (bits : ℝ → Word) (x : Fin nf → Data dims.prod) :
    List (Str × List Word) :=
  List.ofFn fun i => (names i, List.ofFn fun j => bits (x i j).re)

/-- C122: the data read from the files of an epoch are the real parts of the fields at that epoch. -/
theorem c122_files (pfx : Str) (names : Fin nf → Str) (hn : Function.Injective names) (bits : ℝ → Word)
    (value : Word → ℝ) (x : Fin nf → Data dims.prod) (hv : ∀ i j, value (bits (x i j).re) = (x i j).re) (e : Int)
    (fs : FS) (i : Fin nf) :
    ((float64IO pfx (snapshot names bits x) e fs) (binName pfx (names i) e)).map
      (fun file => (loadFloat64 file).map fun w => ((value w : ℝ) : ℂ)) = some (savedData (x i)) := by
  have hnd : ((snapshot names bits x).map (·.1)).Nodup := by
    unfold snapshot
    rw [List.map_ofFn]
    exact List.nodup_ofFn.mpr hn
  have := float64IO_get pfx (snapshot names bits x) e fs hnd (names i, List.ofFn fun j => bits (x i j).re)
    (List.mem_ofFn.mpr ⟨i, rfl⟩)
  rw [this, Option.map_some, c39_round_trip, savedData, List.map_ofFn, List.map_ofFn]
  congr 2
  funext j
  simp only [Function.comp_apply, hv]

theorem filesAfter_append (pfx : Str) (a b : List (List (Str × List Word))) (e : Int) (fs : FS) :
    filesAfter pfx (a ++ b) e fs = filesAfter pfx b (e + a.length) (filesAfter pfx a e fs) := by
  have key : ∀ (l : List (List (Str × List Word))) (k j : ℕ) (e : Int) (fs : FS),
      (l.zipIdx (k + j)).foldl (fun fs s => float64IO pfx s.1 ((s.2 : Int) + e) fs) fs =
        (l.zipIdx k).foldl (fun fs s => float64IO pfx s.1 ((s.2 : Int) + (e + j)) fs) fs := by
    intro l
    induction l with
    | nil => intro k j e fs; rfl
    | cons s l ih =>
      intro k j e fs
      rw [List.zipIdx_cons, List.zipIdx_cons, List.foldl_cons, List.foldl_cons]
      dsimp only
      rw [show k + j + 1 = k + 1 + j by omega, ih, show (((k + j : ℕ) : Int) + e) = (k : Int) + (e + j) by push_cast; ring]
  unfold filesAfter
  rw [List.zipIdx_append, List.foldl_append]
  exact key b 0 a.length e _

theorem solve_split (m : Model nf nd dims.prod) (bricks : Str → Option (BrickRef nf nd)) (a b : ℕ) (n : ℤ)
    (s r1 : SolverState nf nd dims) (h1 : s.session m bricks [.solve (a : ℤ) n] = some r1) :
    s.session m bricks [.solve ((a + b : ℕ) : ℤ) n] = r1.session m bricks [.solve (b : ℤ) n] ∧
    epochFields m bricks s [.solve ((a + b : ℕ) : ℤ) n] =
      epochFields m bricks s [.solve (a : ℤ) n] ++ epochFields m bricks r1 [.solve (b : ℤ) n] := by
  obtain ⟨s1, h2, h3, -⟩ := session_cons m bricks _ _ s r1 h1
  obtain rfl := Option.some.inj h3
  have ends : ∀ (s : SolverState nf nd dims) (e : ℕ), epochFields m bricks s [.solve (e : ℤ) n] =
      (List.range e).map fun k => (storeAfter m s ((k + 1) * n.toNat)).fields := by
    intro s e
    have : sessionEnds m bricks s [.solve (e : ℤ) n] =
        (List.range e).map fun k => storeAfter m s ((k + 1) * n.toNat) := by
      simp only [sessionEnds, epochEnds, Int.toNat_natCast]
      cases SolverState.call m bricks s (.solve (e : ℤ) n) <;> simp
    unfold epochFields
    rw [this, List.map_map]
    rfl
  have one : ∀ (s : SolverState nf nd dims) (e : ℕ), s.session m bricks [.solve (e : ℤ) n] =
      (List.range e).foldlM (fun s _ => s.epoch m bricks n) s := by
    intro s e
    have : s.session m bricks [.solve (e : ℤ) n] = (s.solve m bricks (e : ℤ) n).bind some := rfl
    rw [this, Option.bind_fun_some, SolverState.solve, Int.toNat_natCast]
  have skip : ∀ (l l' : List ℕ) (s : SolverState nf nd dims), l.length = l'.length →
      l.foldlM (fun s _ => s.epoch m bricks n) s = l'.foldlM (fun s _ => s.epoch m bricks n) s := by
    intro l
    induction l with
    | nil =>
      intro l' s h
      rw [List.length_eq_zero_iff.mp h.symm]
    | cons x l ih =>
      intro l' s h
      cases l' with
      | nil => simp at h
      | cons y l' =>
        rw [List.foldlM_cons, List.foldlM_cons]
        congr 1
        funext s'
        exact ih l' s' (by simpa using h)
  have ha := one s a
  rw [h1] at ha
  refine ⟨?_, ?_⟩
  · rw [one, one, List.range_add, List.foldlM_append, ← ha]
    exact skip _ _ _ (by simp)
  · rw [ends, ends, ends, List.range_add, List.map_append, List.map_map]
    congr 1
    apply List.map_congr_left
    intro k _
    have e1 := (solve_spec m bricks n s a s1 ha.symm).1
    rw [Function.comp_apply, ← store_after, ← store_after, e1, pairAfter_add]
    congr 3
    ring

/-- C122: the files of a run of `a + b` epochs are the files of a run of `a` epochs followed by a run of `b` epochs
of a new solver that starts from the fields saved last and counts the epochs from `a`. -/
theorem c122_epoch_files (m : Model nf nd dims.prod) (hd : FieldsOnly m) (bricks : Str → Option (BrickRef nf nd))
    (dt : ℝ) (fields : Fin nf → List ℂ) (derived derived' : Fin nd → Data dims.prod)
    (s s0 r1 r2 : SolverState nf nd dims) (hs : newSolver dims dt fields derived = some s)
    (calls setup : List SolverCall) (a b : ℕ) (n : ℤ) (h0 : s.session m bricks calls = some s0)
    (h1 : s0.session m bricks [.solve (a : ℤ) n] = some r1)
    (h2 : s0.session m bricks [.solve ((a + b : ℕ) : ℤ) n] = some r2)
    (hreal : ∀ i, IsReal (r1.store.fields i))
    (htime : TimeFree (freqOf dims) m ∨ chosenStepper calls = "rk4".toList)
    (hset : SetsUp calls setup) (pfx : Str) (names : Fin nf → Str) (bits : ℝ → Word) (fs : FS) :
    ∃ s', newSolver dims dt (fun i => savedData (r1.store.fields i)) derived' = some s' ∧
      ∀ s1, s'.session m bricks setup = some s1 → ∃ r', s1.session m bricks [.solve (b : ℤ) n] = some r' ∧
        r'.store.fields = r2.store.fields ∧
        filesAfter pfx ((epochFields m bricks s1 [.solve (b : ℤ) n]).map (snapshot names bits)) a
          (filesAfter pfx ((epochFields m bricks s0 [.solve (a : ℤ) n]).map (snapshot names bits)) 0 fs) =
        filesAfter pfx ((epochFields m bricks s0 [.solve ((a + b : ℕ) : ℤ) n]).map (snapshot names bits)) 0 fs := by
  obtain ⟨e1, e2⟩ := solve_split m bricks a b n s0 r1 h1
  rw [h2] at e1
  have hr1 : s.session m bricks (calls ++ [.solve (a : ℤ) n]) = some r1 := by
    have h1' := h1
    unfold SolverState.session at h0 h1' ⊢
    rw [List.foldlM_append, h0]
    exact h1'
  have hch : chosenStepper (calls ++ [.solve (a : ℤ) n]) = chosenStepper calls := by
    unfold chosenStepper
    rw [List.foldl_append]
    rfl
  have hfl : currentFilter (calls ++ [.solve (a : ℤ) n]) = currentFilter calls := by
    unfold currentFilter
    rw [List.foldl_append]
    rfl
  obtain ⟨s', hs', hgo⟩ := c122_restart m hd bricks dt fields derived derived' s r1 r2 hs
    (calls ++ [.solve (a : ℤ) n]) [.solve (b : ℤ) n] setup hr1 e1.symm hreal (by rw [hch]; exact htime)
    ⟨hset.idle, by rw [hch]; exact hset.stepper, by rw [hfl]; exact hset.filter,
      fun site field h => List.mem_append_left _ (hset.monitors site field h)⟩
  refine ⟨s', hs', fun s1 hs1 => ?_⟩
  obtain ⟨r', hr', e3, e4⟩ := hgo s1 hs1
  refine ⟨r', hr', e3, ?_⟩
  have hlen : ((epochFields m bricks s0 [.solve (a : ℤ) n]).map (snapshot names bits)).length = a := by
    rw [List.length_map]
    unfold epochFields
    rw [List.length_map]
    simp only [sessionEnds, epochEnds, Int.toNat_natCast]
    cases SolverState.call m bricks s0 (.solve (a : ℤ) n) <;> simp
  rw [e4, e2, List.map_append, filesAfter_append, hlen, zero_add]

/-- What is handed to the database. -/
noncomputable def databaseFields (names : Fin nf → Str) (x : Fin nf → Data dims.prod) : List (FieldData ℝ) :=
  List.ofFn fun i => (names i, List.ofFn fun j => ((x i j).re, (x i j).im))

/-- C122: the fields loaded from a database after a save at the latest time step of a simulation. Under the name of
each field there is exactly one entry and it has the data the new solver is to start from. The entries are ordered
by name, not as the fields of the model. -/
theorem c122_database {box : List Int} (hd : GoodDims box) (hN : 2 ≤ numNodes box) {db : DB ℝ}
    {before : List (Attempt ℝ)} (sim ts : Int) (names : Fin nf → Str) (hn : Function.Injective names) (hnf : 0 < nf)
    (x : Fin nf → Data dims.prod)
    (h : Run box db (before ++ [⟨sim, ts, databaseFields names x, false⟩])) (hc : ∀ a ∈ before, a.crashed = false)
    (hlast : ∀ a ∈ before, a.sim = sim → a.ts ≤ ts) :
    ∃ L, loadLast db sim = some L ∧ (L.map Prod.fst).Pairwise (· < ·) ∧
      ∀ i, ∃ data, (names i, data) ∈ L ∧ data.map (fun v => (⟨v.1, v.2⟩ : ℂ)) = savedData (x i) := by
  have hc' : ∀ a ∈ before ++ [⟨sim, ts, databaseFields names x, false⟩], a.crashed = false := by
    intro a ha
    rcases List.mem_append.mp ha with ha | ha
    · exact hc a ha
    · rw [List.mem_singleton.mp ha]
  have hne : databaseFields names x ≠ [] := by
    intro e
    have := congrArg List.length e
    simp [databaseFields] at this
    omega
  obtain ⟨L, hL, hs1, hs2⟩ := c35_load hd hN h hc' sim ts
  refine ⟨L, ?_, hs1, fun i => ?_⟩
  · rw [c35_load_last hd hN h hc' sim ts ⟨_, List.mem_append_right _ (List.mem_singleton.mpr rfl), rfl, rfl, hne⟩ ?_, hL]
    intro a ha hsim _
    rcases List.mem_append.mp ha with ha | ha
    · exact hlast a ha hsim
    · rw [List.mem_singleton.mp ha]
  · refine ⟨(List.ofFn fun j => ((x i j).re, (x i j).im)).map fun v => (v.1, 0), ?_, ?_⟩
    · refine (hs2 _ _).mpr ⟨_, ?_, rfl⟩
      have hlastOnly : ((databaseFields names x).filterMap fun f => if f.1 = names i then some f.2 else none).getLast? =
          some (List.ofFn fun j => ((x i j).re, (x i j).im)) := by
        have hall : ∀ d ∈ (databaseFields names x).filterMap fun f => if f.1 = names i then some f.2 else none,
            d = List.ofFn fun j => ((x i j).re, (x i j).im) := by
          intro d hd
          obtain ⟨f, hf, e⟩ := List.mem_filterMap.mp hd
          obtain ⟨k, rfl⟩ := List.mem_ofFn.mp hf
          dsimp only at e
          split_ifs at e with hk
          obtain rfl := hn hk
          exact (Option.some.inj e).symm
        have hmem : (List.ofFn fun j => ((x i j).re, (x i j).im)) ∈
            (databaseFields names x).filterMap fun f => if f.1 = names i then some f.2 else none :=
          List.mem_filterMap.mpr ⟨(names i, List.ofFn fun j => ((x i j).re, (x i j).im)),
            List.mem_ofFn.mpr ⟨i, rfl⟩, by simp⟩
        rw [List.getLast?_eq_some_getLast (List.ne_nil_of_mem hmem)]
        exact congrArg some (hall _ (List.getLast_mem _))
      unfold savedUnder
      rw [List.map_append, List.flatMap_append, List.filterMap_append]
      simp only [List.map_cons, List.map_nil, List.flatMap_cons, List.flatMap_nil, List.append_nil, and_self, if_true]
      rw [List.getLast?_append, hlastOnly]
      rfl
    · rw [savedData, List.map_map, List.map_ofFn, List.map_ofFn]
      congr 1

/-- Numbers that survive being written: here the whole numbers below 1000, coded by their value. -/
example : ∃ (bits : ℝ → Word) (value : Word → ℝ), ∀ k : ℕ, k < 1000 → value (bits (k : ℝ)) = k := by
  refine ⟨fun r => BitVec.ofNat 64 ⌊r⌋₊, fun w => (w.toNat : ℝ), fun k hk => ?_⟩
  simp only [Nat.floor_natCast, BitVec.toNat_ofNat, Nat.cast_inj]
  exact Nat.mod_eq_of_lt (by omega)

example : Function.Injective fun i : Fin 2 => if i = 0 then "conc".toList else "eta".toList := by decide

end Gopf.Props
