import Verif.Model.Cmd
import Verif.Props.FileIO

/-!
# C95: exporting every time step
-/

namespace Gopf.Props

open Cmd
open Pf (Str)

variable {V : Type}

private theorem mapM_files {α β : Type} (g : α → Option β) (name : α → Str) :
    ∀ (l : List α) (files : List (Str × β)),
      l.mapM (fun a => do let c ← g a; return (name a, c)) = some files →
      files.map (·.1) = l.map name ∧ ∀ a ∈ l, ∃ c, g a = some c ∧ (name a, c) ∈ files := by
  intro l
  induction l with
  | nil => intro files h; simp at h; subst h; simp
  | cons a l ih =>
    intro files h
    rw [List.mapM_cons] at h
    cases ha : g a with
    | none => rw [ha] at h; simp at h
    | some c =>
      rw [ha] at h
      simp only [Option.bind_eq_bind, Option.bind_some, Option.pure_def] at h
      cases hl : l.mapM (fun a => do let c ← g a; return (name a, c)) with
      | none =>
        simp only [Option.bind_eq_bind, Option.pure_def] at hl
        rw [hl] at h; simp at h
      | some fs =>
        obtain ⟨h1, h2⟩ := ih fs hl
        simp only [Option.bind_eq_bind, Option.pure_def] at hl
        rw [hl] at h
        simp only [Option.bind_some, Option.some.injEq] at h
        subst h
        refine ⟨by simp [h1], ?_⟩
        intro b hb
        rcases List.mem_cons.1 hb with rfl | hb
        · exact ⟨c, ha, by simp⟩
        · obtain ⟨d, h3, h4⟩ := h2 b hb
          exact ⟨d, h3, by simp [h4]⟩

/-- C95: exporting all steps writes one file per saved time step of the simulation, all with different
names, and the file of a step holds the export of that step. -/
theorem c95_all_steps [Zero V] (order : List Str → List Str) (db : Pf.DB V) (simid : Int)
    (outfile : Str) (files : List (Str × Option (List Str × List (List Int × List V))))
    (h : exportAll order db simid outfile = some files) :
    (files.map (·.1)).Nodup ∧
    (∀ nm, nm ∈ files.map (·.1) ↔ ∃ r ∈ db.fields, r.simID = simid ∧
      nm = outfile ++ Pf.fmtInt r.timestep ++ ".csv".toList) ∧
    ∀ r ∈ db.fields, r.simID = simid → ∃ c, Pf.exportFieldData order db r.timestep simid = some c ∧
      (outfile ++ Pf.fmtInt r.timestep ++ ".csv".toList, c) ∈ files := by
  obtain ⟨h1, h2⟩ := mapM_files (fun step : Int => Pf.exportFieldData order db step simid)
    (fun step : Int => outfile ++ Pf.fmtInt step ++ ".csv".toList) _ files h
  have hmem : ∀ t : Int, t ∈ allTimeSteps db simid ↔ ∃ r ∈ db.fields, r.simID = simid ∧ r.timestep = t := by
    intro t
    simp only [allTimeSteps, List.mem_dedup, List.mem_map, List.mem_filter, decide_eq_true_eq, and_assoc]
  refine ⟨?_, ?_, ?_⟩
  · rw [h1]
    refine (List.nodup_dedup _).map ?_
    intro a b hab
    exact fmtInt_injective (List.append_cancel_left (List.append_cancel_right hab))
  · intro nm
    rw [h1, List.mem_map]
    constructor
    · rintro ⟨t, ht, rfl⟩
      obtain ⟨r, hr, hs, rfl⟩ := (hmem t).1 ht
      exact ⟨r, hr, hs, rfl⟩
    · rintro ⟨r, hr, hs, rfl⟩
      exact ⟨r.timestep, (hmem _).2 ⟨r, hr, hs, rfl⟩, rfl⟩
  · intro r hr hs
    exact h2 r.timestep ((hmem _).2 ⟨r, hr, hs, rfl⟩)

example : ∃ files, exportAll id (⟨[[0, 0, 0], [0, 1, 0]],
    [⟨['c'], (5 : ℤ), 0, 3, 1⟩, ⟨['c'], 6, 1, 3, 1⟩], [1]⟩ : Pf.DB ℤ) 1 ['x'] = some files ∧
    files.map (·.1) = ["x3.csv".toList] := by
  refine ⟨_, rfl, ?_⟩
  decide +kernel

end Gopf.Props
