import Verif.Model.Registry
import Mathlib.Tactic.Common

/-!
# C20: derived fields and their names
-/

namespace Gopf.Props
open Pf Pf.Registry

variable {α : Type}

private theorem loop_spec (addr : ℕ) : ∀ (fs : List (DerivedField α)) (r : Registry α),
    addr < r.heap.length →
    let r' := fs.foldl (registerOne addr) r
    r'.fieldNames = r.fieldNames ∧
    r'.heap = (match fs.getLast? with | some l => r.heap.set addr l | none => r.heap) ∧
    (∀ name, r'.bricks name =
      if r.isFieldName name = false ∧ name ∈ fs.map DerivedField.name then some addr
      else r.bricks name) ∧
    (∀ name, r'.isFieldName name =
      (r.isFieldName name || decide (name ∈ fs.map DerivedField.name)))
  | [], r, h => by simp
  | f :: fs, r, h => by
    have h1 : addr < (registerOne addr r f).heap.length := by
      unfold registerOne; dsimp only; split_ifs <;> simpa using h
    have ih := loop_spec addr fs (registerOne addr r f) h1
    dsimp only at ih ⊢
    rw [List.foldl_cons]
    obtain ⟨i1, i2, i3, i4⟩ := ih
    have hheap : (registerOne addr r f).heap = r.heap.set addr f := by
      unfold registerOne; dsimp only; split_ifs <;> rfl
    have hname : ∀ name, (registerOne addr r f).isFieldName name =
        (r.isFieldName name || decide (name = f.name)) := by
      intro name
      unfold registerOne; dsimp only
      have e : ({ r with heap := r.heap.set addr f } : Registry α).isFieldName f.name =
        r.isFieldName f.name := rfl
      split_ifs with hc
      · rw [e] at hc
        show r.isFieldName name = _
        by_cases hn : name = f.name
        · subst hn; simp [hc]
        · simp [hn]
      · simp only [Registry.isFieldName, List.map_append, List.map_cons, List.map_nil]
        by_cases hn : name = f.name <;> simp [hn, Bool.or_assoc]
    have hbr : ∀ name, (registerOne addr r f).bricks name =
        if r.isFieldName name = false ∧ name = f.name then some addr else r.bricks name := by
      intro name
      unfold registerOne; dsimp only
      have e : ({ r with heap := r.heap.set addr f } : Registry α).isFieldName f.name =
        r.isFieldName f.name := rfl
      split_ifs with hc h2 h3
      · rw [e] at hc; obtain ⟨h2, rfl⟩ := h2; rw [hc] at h2; simp at h2
      · rfl
      · obtain ⟨h3, rfl⟩ := h3; simp
      · rw [e] at hc
        dsimp only
        rw [if_neg]
        rintro rfl
        exact h3 ⟨by simpa using hc, rfl⟩
    refine ⟨?_, ?_, ?_, ?_⟩
    · rw [i1]; unfold registerOne; dsimp only; split_ifs <;> rfl
    · rw [i2, hheap]
      cases fs with
      | nil => simp
      | cons g gs =>
        rw [List.getLast?_cons_cons]
        cases hl : (g :: gs).getLast? with
        | none => simp at hl
        | some l => simp
    · intro name
      rw [i3, hbr, hname]
      by_cases hn : name = f.name
      · subst hn
        by_cases hr : r.isFieldName f.name <;> simp [hr]
      · simp [hn]
    · intro name
      rw [i4, hname]
      by_cases hn : name = f.name <;> simp [hn, Bool.or_assoc]

/-- C20: after registering several derived fields together, every newly introduced name yields the
last one of the list, whatever its own derived field is. -/
theorem c20_all_names_yield_last (r : Registry α) (fs : List (DerivedField α)) (last : DerivedField α)
    (hl : fs.getLast? = some last) (f : DerivedField α) (hf : f ∈ fs)
    (hnew : r.isFieldName f.name = false) :
    (registerDerivedFields r fs).lookup f.name = some last := by
  cases fs with
  | nil => simp at hf
  | cons g gs =>
    have := loop_spec r.heap.length (g :: gs) { r with heap := r.heap ++ [g] } (by simp)
    dsimp only at this
    obtain ⟨-, h2, h3, -⟩ := this
    unfold Registry.lookup registerDerivedFields
    rw [h3, h2, hl]
    have e : ({ r with heap := r.heap ++ [g] } : Registry α).isFieldName f.name = false := hnew
    rw [if_pos ⟨e, List.mem_map_of_mem hf⟩]
    simp

/-- C20: consequently a name yields its own derived field exactly if that is the last of the list. -/
theorem c20_reachable_iff (r : Registry α) (fs : List (DerivedField α)) (last : DerivedField α)
    (hl : fs.getLast? = some last) (f : DerivedField α) (hf : f ∈ fs)
    (hnew : r.isFieldName f.name = false) :
    (registerDerivedFields r fs).lookup f.name = some f ↔ f = last := by
  rw [c20_all_names_yield_last r fs last hl f hf hnew, Option.some.injEq]
  exact eq_comm

/-- C20: names that were known before keep what they yielded. -/
theorem c20_old_names_kept (r : Registry α) (fs : List (DerivedField α)) (name : Str) (a : ℕ)
    (hold : r.bricks name = some a) (ha : a < r.heap.length) (hk : r.isFieldName name = true) :
    (registerDerivedFields r fs).lookup name = r.lookup name := by
  cases fs with
  | nil => rfl
  | cons g gs =>
    have := loop_spec r.heap.length (g :: gs) { r with heap := r.heap ++ [g] } (by simp)
    dsimp only at this
    obtain ⟨-, h2, h3, -⟩ := this
    unfold Registry.lookup registerDerivedFields
    have e : ({ r with heap := r.heap ++ [g] } : Registry α).isFieldName name = true := hk
    rw [h3, h2, if_neg (by simp [e])]
    rw [hold]
    cases hl : (g :: gs).getLast? with
    | none => simp at hl
    | some l =>
      simp only
      rw [List.getElem?_set_ne (by omega), List.getElem?_append_left ha]

/-- C20: registering one at a time (one call per derived field, all names distinct and new) makes
every derived field reachable. -/
theorem c20_one_at_a_time : ∀ (fs : List (DerivedField α)) (r : Registry α),
    (fs.map DerivedField.name).Nodup → ∀ f ∈ fs,
    (fs.foldl registerDerivedField r).lookup f.name = some f := by
  have keep : ∀ (fs : List (DerivedField α)) (r : Registry α) (name : Str) (d : DerivedField α),
      name ∉ fs.map DerivedField.name → r.lookup name = some d →
      (fs.foldl registerDerivedField r).lookup name = some d := by
    intro fs
    induction fs with
    | nil => intro r name d _ h; exact h
    | cons g gs ih =>
      intro r name d hn h
      simp only [List.map_cons, List.mem_cons, not_or] at hn
      refine ih _ name d hn.2 ?_
      unfold Registry.lookup registerDerivedField at *
      dsimp only
      rw [if_neg hn.1]
      cases hb : r.bricks name with
      | none => rw [hb] at h; simp at h
      | some a =>
        rw [hb] at h
        dsimp only at h ⊢
        have := (List.getElem?_eq_some_iff.mp h).1
        rw [List.getElem?_append_left this, h]
  intro fs
  induction fs with
  | nil => intro r _ f hf; simp at hf
  | cons g gs ih =>
    intro r hnd f hf
    simp only [List.map_cons, List.nodup_cons] at hnd
    rw [List.foldl_cons]
    rcases List.mem_cons.mp hf with rfl | hf
    · refine keep gs _ f.name f hnd.1 ?_
      simp [Registry.lookup, registerDerivedField]
    · exact ih _ hnd.2 f hf

/-- An empty model with a field called `c`. -/
def emptyRegistry : Registry ℕ := ⟨["c".toList], [], fun _ => none, []⟩

example : (emptyRegistry.isFieldName "a".toList = false) ∧
    (registerDerivedFields emptyRegistry [⟨"a".toList, 1⟩, ⟨"b".toList, 2⟩]).lookup "a".toList =
      some ⟨"b".toList, 2⟩ := ⟨by decide, rfl⟩

end Gopf.Props
