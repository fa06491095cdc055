import Verif.Model.Stepper
import Verif.Proofs.Dft
import Mathlib.Tactic.Ring
import Mathlib.Tactic.FieldSimp

/-!
# Lemmas about the evaluation of the right-hand side and the steppers
-/

namespace Gopf.Pf
open Pfutil

variable {nf nd n : ℕ}

theorem foldl_add {α : Type} (l : List α) (g : α → Data n) (init : Data n) (k : Fin n) :
    l.foldl (fun data a => elemwiseAdd data (g a)) init k =
      init k + (l.map fun a => g a k).sum := by
  induction l generalizing init with
  | nil => simp
  | cons a l ih =>
    rw [List.foldl_cons, ih, List.map_cons, List.sum_cons]
    simp only [elemwiseAdd]
    ring

theorem rawRHS_apply (m : Model nf nd n) (i : Fin nf) (st : Store nf nd n) (freq : Frequency n)
    (t : ℝ) (k : Fin n) :
    m.rawRHS i st freq t k = ((m.terms i).map fun f => f st freq t k).sum +
      ((m.sources i).map fun s => s.eval freq t k).sum := by
  unfold Model.rawRHS
  rw [foldl_add, foldl_add]
  simp

theorem getDenum_apply (m : Model nf nd n) (i : Fin nf) (st : Store nf nd n) (freq : Frequency n)
    (t : ℝ) (k : Fin n) :
    m.getDenum i st freq t k = ((m.denum i).map fun f => f st freq t k).sum := by
  unfold Model.getDenum
  rw [foldl_add]
  simp

theorem foldl_filter {α : Type} (p : α → Prop) [DecidablePred p] {β : Type} (g : β → α → β) :
    ∀ (l : List α) (init : β), l.foldl (fun d a => if p a then g d a else d) init =
      (l.filter (fun a => decide (p a))).foldl g init
  | [], _ => rfl
  | a :: l, init => by
    rw [List.foldl_cons, foldl_filter p g l, List.filter_cons]
    by_cases h : p a <;> simp [h]

theorem getRHS_eq (m : Model nf nd n) (i : Fin nf) (st : Store nf nd n) (freq : Frequency n)
    (t : ℝ) :
    m.getRHS i st freq t =
      ((m.modifiers.filter (fun md => decide (md.1 = i.val))).map Prod.snd).foldl
        (fun data f => f data) (m.rawRHS i st freq t) := by
  unfold Model.getRHS
  rw [foldl_filter (fun md : ℕ × (Data n → Data n) => md.1 = i.val) (fun d md => md.2 d),
    List.foldl_map]

/-- A loop over the fields in which step `i` only writes field `i`. -/
theorem foldl_update_fields (g : Store nf nd n → Fin nf → Data n) :
    ∀ (l : List (Fin nf)), l.Nodup → ∀ st : Store nf nd n,
    let r := l.foldl (fun s i => { s with fields := Function.update s.fields i (g s i) }) st
    r.derived = st.derived ∧
    (∀ i, i ∉ l → r.fields i = st.fields i) ∧
    (∀ l1 i l2, l = l1 ++ i :: l2 → r.fields i =
      g (l1.foldl (fun s i => { s with fields := Function.update s.fields i (g s i) }) st) i)
  | [], _, st => by simp
  | a :: l, hnd, st => by
    rw [List.nodup_cons] at hnd
    have ih := foldl_update_fields g l hnd.2
      { st with fields := Function.update st.fields a (g st a) }
    dsimp only at ih ⊢
    obtain ⟨h1, h2, h3⟩ := ih
    rw [List.foldl_cons]
    refine ⟨h1, ?_, ?_⟩
    · intro i hi
      simp only [List.mem_cons, not_or] at hi
      rw [h2 i hi.2, Function.update_of_ne hi.1]
    · intro l1 i l2 he
      cases l1 with
      | nil =>
        simp only [List.nil_append, List.cons.injEq] at he
        obtain ⟨rfl, rfl⟩ := he
        rw [h2 _ hnd.1]
        simp
      | cons b l1 =>
        simp only [List.cons_append, List.cons.injEq] at he
        obtain ⟨rfl, he⟩ := he
        rw [h3 l1 i l2 he, List.foldl_cons]

theorem finRange_split (i : Fin nf) : ∃ l1 l2, List.finRange nf = l1 ++ i :: l2 ∧
    ∀ j ∈ l1, j < i := by
  obtain ⟨l1, l2, h⟩ := List.append_of_mem (List.mem_finRange i)
  refine ⟨l1, l2, h, fun j hj => ?_⟩
  have hs := List.pairwise_lt_finRange nf
  rw [h, List.pairwise_append] at hs
  exact hs.2.2 j hj i (by simp)

/-- The calculators of the derived fields read fields only. -/
def FieldsOnly (m : Model nf nd n) : Prop :=
  ∀ d (st st' : Store nf nd n), st.fields = st'.fields → m.calcs d st = m.calcs d st'

theorem sync_fields (m : Model nf nd n) (st : Store nf nd n) : (m.sync st).fields = st.fields := by
  unfold Model.sync
  generalize List.finRange nd = l
  induction l generalizing st with
  | nil => rfl
  | cons a l ih => rw [List.foldl_cons, ih]

theorem sync_eq {m : Model nf nd n} (h : FieldsOnly m) (st : Store nf nd n) :
    m.sync st = { st with derived := fun d => m.calcs d st } := by
  have key : ∀ (l : List (Fin nd)) (s : Store nf nd n), s.fields = st.fields →
      l.foldl (fun s d => { s with derived := Function.update s.derived d (m.calcs d s) }) s =
        ({ st with derived := fun d => if d ∈ l then m.calcs d st else s.derived d } : Store nf nd n) := by
    intro l
    induction l with
    | nil =>
      intro s hs
      cases s; cases st; simp_all
    | cons a l ih =>
      intro s hs
      rw [List.foldl_cons, ih { s with derived := Function.update s.derived a (m.calcs a s) } hs]
      congr 1
      funext d
      by_cases hd : d = a
      · subst hd; simp [h d s st hs]
      · simp [hd, Function.update_of_ne hd]
  unfold Model.sync
  rw [key _ st rfl]
  congr 1
  funext d
  simp

variable {dims : List ℕ}

theorem fft_ifftFields (h : ∀ d ∈ dims, 0 < d) (st : Store nf nd dims.prod) (i : Fin nf) :
    fft dims ((ifftFields st).fields i) = st.fields i := by
  funext k
  have hN : (dims.prod : ℂ) ≠ 0 := by
    have : 0 < dims.prod := Nat.pos_of_ne_zero (by
      rw [Ne, List.prod_eq_zero_iff]; intro hm; exact absurd (h 0 hm) (by omega))
    exact_mod_cast this.ne'
  have e : (ifftFields st).fields i = fun x => ifft dims (st.fields i) x / (dims.prod : ℂ) := by
    funext x; simp only [ifftFields, divRealScalar, Complex.ofReal_natCast]
  have e2 : fft dims ((ifftFields st).fields i) k =
      fft dims (ifft dims (st.fields i)) k / (dims.prod : ℂ) := by
    rw [e]
    unfold fft
    rw [div_eq_mul_inv, Finset.sum_mul]
    refine Finset.sum_congr rfl fun x _ => ?_
    ring
  rw [e2, fft_ifft h]
  field_simp

theorem ifftFields_fft (h : ∀ d ∈ dims, 0 < d) (st : Store nf nd dims.prod) (i : Fin nf)
    (y : Data dims.prod) (hy : st.fields i = fft dims y) : (ifftFields st).fields i = y := by
  funext x
  have hN : (dims.prod : ℂ) ≠ 0 := by
    have : 0 < dims.prod := Nat.pos_of_ne_zero (by
      rw [Ne, List.prod_eq_zero_iff]; intro hm; exact absurd (h 0 hm) (by omega))
    exact_mod_cast this.ne'
  have e : (ifftFields st).fields i x = ifft dims (st.fields i) x / (dims.prod : ℂ) := by
    simp only [ifftFields, divRealScalar, Complex.ofReal_natCast]
  rw [e, hy, ifft_fft h]
  field_simp

/-- The store seen by the terms during a step that starts from `st`: everything transformed. -/
noncomputable def spectral (m : Model nf nd dims.prod) (st : Store nf nd dims.prod) :
    Store nf nd dims.prod := fftDerived (fftFields (m.sync st))

theorem spectral_fields (m : Model nf nd dims.prod) (st : Store nf nd dims.prod) (i : Fin nf) :
    (spectral m st).fields i = fft dims (st.fields i) := by
  unfold spectral fftDerived fftFields
  simp only [sync_fields]

/-- Result of an Euler step for one field, in Fourier space, in terms of the store at the moment the
field is updated. -/
theorem eulerStep_field (h : ∀ d ∈ dims, 0 < d) (m : Model nf nd dims.prod) (s : Stepper dims.prod)
    (t : ℝ) (st : Store nf nd dims.prod) (i : Fin nf) :
    ∃ st' : Store nf nd dims.prod, st'.derived = (spectral m st).derived ∧
      (∀ j, ¬ j < i → st'.fields j = fft dims (st.fields j)) ∧
      fft dims ((eulerStepAt m s t st).fields i) = optFilter s.filter s.freq fun k =>
        (fft dims (st.fields i) k + (s.dt : ℂ) * m.getRHS i st' s.freq t k) /
          (1 - (s.dt : ℂ) * m.getDenum i st' s.freq t k) := by
  obtain ⟨l1, l2, hl, hlt⟩ := finRange_split i
  have hnd := List.nodup_finRange nf
  let g : Store nf nd dims.prod → Fin nf → Data dims.prod := fun st i =>
    optFilter s.filter s.freq fun j => (st.fields i j + (s.dt : ℂ) * m.getRHS i st s.freq t j) /
      (1 - (s.dt : ℂ) * m.getDenum i st s.freq t j)
  have hg : ∀ (l : List (Fin nf)) (st : Store nf nd dims.prod), l.foldl (eulerField m s t) st =
      l.foldl (fun s i => { s with fields := Function.update s.fields i (g s i) }) st := fun _ _ => rfl
  have hfold := foldl_update_fields g (List.finRange nf) hnd (spectral m st)
  dsimp only at hfold
  have hl1nd : l1.Nodup := by
    rw [hl] at hnd; exact hnd.sublist (List.sublist_append_left _ _)
  have hfold1 := foldl_update_fields g l1 hl1nd (spectral m st)
  dsimp only at hfold1
  have hf : ∀ j, ¬ j < i → (l1.foldl (fun s i => { s with fields := Function.update s.fields i (g s i) })
      (spectral m st)).fields j = fft dims (st.fields j) := by
    intro j hj
    rw [hfold1.2.1 j (fun hm => hj (hlt j hm)), spectral_fields]
  refine ⟨_, hfold1.1, hf, ?_⟩
  unfold eulerStepAt
  dsimp only
  rw [fft_ifftFields h, hg]
  have := hfold.2.2 l1 i l2 hl
  unfold spectral at this
  rw [this]
  have hfi := hf i (lt_irrefl i)
  unfold spectral at hfi
  simp only [g, hfi]
  rfl

/-- As `eulerStep_field`, with all fields of the store: those of earlier equations are already new. -/
theorem eulerStep_store (h : ∀ d ∈ dims, 0 < d) (m : Model nf nd dims.prod) (s : Stepper dims.prod)
    (t : ℝ) (st : Store nf nd dims.prod) (i : Fin nf) :
    ∃ st' : Store nf nd dims.prod, st'.derived = (spectral m st).derived ∧
      (∀ j, st'.fields j = if j < i then fft dims ((eulerStepAt m s t st).fields j) else fft dims (st.fields j)) ∧
      fft dims ((eulerStepAt m s t st).fields i) = optFilter s.filter s.freq fun k =>
        (fft dims (st.fields i) k + (s.dt : ℂ) * m.getRHS i st' s.freq t k) /
          (1 - (s.dt : ℂ) * m.getDenum i st' s.freq t k) := by
  obtain ⟨l1, l2, hl, hlt⟩ := finRange_split i
  have hnd := List.nodup_finRange nf
  let g : Store nf nd dims.prod → Fin nf → Data dims.prod := fun st i =>
    optFilter s.filter s.freq fun j => (st.fields i j + (s.dt : ℂ) * m.getRHS i st s.freq t j) /
      (1 - (s.dt : ℂ) * m.getDenum i st s.freq t j)
  have hg : ∀ (l : List (Fin nf)) (st : Store nf nd dims.prod), l.foldl (eulerField m s t) st =
      l.foldl (fun s i => { s with fields := Function.update s.fields i (g s i) }) st := fun _ _ => rfl
  have hfold := foldl_update_fields g (List.finRange nf) hnd (spectral m st)
  dsimp only at hfold
  have hnd' := hnd
  rw [hl] at hnd'
  have hl1nd : l1.Nodup := hnd'.sublist (List.sublist_append_left _ _)
  have hl2nd : (i :: l2).Nodup := hnd'.sublist (List.sublist_append_right _ _)
  have hfold1 := foldl_update_fields g l1 hl1nd (spectral m st)
  dsimp only at hfold1
  set st1 := l1.foldl (fun s i => { s with fields := Function.update s.fields i (g s i) }) (spectral m st) with hst1
  have hfold2 := foldl_update_fields g (i :: l2) hl2nd st1
  dsimp only at hfold2
  have hend : (List.finRange nf).foldl (eulerField m s t) (spectral m st) =
      (i :: l2).foldl (fun s i => { s with fields := Function.update s.fields i (g s i) }) st1 := by
    rw [hg, hl, List.foldl_append]
  have hnew : ∀ j, fft dims ((eulerStepAt m s t st).fields j) =
      ((List.finRange nf).foldl (eulerField m s t) (spectral m st)).fields j := by
    intro j
    unfold eulerStepAt
    dsimp only
    rw [fft_ifftFields h]
    rfl
  have hf : ∀ j, ¬ j < i → st1.fields j = fft dims (st.fields j) := by
    intro j hj
    rw [hfold1.2.1 j (fun hm => hj (hlt j hm)), spectral_fields]
  refine ⟨st1, hfold1.1, ?_, ?_⟩
  · intro j
    split_ifs with hj
    · have hj1 : j ∈ l1 := by
        have hm := List.mem_finRange j
        rw [hl, List.mem_append, List.mem_cons] at hm
        rcases hm with hm | hm | hm
        · exact hm
        · exact absurd (hm ▸ hj) (lt_irrefl _)
        · have hs := List.pairwise_lt_finRange nf
          rw [hl, List.pairwise_append, List.pairwise_cons] at hs
          exact absurd hj (not_lt.mpr (hs.2.1.1 j hm).le)
      have hj2 : j ∉ i :: l2 := fun hm => (List.nodup_append.mp hnd').2.2 j hj1 j hm rfl
      rw [hnew, hend, hfold2.2.1 j hj2]
    · exact hf j hj
  · rw [hnew, hg, hfold.2.2 l1 i l2 hl]
    have hfi := hf i (lt_irrefl i)
    rw [← hst1]
    simp only [g, hfi]

end Gopf.Pf
