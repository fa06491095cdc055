import Verif.Props.Mixed
import Verif.Props.Coupled

/-!
# C128: coupled equations that consist of products and of registered terms
-/

namespace Gopf.Props
open Spec Pf Pfutil

variable {n : ℕ} {dims : List ℕ}

/-- What a term stands for in Fourier space, at two sets of values: products with one bare field are taken at `v`, other
products at `u`; registered terms see the bricks `b`. -/
noncomputable def summandSeen (N : Names) (E I : Str → BTerm n) (field : Str) (F : Data n → Data n) (u v : Str → Data n)
    (b : Bricks n) (freq : Frequency n) (t : ℝ) (k : Fin n) : Summand × Option Char → ℂ
  | (.product items, d) => seenSpectrum N F u v freq k (items, d)
  | (.registered ops name, d) => delimSign d * (ops.map fun p => prefixSymbol p (freq k)).prod *
      (E name b freq t k + I name b freq t k * F (u field) k)

theorem build_mixed_seen {N : Names} (hN : N.WellNamed) {m0 m : EqModel n} (h0 : StartsAs N m0) {E I : Str → BTerm n}
    (hg : Grown N m0 m) {field : Str} (hf : field ∈ N.fields) : ∀ (L : List (Summand × Option Char)),
    (∀ p ∈ L, Sensible N m0 E I p.1 ∧ Seen N field m p.1) → ∀ rhs : BuiltRHS n,
    ∃ T D, (L.map mixedText).foldlM (buildTerm m field) rhs = some ⟨rhs.terms ++ T, rhs.denum ++ D⟩ ∧
      ∀ (F : Data n → Data n) (u v : Str → Data n) (b : Bricks n), SeenBricks N m F u v b → v field = u field →
      ∀ (freq : Frequency n) (t : ℝ) (k : Fin n),
        (T.map fun f => f b freq t k).sum + (D.map fun f => f b freq t k).sum * b field k =
          (L.map (summandSeen N E I field F u v b freq t k)).sum ∧
        (D.map fun f => f b freq t k).sum = (L.map (summandFactor N I field u b freq t k)).sum
  | [], _, rhs => ⟨[], [], by simp, by simp⟩
  | (s, d) :: L, h, rhs => by
    obtain ⟨T1, D1, e1, v1⟩ : ∃ T D, buildTerm m field rhs (mixedText (s, d)) = some ⟨rhs.terms ++ T, rhs.denum ++ D⟩ ∧
        ∀ (F : Data n → Data n) (u v : Str → Data n) (b : Bricks n), SeenBricks N m F u v b → v field = u field →
        ∀ (freq : Frequency n) (t : ℝ) (k : Fin n),
          (T.map fun f => f b freq t k).sum + (D.map fun f => f b freq t k).sum * b field k =
            summandSeen N E I field F u v b freq t k (s, d) ∧
          (D.map fun f => f b freq t k).sum = summandFactor N I field u b freq t k (s, d) := by
      obtain ⟨h1, h2⟩ := h (s, d) (by simp)
      cases s with
      | product items => exact buildTerm_seen hN h0 hg hf (p := (items, d)) h1.1 h1.2.2 h2 rhs
      | registered ops name =>
        obtain ⟨T, D, e, w⟩ := build_registered hg h1.1 h1.2 field d rhs
        refine ⟨T, D, e, fun F u v b hb hvu freq t k => ?_⟩
        rw [(w b freq t k).1, (w b freq t k).2, hb.fields field hf, hvu]
        simp only [summandSeen, summandFactor]
        exact ⟨by ring, trivial⟩
    obtain ⟨T2, D2, e2, v2⟩ := build_mixed_seen hN h0 hg hf L (fun q hq => h q (by simp [hq]))
      ⟨rhs.terms ++ T1, rhs.denum ++ D1⟩
    refine ⟨T1 ++ T2, D1 ++ D2, ?_, ?_⟩
    · rw [List.map_cons, List.foldlM_cons, e1]
      simpa [List.append_assoc] using e2
    · intro F u v b hb hvu freq t k
      obtain ⟨a1, a1'⟩ := v1 F u v b hb hvu freq t k
      obtain ⟨a2, a2'⟩ := v2 F u v b hb hvu freq t k
      rw [List.map_cons, List.sum_cons, ← a1, ← a2, List.map_cons, List.sum_cons, ← a1', ← a2']
      simp only [List.map_append, List.sum_append]
      exact ⟨by ring, trivial⟩

theorem initRHS_mixed_seen (N : Names) (hN : N.WellNamed) (m0 : EqModel n) (h0 : StartsAs N m0) (E I : Str → BTerm n)
    (heq : m0.equations = []) (eqs : List MixedEquation) (hq : ∀ eq ∈ eqs, MixedEquation.Good N m0 E I eq)
    (ss : List Str) (hs : ss.map (fun s => s.filter fun c => c ≠ ' ') = eqs.map MixedEquation.text) :
    ∃ m Rs, ss.foldlM EqModel.addEquation m0 = some m ∧ m.initRHS = some Rs ∧
      List.Forall₂ (fun (eq : MixedEquation) (R : BuiltRHS n) =>
        ∀ (F : Data n → Data n) (u v : Str → Data n) (b : Bricks n), SeenBricks N m F u v b → v eq.field = u eq.field →
        ∀ (freq : Frequency n) (t : ℝ) (k : Fin n),
          (R.terms.map fun f => f b freq t k).sum + (R.denum.map fun f => f b freq t k).sum * F (u eq.field) k =
            (eq.terms.map (summandSeen N E I eq.field F u v b freq t k)).sum ∧
          (R.denum.map fun f => f b freq t k).sum =
            (eq.terms.map (summandFactor N I eq.field u b freq t k)).sum) eqs Rs := by
  obtain ⟨m, h1, hg, h3, -, h5⟩ := add_mixed hN eqs ss m0 (grown_start hN h0) hq hs
  rw [heq, List.nil_append] at h3
  suffices h : ∀ l : List MixedEquation, (∀ eq ∈ l, eq ∈ eqs) →
      ∃ Rs, (l.map MixedEquation.text).mapM (fun s => build s m) = some Rs ∧
      List.Forall₂ (fun (eq : MixedEquation) (R : BuiltRHS n) =>
        ∀ (F : Data n → Data n) (u v : Str → Data n) (b : Bricks n), SeenBricks N m F u v b → v eq.field = u eq.field →
        ∀ (freq : Frequency n) (t : ℝ) (k : Fin n),
          (R.terms.map fun f => f b freq t k).sum + (R.denum.map fun f => f b freq t k).sum * F (u eq.field) k =
            (eq.terms.map (summandSeen N E I eq.field F u v b freq t k)).sum ∧
          (R.denum.map fun f => f b freq t k).sum =
            (eq.terms.map (summandFactor N I eq.field u b freq t k)).sum) l Rs by
    obtain ⟨Rs, e1, e2⟩ := h eqs fun _ h => h
    exact ⟨m, Rs, h1, by rw [EqModel.initRHS, h3]; exact e1, e2⟩
  intro l
  induction l with
  | nil => exact fun _ => ⟨[], by simp, List.Forall₂.nil⟩
  | cons eq l ih =>
    intro hl
    obtain ⟨Rs, e1, e2⟩ := ih fun q hq' => hl q (by simp [hq'])
    have hmem := hl eq (by simp)
    have hp := hq eq hmem
    obtain ⟨s1, s2, L, hL, s3⟩ := split_mixed hN hp
    obtain ⟨T, D, b1, b2⟩ := build_mixed_seen hN h0 hg hp.field L (fun p hp' =>
      ⟨hp.terms p (hL.subset hp'), h5 eq hmem p (hL.subset hp')⟩) ⟨[], []⟩
    have hb : build eq.text m = some ⟨T, D⟩ := by
      unfold build
      rw [s1]
      simp only [s2, s3]
      simpa using b1
    refine ⟨⟨T, D⟩ :: Rs, ?_, List.Forall₂.cons ?_ e2⟩
    · rw [List.map_cons, List.mapM_cons, hb, e1]; rfl
    · intro F u v b hbr hvu freq t k
      obtain ⟨a1, a2⟩ := b2 F u v b hbr hvu freq t k
      rw [← (hL.map _).sum_eq, ← (hL.map _).sum_eq, ← a1, ← a2, hbr.fields _ hp.field, hvu]
      exact ⟨rfl, rfl⟩

/-- C128: an Euler step of coupled equations that mix products and registered terms, without any condition on what the
equations read. `u` are the values before the step, `v` the values at the moment equation `i` is evaluated: the fields of
earlier equations are those after the step. Products with one bare field are taken at `v`, all others at `u`, and
registered terms see transforms of the fields `v`, of the derived fields at `u`, and the scalars. -/
theorem c128_coupled (h : ∀ d ∈ dims, 0 < d) (N : Names) (hN : N.WellNamed) (m0 : EqModel dims.prod)
    (h0 : StartsAs N m0) (heq : m0.equations = []) (hfun : ∀ p ∈ m0.derived, ReadsFields N p.2)
    (E I : Str → BTerm dims.prod)
    (eqs : List MixedEquation) (hq : ∀ eq ∈ eqs, MixedEquation.Good N m0 E I eq)
    (ss : List Str) (hs : ss.map (fun s => s.filter fun c => c ≠ ' ') = eqs.map MixedEquation.text)
    (hlen : N.fields.length ≤ eqs.length) (c : Str → ℂ) :
    ∃ m M, ss.foldlM EqModel.addEquation m0 = some m ∧ m.fields = N.fields ∧ m.assemble c = some M ∧
      (∃ l, m.derived = m0.derived ++ l) ∧ (m.derived.map Prod.fst).Nodup ∧ FieldsOnly M ∧
      ∀ (i : Fin m.fields.length) (eq : MixedEquation), eqs[i.val]? = some eq → eq.field = m.fields[i] →
      ∀ (s : Stepper dims.prod) (st : Store m.fields.length m.derived.length dims.prod) (u v : Str → Data dims.prod),
      (∀ j : Fin m.fields.length, u m.fields[j] = st.fields j) → (∀ x ∈ N.scalars, u x = fun _ => c x) →
      (∀ p ∈ m0.derived, u p.1 = p.2.eval u) →
      (∀ j : Fin m.fields.length, v m.fields[j] = if j < i then (eulerStep M (s, st)).2.fields j else st.fields j) →
      ∃ b : Bricks dims.prod, (∀ x ∈ N.fields, b x = fft dims (v x)) ∧ (∀ x ∈ N.scalars, b x = fun _ => c x) ∧
      (∀ p ∈ m.derived, b p.1 = fft dims (p.2.eval u)) ∧
      ∀ k, 1 - s.dt * (eq.terms.map (summandFactor N I eq.field u b s.freq s.getTime k)).sum ≠ 0 →
        fft dims ((eulerStep M (s, st)).2.fields i) k *
          (1 - s.dt * (eq.terms.map (summandFactor N I eq.field u b s.freq s.getTime k)).sum) =
        waveGain s.filter (s.freq k) * (fft dims (st.fields i) k + s.dt *
          ((eq.terms.map (summandSeen N E I eq.field (fft dims) u v b s.freq s.getTime k)).sum -
          (eq.terms.map (summandFactor N I eq.field u b s.freq s.getTime k)).sum * fft dims (st.fields i) k)) := by
  obtain ⟨m, hadd, hg, -, ⟨l, hl⟩, -⟩ := add_mixed hN eqs ss m0 (grown_start hN h0) hq hs
  obtain ⟨m', Rs, hadd', hinit, hall⟩ := initRHS_mixed_seen N hN m0 h0 E I heq eqs hq ss hs
  rw [hadd] at hadd'
  obtain rfl := Option.some.inj hadd'
  have hRlen : m.fields.length ≤ Rs.length := by rw [← hall.length_eq, hg.fields]; exact hlen
  set M : Model m.fields.length m.derived.length dims.prod :=
    { calcs := fun d st => (m.derived[d]).2.eval (m.brick c st)
      terms := fun i => (Rs[i]'(i.2.trans_le hRlen)).terms.map fun f st => f (m.brick c st)
      denum := fun i => (Rs[i]'(i.2.trans_le hRlen)).denum.map fun f st => f (m.brick c st)
      sources := fun _ => []
      modifiers := [] } with hM
  have hFO : FieldsOnly M := by
    intro d st st' hst
    refine calc_reads hg hfun (List.getElem_mem d.2) _ _ ?_ ?_
    · intro x hx
      rw [← hg.fields] at hx
      obtain ⟨j, hj, rfl⟩ := List.getElem_of_mem hx
      exact (brick_field hN hg ⟨j, hj⟩ c st).trans
        ((congrFun hst ⟨j, hj⟩).trans (brick_field hN hg ⟨j, hj⟩ c st').symm)
    · intro x hx
      rw [brick_scalar hN hg hx, brick_scalar hN hg hx]
  refine ⟨m, M, hadd, hg.fields, by rw [EqModel.assemble, hinit]; simp only [dif_pos hRlen]; rfl, ⟨l, hl⟩, hg.keys, hFO, ?_⟩
  intro i eq hi hfield s st u v hu hc hf hv
  obtain ⟨st', t1, t2, t3⟩ := eulerStep_store h M s s.getTime st i
  obtain ⟨hb1, hb2⟩ := brick_congr hN hg hu hc
  have hcalc : ∀ d : Fin m.derived.length, M.calcs d st = (m.derived[d]).2.eval u := fun d =>
    calc_reads hg hfun (List.getElem_mem d.2) _ _ hb1 hb2
  have hder : ∀ d, st'.derived d = fft dims ((m.derived[d]).2.eval u) := by
    intro d
    rw [t1]
    unfold spectral
    rw [sync_eq hFO]
    exact congrArg (fft dims) (hcalc d)
  have htr : SeenBricks N m (fft dims) u v (m.brick c st') := by
    refine ⟨?_, ?_, ?_, ?_⟩
    · intro x hx
      rw [← hg.fields] at hx
      obtain ⟨j, hj, rfl⟩ := List.getElem_of_mem hx
      refine (brick_field hN hg ⟨j, hj⟩ c st').trans ?_
      have e := hv ⟨j, hj⟩
      simp only [Fin.getElem_fin] at e
      rw [t2, e]
      split_ifs <;> rfl
    · intro x hx
      rw [brick_scalar hN hg hx, hc x hx]
    · intro p hp
      obtain ⟨d, hd, rfl⟩ := List.getElem_of_mem hp
      exact (brick_derived hN hg ⟨d, hd⟩ c st').trans (hder ⟨d, hd⟩)
    · intro p hp hpf
      rw [← h0.functions] at hpf
      obtain ⟨q, hq', hqp⟩ := List.mem_map.mp hpf
      have hqm : q ∈ m.derived := by rw [hl]; simp [hq']
      have : q = p := List.inj_on_of_nodup_map hg.keys hqm hp hqp
      rw [← this]
      exact hf q hq'
  refine ⟨m.brick c st', htr.fields, fun x hx => by rw [htr.scalars x hx, hc x hx], htr.derived, ?_⟩
  intro k hne
  have hlt : i.val < eqs.length := (List.getElem?_eq_some_iff.mp hi).1
  have hget : eqs[i.val] = eq := (List.getElem?_eq_some_iff.mp hi).2
  have hvu : v eq.field = u eq.field := by
    rw [hfield, hv i, if_neg (lt_irrefl i), hu i]
  obtain ⟨hsum, hden⟩ := (List.forall₂_iff_get.mp hall).2 i.val hlt (i.2.trans_le hRlen) (fft dims) u v _ htr
    (by simpa only [List.get_eq_getElem, hget] using hvu) s.freq s.getTime k
  simp only [List.get_eq_getElem, hget] at hden hsum
  have hR : M.getRHS i st' s.freq s.getTime k =
      ((Rs[i.val]'(i.2.trans_le hRlen)).terms.map fun f => f (m.brick c st') s.freq s.getTime k).sum := by
    rw [c21_rhs]
    simp [hM, Function.comp_def]
  have hD : M.getDenum i st' s.freq s.getTime k =
      ((Rs[i.val]'(i.2.trans_le hRlen)).denum.map fun f => f (m.brick c st') s.freq s.getTime k).sum := by
    rw [c21_denum]
    simp [hM, Function.comp_def]
  have hstep : fft dims ((eulerStep M (s, st)).2.fields i) k = _ := congrFun t3 k
  rw [optFilter_gain, hD, hR, hden] at hstep
  rw [hden] at hsum
  have hfi : fft dims (u eq.field) k = fft dims (st.fields i) k := by rw [hfield, hu i]
  rw [hfi] at hsum
  rw [← hsum, hstep]
  field_simp
  ring

end Gopf.Props
