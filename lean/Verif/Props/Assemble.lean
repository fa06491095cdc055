import Verif.Model.Assemble
import Verif.Props.Equation
import Verif.Props.Euler
import Verif.Proofs.Parseval

/-!
# C97: from the text of the equations to a time step
-/

namespace Gopf.Props
open Spec Pf Pfutil

variable {n : ℕ}

/-- The result of a registered function depends on fields and scalars only. -/
def ReadsFields (N : Names) (c : Calc n) : Prop :=
  ∀ u u' : Bricks n, (∀ x ∈ N.fields, u x = u' x) → (∀ x ∈ N.scalars, u x = u' x) → c.eval u = c.eval u'

theorem productName_notMem {N : Names} (hN : N.WellNamed) {s : Str} (hs : IsProductName N s) : s ∉ N.all := by
  intro h
  have hid := (hN.ident s h).2
  obtain ⟨fs, rfl, hne, hf, hsingle⟩ := hs
  cases fs with
  | nil => exact hne rfl
  | cons f fs =>
    rw [List.map_cons, intercalate_cons] at hid
    obtain ⟨name, exp⟩ := f
    cases exp with
    | some e =>
      exact ident_ne (hid '^' (by simp [Factor.text, Spec.powerText])) (d := '^') (by decide) (by decide) rfl
    | none =>
      cases fs with
      | nil => exact hsingle name rfl
      | cons f2 fs =>
        exact ident_ne (hid '*' (by simp [tailText])) (d := '*') (by decide) (by decide) rfl

section
variable {N : Names} (hN : N.WellNamed) {m0 m : EqModel n} (hg : Grown N m0 m)
include hN hg

theorem derived_notField {p : Str × Calc n} (hp : p ∈ m.derived) : p.1 ∉ m.fields := by
  intro h
  rw [hg.fields] at h
  rcases hg.rep.derived p.1 (List.mem_map_of_mem hp) with h' | h'
  · exact fields_functions hN h h'
  · exact productName_notMem hN h' (by simp [Names.all, Names.varying, h])

theorem scalar_new {x : Str} (hx : x ∈ N.scalars) : x ∉ m.fields ∧ x ∉ m.derived.map Prod.fst := by
  have hdis : ∀ y ∈ N.varying, y ∉ N.scalars := fun y hy hy' =>
    (List.nodup_append.mp hN.nodup).2.2 y hy y hy' rfl
  refine ⟨?_, ?_⟩
  · rw [hg.fields]; exact fun h => hdis x (by simp [Names.varying, h]) hx
  · intro h
    rcases hg.rep.derived x h with h' | h'
    · exact hdis x (by simp [Names.varying, h']) hx
    · exact productName_notMem hN h' (by simp [Names.all, hx])

theorem brick_scalar {x : Str} (hx : x ∈ N.scalars) (c : Str → ℂ)
    (st : Store m.fields.length m.derived.length n) : m.brick c st x = fun _ => c x := by
  obtain ⟨h1, h2⟩ := scalar_new hN hg hx
  rw [EqModel.brick, dif_neg (by rw [List.idxOf_lt_length_iff]; exact h1), dif_neg]
  rw [← List.length_map (f := Prod.fst), List.idxOf_lt_length_iff]
  exact h2

theorem brick_derived (d : Fin m.derived.length) (c : Str → ℂ)
    (st : Store m.fields.length m.derived.length n) : m.brick c st (m.derived[d]).1 = st.derived d := by
  have h1 := derived_notField hN hg (List.getElem_mem d.2)
  have hidx : (m.derived.map Prod.fst).idxOf (m.derived[d]).1 = d.val := by
    have := List.Nodup.idxOf_getElem hg.keys d.val (by simp)
    simpa using this
  rw [EqModel.brick, dif_neg (by rw [List.idxOf_lt_length_iff]; exact h1), dif_pos (by rw [hidx]; exact d.2)]
  congr 1
  exact Fin.ext hidx

theorem brick_field (i : Fin m.fields.length) (c : Str → ℂ)
    (st : Store m.fields.length m.derived.length n) : m.brick c st m.fields[i] = st.fields i := by
  have hnd : m.fields.Nodup := by rw [hg.fields]; exact fields_nodup hN
  have hidx : m.fields.idxOf m.fields[i] = i.val := hnd.idxOf_getElem i.val i.2
  rw [EqModel.brick, dif_pos (by rw [hidx]; exact i.2)]
  congr 1
  exact Fin.ext hidx

omit hN in
theorem calc_reads (hfun : ∀ p ∈ m0.derived, ReadsFields N p.2) {p : Str × Calc n} (hp : p ∈ m.derived) :
    ReadsFields N p.2 := by
  rcases hg.derived p hp with h | ⟨fs, _, h2, _, h4⟩
  · exact hfun p h
  · intro u u' hf _
    rw [h4, h4]
    funext i
    unfold productValue
    congr 1
    apply List.map_congr_left
    intro f hf'
    rw [hf f.name (h2 f hf').1]

theorem brick_congr {c : Str → ℂ} {st : Store m.fields.length m.derived.length n} {u : Str → Data n}
    (hu : ∀ j : Fin m.fields.length, u m.fields[j] = st.fields j) (hc : ∀ x ∈ N.scalars, u x = fun _ => c x) :
    (∀ x ∈ N.fields, m.brick c st x = u x) ∧ ∀ x ∈ N.scalars, m.brick c st x = u x := by
  refine ⟨?_, fun x hx => by rw [brick_scalar hN hg hx, hc x hx]⟩
  intro x hx
  rw [← hg.fields] at hx
  obtain ⟨j, hj, rfl⟩ := List.getElem_of_mem hx
  exact (brick_field hN hg ⟨j, hj⟩ c st).trans (hu ⟨j, hj⟩).symm

end

variable {dims : List ℕ}

/-- C97: the equations are parsed, and an Euler step without filter advances field `i` with the equation
at position `i`, whatever field that equation names: `(1 - dt A)` times the new spectrum is the old
spectrum plus `dt` times the transform of the right-hand side without the implicit part. `A` is the sum
of the factors of the terms that are linear in the field the equation names. -/
theorem c97_step (h : ∀ d ∈ dims, 0 < d) (N : Names) (hN : N.WellNamed) (m0 : EqModel dims.prod)
    (h0 : StartsAs N m0) (heq : m0.equations = []) (hfun : ∀ p ∈ m0.derived, ReadsFields N p.2)
    (eqs : List Equation) (hq : ∀ eq ∈ eqs, eq.Polynomial N ∧ Unregistered m0 eq)
    (ss : List Str) (hs : ss.map (fun s => s.filter fun c => c ≠ ' ') = eqs.map Equation.text)
    (hlen : N.fields.length ≤ eqs.length) (c : Str → ℂ) :
    ∃ m M, ss.foldlM EqModel.addEquation m0 = some m ∧ m.fields = N.fields ∧ m.assemble c = some M ∧
      ∀ (i : Fin m.fields.length) (eq : Equation), eqs[i.val]? = some eq →
      ReadsNoEarlierField M i → ∀ (s : Stepper dims.prod), s.filter = none →
      ∀ (st : Store m.fields.length m.derived.length dims.prod) (u : Str → Data dims.prod),
      (∀ j : Fin m.fields.length, u m.fields[j] = st.fields j) → (∀ x ∈ N.scalars, u x = fun _ => c x) →
      (∀ p ∈ m0.derived, u p.1 = p.2.eval u) →
      ∀ k, 1 - s.dt * (eq.terms.map (linearFactor N eq.field u s.freq k)).sum ≠ 0 →
        (1 - s.dt * (eq.terms.map (linearFactor N eq.field u s.freq k)).sum) *
          fft dims ((eulerStep M (s, st)).2.fields i) k =
        fft dims (st.fields i) k + s.dt * (fft dims (Equation.value N (spectralLaplacian (fft dims)
          (fun x => divRealScalar (ifft dims x) (dims.prod : ℕ)) s.freq) c u eq) k -
          (eq.terms.map (linearFactor N eq.field u s.freq k)).sum * fft dims (u eq.field) k) := by
  obtain ⟨m, hadd, hg, -, ⟨l, hl, -⟩, -⟩ := add_all hN eqs ss m0 (grown_start hN h0) hq hs
  obtain ⟨m', Rs, hadd', hinit, hall⟩ := c19_spectrum N hN m0 h0 heq eqs hq ss hs
  obtain ⟨m'', Rs', hadd'', hinit', hall'⟩ := c19_equation N hN m0 h0 heq eqs hq ss hs
  rw [hadd] at hadd' hadd''
  obtain rfl := Option.some.inj hadd'
  obtain rfl := Option.some.inj hadd''
  rw [hinit] at hinit'
  obtain rfl := Option.some.inj hinit'
  have hRlen : m.fields.length ≤ Rs.length := by rw [← hall.length_eq, hg.fields]; exact hlen
  refine ⟨m, _, hadd, hg.fields, by rw [EqModel.assemble, hinit]; simp only [dif_pos hRlen]; rfl, ?_⟩
  intro i eq hi hread s hfil st u hu hc hf k hne
  have hpos : dims.prod ≠ 0 := by
    have := k.2; omega
  set M : Model m.fields.length m.derived.length dims.prod :=
    { calcs := fun d st => (m.derived[d]).2.eval (m.brick c st)
      terms := fun i => (Rs[i]'(i.2.trans_le hRlen)).terms.map fun f st => f (m.brick c st)
      denum := fun i => (Rs[i]'(i.2.trans_le hRlen)).denum.map fun f st => f (m.brick c st)
      sources := fun _ => []
      modifiers := [] } with hM
  have hFO : FieldsOnly M := by
    intro d st st' hst
    refine calc_reads hg hfun (List.getElem_mem d.2) _ _ ?_ ?_
    · intro x hx
      rw [← hg.fields] at hx
      obtain ⟨j, hj, rfl⟩ := List.getElem_of_mem hx
      exact (brick_field hN hg ⟨j, hj⟩ c st).trans
        ((congrFun hst ⟨j, hj⟩).trans (brick_field hN hg ⟨j, hj⟩ c st').symm)
    · intro x hx
      rw [brick_scalar hN hg hx, brick_scalar hN hg hx]
  have hstep := c22_euler h M hFO i hread s hfil st k
  dsimp only at hstep
  set before : Store m.fields.length m.derived.length dims.prod :=
    ⟨fun j => fft dims (st.fields j), fun d => fft dims (M.calcs d st)⟩ with hbefore
  obtain ⟨hb1, hb2⟩ := brick_congr hN hg hu hc
  have hcalc : ∀ d : Fin m.derived.length, M.calcs d st = (m.derived[d]).2.eval u := fun d =>
    calc_reads hg hfun (List.getElem_mem d.2) _ _ hb1 hb2
  have htr : Transformed N m (fft dims) u (m.brick c before) := by
    refine ⟨?_, ?_, ?_, ?_⟩
    · intro x hx
      rw [← hg.fields] at hx
      obtain ⟨j, hj, rfl⟩ := List.getElem_of_mem hx
      exact (brick_field hN hg ⟨j, hj⟩ c before).trans (congrArg (fft dims) (hu ⟨j, hj⟩).symm)
    · intro x hx
      rw [brick_scalar hN hg hx, hc x hx]
    · intro p hp
      obtain ⟨d, hd, rfl⟩ := List.getElem_of_mem hp
      exact (brick_derived hN hg ⟨d, hd⟩ c before).trans (congrArg (fft dims) (hcalc ⟨d, hd⟩))
    · intro p hp hpf
      rw [← h0.functions] at hpf
      obtain ⟨q, hq', hqp⟩ := List.mem_map.mp hpf
      have hqm : q ∈ m.derived := by rw [hl]; simp [hq']
      have : q = p := List.inj_on_of_nodup_map hg.keys hqm hp hqp
      rw [← this]
      exact hf q hq'
  have hlt : i.val < eqs.length := (List.getElem?_eq_some_iff.mp hi).1
  have hget : eqs[i.val] = eq := (List.getElem?_eq_some_iff.mp hi).2
  obtain ⟨-, hden⟩ := (List.forall₂_iff_get.mp hall).2 i.val hlt (i.2.trans_le hRlen) (fft dims) u _ htr s.freq
    (s.currentStep * s.dt) k
  have hsum := (List.forall₂_iff_get.mp hall').2 i.val hlt (i.2.trans_le hRlen) (fft dims)
    (fun x => divRealScalar (ifft dims x) (dims.prod : ℕ))
    ⟨fun a b => by funext k; exact fft_add a b k, fun a b => by funext k; exact fft_smul a b k⟩
    (fun x => by
      have e : divRealScalar (ifft dims x) (dims.prod : ℕ) = fun j => ifft dims x j / (dims.prod : ℂ) := by
        funext j; simp only [divRealScalar, Complex.ofReal_natCast]
      rw [e]; exact fft_surjective h x) c u hc _ htr s.freq (s.currentStep * s.dt) k
  simp only [List.get_eq_getElem, hget] at hden hsum
  have hR : M.getRHS i before s.freq (s.currentStep * s.dt) k =
      ((Rs[i.val]'(i.2.trans_le hRlen)).terms.map fun f => f (m.brick c before) s.freq (s.currentStep * s.dt) k).sum := by
    rw [c21_rhs]
    simp [hM, Function.comp_def]
  have hD : M.getDenum i before s.freq (s.currentStep * s.dt) k =
      ((Rs[i.val]'(i.2.trans_le hRlen)).denum.map fun f => f (m.brick c before) s.freq (s.currentStep * s.dt) k).sum := by
    rw [c21_denum]
    simp [hM, Function.comp_def]
  rw [hD, hR, hden] at hstep
  rw [hden] at hsum
  rw [hstep, ← hsum]
  field_simp
  ring

/-- C97: if the equation at position `i` is the one for field `i`, the change of the spectrum times
`1 - dt A` is `dt` times the transform of the right-hand side spelled by the equation, at the values
before the step. -/
theorem c97_euler (h : ∀ d ∈ dims, 0 < d) (N : Names) (hN : N.WellNamed) (m0 : EqModel dims.prod)
    (h0 : StartsAs N m0) (heq : m0.equations = []) (hfun : ∀ p ∈ m0.derived, ReadsFields N p.2)
    (eqs : List Equation) (hq : ∀ eq ∈ eqs, eq.Polynomial N ∧ Unregistered m0 eq)
    (ss : List Str) (hs : ss.map (fun s => s.filter fun c => c ≠ ' ') = eqs.map Equation.text)
    (hlen : N.fields.length ≤ eqs.length) (c : Str → ℂ) :
    ∃ m M, ss.foldlM EqModel.addEquation m0 = some m ∧ m.fields = N.fields ∧ m.assemble c = some M ∧
      ∀ (i : Fin m.fields.length) (eq : Equation), eqs[i.val]? = some eq → eq.field = m.fields[i] →
      ReadsNoEarlierField M i → ∀ (s : Stepper dims.prod), s.filter = none →
      ∀ (st : Store m.fields.length m.derived.length dims.prod) (u : Str → Data dims.prod),
      (∀ j : Fin m.fields.length, u m.fields[j] = st.fields j) → (∀ x ∈ N.scalars, u x = fun _ => c x) →
      (∀ p ∈ m0.derived, u p.1 = p.2.eval u) →
      ∀ k, 1 - s.dt * (eq.terms.map (linearFactor N eq.field u s.freq k)).sum ≠ 0 →
        (fft dims ((eulerStep M (s, st)).2.fields i) k - fft dims (st.fields i) k) *
          (1 - s.dt * (eq.terms.map (linearFactor N eq.field u s.freq k)).sum) =
        s.dt * fft dims (Equation.value N (spectralLaplacian (fft dims)
          (fun x => divRealScalar (ifft dims x) (dims.prod : ℕ)) s.freq) c u eq) k := by
  obtain ⟨m, M, h1, h2, h3, h4⟩ := c97_step h N hN m0 h0 heq hfun eqs hq ss hs hlen c
  refine ⟨m, M, h1, h2, h3, ?_⟩
  intro i eq hi hfield hread s hfil st u hu hc hf k hne
  have := h4 i eq hi hread s hfil st u hu hc hf k hne
  rw [sub_mul, mul_comm, this, hfield, hu i]
  ring

/-- C97: the first equation never reads a field that was updated before it. -/
theorem c97_first {nf nd : ℕ} (M : Model nf nd n) (i : Fin nf) (hi : i.val = 0) : ReadsNoEarlierField M i := by
  intro f _ st st' freq t hd hf
  have : st = st' := by
    cases st; cases st'
    simp only [Store.mk.injEq] at *
    refine ⟨?_, hd⟩
    funext j
    exact hf j (fun hlt => by have := Fin.lt_def.mp hlt; omega)
  rw [this]

/-! ### Equations in another order than the fields -/

/-- Fields `conc` and `eta`, and nothing else. -/
def pairNames : Names := ⟨["conc".toList, "eta".toList], [], []⟩

theorem pair_wellNamed : pairNames.WellNamed := by
  have hd := demo_wellNamed
  have hv : ∀ x ∈ pairNames.varying, x ∈ demoNames.varying := by decide
  have ha : ∀ x ∈ pairNames.all, x ∈ demoNames.all := by decide
  exact ⟨fun x hx => hd.ident x (ha x hx), by decide, fun x hx => hd.noLap x (ha x hx), fun x hx => hd.long x (hv x hx),
    fun x hx => hd.sepLap x (hv x hx), fun x hx y hy => hd.sepVarying x (hv x hx) y (hv y hy),
    fun x _ y hy => by simp [pairNames] at hy⟩

theorem pair_monomial {g : Str} (hg : g ∈ pairNames.fields) : Monomial pairNames [⟨none, some ⟨g, none⟩⟩] where
  readable :=
    { wf := by
        intro i hi
        obtain rfl := List.mem_singleton.mp hi
        exact ⟨by simp, by simp, by simp, by simpa [Names.all, Names.varying] using Or.inl hg, by simp⟩
      oneLap := by simp [laplacians]
      lapFirst := by
        intro pre i post h hl j hj
        cases pre with
        | nil => simp at hj
        | cons p pre => simp at h
      together := ⟨[], [⟨none, some ⟨g, none⟩⟩], [], by simp, by simp, by simp,
        by simpa [Names.varying] using Or.inl hg, by simp, by simp⟩ }
  once := by
    intro x _
    exact (List.length_filter_le _ _)
  kind := Or.inl ⟨by simp [factorsIn, pairNames], by simp [factorsIn, hg]⟩
  exactOne := by
    intro f hf _
    simp only [factorsIn, List.filterMap_cons, List.filterMap_nil, List.filter_cons, hg, decide_true, if_true,
      List.filter_nil, List.mem_singleton] at hf
    rw [hf]
    rfl

theorem foldlM_two {α β : Type} (f : β → α → Option β) (x : β) (a b : α) :
    [a, b].foldlM f x = (f x a).bind fun y => f y b := by
  rw [List.foldlM_cons]
  cases f x a with
  | none => rfl
  | some y =>
    show [b].foldlM f y = f y b
    rw [List.foldlM_cons]
    cases f y b <;> rfl

/-- C97: the field named on the left-hand side of an equation does not decide which field is advanced.
If `deta/dt=conc` is added before `dconc/dt=eta` to a model with the fields `conc` and `eta`, an Euler step
multiplies `conc` by `1 + dt`, whatever `eta` is. -/
theorem c97_wrong_order (h : ∀ d ∈ dims, 0 < d) :
    ∃ (m : EqModel dims.prod) (M : Model m.fields.length m.derived.length dims.prod) (i : Fin m.fields.length),
      ((((EqModel.empty (n := dims.prod)).addField "conc".toList).addField "eta".toList).addEquation
        "deta/dt=conc".toList).bind (fun m => m.addEquation "dconc/dt=eta".toList) = some m ∧
      m.assemble (fun _ => 0) = some M ∧ m.fields[i] = "conc".toList ∧
      ∀ (s : Stepper dims.prod), s.filter = none → ∀ st, ∀ k,
        fft dims ((eulerStep M (s, st)).2.fields i) k = (1 + s.dt) * fft dims (st.fields i) k := by
  have he0 : Equation.Polynomial pairNames ⟨"eta".toList, none, [⟨none, some ⟨"conc".toList, none⟩⟩], []⟩ :=
    ⟨by decide, by simp, by simp, by
      intro p hp
      simp only [Equation.terms, List.map_nil, List.mem_singleton] at hp
      subst hp
      exact pair_monomial (by decide)⟩
  have he1 : Equation.Polynomial pairNames ⟨"conc".toList, none, [⟨none, some ⟨"eta".toList, none⟩⟩], []⟩ :=
    ⟨by decide, by simp, by simp, by
      intro p hp
      simp only [Equation.terms, List.map_nil, List.mem_singleton] at hp
      subst hp
      exact pair_monomial (by decide)⟩
  have hst : StartsAs pairNames (((EqModel.empty (n := dims.prod)).addField "conc".toList).addField "eta".toList) :=
    ⟨rfl, rfl, fun x => Iff.rfl⟩
  obtain ⟨m, M, h1, h2, h3, h4⟩ := c97_step h pairNames pair_wellNamed
    (((EqModel.empty (n := dims.prod)).addField "conc".toList).addField "eta".toList) hst rfl (by
      intro p hp; simp [EqModel.empty, EqModel.addField] at hp)
    [⟨"eta".toList, none, [⟨none, some ⟨"conc".toList, none⟩⟩], []⟩,
     ⟨"conc".toList, none, [⟨none, some ⟨"eta".toList, none⟩⟩], []⟩]
    (by
      intro eq heq
      simp only [List.mem_cons, List.not_mem_nil, or_false] at heq
      rcases heq with rfl | rfl
      · exact ⟨he0, fun _ _ => ⟨rfl, rfl⟩⟩
      · exact ⟨he1, fun _ _ => ⟨rfl, rfl⟩⟩)
    ["deta/dt=conc".toList, "dconc/dt=eta".toList] (by decide) (by decide) (fun _ => 0)
  have hlen : 0 < m.fields.length := by rw [h2]; decide
  have hconc : m.fields[(⟨0, hlen⟩ : Fin m.fields.length)] = "conc".toList := by
    simp only [Fin.getElem_fin, h2]; rfl
  refine ⟨m, M, ⟨0, hlen⟩, ?_, h3, hconc, ?_⟩
  · rw [← h1, foldlM_two]
  · intro s hs st k
    have hnd : pairNames.fields.Nodup := by decide
    have hlin : ∀ u : Str → Data dims.prod, (([([⟨none, some ⟨"conc".toList, none⟩⟩], none)] :
        List (List Item × Option Char)).map (linearFactor pairNames "eta".toList u s.freq k)).sum = 0 := by
      intro u
      simp only [List.map_cons, List.map_nil, List.sum_cons, List.sum_nil, add_zero, linearFactor]
      rw [if_neg]
      rintro ⟨h1, -⟩
      exact absurd h1 (by decide)
    have := h4 ⟨0, hlen⟩ _ rfl (c97_first M _ rfl) s hs st
      (fun x => if hx : m.fields.idxOf x < m.fields.length then st.fields ⟨_, hx⟩ else 0) (by
        intro j
        have hnd' : m.fields.Nodup := by rw [h2]; exact hnd
        have hidx : m.fields.idxOf m.fields[j] = j.val := hnd'.idxOf_getElem j.val j.2
        show (if hx : m.fields.idxOf m.fields[j] < m.fields.length then st.fields ⟨_, hx⟩ else 0) = _
        rw [dif_pos (by rw [hidx]; exact j.2)]
        congr 1
        exact Fin.ext hidx) (by simp [pairNames]) (by intro p hp; simp [EqModel.empty, EqModel.addField] at hp) k
    simp only [Equation.terms, List.map_nil] at this
    rw [hlin] at this
    have this := this (by simp)
    have hval : ∀ lap : Data dims.prod → Data dims.prod, ∀ u : Str → Data dims.prod,
        Equation.value pairNames lap (fun _ => 0) u ⟨"eta".toList, none, [⟨none, some ⟨"conc".toList, none⟩⟩], []⟩ =
          u "conc".toList := by
      intro lap u
      have e1 : factorsIn pairNames.scalars [⟨none, some ⟨"conc".toList, none⟩⟩] = [] := by decide
      have e2 : factorsIn pairNames.varying [⟨none, some ⟨"conc".toList, none⟩⟩] = [⟨"conc".toList, none⟩] := by decide
      have e3 : laplacians [⟨none, some ⟨"conc".toList, none⟩⟩] = [] := by decide
      simp only [Equation.value, Equation.terms, List.map_nil, List.map_cons, e1, e2, e3, productValue_single]
      simp [signOf]
    rw [hval] at this
    have hidx : m.fields.idxOf "conc".toList = 0 := by rw [h2]; decide
    have hfield : (if hx : m.fields.idxOf "conc".toList < m.fields.length then st.fields ⟨_, hx⟩ else 0) =
        st.fields ⟨0, hlen⟩ := by
      rw [dif_pos (by rw [hidx]; exact hlen)]
      congr 1
      exact Fin.ext hidx
    rw [hfield] at this
    simp only [mul_zero, sub_zero, one_mul, zero_mul] at this
    rw [this]
    ring

/-- The hypotheses of `c97_euler` hold for `dconc/dt=eta`, `deta/dt=conc`: the names and texts are fine
and the equations are in the order of the fields. -/
example : pairNames.WellNamed ∧
    StartsAs pairNames (((EqModel.empty (n := [2, 2].prod)).addField "conc".toList).addField "eta".toList) ∧
    Equation.Polynomial pairNames ⟨"conc".toList, none, [⟨none, some ⟨"eta".toList, none⟩⟩], []⟩ ∧
    Equation.Polynomial pairNames ⟨"eta".toList, none, [⟨none, some ⟨"conc".toList, none⟩⟩], []⟩ ∧
    ["dconc/dt=eta".toList, "deta/dt = conc".toList].map (fun s => s.filter fun c => c ≠ ' ') =
      ([⟨"conc".toList, none, [⟨none, some ⟨"eta".toList, none⟩⟩], []⟩,
        ⟨"eta".toList, none, [⟨none, some ⟨"conc".toList, none⟩⟩], []⟩] : List Equation).map Equation.text ∧
    pairNames.fields = ["conc".toList, "eta".toList] ∧
    ReadsFields pairNames (Calc.function (n := 4) fun b i => b "conc".toList i ^ 2) := by
  refine ⟨pair_wellNamed, ⟨rfl, rfl, fun x => Iff.rfl⟩, ⟨by decide, by simp, by simp, ?_⟩,
    ⟨by decide, by simp, by simp, ?_⟩, by decide, rfl, ?_⟩
  · intro p hp
    simp only [Equation.terms, List.map_nil, List.mem_singleton] at hp
    subst hp
    exact pair_monomial (by decide)
  · intro p hp
    simp only [Equation.terms, List.map_nil, List.mem_singleton] at hp
    subst hp
    exact pair_monomial (by decide)
  · intro u u' hf _
    funext i
    simp only [Calc.eval]
    rw [hf _ (by decide)]

end Gopf.Props
