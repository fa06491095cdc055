import Verif.Model.Nucleation
import Verif.Props.Mixed
import Verif.Props.SddLimit
import Verif.Props.SolverStability

/-!
# C139: the heterogeneous nucleation example
-/

namespace Gopf.Props
open Spec Pf Pfutil
open scoped BigOperators Topology
open Filter

variable {n : ℕ} {dims : List ℕ}

/-! ### Equations without implicit part, made of products and registered terms -/

/-- A term that contributes nothing to the implicit part. -/
def ExplicitOnly (N : Names) (field : Str) (I : Str → BTerm n) : Summand → Prop
  | .product items => ¬ LinearIn field N.varying items
  | .registered _ name => I name = fun _ _ _ _ => 0

theorem build_explicit {N : Names} (hN : N.WellNamed) {m0 m : EqModel n} {E I : Str → BTerm n}
    (hg : Grown N m0 m) {field : Str} (hf : field ∈ N.fields) : ∀ (L : List (Summand × Option Char)),
    (∀ p ∈ L, Sensible N m0 E I p.1 ∧ Seen N field m p.1 ∧ ExplicitOnly N field I p.1) → ∀ rhs : BuiltRHS n,
    ∃ T D, (L.map mixedText).foldlM (buildTerm m field) rhs = some ⟨rhs.terms ++ T, rhs.denum ++ D⟩ ∧
      ∀ (b : Bricks n) (freq : Frequency n) (t : ℝ) (k : Fin n), (D.map fun f => f b freq t k).sum = 0
  | [], _, rhs => ⟨[], [], by simp, by simp⟩
  | (s, d) :: L, h, rhs => by
    obtain ⟨T1, D1, e1, v1⟩ : ∃ T D, buildTerm m field rhs (mixedText (s, d)) = some ⟨rhs.terms ++ T, rhs.denum ++ D⟩ ∧
        ∀ (b : Bricks n) (freq : Frequency n) (t : ℝ) (k : Fin n), (D.map fun f => f b freq t k).sum = 0 := by
      obtain ⟨h1, h2, h3⟩ := h (s, d) (by simp)
      cases s with
      | product items =>
        obtain ⟨T, D, e, -, w⟩ := buildTerm_shape hN hg hf (p := (items, d)) h1.1 h1.2.2 h2 rhs
        refine ⟨T, D, e, fun b freq t k => ?_⟩
        rw [w]
        exact if_neg h3
      | registered ops name =>
        obtain ⟨T, D, e, v⟩ := build_registered hg h1.1 h1.2 field d rhs
        refine ⟨T, D, e, fun b freq t k => ?_⟩
        have h3 : I name = fun _ _ _ _ => 0 := h3
        rw [(v b freq t k).2, h3, mul_zero]
    obtain ⟨T2, D2, e2, v2⟩ := build_explicit hN hg hf L (fun q hq => h q (by simp [hq]))
      ⟨rhs.terms ++ T1, rhs.denum ++ D1⟩
    refine ⟨T1 ++ T2, D1 ++ D2, ?_, ?_⟩
    · rw [List.map_cons, List.foldlM_cons, e1]
      simpa [List.append_assoc] using e2
    · intro b freq t k
      simp only [List.map_append, List.sum_append, v1 b freq t k, v2 b freq t k, add_zero]

private theorem mapM_results {α β : Type} (f : α → Option β) : ∀ (l : List α) (l' : List β), l.mapM f = some l' →
    List.Forall₂ (fun a b => f a = some b) l l'
  | [], l', h => by
    simp only [List.mapM_nil] at h
    obtain rfl := Option.some.inj h
    exact .nil
  | a :: l, l', h => by
    rw [List.mapM_cons] at h
    simp only [Option.bind_eq_bind, Option.bind_eq_some_iff] at h
    obtain ⟨b, hb, bs, hbs, e⟩ := h
    obtain rfl := Option.some.inj e
    exact .cons hb (mapM_results f l bs hbs)

/-- What the steppers see of equations without implicit part: nothing is treated implicitly, and the right-hand side,
evaluated for the transformed fields, is the sum of what the terms stand for. -/
theorem mixed_force (N : Names) (hN : N.WellNamed) (m0 : EqModel dims.prod)
    (h0 : StartsAs N m0) (heq : m0.equations = []) (hfun : ∀ p ∈ m0.derived, ReadsFields N p.2)
    (E I : Str → BTerm dims.prod)
    (eqs : List MixedEquation) (hq : ∀ eq ∈ eqs, MixedEquation.Good N m0 E I eq)
    (hex : ∀ eq ∈ eqs, ∀ p ∈ eq.terms, ExplicitOnly N eq.field I p.1)
    (ss : List Str) (hs : ss.map (fun s => s.filter fun c => c ≠ ' ') = eqs.map MixedEquation.text)
    (hlen : N.fields.length ≤ eqs.length) (c : Str → ℂ) :
    ∃ m M, ss.foldlM EqModel.addEquation m0 = some m ∧ m.fields = N.fields ∧ m.assemble c = some M ∧ FieldsOnly M ∧
      ∀ (i : Fin m.fields.length) (eq : MixedEquation), eqs[i.val]? = some eq →
      (∀ st freq t, M.getDenum i st freq t = fun _ => 0) ∧
      ∀ (st : Store m.fields.length m.derived.length dims.prod) (u : Str → Data dims.prod),
      (∀ j : Fin m.fields.length, u m.fields[j] = st.fields j) → (∀ x ∈ N.scalars, u x = fun _ => c x) →
      (∀ p ∈ m0.derived, u p.1 = p.2.eval u) →
      ∃ b : Bricks dims.prod, (∀ x ∈ N.fields, b x = fft dims (u x)) ∧
      ∀ freq t k, M.getRHS i (sddFft M st) freq t k =
        (eq.terms.map (summandSpectrum N E I eq.field (fft dims) u b freq t k)).sum := by
  obtain ⟨m, hadd, hg, hme, ⟨l, hl⟩, hseen⟩ := add_mixed hN eqs ss m0 (grown_start hN h0) hq hs
  obtain ⟨m', Rs, hadd', hinit, hall⟩ := c128_spectrum N hN m0 h0 E I heq eqs hq ss hs
  rw [hadd] at hadd'
  obtain rfl := Option.some.inj hadd'
  have hRlen : m.fields.length ≤ Rs.length := by rw [← hall.length_eq, hg.fields]; exact hlen
  set M : Model m.fields.length m.derived.length dims.prod :=
    { calcs := fun d st => (m.derived[d]).2.eval (m.brick c st)
      terms := fun i => (Rs[i]'(i.2.trans_le hRlen)).terms.map fun f st => f (m.brick c st)
      denum := fun i => (Rs[i]'(i.2.trans_le hRlen)).denum.map fun f st => f (m.brick c st)
      sources := fun _ => []
      modifiers := [] } with hM
  have hFO : FieldsOnly M := by
    intro d st st' hst
    refine calc_reads hg hfun (List.getElem_mem d.2) _ _ ?_ ?_
    · intro x hx
      rw [← hg.fields] at hx
      obtain ⟨j, hj, rfl⟩ := List.getElem_of_mem hx
      exact (brick_field hN hg ⟨j, hj⟩ c st).trans
        ((congrFun hst ⟨j, hj⟩).trans (brick_field hN hg ⟨j, hj⟩ c st').symm)
    · intro x hx
      rw [brick_scalar hN hg hx, brick_scalar hN hg hx]
  refine ⟨m, M, hadd, hg.fields, by rw [EqModel.assemble, hinit]; simp only [dif_pos hRlen]; rfl, hFO, ?_⟩
  intro i eq hi
  have hlt : i.val < eqs.length := (List.getElem?_eq_some_iff.mp hi).1
  have hget : eqs[i.val] = eq := (List.getElem?_eq_some_iff.mp hi).2
  have hmem : eq ∈ eqs := hget ▸ List.getElem_mem hlt
  have hden : ∀ st freq t, M.getDenum i st freq t = fun _ => 0 := by
    intro st freq t
    have hp := hq eq hmem
    obtain ⟨s1, s2, L, hL, s3⟩ := split_mixed hN hp
    obtain ⟨T, D, b1, b2⟩ := build_explicit hN hg hp.field L
      (fun p hp' => ⟨hp.terms p (hL.subset hp'), hseen eq hmem p (hL.subset hp'), hex eq hmem p (hL.subset hp')⟩) ⟨[], []⟩
    have hb : build eq.text m = some ⟨T, D⟩ := by
      unfold build
      rw [s1]
      simp only [s2, s3]
      simpa using b1
    have hRi : Rs[i.val]'(i.2.trans_le hRlen) = ⟨T, D⟩ := by
      rw [EqModel.initRHS, hme, heq, List.nil_append] at hinit
      have h2 := (List.forall₂_iff_get.mp (mapM_results _ _ _ hinit)).2 i.val (by simpa using hlt) (i.2.trans_le hRlen)
      simp only [List.get_eq_getElem, List.getElem_map, hget] at h2
      rw [hb] at h2
      exact (Option.some.inj h2).symm
    funext k
    rw [c21_denum]
    have := b2 (m.brick c st) freq t k
    simp only [hM, Fin.getElem_fin, hRi, List.map_map, Function.comp_def]
    exact this
  refine ⟨hden, ?_⟩
  intro st u hu hc hf
  have hst : sddFft M st = ⟨fun j => fft dims (st.fields j), fun d => fft dims (M.calcs d st)⟩ := by
    unfold sddFft
    rw [sync_eq hFO]
    rfl
  set before : Store m.fields.length m.derived.length dims.prod :=
    ⟨fun j => fft dims (st.fields j), fun d => fft dims (M.calcs d st)⟩ with hbefore
  obtain ⟨hb1, hb2⟩ := brick_congr hN hg hu hc
  have hcalc : ∀ d : Fin m.derived.length, M.calcs d st = (m.derived[d]).2.eval u := fun d =>
    calc_reads hg hfun (List.getElem_mem d.2) _ _ hb1 hb2
  have htr : Transformed N m (fft dims) u (m.brick c before) := by
    refine ⟨?_, ?_, ?_, ?_⟩
    · intro x hx
      rw [← hg.fields] at hx
      obtain ⟨j, hj, rfl⟩ := List.getElem_of_mem hx
      exact (brick_field hN hg ⟨j, hj⟩ c before).trans (congrArg (fft dims) (hu ⟨j, hj⟩).symm)
    · intro x hx
      rw [brick_scalar hN hg hx, hc x hx]
    · intro p hp
      obtain ⟨d, hd, rfl⟩ := List.getElem_of_mem hp
      exact (brick_derived hN hg ⟨d, hd⟩ c before).trans (congrArg (fft dims) (hcalc ⟨d, hd⟩))
    · intro p hp hpf
      rw [← h0.functions] at hpf
      obtain ⟨q, hq', hqp⟩ := List.mem_map.mp hpf
      have hqm : q ∈ m.derived := by rw [hl]; simp [hq']
      have : q = p := List.inj_on_of_nodup_map hg.keys hqm hp hqp
      rw [← this]
      exact hf q hq'
  refine ⟨m.brick c before, htr.fields, ?_⟩
  intro freq t k
  obtain ⟨hsum, -⟩ := (List.forall₂_iff_get.mp hall).2 i.val hlt (i.2.trans_le hRlen) (fft dims) u _ htr freq t k
  simp only [List.get_eq_getElem, hget] at hsum
  have hD : ((Rs[i.val]'(i.2.trans_le hRlen)).denum.map fun f => f (m.brick c before) freq t k).sum = 0 := by
    have := congrFun (hden before freq t) k
    rw [c21_denum] at this
    simpa [hM, Function.comp_def] using this
  rw [hD, zero_mul, add_zero] at hsum
  rw [hst, c21_rhs, ← hsum]
  simp [hM, Function.comp_def]

/-! ### The equation of the example -/

/-- The names of the example. -/
def nucleationNames : Names := ⟨["phi".toList], ["MINUS_CHEM_POT".toList], []⟩

theorem nucleation_wellNamed : nucleationNames.WellNamed where
  ident := by
    have : ∀ x ∈ nucleationNames.all, (∀ c ∈ x, c.isAlphanum = true ∨ c = '_') ∧ ∃ c ∈ x.head?, c.isAlpha = true := by
      decide +kernel
    intro x hx
    obtain ⟨h1, c, hc, h2⟩ := this x hx
    cases x with
    | nil => simp at hc
    | cons y x =>
      simp only [List.head?_cons, Option.mem_some_iff] at hc
      subst hc
      exact ⟨⟨y, x, rfl, h2⟩, h1⟩
  nodup := by decide +kernel
  noLap := by decide +kernel
  long := by decide +kernel
  sepLap := by decide +kernel
  sepVarying := by decide +kernel
  sepScalar := by decide +kernel

/-- The product that consists of the registered function. -/
def chemPotItems : List Item := [⟨none, some ⟨"MINUS_CHEM_POT".toList, none⟩⟩]

/-- The equation of the example, spelled. -/
def nucleationSpelled : MixedEquation :=
  ⟨"phi".toList, none, .product chemPotItems, [('+', .registered [] "SPATIAL_LAP".toList)]⟩

theorem nucleation_text : [nucleationEquation].map (fun s => s.filter fun c => c ≠ ' ') =
    [nucleationSpelled].map MixedEquation.text := by
  decide +kernel

theorem chemPot_monomial : Monomial nucleationNames chemPotItems := by
  have hw : ∀ i ∈ chemPotItems, i.WellFormed nucleationNames := by
    intro i hi
    obtain rfl := List.mem_singleton.mp hi
    exact ⟨by simp, by simp, by simp, by
      intro f hf
      obtain rfl : (⟨"MINUS_CHEM_POT".toList, none⟩ : Factor) = f := by simpa using hf
      exact List.mem_of_elem_eq_true (by rfl), by simp⟩
  exact
  { readable :=
    { wf := hw
      oneLap := by decide +kernel
      lapFirst := lapFirst_of (by decide +kernel) hw (by decide +kernel)
      together := ⟨[], [⟨none, some ⟨"MINUS_CHEM_POT".toList, none⟩⟩], [],
        by decide +kernel, by decide +kernel, by decide +kernel, by decide +kernel, by decide +kernel, by decide +kernel⟩ }
    once := by decide +kernel
    kind := Or.inr ⟨"MINUS_CHEM_POT".toList, by decide +kernel, by decide +kernel⟩
    exactOne := by
      intro f hf _
      obtain ⟨i, h1, h2⟩ := List.mem_filterMap.mp (List.mem_filter.mp hf).1
      obtain rfl := List.mem_singleton.mp h1
      obtain rfl : (⟨"MINUS_CHEM_POT".toList, none⟩ : Factor) = f := by simpa using h2
      simp [Factor.power] }

/-- The model of the example before the equation is added. -/
noncomputable def nucleationPlain (theta : ℝ → ℝ → ℝ) (rho gamma : ℝ) (N : ℕ) : EqModel [N, N].prod :=
  { (EqModel.empty.addField "phi".toList).registerFunction "MINUS_CHEM_POT".toList (minusChemPot theta rho N) with
    explicitTerms := [("SPATIAL_LAP".toList, spatialVaryingLap theta gamma N)] }

theorem nucleation_registered (theta : ℝ → ℝ → ℝ) (rho gamma : ℝ) (N : ℕ) :
    nucleationModel theta rho gamma N = some (nucleationPlain theta rho gamma N) := by
  unfold nucleationModel EqModel.registerExplicit
  rw [(c98_accepted "SPATIAL_LAP".toList).mpr (by decide)]
  rfl

theorem chemPot_read : removeKnownPrefixes (productText chemPotItems) = "MINUS_CHEM_POT".toList :=
  (read_operators "MINUS_CHEM_POT".toList ((c98_accepted _).mpr (by decide)) (by decide) [] (by simp)).2

theorem nucleation_good (theta : ℝ → ℝ → ℝ) (rho gamma : ℝ) (N : ℕ) :
    MixedEquation.Good nucleationNames (nucleationPlain theta rho gamma N) (fun _ => spatialVaryingLap theta gamma N)
      (fun _ _ _ _ _ => 0) nucleationSpelled where
  field := by decide
  lead := by simp [nucleationSpelled]
  signs := by simp [nucleationSpelled]
  terms := by
    intro p hp
    have hp : p ∈ [(Summand.product chemPotItems, none), (Summand.registered [] "SPATIAL_LAP".toList, some '+')] := hp
    simp only [List.mem_cons, List.not_mem_nil, or_false] at hp
    rcases hp with rfl | rfl
    · refine ⟨chemPot_monomial, rfl, ?_⟩
      rw [chemPot_read]
      rfl
    · exact ⟨⟨by simp, (c98_accepted _).mpr (by decide), by decide, ⟨by decide, by decide⟩, by decide, Or.inl rfl⟩,
        .explicit rfl rfl⟩

theorem nucleation_starts (theta : ℝ → ℝ → ℝ) (rho gamma : ℝ) (N : ℕ) :
    StartsAs nucleationNames (nucleationPlain theta rho gamma N) := by
  refine ⟨rfl, rfl, fun x => ?_⟩
  exact Iff.rfl

theorem nucleation_reads (theta : ℝ → ℝ → ℝ) (rho gamma : ℝ) (N : ℕ) :
    ∀ p ∈ (nucleationPlain theta rho gamma N).derived, ReadsFields nucleationNames p.2 := by
  have e : (nucleationPlain theta rho gamma N).derived =
    [("MINUS_CHEM_POT".toList, .function (minusChemPot theta rho N))] := rfl
  rw [e]
  intro q hq
  obtain rfl := List.mem_singleton.mp hq
  intro u u' hf _
  have h2 : u "phi".toList = u' "phi".toList := hf _ (List.mem_of_elem_eq_true (by rfl))
  simp only [Calc.eval]
  unfold minusChemPot
  rw [h2]

/-- The weight at a node. -/
noncomputable def weightAt (theta : ℝ → ℝ → ℝ) (N : ℕ) (i : Fin [N, N].prod) : ℝ :=
  theta (nucleationPosition i.val N).1 (nucleationPosition i.val N).2

/-- The force on a droplet in a homogeneous system: `(1 - u²)(u + 3ρ/4) + γ ∇²u`. -/
noncomputable def homogeneousForce (rho gamma : ℝ) (lap : Data n → Data n) (u : Data n) : Data n := fun x =>
  (1 - u x ^ 2) * (u x + ((3 * rho / 4 : ℝ) : ℂ)) + (gamma : ℂ) * lap u x

/-- The values of the fields and functions. -/
noncomputable def nucleationValues (theta : ℝ → ℝ → ℝ) (rho : ℝ) (N : ℕ) (w : Data [N, N].prod) (x : Str) : Data [N, N].prod :=
  if x = "phi".toList then w else minusChemPot theta rho N fun _ => w

/-- The model of the example, as the steppers see it: nothing is treated implicitly and the force is the weight times the
force of the homogeneous system. -/
theorem nucleation_model {N : ℕ} (theta : ℝ → ℝ → ℝ) (rho gamma : ℝ) (c : Str → ℂ) :
    ∃ (m0 m : EqModel [N, N].prod) (M : Model m.fields.length m.derived.length [N, N].prod),
      nucleationModel theta rho gamma N = some m0 ∧ m0.addEquation nucleationEquation = some m ∧
      m.fields = ["phi".toList] ∧ m.assemble c = some M ∧ FieldsOnly M ∧
      (∀ i st freq t, M.getDenum i st freq t = fun _ => 0) ∧
      ∀ i st freq t, M.getRHS i (sddFft M st) freq t = fft [N, N] fun x =>
        (weightAt theta N x : ℂ) * homogeneousForce rho gamma (gridLaplacian (freqOf [N, N])) (st.fields i) x := by
  obtain ⟨m, M, hadd, hf, has, hFO, hall⟩ := mixed_force (dims := [N, N]) nucleationNames nucleation_wellNamed
    (nucleationPlain theta rho gamma N) (nucleation_starts theta rho gamma N) rfl (nucleation_reads theta rho gamma N)
    (fun _ => spatialVaryingLap theta gamma N) (fun _ _ _ _ _ => 0) [nucleationSpelled]
    (by intro e he; obtain rfl := List.mem_singleton.mp he; exact nucleation_good theta rho gamma N)
    (by
      intro e he
      obtain rfl := List.mem_singleton.mp he
      intro p hp
      have hp : p ∈ [(Summand.product chemPotItems, none), (Summand.registered [] "SPATIAL_LAP".toList, some '+')] := hp
      simp only [List.mem_cons, List.not_mem_nil, or_false] at hp
      rcases hp with rfl | rfl
      · show ¬ LinearIn _ _ _
        rintro ⟨f, hf, -⟩
        exact absurd hf (by decide +kernel)
      · rfl)
    [nucleationEquation] nucleation_text (by decide) c
  have hadd1 : (nucleationPlain theta rho gamma N).addEquation nucleationEquation = some m := by
    rw [List.foldlM_cons] at hadd
    simp only [List.foldlM_nil] at hadd
    cases hm : (nucleationPlain theta rho gamma N).addEquation nucleationEquation with
    | none => rw [hm] at hadd; exact absurd hadd (by simp)
    | some m' => rw [hm] at hadd; exact hadd
  have hlen : m.fields.length = 1 := by rw [hf]; rfl
  have hi0 : ∀ i : Fin m.fields.length, i.val = 0 := fun i => by have := i.2; omega
  have heq : ∀ i : Fin m.fields.length, [nucleationSpelled][i.val]? = some nucleationSpelled := fun i => by rw [hi0 i]; rfl
  have hget : ∀ j : Fin m.fields.length, m.fields[j] = "phi".toList := by
    intro j
    have : m.fields[j] ∈ m.fields := List.getElem_mem j.2
    generalize m.fields[j] = a at this
    rw [hf] at this
    exact List.mem_singleton.mp this
  have hij : ∀ i j : Fin m.fields.length, j = i := fun i j => Fin.ext (by rw [hi0 i, hi0 j])
  refine ⟨_, m, M, nucleation_registered theta rho gamma N, hadd1, hf, has, hFO, fun i => (hall i _ (heq i)).1, ?_⟩
  intro i st freq t
  have vphi : nucleationValues theta rho N (st.fields i) "phi".toList = st.fields i := if_pos rfl
  have vchem : nucleationValues theta rho N (st.fields i) "MINUS_CHEM_POT".toList =
      minusChemPot theta rho N fun _ => st.fields i := if_neg (by decide)
  obtain ⟨b, hb, hR⟩ := (hall i _ (heq i)).2 st (nucleationValues theta rho N (st.fields i))
    (by intro j; rw [hget, vphi, hij i j]) (by intro x hx; exact absurd hx (by simp [nucleationNames]))
    (by
      intro p hp
      have hp : p ∈ [("MINUS_CHEM_POT".toList, Calc.function (minusChemPot theta rho N))] := hp
      obtain rfl := List.mem_singleton.mp hp
      show nucleationValues theta rho N (st.fields i) "MINUS_CHEM_POT".toList =
        minusChemPot theta rho N (nucleationValues theta rho N (st.fields i))
      rw [vchem]
      unfold minusChemPot
      rw [vphi])
  have hbphi : b "phi".toList = fft [N, N] (st.fields i) := (hb _ (List.mem_of_elem_eq_true (by rfl))).trans (by rw [vphi])
  funext k
  rw [hR freq t k]
  have et : nucleationSpelled.terms =
    [(Summand.product chemPotItems, none), (Summand.registered [] "SPATIAL_LAP".toList, some '+')] := rfl
  have e1 : factorsIn nucleationNames.scalars chemPotItems = [] := by decide +kernel
  have e2 : factorsIn nucleationNames.varying chemPotItems = [⟨"MINUS_CHEM_POT".toList, none⟩] := by decide +kernel
  have e3 : laplacians chemPotItems = [] := by decide +kernel
  rw [et]
  simp only [List.map_cons, List.map_nil, List.sum_cons, List.sum_nil, summandSpectrum, termSpectrum, e1, e2, e3,
    List.prod_nil, mul_one, add_zero, zero_mul]
  have e4 : productValue [⟨"MINUS_CHEM_POT".toList, none⟩] (nucleationValues theta rho N (st.fields i)) =
      minusChemPot theta rho N fun _ => st.fields i := by
    funext x
    unfold productValue
    simp only [List.map_cons, List.map_nil, List.prod_cons, List.prod_nil, mul_one, vchem, Factor.power]
    simp
  have e5 : spatialVaryingLap theta gamma N b freq t = fft [N, N] fun x =>
      gridLaplacian (freqOf [N, N]) (st.fields i) x * ((gamma * weightAt theta N x : ℝ) : ℂ) := by
    unfold spatialVaryingLap
    dsimp only
    rw [hbphi]
    congr 1
    funext x
    congr 2
    congr 1
    funext q
    unfold lapEval
    rw [show (1 : ℤ) = ((1 : ℕ) : ℤ) from rfl, lapFactor_eq, pow_one, mul_comm]
  rw [e4, e5]
  have hs1 : ((signOf none : ℤ) : ℂ) = 1 := by simp [signOf]
  have hs2 : delimSign (some '+') = 1 := if_neg (by decide)
  rw [hs1, hs2, one_mul, one_mul, ← fft_add]
  congr 1
  funext x
  unfold minusChemPot homogeneousForce weightAt
  push_cast
  ring

/-! ### States of rest -/

/-- An explicit step of a single field without filter moves the field by `dt` times the force. -/
theorem explicit_step {nf nd : ℕ} (hnf : nf = 1) (h : ∀ d ∈ dims, 0 < d) (M : Model nf nd dims.prod) (hd : FieldsOnly M)
    (hden : ∀ i st freq t, M.getDenum i st freq t = fun _ => 0) (F : Data dims.prod → Data dims.prod)
    (hR : ∀ i st freq t, M.getRHS i (sddFft M st) freq t = fft dims (F (st.fields i))) (s : Stepper dims.prod)
    (hs : s.filter = none) (st : Store nf nd dims.prod) (i : Fin nf) :
    (eulerStep M (s, st)).2.fields i = fun x => st.fields i x + s.dt * F (st.fields i) x := by
  subst hnf
  apply fft_injective h
  funext k
  have hst : sddFft M st = ⟨fun j => fft dims (st.fields j), fun d => fft dims (M.calcs d st)⟩ := by
    unfold sddFft
    rw [sync_eq hd]
    rfl
  have := c22_euler h M hd i (c22_single_equation M i) s hs st k
  dsimp only at this
  rw [this, hden, ← hst, hR, mul_zero, sub_zero, div_one, fft_add, fft_smul]

/-- The position of a node is the one `pfutil.Pos` gives for the grid of `N` by `N` nodes. -/
theorem position_pos {N : ℕ} (hN : 0 < N) (i : ℕ) :
    ∃ a b : Int, Pfutil.pos [(N : Int), (N : Int)] i = some [a, b] ∧
      nucleationPosition i N = ((a : ℝ) / N - 0.5, (b : ℝ) / N - 0.5) := by
  have hN' : (N : Int) ≠ 0 := by omega
  refine ⟨((i / N : ℕ) : Int), ((i % N : ℕ) : Int), ?_, ?_⟩
  · simp only [Pfutil.pos, Pfutil.pos2, goMod, goDiv, if_neg hN']
    simp [Int.tmod_eq_emod_of_nonneg (Int.natCast_nonneg i)]
  · unfold nucleationPosition
    push_cast
    rfl

/-- C139: the weight has no influence on the states of rest. For every weight that is nowhere zero, an explicit step of the
program leaves a field unchanged exactly if it is a state of rest of the homogeneous system, in which there is no weight. -/
theorem c139_rest {N : ℕ} (hN : 0 < N) (theta : ℝ → ℝ → ℝ) (hθ : ∀ x, weightAt theta N x ≠ 0) (rho gamma : ℝ) (c : Str → ℂ) :
    ∃ (m0 m : EqModel [N, N].prod) (M : Model m.fields.length m.derived.length [N, N].prod),
      nucleationModel theta rho gamma N = some m0 ∧ m0.addEquation nucleationEquation = some m ∧
      m.fields = ["phi".toList] ∧ m.assemble c = some M ∧
      ∀ (s : Stepper [N, N].prod), s.filter = none → s.dt ≠ 0 → ∀ st i,
        ((eulerStep M (s, st)).2.fields i = st.fields i ↔
          ∀ x, homogeneousForce rho gamma (gridLaplacian (freqOf [N, N])) (st.fields i) x = 0) := by
  obtain ⟨m0, m, M, h1, h2, h3, h4, h5, h6, h7⟩ := nucleation_model theta rho gamma c
  refine ⟨m0, m, M, h1, h2, h3, h4, ?_⟩
  intro s hs hdt st i
  have hpos : ∀ d ∈ [N, N], 0 < d := by simp [hN]
  have hnf : m.fields.length = 1 := by rw [h3]; rfl
  rw [explicit_step hnf hpos M h5 h6 (fun u x => (weightAt theta N x : ℂ) *
    homogeneousForce rho gamma (gridLaplacian (freqOf [N, N])) u x) h7 s hs st i]
  have hdt' : (s.dt : ℂ) ≠ 0 := by exact_mod_cast hdt
  constructor
  · intro e x
    have h8 := congrFun e x
    have h9 : (s.dt : ℂ) * ((weightAt theta N x : ℂ) *
        homogeneousForce rho gamma (gridLaplacian (freqOf [N, N])) (st.fields i) x) = 0 := by
      linear_combination h8
    have hw : (weightAt theta N x : ℂ) ≠ 0 := by exact_mod_cast hθ x
    exact (mul_eq_zero.mp ((mul_eq_zero.mp h9).resolve_left hdt')).resolve_left hw
  · intro e
    funext x
    rw [e x, mul_zero, mul_zero, add_zero]

/-- C139: a step of the Euler stepper on the homogeneous equation moves the field along the weighted force. -/
theorem c139_force {N : ℕ} (hN : 0 < N) (theta : ℝ → ℝ → ℝ) (rho gamma : ℝ) (c : Str → ℂ) :
    ∃ (m0 m : EqModel [N, N].prod) (M : Model m.fields.length m.derived.length [N, N].prod),
      nucleationModel theta rho gamma N = some m0 ∧ m0.addEquation nucleationEquation = some m ∧
      m.fields = ["phi".toList] ∧ m.assemble c = some M ∧
      ∀ (s : Stepper [N, N].prod), s.filter = none → ∀ st i,
        (eulerStep M (s, st)).2.fields i = fun x => st.fields i x + (s.dt : ℂ) * ((weightAt theta N x : ℂ) *
          homogeneousForce rho gamma (gridLaplacian (freqOf [N, N])) (st.fields i) x) := by
  obtain ⟨m0, m, M, h1, h2, h3, h4, h5, h6, h7⟩ := nucleation_model theta rho gamma c
  refine ⟨m0, m, M, h1, h2, h3, h4, ?_⟩
  intro s hs st i
  have hpos : ∀ d ∈ [N, N], 0 < d := by simp [hN]
  have hnf : m.fields.length = 1 := by rw [h3]; rfl
  exact explicit_step hnf hpos M h5 h6 (fun u x => (weightAt theta N x : ℂ) *
    homogeneousForce rho gamma (gridLaplacian (freqOf [N, N])) u x) h7 s hs st i

theorem grid_continuous (freq : Frequency dims.prod) : Continuous (gridLaplacian freq) := by
  unfold gridLaplacian spectralLaplacian divRealScalar ifft fft
  fun_prop

theorem force_continuous (rho gamma : ℝ) (freq : Frequency dims.prod) :
    Continuous (homogeneousForce rho gamma (gridLaplacian freq)) := by
  have := grid_continuous freq
  unfold homogeneousForce
  refine continuous_pi fun x => ?_
  have h1 : Continuous fun u : Data dims.prod => gridLaplacian freq u x := (continuous_apply x).comp this
  fun_prop

/-- A limit of a run without implicit part, for a model whose number of fields is one. -/
theorem explicit_limit {nf nd : ℕ} (hnf : nf = 1) (h : ∀ d ∈ dims, 0 < d) (M : Model nf nd dims.prod)
    (hden : ∀ i st freq t, M.getDenum i st freq t = fun _ => 0) (θ : Fin dims.prod → ℝ) (hθ : ∀ x, θ x ≠ 0)
    (F : Data dims.prod → Data dims.prod) (hF : Continuous F)
    (hR : ∀ i st freq t, M.getRHS i (sddFft M st) freq t = fft dims fun x => (θ x : ℂ) * F (st.fields i) x)
    (s : SDD nf dims.prod) (ho : normSqO s.orientation = 1) (hdt : 0 < s.dt) (hτ : 0 < s.tauDimerLength)
    (st : Store nf nd dims.prod) (i : Fin nf) (u : Data dims.prod)
    (hu : ∀ j, Tendsto (fun k => (dimerRun M s st k).2.fields i j) atTop (𝓝 (u j))) :
    (s.minDimerLength = 0 → ∀ x, F u x = 0) ∧
    (0 ≤ s.minDimerLength → ∀ o : Fin dims.prod → ℝ,
      (∀ j, Tendsto (fun k => (dimerRun M s st k).1.orientation i j) atTop (𝓝 (o j))) →
      ∀ x, (s.alpha : ℂ) * F (fun j => u j - ((s.minDimerLength / 2 * o j : ℝ) : ℂ)) x +
        (1 - s.alpha) * F (fun j => u j + ((s.minDimerLength / 2 * o j : ℝ) : ℂ)) x = 0) := by
  subst hnf
  obtain rfl : i = 0 := Subsingleton.elim _ _
  have hc : LinearPartConst M := fun i st st' freq t => by rw [hden, hden]
  have hG : ForceOf M s.freq fun u => fft dims fun x => (θ x : ℂ) * F u x := fun st t => hR 0 st s.freq t
  have hA : FactorOf M s.freq fun _ => 0 := fun st t => hden 0 st s.freq t
  have hcont : Continuous fun u : Data dims.prod => fft dims fun x => (θ x : ℂ) * F u x := by
    have h1 : ∀ x, Continuous fun u : Data dims.prod => F u x := fun x => (continuous_apply x).comp hF
    unfold fft
    fun_prop
  have hz : ∀ z : Data dims.prod, (∀ q, fft dims (fun x => (θ x : ℂ) * z x) q = 0) → ∀ x, z x = 0 := by
    intro z hz x
    have e : fft dims (fun x => (θ x : ℂ) * z x) = fft dims fun _ => 0 := by
      funext q
      rw [hz q]
      simp [fft]
    have := congrFun (fft_injective h e) x
    have hw : (θ x : ℂ) ≠ 0 := by exact_mod_cast hθ x
    exact (mul_eq_zero.mp this).resolve_left hw
  constructor
  · intro hmin
    refine hz _ fun q => ?_
    have := c138_limit h M s hc hG hA hcont ho hdt hτ hmin st (fun k => stepsOk_explicit _ _) u hu q
    simpa using this
  · intro hmin o hv
    refine hz (fun x => (s.alpha : ℂ) * F (fun j => u j - ((s.minDimerLength / 2 * o j : ℝ) : ℂ)) x +
        (1 - s.alpha) * F (fun j => u j + ((s.minDimerLength / 2 * o j : ℝ) : ℂ)) x) fun q => ?_
    have := congrFun (c138_limit_dimer h M s hc hG hA hcont ho hdt hτ hmin st (fun k => stepsOk_explicit _ _) u hu o hv) q
    unfold dimerForce at this
    rw [zero_mul, add_zero, ← fft_smul, ← fft_smul, ← fft_add] at this
    rw [← this]
    congr 1
    funext x
    ring

/-- C139: where the example ends does not depend on the weight either. If the fields of a run of the shrinking dimer
converge, the limit is a state of rest of the homogeneous system when the dimer may shrink to zero; with a positive
minimal length (the program takes 5e-6) and a converging direction, the weighted forces of the homogeneous system at the
two ends cancel. -/
theorem c139_limit {N : ℕ} (hN : 0 < N) (theta : ℝ → ℝ → ℝ) (hθ : ∀ x, weightAt theta N x ≠ 0) (rho gamma : ℝ) (c : Str → ℂ) :
    ∃ (m0 m : EqModel [N, N].prod) (M : Model m.fields.length m.derived.length [N, N].prod),
      nucleationModel theta rho gamma N = some m0 ∧ m0.addEquation nucleationEquation = some m ∧
      m.fields = ["phi".toList] ∧ m.assemble c = some M ∧
      ∀ (s : SDD m.fields.length [N, N].prod), normSqO s.orientation = 1 → 0 < s.dt → 0 < s.tauDimerLength →
      ∀ st i (u : Data [N, N].prod),
        (∀ j, Tendsto (fun k => (dimerRun M s st k).2.fields i j) atTop (𝓝 (u j))) →
        (s.minDimerLength = 0 → ∀ x, homogeneousForce rho gamma (gridLaplacian (freqOf [N, N])) u x = 0) ∧
        (0 ≤ s.minDimerLength → ∀ o : Fin [N, N].prod → ℝ,
          (∀ j, Tendsto (fun k => (dimerRun M s st k).1.orientation i j) atTop (𝓝 (o j))) →
          ∀ x, (s.alpha : ℂ) * homogeneousForce rho gamma (gridLaplacian (freqOf [N, N]))
              (fun j => u j - ((s.minDimerLength / 2 * o j : ℝ) : ℂ)) x +
            (1 - s.alpha) * homogeneousForce rho gamma (gridLaplacian (freqOf [N, N]))
              (fun j => u j + ((s.minDimerLength / 2 * o j : ℝ) : ℂ)) x = 0) := by
  obtain ⟨m0, m, M, h1, h2, h3, h4, h5, h6, h7⟩ := nucleation_model theta rho gamma c
  refine ⟨m0, m, M, h1, h2, h3, h4, ?_⟩
  intro s ho hdt hτ st i u hu
  exact explicit_limit (by rw [h3]; rfl) (by simp [hN]) M h6 (weightAt theta N) hθ _ (force_continuous rho gamma _) h7 s ho
    hdt hτ st i u hu

/-! ### The weight and the start of the program -/

/-- C139: the weight of the program lies between 1/100 and 1, so it is nowhere zero. -/
theorem c139_weight (x y : ℝ) : 1 / 100 ≤ nucleationTheta x y ∧ nucleationTheta x y < 1 := by
  unfold nucleationTheta
  dsimp only
  set v := Real.tanh ((x + 0.2 * Real.cos (4 * Real.pi * y)) / 0.01)
  have h1 : v ^ 2 < 1 := Real.tanh_sq_lt_one _
  have h2 : 0 ≤ v ^ 2 := sq_nonneg v
  have h4 : v ^ 4 = v ^ 2 * v ^ 2 := by ring
  constructor
  · have : 0 ≤ v ^ 4 := by positivity
    norm_num
    linarith
  · have : v ^ 4 < 1 := by rw [h4]; nlinarith
    norm_num
    linarith

theorem weight_ne (N : ℕ) (x : Fin [N, N].prod) : weightAt nucleationTheta N x ≠ 0 := by
  have := (c139_weight (nucleationPosition x.val N).1 (nucleationPosition x.val N).2).1
  unfold weightAt
  intro e
  rw [e] at this
  norm_num at this

theorem position_range {N : ℕ} (hN : 0 < N) {i : ℕ} (hi : i < N * N) :
    -1 / 2 ≤ (nucleationPosition i N).1 ∧ (nucleationPosition i N).1 < 1 / 2 ∧
    -1 / 2 ≤ (nucleationPosition i N).2 ∧ (nucleationPosition i N).2 < 1 / 2 := by
  have hN' : (0 : ℝ) < N := by exact_mod_cast hN
  have h1 : ((i / N : ℕ) : ℝ) < N := by exact_mod_cast (Nat.div_lt_iff_lt_mul hN).mpr hi
  have h2 : ((i % N : ℕ) : ℝ) < N := by exact_mod_cast Nat.mod_lt i hN
  have a1 : ((i / N : ℕ) : ℝ) / N < 1 := by rw [div_lt_one hN']; exact h1
  have a2 : ((i % N : ℕ) : ℝ) / N < 1 := by rw [div_lt_one hN']; exact h2
  have b1 : 0 ≤ ((i / N : ℕ) : ℝ) / N := by positivity
  have b2 : 0 ≤ ((i % N : ℕ) : ℝ) / N := by positivity
  unfold nucleationPosition
  dsimp only
  refine ⟨?_, ?_, ?_, ?_⟩ <;> norm_num <;> linarith

/-- The squared distance from the centre is less than the diagonal of the part on the right. -/
theorem distance_lt {N : ℕ} (hN : 0 < N) {i : ℕ} (hi : i < N * N) :
    ((nucleationPosition i N).1 - (-0.2)) * ((nucleationPosition i N).1 - (-0.2)) +
      ((nucleationPosition i N).2 - 0) * ((nucleationPosition i N).2 - 0) < 3 / 4 := by
  obtain ⟨h1, h2, h3, h4⟩ := position_range hN hi
  set x := (nucleationPosition i N).1
  set y := (nucleationPosition i N).2
  norm_num
  nlinarith

/-- C139: the positions of the nodes lie in a square of side one. If the inner radius is 7/8 or more (the default is 4), no
node lies in the ring: the vector handed to `SetInitialOrientation` is zero, and so is the length every component is
divided by. -/
theorem c139_orientation {N : ℕ} (hN : 0 < N) {innerR outerR : ℝ} (hR : 7 / 8 ≤ innerR) (s : SDD 1 [N, N].prod) :
    (∀ i, i < N * N → nucleationOrientation innerR outerR N i = 0) ∧
    (s.setOrientation fun _ j => nucleationOrientation innerR outerR N j.val).initDimerLength = 0 := by
  have h0 : ∀ i, i < N * N → nucleationOrientation innerR outerR N i = 0 := by
    intro i hi
    unfold nucleationOrientation insertTorus
    dsimp only
    rw [if_neg]
    rintro ⟨h1, -, -⟩
    have := distance_lt hN hi
    nlinarith
  refine ⟨h0, ?_⟩
  unfold SDD.setOrientation
  dsimp only
  have : ∀ j : Fin [N, N].prod, nucleationOrientation innerR outerR N j.val = 0 := fun j =>
    h0 j.val (by have := j.2; simpa using this)
  rw [Fin.sum_univ_one, Finset.sum_eq_zero fun j _ => by rw [this j, mul_zero], Real.sqrt_zero]

/-- C139: if the mean of the radii is 7/8 or more (the default is 6), the droplet the program starts with is not a
semi-circle: it fills everything on the right of the line `x = -0.2`. -/
theorem c139_droplet {N : ℕ} (hN : 0 < N) {innerR outerR : ℝ} (hR : 7 / 8 ≤ (innerR + outerR) / 2) {i : ℕ} (hi : i < N * N) :
    nucleationStart innerR outerR N i = if -0.2 ≤ (nucleationPosition i N).1 then 1 else -1 := by
  unfold nucleationStart insertSemiCircle
  dsimp only
  by_cases hx : -0.2 ≤ (nucleationPosition i N).1
  · rw [if_pos hx, if_pos]
    refine ⟨?_, hx⟩
    have := distance_lt hN hi
    norm_num at this ⊢
    nlinarith
  · rw [if_neg hx, if_neg]
    rintro ⟨-, h⟩
    exact hx h

/-! ### The conditions are met -/

example : (7 : ℝ) / 8 ≤ 4 ∧ (7 : ℝ) / 8 ≤ (4 + 8) / 2 ∧ 0 < 128 ∧ ∀ x, weightAt nucleationTheta 128 x ≠ 0 :=
  ⟨by norm_num, by norm_num, by norm_num, weight_ne 128⟩

/-- An odd force and a dimer around zero: the field stays zero. -/
theorem odd_run {nf nd : ℕ} (hnf : nf = 1) (h : ∀ d ∈ dims, 0 < d) (M : Model nf nd dims.prod)
    (hden : ∀ i st freq t, M.getDenum i st freq t = fun _ => 0) (F : Data dims.prod → Data dims.prod)
    (hodd : ∀ u, F (fun x => -u x) = fun x => -F u x)
    (hR : ∀ i st freq t, M.getRHS i (sddFft M st) freq t = fft dims (F (st.fields i)))
    (s : SDD nf dims.prod) (ho : normSqO s.orientation = 1) (ha : s.alpha = 1 / 2)
    (st : Store nf nd dims.prod) (hst : ∀ i, st.fields i = fun _ => 0) (k : ℕ) (i : Fin nf) :
    (dimerRun M s st k).2.fields i = fun _ => 0 := by
  subst hnf
  obtain rfl : i = 0 := Subsingleton.elim _ _
  induction k with
  | zero => exact hst 0
  | succ k ih =>
    obtain ⟨z, hz, hsum⟩ := run_displacement h M s (fun i st st' freq t => by rw [hden, hden])
      (G := fun u => fft dims (F u)) (A := fun _ => 0) (fun st t => hR 0 st s.freq t) (fun st t => hden 0 st s.freq t) ho
      st k (stepsOk_explicit _ _)
    have hz0 : fft dims z = fft dims fun _ => 0 := by
      rw [hz, ih]
      funext q
      unfold dimerForce
      rw [ha]
      simp only [zero_sub, zero_add, zero_mul, add_zero]
      rw [hodd]
      have e0 : fft dims (fun _ => 0) q = 0 := by simp [fft]
      have e1 : ∀ v : Data dims.prod, fft dims (fun x => -v x) q = -fft dims v q := by
        intro v
        rw [← neg_one_mul, ← fft_smul]
        congr 1
        funext x
        ring
      rw [e0, e1]
      push_cast
      ring
    have := fft_injective h hz0
    rw [this, ih] at hsum
    simp only [norm_zero, ne_eq, OfNat.ofNat_ne_zero, not_false_eq_true, zero_pow, Finset.sum_const_zero, mul_zero, sub_zero] at hsum
    funext j
    have := (Finset.sum_eq_zero_iff_of_nonneg (fun j _ => by positivity)).mp hsum j (Finset.mem_univ j)
    simpa using this

/-- A run of the program with `rho = 0` that converges: the conditions of `c139_limit` can be met, for every direction of the
dimer and every weight. -/
example {N : ℕ} (hN : 0 < N) (theta : ℝ → ℝ → ℝ) (gamma : ℝ) (c : Str → ℂ) :
    ∃ (m0 m : EqModel [N, N].prod) (M : Model m.fields.length m.derived.length [N, N].prod),
      nucleationModel theta 0 gamma N = some m0 ∧ m0.addEquation nucleationEquation = some m ∧ m.assemble c = some M ∧
      ∀ (s : SDD m.fields.length [N, N].prod), normSqO s.orientation = 1 → s.alpha = 1 / 2 →
      ∀ i j, Tendsto (fun k => (dimerRun M s ⟨fun _ _ => 0, fun _ _ => 0⟩ k).2.fields i j) atTop (𝓝 0) := by
  obtain ⟨m0, m, M, h1, h2, h3, h4, -, h6, h7⟩ := nucleation_model theta 0 gamma c
  refine ⟨m0, m, M, h1, h2, h4, fun s ho ha i j => ?_⟩
  have : ∀ k, (dimerRun M s ⟨fun _ _ => 0, fun _ _ => 0⟩ k).2.fields i = fun _ => 0 := fun k =>
    odd_run (by rw [h3]; rfl) (by simp [hN]) M h6 (fun u x => (weightAt theta N x : ℂ) *
      homogeneousForce 0 gamma (gridLaplacian (freqOf [N, N])) u x) (fun u => by
        funext x
        have hl : gridLaplacian (freqOf [N, N]) (fun x => -u x) x = -gridLaplacian (freqOf [N, N]) u x := by
          unfold gridLaplacian spectralLaplacian divRealScalar ifft fft
          simp only [neg_mul, Finset.sum_neg_distrib, mul_neg, neg_div]
        unfold homogeneousForce
        rw [hl]
        push_cast
        ring) h7 s ho ha _ (fun _ => rfl) k i
  simp only [this]
  exact tendsto_const_nhds

/-- Without field there is no force in a system with `rho = 0`: the conditions of `c139_rest` have solutions. -/
example (N : ℕ) : ∀ x, homogeneousForce 0 nucleationGamma (gridLaplacian (freqOf [N, N])) (fun _ => 0) x = 0 := by
  intro x
  unfold homogeneousForce gridLaplacian spectralLaplacian divRealScalar ifft fft
  simp

/-- Radii that fit: on a grid of ten by ten nodes with radii 0.1 and 0.3, the node in the middle belongs to the ring. -/
example : nucleationOrientation 0.1 0.3 10 55 = 1 := by
  unfold nucleationOrientation insertTorus nucleationPosition
  norm_num

end Gopf.Props
