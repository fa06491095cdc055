import Verif.Model.Precipitate
import Verif.Props.MixedCoupled
import Verif.Props.Kks
import Verif.Props.Volume

/-!
# C146: the equations of the example with a strained precipitate
-/

namespace Gopf.Props
open Spec Pf Pfutil

variable {n : ℕ} {dims : List ℕ}

/-! ### Reading the equations -/

/-- The names of the program. -/
def precipitateNames : Names := ⟨["conc".toList, "phase".toList],
  ["CHEMICALPOT".toList, "DERIV_PHASE_ORDER".toList, "SMEARING_DERIV".toList], ["kappa".toList]⟩

theorem precipitate_wellNamed : precipitateNames.WellNamed where
  ident := by
    have : ∀ x ∈ precipitateNames.all, (∀ c ∈ x, c.isAlphanum = true ∨ c = '_') ∧ ∃ c ∈ x.head?, c.isAlpha = true := by
      decide +kernel
    intro x hx
    obtain ⟨h1, c, hc, h2⟩ := this x hx
    cases x with
    | nil => simp at hc
    | cons y x =>
      simp only [List.head?_cons, Option.mem_some_iff] at hc
      subst hc
      exact ⟨⟨y, x, rfl, h2⟩, h1⟩
  nodup := by decide +kernel
  noLap := by decide +kernel
  long := by decide +kernel
  sepLap := by decide +kernel
  sepVarying := by decide +kernel
  sepScalar := by decide +kernel

/-- A function standing alone. -/
def aloneItems (x : Str) : List Item := [⟨none, some ⟨x, none⟩⟩]

/-- `kappa*LAPconc`, `kappa*LAPphase` -/
def smoothItems (x : Str) : List Item := [⟨none, some ⟨"kappa".toList, none⟩⟩, ⟨some none, some ⟨x, none⟩⟩]

/-- `dconc/dt = CHEMICALPOT + kappa*LAP conc` -/
def precipitateConcEquation : MixedEquation :=
  ⟨"conc".toList, none, .product (aloneItems "CHEMICALPOT".toList), [('+', .product (smoothItems "conc".toList))]⟩

/-- `dphase/dt = DERIV_PHASE_ORDER + LIN_ELAST + kappa*LAP phase + CONSERVE_PREC_VOL` -/
def precipitatePhaseEquation : MixedEquation :=
  ⟨"phase".toList, none, .product (aloneItems "DERIV_PHASE_ORDER".toList),
    [('+', .registered [] "LIN_ELAST".toList), ('+', .product (smoothItems "phase".toList)),
     ('+', .registered [] "CONSERVE_PREC_VOL".toList)]⟩

theorem precipitate_texts : precipitateEquations.map (fun s => s.filter fun c => c ≠ ' ') =
    [precipitateConcEquation, precipitatePhaseEquation].map MixedEquation.text := by
  decide +kernel

theorem precipitate_exactOne (items : List Item) (hi : ∀ i ∈ items, ∀ f ∈ i.fac, f.exp = none) :
    ∀ f ∈ factorsIn precipitateNames.fields items, |f.power - 1| < 1 / 10 ^ 10 → f.power = 1 := by
  intro f hf _
  obtain ⟨i, h1, h2⟩ := List.mem_filterMap.mp (List.mem_filter.mp hf).1
  simp [Factor.power, hi i h1 f h2]

theorem precipitate_noLA : ∀ x ∈ precipitateNames.all, ¬ ['L', 'A'] <:+: x ∨ x = "INTERPOLANT".toList := by decide +kernel

theorem alone_monomial {x : Str} (hx : x = "CHEMICALPOT".toList ∨ x = "DERIV_PHASE_ORDER".toList) :
    Monomial precipitateNames (aloneItems x) := by
  have hm : x ∈ precipitateNames.all := by
    rcases hx with rfl | rfl <;> exact List.mem_of_elem_eq_true (by rfl)
  have hw : ∀ i ∈ aloneItems x, i.WellFormed precipitateNames := by
    intro i hi
    obtain rfl := List.mem_singleton.mp hi
    exact ⟨by simp, by simp, by simp, by
      intro f hf
      obtain rfl : (⟨x, none⟩ : Factor) = f := by simpa using hf
      exact hm, by simp⟩
  exact
  { readable :=
    { wf := hw
      oneLap := by rcases hx with rfl | rfl <;> decide +kernel
      lapFirst := lapFirst_of precipitate_noLA hw (by rcases hx with rfl | rfl <;> decide +kernel)
      together := ⟨[], aloneItems x, [],
        by rcases hx with rfl | rfl <;> decide +kernel, by rcases hx with rfl | rfl <;> decide +kernel, by rcases hx with rfl | rfl <;> decide +kernel, by rcases hx with rfl | rfl <;> decide +kernel, by rcases hx with rfl | rfl <;> decide +kernel, by rcases hx with rfl | rfl <;> decide +kernel⟩ }
    once := by rcases hx with rfl | rfl <;> decide +kernel
    kind := Or.inr ⟨x, by rcases hx with rfl | rfl <;> decide +kernel, by rcases hx with rfl | rfl <;> decide +kernel⟩
    exactOne := precipitate_exactOne _ (by rcases hx with rfl | rfl <;> decide +kernel) }

theorem smoothing_monomial {x : Str} (hx : x = "conc".toList ∨ x = "phase".toList) :
    Monomial precipitateNames (smoothItems x) := by
  have hm : x ∈ precipitateNames.all := by
    rcases hx with rfl | rfl <;> exact List.mem_of_elem_eq_true (by rfl)
  have hv : x ∈ precipitateNames.varying := by
    rcases hx with rfl | rfl <;> exact List.mem_of_elem_eq_true (by rfl)
  have hw : ∀ i ∈ smoothItems x, i.WellFormed precipitateNames := by
    intro i hi
    rcases List.mem_cons.mp hi with rfl | hi
    · exact ⟨by simp, by simp, by simp, by
        intro f hf
        obtain rfl : (⟨"kappa".toList, none⟩ : Factor) = f := by simpa using hf
        exact List.mem_of_elem_eq_true (by rfl), by simp⟩
    · obtain rfl := List.mem_singleton.mp hi
      refine ⟨by simp, by simp, by simp, ?_, ?_⟩
      · intro f hf
        obtain rfl : (⟨x, none⟩ : Factor) = f := by simpa using hf
        exact hm
      · intro f hf _
        obtain rfl : (⟨x, none⟩ : Factor) = f := by simpa using hf
        exact ⟨hv, by rcases hx with rfl | rfl <;> decide, by rcases hx with rfl | rfl <;> decide⟩
  exact
  { readable :=
    { wf := hw
      oneLap := by rcases hx with rfl | rfl <;> decide +kernel
      lapFirst := lapFirst_of precipitate_noLA hw (by rcases hx with rfl | rfl <;> decide +kernel)
      together := ⟨[], [⟨some none, some ⟨x, none⟩⟩], [⟨none, some ⟨"kappa".toList, none⟩⟩],
        by rcases hx with rfl | rfl <;> decide +kernel, by rcases hx with rfl | rfl <;> decide +kernel, by rcases hx with rfl | rfl <;> decide +kernel, by rcases hx with rfl | rfl <;> decide +kernel, by rcases hx with rfl | rfl <;> decide +kernel, by rcases hx with rfl | rfl <;> decide +kernel⟩ }
    once := by rcases hx with rfl | rfl <;> decide +kernel
    kind := Or.inl ⟨by rcases hx with rfl | rfl <;> decide +kernel, by rcases hx with rfl | rfl <;> decide +kernel⟩
    exactOne := precipitate_exactOne _ (by rcases hx with rfl | rfl <;> decide +kernel) }

/-- The model before the equations are added. -/
noncomputable def precipitatePlain (dims : List ℕ) (p : Precipitate) (lp : VolumeLP) (el : HomoLinElast dims.prod) :
    EqModel dims.prod :=
  { (((((EqModel.empty.addScalar "kappa".toList).addField "conc".toList).addField "phase".toList).registerFunction
      "CHEMICALPOT".toList (precipitateChemPot p)).registerFunction "DERIV_PHASE_ORDER".toList
      (precipitateDerivPhase p)).registerFunction "SMEARING_DERIV".toList precipitateSmearing with
    explicitTerms := [("LIN_ELAST".toList, precipitateElastic el), ("CONSERVE_PREC_VOL".toList, precipitateConserve lp)] }

theorem precipitate_registered (p : Precipitate) (lp : VolumeLP) (el : HomoLinElast dims.prod) :
    precipitateModel dims p lp el = some (precipitatePlain dims p lp el) := by
  unfold precipitateModel EqModel.registerExplicit
  rw [(c98_accepted "CONSERVE_PREC_VOL".toList).mpr (by decide), (c98_accepted "LIN_ELAST".toList).mpr (by decide)]
  rfl

/-- What the two registered names stand for. -/
noncomputable def precipitateTerms (lp : VolumeLP) (el : HomoLinElast dims.prod) (x : Str) : BTerm dims.prod :=
  if x = "LIN_ELAST".toList then precipitateElastic el else precipitateConserve lp

theorem alone_text (x : Str) : productText (aloneItems x) = x := by
  simp [productText, aloneItems, Item.text, lapText, facText, Factor.text, Spec.powerText, List.intercalate]

theorem precipitate_free {x : Str} (hx : x ≠ "LIN_ELAST".toList ∧ x ≠ "CONSERVE_PREC_VOL".toList) (p : Precipitate) (lp : VolumeLP)
    (el : HomoLinElast dims.prod) : (precipitatePlain dims p lp el).isUserDefinedTerm x = false := by
  have e1 : (precipitatePlain dims p lp el).explicitTerms =
    [("LIN_ELAST".toList, precipitateElastic el), ("CONSERVE_PREC_VOL".toList, precipitateConserve lp)] := rfl
  have e2 : (precipitatePlain dims p lp el).implicitTerms = [] := rfl
  have e3 : (precipitatePlain dims p lp el).mixedTerms = [] := rfl
  rw [EqModel.isUserDefinedTerm, e1, e2, e3]
  have h1 : (x == "LIN_ELAST".toList) = false := by simpa using hx.1
  have h2 : (x == "CONSERVE_PREC_VOL".toList) = false := by simpa using hx.2
  simp only [List.lookup, h1, h2]
  rfl

theorem plain_read {x : Str} (hx : ∀ w ∈ reserved, ¬ w.toList <+: x) (hc : x.head? ≠ some '^') : removeKnownPrefixes x = x :=
  (read_operators x ((c98_accepted _).mpr hx) hc [] (by simp)).2

theorem precipitate_good (p : Precipitate) (lp : VolumeLP) (el : HomoLinElast dims.prod) :
    ∀ eq ∈ [precipitateConcEquation, precipitatePhaseEquation], MixedEquation.Good precipitateNames (precipitatePlain dims p lp el)
      (precipitateTerms lp el) (fun _ _ _ _ _ => 0) eq := by
  have f1 : ∀ x, x = "CHEMICALPOT".toList ∨ x = "DERIV_PHASE_ORDER".toList →
      Sensible precipitateNames (precipitatePlain dims p lp el) (precipitateTerms lp el) (fun _ _ _ _ _ => 0)
        (.product (aloneItems x)) := by
    intro x hx
    refine ⟨alone_monomial hx, ?_, ?_⟩
    · rw [alone_text]
      exact precipitate_free (by rcases hx with rfl | rfl <;> exact ⟨by decide, by decide⟩) p lp el
    · rw [alone_text, plain_read (by rcases hx with rfl | rfl <;> decide) (by rcases hx with rfl | rfl <;> decide)]
      exact precipitate_free (by rcases hx with rfl | rfl <;> exact ⟨by decide, by decide⟩) p lp el
  have f2 : ∀ x, x = "conc".toList ∨ x = "phase".toList →
      Sensible precipitateNames (precipitatePlain dims p lp el) (precipitateTerms lp el) (fun _ _ _ _ _ => 0)
        (.product (smoothItems x)) := by
    intro x hx
    have hfree : (precipitatePlain dims p lp el).isUserDefinedTerm (productText (smoothItems x)) = false := by
      apply precipitate_free
      rcases hx with rfl | rfl <;> exact ⟨by decide +kernel, by decide +kernel⟩
    refine ⟨smoothing_monomial hx, hfree, ?_⟩
    rw [plain_read (by rcases hx with rfl | rfl <;> decide +kernel) (by rcases hx with rfl | rfl <;> decide +kernel)]
    exact hfree
  have f3 : ∀ x, x = "LIN_ELAST".toList ∨ x = "CONSERVE_PREC_VOL".toList →
      Sensible precipitateNames (precipitatePlain dims p lp el) (precipitateTerms lp el) (fun _ _ _ _ _ => 0)
        (.registered [] x) := by
    intro x hx
    rcases hx with rfl | rfl
    · exact ⟨⟨by simp, (c98_accepted _).mpr (by decide), by decide, ⟨by decide, by decide⟩, by decide, Or.inl rfl⟩,
        .explicit rfl rfl⟩
    · exact ⟨⟨by simp, (c98_accepted _).mpr (by decide), by decide, ⟨by decide, by decide⟩, by decide, Or.inl rfl⟩,
        .explicit rfl rfl⟩
  intro eq heq
  simp only [List.mem_cons, List.not_mem_nil, or_false] at heq
  rcases heq with rfl | rfl
  · refine ⟨by decide +kernel, by simp [precipitateConcEquation], by simp [precipitateConcEquation], ?_⟩
    intro q hq
    simp only [precipitateConcEquation, MixedEquation.terms, List.map_cons, List.map_nil, List.mem_cons, List.not_mem_nil, or_false] at hq
    rcases hq with rfl | rfl
    · exact f1 _ (Or.inl rfl)
    · exact f2 _ (Or.inl rfl)
  · refine ⟨by decide +kernel, by simp [precipitatePhaseEquation], by simp [precipitatePhaseEquation], ?_⟩
    intro q hq
    simp only [precipitatePhaseEquation, MixedEquation.terms, List.map_cons, List.map_nil, List.mem_cons, List.not_mem_nil, or_false] at hq
    rcases hq with rfl | rfl | rfl | rfl
    · exact f1 _ (Or.inr rfl)
    · exact f3 _ (Or.inl rfl)
    · exact f2 _ (Or.inr rfl)
    · exact f3 _ (Or.inr rfl)

theorem precipitate_starts (p : Precipitate) (lp : VolumeLP) (el : HomoLinElast dims.prod) :
    StartsAs precipitateNames (precipitatePlain dims p lp el) := by
  refine ⟨rfl, rfl, fun x => ?_⟩
  have e : (precipitatePlain dims p lp el).brickNames = ["kappa".toList, "conc".toList, "phase".toList,
    "CHEMICALPOT".toList, "DERIV_PHASE_ORDER".toList, "SMEARING_DERIV".toList] := rfl
  have e2 : precipitateNames.all = ["conc".toList, "phase".toList, "CHEMICALPOT".toList, "DERIV_PHASE_ORDER".toList,
    "SMEARING_DERIV".toList, "kappa".toList] := rfl
  rw [e, e2]
  simp only [List.mem_cons, List.not_mem_nil, or_false]
  tauto

theorem precipitate_derived (p : Precipitate) (lp : VolumeLP) (el : HomoLinElast dims.prod) :
    (precipitatePlain dims p lp el).derived = [("CHEMICALPOT".toList, .function (precipitateChemPot p)),
      ("DERIV_PHASE_ORDER".toList, .function (precipitateDerivPhase p)),
      ("SMEARING_DERIV".toList, .function precipitateSmearing)] := rfl

theorem precipitate_reads (p : Precipitate) (lp : VolumeLP) (el : HomoLinElast dims.prod) :
    ∀ q ∈ (precipitatePlain dims p lp el).derived, ReadsFields precipitateNames q.2 := by
  rw [precipitate_derived]
  intro q hq u u' hf _
  have h1 : u "phase".toList = u' "phase".toList := hf _ (List.mem_of_elem_eq_true (by rfl))
  have h2 : u "conc".toList = u' "conc".toList := hf _ (List.mem_of_elem_eq_true (by rfl))
  simp only [List.mem_cons, List.not_mem_nil, or_false] at hq
  rcases hq with rfl | rfl | rfl
  · simp only [Calc.eval]
    unfold precipitateChemPot
    rw [h1, h2]
  · simp only [Calc.eval]
    unfold precipitateDerivPhase
    rw [h1, h2]
  · simp only [Calc.eval]
    unfold precipitateSmearing
    rw [h1]

/-! ### One step -/

theorem brick_at (m : EqModel n) (c : Str → ℂ) (st : Store m.fields.length m.derived.length n) (hnd : m.fields.Nodup)
    (j : Fin m.fields.length) : m.brick c st m.fields[j] = st.fields j := by
  unfold EqModel.brick
  have e : m.fields.idxOf m.fields[j] = j.val := hnd.idxOf_getElem j.val j.2
  rw [dif_pos (by rw [e]; exact j.2)]
  congr 1
  exact Fin.ext e

theorem brick_at_derived (m : EqModel n) (c : Str → ℂ) (st : Store m.fields.length m.derived.length n)
    (hnd : (m.derived.map Prod.fst).Nodup) (d : Fin m.derived.length) (hf : (m.derived[d]).1 ∉ m.fields) :
    m.brick c st (m.derived[d]).1 = st.derived d := by
  unfold EqModel.brick
  rw [dif_neg (by rw [List.idxOf_lt_length_iff]; exact hf)]
  have hd : d.val < (m.derived.map Prod.fst).length := by simp
  have e : (m.derived.map Prod.fst).idxOf (m.derived[d]).1 = d.val := by
    have := hnd.idxOf_getElem d.val hd
    rwa [List.getElem_map] at this
  rw [dif_pos (by rw [e]; exact d.2)]
  congr 1
  exact Fin.ext e

/-- The fields by name. -/
def precipitateBricks (conc phase : Data n) (x : Str) : Data n :=
  if x = "conc".toList then conc else if x = "phase".toList then phase else fun _ => 0

/-- What the names stand for. -/
noncomputable def precipitateValues (p : Precipitate) (conc phase : Data n) (x : Str) : Data n :=
  if x = "conc".toList then conc else if x = "phase".toList then phase
  else if x = "CHEMICALPOT".toList then precipitateChemPot p (precipitateBricks conc phase)
  else if x = "DERIV_PHASE_ORDER".toList then precipitateDerivPhase p (precipitateBricks conc phase)
  else if x = "SMEARING_DERIV".toList then precipitateSmearing (precipitateBricks conc phase)
  else fun _ => (p.kappa : ℂ)

section
variable (p : Precipitate) (conc phase : Data n)

theorem precipitateValues_conc : precipitateValues p conc phase "conc".toList = conc := by
  unfold precipitateValues; rw [if_pos rfl]

theorem precipitateValues_phase : precipitateValues p conc phase "phase".toList = phase := by
  unfold precipitateValues; rw [if_neg (by decide), if_pos rfl]

theorem precipitateBricks_conc : precipitateBricks conc phase "conc".toList = conc := by
  unfold precipitateBricks; rw [if_pos rfl]

theorem precipitateBricks_phase : precipitateBricks conc phase "phase".toList = phase := by
  unfold precipitateBricks; rw [if_neg (by decide), if_pos rfl]

theorem precipitateValues_chem :
    precipitateValues p conc phase "CHEMICALPOT".toList = precipitateChemPot p (precipitateBricks conc phase) := by
  unfold precipitateValues; rw [if_neg (by decide), if_neg (by decide), if_pos rfl]

theorem precipitateValues_deriv :
    precipitateValues p conc phase "DERIV_PHASE_ORDER".toList = precipitateDerivPhase p (precipitateBricks conc phase) := by
  unfold precipitateValues; rw [if_neg (by decide), if_neg (by decide), if_neg (by decide), if_pos rfl]

theorem precipitateValues_smear :
    precipitateValues p conc phase "SMEARING_DERIV".toList = precipitateSmearing (precipitateBricks conc phase) := by
  unfold precipitateValues
  rw [if_neg (by decide), if_neg (by decide), if_neg (by decide), if_neg (by decide), if_pos rfl]

theorem precipitateValues_kappa : precipitateValues p conc phase "kappa".toList = fun _ => (p.kappa : ℂ) := by
  unfold precipitateValues
  rw [if_neg (by decide), if_neg (by decide), if_neg (by decide), if_neg (by decide), if_neg (by decide)]

theorem precipitate_eval (u : Str → Data n) (h1 : u "conc".toList = conc) (h2 : u "phase".toList = phase) :
    precipitateChemPot p u = precipitateChemPot p (precipitateBricks conc phase) ∧
    precipitateDerivPhase p u = precipitateDerivPhase p (precipitateBricks conc phase) ∧
    precipitateSmearing u = precipitateSmearing (precipitateBricks conc phase) := by
  refine ⟨?_, ?_, ?_⟩
  · unfold precipitateChemPot
    rw [h1, h2, precipitateBricks_conc, precipitateBricks_phase]
  · unfold precipitateDerivPhase
    rw [h1, h2, precipitateBricks_conc, precipitateBricks_phase]
  · unfold precipitateSmearing
    rw [h2, precipitateBricks_phase]

end

theorem alone_factors {x : Str} (hx : x = "CHEMICALPOT".toList ∨ x = "DERIV_PHASE_ORDER".toList) :
    factorsIn precipitateNames.scalars (aloneItems x) = [] ∧ factorsIn precipitateNames.varying (aloneItems x) = [⟨x, none⟩] ∧
      laplacians (aloneItems x) = [] ∧ x ∉ precipitateNames.fields ∧ occurrences "conc".toList (aloneItems x) = [] ∧
      occurrences "phase".toList (aloneItems x) = [] := by
  rcases hx with rfl | rfl <;> decide +kernel

theorem smoothing_factors {x : Str} (hx : x = "conc".toList ∨ x = "phase".toList) :
    factorsIn precipitateNames.scalars (smoothItems x) = [⟨"kappa".toList, none⟩] ∧
      factorsIn precipitateNames.varying (smoothItems x) = [⟨x, none⟩] ∧
      laplacians (smoothItems x) = [1] ∧ x ∈ precipitateNames.fields := by
  rcases hx with rfl | rfl <;> decide +kernel

theorem smoothing_linear {x : Str} (hx : x = "conc".toList ∨ x = "phase".toList) :
    LinearIn x precipitateNames.varying (smoothItems x) := by
  rcases hx with rfl | rfl <;> exact linearIn_of (by decide +kernel) (by decide +kernel) (by decide +kernel)

theorem seen_alone {x : Str} (hx : x = "CHEMICALPOT".toList ∨ x = "DERIV_PHASE_ORDER".toList) (F : Data n → Data n)
    (u v : Str → Data n) (freq : Frequency n) (k : Fin n) :
    seenSpectrum precipitateNames F u v freq k (aloneItems x, none) = F (u x) k := by
  obtain ⟨e1, e2, e3, e4, -⟩ := alone_factors hx
  unfold seenSpectrum
  rw [if_neg (notBare_of e2 e4)]
  simp only [e1, e2, e3, productValue_single, List.map_nil, List.prod_nil, mul_one]
  simp [signOf]

theorem seen_smooth {x : Str} (hx : x = "conc".toList ∨ x = "phase".toList) (F : Data n → Data n) {κ : ℂ}
    (u v : Str → Data n) (hκ : u "kappa".toList = fun _ => κ) (freq : Frequency n) (k : Fin n) :
    seenSpectrum precipitateNames F u v freq k (smoothItems x, some '+') = κ * laplaceSymbol (freq k) * F (v x) k := by
  obtain ⟨e1, e2, e3, e4⟩ := smoothing_factors hx
  unfold seenSpectrum
  rw [if_pos ⟨x, e4, e2⟩]
  simp only [e1, e2, e3, productValue_single, List.map_cons, List.map_nil, List.prod_cons, List.prod_nil, mul_one, pow_one, hκ]
  rw [show signOf (some '+') = 1 from if_neg (by decide)]
  simp only [Factor.power]
  norm_num
  ring

theorem factor_alone {x y : Str} (hx : x = "CHEMICALPOT".toList ∨ x = "DERIV_PHASE_ORDER".toList)
    (hy : y = "conc".toList ∨ y = "phase".toList) (u : Str → Data n) (freq : Frequency n) (k : Fin n) :
    linearFactor precipitateNames y u freq k (aloneItems x, none) = 0 := by
  obtain ⟨-, -, -, -, e5, e6⟩ := alone_factors hx
  unfold linearFactor
  apply if_neg
  rintro ⟨h, -⟩
  rcases hy with rfl | rfl
  · rw [e5] at h; simp at h
  · rw [e6] at h; simp at h

theorem factor_smooth {x : Str} (hx : x = "conc".toList ∨ x = "phase".toList) {κ : ℂ}
    (u : Str → Data n) (hκ : u "kappa".toList = fun _ => κ) (freq : Frequency n) (k : Fin n) :
    linearFactor precipitateNames x u freq k (smoothItems x, some '+') = κ * laplaceSymbol (freq k) := by
  obtain ⟨e1, e2, e3, e4⟩ := smoothing_factors hx
  unfold linearFactor
  rw [if_pos (smoothing_linear hx)]
  simp only [e1, e3, List.map_cons, List.map_nil, List.prod_cons, List.prod_nil, mul_one, pow_one, hκ]
  rw [show signOf (some '+') = 1 from if_neg (by decide)]
  simp only [Factor.power]
  norm_num

theorem conc_terms : precipitateConcEquation.terms =
    [(.product (aloneItems "CHEMICALPOT".toList), none), (.product (smoothItems "conc".toList), some '+')] := rfl

theorem phase_terms : precipitatePhaseEquation.terms =
    [(.product (aloneItems "DERIV_PHASE_ORDER".toList), none), (.registered [] "LIN_ELAST".toList, some '+'),
     (.product (smoothItems "phase".toList), some '+'), (.registered [] "CONSERVE_PREC_VOL".toList, some '+')] := rfl

/-- A round of the program in Fourier space. -/
theorem precipitate_round (h : ∀ d ∈ dims, 0 < d) (p : Precipitate) (hκ : 0 ≤ p.kappa) (z : Fin dims.prod)
    (S : PrecipitateState dims) (hfreq : S.stepper.freq = freqOf dims) (hfil : S.stepper.filter = none) (hdt : 0 ≤ S.stepper.dt) :
    ∃ S', precipitateRound p z S = some S' ∧
      S'.stepper = { S.stepper with currentStep := S.stepper.currentStep + 1 } ∧
      S'.el = S.el.onStepFinished S'.phase ∧
      S'.lp = S.lp.finished z S'.phase (fft dims (precipitateSmearing (precipitateBricks S.conc S.phase))) ∧
      ∀ k, fft dims S'.conc k * ((1 + S.stepper.dt * p.kappa * laplaceNumber dims k : ℝ) : ℂ) =
          fft dims S.conc k + S.stepper.dt * fft dims (precipitateChemPot p (precipitateBricks S.conc S.phase)) k ∧
        fft dims S'.phase k * ((1 + S.stepper.dt * p.kappa * laplaceNumber dims k : ℝ) : ℂ) =
          fft dims S.phase k + S.stepper.dt * (fft dims (precipitateDerivPhase p (precipitateBricks S.conc S.phase)) k +
            S.el.construct k + S.lp.multiplier * fft dims (precipitateSmearing (precipitateBricks S.conc S.phase)) k) := by
  set c : Str → ℂ := fun _ => (p.kappa : ℂ) with hc
  obtain ⟨m, M, hadd, hf, has, ⟨l, hl⟩, hnd, hFO, hstep⟩ := c128_coupled h precipitateNames precipitate_wellNamed
    (precipitatePlain dims p S.lp S.el) (precipitate_starts p S.lp S.el) rfl (precipitate_reads p S.lp S.el)
    (precipitateTerms S.lp S.el) (fun _ _ _ _ _ => 0) [precipitateConcEquation, precipitatePhaseEquation]
    (precipitate_good p S.lp S.el) precipitateEquations precipitate_texts (le_refl 2) c
  have hf' : m.fields = ["conc".toList, "phase".toList] := hf
  have hlen : m.fields.length = 2 := by rw [hf']; rfl
  have hfnd : m.fields.Nodup := by rw [hf']; decide +kernel
  set i : Fin m.fields.length := ⟨0, by rw [hlen]; norm_num⟩ with hi
  set j : Fin m.fields.length := ⟨1, by rw [hlen]; norm_num⟩ with hj
  have gi : m.fields[i] = "conc".toList := List.getElem_of_eq hf' _
  have gj : m.fields[j] = "phase".toList := List.getElem_of_eq hf' _
  have hall : ∀ a : Fin m.fields.length, a = i ∨ a = j := by
    intro a
    have := a.2.trans_eq hlen
    rcases Nat.lt_succ_iff_lt_or_eq.mp this with h' | h'
    · left; exact Fin.ext (by show a.val = 0; omega)
    · right; exact Fin.ext h'
  set st : Store m.fields.length m.derived.length dims.prod :=
    ⟨fun j => if m.fields[j] = "conc".toList then S.conc else S.phase, fun _ _ => 0⟩ with hst
  have si : st.fields i = S.conc := by
    show (if m.fields[i] = "conc".toList then S.conc else S.phase) = _
    rw [if_pos gi]
  have sj : st.fields j = S.phase := by
    show (if m.fields[j] = "conc".toList then S.conc else S.phase) = _
    rw [if_neg (by rw [gj]; decide)]
  set u := precipitateValues p S.conc S.phase with hu
  have hm0 : ∀ q ∈ (precipitatePlain dims p S.lp S.el).derived, u q.1 = q.2.eval u := by
    rw [precipitate_derived]
    obtain ⟨b1, b2, b3⟩ := precipitate_eval p S.conc S.phase u (precipitateValues_conc p _ _) (precipitateValues_phase p _ _)
    intro q hq
    simp only [List.mem_cons, List.not_mem_nil, or_false] at hq
    rcases hq with rfl | rfl | rfl
    · exact (precipitateValues_chem p _ _).trans b1.symm
    · exact (precipitateValues_deriv p _ _).trans b2.symm
    · exact (precipitateValues_smear p _ _).trans b3.symm
  have huf : ∀ a : Fin m.fields.length, u m.fields[a] = st.fields a := by
    intro a
    rcases hall a with rfl | rfl
    · rw [gi, si]; exact precipitateValues_conc p _ _
    · rw [gj, sj]; exact precipitateValues_phase p _ _
  have hus : ∀ x ∈ precipitateNames.scalars, u x = fun _ => c x := by
    intro x hx
    obtain rfl := List.mem_singleton.mp hx
    exact precipitateValues_kappa p _ _
  have hk1 : u "kappa".toList = fun _ => (p.kappa : ℂ) := precipitateValues_kappa p _ _
  have hden : ∀ k, (1 : ℂ) - S.stepper.dt * ((p.kappa : ℂ) * laplaceSymbol (S.stepper.freq k)) =
      ((1 + S.stepper.dt * p.kappa * laplaceNumber dims k : ℝ) : ℂ) := by
    intro k
    rw [hfreq, symbol_laplaceNumber]
    push_cast
    ring
  have hpos : ∀ k, ((1 + S.stepper.dt * p.kappa * laplaceNumber dims k : ℝ) : ℂ) ≠ 0 := by
    intro k
    have := mul_nonneg (mul_nonneg hdt hκ) (laplaceNumber_nonneg k)
    exact_mod_cast (by linarith : (0 : ℝ) < _).ne'
  have hgain : ∀ k, waveGain S.stepper.filter (S.stepper.freq k) = 1 := by intro k; rw [hfil]; simp [waveGain]
  have d2 : 2 < m.derived.length := by rw [hl, precipitate_derived]; simp
  have hd2 : m.derived[2] = ("SMEARING_DERIV".toList, .function precipitateSmearing) := by
    have e := List.getElem_of_eq hl d2
    rw [e, List.getElem_append_left (by rw [precipitate_derived]; simp)]
    rfl
  set q := eulerStep M (S.stepper, st) with hq
  have hbc : m.brick c q.2 "conc".toList = q.2.fields i := by rw [← gi]; exact brick_at m c q.2 hfnd i
  have hbp : m.brick c q.2 "phase".toList = q.2.fields j := by rw [← gj]; exact brick_at m c q.2 hfnd j
  have hbs : m.brick c q.2 "SMEARING_DERIV".toList =
      fft dims (precipitateSmearing (precipitateBricks S.conc S.phase)) := by
    have e := brick_at_derived m c q.2 hnd ⟨2, d2⟩ (by
      rw [hf']
      simp only [Fin.getElem_fin, hd2]
      decide +kernel)
    simp only [Fin.getElem_fin, hd2] at e
    rw [e, hq, derived_step M hFO]
    dsimp only
    have ec : M.calcs ⟨2, d2⟩ st = (m.derived[2]).2.eval (m.brick c st) := by
      unfold EqModel.assemble at has
      split at has
      · exact absurd has (by simp)
      · split_ifs at has with hR
        obtain rfl := Option.some.inj has
        rfl
    rw [ec, hd2]
    congr 1
    refine (precipitate_eval p S.conc S.phase (m.brick c st) ?_ ?_).2.2
    · rw [← gi, brick_at m c st hfnd i, si]
    · rw [← gj, brick_at m c st hfnd j, sj]
  refine ⟨⟨S.lp.finished z (m.brick c q.2 "phase".toList) (m.brick c q.2 "SMEARING_DERIV".toList),
    S.el.onStepFinished (m.brick c q.2 "phase".toList), q.1, m.brick c q.2 "conc".toList, m.brick c q.2 "phase".toList⟩,
    ?_, rfl, rfl, ?_, ?_⟩
  · unfold precipitateRound
    dsimp only
    rw [precipitate_registered, Option.bind_some, hadd, Option.bind_some, has]
    rfl
  · show S.lp.finished z _ _ = S.lp.finished z _ _
    rw [hbs]
  intro k
  dsimp only
  rw [hbc, hbp]
  constructor
  · obtain ⟨b, -, -, -, hb⟩ := hstep i precipitateConcEquation rfl gi.symm S.stepper st u u huf hus hm0 (by
      intro a
      rw [if_neg (by intro h'; exact absurd h' (by simp [hi, Fin.lt_def])), huf a])
    have e := hb k
    have e1 : (precipitateConcEquation.terms.map (summandFactor precipitateNames (fun _ _ _ _ _ => 0)
        precipitateConcEquation.field u b S.stepper.freq S.stepper.getTime k)).sum =
        (p.kappa : ℂ) * laplaceSymbol (S.stepper.freq k) := by
      rw [conc_terms]
      simp only [List.map_cons, List.map_nil, List.sum_cons, List.sum_nil, summandFactor]
      rw [show precipitateConcEquation.field = "conc".toList from rfl, factor_alone (Or.inl rfl) (Or.inl rfl),
        factor_smooth (Or.inl rfl) u hk1]
      ring
    have e2 : (precipitateConcEquation.terms.map (summandSeen precipitateNames (precipitateTerms S.lp S.el) (fun _ _ _ _ _ => 0)
        precipitateConcEquation.field (fft dims) u u b S.stepper.freq S.stepper.getTime k)).sum =
        fft dims (precipitateChemPot p (precipitateBricks S.conc S.phase)) k +
          (p.kappa : ℂ) * laplaceSymbol (S.stepper.freq k) * fft dims S.conc k := by
      rw [conc_terms]
      simp only [List.map_cons, List.map_nil, List.sum_cons, List.sum_nil, summandSeen]
      rw [seen_alone (Or.inl rfl), seen_smooth (Or.inl rfl) _ u u hk1, hu, precipitateValues_chem, precipitateValues_conc]
      ring
    rw [e1, e2, hden k, hgain, si] at e
    rw [e (hpos k), Complex.ofReal_one]
    ring
  · set v : Str → Data dims.prod := fun x => if x = "conc".toList then q.2.fields i else u x with hv
    have hvp : v "phase".toList = S.phase := by
      show (if _ then _ else _) = _
      rw [if_neg (by decide)]
      exact precipitateValues_phase p _ _
    obtain ⟨b, -, -, hbd, hb⟩ := hstep j precipitatePhaseEquation rfl gj.symm S.stepper st u v huf hus hm0 (by
      intro a
      rcases hall a with rfl | rfl
      · rw [if_pos (by simp [hi, hj, Fin.lt_def]), gi]
        show (if _ then _ else _) = _
        rw [if_pos rfl]
      · rw [if_neg (lt_irrefl _), gj, hvp, sj])
    have hbS : b "SMEARING_DERIV".toList = fft dims (precipitateSmearing (precipitateBricks S.conc S.phase)) := by
      have := hbd _ (List.getElem_mem d2)
      rw [hd2] at this
      rw [this]
      exact congrArg (fft dims)
        (precipitate_eval p S.conc S.phase u (precipitateValues_conc p _ _) (precipitateValues_phase p _ _)).2.2
    have e := hb k
    have e1 : (precipitatePhaseEquation.terms.map (summandFactor precipitateNames (fun _ _ _ _ _ => 0)
        precipitatePhaseEquation.field u b S.stepper.freq S.stepper.getTime k)).sum =
        (p.kappa : ℂ) * laplaceSymbol (S.stepper.freq k) := by
      rw [phase_terms]
      simp only [List.map_cons, List.map_nil, List.sum_cons, List.sum_nil, summandFactor]
      rw [show precipitatePhaseEquation.field = "phase".toList from rfl, factor_alone (Or.inr rfl) (Or.inr rfl),
        factor_smooth (Or.inr rfl) u hk1]
      ring
    have t1 : precipitateTerms S.lp S.el "LIN_ELAST".toList = precipitateElastic S.el := if_pos rfl
    have t2 : precipitateTerms S.lp S.el "CONSERVE_PREC_VOL".toList = precipitateConserve S.lp := if_neg (by decide)
    have t3 : delimSign (some '+') = 1 := if_neg (by decide)
    have e2 : (precipitatePhaseEquation.terms.map (summandSeen precipitateNames (precipitateTerms S.lp S.el) (fun _ _ _ _ _ => 0)
        precipitatePhaseEquation.field (fft dims) u v b S.stepper.freq S.stepper.getTime k)).sum =
        fft dims (precipitateDerivPhase p (precipitateBricks S.conc S.phase)) k + S.el.construct k +
          (p.kappa : ℂ) * laplaceSymbol (S.stepper.freq k) * fft dims S.phase k +
          fft dims (precipitateSmearing (precipitateBricks S.conc S.phase)) k * S.lp.multiplier := by
      rw [phase_terms]
      simp only [List.map_cons, List.map_nil, List.sum_cons, List.sum_nil, summandSeen, List.prod_nil]
      rw [seen_alone (Or.inr rfl), seen_smooth (Or.inr rfl) _ u v hk1, t1, t2, t3, hvp, hu, precipitateValues_deriv]
      unfold precipitateElastic precipitateConserve
      rw [hbS]
      ring_nf
    rw [e1, e2, hden k, hgain, sj] at e
    rw [e (hpos k), Complex.ofReal_one]
    ring

end Gopf.Props
