import Verif.Proofs.ConcreteTerm
import Verif.Props.Bilinear

/-!
# C18: parsed terms evaluate to the product they spell
-/

namespace Gopf.Props
open Spec Pf

variable {n : ℕ}

/-- C18: the function built from a readable term evaluates to the sign, times the scalars raised to
their powers, times the value of the field product (`D` is its canonical name), times the symbol of the
Laplacian raised to its power, at every node and for all contents of the bricks. -/
theorem c18_meaning (N : Names) (hN : N.WellNamed) (m : EqModel n) (hm : Represents N m) (items : List Item)
    (hne : items ≠ []) (hr : Readable N items) (D : Str)
    (hD : CanonicalProduct D (factorsIn N.varying items))
    (hk : factorsIn N.varying items = [] ∨ D ∈ m.allFieldNames) (delim : Option Char) :
    ∃ c, concreteTerm (productText items) delim m = some c ∧
      ∀ (b : Bricks n) (freq : Frequency n) (t : ℝ) (k : Fin n), c.eval b freq t k =
        (signOf delim : ℂ) * ((factorsIn N.scalars items).map fun f => b f.name k ^ ((f.power : ℚ) : ℂ)).prod *
          (if factorsIn N.varying items = [] then 1 else b D k) *
          ((laplacians items).map fun p => laplaceSymbol (freq k) ^ p).prod := by
  refine ⟨_, concreteTerm_good hN hm hne (fun i hi => good_of_wf (hr.wf i hi)) hr.oneLap hr.lapFirst delim, ?_⟩
  intro b freq t k
  rw [concrete_eval _ _ _ _ hr.oneLap, getFieldName_readable hN hm hr hD hk]
  by_cases h : factorsIn N.varying items = []
  · simp [h]
  · rw [if_neg h, if_neg h]
    have hDne : D ≠ [] := by
      rintro rfl
      obtain ⟨g, hg, hgD⟩ := productOf_start (represents_known hm _ (hk.resolve_left h))
      obtain ⟨h', a, c, t, hs⟩ := shape hN hg
      rw [hs.drop] at hgD
      exact hs.hne (by simpa using hgD)
    rw [if_neg hDne]

/-- C18: for a term that is linear in the field of the equation, what is built from the text without
that field is the factor in front of the field. -/
theorem c18_factor (N : Names) (hN : N.WellNamed) (m : EqModel n) (hm : Represents N m) (field : Str)
    (hf : field ∈ N.fields) (items : List Item) (hr : Readable N items)
    (hlin : LinearIn field N.varying items) (hpow : ∀ f ∈ factorsIn N.varying items, f.power = 1)
    (delim : Option Char) :
    ∃ c, concreteTerm (removeAll field (productText items)) delim m = some c ∧
      ∀ (b : Bricks n) (freq : Frequency n) (t : ℝ) (k : Fin n), c.eval b freq t k =
        (signOf delim : ℂ) * ((factorsIn N.scalars items).map fun f => b f.name k ^ ((f.power : ℚ) : ℂ)).prod *
          ((laplacians items).map fun p => laplaceSymbol (freq k) ^ p).prod := by
  refine ⟨_, concreteTerm_linear hN hm (by simp [Names.varying, hf]) hr.wf hr.oneLap hr.lapFirst hlin hpow delim, ?_⟩
  intro b freq t k
  rw [concrete_eval _ _ _ _ hr.oneLap]
  simp

/-- The value of a product of factors. -/
noncomputable def productValue (fs : List Factor) (u : Str → Data n) : Data n := fun i =>
  (fs.map fun f => u f.name i ^ ((f.power : ℚ) : ℂ)).prod

/-- C18: the derived field described by a canonical product is that product of the fields. -/
theorem c18_product (N : Names) (hN : N.WellNamed) (fs : List Factor) (hne : fs ≠ [])
    (hw : ∀ f ∈ fs, f.name ∈ N.varying ∧ ∀ e ∈ f.exp, e.WellFormed) (D : Str) (hD : CanonicalProduct D fs) :
    ∃ d, descFactors D = some d ∧ ∀ u : Bricks n, evalDesc d u = productValue fs u := by
  obtain ⟨ts, hts, -, rfl⟩ := hD
  obtain ⟨gs, hgs, rfl⟩ : ∃ gs : List Factor, gs.Perm fs ∧ ts = gs.map Factor.text := by
    clear hne hw
    induction ts generalizing fs with
    | nil =>
      have := hts.symm.eq_nil
      exact ⟨[], by simp [List.map_eq_nil_iff.mp this], rfl⟩
    | cons t ts' ih =>
      have hmem : t ∈ fs.map Factor.text := hts.subset (by simp)
      obtain ⟨f, hf, hft⟩ := List.mem_map.mp hmem
      obtain ⟨a, b, rfl⟩ := List.append_of_mem hf
      have hperm : (t :: ts').Perm (t :: ((a ++ b).map Factor.text)) := by
        refine hts.trans ?_
        rw [← hft, ← List.map_cons]
        exact List.perm_middle.map _
      obtain ⟨gs, h1, h2⟩ := ih (a ++ b) ((List.perm_cons t).mp hperm)
      exact ⟨f :: gs, (h1.cons f).trans List.perm_middle.symm, by rw [h2, List.map_cons, hft]⟩
  have hgw : ∀ f ∈ gs, f.name ∈ N.varying ∧ ∀ e ∈ f.exp, e.WellFormed := fun f hf => hw f (hgs.subset hf)
  have hgne : gs ≠ [] := by rintro rfl; exact hne hgs.symm.eq_nil
  have hsplit : findAll patFactor (List.intercalate ['*'] (gs.map Factor.text)) = gs.map Factor.text := by
    rw [findAll_patFactor]
    apply goSplit_join
    · simpa using hgne
    · intro s hs
      obtain ⟨f, hf, rfl⟩ := List.mem_map.mp hs
      exact factor_noStar hN (hgw f hf).1 (hgw f hf).2
  refine ⟨gs.map fun f => (f.name, f.power), ?_, ?_⟩
  · unfold descFactors
    rw [hsplit]
    clear hsplit hgne hgs hts
    induction gs with
    | nil => rfl
    | cons f gs ih =>
      obtain ⟨h1, h2⟩ := hgw f (by simp)
      have hhat : '^' ∉ f.name := not_mem_ident (hN.ident f.name (by simp [Names.all, h1])).2 (by decide) (by decide)
      have hp := getPower_spec hhat f.exp h2 [] (by simp [Stops]) (by simp)
      rw [List.append_nil] at hp
      have hn : findString patName f.text = f.name := by
        have := readName_spec (i := ⟨none, some f⟩) hN ⟨by simpa using h2, by simp,
          by simpa using Or.inl (by simp [Names.all, h1]), by simp⟩
        simpa [Item.text, lapText, facText, readName] using this
      have ih' := ih fun x hx => hgw x (by simp [hx])
      rw [List.map_cons, List.mapM_cons, ih']
      have hp' : getPower f.text = some f.power := hp
      simp [hp', hn]
  · intro u
    funext i
    have hfold : ∀ (gs : List Factor) (z : ℂ), (gs.map fun f => (f.name, f.power)).foldl
        (fun acc f => acc * cpow (u f.1 i) f.2) z = z * (gs.map fun f => u f.name i ^ ((f.power : ℚ) : ℂ)).prod := by
      intro gs
      induction gs with
      | nil => intro z; simp
      | cons f gs ih =>
        intro z
        rw [List.map_cons, List.foldl_cons, ih, List.map_cons, List.prod_cons, cpow, mul_assoc]
    rw [evalDesc, hfold, one_mul, productValue]
    exact (hgs.map _).prod_eq

/-! ### The conditions are met -/

/-- `gamma*LAPconc^3*eta`. -/
def demoTermItems : List Item := [⟨none, some ⟨"gamma".toList, none⟩⟩,
  ⟨some none, some ⟨"conc".toList, some ⟨['3'], none⟩⟩⟩, ⟨none, some ⟨"eta".toList, none⟩⟩]

/-- A model with the names `demoNames` in which the product `conc^3*eta` has been registered. -/
noncomputable def demoEqModel : EqModel 4 where
  fields := demoNames.fields
  derived := [("FUNC".toList, .function fun _ _ => 1), ("conc^3*eta".toList, .product [])]
  brickNames := demoNames.all ++ ["conc^3*eta".toList]
  implicitTerms := []
  explicitTerms := []
  mixedTerms := []
  equations := []

theorem demoTerm_wellFormed : ∀ i ∈ demoTermItems, i.WellFormed demoNames := by
  intro i hi
  simp only [demoTermItems, List.mem_cons, List.not_mem_nil, or_false] at hi
  rcases hi with rfl | rfl | rfl
  · exact ⟨by simp, by simp, by simp, by simp; decide, by simp⟩
  · exact ⟨by simp, by simp [Exponent.WellFormed], by simp, by simp; decide, by simp; decide⟩
  · exact ⟨by simp, by simp, by simp, by simp; decide, by simp⟩

theorem demoTerm_readable : Readable demoNames demoTermItems where
  wf := demoTerm_wellFormed
  oneLap := by decide
  lapFirst := by
    intro pre i post h hl j hj f hf
    cases pre with
    | nil => simp at hj
    | cons p pre =>
      simp only [demoTermItems, List.cons_append, List.cons.injEq] at h
      obtain ⟨rfl, h⟩ := h
      cases pre with
      | nil =>
        rw [List.mem_singleton] at hj
        subst hj
        simp only [Option.mem_some_iff] at hf
        subst hf
        decide
      | cons q pre =>
        exfalso
        simp only [List.cons_append, List.cons.injEq] at h
        obtain ⟨rfl, h⟩ := h
        cases pre with
        | nil => simp only [List.nil_append, List.cons.injEq] at h; exact hl (by rw [← h.1])
        | cons r pre => simp at h
  together := ⟨[], [⟨some none, some ⟨"conc".toList, some ⟨['3'], none⟩⟩⟩, ⟨none, some ⟨"eta".toList, none⟩⟩],
    [⟨none, some ⟨"gamma".toList, none⟩⟩], by decide, by decide, by simp; decide, by simp; decide, by simp,
    by decide⟩

/-- All hypotheses of `c18_meaning` hold for `gamma*LAPconc^3*eta`. -/
example : productText demoTermItems = "gamma*LAPconc^3*eta".toList ∧ Represents demoNames demoEqModel ∧
    Readable demoNames demoTermItems ∧ factorsIn demoNames.varying demoTermItems ≠ [] ∧
    CanonicalProduct "conc^3*eta".toList (factorsIn demoNames.varying demoTermItems) ∧
    "conc^3*eta".toList ∈ demoEqModel.allFieldNames := by
  refine ⟨by decide, ⟨fun x => Iff.rfl, ?_, by decide, ?_⟩, demoTerm_readable, by decide, ?_, by decide⟩
  · intro x hx
    simp only [demoEqModel, List.map_cons, List.map_nil, List.mem_cons, List.not_mem_nil, or_false] at hx
    rcases hx with rfl | rfl
    · left; decide
    · right
      refine ⟨[⟨"conc".toList, some ⟨['3'], none⟩⟩, ⟨"eta".toList, none⟩], by decide, by simp, ?_, by simp⟩
      intro f hf
      simp only [List.mem_cons, List.not_mem_nil, or_false] at hf
      rcases hf with rfl | rfl
      · exact ⟨by decide, by simp [Exponent.WellFormed]⟩
      · exact ⟨by decide, by simp⟩
  · intro x
    simp only [demoEqModel, List.mem_append, List.map_cons, List.map_nil, List.mem_cons, List.not_mem_nil,
      or_false]
    constructor
    · rintro (h | h)
      · exact Or.inl h
      · exact Or.inr (Or.inr h)
    · rintro (h | rfl | h)
      · exact Or.inl h
      · exact Or.inl (by decide)
      · exact Or.inr h
  · exact ⟨["conc^3".toList, "eta".toList], by decide, by decide, by decide⟩

/-! ### Where it fails -/

/-- A model with fields `conc` and `eta` and scalars `damp` and `mob` after `eq` has been added. -/
def smallModel (eq : String) : Option (EqModel n) :=
  ((((EqModel.empty.addField "conc".toList).addField "eta".toList).addScalar "damp".toList).addScalar
    "mob".toList).addEquation eq.toList

/-- What is read from a term of the equation. -/
def reading (eq term : String) : Option (Str × Option ℤ × List Str) :=
  (smallModel (n := 1) eq).bind fun m => (concreteTerm term.toList none m).map fun c =>
    (c.field, c.lap, c.scalars.map Prod.fst)

/-- C18: a scalar that comes between the fields in alphabetical order makes the parser lose the fields:
`damp*conc*eta` is evaluated as the number `damp`. -/
theorem c18_scalar_between : reading "dconc/dt=damp*conc*eta" "damp*conc*eta" =
    some ([], none, ["damp".toList]) := by decide +kernel

/-- C18: with a scalar that does not come between them, the product is found. -/
theorem c18_scalar_after : reading "dconc/dt=mob*conc*eta" "mob*conc*eta" =
    some ("conc*eta".toList, none, ["mob".toList]) := by decide +kernel

/-- C18: a Laplacian written in front of a field other than the alphabetically first one makes the
parser lose the fields. -/
theorem c18_attached_laplacian : reading "dconc/dt=conc*LAP eta" "conc*LAPeta" = some ([], some 1, []) ∧
    reading "dconc/dt=eta*LAP conc" "eta*LAPconc" = some ("conc*eta".toList, some 1, []) := by
  decide +kernel

/-- C18: a repeated field is counted once. -/
theorem c18_repeated_field : reading "deta/dt=conc*conc" "conc*conc" = some ("conc".toList, none, []) := by
  decide +kernel

/-- C18: a Laplacian written in front of a scalar removes the scalar. -/
theorem c18_laplacian_of_scalar : reading "deta/dt=LAP mob*conc" "LAPmob*conc" =
    some ("conc".toList, some 1, []) := by decide +kernel

end Gopf.Props
