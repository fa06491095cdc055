import Verif.Props.ThreeFields

/-!
# C166: the Lorenz equations with diffusion
-/

namespace Gopf.Props
open Spec Pf Pfutil

variable {n : ℕ} {dims : List ℕ}

/-- The names of the three fields. -/
def fieldX : Str := "conc".toList
def fieldY : Str := "eta".toList
def fieldU : Str := "phi".toList

/-- Three fields and three numbers. -/
def lorenzNames : Names := ⟨[fieldX, fieldY, fieldU], [], ["prandtl".toList, "rayleigh".toList, "shape".toList]⟩

/-- The model before the equations are added. -/
def lorenzModel (n : ℕ) : EqModel n :=
  ((((((EqModel.empty (n := n)).addScalar "prandtl".toList).addScalar "rayleigh".toList).addScalar "shape".toList).addField
    fieldX).addField fieldY).addField fieldU

def bareItem (x : Str) : Item := ⟨none, some ⟨x, none⟩⟩
def lapItem (x : Str) : Item := ⟨some none, some ⟨x, none⟩⟩

/-- `dconc/dt=LAPconc+prandtl*eta-prandtl*conc` -/
def lorenzX : Equation := ⟨fieldX, none, [lapItem fieldX],
  [('+', [bareItem "prandtl".toList, bareItem fieldY]), ('-', [bareItem "prandtl".toList, bareItem fieldX])]⟩

/-- `deta/dt=LAPeta+rayleigh*conc-eta-conc*phi` -/
def lorenzY : Equation := ⟨fieldY, none, [lapItem fieldY],
  [('+', [bareItem "rayleigh".toList, bareItem fieldX]), ('-', [bareItem fieldY]), ('-', [bareItem fieldX, bareItem fieldU])]⟩

/-- `dphi/dt=LAPphi+conc*eta-shape*phi` -/
def lorenzU : Equation := ⟨fieldU, none, [lapItem fieldU],
  [('+', [bareItem fieldX, bareItem fieldY]), ('-', [bareItem "shape".toList, bareItem fieldU])]⟩

def lorenzEquation : Fin 3 → Equation := ![lorenzX, lorenzY, lorenzU]

def lorenzTexts : List Str := ["dconc/dt = LAP conc + prandtl*eta - prandtl*conc".toList,
  "deta/dt = LAP eta + rayleigh*conc - eta - conc*phi".toList, "dphi/dt = LAP phi + conc*eta - shape*phi".toList]

theorem lorenz_texts : lorenzTexts.map (fun s => s.filter fun c => c ≠ ' ') =
    [lorenzEquation 0, lorenzEquation 1, lorenzEquation 2].map Equation.text := by decide +kernel

theorem lorenz_wellNamed : lorenzNames.WellNamed where
  ident := by
    have : ∀ x ∈ lorenzNames.all, (∀ c ∈ x, c.isAlphanum = true ∨ c = '_') ∧ ∃ c ∈ x.head?, c.isAlpha = true := by
      decide +kernel
    intro x hx
    obtain ⟨h1, c, hc, h2⟩ := this x hx
    cases x with
    | nil => simp at hc
    | cons y x =>
      simp only [List.head?_cons, Option.mem_some_iff] at hc
      subst hc
      exact ⟨⟨y, x, rfl, h2⟩, h1⟩
  nodup := by decide +kernel
  noLap := by decide +kernel
  long := by decide +kernel
  sepLap := by decide +kernel
  sepVarying := by decide +kernel
  sepScalar := by decide +kernel

theorem lorenz_starts : StartsAs lorenzNames (lorenzModel n) := by
  refine ⟨rfl, rfl, fun x => ?_⟩
  simp only [lorenzModel, EqModel.addScalar, EqModel.addField, EqModel.empty, lorenzNames, Names.all, Names.varying]
  simp only [List.mem_append, List.mem_cons, List.not_mem_nil, or_false, List.nil_append]
  tauto

theorem lorenz_noLA : ∀ x ∈ lorenzNames.all, ¬ ['L', 'A'] <:+: x ∨ x = "INTERPOLANT".toList := by decide +kernel

theorem lorenz_bare {x : Str} (hx : x ∈ lorenzNames.all) : Item.WellFormed lorenzNames (bareItem x) :=
  ⟨by simp [bareItem], by simp [bareItem], by simp [bareItem], by
    intro f hf
    obtain rfl : (⟨x, none⟩ : Factor) = f := by simpa [bareItem] using hf
    exact hx, by simp [bareItem]⟩

theorem lorenz_lap {x : Str} (hx : x ∈ lorenzNames.all ∧ x ∈ lorenzNames.varying ∧ x.head? ≠ some 'A' ∧ x.head? ≠ some 'P') :
    Item.WellFormed lorenzNames (lapItem x) :=
  ⟨by simp [lapItem], by simp [lapItem], by simp [lapItem], by
    intro f hf
    obtain rfl : (⟨x, none⟩ : Factor) = f := by simpa [lapItem] using hf
    exact hx.1, by
    intro f hf _
    obtain rfl : (⟨x, none⟩ : Factor) = f := by simpa [lapItem] using hf
    exact hx.2⟩

theorem lorenz_monomial_of {items : List Item} (hw : ∀ i ∈ items, i.WellFormed lorenzNames) (h1 : (laplacians items).length ≤ 1)
    (h2 : ∀ i ∈ items.dropLast, ∀ f ∈ i.fac, f.name ≠ "INTERPOLANT".toList)
    (pre V post : List Item) (h3 : (pre ++ (V ++ post)).Perm items)
    (h4 : ((pre ++ (V ++ post)).map Item.text).Pairwise (· ≤ ·))
    (h5 : ∀ i ∈ pre ++ post, ∀ f ∈ i.fac, f.name ∉ lorenzNames.varying)
    (h6 : ∀ i ∈ V, ∃ f ∈ i.fac, f.name ∈ lorenzNames.varying) (h7 : ∀ i ∈ V.tail, i.lap = none)
    (h8 : (V.map fun i => facText i.fac).Pairwise (· ≤ ·)) (h9 : ∀ g ∈ lorenzNames.fields, (occurrences g items).length ≤ 1)
    (h10 : factorsIn lorenzNames.functions items = [] ∧ factorsIn lorenzNames.fields items ≠ [])
    (h11 : ∀ i ∈ items, ∀ f ∈ i.fac, f.exp = none) : Monomial lorenzNames items where
  readable :=
    { wf := hw
      oneLap := h1
      lapFirst := lapFirst_of lorenz_noLA hw h2
      together := ⟨pre, V, post, h3, h4, h5, h6, h7, h8⟩ }
  once := h9
  kind := Or.inl h10
  exactOne := by
    intro f hf _
    obtain ⟨i, h1, h2⟩ := List.mem_filterMap.mp (List.mem_filter.mp hf).1
    simp [Factor.power, h11 i h1 f h2]

theorem lorenz_monomial_one {i : Item} (hw : i.WellFormed lorenzNames) (h : i = lapItem fieldX ∨ i = lapItem fieldY ∨
    i = lapItem fieldU ∨ i = bareItem fieldY) : Monomial lorenzNames [i] := by
  have hw' : ∀ j ∈ [i], j.WellFormed lorenzNames := by simpa using hw
  rcases h with rfl | rfl | rfl | rfl
  · exact lorenz_monomial_of hw' (by decide +kernel) (by decide +kernel) [] [lapItem fieldX] [] (by decide +kernel)
      (by decide +kernel) (by decide +kernel) (by decide +kernel) (by decide +kernel) (by decide +kernel) (by decide +kernel)
      (by decide +kernel) (by decide +kernel)
  · exact lorenz_monomial_of hw' (by decide +kernel) (by decide +kernel) [] [lapItem fieldY] [] (by decide +kernel)
      (by decide +kernel) (by decide +kernel) (by decide +kernel) (by decide +kernel) (by decide +kernel) (by decide +kernel)
      (by decide +kernel) (by decide +kernel)
  · exact lorenz_monomial_of hw' (by decide +kernel) (by decide +kernel) [] [lapItem fieldU] [] (by decide +kernel)
      (by decide +kernel) (by decide +kernel) (by decide +kernel) (by decide +kernel) (by decide +kernel) (by decide +kernel)
      (by decide +kernel) (by decide +kernel)
  · exact lorenz_monomial_of hw' (by decide +kernel) (by decide +kernel) [] [bareItem fieldY] [] (by decide +kernel)
      (by decide +kernel) (by decide +kernel) (by decide +kernel) (by decide +kernel) (by decide +kernel) (by decide +kernel)
      (by decide +kernel) (by decide +kernel)

theorem lorenz_pair_wf {x y : Str} (hx : x ∈ lorenzNames.all) (hy : y ∈ lorenzNames.all) :
    ∀ i ∈ [bareItem x, bareItem y], i.WellFormed lorenzNames := by
  intro i hi
  rcases List.mem_cons.mp hi with rfl | hi
  · exact lorenz_bare hx
  · obtain rfl := List.mem_singleton.mp hi
    exact lorenz_bare hy

theorem monomial_pushY : Monomial lorenzNames [bareItem "prandtl".toList, bareItem fieldY] :=
  lorenz_monomial_of (lorenz_pair_wf (by decide +kernel) (by decide +kernel)) (by decide +kernel) (by decide +kernel)
    [] [bareItem fieldY] [bareItem "prandtl".toList] (by decide +kernel)
    (by decide +kernel) (by decide +kernel) (by decide +kernel) (by decide +kernel) (by decide +kernel) (by decide +kernel)
    (by decide +kernel) (by decide +kernel)

theorem monomial_pushX : Monomial lorenzNames [bareItem "prandtl".toList, bareItem fieldX] :=
  lorenz_monomial_of (lorenz_pair_wf (by decide +kernel) (by decide +kernel)) (by decide +kernel) (by decide +kernel)
    [] [bareItem fieldX] [bareItem "prandtl".toList] (by decide +kernel)
    (by decide +kernel) (by decide +kernel) (by decide +kernel) (by decide +kernel) (by decide +kernel) (by decide +kernel)
    (by decide +kernel) (by decide +kernel)

theorem monomial_heat : Monomial lorenzNames [bareItem "rayleigh".toList, bareItem fieldX] :=
  lorenz_monomial_of (lorenz_pair_wf (by decide +kernel) (by decide +kernel)) (by decide +kernel) (by decide +kernel)
    [] [bareItem fieldX] [bareItem "rayleigh".toList] (by decide +kernel)
    (by decide +kernel) (by decide +kernel) (by decide +kernel) (by decide +kernel) (by decide +kernel) (by decide +kernel)
    (by decide +kernel) (by decide +kernel)

theorem monomial_shape : Monomial lorenzNames [bareItem "shape".toList, bareItem fieldU] :=
  lorenz_monomial_of (lorenz_pair_wf (by decide +kernel) (by decide +kernel)) (by decide +kernel) (by decide +kernel)
    [] [bareItem fieldU] [bareItem "shape".toList] (by decide +kernel)
    (by decide +kernel) (by decide +kernel) (by decide +kernel) (by decide +kernel) (by decide +kernel) (by decide +kernel)
    (by decide +kernel) (by decide +kernel)

theorem monomial_xu : Monomial lorenzNames [bareItem fieldX, bareItem fieldU] :=
  lorenz_monomial_of (lorenz_pair_wf (by decide +kernel) (by decide +kernel)) (by decide +kernel) (by decide +kernel)
    [] [bareItem fieldX, bareItem fieldU] [] (by decide +kernel)
    (by decide +kernel) (by decide +kernel) (by decide +kernel) (by decide +kernel) (by decide +kernel) (by decide +kernel)
    (by decide +kernel) (by decide +kernel)

theorem monomial_xy : Monomial lorenzNames [bareItem fieldX, bareItem fieldY] :=
  lorenz_monomial_of (lorenz_pair_wf (by decide +kernel) (by decide +kernel)) (by decide +kernel) (by decide +kernel)
    [] [bareItem fieldX, bareItem fieldY] [] (by decide +kernel)
    (by decide +kernel) (by decide +kernel) (by decide +kernel) (by decide +kernel) (by decide +kernel) (by decide +kernel)
    (by decide +kernel) (by decide +kernel)

theorem lorenzX_terms : lorenzX.terms = [([lapItem fieldX], none), ([bareItem "prandtl".toList, bareItem fieldY], some '+'),
    ([bareItem "prandtl".toList, bareItem fieldX], some '-')] := rfl
theorem lorenzY_terms : lorenzY.terms = [([lapItem fieldY], none), ([bareItem "rayleigh".toList, bareItem fieldX], some '+'),
    ([bareItem fieldY], some '-'), ([bareItem fieldX, bareItem fieldU], some '-')] := rfl
theorem lorenzU_terms : lorenzU.terms = [([lapItem fieldU], none), ([bareItem fieldX, bareItem fieldY], some '+'),
    ([bareItem "shape".toList, bareItem fieldU], some '-')] := rfl

theorem lorenz_all {P : Equation → Prop} (h1 : P lorenzX) (h2 : P lorenzY) (h3 : P lorenzU) :
    ∀ eq ∈ [lorenzEquation 0, lorenzEquation 1, lorenzEquation 2], P eq := by
  intro eq heq
  simp only [List.mem_cons, List.not_mem_nil, or_false] at heq
  rcases heq with rfl | rfl | rfl
  · exact h1
  · exact h2
  · exact h3

theorem lorenz_polynomial : ∀ eq ∈ [lorenzEquation 0, lorenzEquation 1, lorenzEquation 2], Equation.Polynomial lorenzNames eq := by
  refine lorenz_all ⟨by decide +kernel, by decide +kernel, by decide +kernel, ?_⟩
    ⟨by decide +kernel, by decide +kernel, by decide +kernel, ?_⟩ ⟨by decide +kernel, by decide +kernel, by decide +kernel, ?_⟩
  · intro p hp
    rw [lorenzX_terms] at hp
    simp only [List.mem_cons, List.not_mem_nil, or_false] at hp
    rcases hp with rfl | rfl | rfl
    · exact lorenz_monomial_one (lorenz_lap (by decide +kernel)) (Or.inl rfl)
    · exact monomial_pushY
    · exact monomial_pushX
  · intro p hp
    rw [lorenzY_terms] at hp
    simp only [List.mem_cons, List.not_mem_nil, or_false] at hp
    rcases hp with rfl | rfl | rfl | rfl
    · exact lorenz_monomial_one (lorenz_lap (by decide +kernel)) (Or.inr (Or.inl rfl))
    · exact monomial_heat
    · exact lorenz_monomial_one (lorenz_bare (by decide +kernel)) (Or.inr (Or.inr (Or.inr rfl)))
    · exact monomial_xu
  · intro p hp
    rw [lorenzU_terms] at hp
    simp only [List.mem_cons, List.not_mem_nil, or_false] at hp
    rcases hp with rfl | rfl | rfl
    · exact lorenz_monomial_one (lorenz_lap (by decide +kernel)) (Or.inr (Or.inr (Or.inl rfl)))
    · exact monomial_xy
    · exact monomial_shape

theorem lorenz_noExp : ∀ eq ∈ [lorenzX, lorenzY, lorenzU], ∀ p ∈ eq.terms,
    (∀ g ∈ factorsIn lorenzNames.varying p.1, g.exp = none) ∧ (∀ g ∈ factorsIn lorenzNames.fields p.1, g.exp = none) ∧
    ∀ g ∈ factorsIn lorenzNames.scalars p.1, g.exp = none ∧ g.name ∈ lorenzNames.scalars := by decide +kernel

theorem noExp_power {g : Factor} (h : g.exp = none) : g.power = 1 := by
  simp [Factor.power, h]

theorem lorenz_whole : ∀ eq ∈ [lorenzEquation 0, lorenzEquation 1, lorenzEquation 2], ∀ p ∈ eq.terms,
    ∀ g ∈ factorsIn lorenzNames.varying p.1, ∃ q : ℕ, g.power = q := by
  intro eq he p hp g hg
  exact ⟨1, by rw [noExp_power ((lorenz_noExp eq he p hp).1 g hg)]; norm_num⟩

section
variable {c : Str → ℂ} {σ ρ β : ℝ} (c1 : c "prandtl".toList = σ) (c2 : c "rayleigh".toList = ρ) (c3 : c "shape".toList = β)
include c1 c2 c3

theorem lorenz_real : ∀ x ∈ lorenzNames.scalars, (c x).im = 0 := by
  intro x hx
  rcases List.mem_cons.mp hx with rfl | hx
  · rw [c1, Complex.ofReal_im]
  · rcases List.mem_cons.mp hx with rfl | hx
    · rw [c2, Complex.ofReal_im]
    · obtain rfl := List.mem_singleton.mp hx
      rw [c3, Complex.ofReal_im]

theorem lorenz_realPowers : ∀ eq ∈ [lorenzEquation 0, lorenzEquation 1, lorenzEquation 2], Equation.RealPowers lorenzNames c eq := by
  intro eq he p hp
  obtain ⟨-, h2, h3⟩ := lorenz_noExp eq he p hp
  refine ⟨fun f hf => ?_, fun f hf => ⟨lorenz_real c1 c2 c3 _ (h3 f hf).2, Or.inr ?_⟩⟩
  · rw [noExp_power (h2 f hf)]
    rfl
  · rw [noExp_power (h3 f hf).1]
    rfl

end

theorem lorenz_factors : factorsIn lorenzNames.varying [lapItem fieldX] = [⟨fieldX, none⟩] ∧
    factorsIn lorenzNames.varying [lapItem fieldY] = [⟨fieldY, none⟩] ∧
    factorsIn lorenzNames.varying [lapItem fieldU] = [⟨fieldU, none⟩] ∧
    factorsIn lorenzNames.varying [bareItem "prandtl".toList, bareItem fieldY] = [⟨fieldY, none⟩] ∧
    factorsIn lorenzNames.varying [bareItem "prandtl".toList, bareItem fieldX] = [⟨fieldX, none⟩] ∧
    factorsIn lorenzNames.varying [bareItem "rayleigh".toList, bareItem fieldX] = [⟨fieldX, none⟩] ∧
    factorsIn lorenzNames.varying [bareItem fieldY] = [⟨fieldY, none⟩] ∧
    factorsIn lorenzNames.varying [bareItem fieldX, bareItem fieldU] = [⟨fieldX, none⟩, ⟨fieldU, none⟩] ∧
    factorsIn lorenzNames.varying [bareItem fieldX, bareItem fieldY] = [⟨fieldX, none⟩, ⟨fieldY, none⟩] ∧
    factorsIn lorenzNames.varying [bareItem "shape".toList, bareItem fieldU] = [⟨fieldU, none⟩] := by decide +kernel

theorem lorenz_scalars : factorsIn lorenzNames.scalars [lapItem fieldX] = [] ∧
    factorsIn lorenzNames.scalars [lapItem fieldY] = [] ∧
    factorsIn lorenzNames.scalars [lapItem fieldU] = [] ∧
    factorsIn lorenzNames.scalars [bareItem "prandtl".toList, bareItem fieldY] = [⟨"prandtl".toList, none⟩] ∧
    factorsIn lorenzNames.scalars [bareItem "prandtl".toList, bareItem fieldX] = [⟨"prandtl".toList, none⟩] ∧
    factorsIn lorenzNames.scalars [bareItem "rayleigh".toList, bareItem fieldX] = [⟨"rayleigh".toList, none⟩] ∧
    factorsIn lorenzNames.scalars [bareItem fieldY] = [] ∧
    factorsIn lorenzNames.scalars [bareItem fieldX, bareItem fieldU] = [] ∧
    factorsIn lorenzNames.scalars [bareItem fieldX, bareItem fieldY] = [] ∧
    factorsIn lorenzNames.scalars [bareItem "shape".toList, bareItem fieldU] = [⟨"shape".toList, none⟩] := by decide +kernel

theorem laps_lap (x : Str) : (laplacians [lapItem x]).sum = 1 := rfl
theorem laps_bare (x : Str) : (laplacians [bareItem x]).sum = 0 := rfl
theorem laps_pair (x y : Str) : (laplacians [bareItem x, bareItem y]).sum = 0 := rfl

/-- The coefficient of a product without powers. -/
theorem coefficient_of {c : Str → ℂ} {items : List Item} {o : Option Char} {a : ℤ} (ha : signOf o = a) :
    (factorsIn lorenzNames.scalars items = [] → coefficient lorenzNames c (items, o) = a) ∧
    ∀ x, factorsIn lorenzNames.scalars items = [⟨x, none⟩] → coefficient lorenzNames c (items, o) = a * c x := by
  refine ⟨fun h => ?_, fun x h => ?_⟩
  · unfold coefficient
    dsimp only
    rw [h, ha]
    simp
  · unfold coefficient
    dsimp only
    rw [h, ha]
    simp only [List.map_cons, List.map_nil, List.prod_cons, List.prod_nil, bare_power]
    simp

theorem sign_plus : signOf (some '+') = 1 := by decide
theorem sign_minus : signOf (some '-') = -1 := by decide
theorem sign_none : signOf none = 1 := by decide

section
variable {c : Str → ℂ} {σ ρ β : ℝ} (c1 : c "prandtl".toList = σ) (c2 : c "rayleigh".toList = ρ) (c3 : c "shape".toList = β)

include c1 in
theorem lorenzX_sum (F : List Factor → ℂ) (G : ℂ → ℂ) : (lorenzX.terms.map fun p : List Item × Option Char =>
      if (laplacians p.1).sum = 0 then coefficient lorenzNames c p * F (factorsIn lorenzNames.varying p.1) else
        G (coefficient lorenzNames c p)).sum =
    G 1 + σ * F [⟨fieldY, none⟩] - σ * F [⟨fieldX, none⟩] := by
  obtain ⟨v1, v2, v3, v4, v5, v6, v7, v8, v9, v10⟩ := lorenz_factors
  obtain ⟨s1, s2, s3, s4, s5, s6, s7, s8, s9, s10⟩ := lorenz_scalars
  rw [lorenzX_terms]
  simp only [List.map_cons, List.map_nil, List.sum_cons, List.sum_nil, laps_lap, laps_pair, v1, v4, v5,
    (coefficient_of sign_none).1 s1, (coefficient_of sign_plus).2 _ s4, (coefficient_of sign_minus).2 _ s5, c1]
  push_cast
  ring

include c2 in
theorem lorenzY_sum (F : List Factor → ℂ) (G : ℂ → ℂ) : (lorenzY.terms.map fun p : List Item × Option Char =>
      if (laplacians p.1).sum = 0 then coefficient lorenzNames c p * F (factorsIn lorenzNames.varying p.1) else
        G (coefficient lorenzNames c p)).sum =
    G 1 + ρ * F [⟨fieldX, none⟩] - F [⟨fieldY, none⟩] - F [⟨fieldX, none⟩, ⟨fieldU, none⟩] := by
  obtain ⟨v1, v2, v3, v4, v5, v6, v7, v8, v9, v10⟩ := lorenz_factors
  obtain ⟨s1, s2, s3, s4, s5, s6, s7, s8, s9, s10⟩ := lorenz_scalars
  rw [lorenzY_terms]
  simp only [List.map_cons, List.map_nil, List.sum_cons, List.sum_nil, laps_lap, laps_pair, laps_bare, v2, v6, v7, v8,
    (coefficient_of sign_none).1 s2, (coefficient_of sign_plus).2 _ s6, (coefficient_of sign_minus).1 s7,
    (coefficient_of sign_minus).1 s8, c2]
  push_cast
  ring

include c3 in
theorem lorenzU_sum (F : List Factor → ℂ) (G : ℂ → ℂ) : (lorenzU.terms.map fun p : List Item × Option Char =>
      if (laplacians p.1).sum = 0 then coefficient lorenzNames c p * F (factorsIn lorenzNames.varying p.1) else
        G (coefficient lorenzNames c p)).sum =
    G 1 + F [⟨fieldX, none⟩, ⟨fieldY, none⟩] - β * F [⟨fieldU, none⟩] := by
  obtain ⟨v1, v2, v3, v4, v5, v6, v7, v8, v9, v10⟩ := lorenz_factors
  obtain ⟨s1, s2, s3, s4, s5, s6, s7, s8, s9, s10⟩ := lorenz_scalars
  rw [lorenzU_terms]
  simp only [List.map_cons, List.map_nil, List.sum_cons, List.sum_nil, laps_lap, laps_pair, v3, v9, v10,
    (coefficient_of sign_none).1 s3, (coefficient_of sign_plus).1 s9, (coefficient_of sign_minus).2 _ s10, c3]
  push_cast
  ring

theorem lorenz_rates (z : Str → ℂ) (f : Str) :
    (c "prandtl".toList = σ → reactionRate lorenzNames c lorenzX z f =
      σ * (Pi.single f 1 : Str → ℂ) fieldY - σ * (Pi.single f 1 : Str → ℂ) fieldX) ∧
    (c "rayleigh".toList = ρ → reactionRate lorenzNames c lorenzY z f =
      ρ * (Pi.single f 1 : Str → ℂ) fieldX - (Pi.single f 1 : Str → ℂ) fieldY -
        ((Pi.single f 1 : Str → ℂ) fieldX * z fieldU + z fieldX * (Pi.single f 1 : Str → ℂ) fieldU)) ∧
    (c "shape".toList = β → reactionRate lorenzNames c lorenzU z f =
      (Pi.single f 1 : Str → ℂ) fieldX * z fieldY + z fieldX * (Pi.single f 1 : Str → ℂ) fieldY -
        β * (Pi.single f 1 : Str → ℂ) fieldU) := by
  unfold reactionRate
  refine ⟨fun hc => ?_, fun hc => ?_, fun hc => ?_⟩
  · rw [lorenzX_sum hc (fun fs => productSlope fs z (Pi.single f 1)) fun _ => 0]
    simp only [slope_bare]
    ring
  · rw [lorenzY_sum hc (fun fs => productSlope fs z (Pi.single f 1)) fun _ => 0]
    simp only [slope_bare, slope_pair]
    ring
  · rw [lorenzU_sum hc (fun fs => productSlope fs z (Pi.single f 1)) fun _ => 0]
    simp only [slope_bare, slope_pair]
    ring

theorem lorenz_diffusing : ∀ eq ∈ [lorenzEquation 0, lorenzEquation 1, lorenzEquation 2], Diffusing lorenzNames eq := by
  have : ∀ eq ∈ [lorenzX, lorenzY, lorenzU], ∀ p ∈ eq.terms, (laplacians p.1).sum = 0 ∨
      (laplacians p.1).sum = 1 ∧ factorsIn lorenzNames.varying p.1 = [⟨eq.field, none⟩] := by decide +kernel
  exact this

include c1 c2 c3

theorem lorenz_diffusivity : ∀ eq ∈ [lorenzEquation 0, lorenzEquation 1, lorenzEquation 2], diffusivity lorenzNames c eq = (1 : ℝ) := by
  have e : ∀ eq, diffusivity lorenzNames c eq = (eq.terms.map fun p : List Item × Option Char =>
      if (laplacians p.1).sum = 0 then coefficient lorenzNames c p * (fun _ => 0 : List Factor → ℂ) (factorsIn lorenzNames.varying p.1)
        else (fun x => x : ℂ → ℂ) (coefficient lorenzNames c p)).sum := by
    intro eq
    unfold diffusivity
    simp only [mul_zero]
  refine lorenz_all ?_ ?_ ?_
  · refine (e _).trans ((lorenzX_sum c1 (fun _ => 0) fun x => x).trans ?_)
    simp
  · refine (e _).trans ((lorenzY_sum c2 (fun _ => 0) fun x => x).trans ?_)
    simp
  · refine (e _).trans ((lorenzU_sum c3 (fun _ => 0) fun x => x).trans ?_)
    simp

theorem lorenz_rests {z : Str → ℂ} (hx : σ * (z fieldY - z fieldX) = 0)
    (hy : ρ * z fieldX - z fieldY - z fieldX * z fieldU = 0) (hu : z fieldX * z fieldY - β * z fieldU = 0) :
    ∀ eq ∈ [lorenzEquation 0, lorenzEquation 1, lorenzEquation 2], uniformSystemRate lorenzNames c eq z = 0 := by
  unfold uniformSystemRate
  refine lorenz_all ?_ ?_ ?_
  · rw [lorenzX_sum c1 (fun fs => (fs.map fun f => z f.name ^ ((f.power : ℚ) : ℂ)).prod) fun _ => 0]
    simp only [List.map_cons, List.map_nil, List.prod_cons, List.prod_nil, bare_power, Rat.cast_one, Complex.cpow_one]
    linear_combination hx
  · rw [lorenzY_sum c2 (fun fs => (fs.map fun f => z f.name ^ ((f.power : ℚ) : ℂ)).prod) fun _ => 0]
    simp only [List.map_cons, List.map_nil, List.prod_cons, List.prod_nil, bare_power, Rat.cast_one, Complex.cpow_one]
    linear_combination hy
  · rw [lorenzU_sum c3 (fun fs => (fs.map fun f => z f.name ^ ((f.power : ℚ) : ℂ)).prod) fun _ => 0]
    simp only [List.map_cons, List.map_nil, List.prod_cons, List.prod_nil, bare_power, Rat.cast_one, Complex.cpow_one]
    linear_combination hu

omit c1 c2 c3 in
/-- The derivatives of the three rates. -/
def lorenzJacobian (σ ρ β x y u : ℝ) : Matrix (Fin 3) (Fin 3) ℝ := !![-σ, σ, 0; ρ - u, -1, -x; y, x, -β]

theorem lorenz_jacobian {z : Str → ℂ} {x y u : ℝ} (hx : z fieldX = x) (hy : z fieldY = y) (hu : z fieldU = u) (i j : Fin 3) :
    reactionRate lorenzNames c (lorenzEquation i) z (lorenzEquation j).field = lorenzJacobian σ ρ β x y u i j := by
  have nXY : fieldX ≠ fieldY := by decide
  have nXU : fieldX ≠ fieldU := by decide
  have nYU : fieldY ≠ fieldU := by decide
  have e0 : lorenzEquation 0 = lorenzX := rfl
  have e1 : lorenzEquation 1 = lorenzY := rfl
  have e2 : lorenzEquation 2 = lorenzU := rfl
  have f0 : lorenzX.field = fieldX := rfl
  have f1 : lorenzY.field = fieldY := rfl
  have f2 : lorenzU.field = fieldU := rfl
  have r0 := fun f => (lorenz_rates (c := c) (σ := σ) (ρ := ρ) (β := β) z f).1 c1
  have r1 := fun f => (lorenz_rates (c := c) (σ := σ) (ρ := ρ) (β := β) z f).2.1 c2
  have r2 := fun f => (lorenz_rates (c := c) (σ := σ) (ρ := ρ) (β := β) z f).2.2 c3
  fin_cases i <;> fin_cases j <;>
    simp [e0, e1, e2, f0, f1, f2, r0, r1, r2, hx, hy, hu, lorenzJacobian, Pi.single_apply, nXY, nXU, nYU, nXY.symm, nXU.symm, nYU.symm]

end

theorem lorenz_trace (σ ρ β x y u : ℝ) : (lorenzJacobian σ ρ β x y u).trace = -(σ + 1 + β) := by
  rw [Matrix.trace_fin_three]
  simp [lorenzJacobian]
  ring

theorem lorenz_minors (σ ρ β x y u : ℝ) : Proofs.minors (lorenzJacobian σ ρ β x y u) = σ * (1 - (ρ - u)) + σ * β + β + x ^ 2 := by
  unfold Proofs.minors
  simp [lorenzJacobian]
  ring

theorem lorenz_det (σ ρ β x y u : ℝ) : (lorenzJacobian σ ρ β x y u).det = -σ * (β + x ^ 2) + σ * (β * (ρ - u) - x * y) := by
  rw [Matrix.det_fin_three]
  simp [lorenzJacobian]
  ring

section
variable (h : GoodDims (intDims dims)) (hl : LayoutOk dims) {c : Str → ℂ} {σ ρ β : ℝ} (c1 : c "prandtl".toList = σ)
  (c2 : c "rayleigh".toList = ρ) (c3 : c "shape".toList = β)
include h c1 c2 c3

theorem lorenz_settles {z : Str → ℂ} {x y u : ℝ} (hx : z fieldX = x) (hy : z fieldY = y) (hu : z fieldU = u)
    (ex : σ * (y - x) = 0) (ey : ρ * x - y - x * u = 0) (eu : x * y - β * u = 0) (hd : Decaying (lorenzJacobian σ ρ β x y u)) :
    ∃ (m : EqModel dims.prod) (M : Model m.fields.length m.derived.length dims.prod),
      lorenzTexts.foldlM EqModel.addEquation (lorenzModel dims.prod) = some m ∧ m.assemble c = some M ∧
      ∃ dt0 : ℝ, 0 < dt0 ∧ ∀ s : Stepper dims.prod, s.filter = none → s.freq = freqOf dims → 0 < s.dt → s.dt < dt0 →
        DiesOut M s (fun i => z m.fields[i]) ∧ DiesOutRungeKutta M s fun i => z m.fields[i] := by
  obtain ⟨m, M, a1, a2, a3, a4⟩ := c166_alike h lorenzNames lorenz_wellNamed rfl (lorenzModel dims.prod) lorenz_starts rfl
    lorenzEquation (fun eq he => ⟨lorenz_polynomial eq he, fun _ _ => ⟨rfl, rfl⟩⟩) lorenz_whole lorenzTexts lorenz_texts rfl c
  refine ⟨m, M, a1, a3, a4 z (lorenz_rests c1 c2 c3 ?_ ?_ ?_) 1 zero_le_one
    (fun eq he => ⟨lorenz_diffusing eq he, lorenz_diffusivity c1 c2 c3 eq he⟩) _ (lorenz_jacobian c1 c2 c3 hx hy hu) hd⟩
  · rw [hx, hy]
    exact_mod_cast ex
  · rw [hx, hy, hu]
    exact_mod_cast ey
  · rw [hx, hy, hu]
    exact_mod_cast eu

include hl in
theorem lorenz_leaves {z : Str → ℂ} {x y u : ℝ} (hx : z fieldX = x) (hy : z fieldY = y) (hu : z fieldU = u)
    (ex : σ * (y - x) = 0) (ey : ρ * x - y - x * u = 0) (eu : x * y - β * u = 0) (hd : Growing (lorenzJacobian σ ρ β x y u)) :
    ∃ (m : EqModel dims.prod) (M : Model m.fields.length m.derived.length dims.prod),
      lorenzTexts.foldlM EqModel.addEquation (lorenzModel dims.prod) = some m ∧ m.assemble c = some M ∧
      ∃ dt0 : ℝ, 0 < dt0 ∧ ∀ s : Stepper dims.prod, s.filter = none → s.freq = freqOf dims → 0 < s.dt → s.dt < dt0 →
        GoesAway M s (fun i => z m.fields[i]) ∧ GoesAwayRungeKutta M s fun i => z m.fields[i] := by
  obtain ⟨m, M, a1, a2, a3, a4⟩ := c166_reaction h hl lorenzNames lorenz_wellNamed rfl (lorenzModel dims.prod) lorenz_starts rfl
    lorenzEquation (fun eq he => ⟨lorenz_polynomial eq he, fun _ _ => ⟨rfl, rfl⟩⟩) lorenz_whole lorenzTexts lorenz_texts rfl c
    (lorenz_real c1 c2 c3) (lorenz_realPowers c1 c2 c3)
  refine ⟨m, M, a1, a3, a4 z (lorenz_rests c1 c2 c3 ?_ ?_ ?_) ?_ _ (lorenz_jacobian c1 c2 c3 hx hy hu) hd⟩
  · rw [hx, hy]
    exact_mod_cast ex
  · rw [hx, hy, hu]
    exact_mod_cast ey
  · rw [hx, hy, hu]
    exact_mod_cast eu
  · intro f hf
    rcases List.mem_cons.mp hf with rfl | hf
    · rw [hx, Complex.ofReal_im]
    · rcases List.mem_cons.mp hf with rfl | hf
      · rw [hy, Complex.ofReal_im]
      · obtain rfl := List.mem_singleton.mp hf
        rw [hu, Complex.ofReal_im]

/-- C166: the fluid of the Lorenz equations at rest stays at rest below the critical Rayleigh number. -/
theorem c166_lorenz_rest (hσ : 0 < σ) (hβ : 0 < β) (hρ : ρ < 1) :
    ∃ (m : EqModel dims.prod) (M : Model m.fields.length m.derived.length dims.prod),
      ["dconc/dt = LAP conc + prandtl*eta - prandtl*conc".toList, "deta/dt = LAP eta + rayleigh*conc - eta - conc*phi".toList,
        "dphi/dt = LAP phi + conc*eta - shape*phi".toList].foldlM EqModel.addEquation (lorenzModel dims.prod) = some m ∧
      m.assemble c = some M ∧
      ∃ dt0 : ℝ, 0 < dt0 ∧ ∀ s : Stepper dims.prod, s.filter = none → s.freq = freqOf dims → 0 < s.dt → s.dt < dt0 →
        DiesOut M s (fun _ => 0) ∧ DiesOutRungeKutta M s fun _ => 0 := by
  refine lorenz_settles h c1 c2 c3 (z := fun _ => 0) (x := 0) (y := 0) (u := 0) (by simp) (by simp) (by simp) (by ring) (by ring)
    (by ring) ⟨?_, ?_, ?_⟩
  · rw [lorenz_trace]
    linarith
  · rw [lorenz_det]
    have := mul_pos (mul_pos hσ hβ) (sub_pos.mpr hρ)
    linarith
  · rw [lorenz_trace, lorenz_minors, lorenz_det]
    have h1 := mul_pos hσ (sub_pos.mpr hρ)
    have h2 := mul_pos hσ hβ
    have h3 : 0 < (σ + 1) * (σ * (1 - ρ) + σ * β + β) := by positivity
    have h4 : 0 < β * (σ * β + β) := by positivity
    linarith

include hl in
/-- C166: above it some real perturbations leave. -/
theorem c166_lorenz_onset (hσ : 0 < σ) (hβ : 0 < β) (hρ : 1 < ρ) :
    ∃ (m : EqModel dims.prod) (M : Model m.fields.length m.derived.length dims.prod),
      ["dconc/dt = LAP conc + prandtl*eta - prandtl*conc".toList, "deta/dt = LAP eta + rayleigh*conc - eta - conc*phi".toList,
        "dphi/dt = LAP phi + conc*eta - shape*phi".toList].foldlM EqModel.addEquation (lorenzModel dims.prod) = some m ∧
      m.assemble c = some M ∧
      ∃ dt0 : ℝ, 0 < dt0 ∧ ∀ s : Stepper dims.prod, s.filter = none → s.freq = freqOf dims → 0 < s.dt → s.dt < dt0 →
        GoesAway M s (fun _ => 0) ∧ GoesAwayRungeKutta M s fun _ => 0 := by
  refine lorenz_leaves h hl c1 c2 c3 (z := fun _ => 0) (x := 0) (y := 0) (u := 0) (by simp) (by simp) (by simp) (by ring) (by ring)
    (by ring) (Or.inr (Or.inl ?_))
  rw [lorenz_det]
  have := mul_pos (mul_pos hσ hβ) (sub_pos.mpr hρ)
  linarith

/-- C166: the two states of steady convection are stable while `2σ(ρ - 1) < (σ + β + 1)(σ + ρ)`. -/
theorem c166_lorenz_convection (hσ : 0 < σ) (hβ : 0 < β) (hρ : 1 < ρ) (hH : 2 * σ * (ρ - 1) < (σ + β + 1) * (σ + ρ))
    {x : ℝ} (hx : x ^ 2 = β * (ρ - 1)) {z : Str → ℂ} (z1 : z "conc".toList = x) (z2 : z "eta".toList = x)
    (z3 : z "phi".toList = ρ - 1) :
    ∃ (m : EqModel dims.prod) (M : Model m.fields.length m.derived.length dims.prod),
      ["dconc/dt = LAP conc + prandtl*eta - prandtl*conc".toList, "deta/dt = LAP eta + rayleigh*conc - eta - conc*phi".toList,
        "dphi/dt = LAP phi + conc*eta - shape*phi".toList].foldlM EqModel.addEquation (lorenzModel dims.prod) = some m ∧
      m.assemble c = some M ∧
      ∃ dt0 : ℝ, 0 < dt0 ∧ ∀ s : Stepper dims.prod, s.filter = none → s.freq = freqOf dims → 0 < s.dt → s.dt < dt0 →
        DiesOut M s (fun i => z m.fields[i]) ∧ DiesOutRungeKutta M s fun i => z m.fields[i] := by
  refine lorenz_settles h c1 c2 c3 (x := x) (y := x) (u := ρ - 1) z1 z2 (z3.trans (by push_cast; ring)) (by ring) (by ring)
    (by linear_combination hx) ⟨?_, ?_, ?_⟩
  · rw [lorenz_trace]
    linarith
  · have e : (lorenzJacobian σ ρ β x x (ρ - 1)).det = -(2 * (σ * (β * (ρ - 1)))) := by
      rw [lorenz_det]
      linear_combination -2 * σ * hx
    rw [e]
    have := mul_pos hσ (mul_pos hβ (sub_pos.mpr hρ))
    linarith
  · have e : (lorenzJacobian σ ρ β x x (ρ - 1)).trace * Proofs.minors (lorenzJacobian σ ρ β x x (ρ - 1)) -
        (lorenzJacobian σ ρ β x x (ρ - 1)).det = β * (2 * σ * (ρ - 1) - (σ + β + 1) * (σ + ρ)) := by
      rw [lorenz_trace, lorenz_minors, lorenz_det]
      linear_combination (-(σ + 1 + β) + 2 * σ) * hx
    have := mul_neg_of_pos_of_neg hβ (sub_neg.mpr hH)
    linarith

include hl in
/-- C166: beyond that bound some real perturbations of steady convection leave. -/
theorem c166_lorenz_unsteady (hβ : 0 < β) (hH : (σ + β + 1) * (σ + ρ) < 2 * σ * (ρ - 1))
    {x : ℝ} (hx : x ^ 2 = β * (ρ - 1)) {z : Str → ℂ} (z1 : z "conc".toList = x) (z2 : z "eta".toList = x)
    (z3 : z "phi".toList = ρ - 1) :
    ∃ (m : EqModel dims.prod) (M : Model m.fields.length m.derived.length dims.prod),
      ["dconc/dt = LAP conc + prandtl*eta - prandtl*conc".toList, "deta/dt = LAP eta + rayleigh*conc - eta - conc*phi".toList,
        "dphi/dt = LAP phi + conc*eta - shape*phi".toList].foldlM EqModel.addEquation (lorenzModel dims.prod) = some m ∧
      m.assemble c = some M ∧
      ∃ dt0 : ℝ, 0 < dt0 ∧ ∀ s : Stepper dims.prod, s.filter = none → s.freq = freqOf dims → 0 < s.dt → s.dt < dt0 →
        GoesAway M s (fun i => z m.fields[i]) ∧ GoesAwayRungeKutta M s fun i => z m.fields[i] := by
  refine lorenz_leaves h hl c1 c2 c3 (x := x) (y := x) (u := ρ - 1) z1 z2 (z3.trans (by push_cast; ring)) (by ring) (by ring)
    (by linear_combination hx) (Or.inr (Or.inr ?_))
  have e : (lorenzJacobian σ ρ β x x (ρ - 1)).trace * Proofs.minors (lorenzJacobian σ ρ β x x (ρ - 1)) -
      (lorenzJacobian σ ρ β x x (ρ - 1)).det = β * (2 * σ * (ρ - 1) - (σ + β + 1) * (σ + ρ)) := by
    rw [lorenz_trace, lorenz_minors, lorenz_det]
    linear_combination (-(σ + 1 + β) + 2 * σ) * hx
  have := mul_pos hβ (sub_pos.mpr hH)
  linarith

end

/-- The values Lorenz used are beyond the bound; a smaller Rayleigh number is not. -/
example : ((10 + 8 / 3 + 1 : ℝ) * (10 + 28) < 2 * 10 * (28 - 1)) ∧ (2 * 10 * (20 - 1) < (10 + 8 / 3 + 1 : ℝ) * (10 + 20)) ∧
    ∃ x : ℝ, x ^ 2 = 8 / 3 * (28 - 1) := by
  refine ⟨by norm_num, by norm_num, Real.sqrt (8 / 3 * (28 - 1)), Real.sq_sqrt (by norm_num)⟩

/-- A grid, scalars and uniform fields as in the theorems. -/
example : GoodDims (intDims [4, 6]) ∧ LayoutOk [4, 6] ∧ ∃ c : Str → ℂ, c "prandtl".toList = ((10 : ℝ) : ℂ) ∧
    c "rayleigh".toList = ((28 : ℝ) : ℂ) ∧ c "shape".toList = ((8 / 3 : ℝ) : ℂ) :=
  ⟨⟨by decide, by decide⟩, trivial, fun s => if s = "prandtl".toList then ((10 : ℝ) : ℂ) else
    if s = "rayleigh".toList then ((28 : ℝ) : ℂ) else ((8 / 3 : ℝ) : ℂ), if_pos rfl,
    (if_neg (by decide)).trans (if_pos rfl), (if_neg (by decide)).trans (if_neg (by decide))⟩

/-- The rates of every wave of these equations are real, as `c166_settles` and `c166_leaves` ask: diffusion takes from the
diagonal. -/
example {c : Str → ℂ} {σ ρ β : ℝ} (c1 : c "prandtl".toList = σ) (c2 : c "rayleigh".toList = ρ) (c3 : c "shape".toList = β)
    {z : Str → ℂ} {x y u : ℝ} (hx : z fieldX = x) (hy : z fieldY = y) (hu : z fieldU = u) (k : Fin dims.prod) (i j : Fin 3) :
    waveRate lorenzNames c (freqOf dims) (lorenzEquation i) z k (lorenzEquation j).field =
      ((lorenzJacobian σ ρ β x y u - laplaceNumber dims k • (1 : Matrix (Fin 3) (Fin 3) ℝ)) i j : ℝ) := by
  have hi : lorenzEquation i ∈ [lorenzEquation 0, lorenzEquation 1, lorenzEquation 2] := by fin_cases i <;> simp
  have hf : (Pi.single (lorenzEquation j).field 1 : Str → ℂ) (lorenzEquation i).field = ((1 : Matrix (Fin 3) (Fin 3) ℝ) i j : ℝ) := by
    by_cases e : i = j
    · subst e
      rw [Pi.single_eq_same, Matrix.one_apply_eq, Complex.ofReal_one]
    · rw [Matrix.one_apply_ne e, Complex.ofReal_zero, Pi.single_eq_of_ne]
      have : ∀ i j : Fin 3, i ≠ j → (lorenzEquation i).field ≠ (lorenzEquation j).field := by decide
      exact this i j e
  rw [waveRate_split (lorenz_diffusing _ hi), lorenz_jacobian c1 c2 c3 hx hy hu, lorenz_diffusivity c1 c2 c3 _ hi, symbol_number, hf]
  simp only [Matrix.sub_apply, Matrix.smul_apply, smul_eq_mul]
  push_cast
  ring

end Gopf.Props
