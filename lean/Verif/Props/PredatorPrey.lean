import Verif.Props.CoupledStability

/-!
# C161: two cases

`dconc/dt = conc - conc*eta`, `deta/dt = conc*eta - eta` are the predator-prey equations. Their solutions near the uniform
state one run on closed orbits. The stepper leaves that state for every time step.
-/

namespace Gopf.Props
open Spec Pf Pfutil

variable {n : ℕ} {dims : List ℕ}

/-- The item `conc`. -/
def preyItem : Item := ⟨none, some ⟨"conc".toList, none⟩⟩

/-- The item `eta`. -/
def hunterItem : Item := ⟨none, some ⟨"eta".toList, none⟩⟩

/-- `dconc/dt=conc-conc*eta`. -/
def preyEquation : Equation := ⟨"conc".toList, none, [preyItem], [('-', [preyItem, hunterItem])]⟩

/-- `deta/dt=conc*eta-eta`. -/
def hunterEquation : Equation := ⟨"eta".toList, none, [preyItem, hunterItem], [('-', [hunterItem])]⟩

/-- `deta/dt=conc-eta`. -/
def trailEquation : Equation := ⟨"eta".toList, none, [preyItem], [('-', [hunterItem])]⟩

theorem meeting_monomial : Monomial pairNames [preyItem, hunterItem] where
  readable :=
    { wf := by
        intro i hi
        simp only [preyItem, hunterItem, List.mem_cons, List.not_mem_nil, or_false] at hi
        rcases hi with rfl | rfl
        · exact ⟨by simp, by simp, by simp, by simp; decide, by simp⟩
        · exact ⟨by simp, by simp, by simp, by simp; decide, by simp⟩
      oneLap := by decide
      lapFirst := by
        intro pre i post h hl j hj
        exfalso
        have hi : i ∈ [preyItem, hunterItem] := by rw [h]; simp
        simp only [preyItem, hunterItem, List.mem_cons, List.not_mem_nil, or_false] at hi
        rcases hi with rfl | rfl <;> exact hl rfl
      together := ⟨[], [preyItem, hunterItem], [], by decide, by decide, by simp, by simp [preyItem, hunterItem]; decide,
        by simp [hunterItem], by decide⟩ }
  once := by
    intro g hg
    simp only [pairNames, List.mem_cons, List.not_mem_nil, or_false] at hg
    rcases hg with rfl | rfl <;> decide
  kind := Or.inl ⟨by decide, by decide⟩
  exactOne := by
    intro f hf _
    have : f = ⟨"conc".toList, none⟩ ∨ f = ⟨"eta".toList, none⟩ := by
      simpa [preyItem, hunterItem] using (List.mem_filter.mp hf).1
    rcases this with rfl | rfl <;> rfl

theorem prey_monomial : Monomial pairNames [preyItem] := pair_monomial (by decide)

theorem hunter_monomial : Monomial pairNames [hunterItem] := pair_monomial (by decide)

theorem prey_terms : preyEquation.terms = [([preyItem], none), ([preyItem, hunterItem], some '-')] := rfl

theorem hunter_terms : hunterEquation.terms = [([preyItem, hunterItem], none), ([hunterItem], some '-')] := rfl

theorem trail_terms : trailEquation.terms = [([preyItem], none), ([hunterItem], some '-')] := rfl

theorem square_terms : squareEquation.terms = [([⟨none, some ⟨"conc".toList, some ⟨['2'], none⟩⟩⟩], none),
    ([preyItem], some '-')] := rfl

theorem prey_polynomial : Equation.Polynomial pairNames preyEquation :=
  ⟨by decide, by simp [preyEquation], by simp [preyEquation], by
    rw [prey_terms]
    intro p hp
    simp only [List.mem_cons, List.not_mem_nil, or_false] at hp
    rcases hp with rfl | rfl
    · exact prey_monomial
    · exact meeting_monomial⟩

theorem hunter_polynomial : Equation.Polynomial pairNames hunterEquation :=
  ⟨by decide, by simp [hunterEquation], by simp [hunterEquation], by
    rw [hunter_terms]
    intro p hp
    simp only [List.mem_cons, List.not_mem_nil, or_false] at hp
    rcases hp with rfl | rfl
    · exact meeting_monomial
    · exact hunter_monomial⟩

theorem trail_polynomial : Equation.Polynomial pairNames trailEquation :=
  ⟨by decide, by simp [trailEquation], by simp [trailEquation], by
    rw [trail_terms]
    intro p hp
    simp only [List.mem_cons, List.not_mem_nil, or_false] at hp
    rcases hp with rfl | rfl
    · exact prey_monomial
    · exact hunter_monomial⟩

theorem pairSquare_polynomial : Equation.Polynomial pairNames squareEquation :=
  ⟨by decide, by simp [squareEquation], by simp [squareEquation], by
    rw [square_terms]
    intro p hp
    simp only [List.mem_cons, List.not_mem_nil, or_false] at hp
    rcases hp with rfl | rfl
    · exact pair_square
    · exact prey_monomial⟩

theorem factors_prey : factorsIn pairNames.varying [preyItem] = [⟨"conc".toList, none⟩] := by decide

theorem factors_hunter : factorsIn pairNames.varying [hunterItem] = [⟨"eta".toList, none⟩] := by decide

theorem factors_meeting : factorsIn pairNames.varying [preyItem, hunterItem] = [⟨"conc".toList, none⟩, ⟨"eta".toList, none⟩] := by
  decide

theorem factors_square : factorsIn pairNames.varying [⟨none, some ⟨"conc".toList, some ⟨['2'], none⟩⟩⟩] =
    [⟨"conc".toList, some ⟨['2'], none⟩⟩] := by decide

/-- The powers are one or two. -/
theorem pair_whole : ∀ eq ∈ [preyEquation, hunterEquation, trailEquation, squareEquation], ∀ p ∈ eq.terms,
    ∀ g ∈ factorsIn pairNames.varying p.1, ∃ q : ℕ, g.power = q := by
  have a1 : ∃ q : ℕ, Factor.power ⟨"conc".toList, none⟩ = q := ⟨1, by decide +kernel⟩
  have a2 : ∃ q : ℕ, Factor.power ⟨"eta".toList, none⟩ = q := ⟨1, by decide +kernel⟩
  have a3 : ∃ q : ℕ, Factor.power ⟨"conc".toList, some ⟨['2'], none⟩⟩ = q := ⟨2, by decide +kernel⟩
  intro eq heq p hp g hg
  have hone : ∀ L : List (List Item × Option Char), (∀ p ∈ L, ∀ g ∈ factorsIn pairNames.varying p.1,
      g = ⟨"conc".toList, none⟩ ∨ g = ⟨"eta".toList, none⟩ ∨ g = ⟨"conc".toList, some ⟨['2'], none⟩⟩) →
      p ∈ L → ∃ q : ℕ, g.power = q := by
    intro L hL hpL
    rcases hL p hpL g hg with rfl | rfl | rfl
    · exact a1
    · exact a2
    · exact a3
  simp only [List.mem_cons, List.not_mem_nil, or_false] at heq
  rcases heq with rfl | rfl | rfl | rfl
  · rw [prey_terms] at hp
    refine hone _ ?_ hp
    intro p hp g hg
    simp only [List.mem_cons, List.not_mem_nil, or_false] at hp
    rcases hp with rfl | rfl
    · simp only [factors_prey, List.mem_singleton] at hg
      exact Or.inl hg
    · simp only [factors_meeting, List.mem_cons, List.not_mem_nil, or_false] at hg
      tauto
  · rw [hunter_terms] at hp
    refine hone _ ?_ hp
    intro p hp g hg
    simp only [List.mem_cons, List.not_mem_nil, or_false] at hp
    rcases hp with rfl | rfl
    · simp only [factors_meeting, List.mem_cons, List.not_mem_nil, or_false] at hg
      tauto
    · simp only [factors_hunter, List.mem_singleton] at hg
      tauto
  · rw [trail_terms] at hp
    refine hone _ ?_ hp
    intro p hp g hg
    simp only [List.mem_cons, List.not_mem_nil, or_false] at hp
    rcases hp with rfl | rfl
    · simp only [factors_prey, List.mem_singleton] at hg
      tauto
    · simp only [factors_hunter, List.mem_singleton] at hg
      tauto
  · rw [square_terms] at hp
    refine hone _ ?_ hp
    intro p hp g hg
    simp only [List.mem_cons, List.not_mem_nil, or_false] at hp
    rcases hp with rfl | rfl
    · simp only [factors_square, List.mem_singleton] at hg
      tauto
    · simp only [factors_prey, List.mem_singleton] at hg
      tauto

theorem pair_realPowers (c : Str → ℂ) : ∀ eq ∈ [preyEquation, hunterEquation, trailEquation, squareEquation],
    Equation.RealPowers pairNames c eq := by
  intro eq heq p hp
  have hsc : ∀ l, factorsIn pairNames.scalars l = [] := by intro l; simp [factorsIn, pairNames]
  refine ⟨fun f hf => ?_, fun f hf => by simp [hsc] at hf⟩
  obtain ⟨q, hq⟩ := pair_whole eq heq p hp f (by
    have : pairNames.varying = pairNames.fields := by decide
    rw [this]; exact hf)
  rw [hq]
  rfl

/-! ### Slopes -/

theorem slope_bare (f : Str) (z w : Str → ℂ) : productSlope [⟨f, none⟩] z w = w f := by
  unfold productSlope
  have e : (fun t : ℂ => ([(⟨f, none⟩ : Factor)].map fun f => (z f.name + t * w f.name) ^ ((f.power : ℚ) : ℂ)).prod) =
      fun t : ℂ => z f + t * w f := by
    funext t
    simp [Factor.power]
  rw [e]
  have : HasDerivAt (fun t : ℂ => z f + t * w f) (w f) 0 := by
    simpa using ((hasDerivAt_id (0 : ℂ)).mul_const (w f)).const_add (z f)
  exact this.deriv

theorem slope_pair (f g : Str) (z w : Str → ℂ) : productSlope [⟨f, none⟩, ⟨g, none⟩] z w = w f * z g + z f * w g := by
  unfold productSlope
  have e : (fun t : ℂ => ([(⟨f, none⟩ : Factor), ⟨g, none⟩].map fun f => (z f.name + t * w f.name) ^ ((f.power : ℚ) : ℂ)).prod) =
      fun t : ℂ => (z f + t * w f) * (z g + t * w g) := by
    funext t
    simp [Factor.power]
  rw [e]
  have h1 : ∀ f, HasDerivAt (fun t : ℂ => z f + t * w f) (w f) 0 := fun f => by
    simpa using ((hasDerivAt_id (0 : ℂ)).mul_const (w f)).const_add (z f)
  refine ((h1 f).mul (h1 g)).deriv.trans ?_
  simp

theorem slope_square (f : Str) (z w : Str → ℂ) : productSlope [⟨f, some ⟨['2'], none⟩⟩] z w = 2 * z f * w f := by
  unfold productSlope
  have p2 : Factor.power ⟨f, some ⟨['2'], none⟩⟩ = 2 := by
    have : Factor.power ⟨"conc".toList, some ⟨['2'], none⟩⟩ = 2 := by decide +kernel
    exact this
  have e : (fun t : ℂ => ([(⟨f, some ⟨['2'], none⟩⟩ : Factor)].map fun f => (z f.name + t * w f.name) ^ ((f.power : ℚ) : ℂ)).prod) =
      fun t : ℂ => (z f + t * w f) ^ 2 := by
    funext t
    simp only [List.map_cons, List.map_nil, List.prod_cons, List.prod_nil, mul_one, p2]
    norm_num
  rw [e]
  have h1 : HasDerivAt (fun t : ℂ => z f + t * w f) (w f) 0 := by
    simpa using ((hasDerivAt_id (0 : ℂ)).mul_const (w f)).const_add (z f)
  refine (h1.pow 2).deriv.trans ?_
  simp

theorem bare_prey (o : Option Char) : BareField pairNames ([preyItem], o) := ⟨"conc".toList, by decide, factors_prey⟩

theorem bare_hunter (o : Option Char) : BareField pairNames ([hunterItem], o) := ⟨"eta".toList, by decide, factors_hunter⟩

theorem meeting_notBare (o : Option Char) : ¬ BareField pairNames ([preyItem, hunterItem], o) := by
  rintro ⟨f, -, e⟩
  rw [factors_meeting] at e
  simp at e

theorem square_notBare (o : Option Char) :
    ¬ BareField pairNames ([⟨none, some ⟨"conc".toList, some ⟨['2'], none⟩⟩⟩], o) := by
  rintro ⟨f, -, e⟩
  rw [factors_square] at e
  simp at e

theorem pair_coefficient (c : Str → ℂ) (l : List Item) :
    coefficient pairNames c (l, none) = 1 ∧ coefficient pairNames c (l, some '-') = -1 := by
  have hsc : factorsIn pairNames.scalars l = [] := by simp [factorsIn, pairNames]
  have g1 : signOf none = 1 := by decide
  have g2 : signOf (some '-') = -1 := by decide
  constructor <;> simp [coefficient, hsc, g1, g2]

theorem prey_lap : (laplacians [preyItem]).sum = 0 := by decide
theorem hunter_lap : (laplacians [hunterItem]).sum = 0 := by decide
theorem meeting_lap : (laplacians [preyItem, hunterItem]).sum = 0 := by decide
theorem square_lap : (laplacians [⟨none, some ⟨"conc".toList, some ⟨['2'], none⟩⟩⟩]).sum = 0 := by decide

theorem prey_linear (c : Str → ℂ) (freq : Frequency n) (z : Str → ℂ) (k : Fin n) (w v : Str → ℂ) :
    linearSeen pairNames c freq preyEquation z k w v = v "conc".toList -
      (w "conc".toList * z "eta".toList + z "conc".toList * w "eta".toList) := by
  unfold linearSeen
  rw [prey_terms]
  simp only [List.map_cons, List.map_nil, List.sum_cons, List.sum_nil, (pair_coefficient c _).1, (pair_coefficient c _).2,
    prey_lap, meeting_lap, factors_prey, factors_meeting, slope_bare, slope_pair, if_pos (bare_prey none),
    if_neg (meeting_notBare (some '-'))]
  ring

theorem hunter_linear (c : Str → ℂ) (freq : Frequency n) (z : Str → ℂ) (k : Fin n) (w v : Str → ℂ) :
    linearSeen pairNames c freq hunterEquation z k w v =
      w "conc".toList * z "eta".toList + z "conc".toList * w "eta".toList - v "eta".toList := by
  unfold linearSeen
  rw [hunter_terms]
  simp only [List.map_cons, List.map_nil, List.sum_cons, List.sum_nil, (pair_coefficient c _).1, (pair_coefficient c _).2,
    hunter_lap, meeting_lap, factors_hunter, factors_meeting, slope_bare, slope_pair, if_pos (bare_hunter (some '-')),
    if_neg (meeting_notBare none)]
  ring

theorem trail_linear (c : Str → ℂ) (freq : Frequency n) (z : Str → ℂ) (k : Fin n) (w v : Str → ℂ) :
    linearSeen pairNames c freq trailEquation z k w v = v "conc".toList - v "eta".toList := by
  unfold linearSeen
  rw [trail_terms]
  simp only [List.map_cons, List.map_nil, List.sum_cons, List.sum_nil, (pair_coefficient c _).1, (pair_coefficient c _).2,
    hunter_lap, prey_lap, factors_hunter, factors_prey, slope_bare, if_pos (bare_hunter (some '-')), if_pos (bare_prey none)]
  ring

theorem square_linear (c : Str → ℂ) (freq : Frequency n) (z : Str → ℂ) (k : Fin n) (w v : Str → ℂ) :
    linearSeen pairNames c freq squareEquation z k w v = 2 * z "conc".toList * w "conc".toList - v "conc".toList := by
  unfold linearSeen
  rw [square_terms]
  simp only [List.map_cons, List.map_nil, List.sum_cons, List.sum_nil, (pair_coefficient c _).1, (pair_coefficient c _).2,
    square_lap, prey_lap, factors_square, factors_prey, slope_bare, slope_square, if_neg (square_notBare none),
    if_pos (bare_prey (some '-'))]
  ring

/-! ### The implicit parts -/

theorem linear_prey : LinearIn "conc".toList pairNames.varying [preyItem] := by
  refine ⟨by decide, ?_, ?_⟩
  · intro g hg hne
    have : g = "conc".toList ∨ g = "eta".toList := by
      simpa [pairNames, Names.varying] using hg
    rcases this with rfl | rfl
    · exact absurd rfl hne
    · decide
  · intro i hi f hf
    have h1 : i = preyItem := by simpa using (List.mem_filter.mp hi).1
    subst h1
    have : f = ⟨"conc".toList, none⟩ := by simpa [preyItem] using hf.symm
    subst this
    decide +kernel

theorem linear_hunter : LinearIn "eta".toList pairNames.varying [hunterItem] := by
  refine ⟨by decide, ?_, ?_⟩
  · intro g hg hne
    have : g = "conc".toList ∨ g = "eta".toList := by
      simpa [pairNames, Names.varying] using hg
    rcases this with rfl | rfl
    · decide
    · exact absurd rfl hne
  · intro i hi f hf
    have h1 : i = hunterItem := by simpa using (List.mem_filter.mp hi).1
    subst h1
    have : f = ⟨"eta".toList, none⟩ := by simpa [hunterItem] using hf.symm
    subst this
    decide +kernel

theorem meeting_nonlinear : ¬ LinearIn "conc".toList pairNames.varying [preyItem, hunterItem] ∧
    ¬ LinearIn "eta".toList pairNames.varying [preyItem, hunterItem] := by
  constructor
  · rintro ⟨-, h2, -⟩
    exact absurd (h2 "eta".toList (by decide) (by decide)) (by decide)
  · rintro ⟨-, h2, -⟩
    exact absurd (h2 "conc".toList (by decide) (by decide)) (by decide)

theorem prey_other : ¬ LinearIn "eta".toList pairNames.varying [preyItem] := by
  rintro ⟨h1, -⟩
  exact absurd h1 (by decide)

theorem square_nonlinear : ¬ LinearIn "conc".toList pairNames.varying [⟨none, some ⟨"conc".toList, some ⟨['2'], none⟩⟩⟩] := by
  rintro ⟨-, -, h3⟩
  have := h3 ⟨none, some ⟨"conc".toList, some ⟨['2'], none⟩⟩⟩ (by decide) ⟨"conc".toList, some ⟨['2'], none⟩⟩ rfl
  revert this
  decide +kernel

theorem prey_implicit (c : Str → ℂ) (freq : Frequency n) (k : Fin n) : implicitRate pairNames c freq preyEquation k = 1 := by
  unfold implicitRate
  rw [prey_terms]
  have l1 : LinearIn preyEquation.field pairNames.varying [preyItem] := linear_prey
  have l2 : ¬ LinearIn preyEquation.field pairNames.varying [preyItem, hunterItem] := meeting_nonlinear.1
  rw [List.map_cons, List.map_cons, List.map_nil, if_pos l1, if_neg l2, (pair_coefficient c _).1, prey_lap]
  simp

theorem hunter_implicit (c : Str → ℂ) (freq : Frequency n) (k : Fin n) :
    implicitRate pairNames c freq hunterEquation k = -1 := by
  unfold implicitRate
  rw [hunter_terms]
  have l1 : LinearIn hunterEquation.field pairNames.varying [hunterItem] := linear_hunter
  have l2 : ¬ LinearIn hunterEquation.field pairNames.varying [preyItem, hunterItem] := meeting_nonlinear.2
  rw [List.map_cons, List.map_cons, List.map_nil, if_neg l2, if_pos l1, (pair_coefficient c _).2, hunter_lap]
  simp

theorem trail_implicit (c : Str → ℂ) (freq : Frequency n) (k : Fin n) :
    implicitRate pairNames c freq trailEquation k = -1 := by
  unfold implicitRate
  rw [trail_terms]
  have l1 : LinearIn trailEquation.field pairNames.varying [hunterItem] := linear_hunter
  have l2 : ¬ LinearIn trailEquation.field pairNames.varying [preyItem] := prey_other
  rw [List.map_cons, List.map_cons, List.map_nil, if_neg l2, if_pos l1, (pair_coefficient c _).2, hunter_lap]
  simp

theorem pairSquare_implicit (c : Str → ℂ) (freq : Frequency n) (k : Fin n) :
    implicitRate pairNames c freq squareEquation k = -1 := by
  unfold implicitRate
  rw [square_terms]
  have l1 : LinearIn squareEquation.field pairNames.varying [preyItem] := linear_prey
  have l2 : ¬ LinearIn squareEquation.field pairNames.varying [⟨none, some ⟨"conc".toList, some ⟨['2'], none⟩⟩⟩] := square_nonlinear
  rw [List.map_cons, List.map_cons, List.map_nil, if_neg l2, if_pos l1, (pair_coefficient c _).2, prey_lap]
  simp

/-! ### The predator-prey equations -/

theorem idx_conc : pairNames.fields.idxOf "conc".toList = 0 := by decide
theorem idx_eta : pairNames.fields.idxOf "eta".toList = 1 := by decide

/-- The multipliers at the state one. -/
theorem prey_multiplier (c : Str → ℂ) (freq : Frequency n) (dt : ℝ) (k : Fin n) {μ : ℂ}
    (hμ : (1 - (dt : ℂ) ^ 2) * (μ - 1) ^ 2 = -(dt : ℂ) ^ 2) (hdt : dt ≠ 0) :
    IsMultiplier pairNames c freq dt [preyEquation, hunterEquation] (fun _ => 1) k μ := by
  have hne : ¬ "eta".toList = "conc".toList := by decide
  obtain ⟨w, hc, he⟩ : ∃ w : Str → ℂ, w "conc".toList = dt ∧ w "eta".toList = -((1 - dt) * (μ - 1)) :=
    ⟨fun x => if x = "conc".toList then dt else -((1 - dt) * (μ - 1)), if_pos rfl, if_neg hne⟩
  refine ⟨w, ⟨"conc".toList, by decide, ?_⟩, ?_⟩
  · rw [hc]
    exact Complex.ofReal_ne_zero.mpr hdt
  · intro i hi
    match i, hi with
    | 0, _ =>
      simp only [List.getElem_cons_zero]
      have e : preyEquation.field = "conc".toList := rfl
      rw [prey_linear, prey_implicit, e, idx_conc, if_neg (lt_irrefl 0), hc, he]
      ring
    | 1, _ =>
      simp only [List.getElem_cons_succ, List.getElem_cons_zero]
      have e : hunterEquation.field = "eta".toList := rfl
      rw [hunter_linear, hunter_implicit, e, idx_eta, if_neg (lt_irrefl 1), hc, he]
      linear_combination (-1 : ℂ) * hμ

theorem large_multiplier {dt : ℝ} (h0 : 0 < dt) (h1 : dt ≠ 1) :
    ∃ μ : ℂ, (1 - (dt : ℂ) ^ 2) * (μ - 1) ^ 2 = -(dt : ℂ) ^ 2 ∧ 1 < ‖μ‖ := by
  rcases lt_or_gt_of_ne h1 with hlt | hgt
  · have hp : 0 < 1 - dt ^ 2 := by nlinarith
    set r := dt / Real.sqrt (1 - dt ^ 2) with hr
    have hs : Real.sqrt (1 - dt ^ 2) ^ 2 = 1 - dt ^ 2 := Real.sq_sqrt hp.le
    have hs0 : 0 < Real.sqrt (1 - dt ^ 2) := Real.sqrt_pos.mpr hp
    have hr0 : 0 < r := div_pos h0 hs0
    have hr2 : (1 - dt ^ 2) * r ^ 2 = dt ^ 2 := by
      rw [hr, div_pow, hs]
      field_simp
    have hr2' : (1 - (dt : ℂ) ^ 2) * (r : ℂ) ^ 2 = (dt : ℂ) ^ 2 := by exact_mod_cast hr2
    refine ⟨1 + r * Complex.I, ?_, ?_⟩
    · have hI := Complex.I_sq
      linear_combination (-1 : ℂ) * hr2' + (1 - (dt : ℂ) ^ 2) * (r : ℂ) ^ 2 * hI
    · have e : ‖(1 : ℂ) + r * Complex.I‖ ^ 2 = 1 + r ^ 2 := by
        rw [norm_sq_parts]
        simp
      have hn := norm_nonneg ((1 : ℂ) + r * Complex.I)
      nlinarith [sq_nonneg (‖(1 : ℂ) + r * Complex.I‖ - 1), pow_pos hr0 2]
  · have hp : 0 < dt ^ 2 - 1 := by nlinarith
    set r := dt / Real.sqrt (dt ^ 2 - 1) with hr
    have hs : Real.sqrt (dt ^ 2 - 1) ^ 2 = dt ^ 2 - 1 := Real.sq_sqrt hp.le
    have hs0 : 0 < Real.sqrt (dt ^ 2 - 1) := Real.sqrt_pos.mpr hp
    have hr0 : 0 < r := div_pos h0 hs0
    have hr2 : (dt ^ 2 - 1) * r ^ 2 = dt ^ 2 := by
      rw [hr, div_pow, hs]
      field_simp
    have hr2' : ((dt : ℂ) ^ 2 - 1) * (r : ℂ) ^ 2 = (dt : ℂ) ^ 2 := by exact_mod_cast hr2
    refine ⟨((1 + r : ℝ) : ℂ), ?_, ?_⟩
    · push_cast
      linear_combination (-1 : ℂ) * hr2'
    · rw [Complex.norm_real, Real.norm_of_nonneg (by positivity)]
      linarith

/-- C161: the exact equations have a conserved quantity, which is smallest at the state one. -/
theorem c161_exact {u v : ℝ → ℝ} (hu : ∀ t, HasDerivAt u (u t - u t * v t) t) (hv : ∀ t, HasDerivAt v (u t * v t - v t) t)
    (hu0 : ∀ t, 0 < u t) (hv0 : ∀ t, 0 < v t) (t : ℝ) :
    u t - Real.log (u t) + (v t - Real.log (v t)) = u 0 - Real.log (u 0) + (v 0 - Real.log (v 0)) := by
  have hd : ∀ t, HasDerivAt (fun t => u t - Real.log (u t) + (v t - Real.log (v t))) 0 t := by
    intro t
    have a1 := (hu t).sub ((hu t).log (hu0 t).ne')
    have a2 := (hv t).sub ((hv t).log (hv0 t).ne')
    refine (a1.add a2).congr_deriv ?_
    have := (hu0 t).ne'
    have := (hv0 t).ne'
    field_simp
    ring
  exact is_const_of_deriv_eq_zero (fun t => (hd t).differentiableAt) (fun t => (hd t).deriv) t 0

/-- C161: with the Euler stepper, small real perturbations of the uniform state one of the predator-prey equations leave a
fixed neighbourhood, on every grid and for every time step other than one. -/
theorem c161_predator_prey (h : GoodDims (intDims dims)) (hl : LayoutOk dims) :
    ∃ (m : EqModel dims.prod) (M : Model m.fields.length m.derived.length dims.prod),
      ["dconc/dt = conc - conc*eta".toList, "deta/dt = conc*eta - eta".toList].foldlM EqModel.addEquation
        (pairModel dims.prod) = some m ∧ m.assemble (fun _ => 0) = some M ∧
      ∀ s : Stepper dims.prod, s.filter = none → s.freq = freqOf dims → 0 < s.dt → s.dt ≠ 1 →
      ∃ ρ : ℝ, 0 < ρ ∧ ∀ δ : ℝ, 0 < δ → ∃ v : Fin m.fields.length → Data dims.prod,
        (∀ i, IsReal (v i)) ∧ (∀ i x, ‖v i x‖ < δ) ∧ ∀ st : Store m.fields.length m.derived.length dims.prod,
        (∀ i x, st.fields i x = 1 + v i x) →
        ∃ steps i x, ρ ≤ ‖(eulerPropagate M steps (s, st)).2.fields i x - 1‖ := by
  obtain ⟨m, M, h1, -, h3, h4⟩ := c161_leaves h hl pairNames pair_wellNamed rfl (pairModel dims.prod)
    ⟨rfl, rfl, fun x => Iff.rfl⟩ rfl [preyEquation, hunterEquation]
    (by
      intro eq heq
      simp only [List.mem_cons, List.not_mem_nil, or_false] at heq
      rcases heq with rfl | rfl
      · exact ⟨prey_polynomial, fun _ _ => ⟨rfl, rfl⟩⟩
      · exact ⟨hunter_polynomial, fun _ _ => ⟨rfl, rfl⟩⟩)
    (fun eq heq => pair_whole eq (by simp only [List.mem_cons, List.not_mem_nil, or_false] at heq ⊢; tauto))
    ["dconc/dt = conc - conc*eta".toList, "deta/dt = conc*eta - eta".toList] (by decide) (by decide) (fun _ => 0)
    (fun _ _ => rfl)
    (fun eq heq => pair_realPowers _ eq (by simp only [List.mem_cons, List.not_mem_nil, or_false] at heq ⊢; tauto))
  refine ⟨m, M, h1, h3, ?_⟩
  intro s hfil hfreq hdt hdt1
  have hpos := Nat.pos_of_ne_zero (n := dims.prod) (by exact_mod_cast prod_ne_zero (pos_of_goodDims h))
  obtain ⟨μ, hμ, hμ1⟩ := large_multiplier hdt hdt1
  refine h4 (fun _ => 1) ?_ (fun _ _ => rfl) s hfil hfreq ?_ ⟨⟨0, hpos⟩, μ, prey_multiplier _ _ _ _ hμ hdt.ne', hμ1⟩
  · intro eq heq
    simp only [List.mem_cons, List.not_mem_nil, or_false] at heq
    rcases heq with rfl | rfl
    · simp [uniformSystemRate, prey_terms, prey_lap, meeting_lap, (pair_coefficient _ _).1, (pair_coefficient _ _).2]
    · simp [uniformSystemRate, hunter_terms, hunter_lap, meeting_lap, (pair_coefficient _ _).1, (pair_coefficient _ _).2]
  · intro eq heq k
    simp only [List.mem_cons, List.not_mem_nil, or_false] at heq
    rcases heq with rfl | rfl
    · rw [prey_implicit, mul_one, sub_ne_zero]
      exact_mod_cast hdt1.symm
    · rw [hunter_implicit, mul_neg, mul_one, sub_neg_eq_add]
      have : (1 : ℝ) + s.dt ≠ 0 := by positivity
      exact_mod_cast this

/-- C161: with the Euler stepper, fields close enough to zero converge to zero exponentially for
`dconc/dt = conc^2 - conc`, `deta/dt = conc - eta`, on every grid and for every time step. -/
theorem c161_trail (h : GoodDims (intDims dims)) :
    ∃ (m : EqModel dims.prod) (M : Model m.fields.length m.derived.length dims.prod),
      ["dconc/dt = conc^2 - conc".toList, "deta/dt = conc - eta".toList].foldlM EqModel.addEquation
        (pairModel dims.prod) = some m ∧ m.assemble (fun _ => 0) = some M ∧
      ∀ s : Stepper dims.prod, s.filter = none → s.freq = freqOf dims → 0 < s.dt →
      ∃ δ C q : ℝ, 0 < δ ∧ q < 1 ∧ 0 ≤ q ∧ ∀ st : Store m.fields.length m.derived.length dims.prod,
        (∀ i x, ‖st.fields i x‖ < δ) → ∀ steps i x, ‖(eulerPropagate M steps (s, st)).2.fields i x‖ ≤ C * q ^ steps := by
  obtain ⟨m, M, h1, -, h3, h4⟩ := c161_stable h pairNames pair_wellNamed rfl (pairModel dims.prod)
    ⟨rfl, rfl, fun x => Iff.rfl⟩ rfl [squareEquation, trailEquation]
    (by
      intro eq heq
      simp only [List.mem_cons, List.not_mem_nil, or_false] at heq
      rcases heq with rfl | rfl
      · exact ⟨pairSquare_polynomial, fun _ _ => ⟨rfl, rfl⟩⟩
      · exact ⟨trail_polynomial, fun _ _ => ⟨rfl, rfl⟩⟩)
    (fun eq heq => pair_whole eq (by simp only [List.mem_cons, List.not_mem_nil, or_false] at heq ⊢; tauto))
    ["dconc/dt = conc^2 - conc".toList, "deta/dt = conc - eta".toList] (by decide) (by decide) (fun _ => 0)
  refine ⟨m, M, h1, h3, ?_⟩
  intro s hfil hfreq hdt
  have hne : (1 : ℂ) + s.dt ≠ 0 := by
    have : (1 : ℝ) + s.dt ≠ 0 := by positivity
    exact_mod_cast this
  have := h4 (fun _ => 0) ?_ s hfil hfreq ?_ ?_
  · simpa only [sub_zero] using this
  · intro eq heq
    simp only [List.mem_cons, List.not_mem_nil, or_false] at heq
    have p2 : Factor.power ⟨"conc".toList, some ⟨['2'], none⟩⟩ = 2 := by decide +kernel
    have p1 : Factor.power ⟨"conc".toList, none⟩ = 1 := by decide +kernel
    have p3 : Factor.power ⟨"eta".toList, none⟩ = 1 := by decide +kernel
    rcases heq with rfl | rfl
    · simp only [uniformSystemRate, square_terms, List.map_cons, List.map_nil, square_lap, prey_lap, if_true,
        factors_square, factors_prey, p2, p1, List.prod_cons, List.prod_nil, List.sum_cons, List.sum_nil]
      norm_num
    · simp only [uniformSystemRate, trail_terms, List.map_cons, List.map_nil, hunter_lap, prey_lap, if_true,
        factors_hunter, factors_prey, p3, p1, List.prod_cons, List.prod_nil, List.sum_cons, List.sum_nil]
      norm_num
  · intro eq heq k
    simp only [List.mem_cons, List.not_mem_nil, or_false] at heq
    rcases heq with rfl | rfl
    · rw [pairSquare_implicit, mul_neg, mul_one, sub_neg_eq_add]
      exact hne
    · rw [trail_implicit, mul_neg, mul_one, sub_neg_eq_add]
      exact hne
  · rintro k μ ⟨w, ⟨f, hf, hwf⟩, hw⟩
    have a0 := hw 0 (by decide)
    have a1 := hw 1 (by decide)
    simp only [List.getElem_cons_zero, List.getElem_cons_succ] at a0 a1
    have e0 : squareEquation.field = "conc".toList := rfl
    have e1 : trailEquation.field = "eta".toList := rfl
    rw [square_linear, pairSquare_implicit, e0, idx_conc] at a0
    rw [trail_linear, trail_implicit, e1, idx_conc, idx_eta] at a1
    simp only [lt_irrefl, if_false, zero_lt_one, if_true] at a0 a1
    have key : (1 + s.dt) * μ = 1 := by
      by_cases hc : w "conc".toList = 0
      · have he : w "eta".toList ≠ 0 := by
          have : f = "conc".toList ∨ f = "eta".toList := by simpa [pairNames] using hf
          rcases this with rfl | rfl
          · exact absurd hc hwf
          · exact hwf
        refine mul_right_cancel₀ he ?_
        rw [hc] at a1
        linear_combination a1
      · refine mul_right_cancel₀ hc ?_
        linear_combination a0
    have e : μ = ((1 / (1 + s.dt) : ℝ) : ℂ) := by
      push_cast
      rw [eq_div_iff hne]
      linear_combination key
    rw [e, Complex.norm_real, Real.norm_of_nonneg (by positivity), div_lt_one (by positivity)]
    linarith

/-- The hypotheses are met on a `16 × 16` grid with the time step `0.1`. -/
example : GoodDims (intDims [16, 16]) ∧ LayoutOk [16, 16] ∧ (0 : ℝ) < 1 / 10 ∧ (1 / 10 : ℝ) ≠ 1 :=
  ⟨⟨by decide, by decide⟩, trivial, by norm_num, by norm_num⟩

end Gopf.Props
