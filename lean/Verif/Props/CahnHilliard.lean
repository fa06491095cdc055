import Verif.Model.CahnHilliardExample
import Verif.Props.Energy
import Verif.Props.Kks
import Verif.Props.KpzBlowup

/-!
# C147: the Cahn-Hilliard example
-/

namespace Gopf.Props
open Spec Pf Pfutil
open scoped BigOperators Topology
open Filter

variable {n : ℕ} {dims : List ℕ}

/-! ### Reading the equation -/

/-- The names of the program. -/
def mixtureNames : Names := ⟨["conc".toList], [], ["gamma".toList, "m1".toList]⟩

theorem mixture_wellNamed : mixtureNames.WellNamed where
  ident := by
    have : ∀ x ∈ mixtureNames.all, (∀ c ∈ x, c.isAlphanum = true ∨ c = '_') ∧ ∃ c ∈ x.head?, c.isAlpha = true := by
      decide +kernel
    intro x hx
    obtain ⟨h1, c, hc, h2⟩ := this x hx
    cases x with
    | nil => simp at hc
    | cons y x =>
      simp only [List.head?_cons, Option.mem_some_iff] at hc
      subst hc
      exact ⟨⟨y, x, rfl, h2⟩, h1⟩
  nodup := by decide +kernel
  noLap := by decide +kernel
  long := by decide +kernel
  sepLap := by decide +kernel
  sepVarying := by decide +kernel
  sepScalar := by decide +kernel

/-- `LAPconc^3` -/
def mixtureCube : List Item := [⟨some none, some ⟨"conc".toList, some ⟨['3'], none⟩⟩⟩]

/-- `m1*LAPconc` -/
def mixtureLap : List Item := [⟨none, some ⟨"m1".toList, none⟩⟩, ⟨some none, some ⟨"conc".toList, none⟩⟩]

/-- `m1*gamma*LAP^2conc` -/
def mixtureLap2 : List Item := [⟨none, some ⟨"m1".toList, none⟩⟩, ⟨none, some ⟨"gamma".toList, none⟩⟩,
  ⟨some (some ['2']), some ⟨"conc".toList, none⟩⟩]

def mixtureEquation : Equation := ⟨"conc".toList, none, mixtureCube, [('+', mixtureLap), ('+', mixtureLap2)]⟩

theorem mixture_text : cahnHilliardText.filter (fun c => c ≠ ' ') = mixtureEquation.text := by decide +kernel

theorem mixture_terms : mixtureEquation.terms = [(mixtureCube, none), (mixtureLap, some '+'), (mixtureLap2, some '+')] := rfl

theorem mixture_wf {items : List Item} (hi : items = mixtureCube ∨ items = mixtureLap ∨ items = mixtureLap2) :
    ∀ i ∈ items, i.WellFormed mixtureNames := by
  have hg : "gamma".toList ∈ mixtureNames.all := List.mem_of_elem_eq_true (by rfl)
  have hm : "m1".toList ∈ mixtureNames.all := List.mem_of_elem_eq_true (by rfl)
  have hc : "conc".toList ∈ mixtureNames.all := List.mem_of_elem_eq_true (by rfl)
  have hv : "conc".toList ∈ mixtureNames.varying := List.mem_of_elem_eq_true (by rfl)
  have w1 : ∀ x : Str, x ∈ mixtureNames.all → (⟨none, some ⟨x, none⟩⟩ : Item).WellFormed mixtureNames := by
    intro x hx
    refine ⟨by simp, by simp, by simp, ?_, by simp⟩
    intro f hf
    obtain rfl : (⟨x, none⟩ : Factor) = f := by simpa using hf
    exact hx
  have w2 : ∀ l : Option (List Char), l = none ∨ l = some ['2'] → ∀ e : Option Exponent, e = none ∨ e = some ⟨['3'], none⟩ →
      (⟨some l, some ⟨"conc".toList, e⟩⟩ : Item).WellFormed mixtureNames := by
    intro l hl e he
    refine ⟨by simp, ?_, ?_, ?_, ?_⟩
    · rcases he with rfl | rfl <;> simp [Exponent.WellFormed]
    · rcases hl with rfl | rfl <;> simp
    · intro f hf
      obtain rfl : (⟨"conc".toList, e⟩ : Factor) = f := by simpa using hf
      exact hc
    · intro f hf _
      obtain rfl : (⟨"conc".toList, e⟩ : Factor) = f := by simpa using hf
      exact ⟨hv, by simp, by simp⟩
  rcases hi with rfl | rfl | rfl
  · intro i hi
    obtain rfl := List.mem_singleton.mp hi
    exact w2 _ (Or.inl rfl) _ (Or.inr rfl)
  · intro i hi
    rcases List.mem_cons.mp hi with rfl | hi
    · exact w1 _ hm
    · obtain rfl := List.mem_singleton.mp hi
      exact w2 _ (Or.inl rfl) _ (Or.inl rfl)
  · intro i hi
    rcases List.mem_cons.mp hi with rfl | hi
    · exact w1 _ hm
    · rcases List.mem_cons.mp hi with rfl | hi
      · exact w1 _ hg
      · obtain rfl := List.mem_singleton.mp hi
        exact w2 _ (Or.inr rfl) _ (Or.inl rfl)

theorem mixture_noLA : ∀ x ∈ mixtureNames.all, ¬ ['L', 'A'] <:+: x ∨ x = "INTERPOLANT".toList := by decide +kernel

theorem mixture_power3 : Factor.power ⟨"conc".toList, some ⟨['3'], none⟩⟩ = 3 := by decide +kernel

theorem mixture_monomial {items : List Item} (hi : items = mixtureCube ∨ items = mixtureLap ∨ items = mixtureLap2) :
    Monomial mixtureNames items := by
  have hw := mixture_wf hi
  exact
  { readable :=
    { wf := hw
      oneLap := by rcases hi with rfl | rfl | rfl <;> decide +kernel
      lapFirst := lapFirst_of mixture_noLA hw (by rcases hi with rfl | rfl | rfl <;> decide +kernel)
      together := by
        rcases hi with rfl | rfl | rfl
        · exact ⟨[], mixtureCube, [], by decide +kernel, by decide +kernel, by decide +kernel, by decide +kernel,
            by decide +kernel, by decide +kernel⟩
        · exact ⟨[], [⟨some none, some ⟨"conc".toList, none⟩⟩], [⟨none, some ⟨"m1".toList, none⟩⟩], by decide +kernel,
            by decide +kernel, by decide +kernel, by decide +kernel, by decide +kernel, by decide +kernel⟩
        · exact ⟨[], [⟨some (some ['2']), some ⟨"conc".toList, none⟩⟩], [⟨none, some ⟨"gamma".toList, none⟩⟩,
            ⟨none, some ⟨"m1".toList, none⟩⟩], by decide +kernel, by decide +kernel, by decide +kernel,
            by decide +kernel, by decide +kernel, by decide +kernel⟩ }
    once := by rcases hi with rfl | rfl | rfl <;> decide +kernel
    kind := Or.inl ⟨by rcases hi with rfl | rfl | rfl <;> decide +kernel, by rcases hi with rfl | rfl | rfl <;> decide +kernel⟩
    exactOne := by rcases hi with rfl | rfl | rfl <;> decide +kernel }

theorem mixture_polynomial : Equation.Polynomial mixtureNames mixtureEquation := by
  refine ⟨by decide, by simp [mixtureEquation], by simp [mixtureEquation], ?_⟩
  intro p hp
  rw [mixture_terms] at hp
  simp only [List.mem_cons, List.not_mem_nil, or_false] at hp
  rcases hp with rfl | rfl | rfl
  · exact mixture_monomial (Or.inl rfl)
  · exact mixture_monomial (Or.inr (Or.inl rfl))
  · exact mixture_monomial (Or.inr (Or.inr rfl))

theorem mixture_oneField : OneField mixtureNames "conc".toList mixtureEquation := by
  refine ⟨rfl, rfl, ?_⟩
  intro p hp g hg
  rw [mixture_terms] at hp
  simp only [List.mem_cons, List.not_mem_nil, or_false] at hp
  have f1 : factorsIn mixtureNames.varying mixtureCube = [⟨"conc".toList, some ⟨['3'], none⟩⟩] := by decide +kernel
  have f2 : factorsIn mixtureNames.varying mixtureLap = [⟨"conc".toList, none⟩] := by decide +kernel
  have f3 : factorsIn mixtureNames.varying mixtureLap2 = [⟨"conc".toList, none⟩] := by decide +kernel
  rcases hp with rfl | rfl | rfl
  · obtain rfl := List.mem_singleton.mp (f1 ▸ hg)
    exact ⟨3, by rw [mixture_power3]; norm_num⟩
  · obtain rfl := List.mem_singleton.mp (f2 ▸ hg)
    exact ⟨1, by rw [hilliard_power1]; norm_num⟩
  · obtain rfl := List.mem_singleton.mp (f3 ▸ hg)
    exact ⟨1, by rw [hilliard_power1]; norm_num⟩

theorem mixture_starts : StartsAs mixtureNames (cahnHilliardModel n) := by
  refine ⟨rfl, rfl, fun x => ?_⟩
  simp only [cahnHilliardModel, EqModel.addScalar, EqModel.addField, EqModel.empty, mixtureNames, Names.all, Names.varying]
  simp only [List.mem_append, List.mem_cons, List.not_mem_nil, or_false, List.nil_append]
  tauto

theorem mixture_linear1 : LinearIn "conc".toList mixtureNames.varying mixtureLap := by
  unfold LinearIn
  decide +kernel

theorem mixture_linear2 : LinearIn "conc".toList mixtureNames.varying mixtureLap2 := by
  unfold LinearIn
  decide +kernel

theorem mixture_nonlinear : ¬ LinearIn "conc".toList mixtureNames.varying mixtureCube := by
  unfold LinearIn
  decide +kernel

theorem mixture_variational : Variational 1 mixtureNames mixtureEquation := by
  refine ⟨?_, ?_⟩
  · intro p hp hl
    rw [mixture_terms] at hp
    simp only [List.mem_cons, List.not_mem_nil, or_false] at hp
    rcases hp with rfl | rfl | rfl
    · decide +kernel
    · exact absurd mixture_linear1 hl
    · exact absurd mixture_linear2 hl
  · intro p hp hl
    rw [mixture_terms] at hp
    simp only [List.mem_cons, List.not_mem_nil, or_false] at hp
    rcases hp with rfl | rfl | rfl
    · exact absurd hl mixture_nonlinear
    · decide +kernel
    · decide +kernel

theorem scalars_m1 (γ : ℝ) : cahnHilliardScalars γ "m1".toList = -1 := by
  unfold cahnHilliardScalars
  rw [if_neg (by decide), if_pos rfl]

theorem scalars_gamma (γ : ℝ) : cahnHilliardScalars γ "gamma".toList = γ := by
  unfold cahnHilliardScalars
  rw [if_pos rfl]

theorem mixture_coeff (γ : ℝ) : coefficient mixtureNames (cahnHilliardScalars γ) (mixtureCube, none) = ((1 : ℝ) : ℂ) ∧
    coefficient mixtureNames (cahnHilliardScalars γ) (mixtureLap, some '+') = ((-1 : ℝ) : ℂ) ∧
    coefficient mixtureNames (cahnHilliardScalars γ) (mixtureLap2, some '+') = ((-γ : ℝ) : ℂ) := by
  have g1 : signOf none = 1 := by decide
  have g2 : signOf (some '+') = 1 := by decide
  have p1 : Factor.power ⟨"m1".toList, none⟩ = 1 := rfl
  have p2 : Factor.power ⟨"gamma".toList, none⟩ = 1 := rfl
  have f1 : factorsIn mixtureNames.scalars mixtureCube = [] := by decide +kernel
  have f2 : factorsIn mixtureNames.scalars mixtureLap = [⟨"m1".toList, none⟩] := by decide +kernel
  have f3 : factorsIn mixtureNames.scalars mixtureLap2 = [⟨"m1".toList, none⟩, ⟨"gamma".toList, none⟩] := by decide +kernel
  unfold coefficient
  dsimp only
  rw [f1, f2, f3, g1, g2]
  simp only [List.map_cons, List.map_nil, List.prod_cons, List.prod_nil, p1, p2, scalars_m1, scalars_gamma]
  refine ⟨by simp, by simp, by simp⟩

theorem mixture_real (γ : ℝ) : RealCoefficients mixtureNames (cahnHilliardScalars γ) mixtureEquation := by
  obtain ⟨c1, c2, c3⟩ := mixture_coeff γ
  intro p hp
  rw [mixture_terms] at hp
  simp only [List.mem_cons, List.not_mem_nil, or_false] at hp
  rcases hp with rfl | rfl | rfl
  · rw [c1]; exact Complex.ofReal_im _
  · rw [c2]; exact Complex.ofReal_im _
  · rw [c3]; exact Complex.ofReal_im _

theorem mixture_bulk (γ : ℝ) (t : ℝ) :
    bulkEnergy 1 mixtureNames (cahnHilliardScalars γ) mixtureEquation t = t ^ 4 / 4 ∧
    bulkForce 1 mixtureNames (cahnHilliardScalars γ) mixtureEquation t = t ^ 3 ∧
    bulkCurvature 1 mixtureNames (cahnHilliardScalars γ) mixtureEquation t = 3 * t ^ 2 := by
  obtain ⟨c1, c2, c3⟩ := mixture_coeff γ
  have d1 : degree mixtureNames (mixtureCube, none) = 3 := by decide +kernel
  have n1 : ¬ LinearIn mixtureEquation.field mixtureNames.varying (mixtureCube, (none : Option Char)).1 := mixture_nonlinear
  have n2 : LinearIn mixtureEquation.field mixtureNames.varying (mixtureLap, some '+').1 := mixture_linear1
  have n3 : LinearIn mixtureEquation.field mixtureNames.varying (mixtureLap2, some '+').1 := mixture_linear2
  unfold bulkEnergy bulkForce bulkCurvature
  rw [mixture_terms]
  simp only [List.map_cons, List.map_nil]
  rw [if_neg n1, if_pos n2, if_pos n3, if_neg n1, if_pos n2, if_pos n3, if_neg n1, if_pos n2, if_pos n3]
  simp only [List.sum_cons, List.sum_nil, c1, d1, Complex.ofReal_re]
  norm_num

theorem mixture_stiffness (γ x : ℝ) : stiffness 1 mixtureNames (cahnHilliardScalars γ) mixtureEquation x = γ * x - 1 := by
  obtain ⟨c1, c2, c3⟩ := mixture_coeff γ
  have n1 : ¬ LinearIn mixtureEquation.field mixtureNames.varying (mixtureCube, (none : Option Char)).1 := mixture_nonlinear
  have n2 : LinearIn mixtureEquation.field mixtureNames.varying (mixtureLap, some '+').1 := mixture_linear1
  have n3 : LinearIn mixtureEquation.field mixtureNames.varying (mixtureLap2, some '+').1 := mixture_linear2
  have l1 : (laplacians mixtureLap).sum = 1 := by decide +kernel
  have l2 : (laplacians mixtureLap2).sum = 2 := by decide +kernel
  unfold stiffness
  rw [mixture_terms]
  simp only [List.map_cons, List.map_nil]
  rw [if_neg n1, if_pos n2, if_pos n3]
  simp only [List.sum_cons, List.sum_nil, c2, c3, l1, l2, Complex.ofReal_re]
  norm_num
  ring

/-! ### A step -/

/-- The energy: the sum of `u^4/4 - u^2/2` over the nodes, and `γ 4π²|f|²/2` times the square of the amplitude of each wave. -/
noncomputable def mixtureEnergy (γ : ℝ) (u : Data dims.prod) : ℝ :=
  ∑ x, ((u x).re ^ 4 / 4 - (u x).re ^ 2 / 2) + γ * (∑ k, laplaceNumber dims k * ‖fft dims u k‖ ^ 2) / (2 * (dims.prod : ℕ))

theorem mixture_energy (h : ∀ d ∈ dims, 0 < d) (γ : ℝ) {u : Data dims.prod} (hu : IsReal u) :
    energy 1 mixtureNames (cahnHilliardScalars γ) mixtureEquation u = mixtureEnergy γ u := by
  have hp : (0 : ℝ) < (dims.prod : ℕ) := by
    have := Nat.pos_of_ne_zero (n := dims.prod) (by exact_mod_cast prod_ne_zero h)
    exact_mod_cast this
  unfold energy mixtureEnergy
  simp only [(mixture_bulk γ _).1, mixture_stiffness, sub_mul, one_mul, Finset.sum_sub_distrib, mul_assoc]
  rw [squares_parseval h, ← Finset.mul_sum]
  have : ∑ x, ‖u x‖ ^ 2 = ∑ x, (u x).re ^ 2 := by
    refine Finset.sum_congr rfl fun x _ => ?_
    have : u x = ((u x).re : ℂ) := Complex.ext (by simp) (by simp [hu x])
    rw [this, Complex.norm_real, Real.norm_eq_abs, sq_abs]
    simp
  rw [this, ← Finset.sum_div, ← Finset.sum_div]
  generalize ∑ k, laplaceNumber dims k * ‖fft dims u k‖ ^ 2 = A
  generalize ∑ x, (u x).re ^ 2 = B
  generalize ((dims.prod : ℕ) : ℝ) = P at *
  field_simp
  ring

theorem mixture_confining (h : ∀ d ∈ dims, 0 < d) {γ : ℝ} (hγ : 0 ≤ γ) :
    Confining dims 1 mixtureNames (cahnHilliardScalars γ) mixtureEquation := by
  intro E
  refine ⟨Real.sqrt (2 * (E + (dims.prod : ℕ))), ?_⟩
  intro u hu hE x
  rw [mixture_energy h γ hu] at hE
  refine Real.abs_le_sqrt ?_
  have h1 : ∑ x, ((u x).re ^ 2 / 2 - 1) ≤ ∑ x, ((u x).re ^ 4 / 4 - (u x).re ^ 2 / 2) :=
    Finset.sum_le_sum fun x _ => by nlinarith [sq_nonneg ((u x).re ^ 2 / 2 - 1)]
  have h2 : (u x).re ^ 2 / 2 ≤ ∑ x, (u x).re ^ 2 / 2 :=
    Finset.single_le_sum (f := fun x => (u x).re ^ 2 / 2) (fun _ _ => by positivity) (Finset.mem_univ x)
  have h3 : 0 ≤ γ * (∑ k, laplaceNumber dims k * ‖fft dims u k‖ ^ 2) / (2 * (dims.prod : ℕ)) :=
    div_nonneg (mul_nonneg hγ (Finset.sum_nonneg fun k _ => mul_nonneg (laplaceNumber_nonneg k) (by positivity))) (by positivity)
  rw [Finset.sum_sub_distrib] at h1
  have h4 : ∑ _x : Fin dims.prod, (1 : ℝ) = (dims.prod : ℕ) := by simp
  rw [h4] at h1
  unfold mixtureEnergy at hE
  linarith

/-- `m` is the model of the program after the equation has been added, and `M` what the solver gets from it. -/
structure MixtureReady {n : ℕ} (γ : ℝ) (m : EqModel n) (M : Model m.fields.length m.derived.length n) : Prop where
  added : (cahnHilliardModel n).addEquation cahnHilliardText = some m
  assembled : m.assemble (cahnHilliardScalars γ) = some M

/-- The stepper of the program: no filter and the frequencies of the grid, as `NewSolver` sets it up. -/
structure MixtureStepper (dims : List ℕ) (s : Stepper dims.prod) : Prop where
  filter : s.filter = none
  freq : s.freq = freqOf dims

/-- C147: the equation of the program is read without a panic, for all constants. -/
theorem c147_assembles (h : ∀ d ∈ dims, 0 < d) (γ : ℝ) :
    ∃ (m : EqModel dims.prod) (M : Model m.fields.length m.derived.length dims.prod), MixtureReady γ m M ∧ m.fields = ["conc".toList] := by
  obtain ⟨m, M, h1, h2, h3, -⟩ := text_polynomial h mixtureNames mixture_wellNamed "conc".toList (cahnHilliardModel dims.prod)
    mixture_starts rfl mixtureEquation mixture_oneField ⟨mixture_polynomial, fun _ _ => ⟨rfl, rfl⟩⟩ cahnHilliardText
    mixture_text (cahnHilliardScalars γ)
  exact ⟨m, M, ⟨h1, h3⟩, h2⟩

/-- The denominator of a step. -/
theorem mixture_denom {γ dt : ℝ} (hdt : 0 ≤ dt) (hlim : dt < 4 * γ) (x : ℝ) : 0 < 1 - dt * x + γ * dt * x ^ 2 := by
  have hγ : 0 < γ := by linarith
  rcases hdt.eq_or_lt with rfl | hd
  · norm_num
  · have e : 1 - dt * x + γ * dt * x ^ 2 = (γ * dt) * (x - 1 / (2 * γ)) ^ 2 + (1 - dt / (4 * γ)) := by
      field_simp
      ring
    have h1 : dt / (4 * γ) < 1 := by rw [div_lt_one (by linarith)]; exact hlim
    have h2 : 0 ≤ (γ * dt) * (x - 1 / (2 * γ)) ^ 2 := by positivity
    rw [e]
    linarith

theorem mixture_rate_ne {γ dt : ℝ} (hdt : 0 ≤ dt) (hlim : dt < 4 * γ) (k : Fin dims.prod) :
    1 - dt * implicitRate mixtureNames (cahnHilliardScalars γ) (freqOf dims) mixtureEquation k ≠ 0 := by
  rw [implicit_stiffness mixture_variational (mixture_real γ), mixture_stiffness]
  intro h0
  have : (1 - dt * -(laplaceNumber dims k ^ 1 * (γ * laplaceNumber dims k - 1)) : ℝ) = 0 := by exact_mod_cast h0
  have := mixture_denom hdt hlim (laplaceNumber dims k)
  nlinarith

/-- The map of a step. -/
noncomputable def mixtureMap (dims : List ℕ) (γ dt : ℝ) : Data dims.prod → Data dims.prod :=
  polynomialStep dims (stepTerms mixtureNames (cahnHilliardScalars γ) (freqOf dims) dt mixtureEquation)

theorem mixture_iterate (h : ∀ d ∈ dims, 0 < d) {γ : ℝ} {m : EqModel dims.prod} {M : Model m.fields.length m.derived.length dims.prod}
    (hm : MixtureReady γ m M) {s : Stepper dims.prod} (hs : MixtureStepper dims s) (hdt : 0 ≤ s.dt) (hlim : s.dt < 4 * γ)
    (st : Store m.fields.length m.derived.length dims.prod) (i : Fin m.fields.length) (steps : ℕ) :
    (eulerPropagate M steps (s, st)).2.fields i = (mixtureMap dims γ s.dt)^[steps] (st.fields i) := by
  obtain ⟨m', M', h1, h2, h3, h4⟩ := text_polynomial h mixtureNames mixture_wellNamed "conc".toList (cahnHilliardModel dims.prod)
    mixture_starts rfl mixtureEquation mixture_oneField ⟨mixture_polynomial, fun _ _ => ⟨rfl, rfl⟩⟩ cahnHilliardText
    mixture_text (cahnHilliardScalars γ)
  obtain rfl := Option.some.inj (h1.symm.trans hm.added)
  obtain rfl := Option.some.inj (h3.symm.trans hm.assembled)
  refine propagate_iterate (F := mixtureMap dims γ s.dt) ?_ st steps
  intro s' hd' hf' hfil' st'
  rw [h4 s' (hfil'.trans hs.filter) (by rw [hd', hf', hs.freq]; exact mixture_rate_ne hdt hlim) st' i, hd', hf', hs.freq]
  rfl

theorem mixtureMap_fft (h : ∀ d ∈ dims, 0 < d) {γ dt : ℝ} (hdt : 0 ≤ dt) (hlim : dt < 4 * γ) {u : Data dims.prod} (hu : IsReal u)
    (k : Fin dims.prod) :
    fft dims (mixtureMap dims γ dt u) k * ((1 - dt * laplaceNumber dims k + γ * dt * laplaceNumber dims k ^ 2 : ℝ) : ℂ) =
      fft dims u k - ((dt * laplaceNumber dims k : ℝ) : ℂ) * fft dims (fun x => u x ^ 3) k := by
  have e := step_energy h mixture_oneField (field_is mixture_oneField mixture_polynomial) mixture_variational (mixture_real γ)
    (mixture_rate_ne (dims := dims) hdt hlim) hu k
  have e2 : (fun x => ((bulkForce 1 mixtureNames (cahnHilliardScalars γ) mixtureEquation (u x).re : ℝ) : ℂ)) = fun x => u x ^ 3 := by
    funext x
    rw [(mixture_bulk γ _).2.1]
    have : u x = ((u x).re : ℂ) := Complex.ext (by simp) (by simp [hu x])
    rw [this]
    push_cast
    simp
  rw [e2, mixture_stiffness] at e
  unfold mixtureMap
  generalize fft dims (polynomialStep dims _ u) k = V at *
  push_cast at e ⊢
  linear_combination e

theorem mixtureMap_real (h : GoodDims (intDims dims)) (hl : LayoutOk dims) {γ dt : ℝ} (hdt : 0 ≤ dt) (hlim : dt < 4 * γ)
    {u : Data dims.prod} (hu : IsReal u) : IsReal (mixtureMap dims γ dt u) :=
  step_real h hl mixture_oneField (field_is mixture_oneField mixture_polynomial) mixture_variational (mixture_real γ)
    (mixture_rate_ne (dims := dims) hdt hlim) hu

section
variable (h : GoodDims (intDims dims)) (hl : LayoutOk dims) {γ : ℝ} {m : EqModel dims.prod}
  {M : Model m.fields.length m.derived.length dims.prod} (hm : MixtureReady γ m M) {s : Stepper dims.prod}
  (hs : MixtureStepper dims s) (hdt : 0 ≤ s.dt) (hlim : s.dt < 4 * γ)
  (st : Store m.fields.length m.derived.length dims.prod) (i : Fin m.fields.length) (hr : IsReal (st.fields i))
include h hl hm hs hdt hlim hr

theorem mixture_all_real (steps : ℕ) : IsReal ((eulerPropagate M steps (s, st)).2.fields i) := by
  rw [mixture_iterate (pos_of_goodDims h) hm hs hdt hlim]
  induction steps with
  | zero => exact hr
  | succ j ih =>
    rw [Function.iterate_succ_apply']
    exact mixtureMap_real h hl hdt hlim ih

/-- C147: every step of the program. For a time step below `4 γ` a real field stays real, and with `x = 4π²|f|²` each wave of the
field after the step, times `1 - dt x + γ dt x^2`, is that wave of the field before the step minus `dt x` times that wave
of the cube of the field before the step. -/
theorem c147_step (steps : ℕ) : IsReal ((eulerPropagate M steps (s, st)).2.fields i) ∧ ∀ k,
    fft dims ((eulerPropagate M (steps + 1) (s, st)).2.fields i) k *
        ((1 - s.dt * laplaceNumber dims k + γ * s.dt * laplaceNumber dims k ^ 2 : ℝ) : ℂ) =
      fft dims ((eulerPropagate M steps (s, st)).2.fields i) k - ((s.dt * laplaceNumber dims k : ℝ) : ℂ) *
        fft dims (fun x => (eulerPropagate M steps (s, st)).2.fields i x ^ 3) k := by
  have hr' := mixture_all_real h hl hm hs hdt hlim st i hr steps
  refine ⟨hr', fun k => ?_⟩
  rw [mixture_iterate (pos_of_goodDims h) hm hs hdt hlim st i (steps + 1), Function.iterate_succ_apply',
    ← mixture_iterate (pos_of_goodDims h) hm hs hdt hlim st i steps]
  exact mixtureMap_fft (pos_of_goodDims h) hdt hlim hr' k

/-- C147: the amount of material is kept. -/
theorem c147_total (steps : ℕ) :
    ∑ x, (eulerPropagate M steps (s, st)).2.fields i x = ∑ x, st.fields i x := by
  have hpos := pos_of_goodDims h
  have hp : 0 < dims.prod := Nat.pos_of_ne_zero (by exact_mod_cast prod_ne_zero hpos)
  induction steps with
  | zero => rfl
  | succ j ih =>
    rw [← ih]
    have e := (c147_step h hl hm hs hdt hlim st i hr j).2 ⟨0, hp⟩
    rw [laplace_origin h _ rfl, fft_zero_bin _ _ rfl, fft_zero_bin _ _ rfl] at e
    simpa using e

/-- C147: the energy. A step in which the values stay between `-b` and `b`, with a time step of at most `8 γ/(3 b^2 + 1)^2`,
does not raise the energy. -/
theorem c147_energy {b : ℝ} (hb : s.dt * (3 * b ^ 2 + 1) ^ 2 ≤ 8 * γ) (steps : ℕ)
    (h1 : ∀ x, |((eulerPropagate M steps (s, st)).2.fields i x).re| ≤ b)
    (h2 : ∀ x, |((eulerPropagate M (steps + 1) (s, st)).2.fields i x).re| ≤ b) :
    mixtureEnergy γ ((eulerPropagate M (steps + 1) (s, st)).2.fields i) ≤
      mixtureEnergy γ ((eulerPropagate M steps (s, st)).2.fields i) := by
  have hpos := pos_of_goodDims h
  have r1 := mixture_all_real h hl hm hs hdt hlim st i hr steps
  have r2 := mixture_all_real h hl hm hs hdt hlim st i hr (steps + 1)
  have hγ : 0 < γ := by linarith
  rw [← mixture_energy hpos γ r1, ← mixture_energy hpos γ r2]
  have e : (eulerPropagate M (steps + 1) (s, st)).2.fields i = mixtureMap dims γ s.dt ((eulerPropagate M steps (s, st)).2.fields i) := by
    rw [mixture_iterate hpos hm hs hdt hlim st i (steps + 1), Function.iterate_succ_apply',
      ← mixture_iterate hpos hm hs hdt hlim st i steps]
  have key := polynomial_energy (ε := 0) (K := 3 * b ^ 2) (lo := -b) (hi := b) h hl mixture_oneField
    (field_is mixture_oneField mixture_polynomial) mixture_variational (mixture_real γ) hdt
    (mixture_rate_ne (dims := dims) hdt hlim) r1 e.symm (fun x => abs_le.mp (h1 x)) (fun x => abs_le.mp (h2 x)) (fun t ht => by
        rw [(mixture_bulk γ t).2.2]
        have := sq_le_sq' ht.1 ht.2
        linarith) (fun k => by
        rw [mixture_stiffness, pow_one]
        generalize laplaceNumber dims k = q
        generalize hB : 3 * b ^ 2 + 1 = B at hb
        have h6 : q * B - γ * q ^ 2 ≤ B ^ 2 / (4 * γ) := by
          rw [le_div_iff₀ (by linarith)]
          nlinarith [sq_nonneg (2 * γ * q - B)]
        have h7 := mul_le_mul_of_nonneg_left h6 hdt
        have h8 : s.dt * (B ^ 2 / (4 * γ)) ≤ 2 := by
          rw [← mul_div_assoc, div_le_iff₀ (by linarith)]
          linarith
        have h9 : s.dt * q * (2 * 0 + 3 * b ^ 2 - (γ * q - 1)) = s.dt * (q * B - γ * q ^ 2) := by rw [← hB]; ring
        rw [h9]
        linarith)
  linarith

end

/-- C147: all steps. For every energy there is a time step below which all real fields of at most this energy stay real and
bounded, never gain energy, and come to rest: the rate of change that the equation spells tends to zero at every node. -/
theorem c147_rest (h : GoodDims (intDims dims)) (hl : LayoutOk dims) {γ : ℝ} (hγ : 0 ≤ γ) {m : EqModel dims.prod}
    {M : Model m.fields.length m.derived.length dims.prod} (hm : MixtureReady γ m M) (E : ℝ) :
    ∃ dt0 R : ℝ, 0 < dt0 ∧ ∀ s : Stepper dims.prod, MixtureStepper dims s → 0 < s.dt → s.dt ≤ dt0 →
      ∀ (st : Store m.fields.length m.derived.length dims.prod) (i : Fin m.fields.length), IsReal (st.fields i) →
        mixtureEnergy γ (st.fields i) ≤ E →
        (∀ steps, IsReal ((eulerPropagate M steps (s, st)).2.fields i)) ∧
        (∀ steps x, |((eulerPropagate M steps (s, st)).2.fields i x).re| ≤ R) ∧
        Antitone (fun steps => mixtureEnergy γ ((eulerPropagate M steps (s, st)).2.fields i)) ∧
        ∀ (U : ℕ → Str → Data dims.prod), (∀ steps, U steps "conc".toList = (eulerPropagate M steps (s, st)).2.fields i) →
          ∀ x, Tendsto (fun steps => Equation.value mixtureNames (spectralLaplacian (fft dims)
            (fun x => divRealScalar (ifft dims x) (dims.prod : ℕ)) (freqOf dims)) (cahnHilliardScalars γ) (U steps)
            mixtureEquation x) atTop (𝓝 0) := by
  have hpos := pos_of_goodDims h
  obtain ⟨m', M', h1, h2, h3, h4⟩ := c131_rest h hl mixtureNames mixture_wellNamed "conc".toList (cahnHilliardModel dims.prod)
    mixture_starts rfl mixtureEquation mixture_oneField ⟨mixture_polynomial, fun _ _ => ⟨rfl, rfl⟩⟩ cahnHilliardText
    mixture_text (cahnHilliardScalars γ) 1 mixture_variational (mixture_real γ) (mixture_confining hpos hγ)
  obtain rfl := Option.some.inj (h1.symm.trans hm.added)
  obtain rfl := Option.some.inj (h3.symm.trans hm.assembled)
  obtain ⟨dt0, R, hd, key⟩ := h4 E
  refine ⟨dt0, R, hd, ?_⟩
  intro s hs hdt hle st i hr hE
  obtain ⟨k1, k2, k3, k4⟩ := key s hs.filter hs.freq hdt hle st i hr (by rw [mixture_energy hpos _ hr]; exact hE)
  refine ⟨k1, k2, ?_, k4⟩
  have : (fun steps => mixtureEnergy γ ((eulerPropagate M' steps (s, st)).2.fields i)) =
      fun steps => energy 1 mixtureNames (cahnHilliardScalars γ) mixtureEquation ((eulerPropagate M' steps (s, st)).2.fields i) := by
    funext j
    rw [mixture_energy hpos _ (k1 j)]
  rw [this]
  exact k3

/-! ### Stripes -/

/-- A field of which every node is `1` or `-1` and all waves of which have the number `q`. -/
structure Stripes (dims : List ℕ) (q : ℝ) (w : Data dims.prod) : Prop where
  signs : ∀ x, w x = 1 ∨ w x = -1
  waves : ∀ k, fft dims w k ≠ 0 → laplaceNumber dims k = q

/-- The amplitude of stripes after a number of steps. -/
noncomputable def stripeAmplitude (γ dt q : ℝ) (a : ℝ) : ℕ → ℝ
  | 0 => a
  | j + 1 => stripeAmplitude γ dt q a j * (1 - dt * q * stripeAmplitude γ dt q a j ^ 2) / (1 - dt * q + γ * dt * q ^ 2)

theorem stripes_real {q : ℝ} {w : Data dims.prod} (hw : Stripes dims q w) (a : ℝ) : IsReal fun x => (a : ℂ) * w x := by
  intro x
  rcases hw.signs x with e | e <;> simp [e]

theorem stripes_cube {q : ℝ} {w : Data dims.prod} (hw : Stripes dims q w) (a : ℝ) (x : Fin dims.prod) :
    ((a : ℂ) * w x) ^ 3 = ((a ^ 3 : ℝ) : ℂ) * w x := by
  rcases hw.signs x with e | e <;> rw [e] <;> push_cast <;> ring

theorem stripes_map (h : ∀ d ∈ dims, 0 < d) {γ dt q : ℝ} (hdt : 0 ≤ dt) (hlim : dt < 4 * γ) {w : Data dims.prod}
    (hw : Stripes dims q w) (a : ℝ) :
    mixtureMap dims γ dt (fun x => (a : ℂ) * w x) =
      fun x => ((a * (1 - dt * q * a ^ 2) / (1 - dt * q + γ * dt * q ^ 2) : ℝ) : ℂ) * w x := by
  apply fft_injective h
  funext k
  have hne : ((1 - dt * laplaceNumber dims k + γ * dt * laplaceNumber dims k ^ 2 : ℝ) : ℂ) ≠ 0 := by
    exact_mod_cast (mixture_denom hdt hlim (laplaceNumber dims k)).ne'
  refine mul_right_cancel₀ hne ((mixtureMap_fft h hdt hlim (stripes_real hw a) k).trans ?_)
  have e3 : (fun x => ((a : ℂ) * w x) ^ 3) = fun x => ((a ^ 3 : ℝ) : ℂ) * w x := funext (stripes_cube hw a)
  rw [e3, fft_smul, fft_smul, fft_smul]
  by_cases h0 : fft dims w k = 0
  · rw [h0]; ring
  · have hq := hw.waves k h0
    rw [hq] at hne ⊢
    generalize fft dims w k = W
    have hA := (mixture_denom hdt hlim q).ne'
    generalize hAd : 1 - dt * q + γ * dt * q ^ 2 = A at *
    have e : ((a * (1 - dt * q * a ^ 2) / A : ℝ) : ℂ) * (A : ℂ) = ((a * (1 - dt * q * a ^ 2) : ℝ) : ℂ) := by
      rw [← Complex.ofReal_mul, div_mul_cancel₀ _ hA]
    refine Eq.trans ?_ ((congrArg (fun z => z * W) e.symm).trans (by ring))
    push_cast
    ring

section
variable (h : GoodDims (intDims dims)) {γ : ℝ} {m : EqModel dims.prod}
  {M : Model m.fields.length m.derived.length dims.prod} (hm : MixtureReady γ m M) {s : Stepper dims.prod}
  (hs : MixtureStepper dims s) (hdt : 0 < s.dt) (hlim : s.dt < 4 * γ) {q : ℝ} {w : Data dims.prod} (hw : Stripes dims q w)
  (st : Store m.fields.length m.derived.length dims.prod) (i : Fin m.fields.length) (a : ℝ) (hst : ∀ x, st.fields i x = a * w x)
include h hm hs hdt hlim hw hst

theorem stripes_run (steps : ℕ) (x : Fin dims.prod) :
    (eulerPropagate M steps (s, st)).2.fields i x = (stripeAmplitude γ s.dt q a steps : ℂ) * w x := by
  have hpos := pos_of_goodDims h
  have key : (mixtureMap dims γ s.dt)^[steps] (st.fields i) = fun x => (stripeAmplitude γ s.dt q a steps : ℂ) * w x := by
    induction steps with
    | zero => exact funext hst
    | succ j ih =>
      rw [Function.iterate_succ_apply', ih, stripes_map hpos hdt.le hlim hw]
      rfl
  rw [mixture_iterate hpos hm hs hdt.le hlim]
  exact congrFun key x

end

/-- What a step does to an amplitude. -/
theorem stripe_ratio (γ dt q a : ℝ) {A : ℝ} (hA : A = 1 - dt * q + γ * dt * q ^ 2) (hApos : 0 < A) (j : ℕ) :
    |stripeAmplitude γ dt q a (j + 1)| = |stripeAmplitude γ dt q a j| * (|1 - dt * q * stripeAmplitude γ dt q a j ^ 2| / A) := by
  rw [stripeAmplitude, ← hA, abs_div, abs_mul, abs_of_pos hApos, mul_div_assoc]

theorem stripe_grows {γ dt q a : ℝ} (hdt : 0 < dt) (hlim : dt < 4 * γ) (hq : 0 < q)
    (ha : 2 - dt * q + γ * dt * q ^ 2 < dt * q * a ^ 2) :
    ∃ r : ℝ, 1 < r ∧ ∀ j, r ^ j * |a| ≤ |stripeAmplitude γ dt q a j| := by
  have hA := mixture_denom hdt.le hlim q
  generalize hAd : 1 - dt * q + γ * dt * q ^ 2 = A at *
  have hc : 0 < dt * q := mul_pos hdt hq
  refine ⟨(dt * q * a ^ 2 - 1) / A, by rw [lt_div_iff₀ hA]; linarith, ?_⟩
  set r := (dt * q * a ^ 2 - 1) / A with hr
  have hr1 : 1 < r := by rw [hr, lt_div_iff₀ hA]; linarith
  intro j
  induction j with
  | zero => simp [stripeAmplitude]
  | succ j ih =>
    rw [stripe_ratio γ dt q a hAd.symm hA]
    set y := stripeAmplitude γ dt q a j with hy
    have h1 : |a| ≤ |y| := le_trans (le_mul_of_one_le_left (abs_nonneg a) (one_le_pow₀ hr1.le)) ih
    have h2 : a ^ 2 ≤ y ^ 2 := sq_le_sq.mpr h1
    have h3 : r ≤ |1 - dt * q * y ^ 2| / A := by
      rw [hr]
      apply div_le_div_of_nonneg_right _ hA.le
      have := mul_le_mul_of_nonneg_left h2 hc.le
      have h4 := neg_abs_le (1 - dt * q * y ^ 2)
      linarith
    calc r ^ (j + 1) * |a| = (r ^ j * |a|) * r := by ring
      _ ≤ |y| * r := mul_le_mul_of_nonneg_right ih (by linarith)
      _ ≤ _ := mul_le_mul_of_nonneg_left h3 (abs_nonneg y)

theorem stripe_decays {γ dt q a : ℝ} (hdt : 0 < dt) (hlim : dt < 4 * γ) (hq : 0 < q) (hγ : 1 < γ * q)
    (ha : dt * q * a ^ 2 < 2 - dt * q + γ * dt * q ^ 2) :
    ∃ r : ℝ, r < 1 ∧ 0 ≤ r ∧ ∀ j, |stripeAmplitude γ dt q a j| ≤ r ^ j * |a| := by
  have hA := mixture_denom hdt.le hlim q
  have hc : 0 < dt * q := mul_pos hdt hq
  have hA1 : 1 < 1 - dt * q + γ * dt * q ^ 2 := by nlinarith
  generalize hAd : 1 - dt * q + γ * dt * q ^ 2 = A at *
  refine ⟨max (1 / A) ((dt * q * a ^ 2 - 1) / A), ?_, le_max_of_le_left (by positivity), ?_⟩
  · refine max_lt ?_ ?_
    · rw [div_lt_one hA]; exact hA1
    · rw [div_lt_one hA]; linarith
  set r := max (1 / A) ((dt * q * a ^ 2 - 1) / A) with hr
  have hr0 : 0 ≤ r := le_max_of_le_left (by positivity)
  have hr1 : r ≤ 1 := by
    refine max_le ?_ ?_
    · rw [div_le_one hA]; exact hA1.le
    · rw [div_le_one hA]; linarith
  intro j
  induction j with
  | zero => simp [stripeAmplitude]
  | succ j ih =>
    rw [stripe_ratio γ dt q a hAd.symm hA]
    set y := stripeAmplitude γ dt q a j with hy
    have h1 : |y| ≤ |a| := ih.trans (mul_le_of_le_one_left (abs_nonneg a) (pow_le_one₀ hr0 hr1))
    have h2 : y ^ 2 ≤ a ^ 2 := sq_le_sq.mpr h1
    have h3 : |1 - dt * q * y ^ 2| / A ≤ r := by
      have := mul_le_mul_of_nonneg_left h2 hc.le
      rcases abs_cases (1 - dt * q * y ^ 2) with ⟨e, -⟩ | ⟨e, -⟩
      · refine le_trans ?_ (le_max_left _ _)
        apply div_le_div_of_nonneg_right _ hA.le
        rw [e]
        have : 0 ≤ dt * q * y ^ 2 := by positivity
        linarith
      · refine le_trans ?_ (le_max_right _ _)
        apply div_le_div_of_nonneg_right _ hA.le
        rw [e]
        linarith
    calc |y| * (|1 - dt * q * y ^ 2| / A) ≤ (r ^ j * |a|) * r :=
        mul_le_mul ih h3 (by positivity) (by positivity)
      _ = _ := by ring

theorem stripe_flips {γ dt q a : ℝ} (hdt : 0 < dt) (hlim : dt < 4 * γ)
    (ha : dt * q * a ^ 2 = 2 - dt * q + γ * dt * q ^ 2) (j : ℕ) : stripeAmplitude γ dt q a j = (-1) ^ j * a := by
  have hA := mixture_denom hdt.le hlim q
  induction j with
  | zero => simp [stripeAmplitude]
  | succ j ih =>
    rw [stripeAmplitude, div_eq_iff hA.ne', ih]
    have e : ((-1 : ℝ) ^ j * a) ^ 2 = a ^ 2 := by
      rw [mul_pow, ← pow_mul, mul_comm j 2, pow_mul]
      norm_num
    rw [e, pow_succ (-1 : ℝ) j, show 1 - dt * q * a ^ 2 = -(1 - dt * q + γ * dt * q ^ 2) by linarith]
    ring

section
variable (h : GoodDims (intDims dims)) {γ : ℝ} {m : EqModel dims.prod}
  {M : Model m.fields.length m.derived.length dims.prod} (hm : MixtureReady γ m M) {s : Stepper dims.prod}
  (hs : MixtureStepper dims s) (hdt : 0 < s.dt) (hlim : s.dt < 4 * γ) {q : ℝ} (hq : 0 < q) {w : Data dims.prod} (hw : Stripes dims q w)
  (st : Store m.fields.length m.derived.length dims.prod) (i : Fin m.fields.length) (a : ℝ) (hst : ∀ x, st.fields i x = a * w x)
include h hm hs hdt hlim hw hst

/-- C147: stripes. A field of stripes `a` and `-a` all waves of which have the number `q` stays one of stripes, and its amplitude
decides what happens. Above the amplitude with `dt q a^2 = 2 - dt q + γ dt q^2` the values at all nodes grow without
bound; at it all nodes change sign in every step, for ever; below it, if `1 < γ q`, the stripes disappear. -/
theorem c147_stripes (hq : 0 < q) :
    (2 - s.dt * q + γ * s.dt * q ^ 2 < s.dt * q * a ^ 2 → ∃ r : ℝ, 1 < r ∧ ∀ steps x,
      r ^ steps * |a| ≤ ‖(eulerPropagate M steps (s, st)).2.fields i x‖) ∧
    (s.dt * q * a ^ 2 = 2 - s.dt * q + γ * s.dt * q ^ 2 → ∀ steps x,
      (eulerPropagate M steps (s, st)).2.fields i x = (-1) ^ steps * st.fields i x) ∧
    (s.dt * q * a ^ 2 < 2 - s.dt * q + γ * s.dt * q ^ 2 → 1 < γ * q → ∃ r : ℝ, r < 1 ∧ 0 ≤ r ∧ ∀ steps x,
      ‖(eulerPropagate M steps (s, st)).2.fields i x‖ ≤ r ^ steps * |a|) := by
  have run := stripes_run h hm hs hdt hlim hw st i a hst
  have hn : ∀ (z : ℝ) x, ‖(z : ℂ) * w x‖ = |z| := by
    intro z x
    rcases hw.signs x with e | e <;> rw [e] <;> simp
  refine ⟨fun ha => ?_, fun ha steps x => ?_, fun ha hg => ?_⟩
  · obtain ⟨r, h1, h2⟩ := stripe_grows hdt hlim hq ha
    refine ⟨r, h1, fun steps x => ?_⟩
    rw [run, hn]
    exact h2 steps
  · rw [run, stripe_flips hdt hlim ha, hst]
    push_cast
    ring
  · obtain ⟨r, h1, h0, h2⟩ := stripe_decays hdt hlim hq hg ha
    refine ⟨r, h1, h0, fun steps x => ?_⟩
    rw [run, hn]
    exact h2 steps

end

/-- Stripes one node wide across the side `j`. -/
def singleStripes (dims : List ℕ) (j : ℕ) : Data dims.prod := fun x => if coord dims x.val j % 2 = 0 then 1 else -1

/-- Stripes two nodes wide across the side `j`. -/
def doubleStripes (dims : List ℕ) (j : ℕ) : Data dims.prod := fun x => if coord dims x.val j % 4 < 2 then 1 else -1

theorem turning_rest (j p r : ℕ) (hp : 0 < p) (x : Fin dims.prod) (hx : coord dims x.val j % (p : ℤ) = r) :
    turning dims j p x = cis (1 / p) ^ r := by
  unfold turning
  rw [← cis_nsmul]
  have hp' : (p : ℚ) ≠ 0 := by exact_mod_cast hp.ne'
  have e : ((coord dims x.val j : ℤ) : ℚ) = p * ((coord dims x.val j / (p : ℤ) : ℤ) : ℚ) + r := by
    have := Int.mul_ediv_add_emod (coord dims x.val j) p
    rw [hx] at this
    exact_mod_cast this.symm
  have : (coord dims x.val j : ℚ) / p = ((coord dims x.val j / (p : ℤ) : ℤ) : ℚ) + r * (1 / p) := by
    rw [e]
    field_simp
  rw [this, cis_add, cis_int, one_mul]

theorem single_comb (j : ℕ) : singleStripes dims j = comb dims j 2 fun r => if r = 1 then 1 else 0 := by
  have hc : cis (1 / ((2 : ℕ) : ℚ)) = -1 := by
    unfold cis
    rw [← Complex.exp_pi_mul_I]
    congr 1
    push_cast
    ring
  funext x
  unfold singleStripes comb
  simp only [Finset.sum_range_succ, Finset.sum_range_zero]
  norm_num
  have h2 : coord dims x.val j % ((2 : ℕ) : ℤ) = 0 ∨ coord dims x.val j % ((2 : ℕ) : ℤ) = 1 := by omega
  rcases h2 with e | e
  · rw [turning_rest j 2 0 (by norm_num) x e, if_pos (by push_cast at e; omega)]
    simp
  · rw [turning_rest j 2 1 (by norm_num) x e, if_neg (by push_cast at e; omega), hc]
    simp

noncomputable def doubleWaves (r : ℕ) : ℂ := if r = 1 then (1 - Complex.I) / 2 else if r = 3 then (1 + Complex.I) / 2 else 0

theorem double_comb (j : ℕ) : doubleStripes dims j = comb dims j 4 doubleWaves := by
  have hc : cis (1 / ((4 : ℕ) : ℚ)) = Complex.I := by
    unfold cis
    have : (2 * (Real.pi : ℂ) * Complex.I * ((1 / ((4 : ℕ) : ℚ) : ℚ) : ℂ)) = (Real.pi : ℂ) / 2 * Complex.I := by
      push_cast
      ring
    rw [this, Complex.exp_mul_I, Complex.cos_pi_div_two, Complex.sin_pi_div_two]
    simp
  funext x
  unfold doubleStripes comb doubleWaves
  simp only [Finset.sum_range_succ, Finset.sum_range_zero]
  norm_num
  have I2 : Complex.I ^ 2 = -1 := Complex.I_sq
  have h2 : coord dims x.val j % ((4 : ℕ) : ℤ) = 0 ∨ coord dims x.val j % ((4 : ℕ) : ℤ) = 1 ∨
    coord dims x.val j % ((4 : ℕ) : ℤ) = 2 ∨ coord dims x.val j % ((4 : ℕ) : ℤ) = 3 := by omega
  rcases h2 with e | e | e | e
  · rw [turning_rest j 4 0 (by norm_num) x e, if_pos (by push_cast at e; omega)]
    ring
  · rw [turning_rest j 4 1 (by norm_num) x e, if_pos (by push_cast at e; omega), hc]
    linear_combination (-1 / 2 * (Complex.I ^ 2 + Complex.I - 2)) * I2
  · rw [turning_rest j 4 2 (by norm_num) x e, if_neg (by push_cast at e; omega), hc, I2]
    ring
  · rw [turning_rest j 4 3 (by norm_num) x e, if_neg (by push_cast at e; omega), hc]
    have I3 : Complex.I ^ 3 = -Complex.I := by rw [pow_succ, I2]; ring
    rw [I3]
    linear_combination (1 / 2 * (Complex.I ^ 2 + Complex.I - 2)) * I2

theorem comb_waves (h : GoodDims (intDims dims)) (hl : LayoutOk dims) (j : Fin dims.length) {p b : ℕ} (hj : dims[j] = p * b) (c : ℕ → ℂ)
    {q : ℝ} (hq : ∀ r < p, c r ≠ 0 → 4 * Real.pi ^ 2 * ((phi r p : ℚ) : ℝ) ^ 2 = q) (k : Fin dims.prod)
    (hk : fft dims (comb dims j p c) k ≠ 0) : laplaceNumber dims k = q := by
  rw [fft_comb] at hk
  obtain ⟨r, hr, hne⟩ := Finset.exists_ne_zero_of_sum_ne_zero hk
  obtain ⟨κ, -, e2, e3⟩ := comb_bin h hl j hj (Finset.mem_range.mp hr)
  rw [e3] at hne
  by_cases hkk : k = κ
  · rw [hkk, e2]
    exact hq r (Finset.mem_range.mp hr) (left_ne_zero_of_mul hne)
  · rw [if_neg hkk, mul_zero] at hne
    exact absurd rfl hne

/-- C147: stripes one node wide across an even side have the number `π²`, stripes two nodes wide across a side that four
divides have `π²/4`. -/
theorem c147_widths (h : GoodDims (intDims dims)) (hl : LayoutOk dims) (j : Fin dims.length) :
    (∀ b, dims[j] = 2 * b → Stripes dims (Real.pi ^ 2) (singleStripes dims j)) ∧
    (∀ b, dims[j] = 4 * b → Stripes dims (Real.pi ^ 2 / 4) (doubleStripes dims j)) := by
  refine ⟨fun b hb => ⟨fun x => ?_, fun k hk => ?_⟩, fun b hb => ⟨fun x => ?_, fun k hk => ?_⟩⟩
  · unfold singleStripes
    split_ifs <;> simp
  · rw [single_comb] at hk
    refine comb_waves h hl j hb _ ?_ k hk
    intro r hr hne
    have : r = 1 := by by_contra h1; simp [h1] at hne
    subst this
    have : phi ((1 : ℕ) : ℤ) ((2 : ℕ) : ℤ) = 1 / 2 ∨ phi ((1 : ℕ) : ℤ) ((2 : ℕ) : ℤ) = -1 / 2 := by decide +kernel
    rcases this with e | e <;> rw [e] <;> push_cast <;> ring
  · unfold doubleStripes
    split_ifs <;> simp
  · rw [double_comb] at hk
    refine comb_waves h hl j hb _ ?_ k hk
    intro r hr hne
    have p1 : phi ((1 : ℕ) : ℤ) ((4 : ℕ) : ℤ) = 1 / 4 := by decide +kernel
    have p3 : phi ((3 : ℕ) : ℤ) ((4 : ℕ) : ℤ) = -1 / 4 := by decide +kernel
    have : r = 1 ∨ r = 3 := by
      unfold doubleWaves at hne
      by_contra h1
      push Not at h1
      simp [h1.1, h1.2] at hne
    rcases this with rfl | rfl
    · rw [p1]; push_cast; ring
    · rw [p3]; push_cast; ring

/-! ### Small waves -/

theorem mixture_linearised (γ z : ℝ) (k : Fin dims.prod) :
    linearisedRate mixtureNames (cahnHilliardScalars γ) (freqOf dims) mixtureEquation z k =
      ((laplaceNumber dims k * (1 - 3 * z ^ 2) - γ * laplaceNumber dims k ^ 2 : ℝ) : ℂ) := by
  obtain ⟨c1, c2, c3⟩ := mixture_coeff γ
  have d1 : degree mixtureNames (mixtureCube, none) = 3 := by decide +kernel
  have d2 : degree mixtureNames (mixtureLap, some '+') = 1 := by decide +kernel
  have d3 : degree mixtureNames (mixtureLap2, some '+') = 1 := by decide +kernel
  have l0 : (laplacians mixtureCube).sum = 1 := by decide +kernel
  have l1 : (laplacians mixtureLap).sum = 1 := by decide +kernel
  have l2 : (laplacians mixtureLap2).sum = 2 := by decide +kernel
  unfold linearisedRate
  rw [mixture_terms]
  simp only [List.map_cons, List.map_nil, List.sum_cons, List.sum_nil, c1, c2, c3, d1, d2, d3, l0, l1, l2, symbol_laplaceNumber]
  push_cast
  ring

theorem mixture_implicit (γ : ℝ) (k : Fin dims.prod) :
    implicitRate mixtureNames (cahnHilliardScalars γ) (freqOf dims) mixtureEquation k =
      ((laplaceNumber dims k - γ * laplaceNumber dims k ^ 2 : ℝ) : ℂ) := by
  rw [implicit_stiffness mixture_variational (mixture_real γ), mixture_stiffness]
  push_cast
  ring

theorem mixture_divergence : Equation.Divergence mixtureEquation := by
  unfold Equation.Divergence
  decide +kernel

/-- C147: mixing and unmixing. Every uniform mixture rests. To first order in the size of a perturbation every step multiplies
the wave `k` of it by a number that is above one exactly if `γ x < 1 - 3 z^2`, for all time steps below `4 γ`: inside the
spinodal (`3 z^2 < 1`) long waves grow, for every grid and time step. -/
theorem c147_spinodal (h : GoodDims (intDims dims)) {γ : ℝ} {m : EqModel dims.prod}
    {M : Model m.fields.length m.derived.length dims.prod} (hm : MixtureReady γ m M) {s : Stepper dims.prod}
    (hs : MixtureStepper dims s) (hdt : 0 < s.dt) (hlim : s.dt < 4 * γ) (z : ℝ)
    (y : ℂ → Store m.fields.length m.derived.length dims.prod) (v : Data dims.prod) (i : Fin m.fields.length)
    (hy : ∀ x, (y 0).fields i x = z) (hv : ∀ x, HasDerivAt (fun ε => (y ε).fields i x) (v x) 0) :
    ∃ g : Fin dims.prod → ℝ, (∀ steps,
        (∀ x, (eulerPropagate M steps (s, y 0)).2.fields i x = z) ∧
        ∃ w : Data dims.prod, (∀ x, HasDerivAt (fun ε => (eulerPropagate M steps (s, y ε)).2.fields i x) (w x) 0) ∧
          ∀ k, fft dims w k = (g k : ℂ) ^ steps * fft dims v k) ∧
      ∀ k, 0 < laplaceNumber dims k → (1 < g k ↔ γ * laplaceNumber dims k < 1 - 3 * z ^ 2) := by
  obtain ⟨m', M', h1, h2, h3, h4⟩ := c126_waves h mixtureNames mixture_wellNamed "conc".toList (cahnHilliardModel dims.prod)
    mixture_starts rfl mixtureEquation mixture_oneField ⟨mixture_polynomial, fun _ _ => ⟨rfl, rfl⟩⟩ cahnHilliardText
    mixture_text (cahnHilliardScalars γ)
  obtain rfl := Option.some.inj (h1.symm.trans hm.added)
  obtain rfl := Option.some.inj (h3.symm.trans hm.assembled)
  have hz : uniformRate mixtureNames (cahnHilliardScalars γ) mixtureEquation (z : ℂ) = 0 := by
    apply List.sum_eq_zero
    intro y hy
    obtain ⟨p, hp, rfl⟩ := List.mem_map.mp hy
    rw [if_neg (mixture_divergence p hp)]
  have key := h4 z hz s hs.filter hs.freq (mixture_rate_ne hdt.le hlim) y v i hy hv
  have e : ∀ k : Fin dims.prod, perturbationFactor mixtureNames (cahnHilliardScalars γ) (freqOf dims) s.dt mixtureEquation z k =
      ((1 + s.dt * (laplaceNumber dims k * (1 - 3 * z ^ 2) - γ * laplaceNumber dims k ^ 2) /
        (1 - s.dt * laplaceNumber dims k + γ * s.dt * laplaceNumber dims k ^ 2) : ℝ) : ℂ) := by
    intro k
    rw [perturbationFactor, mixture_linearised, mixture_implicit]
    push_cast
    ring
  refine ⟨fun k => 1 + s.dt * (laplaceNumber dims k * (1 - 3 * z ^ 2) - γ * laplaceNumber dims k ^ 2) /
        (1 - s.dt * laplaceNumber dims k + γ * s.dt * laplaceNumber dims k ^ 2), fun steps => ?_, fun k hk => ?_⟩
  · obtain ⟨k1, w, k2, k3⟩ := key steps
    exact ⟨k1, w, k2, fun k => by rw [k3, e]⟩
  · have hA := mixture_denom hdt.le hlim (laplaceNumber dims k)
    dsimp only
    generalize laplaceNumber dims k = q at hA hk ⊢
    have e2 : s.dt * (q * (1 - 3 * z ^ 2) - γ * q ^ 2) = (s.dt * q) * (1 - 3 * z ^ 2 - γ * q) := by ring
    rw [lt_add_iff_pos_right, div_pos_iff_of_pos_right hA, e2, mul_pos_iff_of_pos_left (mul_pos hdt hk)]
    constructor <;> intro h5 <;> linarith

/-- C147: outside the spinodal mixtures mix. If `3 z^2 > 1` and `dt (3 z^2 + 1)^2 < 8 γ`, fields that are close enough to the
uniform mixture `z` and have mean `z` converge to it, on every grid. -/
theorem c147_mixes (h : GoodDims (intDims dims)) {γ : ℝ} {m : EqModel dims.prod}
    {M : Model m.fields.length m.derived.length dims.prod} (hm : MixtureReady γ m M) {s : Stepper dims.prod}
    (hs : MixtureStepper dims s) (hdt : 0 < s.dt) (hlim : s.dt < 4 * γ) {z : ℝ} (hz : 1 < 3 * z ^ 2)
    (hb : s.dt * (3 * z ^ 2 + 1) ^ 2 < 8 * γ) :
    ∃ δ C q : ℝ, 0 < δ ∧ q < 1 ∧ 0 ≤ q ∧ ∀ (st : Store m.fields.length m.derived.length dims.prod)
      (i : Fin m.fields.length), (∀ x, ‖st.fields i x - z‖ < δ) → ∑ x, st.fields i x = ∑ _x : Fin dims.prod, (z : ℂ) →
      ∀ steps x, ‖(eulerPropagate M steps (s, st)).2.fields i x - z‖ ≤ C * q ^ steps := by
  obtain ⟨m', M', h1, h2, h3, h4⟩ := c126_conserved h mixtureNames mixture_wellNamed "conc".toList (cahnHilliardModel dims.prod)
    mixture_starts rfl mixtureEquation mixture_oneField ⟨mixture_polynomial, fun _ _ => ⟨rfl, rfl⟩⟩ mixture_divergence
    cahnHilliardText mixture_text (cahnHilliardScalars γ)
  obtain rfl := Option.some.inj (h1.symm.trans hm.added)
  obtain rfl := Option.some.inj (h3.symm.trans hm.assembled)
  refine h4 z s hs.filter hs.freq (mixture_rate_ne hdt.le hlim) fun k hk => ?_
  have hq := laplaceNumber_pos h k hk
  have hA := mixture_denom hdt.le hlim (laplaceNumber dims k)
  rw [(c126_limit mixtureNames (cahnHilliardScalars γ) (freqOf dims) hdt mixtureEquation z k (mixture_linearised γ z k)
    (mixture_implicit γ k) (by linarith)).1]
  have hγ : 0 < γ := by linarith
  generalize laplaceNumber dims k = q at *
  have h5 : 0 < γ * q ^ 2 := by positivity
  constructor
  · have : q * (1 - 3 * z ^ 2) < 0 := mul_neg_of_pos_of_neg hq (by linarith)
    linarith
  · generalize hB : 3 * z ^ 2 + 1 = B at hb
    have h6 : q * B - γ * q ^ 2 ≤ B ^ 2 / (4 * γ) := by
      rw [le_div_iff₀ (by linarith)]
      nlinarith [sq_nonneg (2 * γ * q - B)]
    have h7 := mul_le_mul_of_nonneg_left h6 hdt.le
    have h8 : s.dt * (B ^ 2 / (4 * γ)) < 2 := by
      rw [← mul_div_assoc, div_lt_iff₀ (by linarith)]
      linarith
    have h9 : s.dt * -(q * (1 - 3 * z ^ 2) - γ * q ^ 2) = s.dt * (q * B - γ * q ^ 2) - 2 * s.dt * (q - γ * q ^ 2) := by
      rw [← hB]; ring
    rw [h9]
    linarith

/-! ### The program -/

/-- C147: the program. With `γ = 2` and a time step of 0.1, on every grid: the field stays real and the amount of material is
kept; steps in which the values stay between -1.97 and 1.97, which includes all values at the start, do not raise the energy;
stripes one node wide grow without bound if they are 4.6 high, and disappear if they are 4.5 high; stripes two nodes wide
grow without bound if they are 3.5 high, and disappear if they are 3.4 high. -/
theorem c147_program (h : GoodDims (intDims dims)) (hl : LayoutOk dims) :
    ∃ (m : EqModel dims.prod) (M : Model m.fields.length m.derived.length dims.prod), MixtureReady 2 m M ∧
      ∀ s : Stepper dims.prod, MixtureStepper dims s → s.dt = 1 / 10 →
      ∀ (st : Store m.fields.length m.derived.length dims.prod) (i : Fin m.fields.length),
      (CahnHilliardStart (st.fields i) →
        (∀ steps, IsReal ((eulerPropagate M steps (s, st)).2.fields i)) ∧
        (∀ steps, ∑ x, (eulerPropagate M steps (s, st)).2.fields i x = ∑ x, st.fields i x) ∧
        (∀ x, |(st.fields i x).re| ≤ 1.97) ∧
        ∀ steps, (∀ x, |((eulerPropagate M steps (s, st)).2.fields i x).re| ≤ 1.97) →
          (∀ x, |((eulerPropagate M (steps + 1) (s, st)).2.fields i x).re| ≤ 1.97) →
          mixtureEnergy 2 ((eulerPropagate M (steps + 1) (s, st)).2.fields i) ≤
            mixtureEnergy 2 ((eulerPropagate M steps (s, st)).2.fields i)) ∧
      ∀ (j : Fin dims.length) (b : ℕ),
        (dims[j] = 2 * b → (∀ x, st.fields i x = ((4.6 : ℝ) : ℂ) * singleStripes dims j x) →
          ∃ r : ℝ, 1 < r ∧ ∀ steps x, r ^ steps * 4.6 ≤ ‖(eulerPropagate M steps (s, st)).2.fields i x‖) ∧
        (dims[j] = 2 * b → (∀ x, st.fields i x = ((4.5 : ℝ) : ℂ) * singleStripes dims j x) →
          ∃ r : ℝ, r < 1 ∧ 0 ≤ r ∧ ∀ steps x, ‖(eulerPropagate M steps (s, st)).2.fields i x‖ ≤ r ^ steps * 4.5) ∧
        (dims[j] = 4 * b → (∀ x, st.fields i x = ((3.5 : ℝ) : ℂ) * doubleStripes dims j x) →
          ∃ r : ℝ, 1 < r ∧ ∀ steps x, r ^ steps * 3.5 ≤ ‖(eulerPropagate M steps (s, st)).2.fields i x‖) ∧
        (dims[j] = 4 * b → (∀ x, st.fields i x = ((3.4 : ℝ) : ℂ) * doubleStripes dims j x) →
          ∃ r : ℝ, r < 1 ∧ 0 ≤ r ∧ ∀ steps x, ‖(eulerPropagate M steps (s, st)).2.fields i x‖ ≤ r ^ steps * 3.4) := by
  obtain ⟨m, M, hm, -⟩ := c147_assembles (pos_of_goodDims h) 2
  refine ⟨m, M, hm, ?_⟩
  intro s hs hdt st i
  have d0 : 0 < s.dt := by rw [hdt]; norm_num
  have d4 : s.dt < 4 * 2 := by rw [hdt]; norm_num
  have π1 := Real.pi_gt_d4
  have π2 := Real.pi_lt_d4
  have P1 : (9.869 : ℝ) < Real.pi ^ 2 := by nlinarith
  have P2 : Real.pi ^ 2 < (9.87 : ℝ) := by nlinarith
  have e1 := c147_widths h hl
  refine ⟨fun hst => ?_, fun j b => ?_⟩
  · have hr : IsReal (st.fields i) := fun x => (hst x).1
    refine ⟨fun steps => (c147_step h hl hm hs d0.le d4 st i hr steps).1, c147_total h hl hm hs d0.le d4 st i hr, fun x => ?_, ?_⟩
    · obtain ⟨-, l1, l2⟩ := hst x
      rw [abs_le]
      constructor <;> linarith
    intro steps h1 h2
    exact c147_energy h hl hm hs d0.le d4 st i hr (b := 1.97) (by rw [hdt]; norm_num) steps h1 h2
  · generalize Real.pi ^ 2 = P at P1 P2 e1
    refine ⟨fun hb hst => ?_, fun hb hst => ?_, fun hb hst => ?_, fun hb hst => ?_⟩
    · have := (c147_stripes h hm hs d0 d4 ((e1 j).1 b hb) st i 4.6 hst (by linarith)).1 (by rw [hdt]; nlinarith)
      rwa [abs_of_pos (by norm_num)] at this
    · have := (c147_stripes h hm hs d0 d4 ((e1 j).1 b hb) st i 4.5 hst (by linarith)).2.2 (by rw [hdt]; nlinarith) (by linarith)
      rwa [abs_of_pos (by norm_num)] at this
    · have := (c147_stripes h hm hs d0 d4 ((e1 j).2 b hb) st i 3.5 hst (by linarith)).1 (by rw [hdt]; nlinarith)
      rwa [abs_of_pos (by norm_num)] at this
    · have := (c147_stripes h hm hs d0 d4 ((e1 j).2 b hb) st i 3.4 hst (by linarith)).2.2 (by rw [hdt]; nlinarith) (by linarith)
      rwa [abs_of_pos (by norm_num)] at this

/-- The grid of the program, a start, and the conditions of the theorems on energies, stripes and mixing. -/
example : GoodDims (intDims [128, 128]) ∧ LayoutOk [128, 128] ∧ ([128, 128] : List ℕ)[0] = 4 * 32 ∧
    (∃ u : Data ([128, 128] : List ℕ).prod, CahnHilliardStart u ∧ u ≠ 0) ∧ (1 / 10 : ℝ) * (3 * 1 ^ 2 + 1) ^ 2 < 8 * 2 ∧
    (1 / 10 : ℝ) < 4 * 2 := by
  refine ⟨by simp [GoodDims, intDims], trivial, rfl, ⟨fun _ => -1, fun x => by simp, ?_⟩, by norm_num, by norm_num⟩
  intro e
  have := congrFun e ⟨0, by norm_num⟩
  simp at this

end Gopf.Props
