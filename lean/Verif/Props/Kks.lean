import Verif.Model.Kks
import Verif.Props.Coupled
import Verif.Props.Uniform

/-!
# C136: the example program for the Kim-Kim-Suzuki model
-/

namespace Gopf.Props
open Spec Pf Pfutil

variable {n : ℕ} {dims : List ℕ}

/-! ### The specification -/

/-- How much of the second phase there is: 0 below 0, 1 above 1, and `3t² - 2t³` between. -/
noncomputable def blend (t : ℝ) : ℝ := if t ≤ 0 then 0 else if 1 ≤ t then 1 else 3 * t ^ 2 - 2 * t ^ 3

/-- The barrier between the phases: `t²(1 - t)²` between 0 and 1. -/
noncomputable def barrier (t : ℝ) : ℝ := if t ≤ 0 then 0 else if 1 ≤ t then 0 else t ^ 2 * (1 - t) ^ 2

/-- How far the concentration is from the preferred one. -/
noncomputable def kksExcess (p : Kks) (c φ : ℝ) : ℝ := c - (p.c0 + blend φ * (p.c1 - p.c0))

/-- The energy: the barrier, the excess, and the interfaces. -/
noncomputable def kksEnergy (p : Kks) (c φ : Data dims.prod) : ℝ :=
  ∑ x, (p.w * barrier (φ x).re + p.f0 / 2 * kksExcess p (c x).re (φ x).re ^ 2) +
    p.w / p.l * ((∑ k, laplaceNumber dims k * ‖fft dims φ k‖ ^ 2) / (dims.prod : ℕ))

/-- The largest curvature of the energy density in the direction of `phi`, where the excess is at most `b`. -/
noncomputable def kksCurvature (p : Kks) (b : ℝ) : ℝ :=
  2 * p.w + 6 * p.f0 * |p.c0 - p.c1| * b + 9 / 2 * p.f0 * (p.c0 - p.c1) ^ 2

/-! ### Reading the equations -/

/-- The names of the program. -/
def kksNames : Names := ⟨["conc".toList, "phi".toList], ["INTERPOLANT".toList, "PHI_RHS".toList],
  ["c0minusc1".toList, "twof0M".toList, "gamma".toList]⟩

theorem kks_wellNamed : kksNames.WellNamed where
  ident := by
    have : ∀ x ∈ kksNames.all, (∀ c ∈ x, c.isAlphanum = true ∨ c = '_') ∧ ∃ c ∈ x.head?, c.isAlpha = true := by
      decide +kernel
    intro x hx
    obtain ⟨h1, c, hc, h2⟩ := this x hx
    cases x with
    | nil => simp at hc
    | cons y x =>
      simp only [List.head?_cons, Option.mem_some_iff] at hc
      subst hc
      exact ⟨⟨y, x, rfl, h2⟩, h1⟩
  nodup := by decide +kernel
  noLap := by decide +kernel
  long := by decide +kernel
  sepLap := by decide +kernel
  sepVarying := by decide +kernel
  sepScalar := by decide +kernel

/-- `twof0M*LAPconc` -/
def kksDiffusion : List Item := [⟨none, some ⟨"twof0M".toList, none⟩⟩, ⟨some none, some ⟨"conc".toList, none⟩⟩]

/-- `LAP*twof0M*c0minusc1*INTERPOLANT` -/
def kksPartition : List Item := [⟨some none, none⟩, ⟨none, some ⟨"twof0M".toList, none⟩⟩,
  ⟨none, some ⟨"c0minusc1".toList, none⟩⟩, ⟨none, some ⟨"INTERPOLANT".toList, none⟩⟩]

/-- `PHI_RHS` -/
def kksForce : List Item := [⟨none, some ⟨"PHI_RHS".toList, none⟩⟩]

/-- `gamma*LAP*phi` -/
def kksSmooth : List Item := [⟨none, some ⟨"gamma".toList, none⟩⟩, ⟨some none, none⟩, ⟨none, some ⟨"phi".toList, none⟩⟩]

/-- `dconc/dt = twof0M*LAP conc + LAP*twof0M*c0minusc1*INTERPOLANT` -/
def kksConcEquation : Equation := ⟨"conc".toList, none, kksDiffusion, [('+', kksPartition)]⟩

/-- `dphi/dt = PHI_RHS + gamma*LAP*phi` -/
def kksPhiEquation : Equation := ⟨"phi".toList, none, kksForce, [('+', kksSmooth)]⟩

theorem bare_wellFormed {x : Str} (hx : x ∈ kksNames.all) : Item.WellFormed kksNames ⟨none, some ⟨x, none⟩⟩ :=
  ⟨by simp, by simp, by simp, by
    intro f hf
    obtain rfl : (⟨x, none⟩ : Factor) = f := by simpa using hf
    exact hx, by simp⟩

theorem lap_wellFormed : Item.WellFormed kksNames ⟨some none, none⟩ := ⟨by simp, by simp, by simp, by simp, by simp⟩

theorem kks_exactOne (items : List Item) (hi : ∀ i ∈ items, ∀ f ∈ i.fac, f.exp = none) :
    ∀ f ∈ factorsIn kksNames.fields items, |f.power - 1| < 1 / 10 ^ 10 → f.power = 1 := by
  intro f hf _
  obtain ⟨i, h1, h2⟩ := List.mem_filterMap.mp (List.mem_filter.mp hf).1
  simp [Factor.power, hi i h1 f h2]

theorem lapFirst_of {N : Names} {items : List Item} (hN : ∀ x ∈ N.all, ¬ ['L', 'A'] <:+: x ∨ x = "INTERPOLANT".toList) 
    (hw : ∀ i ∈ items, i.WellFormed N) (hp : ∀ i ∈ items.dropLast, ∀ f ∈ i.fac, f.name ≠ "INTERPOLANT".toList) :
    ∀ pre i post, items = pre ++ i :: post → i.lap ≠ none → ∀ j ∈ pre, ∀ f ∈ j.fac, ¬ ['L', 'A'] <:+: f.name := by
  intro pre i post e _ j hj f hf
  have hj' : j ∈ items := by rw [e]; simp [hj]
  have hj2 : j ∈ items.dropLast := by
    rw [e, List.dropLast_append_of_ne_nil (by simp)]
    simp [hj]
  exact (hN _ ((hw j hj').known f hf)).resolve_right (hp j hj2 f hf)

theorem kks_noLA : ∀ x ∈ kksNames.all, ¬ ['L', 'A'] <:+: x ∨ x = "INTERPOLANT".toList := by decide +kernel

theorem diffusion_monomial : Monomial kksNames kksDiffusion := by
  have hw : ∀ i ∈ kksDiffusion, i.WellFormed kksNames := by
    intro i hi
    rcases List.mem_cons.mp hi with rfl | hi
    · exact bare_wellFormed (by decide +kernel)
    · obtain rfl := List.mem_singleton.mp hi
      refine ⟨by simp, by simp, by simp, ?_, ?_⟩
      · intro f hf
        obtain rfl : (⟨"conc".toList, none⟩ : Factor) = f := by simpa using hf
        exact List.mem_of_elem_eq_true (by rfl)
      · intro f hf _
        obtain rfl : (⟨"conc".toList, none⟩ : Factor) = f := by simpa using hf
        exact ⟨List.mem_of_elem_eq_true (by rfl), by simp, by simp⟩
  exact
  { readable :=
    { wf := hw
      oneLap := by decide +kernel
      lapFirst := lapFirst_of kks_noLA hw (by decide +kernel)
      together := ⟨[], [⟨some none, some ⟨"conc".toList, none⟩⟩], [⟨none, some ⟨"twof0M".toList, none⟩⟩],
        by decide +kernel, by decide +kernel, by decide +kernel, by decide +kernel, by decide +kernel, by decide +kernel⟩ }
    once := by decide +kernel
    kind := Or.inl ⟨by decide +kernel, by decide +kernel⟩
    exactOne := kks_exactOne _ (by decide +kernel) }

theorem partition_monomial : Monomial kksNames kksPartition := by
  have hw : ∀ i ∈ kksPartition, i.WellFormed kksNames := by
    intro i hi
    simp only [kksPartition, List.mem_cons, List.not_mem_nil, or_false] at hi
    rcases hi with rfl | rfl | rfl | rfl
    · exact lap_wellFormed
    · exact bare_wellFormed (by decide +kernel)
    · exact bare_wellFormed (by decide +kernel)
    · exact bare_wellFormed (by decide +kernel)
  exact
  { readable :=
    { wf := hw
      oneLap := by decide +kernel
      lapFirst := lapFirst_of kks_noLA hw (by decide +kernel)
      together := ⟨[], [⟨none, some ⟨"INTERPOLANT".toList, none⟩⟩], [⟨some none, none⟩,
        ⟨none, some ⟨"c0minusc1".toList, none⟩⟩, ⟨none, some ⟨"twof0M".toList, none⟩⟩],
        by decide +kernel, by decide +kernel, by decide +kernel, by decide +kernel, by decide +kernel, by decide +kernel⟩ }
    once := by decide +kernel
    kind := Or.inr ⟨"INTERPOLANT".toList, by decide +kernel, by decide +kernel⟩
    exactOne := kks_exactOne _ (by decide +kernel) }

theorem force_monomial : Monomial kksNames kksForce := by
  have hw : ∀ i ∈ kksForce, i.WellFormed kksNames := by
    intro i hi
    obtain rfl := List.mem_singleton.mp hi
    exact bare_wellFormed (by decide +kernel)
  exact
  { readable :=
    { wf := hw
      oneLap := by decide +kernel
      lapFirst := lapFirst_of kks_noLA hw (by decide +kernel)
      together := ⟨[], [⟨none, some ⟨"PHI_RHS".toList, none⟩⟩], [],
        by decide +kernel, by decide +kernel, by decide +kernel, by decide +kernel, by decide +kernel, by decide +kernel⟩ }
    once := by decide +kernel
    kind := Or.inr ⟨"PHI_RHS".toList, by decide +kernel, by decide +kernel⟩
    exactOne := kks_exactOne _ (by decide +kernel) }

theorem smooth_monomial : Monomial kksNames kksSmooth := by
  have hw : ∀ i ∈ kksSmooth, i.WellFormed kksNames := by
    intro i hi
    simp only [kksSmooth, List.mem_cons, List.not_mem_nil, or_false] at hi
    rcases hi with rfl | rfl | rfl
    · exact bare_wellFormed (by decide +kernel)
    · exact lap_wellFormed
    · exact bare_wellFormed (by decide +kernel)
  exact
  { readable :=
    { wf := hw
      oneLap := by decide +kernel
      lapFirst := lapFirst_of kks_noLA hw (by decide +kernel)
      together := ⟨[⟨some none, none⟩, ⟨none, some ⟨"gamma".toList, none⟩⟩], [⟨none, some ⟨"phi".toList, none⟩⟩], [],
        by decide +kernel, by decide +kernel, by decide +kernel, by decide +kernel, by decide +kernel, by decide +kernel⟩ }
    once := by decide +kernel
    kind := Or.inl ⟨by decide +kernel, by decide +kernel⟩
    exactOne := kks_exactOne _ (by decide +kernel) }

theorem kks_polynomial : ∀ eq ∈ [kksConcEquation, kksPhiEquation], Equation.Polynomial kksNames eq := by
  intro eq heq
  simp only [List.mem_cons, List.not_mem_nil, or_false] at heq
  rcases heq with rfl | rfl
  · refine ⟨by decide +kernel, by simp [kksConcEquation], by simp [kksConcEquation], ?_⟩
    intro p hp
    simp only [kksConcEquation, Equation.terms, List.map_cons, List.map_nil, List.mem_cons, List.not_mem_nil, or_false] at hp
    rcases hp with rfl | rfl
    · exact diffusion_monomial
    · exact partition_monomial
  · refine ⟨by decide +kernel, by simp [kksPhiEquation], by simp [kksPhiEquation], ?_⟩
    intro p hp
    simp only [kksPhiEquation, Equation.terms, List.map_cons, List.map_nil, List.mem_cons, List.not_mem_nil, or_false] at hp
    rcases hp with rfl | rfl
    · exact force_monomial
    · exact smooth_monomial

theorem kks_texts : kksEquations.map (fun s => s.filter fun c => c ≠ ' ') =
    [kksConcEquation, kksPhiEquation].map Equation.text := by decide +kernel

theorem kks_starts (p : Kks) : StartsAs kksNames (kksModel p n) := by
  refine ⟨rfl, rfl, fun x => ?_⟩
  have e : (kksModel p n).brickNames = ["conc".toList, "phi".toList, "c0minusc1".toList, "twof0M".toList, "gamma".toList,
    "INTERPOLANT".toList, "PHI_RHS".toList] := rfl
  have e2 : kksNames.all = ["conc".toList, "phi".toList, "INTERPOLANT".toList, "PHI_RHS".toList, "c0minusc1".toList,
    "twof0M".toList, "gamma".toList] := rfl
  rw [e, e2]
  simp only [List.mem_cons, List.not_mem_nil, or_false]
  tauto

theorem kks_reads (p : Kks) : ∀ q ∈ (kksModel p n).derived, ReadsFields kksNames q.2 := by
  have e : (kksModel p n).derived = [("INTERPOLANT".toList, .function kksInterpolant),
    ("PHI_RHS".toList, .function (kksPhiRHS p))] := rfl
  rw [e]
  intro q hq u u' hf _
  have h1 : u "phi".toList = u' "phi".toList := hf _ (List.mem_of_elem_eq_true (by rfl))
  have h2 : u "conc".toList = u' "conc".toList := hf _ (List.mem_of_elem_eq_true (by rfl))
  simp only [List.mem_cons, List.not_mem_nil, or_false] at hq
  rcases hq with rfl | rfl
  · simp only [Calc.eval]
    unfold kksInterpolant
    rw [h1]
  · simp only [Calc.eval]
    unfold kksPhiRHS kksInterpolant
    rw [h1, h2]

/-! ### One step -/

theorem linearIn_of {field : Str} {others : List Str} {items : List Item} (h1 : (occurrences field items).length = 1)
    (h2 : ∀ g ∈ others, g ≠ field → occurrences g items = []) (h3 : ∀ i ∈ items, ∀ f ∈ i.fac, f.exp = none) :
    LinearIn field others items := by
  refine ⟨h1, h2, ?_⟩
  intro i hi f hf
  have := h3 i (List.mem_filter.mp hi).1 f hf
  simp [Factor.power, this]

theorem conc_rate (c : Str → ℂ) (u : Str → Data n) (hu : ∀ x ∈ kksNames.scalars, u x = fun _ => c x) (freq : Frequency n) (k : Fin n) :
    (kksConcEquation.terms.map (linearFactor kksNames kksConcEquation.field u freq k)).sum =
      c "twof0M".toList * laplaceSymbol (freq k) := by
  have e1 : factorsIn kksNames.scalars kksDiffusion = [⟨"twof0M".toList, none⟩] := by decide +kernel
  have e2 : laplacians kksDiffusion = [1] := by decide +kernel
  have l1 : LinearIn kksConcEquation.field kksNames.varying kksDiffusion :=
    linearIn_of (by decide +kernel) (by decide +kernel) (by decide +kernel)
  have l2 : ¬ LinearIn kksConcEquation.field kksNames.varying kksPartition := fun h => absurd h.1 (by decide +kernel)
  have hs : u "twof0M".toList = fun _ => c "twof0M".toList := hu _ (List.mem_of_elem_eq_true (by rfl))
  have ht : kksConcEquation.terms = [(kksDiffusion, none), (kksPartition, some '+')] := rfl
  rw [ht, List.map_cons, List.map_cons, List.map_nil, List.sum_cons, List.sum_cons, List.sum_nil]
  simp only [linearFactor, if_pos l1, if_neg l2, e1, e2, List.map_cons, List.map_nil, List.prod_cons, List.prod_nil, hs]
  simp [signOf, Factor.power]

theorem phi_rate (c : Str → ℂ) (u : Str → Data n) (hu : ∀ x ∈ kksNames.scalars, u x = fun _ => c x) (freq : Frequency n) (k : Fin n) :
    (kksPhiEquation.terms.map (linearFactor kksNames kksPhiEquation.field u freq k)).sum =
      c "gamma".toList * laplaceSymbol (freq k) := by
  have e1 : factorsIn kksNames.scalars kksSmooth = [⟨"gamma".toList, none⟩] := by decide +kernel
  have e2 : laplacians kksSmooth = [1] := by decide +kernel
  have l1 : LinearIn kksPhiEquation.field kksNames.varying kksSmooth :=
    linearIn_of (by decide +kernel) (by decide +kernel) (by decide +kernel)
  have l2 : ¬ LinearIn kksPhiEquation.field kksNames.varying kksForce := fun h => absurd h.1 (by decide +kernel)
  have hs : u "gamma".toList = fun _ => c "gamma".toList := hu _ (List.mem_of_elem_eq_true (by rfl))
  have ht : kksPhiEquation.terms = [(kksForce, none), (kksSmooth, some '+')] := rfl
  rw [ht, List.map_cons, List.map_cons, List.map_nil, List.sum_cons, List.sum_cons, List.sum_nil]
  simp only [linearFactor, if_pos l1, if_neg l2, e1, e2, List.map_cons, List.map_nil, List.prod_cons, List.prod_nil, hs]
  simp [signOf, Factor.power]

theorem notBare_of {N : Names} {p : List Item × Option Char} {g : Str} (hg : factorsIn N.varying p.1 = [⟨g, none⟩])
    (hf : g ∉ N.fields) : ¬ BareField N p := by
  rintro ⟨f, h1, h2⟩
  rw [hg] at h2
  simp only [List.cons.injEq, Factor.mk.injEq, and_true] at h2
  exact hf (h2 ▸ h1)

theorem conc_seen (lap : Data n → Data n) (c : Str → ℂ) (u v : Str → Data n) :
    Equation.seen kksNames lap c u v kksConcEquation =
      c "twof0M".toList • lap (v "conc".toList) +
        (c "twof0M".toList * c "c0minusc1".toList) • lap (u "INTERPOLANT".toList) := by
  have a1 : factorsIn kksNames.scalars kksDiffusion = [⟨"twof0M".toList, none⟩] := by decide +kernel
  have a2 : factorsIn kksNames.varying kksDiffusion = [⟨"conc".toList, none⟩] := by decide +kernel
  have a3 : laplacians kksDiffusion = [1] := by decide +kernel
  have b1 : factorsIn kksNames.scalars kksPartition = [⟨"twof0M".toList, none⟩, ⟨"c0minusc1".toList, none⟩] := by decide +kernel
  have b2 : factorsIn kksNames.varying kksPartition = [⟨"INTERPOLANT".toList, none⟩] := by decide +kernel
  have b3 : laplacians kksPartition = [1] := by decide +kernel
  have h1 : BareField kksNames (kksDiffusion, none) := ⟨"conc".toList, by decide +kernel, a2⟩
  have h2 : ¬ BareField kksNames (kksPartition, some '+') := notBare_of b2 (by decide +kernel)
  have ht : kksConcEquation.terms = [(kksDiffusion, none), (kksPartition, some '+')] := rfl
  rw [Equation.seen, ht, List.map_cons, List.map_cons, List.map_nil, List.sum_cons, List.sum_cons, List.sum_nil]
  simp only [if_pos h1, if_neg h2, a1, a2, a3, b1, b2, b3, productValue_single, List.map_cons, List.map_nil, List.prod_cons,
    List.prod_nil, List.sum_cons, List.sum_nil, Function.iterate_one, add_zero]
  simp [signOf, Factor.power]

theorem phi_seen (lap : Data n → Data n) (c : Str → ℂ) (u v : Str → Data n) :
    Equation.seen kksNames lap c u v kksPhiEquation =
      u "PHI_RHS".toList + c "gamma".toList • lap (v "phi".toList) := by
  have a1 : factorsIn kksNames.scalars kksForce = [] := by decide +kernel
  have a2 : factorsIn kksNames.varying kksForce = [⟨"PHI_RHS".toList, none⟩] := by decide +kernel
  have a3 : laplacians kksForce = [] := by decide +kernel
  have b1 : factorsIn kksNames.scalars kksSmooth = [⟨"gamma".toList, none⟩] := by decide +kernel
  have b2 : factorsIn kksNames.varying kksSmooth = [⟨"phi".toList, none⟩] := by decide +kernel
  have b3 : laplacians kksSmooth = [1] := by decide +kernel
  have h1 : ¬ BareField kksNames (kksForce, none) := notBare_of a2 (by decide +kernel)
  have h2 : BareField kksNames (kksSmooth, some '+') := ⟨"phi".toList, by decide +kernel, b2⟩
  have ht : kksPhiEquation.terms = [(kksForce, none), (kksSmooth, some '+')] := rfl
  rw [Equation.seen, ht, List.map_cons, List.map_cons, List.map_nil, List.sum_cons, List.sum_cons, List.sum_nil]
  simp only [if_neg h1, if_pos h2, a1, a2, a3, b1, b2, b3, productValue_single, List.map_cons, List.map_nil, List.prod_cons,
    List.prod_nil, List.sum_cons, List.sum_nil, Function.iterate_one, Function.iterate_zero, id, add_zero]
  simp [signOf, Factor.power]

open Classical in
/-- What the names stand for. -/
noncomputable def kksValues (p : Kks) (c φ : Data n) (x : Str) : Data n :=
  if x = "conc".toList then c else if x = "phi".toList then φ
  else if x = "INTERPOLANT".toList then fun i => (kksH (φ i).re : ℂ)
  else if x = "PHI_RHS".toList then fun i => ((-(kksGderiv p (φ i).re + p.f0 * kksHderiv (φ i).re * (p.c0 - p.c1) *
    ((c i).re - p.c0 + kksH (φ i).re * (p.c0 - p.c1))) : ℝ) : ℂ)
  else fun _ => kksScalars p x

theorem kksValues_conc (p : Kks) (c φ : Data n) : kksValues p c φ "conc".toList = c := by
  unfold kksValues; rw [if_pos rfl]

theorem kksValues_phi (p : Kks) (c φ : Data n) : kksValues p c φ "phi".toList = φ := by
  unfold kksValues; rw [if_neg (by decide), if_pos rfl]

theorem kksValues_interpolant (p : Kks) (c φ : Data n) :
    kksValues p c φ "INTERPOLANT".toList = fun i => (kksH (φ i).re : ℂ) := by
  unfold kksValues; rw [if_neg (by decide), if_neg (by decide), if_pos rfl]

theorem kksValues_force (p : Kks) (c φ : Data n) :
    kksValues p c φ "PHI_RHS".toList = fun i => ((-(kksGderiv p (φ i).re + p.f0 * kksHderiv (φ i).re * (p.c0 - p.c1) *
      ((c i).re - p.c0 + kksH (φ i).re * (p.c0 - p.c1))) : ℝ) : ℂ) := by
  unfold kksValues; rw [if_neg (by decide), if_neg (by decide), if_neg (by decide), if_pos rfl]

theorem kksValues_scalar (p : Kks) (c φ : Data n) {x : Str} (hx : x ∈ kksNames.scalars) :
    kksValues p c φ x = fun _ => kksScalars p x := by
  have e : ∀ x ∈ kksNames.scalars, x ≠ "conc".toList ∧ x ≠ "phi".toList ∧ x ≠ "INTERPOLANT".toList ∧ x ≠ "PHI_RHS".toList := by
    decide +kernel
  obtain ⟨h1, h2, h3, h4⟩ := e x hx
  unfold kksValues; rw [if_neg h1, if_neg h2, if_neg h3, if_neg h4]

theorem kksValues_functions (p : Kks) (c φ : Data n) :
    ∀ q ∈ (kksModel p n).derived, kksValues p c φ q.1 = q.2.eval (kksValues p c φ) := by
  have e : (kksModel p n).derived = [("INTERPOLANT".toList, .function kksInterpolant),
    ("PHI_RHS".toList, .function (kksPhiRHS p))] := rfl
  rw [e]
  intro q hq
  simp only [List.mem_cons, List.not_mem_nil, or_false] at hq
  rcases hq with rfl | rfl
  · simp only [Calc.eval]
    rw [kksValues_interpolant]
    unfold kksInterpolant
    rw [kksValues_phi]
  · simp only [Calc.eval]
    rw [kksValues_force]
    unfold kksPhiRHS kksInterpolant
    rw [kksValues_phi, kksValues_conc]
    simp only [Complex.ofReal_re]

theorem kksScalars_values (p : Kks) : kksScalars p "c0minusc1".toList = ((p.c0 - p.c1 : ℝ) : ℂ) ∧
    kksScalars p "twof0M".toList = ((2 * p.f0 * p.m : ℝ) : ℂ) ∧ kksScalars p "gamma".toList = ((2 * p.w / p.l : ℝ) : ℂ) := by
  unfold kksScalars
  refine ⟨by rw [if_pos rfl], by rw [if_neg (by decide), if_pos rfl], by rw [if_neg (by decide), if_neg (by decide), if_pos rfl]⟩

theorem fft_lap (h : ∀ d ∈ dims, 0 < d) (freq : Frequency dims.prod) (w : Data dims.prod) (k : Fin dims.prod) :
    fft dims (spectralLaplacian (fft dims) (fun x => divRealScalar (ifft dims x) (dims.prod : ℕ)) freq w) k =
      laplaceSymbol (freq k) * fft dims w k := by
  have hG : ∀ x, fft dims (divRealScalar (ifft dims x) (dims.prod : ℕ)) = x := by
    intro x
    have e : divRealScalar (ifft dims x) (dims.prod : ℕ) = fun j => ifft dims x j / (dims.prod : ℂ) := by
      funext j; simp only [divRealScalar, Complex.ofReal_natCast]
    rw [e]; exact fft_surjective h x
  have := spectralLaplacian_iterate (fft dims) (fun x => divRealScalar (ifft dims x) (dims.prod : ℕ)) hG freq 1 w k
  rw [Function.iterate_one, pow_one] at this
  exact this

/-- The step of the program, wave by wave. -/
theorem kks_waves (h : ∀ d ∈ dims, 0 < d) (p : Kks) :
    ∃ (m : EqModel dims.prod) (M : Model m.fields.length m.derived.length dims.prod) (i j : Fin m.fields.length),
      kksEquations.foldlM EqModel.addEquation (kksModel p dims.prod) = some m ∧ m.fields.length = 2 ∧
      m.assemble (kksScalars p) = some M ∧ m.fields[i] = "conc".toList ∧ m.fields[j] = "phi".toList ∧
      ∀ (s : Stepper dims.prod), s.freq = freqOf dims → s.filter = none → ∀ st k,
        (1 + s.dt * (2 * p.f0 * p.m) * laplaceNumber dims k ≠ 0 →
          fft dims ((eulerStep M (s, st)).2.fields i) k - fft dims (st.fields i) k =
            -((s.dt * (2 * p.f0 * p.m) * laplaceNumber dims k : ℝ) : ℂ) *
              (((p.c0 - p.c1 : ℝ) : ℂ) * fft dims (fun x => (kksH (st.fields j x).re : ℂ)) k +
                fft dims ((eulerStep M (s, st)).2.fields i) k)) ∧
        (1 + s.dt * (2 * p.w / p.l) * laplaceNumber dims k ≠ 0 →
          fft dims ((eulerStep M (s, st)).2.fields j) k - fft dims (st.fields j) k =
            -(s.dt : ℂ) * (fft dims (fun x => ((kksGderiv p (st.fields j x).re +
                p.f0 * kksHderiv (st.fields j x).re * (p.c0 - p.c1) *
                  ((st.fields i x).re - p.c0 + kksH (st.fields j x).re * (p.c0 - p.c1)) : ℝ) : ℂ)) k +
              ((2 * p.w / p.l * laplaceNumber dims k : ℝ) : ℂ) * fft dims ((eulerStep M (s, st)).2.fields j) k)) := by
  obtain ⟨m, M, h1, h2, h3, h4⟩ := c132_step h kksNames kks_wellNamed (kksModel p dims.prod) (kks_starts p) rfl (kks_reads p)
    [kksConcEquation, kksPhiEquation] (fun eq heq => ⟨kks_polynomial eq heq, fun _ _ => ⟨rfl, rfl⟩⟩) kksEquations kks_texts
    (by decide) (kksScalars p)
  have hlen : m.fields.length = 2 := by rw [h2]; rfl
  have l0 : 0 < m.fields.length := by omega
  have l1 : 1 < m.fields.length := by omega
  have f0 : m.fields[(⟨0, l0⟩ : Fin m.fields.length)] = "conc".toList := by simp only [Fin.getElem_fin, h2]; rfl
  have f1 : m.fields[(⟨1, l1⟩ : Fin m.fields.length)] = "phi".toList := by simp only [Fin.getElem_fin, h2]; rfl
  refine ⟨m, M, ⟨0, l0⟩, ⟨1, l1⟩, h1, hlen, h3, f0, f1, ?_⟩
  intro s hfreq hfil st k
  obtain ⟨v1, v2, v3⟩ := kksScalars_values p
  have hpl : ∀ (a b : Data dims.prod) (g : Fin m.fields.length → Data dims.prod), g ⟨0, l0⟩ = a → g ⟨1, l1⟩ = b →
      ∀ j : Fin m.fields.length, kksValues p a b m.fields[j] = g j := by
    intro a b g ha hb j
    obtain ⟨j, hj⟩ := j
    rcases (show j = 0 ∨ j = 1 by omega) with rfl | rfl
    · rw [f0, kksValues_conc, ha]
    · rw [f1, kksValues_phi, hb]
  have a0 := h4 ⟨0, l0⟩ kksConcEquation rfl f0.symm s st (kksValues p (st.fields ⟨0, l0⟩) (st.fields ⟨1, l1⟩))
    (kksValues p (st.fields ⟨0, l0⟩) (st.fields ⟨1, l1⟩)) (hpl _ _ _ rfl rfl) (fun x hx => kksValues_scalar p _ _ hx)
    (kksValues_functions p _ _) (hpl _ _ (fun j => if j < ⟨0, l0⟩ then _ else _) (if_neg (by simp)) (if_neg (by simp [Fin.lt_def]))) k
  have a1 := h4 ⟨1, l1⟩ kksPhiEquation rfl f1.symm s st (kksValues p (st.fields ⟨0, l0⟩) (st.fields ⟨1, l1⟩))
    (kksValues p ((eulerStep M (s, st)).2.fields ⟨0, l0⟩) (st.fields ⟨1, l1⟩)) (hpl _ _ _ rfl rfl) (fun x hx => kksValues_scalar p _ _ hx)
    (kksValues_functions p _ _) (hpl _ _ (fun j => if j < ⟨1, l1⟩ then _ else _) (if_pos (by simp [Fin.lt_def])) (if_neg (by simp))) k
  have e0 : ∀ (z : ℂ) (w : Data dims.prod), fft dims (z • w) k = z * fft dims w k := fun z w => fft_smul z w k
  have e1 : ∀ (w w' : Data dims.prod), fft dims (w + w') k = fft dims w k + fft dims w' k := fun w w' => fft_add w w' k
  rw [conc_rate (kksScalars p) _ (fun x hx => kksValues_scalar p _ _ hx), conc_seen, e1, e0, e0, fft_lap h, fft_lap h, v1, v2,
    kksValues_conc, kksValues_interpolant, hfreq, symbol_laplaceNumber] at a0
  rw [phi_rate (kksScalars p) _ (fun x hx => kksValues_scalar p _ _ hx), phi_seen, e1, e0, fft_lap h, v3,
    kksValues_phi, kksValues_force, hfreq, symbol_laplaceNumber] at a1
  have hneg : fft dims (fun x => ((-(kksGderiv p (st.fields ⟨1, l1⟩ x).re + p.f0 * kksHderiv (st.fields ⟨1, l1⟩ x).re * (p.c0 - p.c1) *
      ((st.fields ⟨0, l0⟩ x).re - p.c0 + kksH (st.fields ⟨1, l1⟩ x).re * (p.c0 - p.c1))) : ℝ) : ℂ)) k =
      -fft dims (fun x => ((kksGderiv p (st.fields ⟨1, l1⟩ x).re + p.f0 * kksHderiv (st.fields ⟨1, l1⟩ x).re * (p.c0 - p.c1) *
      ((st.fields ⟨0, l0⟩ x).re - p.c0 + kksH (st.fields ⟨1, l1⟩ x).re * (p.c0 - p.c1)) : ℝ) : ℂ)) k := by
    rw [← neg_one_mul, ← fft_smul]
    congr 1
    funext x
    push_cast
    ring
  rw [hneg] at a1
  simp only [hfil, waveGain, Option.elim, Complex.ofReal_one, one_mul] at a0 a1
  constructor
  · intro hne
    have hne' : (1 : ℂ) - s.dt * (((2 * p.f0 * p.m : ℝ) : ℂ) * -(laplaceNumber dims k : ℂ)) ≠ 0 := by
      intro e
      apply hne
      have := congrArg Complex.re e
      rw [← Complex.ofReal_neg, ← Complex.ofReal_mul, ← Complex.ofReal_mul, ← Complex.ofReal_one, ← Complex.ofReal_sub, Complex.ofReal_re] at this
      simp only [Complex.zero_re] at this
      linarith
    have := a0 hne'
    push_cast at this ⊢
    linear_combination this
  · intro hne
    have hne' : (1 : ℂ) - s.dt * (((2 * p.w / p.l : ℝ) : ℂ) * -(laplaceNumber dims k : ℂ)) ≠ 0 := by
      intro e
      apply hne
      have := congrArg Complex.re e
      rw [← Complex.ofReal_neg, ← Complex.ofReal_mul, ← Complex.ofReal_mul, ← Complex.ofReal_one, ← Complex.ofReal_sub, Complex.ofReal_re] at this
      simp only [Complex.zero_re] at this
      linarith
    have := a1 hne'
    push_cast at this ⊢
    linear_combination this

/-! ### The energy density -/

theorem kksH_blend (t : ℝ) : kksH t = blend t := by
  unfold kksH blend
  rcases lt_trichotomy t 1 with h | rfl | h
  · rcases le_or_gt t 0 with h0 | h0
    · rw [if_neg (by linarith), if_neg (by linarith), if_pos h0]
    · rw [if_neg (by linarith), if_pos h0, if_neg (by linarith), if_neg (by linarith)]; ring
  · norm_num
  · rw [if_pos h, if_neg (by linarith), if_pos h.le]

/-- The nearest number between 0 and 1. -/
noncomputable def clip (t : ℝ) : ℝ := max 0 (min 1 t)

theorem clip_mem (t : ℝ) : 0 ≤ clip t ∧ clip t ≤ 1 := ⟨le_max_left _ _, max_le zero_le_one (min_le_left _ _)⟩

theorem clip_low {t : ℝ} (h : t ≤ 0) : clip t = 0 := max_eq_left ((min_le_right _ _).trans h)

theorem clip_high {t : ℝ} (h : 1 ≤ t) : clip t = 1 := by unfold clip; rw [min_eq_left h]; norm_num

theorem clip_mid {t : ℝ} (h0 : 0 ≤ t) (h1 : t ≤ 1) : clip t = t := by unfold clip; rw [min_eq_right h1, max_eq_right h0]

theorem clip_sq (a b : ℝ) : (clip b - clip a) ^ 2 ≤ (b - a) ^ 2 := by
  rw [sq_le_sq]
  refine (abs_max_sub_max_le_max _ _ _ _).trans (max_le (by simp) ?_)
  exact (abs_min_sub_min_le_max _ _ _ _).trans (max_le (by simp) le_rfl)

theorem blend_clip (t : ℝ) : blend t = 3 * clip t ^ 2 - 2 * clip t ^ 3 := by
  unfold blend
  split_ifs with h0 h1
  · rw [clip_low h0]; norm_num
  · rw [clip_high h1]; norm_num
  · push Not at h0 h1
    rw [clip_mid h0.le h1.le]

theorem barrier_clip (t : ℝ) : barrier t = clip t ^ 2 * (1 - clip t) ^ 2 := by
  unfold barrier
  split_ifs with h0 h1
  · rw [clip_low h0]; norm_num
  · rw [clip_high h1]; norm_num
  · push Not at h0 h1
    rw [clip_mid h0.le h1.le]

theorem hderiv_clip (t : ℝ) : kksHderiv t = 6 * clip t * (1 - clip t) := by
  unfold kksHderiv
  split_ifs with h
  · rw [clip_mid h.1.le h.2.le]; ring
  · rcases le_or_gt t 0 with h0 | h0
    · rw [clip_low h0]; ring
    · rw [clip_high (not_lt.mp fun h1 => h ⟨h0, h1⟩)]; ring

theorem gderiv_clip (p : Kks) (t : ℝ) : kksGderiv p t = p.w * (2 * clip t * (1 - clip t) * (1 - 2 * clip t)) := by
  unfold kksGderiv
  split_ifs with h
  · rw [clip_mid h.1.le h.2.le]; ring
  · rcases le_or_gt t 0 with h0 | h0
    · rw [clip_low h0]; ring
    · rw [clip_high (not_lt.mp fun h1 => h ⟨h0, h1⟩)]; ring

theorem blend_change (a b : ℝ) : (blend b - blend a) ^ 2 ≤ 9 / 4 * (b - a) ^ 2 := by
  have h := clip_sq a b
  obtain ⟨a0, a1⟩ := clip_mem a
  obtain ⟨b0, b1⟩ := clip_mem b
  rw [blend_clip, blend_clip]
  generalize clip a = x at *
  generalize clip b = y at *
  set S := 3 * (x + y) - 2 * (x ^ 2 + x * y + y ^ 2) with hS
  have e : 3 * y ^ 2 - 2 * y ^ 3 - (3 * x ^ 2 - 2 * x ^ 3) = (y - x) * S := by rw [hS]; ring
  have s0 : 0 ≤ S := by
    rw [hS]
    nlinarith [mul_nonneg a0 (sub_nonneg.mpr a1), mul_nonneg b0 (sub_nonneg.mpr b1), mul_nonneg a0 (sub_nonneg.mpr b1),
      mul_nonneg b0 (sub_nonneg.mpr a1)]
  have s1 : S ≤ 3 / 2 := by
    rw [hS]
    nlinarith [sq_nonneg (x + y - 1), sq_nonneg (x - y)]
  rw [e, mul_pow]
  have s2 : S ^ 2 ≤ 9 / 4 := by nlinarith
  calc (y - x) ^ 2 * S ^ 2 ≤ (y - x) ^ 2 * (9 / 4) := mul_le_mul_of_nonneg_left s2 (sq_nonneg _)
    _ ≤ _ := by linarith

/-- A function of the nearest number between 0 and 1, with slopes that vanish at the ends. -/
theorem clip_tangent {P P' : ℝ → ℝ} {K : ℝ} (hK : 0 ≤ K) (h0 : P' 0 = 0) (h1 : P' 1 = 0)
    (hin : ∀ x y, 0 ≤ x → x ≤ 1 → 0 ≤ y → y ≤ 1 → P y ≤ P x + P' x * (y - x) + K * (y - x) ^ 2)
    (hlow : ∀ x, 0 ≤ x → x ≤ 1 → P' x ≤ 2 * K * x) (hhigh : ∀ x, 0 ≤ x → x ≤ 1 → -P' x ≤ 2 * K * (1 - x)) (a b : ℝ) :
    P (clip b) ≤ P (clip a) + P' (clip a) * (b - a) + K * (b - a) ^ 2 := by
  obtain ⟨a0, a1⟩ := clip_mem a
  obtain ⟨b0, b1⟩ := clip_mem b
  have key := hin _ _ a0 a1 b0 b1
  have hsq := mul_le_mul_of_nonneg_left (clip_sq a b) hK
  rcases le_or_gt a 0 with ha | ha
  · rw [clip_low ha, h0] at *; linarith
  rcases le_or_gt 1 a with ha' | ha'
  · rw [clip_high ha', h1] at *; linarith
  rw [clip_mid ha.le ha'.le] at *
  rcases le_or_gt b 0 with hb | hb
  · rw [clip_low hb] at *
    have := mul_le_mul_of_nonneg_right (hlow a a0 a1) (neg_nonneg.mpr hb)
    nlinarith [mul_nonneg hK (sq_nonneg b)]
  rcases le_or_gt 1 b with hb' | hb'
  · rw [clip_high hb'] at *
    have := mul_le_mul_of_nonneg_right (hhigh a a0 a1) (sub_nonneg.mpr hb')
    nlinarith [mul_nonneg hK (sq_nonneg (b - 1))]
  rw [clip_mid hb.le hb'.le] at *
  exact key

theorem blend_above (a b : ℝ) : blend b ≤ blend a + kksHderiv a * (b - a) + 3 * (b - a) ^ 2 := by
  rw [blend_clip, blend_clip, hderiv_clip]
  refine clip_tangent (P := fun t => 3 * t ^ 2 - 2 * t ^ 3) (P' := fun t => 6 * t * (1 - t)) (K := 3) (by norm_num)
    (by norm_num) (by norm_num) ?_ ?_ ?_ a b
  · intro x y x0 x1 y0 y1
    have : 0 ≤ (y - x) ^ 2 * (4 * x + 2 * y) := mul_nonneg (sq_nonneg _) (by linarith)
    linarith
  · intro x x0 x1
    nlinarith
  · intro x x0 x1
    nlinarith

theorem blend_below (a b : ℝ) : -blend b ≤ -blend a + -kksHderiv a * (b - a) + 3 * (b - a) ^ 2 := by
  rw [blend_clip, blend_clip, hderiv_clip]
  refine clip_tangent (P := fun t => -(3 * t ^ 2 - 2 * t ^ 3)) (P' := fun t => -(6 * t * (1 - t))) (K := 3) (by norm_num)
    (by norm_num) (by norm_num) ?_ ?_ ?_ a b
  · intro x y x0 x1 y0 y1
    have : 0 ≤ (y - x) ^ 2 * (6 - 4 * x - 2 * y) := mul_nonneg (sq_nonneg _) (by linarith)
    linarith
  · intro x x0 x1
    nlinarith
  · intro x x0 x1
    nlinarith

theorem barrier_above (p : Kks) (hw : 0 ≤ p.w) (a b : ℝ) :
    p.w * barrier b ≤ p.w * barrier a + kksGderiv p a * (b - a) + p.w * (b - a) ^ 2 := by
  rw [barrier_clip, barrier_clip, gderiv_clip]
  have := clip_tangent (P := fun t => t ^ 2 * (1 - t) ^ 2) (P' := fun t => 2 * t * (1 - t) * (1 - 2 * t)) (K := 1) (by norm_num)
    (by norm_num) (by norm_num) ?_ ?_ ?_ a b
  · have := mul_le_mul_of_nonneg_left this hw
    linarith
  · intro x y x0 x1 y0 y1
    have e : 0 ≤ 4 * x + 2 * y - 3 * x ^ 2 - 2 * x * y - y ^ 2 := by nlinarith [mul_nonneg x0 (sub_nonneg.mpr y1)]
    have : 0 ≤ (y - x) ^ 2 * (4 * x + 2 * y - 3 * x ^ 2 - 2 * x * y - y ^ 2) := mul_nonneg (sq_nonneg _) e
    linarith
  · intro x x0 x1
    have : (1 - x) * (1 - 2 * x) ≤ 1 := by nlinarith
    nlinarith [mul_le_mul_of_nonneg_left this x0]
  · intro x x0 x1
    have : x * (2 * x - 1) ≤ 1 := by nlinarith
    nlinarith [mul_le_mul_of_nonneg_left this (sub_nonneg.mpr x1)]

/-- The part of the energy density that is advanced explicitly. -/
noncomputable def kksExplicit (p : Kks) (c φ : ℝ) : ℝ :=
  p.w * barrier φ + p.f0 * c * (blend φ * (p.c0 - p.c1) - p.c0) + p.f0 / 2 * (blend φ * (p.c0 - p.c1) - p.c0) ^ 2

theorem kksExcess_eq (p : Kks) (c φ : ℝ) : kksExcess p c φ = c - p.c0 + blend φ * (p.c0 - p.c1) := by
  unfold kksExcess; ring

theorem kks_tangent (p : Kks) (hw : 0 ≤ p.w) (hf : 0 ≤ p.f0) {b : ℝ} (c φ c' φ' : ℝ) (hb : |kksExcess p c φ| ≤ b) :
    kksExplicit p c' φ' ≤ kksExplicit p c φ + p.f0 * (blend φ * (p.c0 - p.c1) - p.c0) * (c' - c) +
      (kksGderiv p φ + p.f0 * kksHderiv φ * (p.c0 - p.c1) * (c - p.c0 + kksH φ * (p.c0 - p.c1))) * (φ' - φ) +
      p.f0 / 2 * (c' - c) ^ 2 + kksCurvature p b / 2 * (φ' - φ) ^ 2 := by
  have h1 := barrier_above p hw φ φ'
  have h2 : |blend φ' - blend φ - kksHderiv φ * (φ' - φ)| ≤ 3 * (φ' - φ) ^ 2 :=
    abs_le.mpr ⟨by linarith [blend_below φ φ'], by linarith [blend_above φ φ']⟩
  have h3 := blend_change φ φ'
  rw [kksExcess_eq] at hb
  rw [kksH_blend]
  unfold kksExplicit kksCurvature
  set d := p.c0 - p.c1
  set R := blend φ' - blend φ - kksHderiv φ * (φ' - φ) with hR
  set e := c - p.c0 + blend φ * d with he
  have h4 : p.f0 * (e * d * R) ≤ p.f0 * (b * |d| * (3 * (φ' - φ) ^ 2)) := by
    apply mul_le_mul_of_nonneg_left _ hf
    refine (le_abs_self _).trans ?_
    rw [abs_mul, abs_mul]
    exact mul_le_mul (mul_le_mul_of_nonneg_right hb (abs_nonneg _)) h2 (abs_nonneg _)
      (mul_nonneg ((abs_nonneg _).trans hb) (abs_nonneg _))
  have h5 : p.f0 * ((c' - c) * (d * (blend φ' - blend φ))) ≤ p.f0 * ((c' - c) ^ 2 / 2 + (d * (blend φ' - blend φ)) ^ 2 / 2) := by
    apply mul_le_mul_of_nonneg_left _ hf
    linarith [sq_nonneg ((c' - c) - d * (blend φ' - blend φ))]
  have h6 : p.f0 * (d ^ 2 * (blend φ' - blend φ) ^ 2) ≤ p.f0 * (d ^ 2 * (9 / 4 * (φ' - φ) ^ 2)) :=
    mul_le_mul_of_nonneg_left (mul_le_mul_of_nonneg_left h3 (sq_nonneg d)) hf
  have h7 : blend φ' = blend φ + kksHderiv φ * (φ' - φ) + R := by rw [hR]; ring
  have h8 : p.f0 * c' * (blend φ' * d - p.c0) + p.f0 / 2 * (blend φ' * d - p.c0) ^ 2 =
      p.f0 * c * (blend φ * d - p.c0) + p.f0 / 2 * (blend φ * d - p.c0) ^ 2 + p.f0 * (blend φ * d - p.c0) * (c' - c) +
      p.f0 * (e * d * R) + p.f0 * kksHderiv φ * d * e * (φ' - φ) + p.f0 * ((c' - c) * (d * (blend φ' - blend φ))) +
      p.f0 * (d ^ 2 * (blend φ' - blend φ) ^ 2) / 2 := by
    rw [he, hR]; ring
  linarith

theorem kksEnergy_split (h : ∀ d ∈ dims, 0 < d) (p : Kks) {c φ : Data dims.prod} (hc : IsReal c) :
    kksEnergy p c φ = ∑ x, kksExplicit p (c x).re (φ x).re + (∑ k, p.f0 * ‖fft dims c k‖ ^ 2) / (2 * (dims.prod : ℕ)) +
      (∑ k, 2 * p.w / p.l * laplaceNumber dims k * ‖fft dims φ k‖ ^ 2) / (2 * (dims.prod : ℕ)) := by
  have hp : (0 : ℝ) < (dims.prod : ℕ) := by
    have := Nat.pos_of_ne_zero (n := dims.prod) (by exact_mod_cast prod_ne_zero h)
    exact_mod_cast this
  have e1 : (∑ k, p.f0 * ‖fft dims c k‖ ^ 2) / (2 * (dims.prod : ℕ)) = ∑ x, p.f0 / 2 * (c x).re ^ 2 := by
    rw [← Finset.mul_sum, squares_parseval h, ← Finset.mul_sum]
    have : ∑ x, ‖c x‖ ^ 2 = ∑ x, (c x).re ^ 2 := by
      refine Finset.sum_congr rfl fun x _ => ?_
      have : c x = ((c x).re : ℂ) := Complex.ext (by simp) (by simp [hc x])
      rw [this, Complex.norm_real, Real.norm_eq_abs, sq_abs, Complex.ofReal_re]
    rw [this]
    field_simp
  have e2 : (∑ k, 2 * p.w / p.l * laplaceNumber dims k * ‖fft dims φ k‖ ^ 2) / (2 * (dims.prod : ℕ)) =
      p.w / p.l * ((∑ k, laplaceNumber dims k * ‖fft dims φ k‖ ^ 2) / (dims.prod : ℕ)) := by
    have : ∑ k, 2 * p.w / p.l * laplaceNumber dims k * ‖fft dims φ k‖ ^ 2 =
        2 * p.w / p.l * ∑ k, laplaceNumber dims k * ‖fft dims φ k‖ ^ 2 := by
      rw [Finset.mul_sum]
      exact Finset.sum_congr rfl fun k _ => by ring
    rw [this]
    field_simp
  rw [e1, e2, kksEnergy, ← Finset.sum_add_distrib]
  congr 1
  refine Finset.sum_congr rfl fun x _ => ?_
  rw [kksExcess_eq]
  unfold kksExplicit
  ring

theorem laplace_origin (h : GoodDims (intDims dims)) (k : Fin dims.prod) (hk : k.val = 0) : laplaceNumber dims k = 0 := by
  have := symbol_origin h k hk
  rw [symbol_laplaceNumber, neg_eq_zero, Complex.ofReal_eq_zero] at this
  exact this

theorem laplace_const (h : GoodDims (intDims dims)) (z : ℂ) (k : Fin dims.prod) :
    (laplaceNumber dims k : ℂ) * fft dims (fun _ => z) k = 0 := by
  rw [fft_const (pos_of_goodDims h)]
  split_ifs with hk
  · rw [laplace_origin h k hk]; simp
  · simp

/-- A field whose waves are advanced with real factors from real data stays real. -/
theorem waves_real (h : GoodDims (intDims dims)) (hl : LayoutOk dims) {u v F : Data dims.prod} (hu : IsReal u) (hF : IsReal F)
    (mob g : ℝ → ℝ) (hne : ∀ k, 1 + mob (laplaceNumber dims k) * g (laplaceNumber dims k) ≠ 0)
    (hstep : ∀ k, fft dims v k - fft dims u k = -((mob (laplaceNumber dims k) : ℝ) : ℂ) *
      (fft dims F k + ((g (laplaceNumber dims k) : ℝ) : ℂ) * fft dims v k)) : IsReal v := by
  apply real_of_hermitian h hl
  intro b d hd
  have hx : laplaceNumber dims d = laplaceNumber dims b := by
    unfold laplaceNumber
    rw [freq_sq_conj h hd]
  have e1 := hstep d
  have e2 := congrArg (starRingEnd ℂ) (hstep b)
  have hn : (1 : ℂ) + (mob (laplaceNumber dims b) : ℂ) * (g (laplaceNumber dims b) : ℂ) ≠ 0 := by
    have := hne b
    exact_mod_cast this
  rw [hermitian_fft h hl hu b d hd, hermitian_fft h hl hF b d hd, hx] at e1
  simp only [map_sub, map_mul, map_neg, map_add, Complex.conj_ofReal] at e2
  refine mul_right_cancel₀ hn ?_
  linear_combination e1 - e2

/-! ### The gradient of the energy -/

theorem deriv_of_tangent {f : ℝ → ℝ} {f' a K : ℝ} (hf : ∀ b, |f b - f a - f' * (b - a)| ≤ K * (b - a) ^ 2) : HasDerivAt f f' a := by
  rw [hasDerivAt_iff_isLittleO]
  have h1 : (fun b => f b - f a - (b - a) • f') =O[nhds a] fun b => (b - a) ^ 2 :=
    Asymptotics.IsBigO.of_bound K (Filter.Eventually.of_forall fun b => by
      rw [smul_eq_mul, mul_comm, Real.norm_eq_abs, Real.norm_eq_abs, abs_of_nonneg (sq_nonneg (b - a))]
      exact hf b)
  refine h1.trans_isLittleO ?_
  have h2 : (fun h : ℝ => h ^ 2) =o[nhds 0] fun h => h := by
    simpa using Asymptotics.isLittleO_pow_id (𝕜 := ℝ) (n := 2) (by norm_num)
  have h3 : Filter.Tendsto (fun b => b - a) (nhds a) (nhds 0) := by
    have : Continuous fun b : ℝ => b - a := by fun_prop
    simpa using this.tendsto a
  exact h2.comp_tendsto h3

theorem blend_hasDerivAt (a : ℝ) : HasDerivAt blend (kksHderiv a) a :=
  deriv_of_tangent (K := 3) fun b => abs_le.mpr ⟨by linarith [blend_below a b], by linarith [blend_above a b]⟩

theorem barrier_hasDerivAt (p : Kks) (a : ℝ) : HasDerivAt (fun t => p.w * barrier t) (kksGderiv p a) a := by
  have h1 := clip_tangent (P := fun t => t ^ 2 * (1 - t) ^ 2) (P' := fun t => 2 * t * (1 - t) * (1 - 2 * t)) (K := 1) (by norm_num)
    (by norm_num) (by norm_num) (by
      intro x y x0 x1 y0 y1
      have e : 0 ≤ 4 * x + 2 * y - 3 * x ^ 2 - 2 * x * y - y ^ 2 := by nlinarith [mul_nonneg x0 (sub_nonneg.mpr y1)]
      have : 0 ≤ (y - x) ^ 2 * (4 * x + 2 * y - 3 * x ^ 2 - 2 * x * y - y ^ 2) := mul_nonneg (sq_nonneg _) e
      linarith) (by
      intro x x0 x1
      have : (1 - x) * (1 - 2 * x) ≤ 1 := by nlinarith
      nlinarith [mul_le_mul_of_nonneg_left this x0]) (by
      intro x x0 x1
      have : x * (2 * x - 1) ≤ 1 := by nlinarith
      nlinarith [mul_le_mul_of_nonneg_left this (sub_nonneg.mpr x1)]) a
  have h2 := clip_tangent (P := fun t => -(t ^ 2 * (1 - t) ^ 2)) (P' := fun t => -(2 * t * (1 - t) * (1 - 2 * t))) (K := 1)
    (by norm_num) (by norm_num) (by norm_num) (by
      intro x y x0 x1 y0 y1
      have e : 0 ≤ 2 - (4 * x + 2 * y - 3 * x ^ 2 - 2 * x * y - y ^ 2) := by
        nlinarith [sq_nonneg (x + y - 1), sq_nonneg (2 * x - 1)]
      have : 0 ≤ (y - x) ^ 2 * (2 - (4 * x + 2 * y - 3 * x ^ 2 - 2 * x * y - y ^ 2)) := mul_nonneg (sq_nonneg _) e
      linarith) (by
      intro x x0 x1
      have : (1 - x) * (2 * x - 1) ≤ 1 := by nlinarith
      nlinarith [mul_le_mul_of_nonneg_left this x0]) (by
      intro x x0 x1
      have : x * (1 - 2 * x) ≤ 1 := by nlinarith
      nlinarith [mul_le_mul_of_nonneg_left this (sub_nonneg.mpr x1)]) a
  rw [gderiv_clip]
  refine HasDerivAt.const_mul p.w (deriv_of_tangent (K := 1) fun b => ?_)
  rw [barrier_clip, barrier_clip]
  exact abs_le.mpr ⟨by linarith [h2 b], by linarith [h1 b]⟩

/-- C136: the derivative of the energy in the directions `v` and `w`: `f0` times the excess is the potential whose
Laplacian moves the concentration, and minus the other factor is what moves `phi`. -/
theorem c136_gradient (h : ∀ d ∈ dims, 0 < d) (p : Kks) {c φ v w : Data dims.prod} (hw : IsReal w) :
    HasDerivAt (fun t : ℝ => kksEnergy p (fun x => c x + t * v x) (fun x => φ x + t * w x))
      (∑ x, (p.f0 * kksExcess p (c x).re (φ x).re) * (v x).re +
        ∑ x, (kksGderiv p (φ x).re + p.f0 * kksHderiv (φ x).re * (p.c0 - p.c1) * kksExcess p (c x).re (φ x).re -
          2 * p.w / p.l * (gridLaplacian (freqOf dims) φ x).re) * (w x).re) 0 := by
  have hp : (0 : ℝ) < (dims.prod : ℕ) := by
    have := Nat.pos_of_ne_zero (n := dims.prod) (by exact_mod_cast prod_ne_zero h)
    exact_mod_cast this
  have line : ∀ a b : ℂ, HasDerivAt (fun t : ℝ => (a + t * b).re) b.re 0 := by
    intro a b
    simp only [Complex.add_re, Complex.re_ofReal_mul]
    simpa using ((hasDerivAt_id (0 : ℝ)).mul_const b.re).const_add a.re
  have at0 : ∀ a b : ℂ, (a + ((0 : ℝ) : ℂ) * b).re = a.re := by intro a b; simp
  have d1 : HasDerivAt (fun t : ℝ => ∑ x, (p.w * barrier (φ x + t * w x).re +
      p.f0 / 2 * kksExcess p (c x + t * v x).re (φ x + t * w x).re ^ 2))
      (∑ x, (kksGderiv p (φ x).re * (w x).re + p.f0 / 2 * (2 * kksExcess p (c x).re (φ x).re *
        ((v x).re - kksHderiv (φ x).re * (w x).re * (p.c1 - p.c0))))) 0 := by
    refine HasDerivAt.fun_sum fun x _ => ?_
    have i1 := (barrier_hasDerivAt p (φ x + ((0 : ℝ) : ℂ) * w x).re).comp (0 : ℝ) (line (φ x) (w x))
    have i2 := (blend_hasDerivAt (φ x + ((0 : ℝ) : ℂ) * w x).re).comp (0 : ℝ) (line (φ x) (w x))
    rw [at0] at i1 i2
    have i3 : HasDerivAt (fun t : ℝ => kksExcess p (c x + t * v x).re (φ x + t * w x).re)
        ((v x).re - kksHderiv (φ x).re * (w x).re * (p.c1 - p.c0)) 0 := by
      unfold kksExcess
      exact (line (c x) (v x)).sub ((i2.mul_const (p.c1 - p.c0)).const_add p.c0)
    have i4 := (i3.pow 2).const_mul (p.f0 / 2)
    refine (i1.add i4).congr_deriv ?_
    simp only [at0]
    push_cast
    ring
  have d2 : HasDerivAt (fun t : ℝ => p.w / p.l * ((∑ k, laplaceNumber dims k * ‖fft dims (fun x => φ x + t * w x) k‖ ^ 2) / (dims.prod : ℕ)))
      (p.w / p.l * ((∑ k, laplaceNumber dims k * (2 * (fft dims φ k * (starRingEnd ℂ) (fft dims w k)).re)) / (dims.prod : ℕ))) 0 := by
    refine HasDerivAt.const_mul _ (HasDerivAt.div_const (HasDerivAt.fun_sum fun k _ => HasDerivAt.const_mul (laplaceNumber dims k) ?_) _)
    have i1 : (fun t : ℝ => ‖fft dims (fun x => φ x + t * w x) k‖ ^ 2) = fun t : ℝ => ‖fft dims φ k‖ ^ 2 +
        t * (2 * (fft dims φ k * (starRingEnd ℂ) (fft dims w k)).re) + t ^ 2 * ‖fft dims w k‖ ^ 2 := by
      funext t
      rw [fft_add, fft_smul]
      simp only [← Complex.normSq_eq_norm_sq, Complex.normSq_apply, Complex.add_re, Complex.add_im, Complex.mul_re,
        Complex.mul_im, Complex.conj_re, Complex.conj_im, Complex.ofReal_re, Complex.ofReal_im]
      ring
    rw [i1]
    have i2 := (((hasDerivAt_id (0 : ℝ)).mul_const (2 * (fft dims φ k * (starRingEnd ℂ) (fft dims w k)).re)).const_add
      (‖fft dims φ k‖ ^ 2)).add ((hasDerivAt_pow 2 (0 : ℝ)).mul_const (‖fft dims w k‖ ^ 2))
    refine HasDerivAt.congr_deriv i2 ?_
    simp
  refine (d1.add d2).congr_deriv ?_
  have p1 : ∑ k, laplaceNumber dims k * (2 * (fft dims φ k * (starRingEnd ℂ) (fft dims w k)).re) =
      -2 * ((dims.prod : ℕ) * ∑ x, (gridLaplacian (freqOf dims) φ x).re * (w x).re) := by
    have e1 : ∑ x, (gridLaplacian (freqOf dims) φ x).re * (w x).re =
        ∑ x, (gridLaplacian (freqOf dims) φ x * (starRingEnd ℂ) (w x)).re :=
      Finset.sum_congr rfl fun x _ => by simp [hw x]
    rw [e1, ← real_parseval h, Finset.mul_sum]
    refine Finset.sum_congr rfl fun k _ => ?_
    unfold gridLaplacian
    rw [fft_lap h, symbol_laplaceNumber, neg_mul, mul_assoc, neg_mul, Complex.neg_re, Complex.re_ofReal_mul]
    ring
  have p2 : p.w / p.l * (-2 * ((dims.prod : ℕ) * ∑ x, (gridLaplacian (freqOf dims) φ x).re * (w x).re) / (dims.prod : ℕ)) =
      ∑ x, -(2 * p.w / p.l) * ((gridLaplacian (freqOf dims) φ x).re * (w x).re) := by
    rw [← Finset.mul_sum]
    generalize ∑ x, (gridLaplacian (freqOf dims) φ x).re * (w x).re = S
    field_simp
  rw [p1, p2, ← Finset.sum_add_distrib, ← Finset.sum_add_distrib]
  exact Finset.sum_congr rfl fun x _ => by ring

/-- C136: a step of the program follows this gradient. The new concentration solves an equation in which the potential
is taken with the old `phi`, and the new `phi` one in which the Laplacian is taken of the new `phi`. -/
theorem c136_scheme (h : GoodDims (intDims dims)) (p : Kks) (hw : 0 ≤ p.w) (hf : 0 ≤ p.f0) (hm : 0 ≤ p.m) (hpl : 0 < p.l) :
    ∃ (m : EqModel dims.prod) (M : Model m.fields.length m.derived.length dims.prod) (i j : Fin m.fields.length),
      kksEquations.foldlM EqModel.addEquation (kksModel p dims.prod) = some m ∧ m.fields.length = 2 ∧
      m.assemble (kksScalars p) = some M ∧ m.fields[i] = "conc".toList ∧ m.fields[j] = "phi".toList ∧
      ∀ (s : Stepper dims.prod), s.freq = freqOf dims → s.filter = none → 0 ≤ s.dt →
      ∀ st c' φ', c' = (eulerStep M (s, st)).2.fields i → φ' = (eulerStep M (s, st)).2.fields j → ∀ x,
        c' x = Store.fields st i x + (s.dt * (2 * p.m) : ℝ) * gridLaplacian (freqOf dims) (fun y => (p.f0 : ℂ) *
          (c' y - ((p.c0 + blend (st.fields j y).re * (p.c1 - p.c0) : ℝ) : ℂ))) x ∧
        φ' x = st.fields j x - (s.dt : ℂ) * (((kksGderiv p (st.fields j x).re + p.f0 * kksHderiv (st.fields j x).re *
          (p.c0 - p.c1) * kksExcess p (st.fields i x).re (st.fields j x).re : ℝ) : ℂ) -
            ((2 * p.w / p.l : ℝ) : ℂ) * gridLaplacian (freqOf dims) φ' x) := by
  have hpos := pos_of_goodDims h
  obtain ⟨m, M, i, j, h1, h2, h3, h4, h5, h6⟩ := kks_waves hpos p
  refine ⟨m, M, i, j, h1, h2, h3, h4, h5, ?_⟩
  rintro s hfreq hfil hdt st c' φ' hc' hφ'
  have hn : ∀ k, 0 ≤ laplaceNumber dims k := fun k => laplaceNumber_nonneg k
  have w1 : ∀ k, fft dims c' k = fft dims (fun x => Store.fields st i x + (s.dt * (2 * p.m) : ℝ) *
      gridLaplacian (freqOf dims) (fun y => (p.f0 : ℂ) *
          (c' y - ((p.c0 + blend (st.fields j y).re * (p.c1 - p.c0) : ℝ) : ℂ))) x) k := by
    intro k
    have := (h6 s hfreq hfil st k).1 (by
      have := mul_nonneg (mul_nonneg hdt (mul_nonneg (mul_nonneg (zero_le_two (α := ℝ)) hf) hm)) (hn k)
      linarith)
    rw [← hc'] at this
    have hfun : (fun y => (p.f0 : ℂ) * (c' y - ((p.c0 + blend (st.fields j y).re * (p.c1 - p.c0) : ℝ) : ℂ))) =
        fun y => (p.f0 : ℂ) * ((c' y + ((p.c0 - p.c1 : ℝ) : ℂ) * (kksH (st.fields j y).re : ℂ)) + (-1) * (fun _ => (p.c0 : ℂ)) y) := by
      funext y
      rw [kksH_blend]
      push_cast
      ring
    rw [fft_add, fft_smul, hfun]
    unfold gridLaplacian
    rw [fft_lap hpos, symbol_laplaceNumber, fft_smul, fft_add, fft_add, fft_smul, fft_smul]
    have hc := laplace_const h (p.c0 : ℂ) k
    push_cast at this ⊢
    linear_combination this - (s.dt : ℂ) * (2 * p.m) * p.f0 * hc
  have w2 : ∀ k, fft dims φ' k = fft dims (fun x => st.fields j x + (-(s.dt : ℂ)) * (((kksGderiv p (st.fields j x).re +
      p.f0 * kksHderiv (st.fields j x).re * (p.c0 - p.c1) * kksExcess p (st.fields i x).re (st.fields j x).re : ℝ) : ℂ) +
            (-((2 * p.w / p.l : ℝ) : ℂ)) * gridLaplacian (freqOf dims) φ' x)) k := by
    intro k
    have := (h6 s hfreq hfil st k).2 (by
      have := mul_nonneg (mul_nonneg hdt (div_nonneg (mul_nonneg (zero_le_two (α := ℝ)) hw) hpl.le)) (hn k)
      linarith)
    rw [← hφ'] at this
    have hfun : (fun x => ((kksGderiv p (st.fields j x).re + p.f0 * kksHderiv (st.fields j x).re * (p.c0 - p.c1) *
        ((st.fields i x).re - p.c0 + kksH (st.fields j x).re * (p.c0 - p.c1)) : ℝ) : ℂ)) =
        fun x => ((kksGderiv p (st.fields j x).re + p.f0 * kksHderiv (st.fields j x).re * (p.c0 - p.c1) *
          kksExcess p (st.fields i x).re (st.fields j x).re : ℝ) : ℂ) := by
      funext x
      rw [kksExcess_eq, kksH_blend]
    rw [hfun] at this
    rw [fft_add, fft_smul, fft_add, fft_smul]
    unfold gridLaplacian
    rw [fft_lap hpos, symbol_laplaceNumber]
    push_cast at this ⊢
    linear_combination this
  intro x
  refine ⟨congrFun (fft_injective hpos (funext w1)) x, ?_⟩
  have := congrFun (fft_injective hpos (funext w2)) x
  refine this.trans ?_
  ring

/-! ### The program -/

/-- C136: one step of the program, with any constants: real fields stay real, the sum of the concentration is
kept, and the energy falls by at least `ε` times the sum of the squared changes, if the excess is at most `b` before the
step and the time step is small enough for `b` and `ε`. -/
theorem c136_step (h : GoodDims (intDims dims)) (hl : LayoutOk dims) (p : Kks) (hw : 0 ≤ p.w) (hf : 0 ≤ p.f0) (hm : 0 ≤ p.m)
    (hpl : 0 < p.l) :
    ∃ (m : EqModel dims.prod) (M : Model m.fields.length m.derived.length dims.prod) (i j : Fin m.fields.length),
      kksEquations.foldlM EqModel.addEquation (kksModel p dims.prod) = some m ∧ m.fields.length = 2 ∧
      m.assemble (kksScalars p) = some M ∧ m.fields[i] = "conc".toList ∧ m.fields[j] = "phi".toList ∧
      ∀ (s : Stepper dims.prod), s.freq = freqOf dims → s.filter = none → 0 ≤ s.dt →
      ∀ st, IsReal (Store.fields st i) → IsReal (Store.fields st j) →
        IsReal ((eulerStep M (s, st)).2.fields i) ∧ IsReal ((eulerStep M (s, st)).2.fields j) ∧
        ∑ x, (eulerStep M (s, st)).2.fields i x = ∑ x, st.fields i x ∧
        ∀ b ε : ℝ, 0 ≤ ε → (∀ x, |kksExcess p (st.fields i x).re (st.fields j x).re| ≤ b) →
          s.dt * (2 * ε + kksCurvature p b) ≤ 2 → s.dt * p.m * (Real.pi ^ 2 * dims.length) * (2 * ε) ≤ 1 →
          kksEnergy p ((eulerStep M (s, st)).2.fields i) ((eulerStep M (s, st)).2.fields j) +
            ε * (squares ((eulerStep M (s, st)).2.fields i - st.fields i) +
              squares ((eulerStep M (s, st)).2.fields j - st.fields j)) ≤ kksEnergy p (st.fields i) (st.fields j) := by
  have hpos := pos_of_goodDims h
  obtain ⟨m, M, i, j, h1, h2, h3, h4, h5, h6⟩ := kks_waves hpos p
  refine ⟨m, M, i, j, h1, h2, h3, h4, h5, ?_⟩
  intro s hfreq hfil hdt st hci hφj
  have hx0 : ∀ k, 0 ≤ laplaceNumber dims k := laplaceNumber_nonneg
  have hgam : 0 ≤ 2 * p.w / p.l := by positivity
  have ne1 : ∀ k, 1 + s.dt * (2 * p.f0 * p.m) * laplaceNumber dims k ≠ 0 := fun k => by
    have := hx0 k
    positivity
  have ne2 : ∀ k, 1 + s.dt * (2 * p.w / p.l) * laplaceNumber dims k ≠ 0 := fun k => by
    have := hx0 k
    positivity
  set c := st.fields i
  set φ := st.fields j
  set c' := (eulerStep M (s, st)).2.fields i
  set φ' := (eulerStep M (s, st)).2.fields j
  set A : Fin dims.prod → ℝ := fun x => p.f0 * (blend (φ x).re * (p.c0 - p.c1) - p.c0) with hA
  set B : Fin dims.prod → ℝ := fun x => kksGderiv p (φ x).re + p.f0 * kksHderiv (φ x).re * (p.c0 - p.c1) *
    ((c x).re - p.c0 + kksH (φ x).re * (p.c0 - p.c1)) with hB
  have stepC : ∀ k, fft dims c' k - fft dims c k = -((s.dt * (2 * p.m * laplaceNumber dims k) : ℝ) : ℂ) *
      (fft dims (fun x => (A x : ℂ)) k + ((p.f0 : ℝ) : ℂ) * fft dims c' k) := by
    intro k
    have e := (h6 s hfreq hfil st k).1 (ne1 k)
    have e2 : fft dims (fun x => (A x : ℂ)) k = ((p.f0 * (p.c0 - p.c1) : ℝ) : ℂ) * fft dims (fun x => (kksH (φ x).re : ℂ)) k +
        fft dims (fun _ => ((-(p.f0 * p.c0) : ℝ) : ℂ)) k := by
      rw [← fft_smul, ← fft_add]
      congr 1
      funext x
      simp only [hA, kksH_blend]
      push_cast
      ring
    have e3 := laplace_const h ((-(p.f0 * p.c0) : ℝ) : ℂ) k
    rw [e, e2]
    push_cast at e3 ⊢
    linear_combination (2 * s.dt * p.m : ℂ) * e3
  have stepP : ∀ k, fft dims φ' k - fft dims φ k = -((s.dt * 1 : ℝ) : ℂ) *
      (fft dims (fun x => (B x : ℂ)) k + ((2 * p.w / p.l * laplaceNumber dims k : ℝ) : ℂ) * fft dims φ' k) := by
    intro k
    have e := (h6 s hfreq hfil st k).2 (ne2 k)
    rw [mul_one]
    exact e
  have hc' : IsReal c' := waves_real h hl hci (F := fun x => (A x : ℂ)) (fun x => by simp)
    (fun t => s.dt * (2 * p.m * t)) (fun _ => p.f0) (fun k => by
      have := ne1 k
      intro e
      apply this
      linarith) stepC
  have hφ' : IsReal φ' := waves_real h hl hφj (F := fun x => (B x : ℂ)) (fun x => by simp)
    (fun t => s.dt * 1) (fun t => 2 * p.w / p.l * t) (fun k => by
      have := ne2 k
      intro e
      apply this
      linarith) stepP
  refine ⟨hc', hφ', ?_, ?_⟩
  · have hP := Nat.pos_of_ne_zero (n := dims.prod) (by exact_mod_cast prod_ne_zero hpos)
    have e := stepC ⟨0, hP⟩
    rw [laplace_origin h ⟨0, hP⟩ rfl, fft_zero_bin _ _ rfl, fft_zero_bin _ _ rfl] at e
    simp only [mul_zero, Complex.ofReal_zero, neg_zero, zero_mul] at e
    exact sub_eq_zero.mp e
  · intro b ε hε hb hlim hlim2
    have lossC := field_loss hpos hci hc' A (K := p.f0) (ε := ε) hdt (fun k => 2 * p.m * laplaceNumber dims k) (fun _ => p.f0)
      (fun k => mul_nonneg (by positivity) (hx0 k)) stepC (fun k => by
        have e1 := mul_le_mul_of_nonneg_left (laplaceNumber_le h k) (mul_nonneg hdt hm)
        have e2 := mul_le_mul_of_nonneg_right e1 (show 0 ≤ 2 * ε by linarith)
        linarith)
    have lossP := field_loss hpos hφj hφ' B (K := kksCurvature p b) (ε := ε) hdt (fun _ => 1) (fun k => 2 * p.w / p.l * laplaceNumber dims k)
      (fun _ => zero_le_one) stepP (fun k => by
        have := mul_nonneg hdt (mul_nonneg hgam (hx0 k))
        linarith)
    have hsum : ∑ x, kksExplicit p (c' x).re (φ' x).re ≤ ∑ x, kksExplicit p (c x).re (φ x).re +
        ∑ x, A x * ((c' x).re - (c x).re) + ∑ x, B x * ((φ' x).re - (φ x).re) +
        p.f0 / 2 * ∑ x, ((c' x).re - (c x).re) ^ 2 + kksCurvature p b / 2 * ∑ x, ((φ' x).re - (φ x).re) ^ 2 := by
      rw [Finset.mul_sum, Finset.mul_sum, ← Finset.sum_add_distrib, ← Finset.sum_add_distrib, ← Finset.sum_add_distrib,
        ← Finset.sum_add_distrib]
      exact Finset.sum_le_sum fun x _ => kks_tangent p hw hf _ _ _ _ (hb x)
    rw [kksEnergy_split hpos p hci, kksEnergy_split hpos p hc', mul_add]
    linarith

theorem barrier_nonneg (t : ℝ) : 0 ≤ barrier t := by
  rw [barrier_clip]
  positivity

theorem excess_le_energy (p : Kks) (hw : 0 ≤ p.w) (hf : 0 ≤ p.f0) (hpl : 0 < p.l) (c φ : Data dims.prod) (x : Fin dims.prod) :
    p.f0 / 2 * kksExcess p (c x).re (φ x).re ^ 2 ≤ kksEnergy p c φ := by
  have h0 : ∀ x, 0 ≤ p.w * barrier (φ x).re + p.f0 / 2 * kksExcess p (c x).re (φ x).re ^ 2 := fun x =>
    add_nonneg (mul_nonneg hw (barrier_nonneg _)) (by positivity)
  have h1 := Finset.single_le_sum (f := fun x => p.w * barrier (φ x).re + p.f0 / 2 * kksExcess p (c x).re (φ x).re ^ 2)
    (fun x _ => h0 x) (Finset.mem_univ x)
  have h2 : 0 ≤ p.w / p.l * ((∑ k, laplaceNumber dims k * ‖fft dims φ k‖ ^ 2) / (dims.prod : ℕ)) :=
    mul_nonneg (div_nonneg hw hpl.le) (div_nonneg (Finset.sum_nonneg fun k _ => mul_nonneg (laplaceNumber_nonneg k) (by positivity))
      (Nat.cast_nonneg _))
  have h3 := mul_nonneg hw (barrier_nonneg (φ x).re)
  unfold kksEnergy
  linarith

theorem kksEnergy_nonneg (p : Kks) (hw : 0 ≤ p.w) (hf : 0 ≤ p.f0) (hpl : 0 < p.l) (c φ : Data dims.prod) : 0 ≤ kksEnergy p c φ := by
  unfold kksEnergy
  refine add_nonneg (Finset.sum_nonneg fun x _ => add_nonneg (mul_nonneg hw (barrier_nonneg _)) (by positivity))
    (mul_nonneg (div_nonneg hw hpl.le) (div_nonneg (Finset.sum_nonneg fun k _ => mul_nonneg (laplaceNumber_nonneg k) (by positivity))
      (Nat.cast_nonneg _)))

/-- C136: a whole run. If the energy of the start is at most `f0 b²/2` and `dt` is small enough for `b`, the excess
never is larger than `b`, the sum of the concentration is kept and the energy falls in every step; if `dt` is a bit
smaller still, the fields come to rest. -/
theorem c136_run (h : GoodDims (intDims dims)) (hl : LayoutOk dims) (p : Kks) (hw : 0 ≤ p.w) (hf : 0 < p.f0) (hm : 0 ≤ p.m)
    (hpl : 0 < p.l) :
    ∃ (m : EqModel dims.prod) (M : Model m.fields.length m.derived.length dims.prod) (i j : Fin m.fields.length),
      kksEquations.foldlM EqModel.addEquation (kksModel p dims.prod) = some m ∧ m.fields.length = 2 ∧
      m.assemble (kksScalars p) = some M ∧ m.fields[i] = "conc".toList ∧ m.fields[j] = "phi".toList ∧
      ∀ (s : Stepper dims.prod), s.freq = freqOf dims → s.filter = none → 0 ≤ s.dt →
      ∀ st, IsReal (Store.fields st i) → IsReal (Store.fields st j) →
      ∀ b : ℝ, 0 ≤ b → kksEnergy p (st.fields i) (st.fields j) ≤ p.f0 / 2 * b ^ 2 → s.dt * kksCurvature p b ≤ 2 →
        (∀ steps, ∑ x, (eulerPropagate M steps (s, st)).2.fields i x = ∑ x, st.fields i x ∧
          (∀ x, |kksExcess p ((eulerPropagate M steps (s, st)).2.fields i x).re
            ((eulerPropagate M steps (s, st)).2.fields j x).re| ≤ b) ∧
          kksEnergy p ((eulerPropagate M (steps + 1) (s, st)).2.fields i) ((eulerPropagate M (steps + 1) (s, st)).2.fields j) ≤
            kksEnergy p ((eulerPropagate M steps (s, st)).2.fields i) ((eulerPropagate M steps (s, st)).2.fields j)) ∧
        (s.dt * kksCurvature p b < 2 →
          Filter.Tendsto (fun steps => squares ((eulerPropagate M (steps + 1) (s, st)).2.fields i - (eulerPropagate M steps (s, st)).2.fields i) +
            squares ((eulerPropagate M (steps + 1) (s, st)).2.fields j - (eulerPropagate M steps (s, st)).2.fields j))
            Filter.atTop (nhds 0)) := by
  obtain ⟨m, M, i, j, h1, h2, h3, h4, h5, h6⟩ := c136_step h hl p hw hf.le hm hpl
  refine ⟨m, M, i, j, h1, h2, h3, h4, h5, ?_⟩
  intro s hfreq hfil hdt st hci hφj b hb hE hlim
  have hbound : ∀ c φ : Data dims.prod, kksEnergy p c φ ≤ p.f0 / 2 * b ^ 2 → ∀ x, |kksExcess p (c x).re (φ x).re| ≤ b := by
    intro c φ hcφ x
    refine abs_le_of_sq_le_sq ?_ hb
    have := (excess_le_energy p hw hf.le hpl c φ x).trans hcφ
    exact le_of_mul_le_mul_left this (by positivity)
  -- what is kept
  have key : ∀ steps, IsReal ((eulerPropagate M steps (s, st)).2.fields i) ∧ IsReal ((eulerPropagate M steps (s, st)).2.fields j) ∧
      ∑ x, (eulerPropagate M steps (s, st)).2.fields i x = ∑ x, st.fields i x ∧
      kksEnergy p ((eulerPropagate M steps (s, st)).2.fields i) ((eulerPropagate M steps (s, st)).2.fields j) ≤ p.f0 / 2 * b ^ 2 := by
    intro steps
    induction steps with
    | zero => exact ⟨hci, hφj, rfl, hE⟩
    | succ n ih =>
      obtain ⟨i1, i2, i3, i4⟩ := ih
      have e := propagate_stepper M n s st
      rw [propagate_succ]
      generalize eulerPropagate M n (s, st) = q at *
      obtain ⟨s', st'⟩ := q
      dsimp only at *
      obtain ⟨r1, r2, r3, r4⟩ := h6 s' (by rw [e]; exact hfreq) (by rw [e]; exact hfil) (by rw [e]; exact hdt) st' i1 i2
      refine ⟨r1, r2, r3.trans i3, ?_⟩
      have := r4 b 0 le_rfl (hbound _ _ i4) (by rw [e]; simpa using hlim) (by simp)
      rw [zero_mul, add_zero] at this
      exact this.trans i4
  have fall : ∀ ε : ℝ, 0 ≤ ε → s.dt * (2 * ε + kksCurvature p b) ≤ 2 → s.dt * p.m * (Real.pi ^ 2 * dims.length) * (2 * ε) ≤ 1 → ∀ steps,
      kksEnergy p ((eulerPropagate M (steps + 1) (s, st)).2.fields i) ((eulerPropagate M (steps + 1) (s, st)).2.fields j) +
        ε * (squares ((eulerPropagate M (steps + 1) (s, st)).2.fields i - (eulerPropagate M steps (s, st)).2.fields i) +
            squares ((eulerPropagate M (steps + 1) (s, st)).2.fields j - (eulerPropagate M steps (s, st)).2.fields j)) ≤
        kksEnergy p ((eulerPropagate M steps (s, st)).2.fields i) ((eulerPropagate M steps (s, st)).2.fields j) := by
    intro ε hε l1 l2 steps
    obtain ⟨i1, i2, i3, i4⟩ := key steps
    have e := propagate_stepper M steps s st
    rw [propagate_succ]
    generalize eulerPropagate M steps (s, st) = q at *
    obtain ⟨s', st'⟩ := q
    dsimp only at *
    exact (h6 s' (by rw [e]; exact hfreq) (by rw [e]; exact hfil) (by rw [e]; exact hdt) st' i1 i2).2.2.2 b ε hε (hbound _ _ i4)
      (by rw [e]; exact l1) (by rw [e]; exact l2)
  refine ⟨fun steps => ⟨(key steps).2.2.1, hbound _ _ (key steps).2.2.2, ?_⟩, ?_⟩
  · have := fall 0 le_rfl (by simpa using hlim) (by simp) steps
    rw [zero_mul, add_zero] at this
    exact this
  · intro hlt
    set D : ℝ := s.dt * p.m * (Real.pi ^ 2 * dims.length) with hD
    have hD0 : 0 ≤ D := by positivity
    set δ := 2 - s.dt * kksCurvature p b with hδ
    have hδ0 : 0 < δ := by linarith
    obtain ⟨ε, hε, l1, l2⟩ : ∃ ε : ℝ, 0 < ε ∧ s.dt * (2 * ε) ≤ δ ∧ D * (2 * ε) ≤ 1 := by
      refine ⟨min (δ / (2 * s.dt + 1)) (1 / (2 * D + 1)), lt_min (by positivity) (by positivity), ?_, ?_⟩
      · have := min_le_left (δ / (2 * s.dt + 1)) (1 / (2 * D + 1))
        have e1 := mul_le_mul_of_nonneg_left this (show 0 ≤ 2 * s.dt by linarith)
        have e2 : 2 * s.dt * (δ / (2 * s.dt + 1)) ≤ δ := by
          rw [mul_div_assoc', div_le_iff₀ (by positivity)]
          nlinarith
        linarith
      · have := min_le_right (δ / (2 * s.dt + 1)) (1 / (2 * D + 1))
        have e1 := mul_le_mul_of_nonneg_left this (show 0 ≤ 2 * D by linarith)
        have e2 : 2 * D * (1 / (2 * D + 1)) ≤ 1 := by
          rw [mul_div_assoc', div_le_iff₀ (by positivity)]
          nlinarith
        linarith
    have hfall := fall ε hε.le (by rw [mul_add]; linarith) l2
    set E : ℕ → ℝ := fun steps => kksEnergy p ((eulerPropagate M steps (s, st)).2.fields i) ((eulerPropagate M steps (s, st)).2.fields j) with hEdef
    have hanti : Antitone E := antitone_nat_of_succ_le fun n => by
      have := hfall n
      have h0 : 0 ≤ ε * (squares ((eulerPropagate M (n + 1) (s, st)).2.fields i - (eulerPropagate M n (s, st)).2.fields i) +
            squares ((eulerPropagate M (n + 1) (s, st)).2.fields j - (eulerPropagate M n (s, st)).2.fields j)) :=
        mul_nonneg hε.le (add_nonneg (squares_nonneg _) (squares_nonneg _))
      show kksEnergy p _ _ ≤ kksEnergy p _ _
      linarith
    have hbdd : BddBelow (Set.range E) := ⟨0, by
      rintro _ ⟨n, rfl⟩
      exact kksEnergy_nonneg p hw hf.le hpl _ _⟩
    have hlimE := tendsto_atTop_ciInf hanti hbdd
    have hdiff : Filter.Tendsto (fun n => (E n - E (n + 1)) / ε) Filter.atTop (nhds 0) := by
      have := (hlimE.sub (hlimE.comp (Filter.tendsto_add_atTop_nat 1))).div_const ε
      simpa using this
    refine squeeze_zero (fun n => add_nonneg (squares_nonneg _) (squares_nonneg _)) (fun n => ?_) hdiff
    rw [le_div_iff₀ hε]
    have := hfall n
    show _ ≤ kksEnergy p _ _ - kksEnergy p _ _
    linarith

/-- C136: for every start there is such a time step. -/
theorem c136_exists (p : Kks) (hw : 0 ≤ p.w) (hf : 0 < p.f0) (hpl : 0 < p.l) (c φ : Data dims.prod) :
    ∃ b dt : ℝ, 0 ≤ b ∧ 0 < dt ∧ kksEnergy p c φ ≤ p.f0 / 2 * b ^ 2 ∧ dt * kksCurvature p b < 2 := by
  have h0 := kksEnergy_nonneg p hw hf.le hpl c φ
  refine ⟨Real.sqrt (2 * kksEnergy p c φ / p.f0), 1 / (kksCurvature p (Real.sqrt (2 * kksEnergy p c φ / p.f0)) + 1),
    Real.sqrt_nonneg _, ?_, ?_, ?_⟩
  · have : 0 ≤ kksCurvature p (Real.sqrt (2 * kksEnergy p c φ / p.f0)) := by unfold kksCurvature; positivity
    positivity
  · rw [Real.sq_sqrt (by positivity)]
    apply le_of_eq
    field_simp
  · have : 0 ≤ kksCurvature p (Real.sqrt (2 * kksEnergy p c φ / p.f0)) := by unfold kksCurvature; positivity
    rw [div_mul_eq_mul_div, one_mul, div_lt_iff₀ (by positivity)]
    linarith

/-- C136: the constants of the program are fine as long as the excess is at most 35. The excess at the
start, where `phi` is the concentration and lies between 0 and 1, is at most 1. -/
theorem c136_constants : kksConstants.dt * kksCurvature kksConstants 35 ≤ 2 ∧
    ∀ t : ℝ, 0 ≤ t → t ≤ 1 → |kksExcess kksConstants t t| ≤ 1 := by
  constructor
  · unfold kksCurvature kksConstants
    norm_num [abs_of_neg]
  · intro t h0 h1
    rw [kksExcess_eq, blend_clip, clip_mid h0 h1]
    unfold kksConstants
    dsimp only
    have e0 : 0 ≤ 3 * t ^ 2 - 2 * t ^ 3 := by nlinarith [mul_nonneg (sq_nonneg t) (sub_nonneg.mpr h1)]
    have e1 : 3 * t ^ 2 - 2 * t ^ 3 ≤ 1 := by nlinarith [mul_nonneg (sq_nonneg (1 - t)) h0, sq_nonneg (1 - t)]
    rw [abs_le]
    constructor <;> linarith

theorem kksEnergy_uniform (h : GoodDims (intDims dims)) (p : Kks) (a b : ℝ) :
    kksEnergy p (fun _ : Fin dims.prod => (a : ℂ)) (fun _ => (b : ℂ)) =
      (dims.prod : ℕ) * (p.w * barrier b + p.f0 / 2 * kksExcess p a b ^ 2) := by
  unfold kksEnergy
  have e : ∑ k, laplaceNumber dims k * ‖fft dims (fun _ => (b : ℂ)) k‖ ^ 2 = 0 := by
    refine Finset.sum_eq_zero fun k _ => ?_
    have := congrArg norm (laplace_const h (b : ℂ) k)
    rw [norm_mul, Complex.norm_real, norm_zero] at this
    rcases mul_eq_zero.mp this with h0 | h0
    · rw [norm_eq_zero.mp h0, zero_mul]
    · rw [h0]; ring
  rw [e]
  simp
  ring

/-- C136: the time step matters: from a uniform start with the constants of the program, a step with `dt = 10` or more
raises the energy. -/
theorem c136_too_large (h : GoodDims (intDims dims)) :
    ∃ (m : EqModel dims.prod) (M : Model m.fields.length m.derived.length dims.prod) (i j : Fin m.fields.length),
      kksEquations.foldlM EqModel.addEquation (kksModel kksConstants dims.prod) = some m ∧ m.fields.length = 2 ∧
      m.assemble (kksScalars kksConstants) = some M ∧ m.fields[i] = "conc".toList ∧ m.fields[j] = "phi".toList ∧
      ∀ (s : Stepper dims.prod), s.freq = freqOf dims → s.filter = none → 10 ≤ s.dt →
      ∀ st, Store.fields st i = (fun _ => ((1 / 2 : ℝ) : ℂ)) → Store.fields st j = (fun _ => ((2 / 5 : ℝ) : ℂ)) →
        kksEnergy kksConstants (st.fields i) (st.fields j) <
          kksEnergy kksConstants ((eulerStep M (s, st)).2.fields i) ((eulerStep M (s, st)).2.fields j) := by
  have hpos := pos_of_goodDims h
  obtain ⟨m, M, i, j, h1, h2, h3, h4, h5, h6⟩ := kks_waves hpos kksConstants
  refine ⟨m, M, i, j, h1, h2, h3, h4, h5, ?_⟩
  intro s hfreq hfil hdt st hci hφj
  have hx0 : ∀ k, 0 ≤ laplaceNumber dims k := laplaceNumber_nonneg
  have ne1 : ∀ k, 1 + s.dt * (2 * kksConstants.f0 * kksConstants.m) * laplaceNumber dims k ≠ 0 := fun k => by
    have := hx0 k
    unfold kksConstants
    dsimp only
    positivity
  have ne2 : ∀ k, 1 + s.dt * (2 * kksConstants.w / kksConstants.l) * laplaceNumber dims k ≠ 0 := fun k => by
    have := hx0 k
    unfold kksConstants
    dsimp only
    positivity
  have hH : kksH (2 / 5) = 44 / 125 := by unfold kksH; norm_num
  have hforce : kksGderiv kksConstants (2 / 5) + kksConstants.f0 * kksHderiv (2 / 5) * (kksConstants.c0 - kksConstants.c1) *
      (1 / 2 - kksConstants.c0 + kksH (2 / 5) * (kksConstants.c0 - kksConstants.c1)) = -(47892 / 625000) := by
    rw [hH]
    unfold kksGderiv kksHderiv kksConstants
    norm_num
  have hc : (eulerStep M (s, st)).2.fields i = fun _ => ((1 / 2 : ℝ) : ℂ) := by
    apply fft_injective hpos
    funext k
    have e := (h6 s hfreq hfil st k).1 (ne1 k)
    rw [hci, hφj] at e
    simp only [Complex.ofReal_re, hH] at e
    have e1 := laplace_const h ((1 / 2 : ℝ) : ℂ) k
    have e2 := laplace_const h ((44 / 125 : ℝ) : ℂ) k
    have hn : (1 : ℂ) + s.dt * (2 * kksConstants.f0 * kksConstants.m) * laplaceNumber dims k ≠ 0 := by
      have := ne1 k
      exact_mod_cast this
    refine mul_right_cancel₀ hn ?_
    push_cast at e e1 e2 ⊢
    linear_combination e - (s.dt * (2 * kksConstants.f0 * kksConstants.m) * (kksConstants.c0 - kksConstants.c1) : ℂ) * e2 -
      (s.dt * (2 * kksConstants.f0 * kksConstants.m) : ℂ) * e1
  have hφ : (eulerStep M (s, st)).2.fields j = fun _ => ((2 / 5 + s.dt * (47892 / 625000) : ℝ) : ℂ) := by
    apply fft_injective hpos
    funext k
    have e := (h6 s hfreq hfil st k).2 (ne2 k)
    rw [hci, hφj] at e
    simp only [Complex.ofReal_re, hforce] at e
    have e1 := laplace_const h ((2 / 5 + s.dt * (47892 / 625000) : ℝ) : ℂ) k
    have e2 : fft dims (fun _ => ((2 / 5 + s.dt * (47892 / 625000) : ℝ) : ℂ)) k =
        fft dims (fun _ => ((2 / 5 : ℝ) : ℂ)) k - s.dt * fft dims (fun _ => ((-(47892 / 625000) : ℝ) : ℂ)) k := by
      simp only [fft_const hpos]
      split_ifs
      · push_cast; ring
      · simp
    have hn : (1 : ℂ) + s.dt * (2 * kksConstants.w / kksConstants.l) * laplaceNumber dims k ≠ 0 := by
      have := ne2 k
      exact_mod_cast this
    refine mul_right_cancel₀ hn ?_
    generalize fft dims (fun _ => ((2 / 5 + s.dt * (47892 / 625000) : ℝ) : ℂ)) k = X at *
    generalize fft dims (fun _ => ((-(47892 / 625000) : ℝ) : ℂ)) k = Y at *
    generalize fft dims (fun _ => ((2 / 5 : ℝ) : ℂ)) k = Z at *
    push_cast at e e1 e2 ⊢
    linear_combination e - e2 - (s.dt * (2 * kksConstants.w / kksConstants.l) : ℂ) * e1
  have hP : (0 : ℝ) < (dims.prod : ℕ) := by
    have := Nat.pos_of_ne_zero (n := dims.prod) (by exact_mod_cast prod_ne_zero hpos)
    exact_mod_cast this
  rw [hc, hφ, hci, hφj, kksEnergy_uniform h, kksEnergy_uniform h]
  refine mul_lt_mul_of_pos_left ?_ hP
  have hbig : 1 ≤ 2 / 5 + s.dt * (47892 / 625000) := by linarith
  rw [kksExcess_eq, kksExcess_eq, blend_clip, blend_clip, barrier_clip, barrier_clip, clip_high hbig,
    clip_mid (t := 2 / 5) (by norm_num) (by norm_num)]
  unfold kksConstants
  norm_num

/-! ### The hypotheses can be met -/

/-- The constants of the program are positive, its grid is a good one, and its first step meets the limit of
`c136_step` with `b = 35` and `ε = 1`. -/
example : 0 ≤ kksConstants.w ∧ 0 < kksConstants.f0 ∧ 0 ≤ kksConstants.m ∧ 0 < kksConstants.l ∧
    GoodDims (intDims [128, 128]) ∧ LayoutOk [128, 128] ∧ kksConstants.dt * (2 * 1 + kksCurvature kksConstants 35) ≤ 2 ∧
    kksConstants.dt * kksConstants.m * (Real.pi ^ 2 * ([128, 128] : List ℕ).length) * (2 * 1) ≤ 1 := by
  refine ⟨by norm_num [kksConstants], by norm_num [kksConstants], by norm_num [kksConstants], by norm_num [kksConstants],
    ⟨by decide, by decide⟩, trivial, ?_, ?_⟩
  · unfold kksCurvature kksConstants
    norm_num [abs_of_neg]
  · unfold kksConstants
    have := Real.pi_le_four
    have h0 := Real.pi_pos
    simp only [List.length_cons, List.length_nil]
    push_cast
    nlinarith

end Gopf.Props
