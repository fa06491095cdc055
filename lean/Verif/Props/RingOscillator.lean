import Verif.Props.GrowthRates
import Verif.Props.Kks

/-!
# C164: three fields in a ring
-/

namespace Gopf.Props
open Spec Pf Pfutil

variable {n : ℕ} {dims : List ℕ}

/-- Three fields and one number. -/
def ringNames : Names := ⟨["conc".toList, "eta".toList, "phi".toList], [], ["gain".toList]⟩

/-- The model before the equations are added. -/
def ringModel (n : ℕ) : EqModel n :=
  ((((EqModel.empty (n := n)).addScalar "gain".toList).addField "conc".toList).addField "eta".toList).addField "phi".toList

/-- `LAPx` -/
def ringSpread (x : Str) : List Item := [⟨some none, some ⟨x, none⟩⟩]
/-- `x` -/
def ringSelf (x : Str) : List Item := [⟨none, some ⟨x, none⟩⟩]
/-- `gain*y` -/
def ringPush (y : Str) : List Item := [⟨none, some ⟨"gain".toList, none⟩⟩, ⟨none, some ⟨y, none⟩⟩]

/-- `dx/dt=LAPx-x-gain*y` -/
def ringEquation (x y : Str) : Equation := ⟨x, none, ringSpread x, [('-', ringSelf x), ('-', ringPush y)]⟩

/-- Every field decays, diffuses, and is held down by the one before it. -/
def ringEquations : List Equation := [ringEquation "conc".toList "phi".toList, ringEquation "eta".toList "conc".toList,
  ringEquation "phi".toList "eta".toList]

def ringTexts : List Str := ["dconc/dt = LAP conc - conc - gain*phi".toList, "deta/dt = LAP eta - eta - gain*conc".toList,
  "dphi/dt = LAP phi - phi - gain*eta".toList]

theorem ring_texts : ringTexts.map (fun s => s.filter fun c => c ≠ ' ') = ringEquations.map Equation.text := by decide +kernel

theorem ring_wellNamed : ringNames.WellNamed where
  ident := by
    have : ∀ x ∈ ringNames.all, (∀ c ∈ x, c.isAlphanum = true ∨ c = '_') ∧ ∃ c ∈ x.head?, c.isAlpha = true := by
      decide +kernel
    intro x hx
    obtain ⟨h1, c, hc, h2⟩ := this x hx
    cases x with
    | nil => simp at hc
    | cons y x =>
      simp only [List.head?_cons, Option.mem_some_iff] at hc
      subst hc
      exact ⟨⟨y, x, rfl, h2⟩, h1⟩
  nodup := by decide +kernel
  noLap := by decide +kernel
  long := by decide +kernel
  sepLap := by decide +kernel
  sepVarying := by decide +kernel
  sepScalar := by decide +kernel

theorem ring_starts : StartsAs ringNames (ringModel n) := by
  refine ⟨rfl, rfl, fun x => ?_⟩
  simp only [ringModel, EqModel.addScalar, EqModel.addField, EqModel.empty, ringNames, Names.all, Names.varying]
  simp only [List.mem_append, List.mem_cons, List.not_mem_nil, or_false, List.nil_append]
  tauto

theorem ring_noLA : ∀ x ∈ ringNames.all, ¬ ['L', 'A'] <:+: x ∨ x = "INTERPOLANT".toList := by decide +kernel

theorem ring_known : ∀ x ∈ ringNames.fields, x ∈ ringNames.all ∧ x ∈ ringNames.varying ∧ x.head? ≠ some 'A' ∧ x.head? ≠ some 'P' := by
  decide +kernel

theorem ring_bare {x : Str} (hx : x ∈ ringNames.all) : Item.WellFormed ringNames ⟨none, some ⟨x, none⟩⟩ :=
  ⟨by simp, by simp, by simp, by
    intro f hf
    obtain rfl : (⟨x, none⟩ : Factor) = f := by simpa using hf
    exact hx, by simp⟩

theorem ring_lap {x : Str} (hx : x ∈ ringNames.fields) : Item.WellFormed ringNames ⟨some none, some ⟨x, none⟩⟩ :=
  ⟨by simp, by simp, by simp, by
    intro f hf
    obtain rfl : (⟨x, none⟩ : Factor) = f := by simpa using hf
    exact (ring_known x hx).1, by
    intro f hf _
    obtain rfl : (⟨x, none⟩ : Factor) = f := by simpa using hf
    exact ⟨(ring_known x hx).2.1, (ring_known x hx).2.2⟩⟩

theorem ring_exactOne (items : List Item) (hi : ∀ i ∈ items, ∀ f ∈ i.fac, f.exp = none) :
    ∀ f ∈ factorsIn ringNames.fields items, |f.power - 1| < 1 / 10 ^ 10 → f.power = 1 := by
  intro f hf _
  obtain ⟨i, h1, h2⟩ := List.mem_filterMap.mp (List.mem_filter.mp hf).1
  simp [Factor.power, hi i h1 f h2]

theorem ring_monomial_of {items : List Item} (hw : ∀ i ∈ items, i.WellFormed ringNames) (h1 : (laplacians items).length ≤ 1)
    (h2 : ∀ i ∈ items.dropLast, ∀ f ∈ i.fac, f.name ≠ "INTERPOLANT".toList)
    (pre V post : List Item) (h3 : (pre ++ (V ++ post)).Perm items)
    (h4 : ((pre ++ (V ++ post)).map Item.text).Pairwise (· ≤ ·))
    (h5 : ∀ i ∈ pre ++ post, ∀ f ∈ i.fac, f.name ∉ ringNames.varying)
    (h6 : ∀ i ∈ V, ∃ f ∈ i.fac, f.name ∈ ringNames.varying) (h7 : ∀ i ∈ V.tail, i.lap = none)
    (h8 : (V.map fun i => facText i.fac).Pairwise (· ≤ ·)) (h9 : ∀ g ∈ ringNames.fields, (occurrences g items).length ≤ 1)
    (h10 : factorsIn ringNames.functions items = [] ∧ factorsIn ringNames.fields items ≠ [])
    (h11 : ∀ i ∈ items, ∀ f ∈ i.fac, f.exp = none) : Monomial ringNames items where
  readable :=
    { wf := hw
      oneLap := h1
      lapFirst := lapFirst_of ring_noLA hw h2
      together := ⟨pre, V, post, h3, h4, h5, h6, h7, h8⟩ }
  once := h9
  kind := Or.inl h10
  exactOne := ring_exactOne items h11

theorem ring_spread {x : Str} (hx : x ∈ ringNames.fields) : Monomial ringNames (ringSpread x) := by
  have hw : ∀ i ∈ ringSpread x, i.WellFormed ringNames := by
    intro i hi
    obtain rfl := List.mem_singleton.mp hi
    exact ring_lap hx
  simp only [ringNames, List.mem_cons, List.not_mem_nil, or_false] at hx
  rcases hx with rfl | rfl | rfl
  · exact ring_monomial_of hw (by decide +kernel) (by decide +kernel) [] (ringSpread "conc".toList) [] (by decide +kernel) (by decide +kernel)
      (by decide +kernel) (by decide +kernel) (by decide +kernel) (by decide +kernel) (by decide +kernel) (by decide +kernel)
      (by decide +kernel)
  · exact ring_monomial_of hw (by decide +kernel) (by decide +kernel) [] (ringSpread "eta".toList) [] (by decide +kernel) (by decide +kernel)
      (by decide +kernel) (by decide +kernel) (by decide +kernel) (by decide +kernel) (by decide +kernel) (by decide +kernel)
      (by decide +kernel)
  · exact ring_monomial_of hw (by decide +kernel) (by decide +kernel) [] (ringSpread "phi".toList) [] (by decide +kernel) (by decide +kernel)
      (by decide +kernel) (by decide +kernel) (by decide +kernel) (by decide +kernel) (by decide +kernel) (by decide +kernel)
      (by decide +kernel)

theorem ring_self {x : Str} (hx : x ∈ ringNames.fields) : Monomial ringNames (ringSelf x) := by
  have hw : ∀ i ∈ ringSelf x, i.WellFormed ringNames := by
    intro i hi
    obtain rfl := List.mem_singleton.mp hi
    exact ring_bare (ring_known x hx).1
  simp only [ringNames, List.mem_cons, List.not_mem_nil, or_false] at hx
  rcases hx with rfl | rfl | rfl
  · exact ring_monomial_of hw (by decide +kernel) (by decide +kernel) [] (ringSelf "conc".toList) [] (by decide +kernel) (by decide +kernel)
      (by decide +kernel) (by decide +kernel) (by decide +kernel) (by decide +kernel) (by decide +kernel) (by decide +kernel)
      (by decide +kernel)
  · exact ring_monomial_of hw (by decide +kernel) (by decide +kernel) [] (ringSelf "eta".toList) [] (by decide +kernel) (by decide +kernel)
      (by decide +kernel) (by decide +kernel) (by decide +kernel) (by decide +kernel) (by decide +kernel) (by decide +kernel)
      (by decide +kernel)
  · exact ring_monomial_of hw (by decide +kernel) (by decide +kernel) [] (ringSelf "phi".toList) [] (by decide +kernel) (by decide +kernel)
      (by decide +kernel) (by decide +kernel) (by decide +kernel) (by decide +kernel) (by decide +kernel) (by decide +kernel)
      (by decide +kernel)

theorem ring_push {x : Str} (hx : x ∈ ringNames.fields) : Monomial ringNames (ringPush x) := by
  have hw : ∀ i ∈ ringPush x, i.WellFormed ringNames := by
    intro i hi
    rcases List.mem_cons.mp hi with rfl | hi
    · exact ring_bare (List.mem_of_elem_eq_true (by rfl))
    · obtain rfl := List.mem_singleton.mp hi
      exact ring_bare (ring_known x hx).1
  simp only [ringNames, List.mem_cons, List.not_mem_nil, or_false] at hx
  rcases hx with rfl | rfl | rfl
  · exact ring_monomial_of hw (by decide +kernel) (by decide +kernel) [] (ringSelf "conc".toList) [⟨none, some ⟨"gain".toList, none⟩⟩]
      (by decide +kernel) (by decide +kernel)
      (by decide +kernel) (by decide +kernel) (by decide +kernel) (by decide +kernel) (by decide +kernel) (by decide +kernel)
      (by decide +kernel)
  · exact ring_monomial_of hw (by decide +kernel) (by decide +kernel) [] (ringSelf "eta".toList) [⟨none, some ⟨"gain".toList, none⟩⟩]
      (by decide +kernel) (by decide +kernel)
      (by decide +kernel) (by decide +kernel) (by decide +kernel) (by decide +kernel) (by decide +kernel) (by decide +kernel)
      (by decide +kernel)
  · exact ring_monomial_of hw (by decide +kernel) (by decide +kernel) [⟨none, some ⟨"gain".toList, none⟩⟩] (ringSelf "phi".toList) []
      (by decide +kernel) (by decide +kernel)
      (by decide +kernel) (by decide +kernel) (by decide +kernel) (by decide +kernel) (by decide +kernel) (by decide +kernel)
      (by decide +kernel)

theorem ring_terms (x y : Str) : (ringEquation x y).terms = [(ringSpread x, none), (ringSelf x, some '-'), (ringPush y, some '-')] := rfl

theorem ring_polynomial {x y : Str} (hx : x ∈ ringNames.fields) (hy : y ∈ ringNames.fields) :
    Equation.Polynomial ringNames (ringEquation x y) := by
  refine ⟨hx, by simp [ringEquation], by simp [ringEquation], ?_⟩
  intro p hp
  rw [ring_terms] at hp
  simp only [List.mem_cons, List.not_mem_nil, or_false] at hp
  rcases hp with rfl | rfl | rfl
  · exact ring_spread hx
  · exact ring_self hx
  · exact ring_push hy

theorem ring_varying : ∀ x ∈ ringNames.fields, factorsIn ringNames.varying (ringSpread x) = [⟨x, none⟩] ∧
    factorsIn ringNames.varying (ringSelf x) = [⟨x, none⟩] ∧ factorsIn ringNames.varying (ringPush x) = [⟨x, none⟩] := by
  decide +kernel

theorem ring_scalars : ∀ x ∈ ringNames.fields, factorsIn ringNames.scalars (ringSpread x) = [] ∧
    factorsIn ringNames.scalars (ringSelf x) = [] ∧ factorsIn ringNames.scalars (ringPush x) = [⟨"gain".toList, none⟩] := by
  decide +kernel

theorem ring_laps : ∀ x ∈ ringNames.fields, (laplacians (ringSpread x)).sum = 1 ∧ (laplacians (ringSelf x)).sum = 0 ∧
    (laplacians (ringPush x)).sum = 0 := by
  decide +kernel

theorem bare_power (x : Str) : Factor.power ⟨x, none⟩ = 1 := rfl

section
variable {x y : Str} (hx : x ∈ ringNames.fields) (hy : y ∈ ringNames.fields)
include hx hy

theorem ring_whole : ∀ p ∈ (ringEquation x y).terms, ∀ g ∈ factorsIn ringNames.varying p.1, ∃ q : ℕ, g.power = q := by
  intro p hp g hg
  rw [ring_terms] at hp
  simp only [List.mem_cons, List.not_mem_nil, or_false] at hp
  rcases hp with rfl | rfl | rfl
  · rw [(ring_varying x hx).1, List.mem_singleton] at hg
    exact ⟨1, by rw [hg, bare_power]; norm_num⟩
  · rw [(ring_varying x hx).2.1, List.mem_singleton] at hg
    exact ⟨1, by rw [hg, bare_power]; norm_num⟩
  · rw [(ring_varying y hy).2.2, List.mem_singleton] at hg
    exact ⟨1, by rw [hg, bare_power]; norm_num⟩

theorem ring_realPowers (g : ℝ) : Equation.RealPowers ringNames (fun _ => (g : ℂ)) (ringEquation x y) := by
  intro p hp
  refine ⟨fun f hf => ?_, fun f hf => ⟨Complex.ofReal_im g, Or.inr ?_⟩⟩
  · have hv : ringNames.varying = ringNames.fields := by decide +kernel
    obtain ⟨q, hq⟩ := ring_whole hx hy p hp f (by rw [hv]; exact hf)
    rw [hq]
    rfl
  · rw [ring_terms] at hp
    simp only [List.mem_cons, List.not_mem_nil, or_false] at hp
    rcases hp with rfl | rfl | rfl
    · rw [(ring_scalars x hx).1] at hf
      simp at hf
    · rw [(ring_scalars x hx).2.1] at hf
      simp at hf
    · rw [(ring_scalars y hy).2.2, List.mem_singleton] at hf
      rw [hf, bare_power]
      rfl

theorem ring_coefficients (g : ℂ) : coefficient ringNames (fun _ => g) (ringSpread x, none) = 1 ∧
    coefficient ringNames (fun _ => g) (ringSelf x, some '-') = -1 ∧
    coefficient ringNames (fun _ => g) (ringPush y, some '-') = -g := by
  have g1 : signOf none = 1 := by decide
  have g2 : signOf (some '-') = -1 := by decide
  unfold coefficient
  dsimp only
  rw [(ring_scalars x hx).1, (ring_scalars x hx).2.1, (ring_scalars y hy).2.2, g1, g2]
  simp only [List.map_cons, List.map_nil, List.prod_cons, List.prod_nil, bare_power]
  refine ⟨by simp, by simp, by simp⟩

theorem ring_rests (g : ℂ) : uniformSystemRate ringNames (fun _ => g) (ringEquation x y) (fun _ => 0) = 0 := by
  unfold uniformSystemRate
  rw [ring_terms]
  simp only [List.map_cons, List.map_nil, List.sum_cons, List.sum_nil, (ring_varying x hx).1, (ring_varying x hx).2.1,
    (ring_varying y hy).2.2, bare_power]
  simp

theorem ring_diffusing : Diffusing ringNames (ringEquation x y) := by
  intro p hp
  rw [ring_terms] at hp
  simp only [List.mem_cons, List.not_mem_nil, or_false] at hp
  rcases hp with rfl | rfl | rfl
  · exact Or.inr ⟨(ring_laps x hx).1, (ring_varying x hx).1⟩
  · exact Or.inl (ring_laps x hx).2.1
  · exact Or.inl (ring_laps y hy).2.2

theorem ring_diffusivity (g : ℂ) : diffusivity ringNames (fun _ => g) (ringEquation x y) = 1 := by
  unfold diffusivity
  rw [ring_terms]
  simp only [List.map_cons, List.map_nil, List.sum_cons, List.sum_nil, (ring_laps x hx).1, (ring_laps x hx).2.1,
    (ring_laps y hy).2.2, (ring_coefficients hx hy g).1]
  simp

theorem ring_reaction (g : ℂ) (z w : Str → ℂ) :
    (ringNames.fields.map fun f => reactionRate ringNames (fun _ => g) (ringEquation x y) z f * w f).sum = -w x - g * w y := by
  have e : ∀ f, reactionRate ringNames (fun _ => g) (ringEquation x y) z f =
      (-1) * (Pi.single f 1 : Str → ℂ) x + (-g) * (Pi.single f 1 : Str → ℂ) y := by
    intro f
    unfold reactionRate
    rw [ring_terms]
    obtain ⟨c1, c2, c3⟩ := ring_coefficients hx hy g
    simp only [List.map_cons, List.map_nil, List.sum_cons, List.sum_nil, (ring_laps x hx).1, (ring_laps x hx).2.1,
      (ring_laps y hy).2.2, c2, c3, (ring_varying x hx).2.1, (ring_varying y hy).2.2, slope_bare]
    simp
  have hnd : ringNames.fields.Nodup := by decide +kernel
  have e2 : (fun f => reactionRate ringNames (fun _ => g) (ringEquation x y) z f * w f) = fun f =>
      (-1) * ((Pi.single f 1 : Str → ℂ) x * w f) + (-g) * ((Pi.single f 1 : Str → ℂ) y * w f) := by
    funext f
    rw [e]
    ring
  rw [e2, List.sum_map_add, List.sum_map_mul_left, List.sum_map_mul_left, single_sum _ hnd w hx, single_sum _ hnd w hy]
  ring

end

theorem ring_all {P : Equation → Prop} (hP : ∀ x y, x ∈ ringNames.fields → y ∈ ringNames.fields → P (ringEquation x y)) :
    ∀ eq ∈ ringEquations, P eq := by
  have h1 : "conc".toList ∈ ringNames.fields := by decide
  have h2 : "eta".toList ∈ ringNames.fields := by decide
  have h3 : "phi".toList ∈ ringNames.fields := by decide
  intro eq heq
  simp only [ringEquations, List.mem_cons, List.not_mem_nil, or_false] at heq
  rcases heq with rfl | rfl | rfl
  · exact hP _ _ h1 h3
  · exact hP _ _ h2 h1
  · exact hP _ _ h3 h2

theorem ring_reactionRate (g l : ℂ) (z : Str → ℂ) : IsReactionRate ringNames (fun _ => g) ringEquations z l ↔
    ∃ w : Str → ℂ, (w "conc".toList ≠ 0 ∨ w "eta".toList ≠ 0 ∨ w "phi".toList ≠ 0) ∧
      -w "conc".toList - g * w "phi".toList = l * w "conc".toList ∧
      -w "eta".toList - g * w "conc".toList = l * w "eta".toList ∧
      -w "phi".toList - g * w "eta".toList = l * w "phi".toList := by
  have h1 : "conc".toList ∈ ringNames.fields := by decide
  have h2 : "eta".toList ∈ ringNames.fields := by decide
  have h3 : "phi".toList ∈ ringNames.fields := by decide
  have f1 : ∀ x y : Str, (ringEquation x y).field = x := fun _ _ => rfl
  have hfs : ringNames.fields = ["conc".toList, "eta".toList, "phi".toList] := rfl
  have e1 : ∀ w : Str → ℂ, (∃ f ∈ ringNames.fields, w f ≠ 0) ↔
      (w "conc".toList ≠ 0 ∨ w "eta".toList ≠ 0 ∨ w "phi".toList ≠ 0) := by
    intro w
    rw [hfs]
    simp only [List.mem_cons, List.not_mem_nil, or_false, exists_eq_or_imp, exists_eq_left]
  unfold IsReactionRate
  refine exists_congr fun w => and_congr (e1 w) ?_
  constructor
  · intro h
    have a1 := h (ringEquation "conc".toList "phi".toList) (by simp [ringEquations])
    have a2 := h (ringEquation "eta".toList "conc".toList) (by simp [ringEquations])
    have a3 := h (ringEquation "phi".toList "eta".toList) (by simp [ringEquations])
    rw [ring_reaction h1 h3, f1] at a1
    rw [ring_reaction h2 h1, f1] at a2
    rw [ring_reaction h3 h2, f1] at a3
    exact ⟨a1, a2, a3⟩
  · rintro ⟨a1, a2, a3⟩ eq heq
    simp only [ringEquations, List.mem_cons, List.not_mem_nil, or_false] at heq
    rcases heq with rfl | rfl | rfl
    · rw [ring_reaction h1 h3, f1]
      exact a1
    · rw [ring_reaction h2 h1, f1]
      exact a2
    · rw [ring_reaction h3 h2, f1]
      exact a3

theorem ring_decays {g : ℝ} (h1 : -1 < g) (h2 : g < 2) {l a b d : ℂ} (hne : a ≠ 0 ∨ b ≠ 0 ∨ d ≠ 0)
    (e1 : -a - g * d = l * a) (e2 : -b - g * a = l * b) (e3 : -d - g * b = l * d) : l.re < 0 := by
  have cube : ∀ x : ℂ, (x = a ∨ x = b ∨ x = d) → ((l + 1) ^ 3 + (g : ℂ) ^ 3) * x = 0 := by
    have q1 : (l + 1) * a = -g * d := by linear_combination -e1
    have q2 : (l + 1) * b = -g * a := by linear_combination -e2
    have q3 : (l + 1) * d = -g * b := by linear_combination -e3
    rintro x (rfl | rfl | rfl)
    · linear_combination (l + 1) ^ 2 * q1 - g * (l + 1) * q3 + (g : ℂ) ^ 2 * q2
    · linear_combination (l + 1) ^ 2 * q2 - g * (l + 1) * q1 + (g : ℂ) ^ 2 * q3
    · linear_combination (l + 1) ^ 2 * q3 - g * (l + 1) * q2 + (g : ℂ) ^ 2 * q1
  have h0 : (l + 1) ^ 3 + (g : ℂ) ^ 3 = 0 := by
    rcases hne with h | h | h
    · exact (mul_eq_zero.mp (cube a (by simp))).resolve_right h
    · exact (mul_eq_zero.mp (cube b (by simp))).resolve_right h
    · exact (mul_eq_zero.mp (cube d (by simp))).resolve_right h
  have hf : (l + 1 + g) * ((l + 1) ^ 2 - g * (l + 1) + (g : ℂ) ^ 2) = 0 := by linear_combination h0
  rcases mul_eq_zero.mp hf with hf | hf
  · have := congrArg Complex.re hf
    simp at this
    linarith
  · have hre := congrArg Complex.re hf
    have him := congrArg Complex.im hf
    simp only [pow_two, Complex.add_re, Complex.sub_re, Complex.mul_re, Complex.add_im, Complex.sub_im, Complex.mul_im,
      Complex.one_re, Complex.one_im, Complex.ofReal_re, Complex.ofReal_im, Complex.zero_re, Complex.zero_im] at hre him
    have hprod : l.im * (2 * (l.re + 1) - g) = 0 := by linear_combination him
    rcases mul_eq_zero.mp hprod with hi | hi
    · rw [hi] at hre
      have hsq : (l.re + 1 - g / 2) ^ 2 + 3 / 4 * g ^ 2 = 0 := by linear_combination hre
      have hg : g = 0 := by
        have := sq_nonneg (l.re + 1 - g / 2)
        have : g ^ 2 ≤ 0 := by linarith
        exact pow_eq_zero_iff two_ne_zero |>.mp (le_antisymm this (sq_nonneg g))
      rw [hg] at hsq
      have : l.re + 1 - 0 / 2 = 0 := pow_eq_zero_iff two_ne_zero |>.mp (by linarith)
      linarith
    · linarith

theorem ring_grows {g : ℝ} (hg : g < -1 ∨ 2 < g) :
    ∃ l, IsReactionRate ringNames (fun _ => (g : ℂ)) ringEquations (fun _ => 0) l ∧ 0 < l.re := by
  rcases hg with hg | hg
  · refine ⟨-1 - g, (ring_reactionRate _ _ _).mpr ⟨fun _ => 1, by simp, by ring, by ring, by ring⟩, ?_⟩
    simp only [Complex.sub_re, Complex.neg_re, Complex.one_re, Complex.ofReal_re]
    linarith
  · set v : ℂ := ⟨1 / 2, Real.sqrt 3 / 2⟩ with hv
    have hs : Real.sqrt 3 * Real.sqrt 3 = 3 := Real.mul_self_sqrt (by norm_num)
    have hv2 : v ^ 2 - v + 1 = 0 := by
      apply Complex.ext
      · simp only [pow_two, Complex.add_re, Complex.sub_re, Complex.mul_re, Complex.one_re, Complex.zero_re, hv]
        linarith
      · simp only [pow_two, Complex.add_im, Complex.sub_im, Complex.mul_im, Complex.one_im, Complex.zero_im, hv]
        ring
    obtain ⟨w, w1, w2, w3⟩ : ∃ w : Str → ℂ, w "conc".toList = 1 ∧ w "eta".toList = v ^ 2 ∧ w "phi".toList = -v :=
      ⟨fun x => if x = "conc".toList then 1 else if x = "eta".toList then v ^ 2 else -v, if_pos rfl,
        (if_neg (by decide)).trans (if_pos rfl), (if_neg (by decide)).trans (if_neg (by decide))⟩
    refine ⟨g * v - 1, (ring_reactionRate _ _ _).mpr ⟨w, Or.inl ?_, ?_, ?_, ?_⟩, ?_⟩
    · rw [w1]
      exact one_ne_zero
    · rw [w1, w3]
      ring
    · rw [w1, w2]
      linear_combination -(g : ℂ) * (v + 1) * hv2
    · rw [w2, w3]
      ring
    · simp only [Complex.sub_re, Complex.mul_re, Complex.ofReal_re, Complex.ofReal_im, Complex.one_re, hv]
      linarith

/-- C164: while the fields hold each other down by less than twice their decay, and do not feed each other more than that,
all small perturbations of a ring of three fields die out. -/
theorem c164_ring_settles (h : GoodDims (intDims dims)) {g : ℝ} (h1 : -1 < g) (h2 : g < 2) :
    ∃ (m : EqModel dims.prod) (M : Model m.fields.length m.derived.length dims.prod),
      ["dconc/dt = LAP conc - conc - gain*phi".toList, "deta/dt = LAP eta - eta - gain*conc".toList,
        "dphi/dt = LAP phi - phi - gain*eta".toList].foldlM EqModel.addEquation (ringModel dims.prod) = some m ∧
      m.assemble (fun _ => (g : ℂ)) = some M ∧
      ∃ dt0 : ℝ, 0 < dt0 ∧ ∀ s : Stepper dims.prod, s.filter = none → s.freq = freqOf dims → 0 < s.dt → s.dt < dt0 →
        DiesOut M s fun _ => 0 := by
  obtain ⟨m, M, a1, a2, a3, a4⟩ := c164_alike h ringNames ring_wellNamed rfl (ringModel dims.prod) ring_starts rfl ringEquations
    (ring_all fun x y hx hy => ⟨ring_polynomial hx hy, fun _ _ => ⟨rfl, rfl⟩⟩) (ring_all fun x y hx hy => ring_whole hx hy)
    ringTexts ring_texts rfl (fun _ => (g : ℂ))
  refine ⟨m, M, a1, a3, a4 (fun _ => 0) (ring_all fun x y hx hy => ring_rests hx hy _) 1 zero_le_one
    (ring_all fun x y hx hy => ⟨ring_diffusing hx hy, by rw [ring_diffusivity hx hy]; norm_num⟩) fun l hl => ?_⟩
  obtain ⟨w, hw, e1, e2, e3⟩ := (ring_reactionRate _ _ _).mp hl
  exact ring_decays h1 h2 hw e1 e2 e3

/-- C164: beyond either bound some real perturbations leave, although the fields diffuse. -/
theorem c164_ring_leaves (h : GoodDims (intDims dims)) (hl : LayoutOk dims) {g : ℝ} (hg : g < -1 ∨ 2 < g) :
    ∃ (m : EqModel dims.prod) (M : Model m.fields.length m.derived.length dims.prod),
      ["dconc/dt = LAP conc - conc - gain*phi".toList, "deta/dt = LAP eta - eta - gain*conc".toList,
        "dphi/dt = LAP phi - phi - gain*eta".toList].foldlM EqModel.addEquation (ringModel dims.prod) = some m ∧
      m.assemble (fun _ => (g : ℂ)) = some M ∧
      ∃ dt0 : ℝ, 0 < dt0 ∧ ∀ s : Stepper dims.prod, s.filter = none → s.freq = freqOf dims → 0 < s.dt → s.dt < dt0 →
        GoesAway M s fun _ => 0 := by
  obtain ⟨m, M, a1, a2, a3, a4⟩ := c164_reaction h hl ringNames ring_wellNamed rfl (ringModel dims.prod) ring_starts rfl ringEquations
    (ring_all fun x y hx hy => ⟨ring_polynomial hx hy, fun _ _ => ⟨rfl, rfl⟩⟩) (ring_all fun x y hx hy => ring_whole hx hy)
    ringTexts ring_texts rfl (fun _ => (g : ℂ)) (fun _ _ => Complex.ofReal_im g)
    (ring_all fun x y hx hy => ring_realPowers hx hy g)
  exact ⟨m, M, a1, a3, a4 (fun _ => 0) (ring_all fun x y hx hy => ring_rests hx hy _) (fun _ _ => rfl) (ring_grows hg)⟩

/-- A grid as in `c164_ring_leaves`, and values on both sides of the bounds. -/
example : GoodDims (intDims [4, 6]) ∧ LayoutOk [4, 6] ∧ ((-1 : ℝ) < 1 ∧ (1 : ℝ) < 2) ∧ (2 : ℝ) < 3 :=
  ⟨⟨by decide, by decide⟩, trivial, ⟨by norm_num, by norm_num⟩, by norm_num⟩

end Gopf.Props
