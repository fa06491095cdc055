import Verif.Model.Sdd
import Verif.Model.Solver
import Verif.Proofs.Parseval
import Mathlib.Tactic.LinearCombination
import Mathlib.Analysis.Complex.Norm

/-!
# C30–C34 (and C26 for this stepper): shrinking dimer dynamics
-/

namespace Gopf.Props
open Pf Pfutil
open scoped BigOperators

section algebra
variable {ι : Type} [Fintype ι]

/-- The complex inner product of two arrays. -/
def inner (a b : ι → ℂ) : ℂ := ∑ i, a i * (starRingEnd ℂ) (b i)

private theorem inner_householder (x z o : ι → ℂ) (σ : ℝ) (N : ℕ) :
    inner (householder x o σ N) z = inner x z - σ * inner o z * (inner x o / (N : ℂ)) := by
  unfold inner householder
  rw [Complex.ofReal_natCast, Finset.mul_sum, Finset.sum_mul, ← Finset.sum_sub_distrib]
  exact Finset.sum_congr rfl fun i _ => by ring

/-- C30: with factor one the result is orthogonal to the orientation (normalised such that the
squared entries of its transform add up to the number of nodes), and only the component along the
orientation has been removed. -/
theorem c30_projection (x o : ι → ℂ) (N : ℕ) (hN : 0 < N) (ho : inner o o = N) :
    inner (householder x o 1 N) o = 0 ∧
    ∃ c : ℂ, ∀ i, x i = householder x o 1 N i + c * o i := by
  have hN' : (N : ℂ) ≠ 0 := by exact_mod_cast hN.ne'
  constructor
  · rw [inner_householder, ho]; push_cast; field_simp; ring
  · refine ⟨inner x o / N, fun i => ?_⟩
    unfold householder inner
    rw [Complex.ofReal_natCast, Complex.ofReal_one]
    ring

/-- C30: with factor two it is a reflection: doing it twice gives the input back, inner products (so
also norms) are preserved, the orientation is reversed and anything orthogonal to the orientation is
kept. -/
theorem c30_reflection (o : ι → ℂ) (N : ℕ) (hN : 0 < N) (ho : inner o o = N) :
    (∀ x, householder (householder x o 2 N) o 2 N = x) ∧
    (∀ x y, inner (householder x o 2 N) (householder y o 2 N) = inner x y) ∧
    householder o o 2 N = (fun i => -o i) ∧
    (∀ x, inner x o = 0 → householder x o 2 N = x) := by
  have hN' : (N : ℂ) ≠ 0 := by exact_mod_cast hN.ne'
  have hval : ∀ x i, householder x o 2 N i = x i - 2 * o i * (inner x o / N) := by
    intro x i
    unfold householder inner
    rw [Complex.ofReal_natCast, Complex.ofReal_ofNat]
  have hsymm : ∀ a b : ι → ℂ, (starRingEnd ℂ) (inner a b) = inner b a := by
    intro a b
    unfold inner
    rw [map_sum]
    refine Finset.sum_congr rfl fun i _ => ?_
    rw [map_mul, Complex.conj_conj]; ring
  refine ⟨fun x => ?_, fun x y => ?_, ?_, fun x hx => ?_⟩
  · funext i
    rw [hval, inner_householder, hval, ho]
    push_cast
    field_simp
    ring
  · rw [inner_householder, ← hsymm (householder y o 2 N) x, inner_householder,
      ← hsymm (householder y o 2 N) o, inner_householder, ho]
    simp only [map_sub, map_mul, map_div₀, hsymm, Complex.conj_ofReal, Complex.conj_natCast]
    push_cast
    field_simp
    ring
  · funext i; rw [hval, ho]; field_simp; ring
  · funext i; rw [hval, hx]; ring

example : inner (fun _ : Fin 4 => (1 : ℂ)) (fun _ => 1) = (4 : ℕ) := by simp [inner]

/-- C31: the product solves `(D + u vᵀ) x = b` and is the only solution. -/
theorem c31_solves (D u v b : ι → ℂ) (hD : ∀ i, D i ≠ 0)
    (hden : 1 + ∑ i, u i * (1 / D i) * v i ≠ 0) :
    let x := (DiagonalSM.mk (fun i => 1 / D i) u v).dot b
    (∀ i, D i * x i + u i * ∑ j, v j * x j = b i) ∧
    ∀ y : ι → ℂ, (∀ i, D i * y i + u i * ∑ j, v j * y j = b i) → y = x := by
  intro x
  set den : ℂ := 1 + ∑ i, u i * (1 / D i) * v i with hdd
  set w : ℂ := ∑ i, v i * (1 / D i) * b i with hw
  have hx : ∀ i, x i = 1 / D i * b i - 1 / D i * u i * w / den := fun i => rfl
  constructor
  · have hs : ∑ j, v j * x j = w / den := by
      have : ∀ j, v j * x j = v j * (1 / D j) * b j - u j * (1 / D j) * v j * (w / den) := by
        intro j; rw [hx]; ring
      simp only [this]
      rw [Finset.sum_sub_distrib, ← hw, ← Finset.sum_mul]
      have : ∑ i, u i * (1 / D i) * v i = den - 1 := by rw [hdd]; ring
      rw [this]
      field_simp
      ring
    intro i
    rw [hs, hx]
    have := hD i
    field_simp
    ring
  · intro y hy
    have hyi : ∀ i, y i = 1 / D i * b i - 1 / D i * u i * ∑ j, v j * y j := by
      intro i
      have := hD i
      rw [← hy i]
      field_simp
      ring
    have hs : ∑ j, v j * y j = w / den := by
      set S := ∑ j, v j * y j with hS
      have h1 : ∀ j, v j * y j = v j * (1 / D j) * b j - u j * (1 / D j) * v j * S := by
        intro j; rw [hyi]; ring
      have h2 : S = w - (den - 1) * S := by
        conv_lhs => rw [hS]
        simp only [h1]
        rw [Finset.sum_sub_distrib, ← hw, ← Finset.sum_mul]
        rw [hdd]; ring
      rw [eq_div_iff hden]
      linear_combination h2
    funext i
    rw [hyi, hs, hx]
    ring

example : ∃ D u v : Fin 2 → ℂ, (∀ i, D i ≠ 0) ∧ u ≠ 0 ∧ v ≠ 0 ∧
    1 + ∑ i, u i * (1 / D i) * v i ≠ 0 :=
  ⟨fun _ => 2, fun _ => 1, fun _ => 1, fun _ => by norm_num,
    fun h => by simpa using congrFun h 0, fun h => by simpa using congrFun h 0,
    by simp⟩

/-- C31: with the set-up used by the stepper, the product solves
`(I - dt (I - σ o o†/n) A) x = b`. -/
theorem c31_sdd {n : ℕ} (dt σ : ℝ) (A o b : Fin n → ℂ) (hA : ∀ i, 1 - (dt : ℂ) * A i ≠ 0)
    (hden : 1 + ∑ i, o i * (1 / (1 - (dt : ℂ) * A i)) *
      (σ * A i * dt * (starRingEnd ℂ) (o i) / (n : ℂ)) ≠ 0) (i : Fin n) :
    let x := (householderDenum dt A o σ).dot b
    x i - (dt : ℂ) * (A i * x i - σ * o i * (inner (fun j => A j * x j) o / (n : ℂ))) = b i := by
  intro x
  have h := (c31_solves (fun i => 1 - (dt : ℂ) * A i) o
    (fun i => σ * A i * dt * (starRingEnd ℂ) (o i) / (n : ℂ)) b hA hden).1 i
  have hx : x = (DiagonalSM.mk (fun i => 1 / (1 - (dt : ℂ) * A i)) o
    (fun i => σ * A i * dt * (starRingEnd ℂ) (o i) / (n : ℂ))).dot b := by
    simp only [x, householderDenum, Complex.ofReal_natCast]
  rw [← hx] at h
  rw [← h]
  have : ∑ j, (σ : ℂ) * A j * dt * (starRingEnd ℂ) (o j) / (n : ℂ) * x j =
      σ * dt * (inner (fun j => A j * x j) o / (n : ℂ)) := by
    unfold inner
    rw [div_eq_mul_inv (∑ i, _), Finset.sum_mul, Finset.mul_sum]
    exact Finset.sum_congr rfl fun j _ => by ring
  rw [this]
  ring

/-- C31: the solve is well posed for every real linear operator with `|dt A| < 1` and every
orientation of at most unit length (in the normalisation of the transform). -/
theorem c31_well_posed {n : ℕ} (dt : ℝ) (a : Fin n → ℝ) (o : Fin n → ℂ)
    (ha : ∀ i, |dt * a i| < 1) (hn : 0 < n) (ho : ∑ i, Complex.normSq (o i) ≤ n) :
    (∀ i, 1 - (dt : ℂ) * (a i : ℂ) ≠ 0) ∧
    1 + ∑ i, o i * (1 / (1 - (dt : ℂ) * (a i : ℂ))) *
      ((2 : ℝ) * (a i : ℂ) * dt * (starRingEnd ℂ) (o i) / (n : ℂ)) ≠ 0 := by
  have hpos : ∀ i, 0 < 1 - dt * a i := fun i => by have := (abs_lt.mp (ha i)).2; linarith
  have hn' : (0 : ℝ) < n := by exact_mod_cast hn
  constructor
  · intro i h
    have : ((1 - dt * a i : ℝ) : ℂ) = 0 := by push_cast; exact h
    have := Complex.ofReal_eq_zero.mp this
    linarith [hpos i]
  · have e : 1 + ∑ i, o i * (1 / (1 - (dt : ℂ) * (a i : ℂ))) *
        ((2 : ℝ) * (a i : ℂ) * dt * (starRingEnd ℂ) (o i) / (n : ℂ)) =
        ((1 + ∑ i, Complex.normSq (o i) / n * (2 * (dt * a i) / (1 - dt * a i)) : ℝ) : ℂ) := by
      push_cast
      congr 1
      refine Finset.sum_congr rfl fun i _ => ?_
      rw [← Complex.mul_conj]
      ring
    rw [e, Ne, Complex.ofReal_eq_zero]
    have hge : ∀ i, -(Complex.normSq (o i) / n) ≤
        Complex.normSq (o i) / n * (2 * (dt * a i) / (1 - dt * a i)) := by
      intro i
      have h0 : 0 ≤ Complex.normSq (o i) / n := div_nonneg (Complex.normSq_nonneg _) hn'.le
      have h1 : -1 ≤ 2 * (dt * a i) / (1 - dt * a i) := by
        rw [le_div_iff₀ (hpos i)]
        have := (abs_lt.mp (ha i)).1
        linarith
      nlinarith
    by_cases hz : ∀ i, Complex.normSq (o i) = 0
    · simp [hz]
    · push Not at hz
      obtain ⟨i, hi⟩ := hz
      have hi0 : 0 < Complex.normSq (o i) := lt_of_le_of_ne (Complex.normSq_nonneg _) (Ne.symm hi)
      have hlt : -(Complex.normSq (o i) / n) <
          Complex.normSq (o i) / n * (2 * (dt * a i) / (1 - dt * a i)) := by
        have h0 : 0 < Complex.normSq (o i) / n := div_pos hi0 hn'
        have h1 : -1 < 2 * (dt * a i) / (1 - dt * a i) := by
          rw [lt_div_iff₀ (hpos i)]
          have := (abs_lt.mp (ha i)).1
          linarith
        nlinarith
      have hsum := Finset.sum_lt_sum (fun j (_ : j ∈ Finset.univ) => hge j) ⟨i, Finset.mem_univ i, hlt⟩
      rw [Finset.sum_neg_distrib] at hsum
      have hle : ∑ i, Complex.normSq (o i) / n ≤ 1 := by
        have : ∑ i, Complex.normSq (o i) / (n : ℝ) = (∑ i, Complex.normSq (o i)) / n := by
          simp only [div_eq_mul_inv, Finset.sum_mul]
        rw [this, div_le_one hn']
        exact ho
      intro hh
      linarith

example : (∀ i : Fin 4, |(1 / 10 : ℝ) * (fun i : Fin 4 => -(i.val : ℝ)) i| < 1) ∧
    ∑ i : Fin 4, Complex.normSq ((fun _ : Fin 4 => (1 : ℂ)) i) ≤ 4 := by
  constructor
  · intro i; rw [abs_lt]; fin_cases i <;> norm_num
  · simp

end algebra

/-! ## C32 -/

section dimer
variable {nf n : ℕ}

/-- C32: the length never grows, is never below the minimum, starts at the initial length, and tends
to shrink exponentially while above the minimum. -/
theorem c32_length (s : SDD nf n) (hτ : 0 < s.tauDimerLength) (hl : 0 ≤ s.initDimerLength) :
    (∀ t t', t ≤ t' → s.dimerLength t' ≤ s.dimerLength t) ∧
    (∀ t, s.minDimerLength ≤ s.dimerLength t) ∧
    (s.minDimerLength ≤ s.initDimerLength → s.dimerLength 0 = s.initDimerLength) := by
  have hmax : ∀ t, s.dimerLength t =
      max s.minDimerLength (s.initDimerLength * Real.exp (-t / s.tauDimerLength)) := by
    intro t
    unfold SDD.dimerLength
    dsimp only
    split_ifs with h
    · exact (max_eq_left h.le).symm
    · exact (max_eq_right (not_lt.mp h)).symm
  refine ⟨fun t t' ht => ?_, fun t => ?_, fun h => ?_⟩
  · rw [hmax, hmax]
    apply max_le_max le_rfl
    apply mul_le_mul_of_nonneg_left _ hl
    apply Real.exp_le_exp.mpr
    exact div_le_div_of_nonneg_right (by linarith) hτ.le
  · rw [hmax]; exact le_max_left _ _
  · rw [hmax]; simp [h]

/-- C32: above the minimum length, the reported time is the only time at which the dimer has the
asked length. At the minimum length it is the first such time. -/
theorem c32_required_time (s : SDD nf n) (hτ : 0 < s.tauDimerLength) (hl : 0 < s.initDimerLength)
    (l : ℝ) (h0 : 0 < l) :
    (s.minDimerLength < l → ∀ t, s.dimerLength t = l ↔ t = s.requiredDimerLengthTime l) ∧
    (s.minDimerLength = l → ∀ t, s.dimerLength t = l ↔ s.requiredDimerLengthTime l ≤ t) := by
  have key : ∀ t, s.initDimerLength * Real.exp (-t / s.tauDimerLength) =
      l * Real.exp ((s.requiredDimerLengthTime l - t) / s.tauDimerLength) := by
    intro t
    unfold SDD.requiredDimerLengthTime
    rw [sub_div, mul_div_cancel_left₀ _ hτ.ne', sub_eq_add_neg, Real.exp_add,
      Real.exp_log (div_pos hl h0), neg_div]
    field_simp
  have hle : ∀ t, s.initDimerLength * Real.exp (-t / s.tauDimerLength) ≤ l ↔
      s.requiredDimerLengthTime l ≤ t := by
    intro t
    rw [key]
    constructor
    · intro h
      have h1 : Real.exp ((s.requiredDimerLengthTime l - t) / s.tauDimerLength) ≤ 1 := by
        by_contra hc
        nlinarith [not_le.mp hc]
      rw [Real.exp_le_one_iff] at h1
      have := (div_nonpos_iff.mp h1)
      rcases this with ⟨-, h2⟩ | ⟨h2, -⟩
      · linarith
      · linarith
    · intro h
      have : Real.exp ((s.requiredDimerLengthTime l - t) / s.tauDimerLength) ≤ 1 := by
        rw [Real.exp_le_one_iff]
        exact div_nonpos_of_nonpos_of_nonneg (by linarith) hτ.le
      nlinarith
  have heq : ∀ t, s.initDimerLength * Real.exp (-t / s.tauDimerLength) = l ↔
      t = s.requiredDimerLengthTime l := by
    intro t
    rw [key]
    constructor
    · intro h
      have h1 : Real.exp ((s.requiredDimerLengthTime l - t) / s.tauDimerLength) = 1 := by
        have : l * Real.exp ((s.requiredDimerLengthTime l - t) / s.tauDimerLength) = l * 1 := by
          rw [h, mul_one]
        exact mul_left_cancel₀ h0.ne' this
      rw [Real.exp_eq_one_iff, div_eq_zero_iff] at h1
      rcases h1 with h1 | h1
      · linarith
      · exact absurd h1 hτ.ne'
    · rintro rfl; simp
  constructor
  · intro hm t
    unfold SDD.dimerLength
    dsimp only
    split_ifs with h
    · constructor
      · intro e; exact absurd e hm.ne
      · intro e; rw [(heq t).mpr e] at h; exact absurd h (not_lt.mpr hm.le)
    · exact heq t
  · intro hm t
    unfold SDD.dimerLength
    dsimp only
    split_ifs with h
    · exact ⟨fun _ => (hle t).mp (hm ▸ h.le), fun _ => hm⟩
    · rw [heq t]
      constructor
      · intro e; exact e.ge
      · intro e
        have h1 := (hle t).mpr e
        have h2 := le_antisymm h1 (hm ▸ not_lt.mp h)
        exact (heq t).mp h2

/-- A stepper whose dimer starts at length 2 and stops shrinking at 1/2. -/
noncomputable def demoSDD : SDD 1 4 :=
  { tauOrientation := 1, tauDimerLength := 3, alpha := 1 / 2, dt := 1 / 10, currentStep := 0
    minDimerLength := 1 / 2, initDimerLength := 2, orientation := fun _ _ => 1 / 2
    freq := fun _ => [] }

example : 0 < demoSDD.tauDimerLength ∧ 0 < demoSDD.initDimerLength ∧
    demoSDD.minDimerLength < 1 ∧ demoSDD.requiredDimerLengthTime 2 = 0 := by
  refine ⟨?_, ?_, ?_, ?_⟩
  · norm_num [demoSDD]
  · norm_num [demoSDD]
  · norm_num [demoSDD]
  · norm_num [demoSDD, SDD.requiredDimerLengthTime]

end dimer

/-! ## C33, C34 and the orientation -/

variable {nf nd : ℕ} {dims : List ℕ}

/-- C33: shifting by `-l/2`, `l` and `-l/2` restores all fields (and touches nothing else). -/
theorem c33_shifts {n : ℕ} (s : SDD nf n) (st : Store nf nd n) (l : ℝ) :
    s.shiftFieldsAlongDimer (s.shiftFieldsAlongDimer (s.shiftFieldsAlongDimer st (-0.5 * l)) l)
      (-0.5 * l) = st := by
  unfold SDD.shiftFieldsAlongDimer
  cases st
  congr 1
  funext i j
  push_cast
  ring

theorem sddFft_fields (m : Model nf nd dims.prod) (st : Store nf nd dims.prod) (i : Fin nf) :
    (sddFft m st).fields i = fft dims (st.fields i) := spectral_fields m st i

theorem ifft_sddFft (h : ∀ d ∈ dims, 0 < d) (m : Model nf nd dims.prod) (st : Store nf nd dims.prod)
    (i : Fin nf) : (ifftFields (sddFft m st)).fields i = st.fields i :=
  ifftFields_fft h _ i _ (sddFft_fields m st i)

/-- C33: during a step, the forces are evaluated with the fields displaced by exactly half a dimer
length to either side, and the update then starts from the transform of the undisplaced fields; the
derived fields are those of the undisplaced fields too. -/
theorem c33_step (h : ∀ d ∈ dims, 0 < d) (m : Model nf nd dims.prod) (s : SDD nf dims.prod)
    (st : Store nf nd dims.prod) (i : Fin nf) :
    let l := s.dimerLength s.getTime
    (s.dimerStores m st).1.fields i =
      fft dims (fun j => st.fields i j - ((l / 2 * s.orientation i j : ℝ) : ℂ)) ∧
    (s.dimerStores m st).2.1.fields i =
      fft dims (fun j => st.fields i j + ((l / 2 * s.orientation i j : ℝ) : ℂ)) ∧
    (s.dimerStores m st).2.2.fields i = fft dims (st.fields i) ∧
    (FieldsOnly m → ∀ d, (s.dimerStores m st).2.2.derived d = fft dims (m.calcs d st)) := by
  intro l
  have e1 : ∀ i, (ifftFields (s.dimerStores m st).1).fields i =
      fun j => st.fields i j - ((l / 2 * s.orientation i j : ℝ) : ℂ) := by
    intro i
    unfold SDD.dimerStores
    dsimp only
    rw [ifft_sddFft h]
    funext j
    simp only [SDD.shiftFieldsAlongDimer]
    push_cast; ring
  have e2 : ∀ i, (ifftFields (s.dimerStores m st).2.1).fields i =
      fun j => st.fields i j + ((l / 2 * s.orientation i j : ℝ) : ℂ) := by
    intro i
    have : (ifftFields (s.dimerStores m st).2.1).fields i =
        (s.shiftFieldsAlongDimer (ifftFields (s.dimerStores m st).1) l).fields i := by
      conv_lhs => unfold SDD.dimerStores
      dsimp only
      rw [ifft_sddFft h]
      rfl
    rw [this]
    funext j
    simp only [SDD.shiftFieldsAlongDimer]
    rw [e1]
    push_cast; ring
  have e3 : s.shiftFieldsAlongDimer (ifftFields (s.dimerStores m st).2.1) (-0.5 * l) =
      ⟨st.fields, (ifftFields (s.dimerStores m st).2.1).derived⟩ := by
    have : (s.shiftFieldsAlongDimer (ifftFields (s.dimerStores m st).2.1) (-0.5 * l)).fields =
        st.fields := by
      funext i j
      simp only [SDD.shiftFieldsAlongDimer]
      rw [e2]
      push_cast; ring
    rw [← this]
    rfl
  have e4 : (s.dimerStores m st).2.2 =
      sddFft m (s.shiftFieldsAlongDimer (ifftFields (s.dimerStores m st).2.1) (-0.5 * l)) := rfl
  refine ⟨?_, ?_, ?_, ?_⟩
  · rw [← e1 i]; exact (fft_ifftFields h _ i).symm
  · rw [← e2 i]; exact (fft_ifftFields h _ i).symm
  · rw [e4, sddFft_fields, e3]
  · intro hf d
    rw [e4, e3]
    unfold sddFft fftDerived fftFields
    rw [sync_eq hf]
    dsimp only
    congr 1
    exact hf d _ _ rfl

/-- The linear operator of an equation does not depend on the contents of the fields (true of
everything the parser puts there, since implicit terms contain no field factor). -/
def LinearPartConst (m : Model nf nd dims.prod) : Prop :=
  ∀ i st st' freq t, m.getDenum i st freq t = m.getDenum i st' freq t

/-- The projected semi-implicit Euler step in real space: `y = x + dt R(f + g)` where
`R z = z - 2 v ⟨z, v⟩` is the reflection in the orientation `v`. -/
def ReflectedStep {n : ℕ} (dt : ℝ) (v : Fin n → ℝ) (x f g y : Fin n → ℂ) : Prop :=
  ∀ j, y j = x j + dt * (f j + g j - 2 * v j * ∑ k, (f k + g k) * v k)

/-- What a step does to field `i`: the force is the one of field `src`. -/
private theorem step_field (h : ∀ d ∈ dims, 0 < d) (m : Model nf nd dims.prod)
    (hc : LinearPartConst m) (s : SDD nf dims.prod) (st : Store nf nd dims.prod) (i : Fin nf)
    (hA : ∀ k, 1 - (s.dt : ℂ) * m.getDenum i st s.freq s.getTime k ≠ 0)
    (hden : 1 + ∑ k, s.ftOrientation i k * (1 / (1 - (s.dt : ℂ) * m.getDenum i st s.freq s.getTime k)) *
      ((2 : ℝ) * m.getDenum i st s.freq s.getTime k * s.dt * (starRingEnd ℂ) (s.ftOrientation i k) /
        (dims.prod : ℂ)) ≠ 0) :
    ∃ f g : Fin dims.prod → ℂ,
      fft dims f = (fun k => (s.alpha : ℂ) * m.getRHS ⟨0, i.pos⟩ (s.dimerStores m st).1 s.freq s.getTime k +
        (1 - s.alpha) * m.getRHS ⟨0, i.pos⟩ (s.dimerStores m st).2.1 s.freq s.getTime k) ∧
      fft dims g = (fun k => m.getDenum i st s.freq s.getTime k *
        fft dims ((SDD.step m (s, st)).2.fields i) k) ∧
      ReflectedStep s.dt (s.orientation i) (st.fields i) f g ((SDD.step m (s, st)).2.fields i) := by
  set A := m.getDenum i st s.freq s.getTime with hAdef
  set F : Fin dims.prod → ℂ := fun k =>
    (s.alpha : ℂ) * m.getRHS ⟨0, i.pos⟩ (s.dimerStores m st).1 s.freq s.getTime k +
        (1 - s.alpha) * m.getRHS ⟨0, i.pos⟩ (s.dimerStores m st).2.1 s.freq s.getTime k with hF
  set y := (SDD.step m (s, st)).2.fields i with hy
  have hyhat : fft dims y = (householderDenum s.dt A (s.ftOrientation i) 2).dot
      (fun k => fft dims (st.fields i) k + (s.dt : ℂ) * householder F (s.ftOrientation i) 2 dims.prod k) := by
    have : fft dims y = (s.stepFields m st).1.fields i := by
      rw [hy]; exact fft_ifftFields h _ i
    rw [this]
    obtain ⟨l1, l2, hl, hlt⟩ := finRange_split i
    have hnd := List.nodup_finRange nf
    have hl1 : l1.Nodup := by rw [hl] at hnd; exact hnd.sublist (List.sublist_append_left _ _)
    generalize hst3 : (s.dimerStores m st).2.2 = st3
    have h3 : st3.fields i = fft dims (st.fields i) := by
      rw [← hst3]; exact (c33_step h m s st i).2.2.1
    let d : Store nf nd dims.prod → Fin nf → Data dims.prod := fun stc i k =>
        stc.fields i k + (s.dt : ℂ) * householder (fun k =>
          (s.alpha : ℂ) * m.getRHS ⟨0, i.pos⟩ (s.dimerStores m st).1 s.freq s.getTime k +
          ((1 - s.alpha : ℝ) : ℂ) * m.getRHS ⟨0, i.pos⟩ (s.dimerStores m st).2.1 s.freq s.getTime k)
          (s.ftOrientation i) 2 dims.prod k
    let g : Store nf nd dims.prod → Fin nf → Data dims.prod := fun stc i =>
      (householderDenum s.dt (m.getDenum i { stc with fields := Function.update stc.fields i (d stc i) }
        s.freq s.getTime) (s.ftOrientation i) 2).dot (d stc i)
    have hfold := (foldl_update_fields g (List.finRange nf) hnd st3).2.2 l1 i l2 hl
    have hfold1 := (foldl_update_fields g l1 hl1 st3).2.1 i (fun hm => absurd (hlt i hm) (lt_irrefl i))
    have e0 : (s.stepFields m st).1 = (List.finRange nf).foldl (fun s i =>
        { s with fields := Function.update s.fields i (g s i) }) (s.dimerStores m st).2.2 := rfl
    rw [e0, hst3, hfold]
    simp only [g]
    rw [hc i _ st]
    simp only [d]
    rw [hfold1, h3]
    simp only [hF]
    push_cast
    rfl
  have hsol := fun k => c31_sdd s.dt 2 A (s.ftOrientation i)
    (fun k => fft dims (st.fields i) k + (s.dt : ℂ) * householder F (s.ftOrientation i) 2 dims.prod k)
    hA hden k
  dsimp only at hsol
  rw [← hyhat] at hsol
  refine ⟨_, _, fft_surjective h F, fft_surjective h (fun k => A k * fft dims y k), ?_⟩
  set f : Fin dims.prod → ℂ := fun x => ifft dims F x / (dims.prod : ℂ)
  set g : Fin dims.prod → ℂ := fun x => ifft dims (fun k => A k * fft dims y k) x / (dims.prod : ℂ)
  have hf : fft dims f = F := fft_surjective h F
  have hg : fft dims g = fun k => A k * fft dims y k := fft_surjective h _
  set c : ℂ := ∑ k, (f k + g k) * (s.orientation i k : ℂ) with hcdef
  have hN := prod_ne_zero' h
  have hpars : inner F (s.ftOrientation i) + inner (fun k => A k * fft dims y k) (s.ftOrientation i) =
      dims.prod * c := by
    have := parseval h (fun k => f k + g k) (fun j => (s.orientation i j : ℂ))
    simp only [Complex.conj_ofReal] at this
    rw [hcdef, ← this]
    unfold inner
    rw [← Finset.sum_add_distrib]
    refine Finset.sum_congr rfl fun k _ => ?_
    rw [fft_add, hf, hg]
    unfold SDD.ftOrientation
    ring
  have : y = fun j => st.fields i j + s.dt * (f j + g j - 2 * s.orientation i j * c) := by
    apply fft_injective h
    funext k
    rw [fft_add, fft_smul, fft_sub, fft_add, hf, hg]
    have e1 : fft dims (fun x => 2 * (s.orientation i x : ℂ) * c) k = 2 * c * s.ftOrientation i k := by
      have : (fun x => 2 * (s.orientation i x : ℂ) * c) =
          fun x => (2 * c) * (s.orientation i x : ℂ) := by funext x; ring
      rw [this, fft_smul]; rfl
    rw [e1]
    have h1 := hsol k
    have h2 : householder F (s.ftOrientation i) 2 dims.prod k =
        F k - 2 * s.ftOrientation i k * (inner F (s.ftOrientation i) / dims.prod) := by
      unfold householder inner
      rw [Complex.ofReal_natCast, Complex.ofReal_ofNat]
    rw [h2] at h1
    have h3 : c = (inner F (s.ftOrientation i) + inner (fun k => A k * fft dims y k) (s.ftOrientation i)) /
        dims.prod := by rw [hpars]; field_simp
    rw [h3]
    rw [Complex.ofReal_ofNat] at h1
    linear_combination h1
  intro j
  exact congrFun this j

/-- C34: for a model with a single field, a step moves the field by `dt` times the reflected sum of
the weighted force of the two ends (`f`) and the linear part taken at the new time (`g`). -/
theorem c34_single_field (h : ∀ d ∈ dims, 0 < d) (m : Model 1 nd dims.prod)
    (hc : LinearPartConst m) (s : SDD 1 dims.prod) (st : Store 1 nd dims.prod)
    (hA : ∀ k, 1 - (s.dt : ℂ) * m.getDenum 0 st s.freq s.getTime k ≠ 0)
    (hden : 1 + ∑ k, s.ftOrientation 0 k * (1 / (1 - (s.dt : ℂ) * m.getDenum 0 st s.freq s.getTime k)) *
      ((2 : ℝ) * m.getDenum 0 st s.freq s.getTime k * s.dt * (starRingEnd ℂ) (s.ftOrientation 0 k) /
        (dims.prod : ℂ)) ≠ 0) :
    ∃ f g : Fin dims.prod → ℂ,
      fft dims f = (fun k => (s.alpha : ℂ) * m.getRHS 0 (s.dimerStores m st).1 s.freq s.getTime k +
        (1 - s.alpha) * m.getRHS 0 (s.dimerStores m st).2.1 s.freq s.getTime k) ∧
      fft dims g = (fun k => m.getDenum 0 st s.freq s.getTime k *
        fft dims ((SDD.step m (s, st)).2.fields 0) k) ∧
      ReflectedStep s.dt (s.orientation 0) (st.fields 0) f g ((SDD.step m (s, st)).2.fields 0) :=
  step_field h m hc s st 0 hA hden

/-- C34: in general field `i` is moved by the weighted force of the *first* field. -/
theorem c34_first_field_force (h : ∀ d ∈ dims, 0 < d) (m : Model (nf + 1) nd dims.prod)
    (hc : LinearPartConst m) (s : SDD (nf + 1) dims.prod) (st : Store (nf + 1) nd dims.prod)
    (i : Fin (nf + 1))
    (hA : ∀ k, 1 - (s.dt : ℂ) * m.getDenum i st s.freq s.getTime k ≠ 0)
    (hden : 1 + ∑ k, s.ftOrientation i k * (1 / (1 - (s.dt : ℂ) * m.getDenum i st s.freq s.getTime k)) *
      ((2 : ℝ) * m.getDenum i st s.freq s.getTime k * s.dt * (starRingEnd ℂ) (s.ftOrientation i k) /
        (dims.prod : ℂ)) ≠ 0) :
    ∃ f g : Fin dims.prod → ℂ,
      fft dims f = (fun k => (s.alpha : ℂ) * m.getRHS 0 (s.dimerStores m st).1 s.freq s.getTime k +
        (1 - s.alpha) * m.getRHS 0 (s.dimerStores m st).2.1 s.freq s.getTime k) ∧
      fft dims g = (fun k => m.getDenum i st s.freq s.getTime k *
        fft dims ((SDD.step m (s, st)).2.fields i) k) ∧
      ReflectedStep s.dt (s.orientation i) (st.fields i) f g ((SDD.step m (s, st)).2.fields i) :=
  step_field h m hc s st i hA hden

/-- A model with two fields without linear part: no force on the first, a constant force (in every
bin) on the second. -/
def secondFieldForced : Model 2 0 dims.prod :=
  { calcs := fun d => d.elim0, terms := fun i => if i = 1 then [fun _ _ _ _ => 1] else []
    denum := fun _ => [], sources := fun _ => [], modifiers := [] }

/-- C34 is false for the second field: on any grid, with the dimer along the first field, a constant
force on the second field leaves the second field where it is. (A step that used the force of the
second field would move it.) -/
theorem c34_second_field_ignored (h : ∀ d ∈ dims, 0 < d) (s : SDD 2 dims.prod)
    (ho : s.orientation 1 = fun _ => 0) (hdt : s.dt ≠ 0) (st : Store 2 0 dims.prod) :
    (SDD.step secondFieldForced (s, st)).2.fields 1 = st.fields 1 ∧
    ∀ f g y : Fin dims.prod → ℂ,
      fft dims f = (fun k => (s.alpha : ℂ) *
          secondFieldForced.getRHS 1 (s.dimerStores secondFieldForced st).1 s.freq s.getTime k +
        (1 - s.alpha) *
          secondFieldForced.getRHS 1 (s.dimerStores secondFieldForced st).2.1 s.freq s.getTime k) →
      fft dims g = (fun k => secondFieldForced.getDenum 1 st s.freq s.getTime k * fft dims y k) →
      ReflectedStep s.dt (s.orientation 1) (st.fields 1) f g y → y ≠ st.fields 1 := by
  have hd : ∀ (st : Store 2 0 dims.prod) freq t k, secondFieldForced.getDenum 1 st freq t k = 0 := by
    intro st freq t k; rw [getDenum_apply]; simp [secondFieldForced]
  have hr0 : ∀ (st : Store 2 0 dims.prod) freq t k, secondFieldForced.getRHS 0 st freq t k = 0 := by
    intro st freq t k; rw [getRHS_eq]; simp [secondFieldForced, rawRHS_apply]
  have hr1 : ∀ (st : Store 2 0 dims.prod) freq t k, secondFieldForced.getRHS 1 st freq t k = 1 := by
    intro st freq t k; rw [getRHS_eq]; simp [secondFieldForced, rawRHS_apply]
  have hzero : ∀ g : Fin dims.prod → ℂ, fft dims g = (fun _ => 0) → g = fun _ => 0 := by
    intro g hg
    apply fft_injective h
    rw [hg]; funext k; simp [fft]
  constructor
  · obtain ⟨f, g, hf, hg, hs⟩ := c34_first_field_force h secondFieldForced
      (fun i st st' freq t => by
        funext k; rw [getDenum_apply, getDenum_apply]; simp [secondFieldForced]) s st 1
      (by intro k; rw [hd]; simp) (by simp [hd])
    simp only [hr0, hd, mul_zero, zero_mul, add_zero] at hf hg
    have f0 := hzero f hf
    have g0 := hzero g hg
    funext j
    rw [hs j, f0, g0]
    simp
  · intro f g y hf hg hs hy
    simp only [hr1, hd, zero_mul] at hf hg
    have g0 := hzero g hg
    have hf0 : f = fun _ => 0 := by
      funext j
      have := hs j
      rw [hy, g0, ho] at this
      simp only [add_zero, Complex.ofReal_zero, mul_zero, zero_mul, sub_zero] at this
      have h2 : (s.dt : ℂ) * f j = 0 := by linear_combination -this
      rcases mul_eq_zero.mp h2 with h3 | h3
      · exact absurd (Complex.ofReal_eq_zero.mp h3) hdt
      · exact h3
    have hk : 0 < dims.prod := Nat.pos_of_ne_zero (by
      rw [Ne, List.prod_eq_zero_iff]; intro hm; exact absurd (h 0 hm) (by omega))
    have := congrFun hf ⟨0, hk⟩
    rw [hf0] at this
    simp [fft] at this

example : ∃ s : SDD 2 [2, 3].prod, s.orientation 1 = (fun _ => 0) ∧ s.dt ≠ 0 ∧
    ∑ i, ∑ j, s.orientation i j ^ 2 = 1 :=
  ⟨{ tauOrientation := 1, tauDimerLength := 3, alpha := 1 / 2, dt := 1 / 10, currentStep := 0
     minDimerLength := 1 / 2, initDimerLength := 2
     orientation := fun i j => if i = 0 ∧ j.val = 0 then 1 else 0, freq := fun _ => [] },
   by funext j; simp, by norm_num, by
     simp only [Fin.sum_univ_two]
     simp [Fin.sum_univ_succ]
     exact Finset.mem_univ _⟩

/-- Squared length of an orientation. -/
def normSqO {n : ℕ} (o : Fin nf → Fin n → ℝ) : ℝ := ∑ i, ∑ j, o i j * o i j

/-- C30: with a unit orientation the torque computed by a step (the real part, in real space) is
orthogonal to the orientation. -/
theorem c30_torque (h : ∀ d ∈ dims, 0 < d) (m : Model nf nd dims.prod) (s : SDD nf dims.prod)
    (ho : normSqO s.orientation = 1) (st : Store nf nd dims.prod) (F1 F2 : Fin nf → Data dims.prod) :
    ∑ i, ∑ j, (s.torque m st F1 F2 i j).re * s.orientation i j = 0 := by
  have hN := prod_ne_zero' h
  have hNpos : 0 < dims.prod := Nat.pos_of_ne_zero (by
    rw [Ne, List.prod_eq_zero_iff]; intro hm; exact absurd (h 0 hm) (by omega))
  -- unit orientation in Fourier space
  have hunit : inner (fun p : Fin nf × Fin dims.prod => s.ftOrientation p.1 p.2)
      (fun p => s.ftOrientation p.1 p.2) = (dims.prod : ℕ) := by
    unfold inner
    rw [Fintype.sum_prod_type]
    have : ∀ i : Fin nf, ∑ k, s.ftOrientation i k * (starRingEnd ℂ) (s.ftOrientation i k) =
        dims.prod * ((∑ j, s.orientation i j * s.orientation i j : ℝ) : ℂ) := by
      intro i
      unfold SDD.ftOrientation
      rw [parseval h]
      push_cast
      simp only [Complex.conj_ofReal]
    simp only [this]
    rw [← Finset.mul_sum, ← Complex.ofReal_sum]
    unfold normSqO at ho
    rw [ho]; simp
  unfold SDD.torque
  dsimp only
  generalize (fun p : Fin nf × Fin dims.prod => F1 p.1 p.2 - F2 p.1 p.2 - _) = t1
  have horth := (c30_projection t1 _ dims.prod hNpos hunit).1
  set t2 := householder t1 (fun p : Fin nf × Fin dims.prod => s.ftOrientation p.1 p.2) 1 dims.prod
  unfold inner at horth
  rw [Fintype.sum_prod_type] at horth
  dsimp only at horth
  have hrow : ∀ i : Fin nf, ∑ k, t2 (i, k) * (starRingEnd ℂ) (s.ftOrientation i k) =
      dims.prod * ∑ j, divRealScalar (ifft dims fun j => t2 (i, j)) (dims.prod : ℕ) j *
        (s.orientation i j : ℂ) := by
    intro i
    have e := parseval h (divRealScalar (ifft dims fun j => t2 (i, j)) (dims.prod : ℕ))
      (fun j => (s.orientation i j : ℂ))
    simp only [Complex.conj_ofReal] at e
    rw [← e]
    have e2 : fft dims (divRealScalar (ifft dims fun j => t2 (i, j)) (dims.prod : ℕ)) =
        fun j => t2 (i, j) := by
      rw [← fft_surjective h (fun j => t2 (i, j))]
      congr 1
      funext x
      simp only [divRealScalar, Complex.ofReal_natCast]
      rw [fft_surjective h]
    rw [e2]
    rfl
  simp only [hrow] at horth
  rw [← Finset.mul_sum] at horth
  have hz := (mul_eq_zero.mp horth).resolve_left hN
  have hre := congrArg Complex.re hz
  simp only [Complex.re_sum, Complex.re_mul_ofReal, Complex.zero_re] at hre
  exact hre

/-- C30: after any number of steps the orientation still has length one. In particular the
normalisation never divides by zero. -/
theorem c30_unit_invariant (h : ∀ d ∈ dims, 0 < d) (m : Model nf nd dims.prod) (k : ℕ)
    (s : SDD nf dims.prod) (ho : normSqO s.orientation = 1) (st : Store nf nd dims.prod) :
    normSqO ((SDD.step m)^[k] (s, st)).1.orientation = 1 := by
  induction k with
  | zero => exact ho
  | succ k ih =>
    rw [Function.iterate_succ_apply']
    generalize (SDD.step m)^[k] (s, st) = p at ih ⊢
    set τ := p.1.torque m (p.1.stepFields m p.2).1 (p.1.stepFields m p.2).2.1
      (p.1.stepFields m p.2).2.2 with hτ
    have horth := c30_torque h m p.1 ih (p.1.stepFields m p.2).1 (p.1.stepFields m p.2).2.1
      (p.1.stepFields m p.2).2.2
    rw [← hτ] at horth
    have hstep : (SDD.step m p).1.orientation = p.1.updateOrientation τ := rfl
    rw [hstep]
    unfold SDD.updateOrientation
    dsimp only
    set c := p.1.dt / (p.1.dimerLength p.1.getTime * p.1.tauOrientation) with hcdef
    set o1 : Fin nf → Fin dims.prod → ℝ := fun i j => p.1.orientation i j -
      p.1.dt * (τ i j).re / (p.1.dimerLength p.1.getTime * p.1.tauOrientation) with ho1
    have hlen : ∑ i, ∑ j, o1 i j * o1 i j =
        1 + c ^ 2 * ∑ i, ∑ j, (τ i j).re * (τ i j).re := by
      have e : ∀ i j, o1 i j * o1 i j = p.1.orientation i j * p.1.orientation i j -
          2 * c * ((τ i j).re * p.1.orientation i j) + c ^ 2 * ((τ i j).re * (τ i j).re) := by
        intro i j
        simp only [ho1, hcdef]
        ring
      simp only [e, Finset.sum_add_distrib, Finset.sum_sub_distrib, ← Finset.mul_sum]
      rw [horth]
      unfold normSqO at ih
      rw [ih]; ring
    have hge : 1 ≤ ∑ i, ∑ j, o1 i j * o1 i j := by
      rw [hlen]
      have : 0 ≤ ∑ i, ∑ j, (τ i j).re * (τ i j).re :=
        Finset.sum_nonneg fun i _ => Finset.sum_nonneg fun j _ => mul_self_nonneg _
      nlinarith [sq_nonneg c]
    set S := ∑ i, ∑ j, o1 i j * o1 i j
    have hs : Real.sqrt S * Real.sqrt S = S := Real.mul_self_sqrt (by linarith)
    unfold normSqO
    have e : ∀ i j, o1 i j / Real.sqrt S * (o1 i j / Real.sqrt S) = o1 i j * o1 i j * S⁻¹ := by
      intro i j
      rw [div_mul_div_comm, hs, div_eq_mul_inv]
    change ∑ i, ∑ j, o1 i j / Real.sqrt S * (o1 i j / Real.sqrt S) = 1
    simp only [e, ← Finset.sum_mul]
    have hS0 : S ≠ 0 := by linarith
    exact mul_inv_cancel₀ hS0

/-- C30: both ways of setting the initial orientation give a vector of length one, and the dimer
length is the length of the vector passed (the distance between the two configurations). -/
theorem c30_initial (s : SDD nf dims.prod) (orient : Fin nf → Fin dims.prod → ℝ)
    (hne : normSqO orient ≠ 0) :
    normSqO (s.setOrientation orient).orientation = 1 ∧
    (s.setOrientation orient).initDimerLength ^ 2 = normSqO orient ∧
    ∀ i j, (s.setOrientation orient).initDimerLength * (s.setOrientation orient).orientation i j =
      orient i j := by
  have h0 : 0 ≤ normSqO orient :=
    Finset.sum_nonneg fun i _ => Finset.sum_nonneg fun j _ => mul_self_nonneg _
  have hpos : 0 < normSqO orient := lt_of_le_of_ne h0 (Ne.symm hne)
  have hs : Real.sqrt (normSqO orient) * Real.sqrt (normSqO orient) = normSqO orient :=
    Real.mul_self_sqrt h0
  refine ⟨?_, by rw [pow_two]; exact hs, fun i j => ?_⟩
  · have e : ∀ i j, (s.setOrientation orient).orientation i j * (s.setOrientation orient).orientation i j =
        orient i j * orient i j * (normSqO orient)⁻¹ := by
      intro i j
      change orient i j / Real.sqrt (normSqO orient) * (orient i j / Real.sqrt (normSqO orient)) = _
      rw [div_mul_div_comm, hs, div_eq_mul_inv]
    conv_lhs => unfold normSqO
    simp only [e, ← Finset.sum_mul]
    exact mul_inv_cancel₀ hne
  · change Real.sqrt (normSqO orient) * (orient i j / Real.sqrt (normSqO orient)) = _
    exact mul_div_cancel₀ _ (Real.sqrt_pos.mpr hpos).ne'

example : normSqO (fun (_ : Fin 1) (_ : Fin 4) => (1 / 2 : ℝ)) = 1 := by
  unfold normSqO; norm_num

/-- C33: after `Init` with two different real configurations the orientation leads from the first to the second one: the
dimer of initial length around their middle has the first one at its start and the second one at its end. -/
theorem c33_endpoints (s : SDD nf dims.prod) (a b : Fin nf → Fin dims.prod → ℝ)
    (hne : normSqO (fun i j => b i j - a i j) ≠ 0) (derived : Fin nd → Data dims.prod) :
    let s' := s.init (fun i j => (a i j : ℂ)) (fun i j => (b i j : ℂ))
    let mid : Store nf nd dims.prod := ⟨fun i j => ((a i j + b i j) / 2 : ℂ), derived⟩
    (∀ i j, (s'.shiftFieldsAlongDimer mid (-0.5 * s'.initDimerLength)).fields i j = a i j) ∧
    ∀ i j, (s'.shiftFieldsAlongDimer mid (0.5 * s'.initDimerLength)).fields i j = b i j := by
  intro s' mid
  have e : s' = s.setOrientation fun i j => b i j - a i j := by
    show s.setOrientation _ = _
    congr 1
  have h := (c30_initial s _ hne).2.2
  rw [← e] at h
  have h' : ∀ i j, (s'.initDimerLength : ℂ) * (s'.orientation i j : ℂ) = (b i j : ℂ) - (a i j : ℂ) := by
    intro i j
    rw [← Complex.ofReal_mul, h i j, Complex.ofReal_sub]
  constructor
  · intro i j
    show ((a i j + b i j) / 2 : ℂ) + ((-0.5 * s'.initDimerLength * s'.orientation i j : ℝ) : ℂ) = a i j
    rw [show -0.5 * s'.initDimerLength * s'.orientation i j = -(1 / 2) * (s'.initDimerLength * s'.orientation i j) by
      norm_num; ring, h i j]
    push_cast
    ring
  · intro i j
    show ((a i j + b i j) / 2 : ℂ) + ((0.5 * s'.initDimerLength * s'.orientation i j : ℝ) : ℂ) = b i j
    rw [show 0.5 * s'.initDimerLength * s'.orientation i j = 1 / 2 * (s'.initDimerLength * s'.orientation i j) by
      norm_num; ring, h i j]
    push_cast
    ring

example : normSqO (fun (_ : Fin 1) (_ : Fin 4) => (1 - 0 : ℝ)) ≠ 0 := by
  unfold normSqO; norm_num

/-- C26: the SDD stepper advances its time by `dt` per step. -/
theorem c26_sdd (m : Model nf nd dims.prod) (s : SDD nf dims.prod) (st : Store nf nd dims.prod)
    (n : ℕ) : ((SDD.step m)^[n] (s, st)).1.getTime = (s.currentStep + n) * s.dt := by
  have key : ((SDD.step m)^[n] (s, st)).1.currentStep = s.currentStep + n ∧
      ((SDD.step m)^[n] (s, st)).1.dt = s.dt := by
    induction n with
    | zero => exact ⟨rfl, rfl⟩
    | succ k ih =>
      rw [Function.iterate_succ_apply']
      generalize (SDD.step m)^[k] (s, st) = p at ih ⊢
      exact ⟨by rw [show (SDD.step m p).1.currentStep = p.1.currentStep + 1 from rfl, ih.1]; omega, ih.2⟩
  unfold SDD.getTime
  rw [key.1, key.2]
  push_cast
  ring

end Gopf.Props
