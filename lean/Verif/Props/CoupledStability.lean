import Verif.Props.Coupled
import Verif.Props.RungeKuttaStability
import Verif.Props.RealSession
import Verif.Proofs.LinearStability

/-!
# C161: small perturbations of uniform states of coupled equations
-/

namespace Gopf.Props
open Spec Pf Pfutil

variable {n nf : ℕ} {dims : List ℕ}

/-! ### The specification -/

/-- How fast a product of powers changes when its factors, starting at `z`, change at the rates `w`. -/
noncomputable def productSlope (fs : List Factor) (z w : Str → ℂ) : ℂ :=
  deriv (fun t : ℂ => (fs.map fun f => (z f.name + t * w f.name) ^ ((f.power : ℚ) : ℂ)).prod) 0

open Classical in
/-- The right-hand side of an equation, linearised at the uniform state `z`, for the wave `k`: terms with one bare field
see the amplitudes `v`, all others `w`. -/
noncomputable def linearSeen (N : Names) (c : Str → ℂ) (freq : Frequency n) (eq : Equation) (z : Str → ℂ) (k : Fin n)
    (w v : Str → ℂ) : ℂ :=
  (eq.terms.map fun p : List Item × Option Char =>
    coefficient N c p * laplaceSymbol (freq k) ^ (laplacians p.1).sum *
      productSlope (factorsIn N.varying p.1) z (if BareField N p then v else w)).sum

/-- There are amplitudes of the wave `k`, not all zero, that a step of the linearised equations multiplies by `μ`. Terms
with one bare field see the new amplitudes of the fields of earlier equations (C132). -/
def IsMultiplier (N : Names) (c : Str → ℂ) (freq : Frequency n) (dt : ℝ) (eqs : List Equation) (z : Str → ℂ) (k : Fin n)
    (μ : ℂ) : Prop :=
  ∃ w : Str → ℂ, (∃ f ∈ N.fields, w f ≠ 0) ∧ ∀ (i : ℕ) (hi : i < eqs.length),
    (1 - dt * implicitRate N c freq eqs[i] k) * ((μ - 1) * w eqs[i].field) =
      dt * linearSeen N c freq eqs[i] z k w (fun f => if N.fields.idxOf f < i then μ * w f else w f)

/-- The rate of change of a uniform state: terms with a Laplacian do not contribute. -/
noncomputable def uniformSystemRate (N : Names) (c : Str → ℂ) (eq : Equation) (z : Str → ℂ) : ℂ :=
  (eq.terms.map fun p : List Item × Option Char => if (laplacians p.1).sum = 0 then
    coefficient N c p * ((factorsIn N.varying p.1).map fun f => z f.name ^ ((f.power : ℚ) : ℂ)).prod else 0).sum

/-! ### Systems of polynomials -/

/-- A product of powers of the fields. -/
def fieldMono (l : List (Fin nf × ℕ)) (y : Fin nf → Data n) : Data n := fun x => (l.map fun f => y f.1 x ^ f.2).prod

/-- The new values of the earlier fields, the old ones of the others. -/
def earlier {X : Type} (i : Fin nf) (a y : Fin nf → X) : Fin nf → X := fun j => if j < i then a j else y j

/-- The terms of a step: a multiplier, a product, and whether it sees the new values of earlier fields. -/
abbrev StepTerms (dims : List ℕ) (nf : ℕ) := Fin nf → List (Data dims.prod × List (Fin nf × ℕ) × Bool)

/-- `a` is what the step makes of `y`. -/
def Follows (T : StepTerms dims nf) (y a : Fin nf → Data dims.prod) : Prop := ∀ i, a i = y i +
  ((T i).map fun t => multiplier dims t.1 (fieldMono t.2.1 (bif t.2.2 then earlier i a y else y))).sum

theorem follows_unique {T : StepTerms dims nf} {y a b : Fin nf → Data dims.prod} (ha : Follows T y a) (hb : Follows T y b) :
    a = b := by
  funext ⟨i, hi⟩
  induction i using Nat.strong_induction_on with
  | _ i ih =>
    have e : earlier ⟨i, hi⟩ a y = earlier ⟨i, hi⟩ b y := by
      funext j
      unfold earlier
      split_ifs with hj
      · exact ih j.val hj j.2
      · rfl
    rw [ha ⟨i, hi⟩, hb ⟨i, hi⟩, e]

/-- The product rule. -/
def monoSlope : List (Fin nf × ℕ) → (Fin nf → ℂ) → (Fin nf → ℂ) → ℂ
  | [], _, _ => 0
  | f :: l, z, w => (f.2 : ℂ) * z f.1 ^ (f.2 - 1) * w f.1 * (l.map fun g => z g.1 ^ g.2).prod + z f.1 ^ f.2 * monoSlope l z w

theorem hasDerivAt_slope (l : List (Fin nf × ℕ)) {g : Fin nf → ℂ → ℂ} {a : Fin nf → ℂ}
    (hg : ∀ j, HasDerivAt (g j) (a j) 0) :
    HasDerivAt (fun t => (l.map fun f => g f.1 t ^ f.2).prod) (monoSlope l (fun j => g j 0) a) 0 := by
  induction l with
  | nil => simpa [monoSlope] using hasDerivAt_const (0 : ℂ) (1 : ℂ)
  | cons f l ih =>
    simp only [List.map_cons, List.prod_cons, monoSlope]
    exact ((hg f.1).pow f.2).mul ih

theorem fft_slope (l : List (Fin nf × ℕ)) (z : Fin nf → ℂ) (w : Fin nf → Data dims.prod) (k : Fin dims.prod) :
    fft dims (fun x => monoSlope l z fun j => w j x) k = monoSlope l z fun j => fft dims (w j) k := by
  induction l with
  | nil => exact fft_null k
  | cons f l ih =>
    simp only [monoSlope]
    have e : (fun x => (f.2 : ℂ) * z f.1 ^ (f.2 - 1) * w f.1 x * (l.map fun g => z g.1 ^ g.2).prod +
        z f.1 ^ f.2 * monoSlope l z fun j => w j x) =
        (((f.2 : ℂ) * z f.1 ^ (f.2 - 1) * (l.map fun g => z g.1 ^ g.2).prod) • w f.1 +
        (z f.1 ^ f.2) • (fun x => monoSlope l z fun j => w j x) : Data dims.prod) := by
      funext x
      simp only [Pi.add_apply, Pi.smul_apply, smul_eq_mul]
      ring
    have e1 : ∀ v w : Data dims.prod, fft dims (v + w) k = fft dims v k + fft dims w k := fun v w => fft_add v w k
    have e0 : ∀ (z : ℂ) (w : Data dims.prod), fft dims (z • w) k = z * fft dims w k := fun z w => fft_smul z w k
    rw [e, e1, e0, e0, ih]
    ring

theorem contDiff_mono {E : Type} [NormedAddCommGroup E] [NormedSpace ℂ E] (l : List (Fin nf × ℕ))
    {Y : E → Fin nf → Data n} (hY : ∀ j, ContDiff ℂ 2 fun y => Y y j) : ContDiff ℂ 2 fun y => fieldMono l (Y y) := by
  refine contDiff_pi.mpr fun x => ?_
  unfold fieldMono
  induction l with
  | nil => exact contDiff_const
  | cons f l ih =>
    simp only [List.map_cons, List.prod_cons]
    exact ((contDiff_pi.mp (hY f.1) x).pow f.2).mul ih

section
variable {T : StepTerms dims nf} {F : (Fin nf → Data dims.prod) → Fin nf → Data dims.prod} (hF : ∀ y, Follows T y (F y))
include hF

theorem contDiff_step : ContDiff ℂ 2 F := by
  refine contDiff_pi.mpr ?_
  rintro ⟨i, hi⟩
  induction i using Nat.strong_induction_on with
  | _ i ih =>
    have hproj : ∀ j : Fin nf, ContDiff ℂ 2 fun y : Fin nf → Data dims.prod => y j := fun j => contDiff_apply ℂ (Data dims.prod) j
    have e : (fun y => F y ⟨i, hi⟩) = fun y => y ⟨i, hi⟩ + ((T ⟨i, hi⟩).map fun t =>
        multiplier dims t.1 (fieldMono t.2.1 (bif t.2.2 then earlier ⟨i, hi⟩ (F y) y else y))).sum := funext fun y => hF y ⟨i, hi⟩
    rw [e]
    refine (hproj _).add ?_
    generalize T ⟨i, hi⟩ = l
    induction l with
    | nil => exact contDiff_const
    | cons t l ihl =>
      simp only [List.map_cons, List.sum_cons]
      refine ContDiff.add ?_ ihl
      refine (LinearMap.toContinuousLinearMap (multiplier dims t.1)).contDiff.comp (contDiff_mono t.2.1 fun j => ?_)
      cases t.2.2 with
      | false => exact hproj j
      | true =>
        simp only [cond_true, earlier]
        by_cases hj : j < ⟨i, hi⟩
        · simp only [if_pos hj]
          exact ih j.val hj j.2
        · simp only [if_neg hj]
          exact hproj j

/-- The derivative of the step at a uniform state that rests. -/
theorem fderiv_step {ζ : Fin nf → ℂ} (hz : F (fun j _ => ζ j) = fun j _ => ζ j) (w : Fin nf → Data dims.prod) (i : Fin nf) :
    fderiv ℂ F (fun j _ => ζ j) w i = w i + ((T i).map fun t => multiplier dims t.1 fun x =>
      monoSlope t.2.1 ζ fun j => (bif t.2.2 then earlier i (fderiv ℂ F (fun j _ => ζ j) w) w else w) j x).sum := by
  set z : Fin nf → Data dims.prod := fun j _ => ζ j with hzdef
  set L := fderiv ℂ F z with hL
  have hline : HasDerivAt (fun t : ℂ => z + t • w) w 0 := by
    have := ((hasDerivAt_id (0 : ℂ)).smul_const w).const_add z
    simpa using this
  have hd : HasDerivAt (fun t : ℂ => F (z + t • w)) (L w) 0 := by
    have h1 : HasFDerivAt F L (z + (0 : ℂ) • w) := by
      rw [zero_smul, add_zero]
      exact ((contDiff_step hF).differentiable (by norm_num) z).hasFDerivAt
    exact h1.comp_hasDerivAt (0 : ℂ) hline
  have hdi : ∀ j, HasDerivAt (fun t : ℂ => F (z + t • w) j) (L w j) 0 := fun j => hasDerivAt_pi.mp hd j
  have hwi : ∀ j, HasDerivAt (fun t : ℂ => (z + t • w) j) (w j) 0 := fun j => hasDerivAt_pi.mp hline j
  have hR : HasDerivAt (fun t : ℂ => (z + t • w) i + ((T i).map fun u => multiplier dims u.1
      (fieldMono u.2.1 (bif u.2.2 then earlier i (F (z + t • w)) (z + t • w) else z + t • w))).sum)
      (w i + ((T i).map fun u => multiplier dims u.1 fun x =>
        monoSlope u.2.1 ζ fun j => (bif u.2.2 then earlier i (L w) w else w) j x).sum) 0 := by
    refine (hwi i).add ?_
    generalize T i = l
    induction l with
    | nil => exact hasDerivAt_const _ _
    | cons u l ihl =>
      simp only [List.map_cons, List.sum_cons]
      refine HasDerivAt.add ?_ ihl
      refine (LinearMap.toContinuousLinearMap (multiplier dims u.1)).hasFDerivAt.comp_hasDerivAt (0 : ℂ) ?_
      refine hasDerivAt_pi.mpr fun x => ?_
      unfold fieldMono
      have hg : ∀ j, HasDerivAt (fun t : ℂ => (bif u.2.2 then earlier i (F (z + t • w)) (z + t • w) else z + t • w) j x)
          ((bif u.2.2 then earlier i (L w) w else w) j x) 0 := by
        intro j
        cases u.2.2 with
        | false => exact hasDerivAt_pi.mp (hwi j) x
        | true =>
          simp only [cond_true, earlier]
          by_cases hj : j < i
          · simp only [if_pos hj]
            exact hasDerivAt_pi.mp (hdi j) x
          · simp only [if_neg hj]
            exact hasDerivAt_pi.mp (hwi j) x
      refine (hasDerivAt_slope u.2.1 hg).congr_deriv ?_
      congr 1
      funext j
      have e0 : z + (0 : ℂ) • w = z := by rw [zero_smul, add_zero]
      rw [e0, hz]
      cases u.2.2 with
      | false => rfl
      | true =>
        simp only [cond_true, earlier, ite_self]
        rfl
  have e : (fun t : ℂ => F (z + t • w) i) = fun t : ℂ => (z + t • w) i + ((T i).map fun u => multiplier dims u.1
      (fieldMono u.2.1 (bif u.2.2 then earlier i (F (z + t • w)) (z + t • w) else z + t • w))).sum :=
    funext fun t => hF _ i
  have h2 := hdi i
  rw [e] at h2
  exact h2.unique hR

end

/-- What a step of the linearised equations makes of the amplitudes `w` of a wave. -/
def WaveFollows (T : StepTerms dims nf) (ζ : Fin nf → ℂ) (k : Fin dims.prod) (w a : Fin nf → ℂ) : Prop := ∀ i, a i = w i +
  ((T i).map fun t => t.1 k * monoSlope t.2.1 ζ (bif t.2.2 then earlier i a w else w)).sum

theorem waveFollows_unique {T : StepTerms dims nf} {ζ : Fin nf → ℂ} {k : Fin dims.prod} {w a b : Fin nf → ℂ}
    (ha : WaveFollows T ζ k w a) (hb : WaveFollows T ζ k w b) : a = b := by
  funext ⟨i, hi⟩
  induction i using Nat.strong_induction_on with
  | _ i ih =>
    have e : earlier ⟨i, hi⟩ a w = earlier ⟨i, hi⟩ b w := by
      funext j
      unfold earlier
      split_ifs with hj
      · exact ih j.val hj j.2
      · rfl
    rw [ha ⟨i, hi⟩, hb ⟨i, hi⟩, e]

section
variable (h : ∀ d ∈ dims, 0 < d) {F : (Fin nf → Data dims.prod) → Fin nf → Data dims.prod} (hCD : ContDiff ℂ 2 F)
  {ζ : Fin nf → ℂ} (hz : F (fun j _ => ζ j) = fun j _ => ζ j)
include h hCD hz

/-- If the derivative of a smooth step has only eigenvalues less than one in modulus, the state attracts. -/
theorem smooth_attracts (hμ : ∀ (w : Fin nf → Data dims.prod) (μ : ℂ), w ≠ 0 → fderiv ℂ F (fun j _ => ζ j) w = μ • w → ‖μ‖ < 1) :
    ∃ δ C q : ℝ, 0 < δ ∧ q < 1 ∧ 0 ≤ q ∧ ∀ y, (∀ i x, ‖y i x - ζ i‖ < δ) → ∀ n i x, ‖F^[n] y i x - ζ i‖ ≤ C * q ^ n := by
  have hd : HasFDerivAt F (fderiv ℂ F (fun j _ => ζ j)) (fun j _ => ζ j) :=
    (hCD.differentiable (by norm_num) _).hasFDerivAt
  have hsr : spectralRadius ℂ (fderiv ℂ F (fun j _ => ζ j)) < 1 := by
    rcases isEmpty_or_nonempty (Fin nf) with he | hne
    · have hs : Subsingleton (Fin nf → Data dims.prod) := inferInstance
      have e : fderiv ℂ F (fun j _ => ζ j) = 0 := ContinuousLinearMap.ext fun v => Subsingleton.elim _ _
      rw [e, spectrum.spectralRadius_zero]
      exact zero_lt_one
    · have : Nonempty (Fin dims.prod) := ⟨⟨0, Nat.pos_of_ne_zero (by exact_mod_cast prod_ne_zero h)⟩⟩
      have : Nontrivial (Fin nf → Data dims.prod) := inferInstance
      obtain ⟨μ, hm, e⟩ := spectrum.exists_nnnorm_eq_spectralRadius (fderiv ℂ F (fun j _ => ζ j))
      rw [← e]
      obtain ⟨v, hv, hv'⟩ := (Dynamics.mem_spectrum_iff _ _).mp hm
      have := hμ v μ hv hv'
      exact_mod_cast this
  obtain ⟨δ, C, q, hδ, hq1, hq0, hconv⟩ := Dynamics.attracts hz hd hsr
  refine ⟨δ, C, q, hδ, hq1, hq0, fun y hy n i x => ?_⟩
  have h1 := hconv y ((pi_norm_lt_iff hδ).mpr fun i => (pi_norm_lt_iff hδ).mpr fun x => hy i x) n
  exact ((norm_le_pi_norm _ x).trans (norm_le_pi_norm (F^[n] y - fun j _ => ζ j) i)).trans h1

omit h hz in
/-- The derivative of a step that takes real fields to real fields does so too. -/
theorem fderiv_real (hζ : ∀ j, (ζ j).im = 0) (hreal : ∀ y, (∀ i, IsReal (y i)) → ∀ i, IsReal (F y i))
    {w : Fin nf → Data dims.prod} (hw : ∀ i, IsReal (w i)) (i : Fin nf) : IsReal (fderiv ℂ F (fun j _ => ζ j) w i) := by
  intro x
  set z : Fin nf → Data dims.prod := fun j _ => ζ j with hzdef
  have hline : HasDerivAt (fun t : ℂ => z + t • w) w 0 := by
    have := ((hasDerivAt_id (0 : ℂ)).smul_const w).const_add z
    simpa using this
  have hd : HasDerivAt (fun t : ℂ => F (z + t • w)) (fderiv ℂ F z w) 0 := by
    have h1 : HasFDerivAt F (fderiv ℂ F z) (z + (0 : ℂ) • w) := by
      rw [zero_smul, add_zero]
      exact (hCD.differentiable (by norm_num) z).hasFDerivAt
    exact h1.comp_hasDerivAt (0 : ℂ) hline
  have h1 : HasDerivAt (fun t : ℂ => F (z + t • w) i x) (fderiv ℂ F z w i x) ((0 : ℝ) : ℂ) :=
    hasDerivAt_pi.mp (hasDerivAt_pi.mp hd i) x
  have h2 : HasDerivAt (fun t : ℝ => F (z + (t : ℂ) • w) i x) (fderiv ℂ F z w i x) 0 := h1.comp_ofReal
  have h3 : HasDerivAt (fun t : ℝ => (F (z + (t : ℂ) • w) i x).im) (fderiv ℂ F z w i x).im 0 :=
    Complex.imCLM.hasFDerivAt.comp_hasDerivAt (0 : ℝ) h2
  have e : (fun t : ℝ => (F (z + (t : ℂ) • w) i x).im) = fun _ => 0 := by
    funext t
    refine hreal _ (fun j y => ?_) i x
    have := hw j y
    simp [hzdef, hζ j, this]
  rw [e] at h3
  exact h3.unique (hasDerivAt_const _ _)

omit h in
/-- If some eigenvalue is larger than one in modulus, real perturbations leave the state. -/
theorem smooth_repels (hζ : ∀ j, (ζ j).im = 0) (hreal : ∀ y, (∀ i, IsReal (y i)) → ∀ i, IsReal (F y i))
    (hμ : ∃ (w : Fin nf → Data dims.prod) (μ : ℂ), w ≠ 0 ∧ fderiv ℂ F (fun j _ => ζ j) w = μ • w ∧ 1 < ‖μ‖) :
    ∃ ρ : ℝ, 0 < ρ ∧ ∀ δ : ℝ, 0 < δ → ∃ v : Fin nf → Data dims.prod, (∀ i, IsReal (v i)) ∧ (∀ i x, ‖v i x‖ < δ) ∧
      ∃ n i x, ρ ≤ ‖F^[n] (fun j x => ζ j + v j x) i x - ζ i‖ := by
  set z : Fin nf → Data dims.prod := fun j _ => ζ j with hzdef
  set L := fderiv ℂ F z with hL
  obtain ⟨v0, μ0, hv0, hv0', hμ0⟩ := hμ
  have hnt : Nontrivial (Fin nf → Data dims.prod) := nontrivial_of_ne v0 0 hv0
  obtain ⟨μ, hm, e⟩ := spectrum.exists_nnnorm_eq_spectralRadius L
  have h1 : 1 < ‖μ‖ := by
    have h2 : (‖μ0‖₊ : ENNReal) ≤ spectralRadius ℂ L :=
      le_iSup₂ (f := fun (k : ℂ) (_ : k ∈ spectrum ℂ L) => (‖k‖₊ : ENNReal)) μ0 ((Dynamics.mem_spectrum_iff _ _).mpr ⟨v0, hv0, hv0'⟩)
    rw [← e] at h2
    have h3 : ‖μ0‖₊ ≤ ‖μ‖₊ := by exact_mod_cast h2
    have h4 : ‖μ0‖ ≤ ‖μ‖ := h3
    linarith
  obtain ⟨V', hV', hVμ'⟩ := (Dynamics.mem_spectrum_iff _ _).mp hm
  -- an eigenvector of norm one
  obtain ⟨V, hV1, hVμ⟩ : ∃ V : Fin nf → Data dims.prod, ‖V‖ = 1 ∧ L V = μ • V := by
    refine ⟨((‖V'‖⁻¹ : ℝ) : ℂ) • V', ?_, ?_⟩
    · rw [norm_smul, Complex.norm_real, norm_inv, norm_norm, inv_mul_cancel₀ (norm_ne_zero_iff.mpr hV')]
    · rw [map_smul, hVμ', smul_comm]
  have hpow : ∀ n : ℕ, (L ^ n) V = μ ^ n • V := by
    intro n
    induction n with
    | zero => simp
    | succ n ih =>
      have : (L ^ (n + 1)) V = L ((L ^ n) V) := by rw [pow_succ']; rfl
      rw [this, ih, map_smul, hVμ, smul_smul, pow_succ]
  set A : Fin nf → Data dims.prod := fun j x => ((V j x).re : ℂ) with hA
  set B : Fin nf → Data dims.prod := fun j x => ((V j x).im : ℂ) with hB
  have hrealPow : ∀ (n : ℕ) (w : Fin nf → Data dims.prod), (∀ i, IsReal (w i)) → ∀ i, IsReal ((L ^ n) w i) := by
    intro n
    induction n with
    | zero => intro w hw i; simpa using hw i
    | succ n ih =>
      intro w hw i
      have : (L ^ (n + 1)) w = L ((L ^ n) w) := by rw [pow_succ']; rfl
      rw [this]
      exact fderiv_real hCD hζ hreal (ih w hw) i
  have hAr : ∀ i, IsReal (A i) := fun i x => Complex.ofReal_im _
  have hBr : ∀ i, IsReal (B i) := fun i x => Complex.ofReal_im _
  have hsplit : V = A + Complex.I • B := by
    funext j x
    simp only [hA, hB, Pi.add_apply, Pi.smul_apply, smul_eq_mul]
    rw [mul_comm]
    exact (Complex.re_add_im _).symm
  have hparts : ∀ n : ℕ, μ ^ n • V = (L ^ n) A + Complex.I • (L ^ n) B := by
    intro n
    rw [← hpow n]
    conv_lhs => rw [hsplit]
    rw [map_add, map_smul]
  have hnormV : ∀ n : ℕ, ‖μ ^ n • V‖ = ‖μ‖ ^ n := by
    intro n
    rw [norm_smul, norm_pow, hV1, mul_one]
  have hpos : ∀ n : ℕ, (0 : ℝ) ≤ ‖μ‖ ^ n := fun n => by positivity
  have hre : ∀ n i x, ‖(L ^ n) A i x‖ ≤ ‖(μ ^ n • V) i x‖ ∧ ‖(L ^ n) B i x‖ ≤ ‖(μ ^ n • V) i x‖ := by
    intro n i x
    have a1 := hrealPow n A hAr i x
    have b1 := hrealPow n B hBr i x
    have e1 : (μ ^ n • V) i x = (L ^ n) A i x + Complex.I * (L ^ n) B i x := by rw [hparts n]; rfl
    have e2 : (L ^ n) A i x = (((μ ^ n • V) i x).re : ℂ) := by
      rw [e1]
      apply Complex.ext
      · rw [Complex.ofReal_re, Complex.add_re, Complex.I_mul_re, b1, neg_zero, add_zero]
      · rw [Complex.ofReal_im, a1]
    have e3 : (L ^ n) B i x = (((μ ^ n • V) i x).im : ℂ) := by
      rw [e1]
      apply Complex.ext
      · rw [Complex.ofReal_re, Complex.add_im, Complex.I_mul_im, a1, zero_add]
      · rw [Complex.ofReal_im, b1]
    constructor
    · rw [e2, Complex.norm_real]
      exact Complex.abs_re_le_norm _
    · rw [e3, Complex.norm_real]
      exact Complex.abs_im_le_norm _
  have hle : ∀ n, ‖(L ^ n) A‖ ≤ ‖μ‖ ^ n ∧ ‖(L ^ n) B‖ ≤ ‖μ‖ ^ n := by
    intro n
    have hb : ∀ i x, ‖(μ ^ n • V) i x‖ ≤ ‖μ‖ ^ n := fun i x => by
      rw [← hnormV n]
      exact (norm_le_pi_norm _ x).trans (norm_le_pi_norm (μ ^ n • V) i)
    exact ⟨(pi_norm_le_iff_of_nonneg (hpos n)).mpr fun i => (pi_norm_le_iff_of_nonneg (hpos n)).mpr fun x =>
      ((hre n i x).1).trans (hb i x), (pi_norm_le_iff_of_nonneg (hpos n)).mpr fun i =>
      (pi_norm_le_iff_of_nonneg (hpos n)).mpr fun x => ((hre n i x).2).trans (hb i x)⟩
  obtain ⟨ρ, hρ, hgo⟩ := Dynamics.repels hz hCD h1 (by
      rw [← hL, ← e, ← enorm_eq_nnnorm, ← ofReal_norm_eq_enorm]) {A, B} (c := 1 / 2) (by norm_num)
    (by
      rintro v (rfl | rfl) j
      · exact (hle j).1
      · exact (hle j).2)
    (by
      intro n
      have h2 : ‖μ‖ ^ n ≤ ‖(L ^ n) A‖ + ‖(L ^ n) B‖ := by
        rw [← hnormV n, hparts n]
        refine (norm_add_le _ _).trans ?_
        rw [norm_smul, Complex.norm_I, one_mul]
      by_cases hc : 1 / 2 * ‖μ‖ ^ n ≤ ‖(L ^ n) A‖
      · exact ⟨A, Or.inl rfl, hc⟩
      · refine ⟨B, Or.inr rfl, ?_⟩
        push Not at hc
        linarith)
  refine ⟨ρ, hρ, fun δ hδ => ?_⟩
  obtain ⟨v, hv, t, ht0, htδ, m, hm'⟩ := hgo δ hδ
  have hvn : ‖v‖ ≤ 1 := by
    rcases hv with rfl | rfl
    · simpa using (hle 0).1
    · simpa using (hle 0).2
  have hvr : ∀ i, IsReal (v i) := by
    rcases hv with rfl | rfl
    · exact hAr
    · exact hBr
  refine ⟨(t : ℂ) • v, fun i x => ?_, fun i x => ?_, ?_⟩
  · have := hvr i x
    simp [this]
  · have h2 : ‖v i x‖ ≤ 1 := ((norm_le_pi_norm _ x).trans (norm_le_pi_norm v i)).trans hvn
    have h3 : ‖((t : ℂ) • v) i x‖ = t * ‖v i x‖ := by
      simp only [Pi.smul_apply, smul_eq_mul, norm_mul, Complex.norm_real, Real.norm_eq_abs, abs_of_pos ht0]
    rw [h3]
    have := mul_le_mul_of_nonneg_left h2 ht0.le
    linarith
  · by_contra hc
    push Not at hc
    have e2 : (z + (t : ℂ) • v) = fun j x => ζ j + ((t : ℂ) • v) j x := rfl
    rw [e2] at hm'
    have h3 := (pi_norm_lt_iff hρ).mpr fun i => (pi_norm_lt_iff hρ).mpr fun x => hc m i x
    exact absurd hm' (not_le.mpr h3)

end

section
variable (h : ∀ d ∈ dims, 0 < d) {T : StepTerms dims nf} {F : (Fin nf → Data dims.prod) → Fin nf → Data dims.prod}
  (hF : ∀ y, Follows T y (F y)) {ζ : Fin nf → ℂ} (hz : F (fun j _ => ζ j) = fun j _ => ζ j)
include h hF hz

theorem fderiv_waves (w : Fin nf → Data dims.prod) (k : Fin dims.prod) :
    WaveFollows T ζ k (fun j => fft dims (w j) k) (fun j => fft dims (fderiv ℂ F (fun j _ => ζ j) w j) k) := by
  intro i
  have e := fderiv_step hF hz w i
  have e1 : ∀ v w : Data dims.prod, fft dims (v + w) k = fft dims v k + fft dims w k := fun v w => fft_add v w k
  have e2 := congrFun (congrArg (fft dims) e) k
  rw [e1, fft_list_sum, List.map_map] at e2
  refine e2.trans ?_
  congr 2
  apply List.map_congr_left
  intro t _
  simp only [Function.comp_apply]
  rw [fft_multiplier h, fft_slope]
  congr 2
  funext j
  cases t.2.2 with
  | false => rfl
  | true =>
    simp only [cond_true, earlier]
    split_ifs <;> rfl

theorem eigen_wave {μ : ℂ} {w : Fin nf → Data dims.prod} (hw : w ≠ 0) (hμ : fderiv ℂ F (fun j _ => ζ j) w = μ • w) :
    ∃ k, ∃ a : Fin nf → ℂ, a ≠ 0 ∧ WaveFollows T ζ k a (μ • a) := by
  obtain ⟨j, hj⟩ := Function.ne_iff.mp hw
  have hne : fft dims (w j) ≠ 0 := by
    intro h0
    refine hj (fft_injective h ?_)
    rw [h0]
    funext k
    exact (fft_null k).symm
  obtain ⟨k, hk⟩ := Function.ne_iff.mp hne
  refine ⟨k, fun j => fft dims (w j) k, fun h0 => hk (congrFun h0 j), ?_⟩
  have := fderiv_waves h hF hz w k
  rw [hμ] at this
  convert this using 1
  funext j
  exact (fft_smul μ (w j) k).symm

theorem wave_eigen {μ : ℂ} {k : Fin dims.prod} {a : Fin nf → ℂ} (ha : a ≠ 0) (hμ : WaveFollows T ζ k a (μ • a)) :
    ∃ w : Fin nf → Data dims.prod, w ≠ 0 ∧ fderiv ℂ F (fun j _ => ζ j) w = μ • w := by
  have hex : ∀ j, ∃ v : Data dims.prod, fft dims v = Pi.single k (a j) := by
    intro j
    have := fft_surjective h (Pi.single k (a j))
    exact ⟨_, this⟩
  choose w hw using hex
  refine ⟨w, ?_, ?_⟩
  · intro h0
    refine ha (funext fun j => ?_)
    have h1 := congrFun (hw j) k
    rw [h0] at h1
    rw [Pi.single_eq_same] at h1
    rw [← h1]
    exact fft_null k
  · have hwave : ∀ k', WaveFollows T ζ k' (fun j => fft dims (w j) k') (fun j => fft dims ((μ • w) j) k') := by
      intro k'
      have e : (fun j => fft dims ((μ • w) j) k') = μ • fun j => fft dims (w j) k' := by
        funext j
        exact fft_smul μ (w j) k'
      rw [e]
      by_cases hk : k' = k
      · subst hk
        have e2 : (fun j => fft dims (w j) k') = a := by
          funext j
          rw [hw j, Pi.single_eq_same]
        rw [e2]
        exact hμ
      · have e2 : (fun j => fft dims (w j) k') = 0 := by
          funext j
          rw [hw j, Pi.single_eq_of_ne hk]
          rfl
        rw [e2, smul_zero]
        intro i
        have hs : ∀ l : List (Fin nf × ℕ), monoSlope l ζ (0 : Fin nf → ℂ) = 0 := by
          intro l
          induction l with
          | nil => rfl
          | cons f l ih => simp [monoSlope, ih]
        have he : earlier i (0 : Fin nf → ℂ) 0 = 0 := by
          funext j
          unfold earlier
          split_ifs <;> rfl
        rw [Pi.zero_apply, zero_add]
        symm
        apply List.sum_eq_zero
        intro v hv
        obtain ⟨t, -, rfl⟩ := List.mem_map.mp hv
        cases t.2.2 with
        | false => simp only [cond_false]; rw [hs, mul_zero]
        | true => simp only [cond_true]; rw [he, hs, mul_zero]
    funext j
    apply fft_injective h
    funext k'
    exact congrFun (waveFollows_unique (fderiv_waves h hF hz w k') (hwave k')) j

/-- If all amplitudes that are multiplied by a number are multiplied by one less than one in modulus, the state attracts. -/
theorem system_attracts (hμ : ∀ k (a : Fin nf → ℂ) (μ : ℂ), a ≠ 0 → WaveFollows T ζ k a (μ • a) → ‖μ‖ < 1) :
    ∃ δ C q : ℝ, 0 < δ ∧ q < 1 ∧ 0 ≤ q ∧ ∀ y, (∀ i x, ‖y i x - ζ i‖ < δ) → ∀ n i x, ‖F^[n] y i x - ζ i‖ ≤ C * q ^ n := by
  refine smooth_attracts h (contDiff_step hF) hz fun w μ hw hw' => ?_
  obtain ⟨k, a, ha, hk⟩ := eigen_wave h hF hz hw hw'
  exact hμ k a μ ha hk

/-- If some amplitudes are multiplied by a number larger than one in modulus, real perturbations leave the state. -/
theorem system_repels (hζ : ∀ j, (ζ j).im = 0) (hreal : ∀ y, (∀ i, IsReal (y i)) → ∀ i, IsReal (F y i))
    (hμ : ∃ (k : _) (a : Fin nf → ℂ) (μ : ℂ), a ≠ 0 ∧ WaveFollows T ζ k a (μ • a) ∧ 1 < ‖μ‖) :
    ∃ ρ : ℝ, 0 < ρ ∧ ∀ δ : ℝ, 0 < δ → ∃ v : Fin nf → Data dims.prod, (∀ i, IsReal (v i)) ∧ (∀ i x, ‖v i x‖ < δ) ∧
      ∃ n i x, ρ ≤ ‖F^[n] (fun j x => ζ j + v j x) i x - ζ i‖ := by
  obtain ⟨k, a, μ, ha, hw, hb⟩ := hμ
  obtain ⟨w, hw0, hw'⟩ := wave_eigen h hF hz ha hw
  exact smooth_repels (contDiff_step hF) hz hζ hreal ⟨w, μ, hw0, hw', hb⟩

end

/-! ### The step that the text spells -/

/-- The place of a name. -/
noncomputable def placeOf (fields : List Str) (i : Fin fields.length) (x : Str) : Fin fields.length :=
  if hx : fields.idxOf x < fields.length then ⟨_, hx⟩ else i

theorem placeOf_get {fields : List Str} (i : Fin fields.length) {x : Str} (hx : x ∈ fields) :
    fields[placeOf fields i x] = x := by
  have e : placeOf fields i x = ⟨fields.idxOf x, List.idxOf_lt_length_iff.mpr hx⟩ := dif_pos _
  simp [e]

/-- The factors, with places instead of names. -/
noncomputable def factorsAt (fields : List Str) (i : Fin fields.length) (fs : List Factor) : List (Fin fields.length × ℕ) :=
  fs.map fun f => (placeOf fields i f.name, f.power.num.toNat)

theorem factors_value {fields : List Str} (i : Fin fields.length) {fs : List Factor} (hfs : ∀ f ∈ fs, f.name ∈ fields)
    (hnat : ∀ f ∈ fs, ∃ q : ℕ, f.power = q) (z : Str → ℂ) (ζ : Fin fields.length → ℂ) (hz : ∀ j : Fin fields.length, z fields[j] = ζ j) :
    (fs.map fun f => z f.name ^ ((f.power : ℚ) : ℂ)).prod = ((factorsAt fields i fs).map fun g => ζ g.1 ^ g.2).prod := by
  unfold factorsAt
  rw [List.map_map]
  congr 1
  apply List.map_congr_left
  intro f hf
  obtain ⟨q, hq⟩ := hnat f hf
  simp only [Function.comp_apply]
  rw [← hz, placeOf_get i (hfs f hf), hq]
  simp

theorem factors_slope {fields : List Str} (i : Fin fields.length) {fs : List Factor} (hfs : ∀ f ∈ fs, f.name ∈ fields)
    (hnat : ∀ f ∈ fs, ∃ q : ℕ, f.power = q) (z w : Str → ℂ) (ζ a : Fin fields.length → ℂ)
    (hz : ∀ j : Fin fields.length, z fields[j] = ζ j) (hw : ∀ j : Fin fields.length, w fields[j] = a j) :
    productSlope fs z w = monoSlope (factorsAt fields i fs) ζ a := by
  unfold productSlope
  have e : (fun t : ℂ => (fs.map fun f => (z f.name + t * w f.name) ^ ((f.power : ℚ) : ℂ)).prod) =
      fun t : ℂ => ((factorsAt fields i fs).map fun g => (ζ g.1 + t * a g.1) ^ g.2).prod := by
    funext t
    exact factors_value i hfs hnat (fun x => z x + t * w x) (fun j => ζ j + t * a j) fun j => by rw [hz, hw]
  rw [e]
  have hd := hasDerivAt_slope (factorsAt fields i fs) (g := fun j t => ζ j + t * a j) (a := a) (fun j => by
    simpa using ((hasDerivAt_id (0 : ℂ)).mul_const (a j)).const_add (ζ j))
  rw [hd.deriv]
  congr 1
  funext j
  rw [zero_mul, add_zero]

open Classical in
/-- The terms of the step. -/
noncomputable def systemTerms (fields : List Str) (N : Names) (c : Str → ℂ) (freq : Frequency dims.prod) (dt : ℝ)
    (E : Fin fields.length → Equation) : StepTerms dims fields.length := fun i =>
  (E i).terms.map fun p : List Item × Option Char =>
    (fun k => dt * (coefficient N c p * laplaceSymbol (freq k) ^ (laplacians p.1).sum) / (1 - dt * implicitRate N c freq (E i) k),
      factorsAt fields i (factorsIn N.varying p.1), decide (BareField N p))

/-- What is known of the equations and their order. -/
structure Ordered (N : Names) (eqs : List Equation) (fields : List Str) (E : Fin fields.length → Equation) : Prop where
  names : fields = N.fields
  functions : N.functions = []
  nodup : fields.Nodup
  length : eqs.length = fields.length
  get : ∀ i, eqs[i.val]? = some (E i)
  field : ∀ i, (E i).field = fields[i]
  whole : ∀ i, ∀ p ∈ (E i).terms, ∀ g ∈ factorsIn N.varying p.1, ∃ q : ℕ, g.power = q

theorem Ordered.mem {N : Names} {eqs : List Equation} {fields : List Str} {E : Fin fields.length → Equation}
    (hE : Ordered N eqs fields E) (i : Fin fields.length) : E i ∈ eqs := List.mem_of_getElem? (hE.get i)

theorem Ordered.factor {N : Names} {eqs : List Equation} {fields : List Str} {E : Fin fields.length → Equation}
    (hE : Ordered N eqs fields E) (l : List Item) : ∀ g ∈ factorsIn N.varying l, g.name ∈ fields := by
  intro g hg
  have := (List.mem_filter.mp hg).2
  simp only [decide_eq_true_eq, Names.varying, hE.functions, List.append_nil] at this
  rw [hE.names]
  exact this

open Classical in
theorem text_system (h : ∀ d ∈ dims, 0 < d) (N : Names) (hN : N.WellNamed) (hfn : N.functions = [])
    (m0 : EqModel dims.prod) (h0 : StartsAs N m0) (heq : m0.equations = [])
    (eqs : List Equation) (hq : ∀ eq ∈ eqs, eq.Polynomial N ∧ Unregistered m0 eq)
    (hnat : ∀ eq ∈ eqs, ∀ p ∈ eq.terms, ∀ g ∈ factorsIn N.varying p.1, ∃ q : ℕ, g.power = q)
    (ss : List Str) (hs : ss.map (fun s => s.filter fun c => c ≠ ' ') = eqs.map Equation.text)
    (hord : eqs.map Equation.field = N.fields) (c : Str → ℂ) :
    ∃ m M, ss.foldlM EqModel.addEquation m0 = some m ∧ m.fields = N.fields ∧ m.assemble c = some M ∧
      ∃ E : Fin m.fields.length → Equation, Ordered N eqs m.fields E ∧
      ∀ s : Stepper dims.prod, s.filter = none → (∀ eq ∈ eqs, ∀ k, 1 - s.dt * implicitRate N c s.freq eq k ≠ 0) →
      ∀ st : Store m.fields.length m.derived.length dims.prod,
        Follows (systemTerms m.fields N c s.freq s.dt E) st.fields (eulerStep M (s, st)).2.fields := by
  have hder : m0.derived = [] := by
    have := h0.functions
    rw [hfn] at this
    exact List.map_eq_nil_iff.mp this
  obtain ⟨m, M, h1, h2, h3, h4⟩ := c132_step h N hN m0 h0 heq (by rw [hder]; simp) eqs hq ss hs
    (by rw [← hord, List.length_map]) c
  have hall := hN.nodup
  simp only [Names.all, Names.varying] at hall
  have hnd : m.fields.Nodup := by
    rw [h2]
    exact (List.nodup_append.mp (List.nodup_append.mp hall).1).1
  have hdis : ∀ x ∈ N.scalars, x ∉ m.fields := by
    intro x hx hx'
    rw [h2] at hx'
    exact (List.nodup_append.mp hall).2.2 x (by simp [hx']) x hx rfl
  have hlen : eqs.length = m.fields.length := by rw [h2, ← hord, List.length_map]
  have hE : Ordered N eqs m.fields fun i => eqs[i.val]'(by rw [hlen]; exact i.2) :=
    ⟨h2, hfn, hnd, hlen, fun i => List.getElem?_eq_getElem _, fun i => by
      simp only [Fin.getElem_fin, h2, ← hord, List.getElem_map], fun i => hnat _ (List.getElem_mem _)⟩
  refine ⟨m, M, h1, h2, h3, _, hE, ?_⟩
  generalize (fun i : Fin m.fields.length => eqs[i.val]'(by rw [hlen]; exact i.2)) = E at hE
  intro s hfil hne st i
  set a := (eulerStep M (s, st)).2.fields with ha
  set U : (Fin m.fields.length → Data dims.prod) → Str → Data dims.prod :=
    fun y x => if x ∈ m.fields then placed m.fields y x else fun _ => c x with hU
  have hUf : ∀ y (j : Fin m.fields.length), U y m.fields[j] = y j := by
    intro y j
    simp only [hU]
    have hj : m.fields[j] ∈ m.fields := List.getElem_mem _
    rw [if_pos hj, placed_get hnd]
  have hUs : ∀ y, ∀ x ∈ N.scalars, U y x = fun _ => c x := by
    intro y x hx
    simp only [hU]
    rw [if_neg (hdis x hx)]
  apply fft_injective h
  funext k
  have e1 : ∀ v w : Data dims.prod, fft dims (v + w) k = fft dims v k + fft dims w k := fun v w => fft_add v w k
  rw [e1, fft_list_sum, List.map_map]
  have key := h4 i (E i) (hE.get i) (hE.field i) s st (U st.fields) (U (earlier i a st.fields)) (hUf _) (hUs _)
    (by rw [hder]; simp) (fun j => by rw [hUf]; rfl) k
  rw [implicit_eq N c _ (hUs _), hfil, fft_seen h N c _ _ (hUs _)] at key
  have hD := hne (E i) (hE.mem i) k
  have key := key hD
  rw [← ha] at key
  simp only [waveGain, Option.elim, Complex.ofReal_one, one_mul] at key
  have hsum : (List.map ((fun v => fft dims v k) ∘ fun t : Data dims.prod × List (Fin m.fields.length × ℕ) × Bool =>
      multiplier dims t.1 (fieldMono t.2.1 (bif t.2.2 then earlier i a st.fields else st.fields)))
      (systemTerms m.fields N c s.freq s.dt E i)).sum =
      s.dt / (1 - s.dt * implicitRate N c s.freq (E i) k) *
        ((E i).terms.map (seenSpectrum N (fft dims) (U st.fields) (U (earlier i a st.fields)) s.freq k)).sum := by
    unfold systemTerms
    rw [List.map_map, ← List.sum_map_mul_left]
    congr 1
    apply List.map_congr_left
    intro p hp
    simp only [Function.comp_apply]
    rw [fft_multiplier h, seenSpectrum, prod_map_pow]
    have e2 : ((factorsIn N.scalars p.1).map fun f => U st.fields f.name k ^ ((f.power : ℚ) : ℂ)) =
        (factorsIn N.scalars p.1).map fun f => c f.name ^ ((f.power : ℚ) : ℂ) := by
      apply List.map_congr_left
      intro f hf
      have : f.name ∈ N.scalars := by
        simp only [factorsIn, List.mem_filter, decide_eq_true_eq] at hf; exact hf.2
      rw [hUs _ f.name this]
    have e3 : ∀ y, fieldMono (factorsAt m.fields i (factorsIn N.varying p.1)) y =
        productValue (factorsIn N.varying p.1) (U y) := by
      intro y
      funext x
      exact (factors_value i (hE.factor p.1) (hE.whole i p hp) (fun f => U y f x) (fun j => y j x)
        fun j => by rw [hUf]).symm
    have e4 : fieldMono (factorsAt m.fields i (factorsIn N.varying p.1))
        (bif decide (BareField N p) then earlier i a st.fields else st.fields) =
        productValue (factorsIn N.varying p.1) (if BareField N p then U (earlier i a st.fields) else U st.fields) := by
      rw [e3]
      congr 1
      by_cases hb : BareField N p
      · simp only [hb, decide_true, cond_true, if_true]
      · simp only [hb, decide_false, cond_false, if_false]
    rw [e2, e4, coefficient]
    ring
  rw [hsum]
  field_simp
  linear_combination key

section
variable {N : Names} {eqs : List Equation} {fields : List Str} {E : Fin fields.length → Equation}
  (hE : Ordered N eqs fields E)
include hE

open Classical in
/-- The multipliers of the specification are those of the step. -/
theorem wave_iff (c : Str → ℂ) (freq : Frequency dims.prod) (dt : ℝ)
    (hne : ∀ eq ∈ eqs, ∀ k, 1 - dt * implicitRate N c freq eq k ≠ 0) (z w : Str → ℂ) (k : Fin dims.prod) (μ : ℂ) :
    WaveFollows (systemTerms fields N c freq dt E) (fun j => z fields[j]) k (fun j => w fields[j])
      (μ • fun j : Fin fields.length => w fields[j]) ↔ ∀ (i : ℕ) (hi : i < eqs.length),
      (1 - dt * implicitRate N c freq eqs[i] k) * ((μ - 1) * w eqs[i].field) =
      dt * linearSeen N c freq eqs[i] z k w (fun f => if N.fields.idxOf f < i then μ * w f else w f) := by
  have hidx : ∀ j : Fin fields.length, N.fields.idxOf fields[j] = j.val := by
    intro j
    rw [← hE.names]
    exact hE.nodup.idxOf_getElem j.val j.2
  have one : ∀ i : Fin fields.length, ((μ • fun j : Fin fields.length => w fields[j]) i = w fields[i] +
      ((systemTerms fields N c freq dt E i).map fun t => t.1 k * monoSlope t.2.1 (fun j => z fields[j])
        (bif t.2.2 then earlier i (μ • fun j : Fin fields.length => w fields[j]) (fun j => w fields[j]) else fun j => w fields[j])).sum ↔
      (1 - dt * implicitRate N c freq (E i) k) * ((μ - 1) * w (E i).field) =
      dt * linearSeen N c freq (E i) z k w (fun f => if N.fields.idxOf f < i then μ * w f else w f)) := by
    intro i
    have hD := hne (E i) (hE.mem i) k
    have hsum : ((systemTerms fields N c freq dt E i).map fun t => t.1 k * monoSlope t.2.1 (fun j => z fields[j])
        (bif t.2.2 then earlier i (μ • fun j : Fin fields.length => w fields[j]) (fun j => w fields[j]) else fun j => w fields[j])).sum =
        dt / (1 - dt * implicitRate N c freq (E i) k) *
        linearSeen N c freq (E i) z k w (fun f => if N.fields.idxOf f < i then μ * w f else w f) := by
      unfold systemTerms linearSeen
      rw [List.map_map, ← List.sum_map_mul_left]
      congr 1
      apply List.map_congr_left
      intro p hp
      simp only [Function.comp_apply]
      rw [factors_slope i (hE.factor p.1) (hE.whole i p hp) z _ (fun j => z fields[j])
        (bif decide (BareField N p) then earlier i (μ • fun j : Fin fields.length => w fields[j]) (fun j => w fields[j])
          else fun j => w fields[j]) (fun j => rfl) (by
        intro j
        by_cases hb : BareField N p
        · simp only [hb, decide_true, cond_true, if_true, earlier, hidx, Fin.lt_def]
          rfl
        · simp only [hb, decide_false, cond_false, if_false])]
      ring
    rw [hsum, hE.field i, Pi.smul_apply, smul_eq_mul]
    constructor
    · intro e
      field_simp at e
      linear_combination e
    · intro e
      field_simp
      linear_combination e
  constructor
  · intro hw i hi
    have hi' : i < fields.length := by rw [← hE.length]; exact hi
    have e : eqs[i] = E ⟨i, hi'⟩ := by
      have := hE.get ⟨i, hi'⟩
      rw [List.getElem?_eq_getElem hi] at this
      exact Option.some.inj this
    rw [e]
    exact (one ⟨i, hi'⟩).mp (hw ⟨i, hi'⟩)
  · intro hw i
    have hi : i.val < eqs.length := by rw [hE.length]; exact i.2
    have e : eqs[i.val] = E i := by
      have := hE.get i
      rw [List.getElem?_eq_getElem hi] at this
      exact Option.some.inj this
    have := hw i.val hi
    rw [e] at this
    exact (one i).mpr this

theorem multiplier_iff (c : Str → ℂ) (freq : Frequency dims.prod) (dt : ℝ)
    (hne : ∀ eq ∈ eqs, ∀ k, 1 - dt * implicitRate N c freq eq k ≠ 0) (z : Str → ℂ) (k : Fin dims.prod) (μ : ℂ) :
    IsMultiplier N c freq dt eqs z k μ ↔ ∃ a : Fin fields.length → ℂ, a ≠ 0 ∧
      WaveFollows (systemTerms fields N c freq dt E) (fun j => z fields[j]) k a (μ • a) := by
  constructor
  · rintro ⟨w, ⟨f, hf, hwf⟩, hw⟩
    refine ⟨fun j => w fields[j], ?_, (wave_iff hE c freq dt hne z w k μ).mpr hw⟩
    intro h0
    rw [← hE.names] at hf
    obtain ⟨j, hj, rfl⟩ := List.getElem_of_mem hf
    exact hwf (congrFun h0 ⟨j, hj⟩)
  · rintro ⟨a, ha, hw⟩
    obtain ⟨j, hj⟩ := Function.ne_iff.mp ha
    set w : Str → ℂ := fun x => if hx : fields.idxOf x < fields.length then a ⟨_, hx⟩ else 0 with hwdef
    have hget : ∀ j : Fin fields.length, w fields[j] = a j := by
      intro j
      have hidx : fields.idxOf fields[j] = j.val := hE.nodup.idxOf_getElem j.val j.2
      simp only [hwdef]
      rw [dif_pos (by rw [hidx]; exact j.2)]
      congr 1
      exact Fin.ext hidx
    have e : a = fun j => w fields[j] := funext fun j => (hget j).symm
    refine ⟨w, ⟨fields[j], by rw [← hE.names]; exact List.getElem_mem _, by rw [hget]; exact hj⟩, ?_⟩
    rw [e] at hw
    exact (wave_iff hE c freq dt hne z w k μ).mp hw

/-- A uniform state rests if its rates of change vanish. -/
theorem uniform_follows (h : GoodDims (intDims dims)) (c : Str → ℂ) (dt : ℝ) {z : Str → ℂ}
    (hz : ∀ eq ∈ eqs, uniformSystemRate N c eq z = 0) :
    Follows (systemTerms fields N c (freqOf dims) dt E) (fun j _ => z fields[j]) (fun j _ => z fields[j]) := by
  have hp := pos_of_goodDims h
  intro i
  have he : earlier i (fun j _ => z fields[j]) (fun j _ => z fields[j]) = (fun j _ => z fields[j] : Fin fields.length → Data dims.prod) := by
    funext j
    unfold earlier
    exact ite_self _
  simp only [he, Bool.cond_self]
  have hsum : ((systemTerms fields N c (freqOf dims) dt E i).map fun t =>
      multiplier dims t.1 (fieldMono t.2.1 fun j _ => z fields[j])).sum = 0 := by
    apply fft_injective hp
    funext k
    have e0 : fft dims (0 : Data dims.prod) k = 0 := fft_null k
    rw [fft_list_sum, List.map_map, e0]
    unfold systemTerms
    rw [List.map_map]
    have ht : ∀ p ∈ (E i).terms, fft dims (multiplier dims (fun k => dt * (coefficient N c p *
        laplaceSymbol (freqOf dims k) ^ (laplacians p.1).sum) / (1 - dt * implicitRate N c (freqOf dims) (E i) k))
        (fieldMono (factorsAt fields i (factorsIn N.varying p.1)) fun j _ => z fields[j])) k =
        (if k.val = 0 then dt / (1 - dt * implicitRate N c (freqOf dims) (E i) k) * (dims.prod : ℂ) else 0) *
        if (laplacians p.1).sum = 0 then
          coefficient N c p * ((factorsIn N.varying p.1).map fun f => z f.name ^ ((f.power : ℚ) : ℂ)).prod else 0 := by
      intro p hp'
      have e2 : fieldMono (factorsAt fields i (factorsIn N.varying p.1)) (fun j _ => z fields[j]) = fun _ : Fin dims.prod =>
          ((factorsIn N.varying p.1).map fun f => z f.name ^ ((f.power : ℚ) : ℂ)).prod := by
        funext x
        exact (factors_value i (hE.factor p.1) (hE.whole i p hp') z (fun j => z fields[j]) fun j => rfl).symm
      rw [fft_multiplier hp, e2, fft_const hp]
      by_cases hk : k.val = 0
      · rw [if_pos hk, if_pos hk, symbol_origin h k hk, zero_pow_eq]
        split_ifs
        · ring
        · ring
      · rw [if_neg hk, if_neg hk, mul_zero, zero_mul]
    have e3 := congrArg List.sum (List.map_congr_left ht)
    refine Eq.trans ?_ (e3.trans ?_)
    · rfl
    · rw [List.sum_map_mul_left]
      have := hz (E i) (hE.mem i)
      unfold uniformSystemRate at this
      rw [this, mul_zero]
  rw [hsum, add_zero]

end

theorem propagate_fields {nf nd : ℕ} {M : Model nf nd dims.prod} {T : StepTerms dims nf} (s : Stepper dims.prod)
    (hT : ∀ s' : Stepper dims.prod, s'.dt = s.dt → s'.freq = s.freq → s'.filter = s.filter →
      ∀ st : Store nf nd dims.prod, Follows T st.fields (eulerStep M (s', st)).2.fields)
    {F : (Fin nf → Data dims.prod) → Fin nf → Data dims.prod} (hF : ∀ y, Follows T y (F y))
    (st : Store nf nd dims.prod) (steps : ℕ) : (eulerPropagate M steps (s, st)).2.fields = F^[steps] st.fields := by
  have keep : (eulerPropagate M steps (s, st)).1.dt = s.dt ∧ (eulerPropagate M steps (s, st)).1.freq = s.freq ∧
      (eulerPropagate M steps (s, st)).1.filter = s.filter ∧
      (eulerPropagate M steps (s, st)).2.fields = F^[steps] st.fields := by
    induction steps with
    | zero => simp [eulerPropagate]
    | succ j ih =>
      have e : eulerPropagate M (j + 1) (s, st) = eulerStep M (eulerPropagate M j (s, st)) := by
        simp [eulerPropagate, List.range_succ]
      rw [e, Function.iterate_succ_apply']
      generalize eulerPropagate M j (s, st) = p at ih
      obtain ⟨p1, p2⟩ := p
      obtain ⟨q1, q2, q3, q4⟩ := ih
      refine ⟨q1, q2, q3, ?_⟩
      dsimp only at q1 q2 q3 q4
      rw [← q4]
      exact follows_unique (hT p1 q1 q2 q3 p2) (hF _)
  exact keep.2.2.2

/-! ### The claims -/

/-- C161: if every multiplier of every wave is smaller than one in modulus, fields that start close enough to the uniform
state converge to it exponentially. -/
theorem c161_stable (h : GoodDims (intDims dims)) (N : Names) (hN : N.WellNamed) (hfn : N.functions = [])
    (m0 : EqModel dims.prod) (h0 : StartsAs N m0) (heq : m0.equations = [])
    (eqs : List Equation) (hq : ∀ eq ∈ eqs, eq.Polynomial N ∧ Unregistered m0 eq)
    (hnat : ∀ eq ∈ eqs, ∀ p ∈ eq.terms, ∀ g ∈ factorsIn N.varying p.1, ∃ q : ℕ, g.power = q)
    (ss : List Str) (hs : ss.map (fun s => s.filter fun c => c ≠ ' ') = eqs.map Equation.text)
    (hord : eqs.map Equation.field = N.fields) (c : Str → ℂ) :
    ∃ m M, ss.foldlM EqModel.addEquation m0 = some m ∧ m.fields = N.fields ∧ m.assemble c = some M ∧
      ∀ z : Str → ℂ, (∀ eq ∈ eqs, uniformSystemRate N c eq z = 0) →
      ∀ s : Stepper dims.prod, s.filter = none → s.freq = freqOf dims →
      (∀ eq ∈ eqs, ∀ k, 1 - s.dt * implicitRate N c (freqOf dims) eq k ≠ 0) →
      (∀ k μ, IsMultiplier N c (freqOf dims) s.dt eqs z k μ → ‖μ‖ < 1) →
      ∃ δ C q : ℝ, 0 < δ ∧ q < 1 ∧ 0 ≤ q ∧ ∀ st : Store m.fields.length m.derived.length dims.prod,
        (∀ i x, ‖st.fields i x - z m.fields[i]‖ < δ) → ∀ steps i x,
          ‖(eulerPropagate M steps (s, st)).2.fields i x - z m.fields[i]‖ ≤ C * q ^ steps := by
  obtain ⟨m, M, h1, h2, h3, E, hE, h4⟩ := text_system (pos_of_goodDims h) N hN hfn m0 h0 heq eqs hq hnat ss hs hord c
  refine ⟨m, M, h1, h2, h3, ?_⟩
  intro z hz s hfil hfreq hne hμ
  have hT : ∀ s' : Stepper dims.prod, s'.dt = s.dt → s'.freq = s.freq → s'.filter = s.filter →
      ∀ st : Store m.fields.length m.derived.length dims.prod,
      Follows (systemTerms m.fields N c (freqOf dims) s.dt E) st.fields (eulerStep M (s', st)).2.fields := by
    intro s' a1 a2 a3 st
    have := h4 s' (a3.trans hfil) (by rw [a1, a2, hfreq]; exact hne) st
    rwa [a1, a2, hfreq] at this
  set F : (Fin m.fields.length → Data dims.prod) → Fin m.fields.length → Data dims.prod :=
    fun y => (eulerStep M (s, ⟨y, fun _ => 0⟩)).2.fields with hFdef
  have hF : ∀ y, Follows (systemTerms m.fields N c (freqOf dims) s.dt E) y (F y) := fun y => hT s rfl rfl rfl ⟨y, fun _ => 0⟩
  have hFz : F (fun j _ => z m.fields[j]) = fun j _ => z m.fields[j] :=
    follows_unique (hF _) (uniform_follows hE h c s.dt hz)
  obtain ⟨δ, C, q, b1, b2, b3, b4⟩ := system_attracts (pos_of_goodDims h) hF hFz (fun k a μ ha hw =>
    hμ k μ ((multiplier_iff hE c (freqOf dims) s.dt hne z k μ).mpr ⟨a, ha, hw⟩))
  refine ⟨δ, C, q, b1, b2, b3, fun st hst steps i x => ?_⟩
  rw [propagate_fields s hT hF]
  exact b4 st.fields hst steps i x

/-- C161: if some multiplier of some wave is larger than one in modulus, arbitrarily small real perturbations of the state
leave a fixed neighbourhood of it. -/
theorem c161_leaves (h : GoodDims (intDims dims)) (hl : LayoutOk dims) (N : Names) (hN : N.WellNamed) (hfn : N.functions = [])
    (m0 : EqModel dims.prod) (h0 : StartsAs N m0) (heq : m0.equations = [])
    (eqs : List Equation) (hq : ∀ eq ∈ eqs, eq.Polynomial N ∧ Unregistered m0 eq)
    (hnat : ∀ eq ∈ eqs, ∀ p ∈ eq.terms, ∀ g ∈ factorsIn N.varying p.1, ∃ q : ℕ, g.power = q)
    (ss : List Str) (hs : ss.map (fun s => s.filter fun c => c ≠ ' ') = eqs.map Equation.text)
    (hord : eqs.map Equation.field = N.fields) (c : Str → ℂ) (hc : ∀ x ∈ N.scalars, (c x).im = 0)
    (hpow : ∀ eq ∈ eqs, Equation.RealPowers N c eq) :
    ∃ m M, ss.foldlM EqModel.addEquation m0 = some m ∧ m.fields = N.fields ∧ m.assemble c = some M ∧
      ∀ z : Str → ℂ, (∀ eq ∈ eqs, uniformSystemRate N c eq z = 0) → (∀ f ∈ N.fields, (z f).im = 0) →
      ∀ s : Stepper dims.prod, s.filter = none → s.freq = freqOf dims →
      (∀ eq ∈ eqs, ∀ k, 1 - s.dt * implicitRate N c (freqOf dims) eq k ≠ 0) →
      (∃ k μ, IsMultiplier N c (freqOf dims) s.dt eqs z k μ ∧ 1 < ‖μ‖) →
      ∃ ρ : ℝ, 0 < ρ ∧ ∀ δ : ℝ, 0 < δ → ∃ v : Fin m.fields.length → Data dims.prod,
        (∀ i, IsReal (v i)) ∧ (∀ i x, ‖v i x‖ < δ) ∧ ∀ st : Store m.fields.length m.derived.length dims.prod,
        (∀ i x, st.fields i x = z m.fields[i] + v i x) →
        ∃ steps i x, ρ ≤ ‖(eulerPropagate M steps (s, st)).2.fields i x - z m.fields[i]‖ := by
  have hder : m0.derived = [] := by
    have := h0.functions
    rw [hfn] at this
    exact List.map_eq_nil_iff.mp this
  obtain ⟨m, M, h1, h2, h3, E, hE, h4⟩ := text_system (pos_of_goodDims h) N hN hfn m0 h0 heq eqs hq hnat ss hs hord c
  obtain ⟨m', M', h1', -, h3', hrr, -⟩ := text_realRates h N hN m0 h0 heq (by rw [hder]; simp) eqs hq
    (by rw [← hord, List.length_map]) ss hs c hc hpow
  rw [h1] at h1'
  obtain rfl := Option.some.inj h1'
  rw [h3] at h3'
  obtain rfl := Option.some.inj h3'
  refine ⟨m, M, h1, h2, h3, ?_⟩
  intro z hz hzr s hfil hfreq hne ⟨k, μ, hk, hμ⟩
  have hT : ∀ s' : Stepper dims.prod, s'.dt = s.dt → s'.freq = s.freq → s'.filter = s.filter →
      ∀ st : Store m.fields.length m.derived.length dims.prod,
      Follows (systemTerms m.fields N c (freqOf dims) s.dt E) st.fields (eulerStep M (s', st)).2.fields := by
    intro s' a1 a2 a3 st
    have := h4 s' (a3.trans hfil) (by rw [a1, a2, hfreq]; exact hne) st
    rwa [a1, a2, hfreq] at this
  set F : (Fin m.fields.length → Data dims.prod) → Fin m.fields.length → Data dims.prod :=
    fun y => (eulerStep M (s, ⟨y, fun _ => 0⟩)).2.fields with hFdef
  have hF : ∀ y, Follows (systemTerms m.fields N c (freqOf dims) s.dt E) y (F y) := fun y => hT s rfl rfl rfl ⟨y, fun _ => 0⟩
  have hFz : F (fun j _ => z m.fields[j]) = fun j _ => z m.fields[j] :=
    follows_unique (hF _) (uniform_follows hE h c s.dt hz)
  obtain ⟨a, ha, hw⟩ := (multiplier_iff hE c (freqOf dims) s.dt hne z k μ).mp hk
  obtain ⟨ρ, hρ, hgo⟩ := system_repels (pos_of_goodDims h) hF hFz
    (fun j => hzr _ (by rw [← h2]; exact List.getElem_mem _))
    (fun y hy i => c117_euler h hl hrr s hfreq ⟨y, fun _ => 0⟩ hy i) ⟨k, a, μ, ha, hw, hμ⟩
  refine ⟨ρ, hρ, fun δ hδ => ?_⟩
  obtain ⟨v, v1, v2, steps, i, x, hx⟩ := hgo δ hδ
  refine ⟨v, v1, v2, fun st hst => ⟨steps, i, x, ?_⟩⟩
  rw [propagate_fields s hT hF]
  have e : st.fields = fun j x => z m.fields[j] + v j x := funext fun j => funext fun x => hst j x
  rw [e]
  exact hx

end Gopf.Props
