import Verif.Model.PfcPhases
import Verif.Props.PairCorr
import Verif.Props.Kks
import Verif.Props.Nucleation
import Verif.Props.FileIO
import Verif.Props.Rotate

/-!
# C140: the example program for phase field crystals
-/

namespace Gopf.Props
open Spec Pf Pfutil Pfc
open scoped BigOperators Topology
open Filter

variable {n : ℕ} {dims : List ℕ}

/-! ### The equation of the program -/

/-- The model of the program before the equation is added. -/
noncomputable def pfcBare (p : PfcParams) (n : ℕ) : EqModel n :=
  { fields := ["density".toList]
    derived := [("IDEAL".toList, .function fun b => idealMixEval p.ideal 1 (b "density".toList)),
      (idealMixName "density".toList, .function fun b => idealMixDerivedField p.ideal (b "density".toList))]
    brickNames := ["density".toList, "IDEAL".toList, idealMixName "density".toList]
    implicitTerms := [("EXCESS".toList, fun _ => pairCorrTerm p.corr 1 true)]
    explicitTerms := []
    mixedTerms := [("IDEAL".toList, idealMixTerms "density".toList 1 true)]
    equations := [] }

theorem pfc_registered (p : PfcParams) (n : ℕ) : pfcModel p n = some (pfcBare p n) := by
  unfold pfcModel EqModel.registerImplicit EqModel.registerMixed
  rw [(c98_accepted "EXCESS".toList).mpr (by decide), (c98_accepted "IDEAL".toList).mpr (by decide)]
  rfl

/-- The model after the equation was added. -/
noncomputable def pfcFull (p : PfcParams) (n : ℕ) : EqModel n :=
  { pfcBare p n with equations := ["ddensity/dt=IDEAL+EXCESS".toList] }

theorem pfc_split : splitOnMany "IDEAL+EXCESS".toList ['+', '-'] =
    some [⟨"IDEAL".toList, none⟩, ⟨"EXCESS".toList, some '+'⟩] := by decide +kernel

theorem pfc_sides : goSplit '=' "ddensity/dt=IDEAL+EXCESS".toList = ["ddensity/dt".toList, "IDEAL+EXCESS".toList] := by
  decide +kernel

theorem pfc_field : fieldNameFromLeibniz "ddensity/dt".toList = some "density".toList := by decide +kernel

theorem pfc_added (p : PfcParams) (n : ℕ) : (pfcBare p n).addEquation pfcEquation = some (pfcFull p n) := by
  unfold EqModel.addEquation
  have e : pfcEquation.filter (fun c => c ≠ ' ') = "ddensity/dt=IDEAL+EXCESS".toList := by decide +kernel
  rw [e]
  unfold EqModel.updateDerivedFields
  dsimp only
  rw [pfc_sides]
  dsimp only
  rw [pfc_split, pfc_field]
  rfl

theorem pfc_built (p : PfcParams) (n : ℕ) : (pfcFull p n).initRHS =
    some [⟨[fun b => constructFunc ((idealMixTerms "density".toList 1 true).2 b) [[]]],
      [fun b => constructFunc ((idealMixTerms "density".toList 1 true).1 b) [[]],
       fun _ => constructFunc (pairCorrTerm p.corr 1 true) [['+']]]⟩] := by
  obtain ⟨a1, a2⟩ := read_operators "IDEAL".toList ((c98_accepted _).mpr (by decide)) (by decide) [] (by simp)
  obtain ⟨b1, b2⟩ := read_operators "EXCESS".toList ((c98_accepted _).mpr (by decide)) (by decide) [] (by simp)
  simp only [List.flatten_nil, List.nil_append] at a1 a2 b1 b2
  have hb : Pf.build "ddensity/dt=IDEAL+EXCESS".toList (pfcFull p n) =
    some ⟨[fun b => constructFunc ((idealMixTerms "density".toList 1 true).2 b) [[]]],
      [fun b => constructFunc ((idealMixTerms "density".toList 1 true).1 b) [[]],
       fun _ => constructFunc (pairCorrTerm p.corr 1 true) [['+']]]⟩ := by
    unfold Pf.build
    rw [pfc_sides]
    dsimp only
    rw [pfc_split, pfc_field]
    show ([⟨"IDEAL".toList, none⟩, ⟨"EXCESS".toList, some '+'⟩] : List SubDelim).foldlM
      (buildTerm (pfcFull p n) "density".toList) ⟨[], []⟩ = _
    have h1 : buildTerm (pfcFull p n) "density".toList ⟨[], []⟩ ⟨"IDEAL".toList, none⟩ =
        some ⟨[fun b => constructFunc ((idealMixTerms "density".toList 1 true).2 b) [[]]],
          [fun b => constructFunc ((idealMixTerms "density".toList 1 true).1 b) [[]]]⟩ := by
      unfold buildTerm
      dsimp only
      rw [a1, a2]
      rfl
    rw [List.foldlM_cons, h1]
    show ([⟨"EXCESS".toList, some '+'⟩] : List SubDelim).foldlM (buildTerm (pfcFull p n) "density".toList) _ = _
    rw [List.foldlM_cons]
    have h2 : ∀ rhs, buildTerm (pfcFull p n) "density".toList rhs ⟨"EXCESS".toList, some '+'⟩ =
        some { rhs with denum := rhs.denum ++ [fun _ => constructFunc (pairCorrTerm p.corr 1 true) [['+']]] } := by
      intro rhs
      unfold buildTerm
      dsimp only
      rw [b1, b2]
      rfl
    rw [h2]
    rfl
  unfold EqModel.initRHS
  show ["ddensity/dt=IDEAL+EXCESS".toList].mapM (fun eq => Pf.build eq (pfcFull p n)) = _
  rw [List.mapM_cons, hb]
  rfl

/-- The non-linear part of the derivative of the ideal mixing energy. -/
noncomputable def pfcForce (im : IdealMix) (t : ℝ) : ℝ := -im.C3 / 2 * t ^ 2 + im.C4 / 3 * t ^ 3

/-- What the steppers see. -/
noncomputable def pfcSeen (p : PfcParams) (n : ℕ) (c : Str → ℂ) :
    Model (pfcFull p n).fields.length (pfcFull p n).derived.length n :=
  { calcs := fun d st => ((pfcFull p n).derived[d]).2.eval ((pfcFull p n).brick c st)
    terms := fun _ => [fun st => constructFunc ((idealMixTerms "density".toList 1 true).2 ((pfcFull p n).brick c st)) [[]]]
    denum := fun _ => [fun st => constructFunc ((idealMixTerms "density".toList 1 true).1 ((pfcFull p n).brick c st)) [[]],
      fun _ => constructFunc (pairCorrTerm p.corr 1 true) [['+']]]
    sources := fun _ => []
    modifiers := [] }

theorem pfc_assembled (p : PfcParams) (n : ℕ) (c : Str → ℂ) : (pfcFull p n).assemble c = some (pfcSeen p n c) := by
  unfold EqModel.assemble
  rw [pfc_built]
  dsimp only
  have hle : (pfcFull p n).fields.length ≤ 1 := le_refl 1
  refine (dif_pos hle).trans ?_
  unfold pfcSeen
  congr 2
  · funext i
    have : i = ⟨0, Nat.one_pos⟩ := Fin.ext (by have : i.val < 1 := i.2; simp; omega)
    subst this
    rfl
  · funext i
    have : i = ⟨0, Nat.one_pos⟩ := Fin.ext (by have : i.val < 1 := i.2; simp; omega)
    subst this
    rfl

theorem pfc_brick (p : PfcParams) (n : ℕ) (c : Str → ℂ) (st : Store (pfcFull p n).fields.length (pfcFull p n).derived.length n) :
    (∀ i, (pfcFull p n).brick c st "density".toList = st.fields i) ∧
    (pfcFull p n).brick c st (idealMixName "density".toList) = st.derived ⟨1, Nat.one_lt_two⟩ := by
  constructor
  · intro i
    have hi : i = ⟨0, Nat.one_pos⟩ := Fin.ext (by have : i.val < 1 := i.2; simp; omega)
    subst hi
    have e : (pfcFull p n).fields.idxOf "density".toList = 0 := by
      show ["density".toList].idxOf "density".toList = 0
      decide +kernel
    unfold EqModel.brick
    rw [dif_pos (by rw [e]; exact Nat.one_pos)]
    congr 1
  · have e1 : ¬ (pfcFull p n).fields.idxOf (idealMixName "density".toList) < (pfcFull p n).fields.length := by
      show ¬ ["density".toList].idxOf (idealMixName "density".toList) < 1
      decide +kernel
    have e2 : ((pfcFull p n).derived.map Prod.fst).idxOf (idealMixName "density".toList) = 1 := by
      show ["IDEAL".toList, idealMixName "density".toList].idxOf (idealMixName "density".toList) = 1
      decide +kernel
    unfold EqModel.brick
    rw [dif_neg e1, dif_pos (by rw [e2]; exact Nat.one_lt_two)]
    congr 1

theorem pfc_model (p : PfcParams) (c : Str → ℂ) :
    FieldsOnly (pfcSeen p dims.prod c) ∧
      (∀ i st freq t k, (pfcSeen p dims.prod c).getDenum i st freq t k = laplaceSymbol (freq k) *
        ((1 - p.corr (2 * Real.pi * Real.sqrt (dotR (freq k) (freq k))) : ℝ) : ℂ)) ∧
      ∀ i st freq t k, (pfcSeen p dims.prod c).getRHS i (sddFft (pfcSeen p dims.prod c) st) freq t k = laplaceSymbol (freq k) *
        fft dims (fun x => (pfcForce p.ideal (st.fields i x).re : ℂ)) k := by
  have hd : FieldsOnly (pfcSeen p dims.prod c) := by
    intro d st st' hst
    have e : (pfcFull p dims.prod).brick c st "density".toList = (pfcFull p dims.prod).brick c st' "density".toList := by
      rw [(pfc_brick p dims.prod c st).1 ⟨0, Nat.one_pos⟩, (pfc_brick p dims.prod c st').1 ⟨0, Nat.one_pos⟩, hst]
    match d with
    | ⟨0, _⟩ =>
      show idealMixEval p.ideal 1 ((pfcFull p dims.prod).brick c st "density".toList) =
        idealMixEval p.ideal 1 ((pfcFull p dims.prod).brick c st' "density".toList)
      rw [e]
    | ⟨1, _⟩ =>
      show idealMixDerivedField p.ideal ((pfcFull p dims.prod).brick c st "density".toList) =
        idealMixDerivedField p.ideal ((pfcFull p dims.prod).brick c st' "density".toList)
      rw [e]
  refine ⟨hd, ?_, ?_⟩
  · intro i st freq t k
    have e := lapFactor_eq (freq k) 1
    rw [pow_one] at e
    rw [c21_denum, ← e]
    show lapEval 1 freq (fun _ => ((1 : ℝ) : ℂ)) k +
      (lapEval 1 freq (fun i => -(((1 * p.corr (2 * Real.pi * Real.sqrt (dotR (freq i) (freq i))) : ℝ)) : ℂ)) k + 0) = _
    unfold lapEval
    push_cast
    ring
  · intro i st freq t k
    have e := lapFactor_eq (freq k) 1
    rw [pow_one] at e
    have hst : sddFft (pfcSeen p dims.prod c) st =
        ⟨fun j => fft dims (st.fields j), fun d => fft dims ((pfcSeen p dims.prod c).calcs d st)⟩ := by
      unfold sddFft
      rw [sync_eq hd]
      rfl
    rw [c21_rhs, ← e]
    show lapEval 1 freq ((pfcFull p dims.prod).brick c (sddFft (pfcSeen p dims.prod c) st) (idealMixName "density".toList)) k + 0 + 0 = _
    rw [(pfc_brick p dims.prod c _).2, hst]
    show lapEval 1 freq (fft dims (idealMixDerivedField p.ideal ((pfcFull p dims.prod).brick c st "density".toList))) k + 0 + 0 = _
    rw [(pfc_brick p dims.prod c st).1 i]
    unfold lapEval
    rw [add_zero, add_zero, mul_comm]
    congr 2
    funext x
    unfold idealMixDerivedField pfcForce IdealMix.thirdOrderPrefactor IdealMix.fourthOrderPrefactor
    push_cast
    ring

/-! ### Gradient flows whose linear part is treated implicitly -/

/-- The energy of a gradient flow: a density and the cost of the waves. -/
noncomputable def flowEnergy (W : ℝ → ℝ) (g : Fin dims.prod → ℝ) (u : Data dims.prod) : ℝ :=
  ∑ x, W (u x).re + (∑ k, g k * ‖fft dims u k‖ ^ 2) / (2 * (dims.prod : ℕ))

/-- `v` is the step of size `dt` from `u`. -/
def FlowStep (W' : ℝ → ℝ) (mob g : Fin dims.prod → ℝ) (dt : ℝ) (u v : Data dims.prod) : Prop :=
  ∀ k, fft dims v k - fft dims u k =
    -((dt * mob k : ℝ) : ℂ) * (fft dims (fun x => (W' (u x).re : ℂ)) k + g k * fft dims v k)

theorem flow_small (hpos : ∀ d ∈ dims, 0 < d) {W W' W'' : ℝ → ℝ} (h1 : ∀ t, HasDerivAt W (W' t) t)
    (h2 : ∀ t, HasDerivAt W' (W'' t) t) (h3 : Continuous W'') (mob g : Fin dims.prod → ℝ) (hm : ∀ k, 0 ≤ mob k)
    (hg : ∀ k, 0 ≤ g k) (R : ℝ) :
    ∃ dt0 : ℝ, 0 < dt0 ∧ ∀ dt, 0 < dt → dt ≤ dt0 → ∀ u v : Data dims.prod, IsReal u → IsReal v → (∀ x, |(u x).re| ≤ R) →
      FlowStep W' mob g dt u v → flowEnergy W g v + squares (v - u) ≤ flowEnergy W g u := by
  have cf : Continuous W' := continuous_iff_continuousAt.mpr fun t => (h2 t).continuousAt
  obtain ⟨B, hB⟩ := (isCompact_Icc (a := -R) (b := R)).exists_bound_of_continuousOn cf.continuousOn
  obtain ⟨K, hK⟩ := (isCompact_Icc (a := -(R + 1)) (b := R + 1)).exists_bound_of_continuousOn h3.continuousOn
  set P : ℝ := ((dims.prod : ℕ) : ℝ) with hP
  have hP0 : 0 ≤ P := Nat.cast_nonneg _
  set C : ℝ := ∑ k, mob k * (P * |B| + g k * (P * |R|)) with hC
  set S : ℝ := ∑ k, mob k * (2 + |K|) with hS
  have hC0 : 0 ≤ C := Finset.sum_nonneg fun k _ => mul_nonneg (hm k) (by have := hg k; positivity)
  have hS0 : 0 ≤ S := Finset.sum_nonneg fun k _ => mul_nonneg (hm k) (by positivity)
  refine ⟨min (1 / (C + 1)) (1 / (S + 1)), lt_min (by positivity) (by positivity), ?_⟩
  intro dt hdt hle u v hu hv hR hstep
  have d1 : dt * C ≤ 1 := by
    have := hle.trans (min_le_left _ _)
    rw [le_div_iff₀ (by positivity)] at this
    nlinarith
  have d2 : dt * S ≤ 1 := by
    have := hle.trans (min_le_right _ _)
    rw [le_div_iff₀ (by positivity)] at this
    nlinarith
  have hux : ∀ x, ‖u x‖ ≤ |R| := by
    intro x
    have : u x = ((u x).re : ℂ) := Complex.ext (by simp) (by simp [hu x])
    rw [this, Complex.norm_real, Real.norm_eq_abs]
    exact (hR x).trans (le_abs_self R)
  have hwx : ∀ x, ‖(W' (u x).re : ℂ)‖ ≤ |B| := by
    intro x
    rw [Complex.norm_real]
    exact (hB _ (abs_le.mp (hR x))).trans (le_abs_self B)
  have hD : ∀ k, ‖fft dims (v - u) k‖ ≤ dt * (mob k * (P * |B| + g k * (P * |R|))) := by
    intro k
    have e := hstep k
    have e' : fft dims (v - u) k = fft dims v k - fft dims u k := by
      simp only [fft, Pi.sub_apply, sub_mul, Finset.sum_sub_distrib]
    have e2 : fft dims (v - u) k * ((1 + dt * (mob k * g k) : ℝ) : ℂ) =
        -((dt * mob k : ℝ) : ℂ) * (fft dims (fun x => (W' (u x).re : ℂ)) k + g k * fft dims u k) := by
      rw [e']
      push_cast at e ⊢
      linear_combination e
    have e3 := congrArg norm e2
    have hpg : 0 ≤ dt * (mob k * g k) := mul_nonneg hdt.le (mul_nonneg (hm k) (hg k))
    rw [norm_mul, norm_mul, norm_neg, Complex.norm_real, Complex.norm_real, Real.norm_eq_abs, Real.norm_eq_abs,
      abs_of_nonneg (mul_nonneg hdt.le (hm k)), abs_of_nonneg (by linarith)] at e3
    have l2 : ‖fft dims (fun x => (W' (u x).re : ℂ)) k + g k * fft dims u k‖ ≤ P * |B| + g k * (P * |R|) := by
      refine (norm_add_le _ _).trans (add_le_add (fft_norm_le _ hwx k) ?_)
      rw [norm_mul, Complex.norm_real, Real.norm_eq_abs, abs_of_nonneg (hg k)]
      exact mul_le_mul_of_nonneg_left (fft_norm_le _ hux k) (hg k)
    have l3 := mul_le_mul_of_nonneg_left l2 (mul_nonneg hdt.le (hm k))
    have l4 := mul_nonneg (norm_nonneg (fft dims (v - u) k)) hpg
    linarith
  have hd : ∀ x, ‖(v - u) x‖ ≤ 1 := by
    intro x
    refine (norm_le_spectrum hpos (v - u) x).trans (le_trans (Finset.sum_le_sum fun k _ => hD k) ?_)
    rw [← Finset.mul_sum]
    exact d1
  have hre : ∀ x, |(v x).re - (u x).re| ≤ 1 := by
    intro x
    have := (Complex.abs_re_le_norm ((v - u) x)).trans (hd x)
    simpa using this
  have := energy_core hpos hu hv (W := W) (W' := W') (K := |K|) (ε := 1) hdt.le mob g hm
    (fun x => tangent_le h1 h2 (lo := -(R + 1)) (hi := R + 1) (fun t ht => ((le_abs_self _).trans (hK t ht)).trans (le_abs_self K))
      (by have := abs_le.mp (hR x); constructor <;> linarith)
      (by have h1 := abs_le.mp (hR x); have h2 := abs_le.mp (hre x); constructor <;> linarith)) hstep
    (fun k => by
      have h4 : mob k * (2 + |K|) ≤ S :=
        Finset.single_le_sum (f := fun k => mob k * (2 + |K|)) (fun k _ => mul_nonneg (hm k) (by positivity)) (Finset.mem_univ k)
      have h5 := mul_le_mul_of_nonneg_left h4 hdt.le
      have h6 := mul_nonneg (mul_nonneg hdt.le (hm k)) (hg k)
      linarith)
  unfold flowEnergy
  linarith

/-- All steps of a gradient flow whose energy confines the field. -/
theorem flow_rest (hpos : ∀ d ∈ dims, 0 < d) {W W' W'' : ℝ → ℝ} (h1 : ∀ t, HasDerivAt W (W' t) t)
    (h2 : ∀ t, HasDerivAt W' (W'' t) t) (h3 : Continuous W'') (mob g : Fin dims.prod → ℝ) (hm : ∀ k, 0 ≤ mob k)
    (hg : ∀ k, 0 ≤ g k) (hconf : ∀ E, ∃ R, ∀ u : Data dims.prod, IsReal u → flowEnergy W g u ≤ E → ∀ x, |(u x).re| ≤ R) (E : ℝ) :
    ∃ dt0 R : ℝ, 0 < dt0 ∧ ∀ dt, 0 < dt → dt ≤ dt0 → ∀ U : ℕ → Data dims.prod, (∀ j, IsReal (U j)) →
      (∀ j, FlowStep W' mob g dt (U j) (U (j + 1))) → flowEnergy W g (U 0) ≤ E →
      (∀ j x, |(U j x).re| ≤ R) ∧ Antitone (fun j => flowEnergy W g (U j)) ∧
      ∀ k, Tendsto (fun j => (mob k : ℂ) * (fft dims (fun x => (W' (U j x).re : ℂ)) k + g k * fft dims (U j) k)) atTop (𝓝 0) := by
  obtain ⟨R, hR⟩ := hconf E
  obtain ⟨dt0, h0, hsmall⟩ := flow_small hpos h1 h2 h3 mob g hm hg R
  refine ⟨dt0, R, h0, ?_⟩
  intro dt hdt hle U hreal hstep hE
  have key : ∀ j, flowEnergy W g (U j) ≤ E ∧
      flowEnergy W g (U (j + 1)) + squares (U (j + 1) - U j) ≤ flowEnergy W g (U j) := by
    intro j
    induction j with
    | zero => exact ⟨hE, hsmall dt hdt hle _ _ (hreal 0) (hreal 1) (hR _ (hreal 0) hE) (hstep 0)⟩
    | succ j ih =>
      have hsq : 0 ≤ squares (U (j + 1) - U j) := Finset.sum_nonneg fun _ _ => by positivity
      have b' : flowEnergy W g (U (j + 1)) ≤ E := by linarith [ih.1, ih.2]
      exact ⟨b', hsmall dt hdt hle _ _ (hreal _) (hreal _) (hR _ (hreal _) b') (hstep _)⟩
  have hb : ∀ j x, |(U j x).re| ≤ R := fun j => hR _ (hreal j) (key j).1
  have hanti : Antitone fun j => flowEnergy W g (U j) := by
    refine antitone_nat_of_succ_le fun j => ?_
    have hsq : 0 ≤ squares (U (j + 1) - U j) := Finset.sum_nonneg fun _ _ => by positivity
    linarith [(key j).2]
  refine ⟨hb, hanti, ?_⟩
  have hbdd : ∃ L, ∀ j, L ≤ flowEnergy W g (U j) := by
    have cW : Continuous W := continuous_iff_continuousAt.mpr fun t => (h1 t).continuousAt
    obtain ⟨B, hB⟩ := (isCompact_Icc (a := -R) (b := R)).exists_bound_of_continuousOn cW.continuousOn
    refine ⟨∑ _x : Fin dims.prod, -B, fun j => ?_⟩
    unfold flowEnergy
    have h5 : 0 ≤ (∑ k, g k * ‖fft dims (U j) k‖ ^ 2) / (2 * (dims.prod : ℕ)) :=
      div_nonneg (Finset.sum_nonneg fun k _ => mul_nonneg (hg k) (by positivity)) (by positivity)
    have h6 : ∑ _x : Fin dims.prod, -B ≤ ∑ x, W (U j x).re := Finset.sum_le_sum fun x _ => by
      have := hB _ (abs_le.mp (hb j x))
      rw [Real.norm_eq_abs] at this
      exact (abs_le.mp this).1
    linarith
  obtain ⟨L, hL⟩ := hbdd
  have hlim := tendsto_atTop_ciInf hanti ⟨L, by rintro _ ⟨j, rfl⟩; exact hL j⟩
  have hdiff : Tendsto (fun j => flowEnergy W g (U j) - flowEnergy W g (U (j + 1))) atTop (𝓝 0) := by
    have := hlim.sub (hlim.comp (tendsto_add_atTop_nat 1))
    rwa [sub_self] at this
  have hsq : Tendsto (fun j => squares (U (j + 1) - U j)) atTop (𝓝 0) :=
    squeeze_zero (fun j => Finset.sum_nonneg fun _ _ => by positivity) (fun j => by linarith [(key j).2]) hdiff
  intro k
  have hwave : Tendsto (fun j => ‖fft dims (U (j + 1) - U j) k‖) atTop (𝓝 0) := by
    have h4 : Tendsto (fun j => ‖fft dims (U (j + 1) - U j) k‖ ^ 2) atTop (𝓝 0) := by
      have h5 : Tendsto (fun j => (dims.prod : ℝ) * squares (U (j + 1) - U j)) atTop (𝓝 0) := by
        simpa using hsq.const_mul (dims.prod : ℝ)
      refine squeeze_zero (fun _ => by positivity) (fun j => ?_) h5
      have := squares_parseval hpos (U (j + 1) - U j)
      unfold squares
      rw [← this]
      exact Finset.single_le_sum (f := fun k => ‖fft dims (U (j + 1) - U j) k‖ ^ 2) (fun _ _ => by positivity) (Finset.mem_univ k)
    have := (Real.continuous_sqrt.tendsto 0).comp h4
    simp only [Real.sqrt_zero] at this
    refine this.congr fun j => ?_
    simp only [Function.comp_apply]
    exact Real.sqrt_sq (norm_nonneg _)
  have hw2 : Tendsto (fun j => fft dims (U (j + 1) - U j) k) atTop (𝓝 0) := tendsto_zero_iff_norm_tendsto_zero.mpr hwave
  have hw3 : Tendsto (fun j => fft dims (U (j + 1) - U j) k * (-(((1 + dt * (mob k * g k)) / dt : ℝ) : ℂ))) atTop (𝓝 0) := by
    simpa using hw2.mul_const (-(((1 + dt * (mob k * g k)) / dt : ℝ) : ℂ))
  refine hw3.congr fun j => ?_
  have e := hstep j k
  have e' : fft dims (U (j + 1) - U j) k = fft dims (U (j + 1)) k - fft dims (U j) k := by
    simp only [fft, Pi.sub_apply, sub_mul, Finset.sum_sub_distrib]
  have hdc : (dt : ℂ) ≠ 0 := by exact_mod_cast hdt.ne'
  rw [e']
  push_cast at e ⊢
  field_simp
  linear_combination -e

/-! ### Specification -/

/-- The field `u` with every wave multiplied by the value of `corr` at its wave number. -/
noncomputable def correlated (corr : ℝ → ℝ) (u : Data dims.prod) : Data dims.prod :=
  fun x => ifft dims (fun k => (corr (Real.sqrt (laplaceNumber dims k)) : ℂ) * fft dims u k) x / (dims.prod : ℂ)

/-- The functional derivative of the energy. -/
noncomputable def pfcPotential (p : PfcParams) (u : Data dims.prod) : Data dims.prod :=
  fun x => u x + (pfcForce p.ideal (u x).re : ℂ) - correlated p.corr u x

/-- The energy of a density. -/
noncomputable def pfcEnergy (p : PfcParams) (u : Data dims.prod) : ℝ :=
  ∑ x, ((u x).re ^ 2 / 2 - p.ideal.C3 / 6 * (u x).re ^ 3 + p.ideal.C4 / 12 * (u x).re ^ 4) -
    (∑ k, p.corr (Real.sqrt (laplaceNumber dims k)) * ‖fft dims u k‖ ^ 2) / (2 * (dims.prod : ℕ))

/-- Planes are counted and have a density. -/
def GoodPeaks (p : PfcParams) : Prop := ∀ q ∈ p.peaks, 0 < q.planeDensity ∧ 0 < q.numPlanes

/-! ### Proofs -/

theorem wave_number (k : Fin dims.prod) :
    2 * Real.pi * Real.sqrt (dotR (freqOf dims k) (freqOf dims k)) = Real.sqrt (laplaceNumber dims k) := by
  unfold laplaceNumber
  rw [← dotR_squares, Real.sqrt_mul (by positivity)]
  congr 1
  rw [show 4 * Real.pi ^ 2 = (2 * Real.pi) ^ 2 by ring, Real.sqrt_sq (by positivity)]

theorem fft_correlated (hpos : ∀ d ∈ dims, 0 < d) (corr : ℝ → ℝ) (u : Data dims.prod) (k : Fin dims.prod) :
    fft dims (correlated corr u) k = (corr (Real.sqrt (laplaceNumber dims k)) : ℂ) * fft dims u k :=
  congrFun (fft_surjective hpos fun k => (corr (Real.sqrt (laplaceNumber dims k)) : ℂ) * fft dims u k) k

/-- The weights of the waves. -/
noncomputable def pfcWeight (p : PfcParams) (l : ℝ) : ℝ := 1 - p.corr (Real.sqrt l)

theorem weight_nonneg {p : PfcParams} (hp : GoodPeaks p) (l : ℝ) : 0 ≤ pfcWeight p l := by
  have := (c85_range p.effTemp p.peaks (Real.sqrt l) hp).2
  unfold pfcWeight PfcParams.corr
  linarith

theorem weight_le {p : PfcParams} (hp : GoodPeaks p) (l : ℝ) : pfcWeight p l ≤ 1 := by
  have := (c85_range p.effTemp p.peaks (Real.sqrt l) hp).1
  unfold pfcWeight PfcParams.corr
  linarith

theorem fft_potential (hpos : ∀ d ∈ dims, 0 < d) (p : PfcParams) (u : Data dims.prod) (F : Fin dims.prod → ℝ) (k : Fin dims.prod) :
    fft dims (fun x => u x + (F x : ℂ) - correlated p.corr u x) k =
      fft dims (fun x => (F x : ℂ)) k + (pfcWeight p (laplaceNumber dims k) : ℂ) * fft dims u k := by
  have e : (fun x => u x + (F x : ℂ) - correlated p.corr u x) = fun x => (u x + (F x : ℂ)) + (-1 : ℂ) * correlated p.corr u x := by
    funext x; ring
  rw [e, fft_add, fft_smul, fft_add, fft_correlated hpos]
  unfold pfcWeight
  push_cast
  ring

/-- A step in terms of waves. -/
theorem pfc_waves (hpos : ∀ d ∈ dims, 0 < d) {p : PfcParams} (hp : GoodPeaks p) (c : Str → ℂ)
    (s : Stepper dims.prod) (hs : s.filter = none) (hf : s.freq = freqOf dims) (hdt : 0 ≤ s.dt)
    (st : Store (pfcFull p dims.prod).fields.length (pfcFull p dims.prod).derived.length dims.prod)
    (i : Fin (pfcFull p dims.prod).fields.length) :
    FlowStep (pfcForce p.ideal) (laplaceNumber dims) (fun k => pfcWeight p (laplaceNumber dims k)) s.dt (st.fields i)
      ((eulerStep (pfcSeen p dims.prod c) (s, st)).2.fields i) := by
  intro k
  obtain ⟨hd, hden, hrhs⟩ := pfc_model (dims := dims) p c
  have hst : sddFft (pfcSeen p dims.prod c) st =
      ⟨fun j => fft dims (st.fields j), fun d => fft dims ((pfcSeen p dims.prod c).calcs d st)⟩ := by
    unfold sddFft
    rw [sync_eq hd]
    rfl
  have := c22_euler hpos (pfcSeen p dims.prod c) hd i (c22_single_equation (nd := (pfcFull p dims.prod).derived.length)
    (pfcSeen p dims.prod c) i) s hs st k
  dsimp only at this
  rw [hden, ← hst, hrhs, hf, wave_number, symbol_laplaceNumber] at this
  have hl := laplaceNumber_nonneg (dims := dims) k
  have hw := weight_nonneg hp (laplaceNumber dims k)
  have hne : (1 : ℂ) - s.dt * (-(laplaceNumber dims k : ℂ) * ((1 - p.corr (Real.sqrt (laplaceNumber dims k)) : ℝ) : ℂ)) ≠ 0 := by
    have h0 : (0 : ℝ) < 1 - s.dt * (-(laplaceNumber dims k) * pfcWeight p (laplaceNumber dims k)) := by
      have := mul_nonneg hdt (mul_nonneg hl hw)
      linarith
    exact_mod_cast h0.ne'
  rw [eq_div_iff hne] at this
  unfold pfcWeight
  push_cast at this ⊢
  linear_combination this

theorem pfc_real (h : GoodDims (intDims dims)) (hl : LayoutOk dims) {p : PfcParams} (hp : GoodPeaks p) {dt : ℝ} (hdt : 0 ≤ dt)
    {u v : Data dims.prod} (hu : IsReal u)
    (hstep : FlowStep (pfcForce p.ideal) (laplaceNumber dims) (fun k => pfcWeight p (laplaceNumber dims k)) dt u v) : IsReal v := by
  refine waves_real h hl hu (F := fun x => (pfcForce p.ideal (u x).re : ℂ)) (fun x => by simp) (fun l => dt * l) (pfcWeight p)
    (fun k => ?_) hstep
  have := mul_nonneg (mul_nonneg hdt (laplaceNumber_nonneg k)) (weight_nonneg hp (laplaceNumber dims k))
  linarith

/-- The polynomial part of the energy without its quadratic term. -/
noncomputable def pfcBulk (im : IdealMix) (t : ℝ) : ℝ := -im.C3 / 6 * t ^ 3 + im.C4 / 12 * t ^ 4

theorem pfc_deriv1 (im : IdealMix) (t : ℝ) : HasDerivAt (pfcBulk im) (pfcForce im t) t := by
  have := ((hasDerivAt_pow 3 t).const_mul (-im.C3 / 6)).add ((hasDerivAt_pow 4 t).const_mul (im.C4 / 12))
  refine this.congr_deriv ?_
  unfold pfcForce
  push_cast
  ring

theorem pfc_deriv2 (im : IdealMix) (t : ℝ) : HasDerivAt (pfcForce im) (-im.C3 * t + im.C4 * t ^ 2) t := by
  have := ((hasDerivAt_pow 2 t).const_mul (-im.C3 / 2)).add ((hasDerivAt_pow 3 t).const_mul (im.C4 / 3))
  refine this.congr_deriv ?_
  push_cast
  ring

theorem energy_flow (hpos : ∀ d ∈ dims, 0 < d) (p : PfcParams) {u : Data dims.prod} (hu : IsReal u) :
    pfcEnergy p u = flowEnergy (pfcBulk p.ideal) (fun k => pfcWeight p (laplaceNumber dims k)) u := by
  have h1 := squares_parseval hpos u
  have hP : (dims.prod : ℝ) ≠ 0 := by exact_mod_cast prod_ne_zero hpos
  have h2 : ∀ x, ‖u x‖ ^ 2 = (u x).re ^ 2 := by
    intro x
    have : u x = ((u x).re : ℂ) := Complex.ext (by simp) (by simp [hu x])
    conv_lhs => rw [this]
    rw [Complex.norm_real, Real.norm_eq_abs, sq_abs]
  simp only [h2] at h1
  unfold pfcEnergy flowEnergy pfcWeight pfcBulk
  have e1 : ∑ x, ((u x).re ^ 2 / 2 - p.ideal.C3 / 6 * (u x).re ^ 3 + p.ideal.C4 / 12 * (u x).re ^ 4) =
      (∑ x, (u x).re ^ 2) / 2 + ∑ x, (-p.ideal.C3 / 6 * (u x).re ^ 3 + p.ideal.C4 / 12 * (u x).re ^ 4) := by
    rw [Finset.sum_div, ← Finset.sum_add_distrib]
    exact Finset.sum_congr rfl fun x _ => by ring
  have e2 : ∑ k, (1 - p.corr (Real.sqrt (laplaceNumber dims k))) * ‖fft dims u k‖ ^ 2 =
      (dims.prod : ℝ) * ∑ x, (u x).re ^ 2 - ∑ k, p.corr (Real.sqrt (laplaceNumber dims k)) * ‖fft dims u k‖ ^ 2 := by
    rw [← h1, ← Finset.sum_sub_distrib]
    exact Finset.sum_congr rfl fun k _ => by ring
  rw [e1, e2]
  generalize ∑ x, (-p.ideal.C3 / 6 * (u x).re ^ 3 + p.ideal.C4 / 12 * (u x).re ^ 4) = A
  generalize ∑ k, p.corr (Real.sqrt (laplaceNumber dims k)) * ‖fft dims u k‖ ^ 2 = B
  field_simp
  ring

/-- C140: the number the program reports after every epoch is the energy per node. -/
theorem c140_observer (hpos : ∀ d ∈ dims, 0 < d) (p : PfcParams) {u : Data dims.prod} (hu : IsReal u) :
    pfcObserver dims p u = pfcEnergy p u / (dims.prod : ℕ) := by
  have hP : (dims.prod : ℝ) ≠ 0 := by exact_mod_cast prod_ne_zero hpos
  have h1 := real_parseval hpos (correlated p.corr u) u
  have e1 : ∀ k, (fft dims (correlated p.corr u) k * (starRingEnd ℂ) (fft dims u k)).re =
      p.corr (Real.sqrt (laplaceNumber dims k)) * ‖fft dims u k‖ ^ 2 := by
    intro k
    rw [fft_correlated hpos, mul_assoc, Complex.mul_conj, Complex.normSq_eq_norm_sq, Complex.re_ofReal_mul, Complex.ofReal_re]
  simp only [e1] at h1
  have e2 : pairCorrEnergy dims p.corr 1 u = -1 / 2 * ∑ x, (correlated p.corr u x * (starRingEnd ℂ) (u x)).re := by
    unfold pairCorrEnergy
    dsimp only
    rw [foldl_add_list, zero_add, ← Fin.sum_univ_def]
    congr 1
    refine Finset.sum_congr rfl fun x _ => ?_
    have : u x = ((u x).re : ℂ) := Complex.ext (by simp) (by simp [hu x])
    have e3 : (starRingEnd ℂ) (u x) = u x := by rw [this, Complex.conj_ofReal]
    rw [e3]
    simp only [divRealScalar, Complex.ofReal_natCast, wave_number, correlated, one_mul]
    simp only [mul_comm]
  have e4 : idealMixEnergy p.ideal 1 u =
      ∑ x, ((u x).re ^ 2 / 2 - p.ideal.C3 / 6 * (u x).re ^ 3 + p.ideal.C4 / 12 * (u x).re ^ 4) := by
    unfold idealMixEnergy
    rw [foldl_add_list, zero_add, ← Fin.sum_univ_def]
    refine Finset.sum_congr rfl fun x _ => ?_
    unfold IdealMix.eval IdealMix.quadraticPrefactor IdealMix.thirdOrderPrefactor IdealMix.fourthOrderPrefactor
    ring
  unfold pfcObserver pfcEnergy
  rw [e2, e4, h1]
  congr 1
  generalize ∑ x, (correlated p.corr u x * (starRingEnd ℂ) (u x)).re = B
  generalize ∑ x, ((u x).re ^ 2 / 2 - p.ideal.C3 / 6 * (u x).re ^ 3 + p.ideal.C4 / 12 * (u x).re ^ 4) = A
  field_simp
  ring

/-- C140: the potential is the derivative of the reported energy. -/
theorem c140_gradient (hpos : ∀ d ∈ dims, 0 < d) (p : PfcParams) (q v : Fin dims.prod → ℝ) :
    HasDerivAt (fun s : ℝ => pfcObserver dims p (fun x => ((q x + s * v x : ℝ) : ℂ)))
      ((∑ x, v x * (pfcPotential p (fun x => (q x : ℂ)) x).re) / (dims.prod : ℕ)) 0 := by
  have h1 := c72_gradient hpos p.corr 1 q v 0
  have h2 : HasDerivAt (fun s : ℝ => idealMixEnergy p.ideal 1 (fun x => ((q x + s * v x : ℝ) : ℂ)))
      (∑ x, v x * (q x + pfcForce p.ideal (q x))) 0 := by
    have e : (fun s : ℝ => idealMixEnergy p.ideal 1 (fun x => ((q x + s * v x : ℝ) : ℂ))) =
        fun s : ℝ => ∑ x, (1 / 2 * (q x + s * v x) ^ 2 + pfcBulk p.ideal (q x + s * v x)) := by
      funext s
      unfold idealMixEnergy
      rw [foldl_add_list, zero_add, ← Fin.sum_univ_def]
      refine Finset.sum_congr rfl fun x _ => ?_
      rw [Complex.ofReal_re]
      unfold IdealMix.eval IdealMix.quadraticPrefactor IdealMix.thirdOrderPrefactor IdealMix.fourthOrderPrefactor pfcBulk
      ring
    rw [e]
    refine HasDerivAt.fun_sum fun x _ => ?_
    have hl : HasDerivAt (fun s : ℝ => q x + s * v x) (v x) 0 := by
      have := ((hasDerivAt_id (0 : ℝ)).mul_const (v x)).const_add (q x)
      simpa using this
    have h3 := ((hl.pow 2).const_mul (1 / 2)).add ((pfc_deriv1 p.ideal (q x + 0 * v x)).comp (0 : ℝ) hl)
    refine h3.congr_deriv ?_
    simp
    ring
  refine ((h2.add h1).div_const ((dims.prod : ℕ) : ℝ)).congr_deriv ?_
  congr 1
  rw [← Finset.sum_add_distrib]
  refine Finset.sum_congr rfl fun x _ => ?_
  have e2 : (divRealScalar (ifft dims (explicitPairCorrTerm p.corr 1 false (fft dims (fun x => (q x : ℂ))) (freqOf dims) 0))
      (dims.prod : ℕ) x) = -correlated p.corr (fun x => (q x : ℂ)) x := by
    unfold correlated divRealScalar ifft
    rw [← neg_div, ← Finset.sum_neg_distrib, Complex.ofReal_natCast]
    congr 1
    refine Finset.sum_congr rfl fun k _ => ?_
    simp only [explicitPairCorrTerm, wave_number]
    simp
  rw [e2]
  unfold pfcPotential
  simp
  ring

/-- The program assembles its model. -/
theorem pfc_unique {p : PfcParams} {m0 m : EqModel dims.prod} (h0 : pfcModel p dims.prod = some m0)
    (h1 : m0.addEquation pfcEquation = some m) : m = pfcFull p dims.prod := by
  rw [pfc_registered] at h0
  obtain rfl := Option.some.inj h0
  rw [pfc_added] at h1
  exact (Option.some.inj h1).symm

/-- C140: the program assembles its model, for all parameters. -/
theorem c140_assembles (p : PfcParams) (c : Str → ℂ) : ∃ m0 m M, pfcModel p dims.prod = some m0 ∧
    m0.addEquation pfcEquation = some m ∧ m.fields = ["density".toList] ∧ m.assemble c = some M :=
  ⟨_, _, _, pfc_registered p _, pfc_added p _, rfl, pfc_assembled p _ c⟩

/-- C140: a step keeps a real density real and its sum, and leads to the only density that satisfies the semi-implicit
scheme for the conserved flow of the energy. -/
theorem c140_step (h : GoodDims (intDims dims)) (hl : LayoutOk dims) {p : PfcParams} (hp : GoodPeaks p) (c : Str → ℂ)
    {m0 m : EqModel dims.prod} (h0 : pfcModel p dims.prod = some m0) (h1 : m0.addEquation pfcEquation = some m)
    {M} (h2 : m.assemble c = some M) (s : Stepper dims.prod) (hs : s.filter = none) (hf : s.freq = freqOf dims)
    (hdt : 0 ≤ s.dt) (st : Store m.fields.length m.derived.length dims.prod) (i : Fin m.fields.length)
    (hu : IsReal (st.fields i)) :
    let u := st.fields i
    let v := (eulerStep M (s, st)).2.fields i
    let scheme : Data dims.prod → Prop := fun w => ∀ x, w x = u x + s.dt * gridLaplacian (freqOf dims)
      (fun y => w y + (pfcForce p.ideal (u y).re : ℂ) - correlated p.corr w y) x
    IsReal v ∧ ∑ x, v x = ∑ x, u x ∧ scheme v ∧ ∀ w, scheme w → w = v := by
  obtain rfl := pfc_unique h0 h1
  rw [pfc_assembled] at h2
  obtain rfl := Option.some.inj h2
  have hpos := pos_of_goodDims h
  intro u v scheme
  have hw := pfc_waves hpos hp c s hs hf hdt st i
  have hsch : ∀ w, scheme w ↔
      FlowStep (pfcForce p.ideal) (laplaceNumber dims) (fun k => pfcWeight p (laplaceNumber dims k)) s.dt u w := by
    intro w
    have e1 : scheme w ↔ fft dims w = fft dims fun x => u x + s.dt * gridLaplacian (freqOf dims)
      (fun y => w y + (pfcForce p.ideal (u y).re : ℂ) - correlated p.corr w y) x := by
      constructor
      · intro e; exact congrArg _ (funext e)
      · intro e; exact congrFun (fft_injective hpos e)
    rw [e1, funext_iff]
    refine forall_congr' fun k => ?_
    rw [fft_add, fft_smul]
    unfold gridLaplacian
    rw [fft_lap hpos, fft_potential hpos p w (fun y => pfcForce p.ideal (u y).re), symbol_laplaceNumber]
    push_cast
    constructor <;> intro e <;> linear_combination e
  refine ⟨pfc_real h hl hp hdt hu hw, ?_, (hsch v).mpr hw, ?_⟩
  · have hp0 : 0 < dims.prod := Nat.pos_of_ne_zero (by exact_mod_cast prod_ne_zero hpos)
    have := hw ⟨0, hp0⟩
    rw [fft_zero_bin _ _ rfl, fft_zero_bin _ _ rfl, laplace_origin h _ rfl] at this
    rw [mul_zero, Complex.ofReal_zero, neg_zero, zero_mul] at this
    exact sub_eq_zero.mp this
  · intro w e
    apply fft_injective hpos
    funext k
    have e1 := (hsch w).mp e k
    have e2 := hw k
    have h3 := mul_nonneg hdt (mul_nonneg (laplaceNumber_nonneg (dims := dims) k) (weight_nonneg hp (laplaceNumber dims k)))
    have hne : (1 : ℂ) + s.dt * (laplaceNumber dims k * pfcWeight p (laplaceNumber dims k)) ≠ 0 := by
      have : (0 : ℝ) < 1 + s.dt * (laplaceNumber dims k * pfcWeight p (laplaceNumber dims k)) := by linarith
      exact_mod_cast this.ne'
    refine mul_right_cancel₀ hne ?_
    push_cast at e1 e2
    linear_combination e1 - e2

/-- C140: a step does not increase the reported energy if the curvature of the energy density is at most `K` where the
density is and the time step is small enough for every wave. -/
theorem c140_energy (h : GoodDims (intDims dims)) (hl : LayoutOk dims) {p : PfcParams} (hp : GoodPeaks p) (c : Str → ℂ)
    {m0 m : EqModel dims.prod} (h0 : pfcModel p dims.prod = some m0) (h1 : m0.addEquation pfcEquation = some m)
    {M} (h2 : m.assemble c = some M) (s : Stepper dims.prod) (hs : s.filter = none) (hf : s.freq = freqOf dims)
    (hdt : 0 ≤ s.dt) (st : Store m.fields.length m.derived.length dims.prod) (i : Fin m.fields.length)
    (hu : IsReal (st.fields i)) {lo hi K : ℝ} (hK : ∀ t ∈ Set.Icc lo hi, -p.ideal.C3 * t + p.ideal.C4 * t ^ 2 ≤ K)
    (hb : ∀ x, (st.fields i x).re ∈ Set.Icc lo hi) (ha : ∀ x, ((eulerStep M (s, st)).2.fields i x).re ∈ Set.Icc lo hi)
    (hlim : ∀ k, s.dt * laplaceNumber dims k * (K - (1 - p.corr (Real.sqrt (laplaceNumber dims k)))) ≤ 2) :
    pfcObserver dims p ((eulerStep M (s, st)).2.fields i) ≤ pfcObserver dims p (st.fields i) := by
  obtain rfl := pfc_unique h0 h1
  rw [pfc_assembled] at h2
  obtain rfl := Option.some.inj h2
  have hpos := pos_of_goodDims h
  have hw := pfc_waves hpos hp c s hs hf hdt st i
  have hv := pfc_real h hl hp hdt hu hw
  rw [c140_observer hpos p hu, c140_observer hpos p hv, energy_flow hpos p hu, energy_flow hpos p hv]
  have := energy_core hpos hu hv (W := pfcBulk p.ideal) (W' := pfcForce p.ideal) (K := K) (ε := 0) hdt (laplaceNumber dims)
    (fun k => pfcWeight p (laplaceNumber dims k)) laplaceNumber_nonneg
    (fun x => tangent_le (pfc_deriv1 p.ideal) (pfc_deriv2 p.ideal) hK (hb x) (ha x)) hw
    (fun k => by have := hlim k; unfold pfcWeight; linarith)
  rw [zero_mul, add_zero] at this
  exact div_le_div_of_nonneg_right this (Nat.cast_nonneg _)

/-! ### The values of the program -/

theorem program_peaks (T : ℝ) : GoodPeaks (pfcProgram T) := by
  intro q hq
  simp only [pfcProgram, squareLattice2D, List.mem_cons, List.not_mem_nil, or_false] at hq
  rcases hq with rfl | rfl
  · norm_num
  · constructor
    · positivity
    · norm_num

/-- Short waves hardly correlate. -/
theorem program_short (T l : ℝ) (hl : 10 < l) : (pfcProgram T).corr (Real.sqrt l) ≤ 1 / 100 := by
  have hs : 3 < Real.sqrt l := Real.lt_sqrt_of_sq_lt (by norm_num; linarith)
  have hpi := Real.pi_lt_four
  have key : ∀ loc : ℝ, loc ≤ 1 → Real.exp (-((Real.sqrt l - loc) / 0.02) ^ 2 / 2) ≤ 1 / 100 := by
    intro loc hloc
    have h1 : (100 : ℝ) ≤ (Real.sqrt l - loc) / 0.02 := by
      rw [le_div_iff₀ (by norm_num)]; linarith
    have h2 : (100 : ℝ) + 1 ≤ Real.exp (((Real.sqrt l - loc) / 0.02) ^ 2 / 2) :=
      le_trans (by nlinarith) (Real.add_one_le_exp _)
    have e : -((Real.sqrt l - loc) / 0.02) ^ 2 / 2 = -(((Real.sqrt l - loc) / 0.02) ^ 2 / 2) := by ring
    rw [e, Real.exp_neg, inv_le_comm₀ (Real.exp_pos _) (by norm_num)]
    linarith
  obtain ⟨-, -, h3⟩ := c85_maximum T (squareLattice2D 0.02 16) (Real.sqrt l)
  obtain ⟨q, hq, e⟩ := h3 (by simp [squareLattice2D])
  show pairCorrEval T (squareLattice2D 0.02 16) (Real.sqrt l) ≤ _
  rw [e]
  have hg := program_peaks T q hq
  have h4 : Real.exp (-(T * Real.sqrt l) ^ 2 / (2 * q.planeDensity * q.numPlanes)) ≤ 1 := by
    rw [Real.exp_le_one_iff]
    have hn : (0 : ℝ) < q.numPlanes := by exact_mod_cast hg.2
    have := hg.1
    exact div_nonpos_of_nonpos_of_nonneg (by nlinarith [sq_nonneg (T * Real.sqrt l)]) (by positivity)
  have h5 : q.location ≤ 1 ∧ q.width = 0.02 := by
    simp only [squareLattice2D, List.mem_cons, List.not_mem_nil, or_false] at hq
    rcases hq with rfl | rfl
    · refine ⟨?_, rfl⟩
      show 2 * Real.pi / 16 ≤ 1
      linarith
    · refine ⟨?_, rfl⟩
      show 2 * Real.pi / (16 / Real.sqrt 2) ≤ 1
      have h2 : Real.sqrt 2 ≤ 2 := by
        rw [Real.sqrt_le_left (by norm_num)]; norm_num
      have h0 : 0 < Real.sqrt 2 := by positivity
      rw [div_div_eq_mul_div, div_le_one (by norm_num)]
      nlinarith [Real.pi_pos]
  have h6 := key q.location h5.1
  dsimp only
  rw [h5.2]
  calc _ ≤ 1 * Real.exp (-((Real.sqrt l - q.location) / 0.02) ^ 2 / 2) :=
        mul_le_mul_of_nonneg_right h4 (Real.exp_pos _).le
    _ ≤ _ := by rw [one_mul]; exact h6

/-- C140: with the numbers of the program (time step 0.1, a grid with two axes), for every temperature, the reported energy
does not increase in a step as long as the density lies between -1 and 2. -/
theorem c140_program (h : GoodDims (intDims dims)) (hl : LayoutOk dims) (h2d : dims.length = 2) (T : ℝ) (c : Str → ℂ)
    {m0 m : EqModel dims.prod} (h0 : pfcModel (pfcProgram T) dims.prod = some m0) (h1 : m0.addEquation pfcEquation = some m)
    {M} (h2 : m.assemble c = some M) (s : Stepper dims.prod) (hs : s.filter = none) (hf : s.freq = freqOf dims)
    (hdt : s.dt = 0.1) (st : Store m.fields.length m.derived.length dims.prod) (i : Fin m.fields.length)
    (hu : IsReal (st.fields i)) (hb : ∀ x, (st.fields i x).re ∈ Set.Icc (-1) 2)
    (ha : ∀ x, ((eulerStep M (s, st)).2.fields i x).re ∈ Set.Icc (-1) 2) :
    pfcObserver dims (pfcProgram T) ((eulerStep M (s, st)).2.fields i) ≤ pfcObserver dims (pfcProgram T) (st.fields i) := by
  refine c140_energy h hl (program_peaks T) c h0 h1 h2 s hs hf (by rw [hdt]; norm_num) st i hu (K := 2) ?_ hb ha ?_
  · rintro t ⟨ht1, ht2⟩
    show -1 * t + 1 * t ^ 2 ≤ 2
    nlinarith
  · intro k
    have hn := laplaceNumber_nonneg (dims := dims) k
    have hle := laplaceNumber_le h k
    rw [h2d] at hle
    have hpi : Real.pi ^ 2 < 9.8697 := by
      have := Real.pi_lt_d4
      nlinarith [Real.pi_pos]
    rw [hdt]
    rcases le_or_gt (laplaceNumber dims k) 10 with h10 | h10
    · have := (c85_range T (squareLattice2D 0.02 16) (Real.sqrt (laplaceNumber dims k)) (program_peaks T)).2
      have h3 : (pfcProgram T).corr (Real.sqrt (laplaceNumber dims k)) ≤ 1 := this
      nlinarith
    · have := program_short T _ h10
      push_cast at hle
      nlinarith

/-! ### Long runs -/

theorem pfc_confined {p : PfcParams} (hp : GoodPeaks p) (h4 : 0 < p.ideal.C4) (E : ℝ) :
    ∃ R, ∀ u : Data dims.prod, IsReal u →
      flowEnergy (pfcBulk p.ideal) (fun k => pfcWeight p (laplaceNumber dims k)) u ≤ E → ∀ x, |(u x).re| ≤ R := by
  set a := p.ideal.C3 / 6 with ha
  set b := p.ideal.C4 / 12 with hb
  have hb0 : 0 < b := by positivity
  set d := a ^ 2 / (2 * b) + 1 with hd
  set L := d ^ 2 / (2 * b) with hL
  have hW : ∀ t, t ^ 2 - L ≤ pfcBulk p.ideal t := by
    intro t
    have e : pfcBulk p.ideal t - (t ^ 2 - L) = t ^ 2 * ((b * t - a) ^ 2 / (2 * b)) + (b * t ^ 2 - d) ^ 2 / (2 * b) := by
      unfold pfcBulk
      rw [hL, hd, neg_div, ← ha, ← hb]
      field_simp
      ring
    have : 0 ≤ pfcBulk p.ideal t - (t ^ 2 - L) := by rw [e]; positivity
    linarith
  refine ⟨Real.sqrt (E + ∑ _x : Fin dims.prod, L), fun u _ hE x => ?_⟩
  apply Real.abs_le_sqrt
  have h5 : 0 ≤ (∑ k, pfcWeight p (laplaceNumber dims k) * ‖fft dims u k‖ ^ 2) / (2 * (dims.prod : ℕ)) :=
    div_nonneg (Finset.sum_nonneg fun k _ => mul_nonneg (weight_nonneg hp _) (by positivity)) (by positivity)
  have h6 : ∑ x, ((u x).re ^ 2 - L) ≤ ∑ x, pfcBulk p.ideal (u x).re := Finset.sum_le_sum fun x _ => hW _
  rw [Finset.sum_sub_distrib] at h6
  have h7 : (u x).re ^ 2 ≤ ∑ x, (u x).re ^ 2 :=
    Finset.single_le_sum (f := fun x => (u x).re ^ 2) (fun _ _ => by positivity) (Finset.mem_univ x)
  unfold flowEnergy at hE
  linarith

/-- C140: if the quartic term of the energy is positive, a run with small enough time steps ends where it should: for every
energy there is a time step below which all runs that start with at most this energy stay real and bounded, never gain energy,
and their density changes ever more slowly. -/
theorem c140_rest (h : GoodDims (intDims dims)) (hl : LayoutOk dims) {p : PfcParams} (hp : GoodPeaks p) (h4 : 0 < p.ideal.C4)
    (c : Str → ℂ) {m0 m : EqModel dims.prod} (h0 : pfcModel p dims.prod = some m0) (h1 : m0.addEquation pfcEquation = some m)
    {M} (h2 : m.assemble c = some M) (E : ℝ) : ∃ dt0 R : ℝ, 0 < dt0 ∧ ∀ s : Stepper dims.prod, s.filter = none →
      s.freq = freqOf dims → 0 < s.dt → s.dt ≤ dt0 → ∀ (st : Store m.fields.length m.derived.length dims.prod)
      (i : Fin m.fields.length), IsReal (st.fields i) → pfcObserver dims p (st.fields i) ≤ E →
      (∀ steps, IsReal ((eulerPropagate M steps (s, st)).2.fields i)) ∧
      (∀ steps x, |((eulerPropagate M steps (s, st)).2.fields i x).re| ≤ R) ∧
      Antitone (fun steps => pfcObserver dims p ((eulerPropagate M steps (s, st)).2.fields i)) ∧
      ∀ x, Tendsto (fun steps => gridLaplacian (freqOf dims) (pfcPotential p ((eulerPropagate M steps (s, st)).2.fields i)) x)
        atTop (𝓝 0) := by
  obtain rfl := pfc_unique h0 h1
  rw [pfc_assembled] at h2
  obtain rfl := Option.some.inj h2
  have hpos := pos_of_goodDims h
  have hP : (0 : ℝ) < (dims.prod : ℕ) := by
    exact_mod_cast Nat.pos_of_ne_zero (n := dims.prod) (by exact_mod_cast prod_ne_zero hpos)
  obtain ⟨dt0, R, hd0, hrun⟩ := flow_rest hpos (pfc_deriv1 p.ideal) (pfc_deriv2 p.ideal) (by fun_prop) (laplaceNumber dims)
    (fun k => pfcWeight p (laplaceNumber dims k)) laplaceNumber_nonneg (fun k => weight_nonneg hp _)
    (pfc_confined hp h4) (E * (dims.prod : ℕ))
  refine ⟨dt0, R, hd0, ?_⟩
  intro s hs hf hdt hle st i hu hE
  set U : ℕ → Data dims.prod := fun j => (eulerPropagate (pfcSeen p dims.prod c) j (s, st)).2.fields i with hU
  have hsucc : ∀ j, eulerPropagate (pfcSeen p dims.prod c) (j + 1) (s, st) =
      eulerStep (pfcSeen p dims.prod c) (eulerPropagate (pfcSeen p dims.prod c) j (s, st)) := by
    intro j
    simp [eulerPropagate, List.range_succ]
  have hsame : ∀ j, (eulerPropagate (pfcSeen p dims.prod c) j (s, st)).1.dt = s.dt ∧
      (eulerPropagate (pfcSeen p dims.prod c) j (s, st)).1.freq = s.freq ∧
      (eulerPropagate (pfcSeen p dims.prod c) j (s, st)).1.filter = s.filter := by
    intro j
    induction j with
    | zero => exact ⟨rfl, rfl, rfl⟩
    | succ j ih => rw [hsucc j]; exact ih
  have hstep : ∀ j, FlowStep (pfcForce p.ideal) (laplaceNumber dims) (fun k => pfcWeight p (laplaceNumber dims k)) s.dt
      (U j) (U (j + 1)) := by
    intro j
    obtain ⟨a1, a2, a3⟩ := hsame j
    have := pfc_waves hpos hp c (eulerPropagate (pfcSeen p dims.prod c) j (s, st)).1 (a3.trans hs) (a2.trans hf)
      (by rw [a1]; exact hdt.le) (eulerPropagate (pfcSeen p dims.prod c) j (s, st)).2 i
    rw [a1] at this
    have e : U (j + 1) = (eulerStep (pfcSeen p dims.prod c) (eulerPropagate (pfcSeen p dims.prod c) j (s, st))).2.fields i := by
      rw [hU]
      dsimp only
      rw [hsucc j]
    rw [e]
    exact this
  have hreal : ∀ j, IsReal (U j) := by
    intro j
    induction j with
    | zero => exact hu
    | succ j ih => exact pfc_real h hl hp hdt.le ih (hstep j)
  have hobs : ∀ j, pfcObserver dims p (U j) = flowEnergy (pfcBulk p.ideal) (fun k => pfcWeight p (laplaceNumber dims k)) (U j) /
      (dims.prod : ℕ) := fun j => by rw [c140_observer hpos p (hreal j), energy_flow hpos p (hreal j)]
  have hE' : flowEnergy (pfcBulk p.ideal) (fun k => pfcWeight p (laplaceNumber dims k)) (U 0) ≤ E * (dims.prod : ℕ) := by
    rw [← div_le_iff₀ hP, ← hobs]
    exact hE
  obtain ⟨r1, r2, r3⟩ := hrun s.dt hdt hle U hreal hstep hE'
  refine ⟨hreal, r1, ?_, ?_⟩
  · intro j j' hj
    show pfcObserver dims p (U j') ≤ pfcObserver dims p (U j)
    rw [hobs, hobs]
    exact div_le_div_of_nonneg_right (r2 hj) hP.le
  · intro x
    show Tendsto (fun j => gridLaplacian (freqOf dims) (pfcPotential p (U j)) x) atTop (𝓝 0)
    have hw : ∀ k, Tendsto (fun j => ‖fft dims (gridLaplacian (freqOf dims) (pfcPotential p (U j))) k‖) atTop (𝓝 0) := by
      intro k
      refine (tendsto_zero_iff_norm_tendsto_zero.mp (r3 k)).congr fun j => ?_
      unfold gridLaplacian
      rw [fft_lap hpos, symbol_laplaceNumber]
      unfold pfcPotential
      rw [fft_potential hpos p (U j) (fun y => pfcForce p.ideal (U j y).re), neg_mul, norm_neg]
    refine squeeze_zero_norm (fun j => norm_le_spectrum hpos _ x) ?_
    have := tendsto_finsetSum Finset.univ fun k _ => hw k
    simpa using this

/-- C140: a uniform density rests, whatever the parameters. -/
theorem c140_uniform (h : GoodDims (intDims dims)) (hl : LayoutOk dims) {p : PfcParams} (hp : GoodPeaks p) (c : Str → ℂ)
    {m0 m : EqModel dims.prod} (h0 : pfcModel p dims.prod = some m0) (h1 : m0.addEquation pfcEquation = some m)
    {M} (h2 : m.assemble c = some M) (s : Stepper dims.prod) (hs : s.filter = none) (hf : s.freq = freqOf dims)
    (hdt : 0 ≤ s.dt) (st : Store m.fields.length m.derived.length dims.prod) (i : Fin m.fields.length) (z : ℝ)
    (hu : st.fields i = fun _ => (z : ℂ)) : (eulerStep M (s, st)).2.fields i = st.fields i := by
  have hpos := pos_of_goodDims h
  have := (c140_step h hl hp c h0 h1 h2 s hs hf hdt st i (by rw [hu]; intro x; simp)).2.2.2
  dsimp only at this
  refine (this _ fun x => ?_).symm
  have e : gridLaplacian (freqOf dims) (fun y => st.fields i y + (pfcForce p.ideal (st.fields i y).re : ℂ) -
      correlated p.corr (st.fields i) y) = fun _ => 0 := by
    apply fft_injective hpos
    funext k
    unfold gridLaplacian
    rw [fft_lap hpos, fft_potential hpos p _ (fun y => pfcForce p.ideal (st.fields i y).re), symbol_laplaceNumber, hu]
    have e1 := laplace_const h (z : ℂ) k
    have e2 := laplace_const h ((pfcForce p.ideal z : ℝ) : ℂ) k
    have e3 : fft dims (fun _ => (0 : ℂ)) k = 0 := by simp [fft]
    rw [e3]
    simp only [Complex.ofReal_re]
    linear_combination -e2 - (pfcWeight p (laplaceNumber dims k) : ℂ) * e1
  rw [e, mul_zero, add_zero]

/-! ### File names -/

/-- C140: the temperature enters the names of the data files only by its integral part although the file that describes them is
named after a thousandth of it, so runs whose temperatures agree before the decimal point overwrite each other's data. A run can
be continued exactly if it was written to the folder `data/`. -/
theorem c140_files (T T' d : ℝ) (folder : Str) (epoch start : Int) :
    (pfcDataFile folder T d epoch = pfcDataFile folder T' d epoch ↔ truncInt T = truncInt T') ∧
    (pfcMetaFile folder T d = pfcMetaFile folder T' d ↔ truncInt (T * 1000) = truncInt (T' * 1000)) ∧
    (pfcRestartFile T d start = pfcDataFile folder T d (start - 1) ↔ folder = "data/".toList) := by
  refine ⟨?_, ?_, ?_⟩
  · unfold pfcDataFile binName pfcPrefix
    simp only [List.append_assoc, List.append_cancel_left_eq, List.append_cancel_right_eq]
    constructor
    · intro e
      have := fmtInt_injective e
      omega
    · intro e; rw [e]
  · unfold pfcMetaFile
    simp only [List.append_assoc, List.append_cancel_left_eq, List.append_cancel_right_eq]
    exact ⟨fun e => fmtInt_injective e, fun e => by rw [e]⟩
  · have e : pfcRestartFile T d start = pfcDataFile "data/".toList T d (start - 1) := by
      unfold pfcRestartFile pfcDataFile binName
      have h1 : "_density_".toList = '_' :: ("density".toList ++ ['_']) := by decide +kernel
      have h2 : ".bin".toList = ['.', 'b', 'i', 'n'] := by decide +kernel
      rw [h1, h2]
      simp only [List.append_assoc, List.cons_append, List.nil_append]
    rw [e]
    unfold pfcDataFile binName
    simp only [List.append_cancel_right_eq]
    exact eq_comm

/-- Two temperatures with the same data files but different descriptions. -/
example : truncInt (0.25 : ℝ) = truncInt (0.75 : ℝ) ∧ truncInt ((0.25 : ℝ) * 1000) ≠ truncInt ((0.75 : ℝ) * 1000) := by
  have e1 : truncInt (0.25 : ℝ) = 0 := truncInt_unique (by norm_num) (by norm_num [abs_lt])
  have e2 : truncInt (0.75 : ℝ) = 0 := truncInt_unique (by norm_num) (by norm_num [abs_lt])
  have e3 : truncInt ((0.25 : ℝ) * 1000) = 250 := by
    rw [show (0.25 : ℝ) * 1000 = ((250 : ℤ) : ℝ) by norm_num, truncInt_int]
  have e4 : truncInt ((0.75 : ℝ) * 1000) = 750 := by
    rw [show (0.75 : ℝ) * 1000 = ((750 : ℤ) : ℝ) by norm_num, truncInt_int]
  rw [e1, e2, e3, e4]
  decide

/-- The numbers of the program meet the hypotheses of the theorems, on its grid and from a density of 0.3. -/
example : GoodDims (intDims [128, 128]) ∧ LayoutOk [128, 128] ∧ ([128, 128] : List ℕ).length = 2 ∧
    (∀ T, GoodPeaks (pfcProgram T) ∧ 0 < (pfcProgram T).ideal.C4) :=
  ⟨⟨by decide, by decide⟩, trivial, rfl, fun T => ⟨program_peaks T, by show (0 : ℝ) < 1; norm_num⟩⟩

example (c : Str → ℂ) (m0 m : EqModel ([128, 128] : List ℕ).prod)
    (h0 : pfcModel (pfcProgram 0.2) ([128, 128] : List ℕ).prod = some m0) (h1 : m0.addEquation pfcEquation = some m)
    (M) (h2 : m.assemble c = some M) (i : Fin m.fields.length) :
    let s : Stepper ([128, 128] : List ℕ).prod := { dt := 0.1, freq := freqOf [128, 128], currentStep := 0, filter := none }
    let st : Store m.fields.length m.derived.length ([128, 128] : List ℕ).prod := ⟨fun _ _ => ((0.3 : ℝ) : ℂ), fun _ _ => 0⟩
    ∀ x, ((eulerStep M (s, st)).2.fields i x).re ∈ Set.Icc (-1) 2 := by
  intro s st x
  have e := c140_uniform (dims := [128, 128]) ⟨by decide, by decide⟩ trivial (program_peaks 0.2) c h0 h1 h2 s rfl rfl
    (by show (0 : ℝ) ≤ 0.1; norm_num) st i 0.3 rfl
  rw [e]
  show ((0.3 : ℝ) : ℂ).re ∈ Set.Icc (-1 : ℝ) 2
  rw [Complex.ofReal_re]
  constructor <;> norm_num

end Gopf.Props
