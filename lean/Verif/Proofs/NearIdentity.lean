import Verif.Proofs.SmallSteps

/-!
# Eigenvalues of matrices close to the identity
-/

namespace Gopf.Proofs
open Filter Topology

variable {n : ℕ} {G : ℝ → Matrix (Fin n) (Fin n) ℂ} {A : Matrix (Fin n) (Fin n) ℂ}

theorem tendsto_mulVec {B : ℕ → Matrix (Fin n) (Fin n) ℂ} {v : ℕ → Fin n → ℂ} {w : Fin n → ℂ}
    (hB : Tendsto B atTop (𝓝 A)) (hv : Tendsto v atTop (𝓝 w)) :
    Tendsto (fun j => (B j).mulVec (v j)) atTop (𝓝 (A.mulVec w)) := by
  refine tendsto_pi_nhds.mpr fun i => ?_
  unfold Matrix.mulVec dotProduct
  refine tendsto_finsetSum _ fun j _ => Tendsto.mul ?_ (tendsto_pi_nhds.mp hv j)
  exact tendsto_pi_nhds.mp (tendsto_pi_nhds.mp hB i) j

/-- If `G` tends to a matrix whose eigenvalues have negative real parts, `1 + dt G` shrinks for small `dt`. -/
theorem near_inside (hG : Tendsto G (𝓝 0) (𝓝 A)) (hA : ∀ (l : ℂ) w, w ≠ 0 → A.mulVec w = l • w → l.re < 0) :
    ∃ dt0 : ℝ, 0 < dt0 ∧ ∀ dt : ℝ, 0 < dt → dt < dt0 → ∀ (μ : ℂ) w, w ≠ 0 →
      w + (dt : ℂ) • (G dt).mulVec w = μ • w → ‖μ‖ < 1 := by
  by_contra hcon
  push Not at hcon
  have hseq : ∀ j : ℕ, ∃ (dt : ℝ) (μ : ℂ) (w : Fin n → ℂ), 0 < dt ∧ dt < 1 / ((j : ℝ) + 1) ∧ ‖w‖ = 1 ∧
      w + (dt : ℂ) • (G dt).mulVec w = μ • w ∧ 1 ≤ ‖μ‖ := by
    intro j
    obtain ⟨dt, h1, h2, μ, w, h3, h4, h5⟩ := hcon (1 / ((j : ℝ) + 1)) (by positivity)
    refine ⟨dt, μ, ((‖w‖⁻¹ : ℝ) : ℂ) • w, h1, h2, ?_, ?_, h5⟩
    · rw [norm_smul, Complex.norm_real, norm_inv, norm_norm]
      exact inv_mul_cancel₀ (norm_ne_zero_iff.mpr h3)
    · rw [Matrix.mulVec_smul, smul_comm (dt : ℂ), ← smul_add, h4, smul_comm]
  choose dt μ w h1 h2 h3 h4 h5 using hseq
  have hdt : Tendsto dt atTop (𝓝 0) :=
    squeeze_zero (fun j => (h1 j).le) (fun j => (h2 j).le) tendsto_one_div_add_atTop_nhds_zero_nat
  set l : ℕ → ℂ := fun j => (μ j - 1) / dt j with hl
  have hdtc : ∀ j, (dt j : ℂ) ≠ 0 := fun j => Complex.ofReal_ne_zero.mpr (h1 j).ne'
  have hμ : ∀ j, μ j = 1 + dt j * l j := by
    intro j
    rw [hl]
    field_simp [hdtc j]
    ring
  have key : ∀ j, (G (dt j)).mulVec (w j) = l j • w j := by
    intro j
    have e := h4 j
    rw [hμ j, add_smul, one_smul, add_right_inj, mul_smul] at e
    exact smul_right_injective _ (hdtc j) e
  have hre : ∀ j, 0 ≤ 2 * (l j).re + dt j * ‖l j‖ ^ 2 := by
    intro j
    have h6 : 1 ≤ ‖μ j‖ ^ 2 := one_le_pow₀ (h5 j)
    rw [hμ j, ← Complex.normSq_eq_norm_sq, Complex.normSq_apply] at h6
    simp only [Complex.add_re, Complex.one_re, Complex.mul_re, Complex.ofReal_re, Complex.ofReal_im, zero_mul, sub_zero,
      Complex.add_im, Complex.one_im, Complex.mul_im, zero_add, add_zero] at h6
    rw [← Complex.normSq_eq_norm_sq, Complex.normSq_apply]
    have h7 : 0 ≤ dt j * (2 * (l j).re + dt j * ((l j).re * (l j).re + (l j).im * (l j).im)) := by linarith
    exact nonneg_of_mul_nonneg_right h7 (h1 j)
  obtain ⟨w', hmem, φ, hφ, hlim2⟩ := (isCompact_sphere (0 : Fin n → ℂ) 1).tendsto_subseq (x := w) fun j => by
    simpa using h3 j
  have hlim3 : Tendsto (fun j => dt (φ j)) atTop (𝓝 0) := hdt.comp hφ.tendsto_atTop
  have hw' : w' ≠ 0 := by
    have : ‖w'‖ = 1 := by simpa using hmem
    intro h0
    rw [h0, norm_zero] at this
    exact zero_ne_one this
  have hmv : Tendsto (fun j => (G (dt (φ j))).mulVec (w (φ j))) atTop (𝓝 (A.mulVec w')) :=
    tendsto_mulVec (hG.comp hlim3) hlim2
  obtain ⟨i, hi⟩ := Function.ne_iff.mp hw'
  have hwi : Tendsto (fun j => w (φ j) i) atTop (𝓝 (w' i)) := tendsto_pi_nhds.mp hlim2 i
  have hlim1 : Tendsto (fun j => l (φ j)) atTop (𝓝 (A.mulVec w' i / w' i)) := by
    have h6 := (tendsto_pi_nhds.mp hmv i).div hwi hi
    refine h6.congr' ?_
    filter_upwards [hwi.eventually_ne hi] with j hj
    have e : (G (dt (φ j))).mulVec (w (φ j)) i = l (φ j) * w (φ j) i := congrFun (key (φ j)) i
    rw [Pi.div_apply, e, mul_div_assoc, div_self hj, mul_one]
  generalize A.mulVec w' i / w' i = l' at hlim1
  have heig : A.mulVec w' = l' • w' := by
    have a1 : Tendsto (fun j => l (φ j) • w (φ j)) atTop (𝓝 (l' • w')) := hlim1.smul hlim2
    simp only [← key] at a1
    exact tendsto_nhds_unique hmv a1
  have hneg := hA l' w' hw' heig
  have hnn : 0 ≤ 2 * l'.re + 0 * ‖l'‖ ^ 2 := by
    have a1 : Tendsto (fun j => 2 * (l (φ j)).re + dt (φ j) * ‖l (φ j)‖ ^ 2) atTop (𝓝 (2 * l'.re + 0 * ‖l'‖ ^ 2)) :=
      (((Complex.continuous_re.tendsto l').comp hlim1).const_mul 2).add (hlim3.mul (hlim1.norm.pow 2))
    exact ge_of_tendsto' a1 fun j => hre _
  linarith

/-- If some eigenvalue has positive real part, `1 + dt G` makes some vectors grow. -/
theorem near_outside (hG : Tendsto G (𝓝 0) (𝓝 A)) {l : ℂ} {w0 : Fin n → ℂ} (hw0 : w0 ≠ 0) (hl : A.mulVec w0 = l • w0)
    (hpos : 0 < l.re) :
    ∃ dt0 : ℝ, 0 < dt0 ∧ ∀ dt : ℝ, 0 < dt → dt < dt0 → ∃ (μ : ℂ) (w : _), w ≠ 0 ∧
      w + (dt : ℂ) • (G dt).mulVec w = μ • w ∧ 1 < ‖μ‖ := by
  have hdet0 : (l • (1 : Matrix (Fin n) (Fin n) ℂ) - A).det = 0 := by
    apply Matrix.exists_mulVec_eq_zero_iff.mp
    exact ⟨w0, hw0, by rw [Matrix.sub_mulVec, Matrix.smul_mulVec, Matrix.one_mulVec, hl, sub_self]⟩
  have c2 : Continuous fun B : Matrix (Fin n) (Fin n) ℂ => (l • 1 - B).det := Continuous.matrix_det (by fun_prop)
  have ev : ∀ᶠ dt : ℝ in 𝓝 (0 : ℝ), ‖(l • 1 - G dt).det‖ < l.re ^ n := by
    have t1 : Tendsto (fun dt : ℝ => ‖(l • 1 - G dt).det‖) (𝓝 0) (𝓝 0) := by
      have := ((c2.tendsto A).comp hG).norm
      rw [hdet0, norm_zero] at this
      exact this
    exact t1.eventually (gt_mem_nhds (pow_pos hpos n))
  obtain ⟨dt0, hdt0, hball⟩ := Metric.eventually_nhds_iff.mp ev
  refine ⟨dt0, hdt0, fun dt hdt hlt => ?_⟩
  have hb := hball (y := dt) (by rw [Real.dist_eq, sub_zero, abs_of_pos hdt]; exact hlt)
  generalize G dt = B at hb
  have hfac : (l • 1 - B).det = B.charpoly.eval l := by
    rw [Matrix.eval_charpoly, Matrix.scalar_apply, ← Matrix.smul_one_eq_diagonal]
  rw [hfac] at hb
  have hroots : B.charpoly.eval l = (B.charpoly.roots.map fun r => l - r).prod := by
    have := (IsAlgClosed.splits B.charpoly).eq_prod_roots_of_monic B.charpoly_monic
    conv_lhs => rw [this]
    rw [Polynomial.eval_multiset_prod, Multiset.map_map]
    simp
  have hcard : Multiset.card B.charpoly.roots = n := by
    rw [← (IsAlgClosed.splits B.charpoly).natDegree_eq_card_roots, Matrix.charpoly_natDegree_eq_dim, Fintype.card_fin]
  have hex : ∃ r ∈ B.charpoly.roots, ‖l - r‖ < l.re := by
    by_contra hno
    push Not at hno
    have hle : l.re ^ n ≤ ‖B.charpoly.eval l‖ := by
      have hpw : l.re ^ n = l.re ^ Multiset.card B.charpoly.roots := congrArg (fun q => l.re ^ q) hcard.symm
      rw [hroots, hpw]
      generalize B.charpoly.roots = R at hno
      induction R using Multiset.induction with
      | empty => simp
      | cons r R ih =>
        rw [Multiset.map_cons, Multiset.prod_cons, Multiset.card_cons, norm_mul, pow_succ']
        exact mul_le_mul (hno r (by simp)) (ih fun q hq => hno q (by simp [hq])) (pow_nonneg hpos.le _) (norm_nonneg _)
    exact absurd hb (not_lt.mpr hle)
  obtain ⟨r, hr, hrl⟩ := hex
  have hrre : 0 < r.re := by
    have := (Complex.re_le_norm (l - r)).trans_lt hrl
    rw [Complex.sub_re] at this
    linarith
  have hrdet : (Matrix.scalar (Fin n) r - B).det = 0 := by
    rw [← Matrix.eval_charpoly]
    exact (Polynomial.mem_roots'.mp hr).2
  obtain ⟨w, hw, hwe⟩ := Matrix.exists_mulVec_eq_zero_iff.mpr hrdet
  have hBw : B.mulVec w = r • w := by
    rw [Matrix.sub_mulVec, sub_eq_zero, Matrix.scalar_apply, ← Matrix.smul_one_eq_diagonal, Matrix.smul_mulVec,
      Matrix.one_mulVec] at hwe
    exact hwe.symm
  refine ⟨1 + dt * r, w, hw, by rw [hBw, smul_smul, add_smul, one_smul], ?_⟩
  have h6 : 1 < (1 + dt * r : ℂ).re := by
    simp only [Complex.add_re, Complex.one_re, Complex.mul_re, Complex.ofReal_re, Complex.ofReal_im, zero_mul, sub_zero]
    have := mul_pos hdt hrre
    linarith
  exact h6.trans_le (Complex.re_le_norm _)

/-- The matrix by which a Runge-Kutta step with implicit rates `a` and explicit rates `b` multiplies. -/
noncomputable def rungeKuttaMatrix (a : Fin n → ℂ) (b : Matrix (Fin n) (Fin n) ℂ) (dt : ℂ) : Matrix (Fin n) (Fin n) ℂ :=
  let d (r : ℂ) : Matrix (Fin n) (Fin n) ℂ := Matrix.diagonal fun i => 1 / (1 - r * a i)
  let k2 := b * (d (dt / 2) * (1 + (dt / 2) • b))
  let k3 := b * (d (dt / 2) * (1 + (dt / 2) • k2))
  let k4 := b * (d dt * (1 + dt • k3))
  d dt * (1 + (dt / 6) • (b + (2 : ℂ) • k2 + (2 : ℂ) • k3 + k4))

/-- It is close to the identity, with the sum of the rates as slope. -/
theorem rungeKutta_near (a : Fin n → ℂ) (b : Matrix (Fin n) (Fin n) ℂ) :
    ∃ G : ℝ → Matrix (Fin n) (Fin n) ℂ, Tendsto G (𝓝 0) (𝓝 (b + Matrix.diagonal a)) ∧
      ∃ dt0 : ℝ, 0 < dt0 ∧ ∀ dt : ℝ, 0 < dt → dt < dt0 → rungeKuttaMatrix a b dt = 1 + (dt : ℂ) • G dt := by
  let d (r : ℂ) : Matrix (Fin n) (Fin n) ℂ := Matrix.diagonal fun i => 1 / (1 - r * a i)
  have hd : ∀ s : ℝ, Tendsto (fun dt : ℝ => d ((dt : ℂ) / s)) (𝓝 0) (𝓝 1) := by
    intro s
    have hc : ContinuousAt (fun dt : ℝ => d ((dt : ℂ) / s)) 0 := by
      have h1 : ContinuousAt (fun (dt : ℝ) (i : Fin n) => 1 / (1 - (dt : ℂ) / s * a i)) 0 := by
        refine continuousAt_pi.mpr fun i => ?_
        refine ContinuousAt.div continuousAt_const ?_ (by simp)
        exact Continuous.continuousAt (by fun_prop)
      exact (Continuous.matrix_diagonal continuous_id).continuousAt.comp h1
    have e : d (((0 : ℝ) : ℂ) / s) = 1 := by simp [d]
    have := hc.tendsto
    rwa [e] at this
  have hdt : Tendsto (fun dt : ℝ => (dt : ℂ)) (𝓝 0) (𝓝 0) := by
    have := Complex.continuous_ofReal.tendsto 0
    rwa [Complex.ofReal_zero] at this
  have hst : ∀ (K : ℝ → Matrix (Fin n) (Fin n) ℂ) (s : ℝ), Tendsto K (𝓝 0) (𝓝 b) →
      Tendsto (fun dt : ℝ => b * (d ((dt : ℂ) / s) * (1 + ((dt : ℂ) / s) • K dt))) (𝓝 0) (𝓝 b) := by
    intro K s hK
    have h1 : Tendsto (fun dt : ℝ => (dt : ℂ) / s) (𝓝 0) (𝓝 0) := by
      simpa using hdt.div_const (s : ℂ)
    have h2 := tendsto_const_nhds (x := b).mul ((hd s).mul ((tendsto_const_nhds (x := (1 : Matrix (Fin n) (Fin n) ℂ))).add (h1.smul hK)))
    simpa using h2
  let k2 (dt : ℝ) := b * (d ((dt : ℂ) / (2 : ℝ)) * (1 + ((dt : ℂ) / (2 : ℝ)) • b))
  let k3 (dt : ℝ) := b * (d ((dt : ℂ) / (2 : ℝ)) * (1 + ((dt : ℂ) / (2 : ℝ)) • k2 dt))
  let k4 (dt : ℝ) := b * (d ((dt : ℂ) / (1 : ℝ)) * (1 + ((dt : ℂ) / (1 : ℝ)) • k3 dt))
  have t2 : Tendsto k2 (𝓝 0) (𝓝 b) := hst (fun _ => b) 2 tendsto_const_nhds
  have t3 : Tendsto k3 (𝓝 0) (𝓝 b) := hst k2 2 t2
  have t4 : Tendsto k4 (𝓝 0) (𝓝 b) := hst k3 1 t3
  have t1 : Tendsto (fun dt : ℝ => d (dt : ℂ)) (𝓝 0) (𝓝 1) := by simpa using hd 1
  refine ⟨fun dt => d (dt : ℂ) * ((1 / 6 : ℂ) • (b + (2 : ℂ) • k2 dt + (2 : ℂ) • k3 dt + k4 dt)) + d (dt : ℂ) * Matrix.diagonal a, ?_, ?_⟩
  · have h5 := (t1.mul ((((tendsto_const_nhds (x := b).add (t2.const_smul (2 : ℂ))).add (t3.const_smul (2 : ℂ))).add t4).const_smul
      (1 / 6 : ℂ))).add (t1.mul (tendsto_const_nhds (x := Matrix.diagonal a)))
    have e : (1 : Matrix (Fin n) (Fin n) ℂ) * ((1 / 6 : ℂ) • (b + (2 : ℂ) • b + (2 : ℂ) • b + b)) + 1 * Matrix.diagonal a =
        b + Matrix.diagonal a := by
      rw [one_mul, one_mul]
      congr 1
      ext i j
      simp only [Matrix.smul_apply, Matrix.add_apply, smul_eq_mul]
      ring
    rwa [e] at h5
  · have ev : ∀ᶠ dt : ℝ in 𝓝 (0 : ℝ), ∀ i, (1 : ℂ) - dt * a i ≠ 0 := by
      refine Filter.eventually_all.mpr fun i => ?_
      have hc : Continuous fun dt : ℝ => (1 : ℂ) - dt * a i := by fun_prop
      exact hc.continuousAt.eventually_ne (by simp)
    obtain ⟨dt0, h0, h1⟩ := Metric.eventually_nhds_iff.mp ev
    refine ⟨dt0, h0, fun dt hdt hlt => ?_⟩
    have hne := h1 (y := dt) (by rw [Real.dist_eq, sub_zero, abs_of_pos hdt]; exact hlt)
    have e1 : d (dt : ℂ) = 1 + (dt : ℂ) • (d (dt : ℂ) * Matrix.diagonal a) := by
      rw [Matrix.diagonal_mul_diagonal, ← Matrix.diagonal_one, ← Matrix.diagonal_smul, Matrix.diagonal_add]
      refine congrArg Matrix.diagonal (funext fun i => ?_)
      have h2 := hne i
      have h3 : 1 / (1 - (dt : ℂ) * a i) = 1 + (dt : ℂ) * (1 / (1 - (dt : ℂ) * a i) * a i) := by
        field_simp
        ring
      exact h3
    have e2 : rungeKuttaMatrix a b dt = d (dt : ℂ) * (1 + ((dt : ℂ) / 6) • (b + (2 : ℂ) • k2 dt + (2 : ℂ) • k3 dt + k4 dt)) := by
      simp only [rungeKuttaMatrix, k2, k3, k4, d, Complex.ofReal_one, div_one, Complex.ofReal_ofNat]
    rw [e2]
    dsimp only
    generalize b + (2 : ℂ) • k2 dt + (2 : ℂ) • k3 dt + k4 dt = K
    rw [mul_add, mul_one, smul_add, mul_smul_comm, mul_smul_comm, smul_smul, mul_one_div, add_comm (((dt : ℂ) / 6) • _), ← add_assoc, ← e1]

end Gopf.Proofs
