import Verif.Props.Derivative
import Verif.Model.LinElast

/-!
# C102: the squared gradient term
-/

namespace Gopf.Props
open Spec Pfutil Pf
open scoped BigOperators

variable {dims : List ℕ}

private theorem foldl_fun_add {N : ℕ} (g : ℕ → Data N) (l : List ℕ) (a : Data N) :
    l.foldl (fun (field : Data N) (d : ℕ) => fun i => field i + g d i) a =
      fun i => a i + (l.map fun d => g d i).sum := by
  induction l generalizing a with
  | nil => simp
  | cons x l ih => rw [List.foldl_cons, ih]; funext i; simp [add_assoc]

private theorem sum_range_eq {M : Type} [AddCommMonoid M] (n : ℕ) (g : ℕ → M) :
    ((List.range n).map g).sum = ∑ d ∈ Finset.range n, g d := by
  rw [Finset.sum_eq_multiset_sum]; rfl

private theorem fft_sum (n : ℕ) (g : ℕ → Data dims.prod) (k : Fin dims.prod) :
    fft dims (fun x => ∑ d ∈ Finset.range n, g d x) k = ∑ d ∈ Finset.range n, fft dims (g d) k := by
  unfold fft
  rw [Finset.sum_comm]
  exact Finset.sum_congr rfl fun x _ => by rw [Finset.sum_mul]

/-- C102: the term is the transform of `factor · |∇u|²`, the square being taken node by node and the
components of the gradient being those of the gradient calculator (C70, C71). -/
theorem c102_value (factor t : ℝ) (u : Data dims.prod) :
    squaredGradient dims factor (fft dims u) (freqOf dims) t =
      fft dims fun x => (factor : ℂ) * ∑ d ∈ Finset.range dims.length, gradCalculate dims d false u x ^ 2 := by
  unfold squaredGradient
  dsimp only
  rw [foldl_fun_add]
  funext k
  rw [sum_range_eq, fft_smul, fft_sum, Finset.mul_sum, zero_add]
  refine Finset.sum_congr rfl fun d _ => ?_
  rw [mul_comm]
  congr 2
  unfold gradCalculate divRealScalar
  simp only [and_true, Complex.ofReal_natCast]

/-- C102: for a real field with a non-negative factor the term is real and non-negative at every node. -/
theorem c102_real (h : GoodDims (intDims dims)) (hl : LayoutOk dims) (hs : ∀ d ∈ dims, d ≤ 10 ^ 9)
    {factor : ℝ} (hf : 0 ≤ factor) (t : ℝ) {u : Data dims.prod} (hu : IsReal u) :
    ∃ e : Fin dims.prod → ℝ, (∀ x, 0 ≤ e x) ∧
      squaredGradient dims factor (fft dims u) (freqOf dims) t = fft dims fun x => (e x : ℂ) := by
  refine ⟨fun x => factor * ∑ d ∈ Finset.range dims.length, (gradCalculate dims d false u x).re ^ 2,
    fun x => mul_nonneg hf (Finset.sum_nonneg fun d _ => sq_nonneg _), ?_⟩
  rw [c102_value]
  congr 1
  funext x
  push_cast
  congr 1
  refine Finset.sum_congr rfl fun d _ => ?_
  congr 1
  exact Complex.ext rfl (c71_real h hl hs d u hu x)

/-- The component of a wave vector as the term sees it: the highest frequency counts as zero. -/
noncomputable def waveNumber (dims : List ℕ) (k : Fin dims.prod) (d : ℕ) : ℝ :=
  if fcomp (freqOf dims k) d = 1 / 2 then 0 else 2 * Real.pi * fcomp (freqOf dims k) d

private theorem gradFactor_eq (k : Fin dims.prod) (d : ℕ) :
    gradFactor false (fcomp (freqOf dims k) d) = Complex.I * (waveNumber dims k d : ℂ) := by
  unfold gradFactor waveNumber
  by_cases e : fcomp (freqOf dims k) d = 1 / 2
  · rw [if_pos ⟨e, rfl⟩, if_pos e]; simp
  · rw [if_neg (fun c => e c.1), if_neg e]; push_cast; ring

/-- C102: the sum of the term over all nodes (its zero bin) is the Dirichlet energy of the spectrum. -/
theorem c102_energy (h : GoodDims (intDims dims)) (hl : LayoutOk dims) (hs : ∀ d ∈ dims, d ≤ 10 ^ 9)
    (factor t : ℝ) {u : Data dims.prod} (hu : IsReal u) (z : Fin dims.prod) (hz : z.val = 0) :
    squaredGradient dims factor (fft dims u) (freqOf dims) t z =
      ((factor / dims.prod * ∑ k, (∑ d ∈ Finset.range dims.length, waveNumber dims k d ^ 2) *
        Complex.normSq (fft dims u k) : ℝ) : ℂ) := by
  have hpos := pos_of_goodDims h
  have hN := prod_ne_zero' hpos
  rw [c102_value, fft_zero_bin _ z hz, ← Finset.mul_sum, Finset.sum_comm]
  have hd : ∀ d, ∑ x, gradCalculate dims d false u x ^ 2 =
      ((1 / dims.prod * ∑ k, waveNumber dims k d ^ 2 * Complex.normSq (fft dims u k) : ℝ) : ℂ) := by
    intro d
    have hp := parseval hpos (gradCalculate dims d false u) (gradCalculate dims d false u)
    have hreal : ∀ x, (starRingEnd ℂ) (gradCalculate dims d false u x) = gradCalculate dims d false u x :=
      fun x => Complex.conj_eq_iff_im.mpr (c71_real h hl hs d u hu x)
    have e1 : ∑ x, gradCalculate dims d false u x ^ 2 =
        ∑ x, gradCalculate dims d false u x * (starRingEnd ℂ) (gradCalculate dims d false u x) :=
      Finset.sum_congr rfl fun x _ => by rw [hreal]; ring
    have e2 : ∀ k, fft dims (gradCalculate dims d false u) k *
        (starRingEnd ℂ) (fft dims (gradCalculate dims d false u) k) =
        ((waveNumber dims k d ^ 2 * Complex.normSq (fft dims u k) : ℝ) : ℂ) := by
      intro k
      rw [fft_grad h hs, Complex.mul_conj, Complex.normSq_mul, gradFactor_eq, Complex.normSq_mul,
        Complex.normSq_I, Complex.normSq_ofReal]
      push_cast; ring
    rw [e1]
    simp only [e2] at hp
    rw [Complex.ofReal_mul, Complex.ofReal_sum]
    rw [hp]
    rw [Complex.ofReal_div, Complex.ofReal_natCast, Complex.ofReal_one, ← mul_assoc, one_div,
      inv_mul_cancel₀ hN, one_mul]
  simp only [hd]
  rw [← Complex.ofReal_sum, ← Complex.ofReal_mul]
  congr 1
  rw [← Finset.mul_sum, Finset.sum_comm]
  simp only [Finset.sum_mul]
  ring

/-- C102: for a real field the term vanishes exactly if the field contains only waves all of whose
components are zero or the highest frequency. (So it vanishes for constant fields, but also for the
checkerboard.) -/
theorem c102_zero_iff (h : GoodDims (intDims dims)) (hl : LayoutOk dims) (hs : ∀ d ∈ dims, d ≤ 10 ^ 9)
    {factor : ℝ} (hf : factor ≠ 0) (t : ℝ) {u : Data dims.prod} (hu : IsReal u) :
    squaredGradient dims factor (fft dims u) (freqOf dims) t = 0 ↔
      ∀ k, fft dims u k ≠ 0 → ∀ d < dims.length,
        fcomp (freqOf dims k) d = 0 ∨ fcomp (freqOf dims k) d = 1 / 2 := by
  have hpos := pos_of_goodDims h
  have hP : 0 < dims.prod := Nat.pos_of_ne_zero (by
    rw [Ne, List.prod_eq_zero_iff]; intro hm; exact absurd (hpos 0 hm) (by omega))
  have hN : (dims.prod : ℝ) ≠ 0 := by exact_mod_cast hP.ne'
  have hw : ∀ k d, waveNumber dims k d = 0 ↔
      fcomp (freqOf dims k) d = 0 ∨ fcomp (freqOf dims k) d = 1 / 2 := by
    intro k d
    unfold waveNumber
    split_ifs with e
    · simp [e]
    · constructor
      · intro e0; left; simpa [Real.pi_ne_zero] using e0
      · rintro (e0 | e0)
        · rw [e0, mul_zero]
        · exact absurd e0 e
  constructor
  · intro h0 k hk d hd
    have hz := congrFun h0 ⟨0, hP⟩
    rw [c102_energy h hl hs factor t hu ⟨0, hP⟩ rfl] at hz
    have hz' : factor / dims.prod * ∑ k, (∑ d ∈ Finset.range dims.length, waveNumber dims k d ^ 2) *
        Complex.normSq (fft dims u k) = 0 := Complex.ofReal_eq_zero.mp hz
    have hsum := (mul_eq_zero.mp hz').resolve_left (div_ne_zero hf hN)
    have hnn : ∀ k ∈ Finset.univ, 0 ≤ (∑ d ∈ Finset.range dims.length, waveNumber dims k d ^ 2) *
        Complex.normSq (fft dims u k) := fun k _ =>
      mul_nonneg (Finset.sum_nonneg fun d _ => sq_nonneg _) (Complex.normSq_nonneg _)
    have h1 := (Finset.sum_eq_zero_iff_of_nonneg hnn).mp hsum k (Finset.mem_univ k)
    have h2 := (mul_eq_zero.mp h1).resolve_right (fun e => hk (Complex.normSq_eq_zero.mp e))
    have h3 := (Finset.sum_eq_zero_iff_of_nonneg fun d _ => sq_nonneg _).mp h2 d (Finset.mem_range.mpr hd)
    exact (hw k d).mp (pow_eq_zero_iff (by norm_num) |>.mp h3)
  · intro hk
    have hg : ∀ d < dims.length, gradCalculate dims d false u = fun _ => 0 := by
      intro d hd
      apply fft_injective hpos
      funext k
      rw [fft_grad h hs, gradFactor_eq]
      have hz : fft dims (fun _ : Fin dims.prod => (0 : ℂ)) k = 0 := by unfold fft; simp
      rw [hz]
      by_cases hu0 : fft dims u k = 0
      · rw [hu0, mul_zero]
      · rw [(hw k d).mpr (hk k hu0 d hd)]; simp
    rw [c102_value]
    funext k
    have : (fun x : Fin dims.prod => (factor : ℂ) * ∑ d ∈ Finset.range dims.length,
        gradCalculate dims d false u x ^ 2) = fun _ => 0 := by
      funext x
      rw [Finset.sum_eq_zero, mul_zero]
      intro d hd
      rw [hg d (Finset.mem_range.mp hd)]; norm_num
    rw [this]
    unfold fft; simp

/-- A bin of the 4×6 domain that contributes, and one (the checkerboard) that does not. -/
example : GoodDims (intDims [4, 6]) ∧ LayoutOk [4, 6] ∧ (∀ d ∈ [4, 6], d ≤ 10 ^ 9) ∧
    freq (intDims [4, 6]) 7 = some [1/4, 1/6] ∧ freq (intDims [4, 6]) 15 = some [1/2, 1/2] := by
  refine ⟨⟨by decide, by decide⟩, trivial, by decide, by decide +kernel, by decide +kernel⟩

end Gopf.Props
