import Verif.Props.Filter
import Verif.Proofs.Hermitian
import Mathlib.Analysis.Real.Pi.Bounds

/-!
# C75: the Vandeven filter applied to a field
-/

namespace Gopf.Props
open Spec Pf Pfutil

variable {dims : List ℕ}

/-- The Vandeven filter as the filter of a stepper. -/
noncomputable def vandevenFilter (order : ℕ) (x : ℝ) : ℝ :=
  (vandevenEval (newVandeven order) x).getD 0

/-- The components of a frequency are at most one half. -/
theorem freqOf_sq_le (h : GoodDims (intDims dims)) (k : Fin dims.prod) :
    dotR (freqOf dims k) (freqOf dims k) ≤ dims.length / 4 := by
  have hk : ((k : ℕ) : Int) < numNodes (intDims dims) := by
    rw [numNodes_intDims]; exact_mod_cast k.2
  obtain ⟨p, hp, hb, -⟩ := pos_spec h (Int.natCast_nonneg k.val) hk
  have hf := freq_eq h (Int.natCast_nonneg k.val) hk hp
  unfold freqOf
  unfold intDims at hf hb
  rw [hf]
  simp only [Option.getD_some]
  have key : ∀ (ds : List ℕ) (q : List Int), InBox (ds.map Int.ofNat) q →
      dotR ((List.zipWith phi q (ds.map Int.ofNat)).map fun q : ℚ => (q : ℝ))
        ((List.zipWith phi q (ds.map Int.ofNat)).map fun q : ℚ => (q : ℝ)) ≤ ds.length / 4 := by
    intro ds
    induction ds with
    | nil => intro q hq; cases hq; simp [dotR]
    | cons d ds ih =>
      intro q hq
      cases hq with
      | cons h1 h2 =>
        rename_i x q
        have ih := ih q h2
        simp only [dotR, List.map_cons, List.zipWith_cons_cons, List.sum_cons, List.length_cons] at ih ⊢
        have hr := phi_range h1.1 h1.2
        have hr1 : ((-(1 / 2) : ℚ) : ℝ) ≤ ((phi x (Int.ofNat d) : ℚ) : ℝ) := by exact_mod_cast hr.1.le
        have hr2 : ((phi x (Int.ofNat d) : ℚ) : ℝ) ≤ ((1 / 2 : ℚ) : ℝ) := by exact_mod_cast hr.2
        push_cast at hr1 hr2
        push_cast
        nlinarith
  exact key dims p hb

/-- C75: in two dimensions the filter never removes more than half of any amplitude (up to the value of
the filter at its cutoff): the highest frequencies of the grid are mapped below the middle of the
filter, not to its cutoff. -/
theorem c75_modal_weak (h : GoodDims (intDims dims)) (h2 : dims.length = 2) (order : ℕ)
    (ho : 0 < order) (c : ℝ) (hc : vandevenEval (newVandeven order) 1 = some c)
    (data : Data dims.prod) (k : Fin dims.prod) :
    ∃ w : ℝ, (1 + c) / 2 ≤ w ∧ w ≤ 1 ∧
      applyModalFilter (vandevenFilter order) (freqOf dims) data k = data k * (w : ℂ) := by
  refine ⟨_, ?_, ?_, rfl⟩
  all_goals
    have hpi := Real.pi_gt_three
    have hn0 : 0 ≤ dotR (freqOf dims k) (freqOf dims k) := by
      have : ∀ l : List ℝ, 0 ≤ dotR l l := by
        intro l
        induction l with
        | nil => simp [dotR]
        | cons a l ih =>
          simp only [dotR, List.zipWith_cons_cons, List.sum_cons] at ih ⊢
          nlinarith
      exact this _
    have hle := freqOf_sq_le h k
    rw [h2] at hle
    have hs : Real.sqrt (dotR (freqOf dims k) (freqOf dims k)) ≤ 3 / 4 := by
      rw [Real.sqrt_le_left (by norm_num)]
      norm_num at hle ⊢
      linarith
    have hs0 := Real.sqrt_nonneg (dotR (freqOf dims k) (freqOf dims k))
    have hx0 : 0 ≤ Real.sqrt (dotR (freqOf dims k) (freqOf dims k)) * 2 / Real.pi := by positivity
    have hx1 : Real.sqrt (dotR (freqOf dims k) (freqOf dims k)) * 2 / Real.pi ≤ 1 / 2 := by
      rw [div_le_iff₀ (by linarith)]; linarith
    obtain ⟨v, hv⟩ := c75_total order ho _ hx0
    unfold vandevenFilter
    rw [hv, Option.getD_some]
  · obtain ⟨u, hu⟩ := c75_total order ho (1 / 2) (by norm_num)
    have hsym := c75_symmetry order ho (1 / 2) (by norm_num) (by norm_num) u u c hu
      (by rw [show (1 : ℝ) - 1 / 2 = 1 / 2 by norm_num]; exact hu) hc
    have := c75_antitone order ho _ _ hx0 hx1 v u hv hu
    linarith
  · exact c75_antitone order ho 0 _ le_rfl hx0 1 v (c75_start order ho) hv

/-- C75: the filter leaves the mean of a field alone. -/
theorem c75_mean (order : ℕ) (ho : 0 < order) (freq : Frequency dims.prod) (data : Data dims.prod)
    (k : Fin dims.prod) (hk : ∀ f ∈ freq k, f = 0) :
    applyModalFilter (vandevenFilter order) freq data k = data k := by
  have h0 : dotR (freq k) (freq k) = 0 := by
    have : ∀ l : List ℝ, (∀ f ∈ l, f = 0) → dotR l l = 0 := by
      intro l
      induction l with
      | nil => intro _; simp [dotR]
      | cons a l ih =>
        intro hl
        have ih := ih fun f hf => hl f (by simp [hf])
        simp only [dotR, List.zipWith_cons_cons, List.sum_cons] at ih ⊢
        rw [ih, hl a (by simp)]; simp
    exact this _ hk
  unfold applyModalFilter vandevenFilter
  rw [h0, Real.sqrt_zero, zero_mul, zero_div, c75_start order ho]
  simp

end Gopf.Props
