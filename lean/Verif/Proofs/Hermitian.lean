import Verif.Spec.Reality
import Verif.Props.Dft
import Verif.Proofs.Stepper

/-!
# Real fields and conjugate symmetric spectra
-/

namespace Gopf.Pf
open Spec Pfutil

variable {dims : List ℕ}

theorem conj_exists (h : GoodDims (intDims dims)) (b : Fin dims.prod) :
    ∃ c : Fin dims.prod, conjugateNode (intDims dims) (b.val : Int) = some (c.val : Int) := by
  have hbN : ((b : ℕ) : Int) < numNodes (intDims dims) := by
    rw [numNodes_intDims]; exact_mod_cast b.2
  obtain ⟨p, j, -, -, hj, j0, j1, -, -⟩ := conjugateNode_spec h (by omega) hbN
  rw [numNodes_intDims] at j1
  refine ⟨⟨j.toNat, by omega⟩, ?_⟩
  rw [hj]
  simp [Int.toNat_of_nonneg j0]

theorem pos_of_goodDims (h : GoodDims (intDims dims)) : ∀ d ∈ dims, 0 < d := by
  intro d hd
  have := h.2 (d : Int) (by simp only [intDims, List.mem_map]; exact ⟨d, hd, rfl⟩)
  exact_mod_cast this

theorem prod_ne_zero (h : ∀ d ∈ dims, 0 < d) : (dims.prod : ℂ) ≠ 0 := by
  have : 0 < dims.prod := Nat.pos_of_ne_zero (by
    rw [Ne, List.prod_eq_zero_iff]; intro hm; exact absurd (h 0 hm) (by omega))
  exact_mod_cast this.ne'

theorem hermitian_fft (h : GoodDims (intDims dims)) (hl : LayoutOk dims) {data : Fin dims.prod → ℂ}
    (hr : IsReal data) : Hermitian dims (fft dims data) :=
  fun b c hc => Props.c10_real_spectrum h hl data hr b c hc

/-- A field with conjugate symmetric spectrum is real. -/
theorem real_of_hermitian (h : GoodDims (intDims dims)) (hl : LayoutOk dims)
    {data : Fin dims.prod → ℂ} (hh : Hermitian dims (fft dims data)) : IsReal data := by
  have hpos := pos_of_goodDims h
  let u : Fin dims.prod → ℂ := fun x => ((data x).re : ℂ)
  let v : Fin dims.prod → ℂ := fun x => ((data x).im : ℂ)
  have hu : Hermitian dims (fft dims u) := hermitian_fft h hl (fun x => by simp [u])
  have hv : Hermitian dims (fft dims v) := hermitian_fft h hl (fun x => by simp [v])
  have hsum : ∀ k, fft dims data k = fft dims u k + Complex.I * fft dims v k := by
    intro k
    unfold fft
    rw [Finset.mul_sum, ← Finset.sum_add_distrib]
    refine Finset.sum_congr rfl fun x _ => ?_
    conv_lhs => rw [← Complex.re_add_im (data x)]
    ring
  have hv0 : ∀ b, fft dims v b = 0 := by
    intro b
    obtain ⟨c, hc⟩ := conj_exists h b
    have e := hh b c hc
    rw [hsum, hsum, hu b c hc, hv b c hc, map_add, map_mul, Complex.conj_I] at e
    have h2 : Complex.I * (starRingEnd ℂ) (fft dims v b) = 0 := by linear_combination e / 2
    rcases mul_eq_zero.mp h2 with h3 | h3
    · exact absurd h3 Complex.I_ne_zero
    · exact (map_eq_zero _).mp h3
  intro x
  have e := ifft_fft hpos v x
  have : fft dims v = fun _ => 0 := funext hv0
  rw [this] at e
  have e0 : ifft dims (fun _ => 0) x = 0 := by simp [ifft]
  rw [e0] at e
  rcases mul_eq_zero.mp e.symm with h3 | h3
  · exact absurd h3 (prod_ne_zero hpos)
  · simpa [v] using h3

/-- The squared length of the frequency is the same at conjugate nodes. -/
theorem freq_sq_conj (h : GoodDims (intDims dims)) {b c : Fin dims.prod}
    (hc : conjugateNode (intDims dims) (b.val : Int) = some (c.val : Int)) :
    ((freqOf dims c).map fun x => x ^ 2).sum = ((freqOf dims b).map fun x => x ^ 2).sum := by
  have hbN : ((b : ℕ) : Int) < numNodes (intDims dims) := by
    rw [numNodes_intDims]; exact_mod_cast b.2
  have hcN : ((c : ℕ) : Int) < numNodes (intDims dims) := by
    rw [numNodes_intDims]; exact_mod_cast c.2
  obtain ⟨q, j, hq, hb, hj, -, -, hpj, -⟩ := conjugateNode_spec h (by omega) hbN
  rw [hc] at hj
  obtain rfl : ((c : ℕ) : Int) = j := by simpa using hj
  have hfb := freq_eq h (by omega) hbN hq
  have hfc := freq_eq h (by omega) hcN hpj
  unfold freqOf
  unfold intDims at hfb hfc
  rw [hfb, hfc]
  simp only [Option.getD_some, List.map_map]
  have key : ∀ (ds q : List Int), InBox ds q →
      ((List.zipWith phi (conjPos ds q) ds).map ((fun x : ℝ => x ^ 2) ∘ fun q : ℚ => (q : ℝ))).sum =
        ((List.zipWith phi q ds).map ((fun x : ℝ => x ^ 2) ∘ fun q : ℚ => (q : ℝ))).sum := by
    intro ds
    induction ds with
    | nil => intro q hq; cases hq; rfl
    | cons d ds ih =>
      intro q hq
      cases hq with
      | cons h1 h2 =>
        rename_i x q
        have ih := ih q h2
        simp only [conjPos, List.zipWith_cons_cons, List.map_cons, List.sum_cons] at ih ⊢
        rw [ih]
        congr 1
        simp only [Function.comp]
        rcases phi_conj h1.1 h1.2 with e | ⟨e0, e⟩
        · rw [e]; push_cast; ring
        · have : phi x d = 1 / 2 := by
            exact phi_half (h1.1.trans_lt h1.2) e0
          rw [e, this]; norm_num
  exact key _ _ hb

theorem Hermitian.add {a b : Fin dims.prod → ℂ} (ha : Hermitian dims a) (hb : Hermitian dims b) :
    Hermitian dims (fun k => a k + b k) := fun x y h => by
  simp only [ha x y h, hb x y h, map_add]

theorem Hermitian.zero : Hermitian dims (fun _ => 0) := fun x y h => by simp

theorem Hermitian.sum {α : Type} (l : List α) (g : α → Fin dims.prod → ℂ)
    (h : ∀ a ∈ l, Hermitian dims (g a)) : Hermitian dims (fun k => (l.map fun a => g a k).sum) := by
  induction l with
  | nil => simpa using Hermitian.zero
  | cons a l ih =>
    have := Hermitian.add (h a (by simp)) (ih fun b hb => h b (by simp [hb]))
    simpa using this

theorem Hermitian.mul {a b : Fin dims.prod → ℂ} (ha : Hermitian dims a) (hb : Hermitian dims b) :
    Hermitian dims (fun k => a k * b k) := fun x y h => by
  simp only [ha x y h, hb x y h, map_mul]

theorem Hermitian.div {a b : Fin dims.prod → ℂ} (ha : Hermitian dims a) (hb : Hermitian dims b) :
    Hermitian dims (fun k => a k / b k) := fun x y h => by
  simp only [ha x y h, hb x y h, map_div₀]

theorem Hermitian.const (r : ℝ) : Hermitian dims (fun _ => (r : ℂ)) := fun x y h => by
  simp

end Gopf.Pf
