import Verif.Proofs.Stepper

/-!
# Parseval's identity and linearity of the transform
-/

namespace Gopf.Pfutil
open scoped BigOperators

variable {dims : List ℕ}

theorem prod_ne_zero' (h : ∀ d ∈ dims, 0 < d) : (dims.prod : ℂ) ≠ 0 := by
  have : 0 < dims.prod := Nat.pos_of_ne_zero (by
    rw [Ne, List.prod_eq_zero_iff]; intro hm; exact absurd (h 0 hm) (by omega))
  exact_mod_cast this.ne'

theorem parseval (h : ∀ d ∈ dims, 0 < d) (a b : Fin dims.prod → ℂ) :
    ∑ k, fft dims a k * (starRingEnd ℂ) (fft dims b k) =
      dims.prod * ∑ x, a x * (starRingEnd ℂ) (b x) := by
  have h1 : ∀ k, fft dims a k * (starRingEnd ℂ) (fft dims b k) =
      ∑ x, a x * (starRingEnd ℂ) (fft dims b k * cis (phase dims k x)) := by
    intro k
    conv_lhs => rw [fft]
    rw [Finset.sum_mul]
    refine Finset.sum_congr rfl fun x _ => ?_
    rw [map_mul, cis_conj]; ring
  simp only [h1]
  rw [Finset.sum_comm, Finset.mul_sum]
  refine Finset.sum_congr rfl fun x _ => ?_
  rw [← Finset.mul_sum, ← map_sum]
  have := ifft_fft h b x
  unfold ifft at this
  rw [this, map_mul, Complex.conj_natCast]
  ring

theorem fft_injective (h : ∀ d ∈ dims, 0 < d) {a b : Fin dims.prod → ℂ}
    (e : fft dims a = fft dims b) : a = b := by
  funext x
  have h1 := ifft_fft h a x
  rw [e, ifft_fft h b x] at h1
  exact (mul_left_cancel₀ (prod_ne_zero' h) h1).symm

theorem fft_surjective (h : ∀ d ∈ dims, 0 < d) (F : Fin dims.prod → ℂ) :
    fft dims (fun x => ifft dims F x / (dims.prod : ℂ)) = F := by
  funext k
  have hN := prod_ne_zero' h
  have e2 : fft dims (fun x => ifft dims F x / (dims.prod : ℂ)) k =
      fft dims (ifft dims F) k / (dims.prod : ℂ) := by
    unfold fft
    rw [div_eq_mul_inv, Finset.sum_mul]
    refine Finset.sum_congr rfl fun x _ => ?_
    ring
  rw [e2, fft_ifft h]
  field_simp

theorem fft_add (a b : Fin dims.prod → ℂ) (k : Fin dims.prod) :
    fft dims (fun x => a x + b x) k = fft dims a k + fft dims b k := by
  unfold fft
  rw [← Finset.sum_add_distrib]
  exact Finset.sum_congr rfl fun x _ => by ring

theorem fft_sub (a b : Fin dims.prod → ℂ) (k : Fin dims.prod) :
    fft dims (fun x => a x - b x) k = fft dims a k - fft dims b k := by
  unfold fft
  rw [← Finset.sum_sub_distrib]
  exact Finset.sum_congr rfl fun x _ => by ring

theorem fft_smul (c : ℂ) (a : Fin dims.prod → ℂ) (k : Fin dims.prod) :
    fft dims (fun x => c * a x) k = c * fft dims a k := by
  unfold fft
  rw [Finset.mul_sum]
  exact Finset.sum_congr rfl fun x _ => by ring

end Gopf.Pfutil
