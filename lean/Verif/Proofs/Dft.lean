import Verif.Model.Dft
import Verif.Proofs.Freq
import Mathlib.Algebra.Field.GeomSum
import Mathlib.Analysis.SpecialFunctions.Complex.Log

namespace Gopf.Pfutil
open scoped BigOperators

theorem cis_add (r s : ℚ) : cis (r + s) = cis r * cis s := by
  unfold cis; rw [← Complex.exp_add]; congr 1; push_cast; ring

theorem cis_zero : cis 0 = 1 := by simp [cis]

theorem cis_eq_one_iff (r : ℚ) : cis r = 1 ↔ ∃ m : ℤ, r = m := by
  unfold cis
  rw [Complex.exp_eq_one_iff]
  have h : (2 * Real.pi * Complex.I : ℂ) ≠ 0 := by
    simp [Real.pi_ne_zero, Complex.I_ne_zero]
  constructor
  · rintro ⟨n, hn⟩
    refine ⟨n, ?_⟩
    rw [mul_comm (n : ℂ)] at hn
    have := mul_left_cancel₀ h hn
    exact_mod_cast this
  · rintro ⟨m, rfl⟩
    exact ⟨m, by push_cast; ring⟩

theorem cis_int (m : ℤ) : cis (m : ℚ) = 1 := (cis_eq_one_iff _).mpr ⟨m, rfl⟩

theorem cis_neg_mul (r : ℚ) : cis (-r) * cis r = 1 := by
  rw [← cis_add]; simp [cis_zero]

theorem cis_conj (r : ℚ) : (starRingEnd ℂ) (cis r) = cis (-r) := by
  unfold cis
  rw [← Complex.exp_conj]
  congr 1
  simp [Complex.conj_ofNat]

theorem cis_nsmul (k : ℕ) (r : ℚ) : cis (k * r) = cis r ^ k := by
  induction k with
  | zero => simp [cis_zero]
  | succ k ih => rw [pow_succ, ← ih, ← cis_add]; congr 1; push_cast; ring

/-- Orthogonality in one dimension. -/
theorem sum_cis {n : ℕ} (hn : 0 < n) (m : ℤ) :
    ∑ k ∈ Finset.range n, cis ((k : ℚ) * (m / n)) = if (n : ℤ) ∣ m then (n : ℂ) else 0 := by
  have hnq : (n : ℚ) ≠ 0 := by exact_mod_cast hn.ne'
  simp only [cis_nsmul]
  split_ifs with h
  · obtain ⟨c, rfl⟩ := h
    have : cis (((n : ℤ) * c : ℤ) / (n : ℚ)) = 1 := by
      rw [cis_eq_one_iff]; exact ⟨c, by push_cast; field_simp⟩
    rw [this]; simp
  · have hz : cis ((m : ℚ) / n) ≠ 1 := by
      rw [Ne, cis_eq_one_iff]
      rintro ⟨c, hc⟩
      rw [div_eq_iff hnq] at hc
      exact h ⟨c, by have : (m : ℚ) = ((n * c : ℤ) : ℚ) := by push_cast; linarith
                     exact_mod_cast this⟩
    rw [geom_sum_eq hz]
    have : cis ((m : ℚ) / n) ^ n = 1 := by
      rw [← cis_nsmul, show (n : ℚ) * (m / n) = (m : ℤ) by field_simp]; exact cis_int m
    rw [this]; simp

theorem sum_range_mul {M : Type} [AddCommMonoid M] (a b : ℕ) (hb : 0 < b) (f : ℕ → ℕ → M) :
    ∑ i ∈ Finset.range (a * b), f (i / b) (i % b) =
      ∑ x ∈ Finset.range a, ∑ y ∈ Finset.range b, f x y := by
  rw [← Finset.sum_product']
  refine Finset.sum_nbij' (fun i => (i / b, i % b)) (fun p => p.1 * b + p.2) ?_ ?_ ?_ ?_ ?_
  · intro i hi
    simp only [Finset.mem_range, Finset.mem_product] at hi ⊢
    exact ⟨Nat.div_lt_of_lt_mul (by rwa [mul_comm]), Nat.mod_lt _ hb⟩
  · rintro ⟨x, y⟩ hp
    simp only [Finset.mem_range, Finset.mem_product] at hp ⊢
    calc x * b + y < x * b + b := by omega
      _ = (x + 1) * b := by ring
      _ ≤ a * b := Nat.mul_le_mul_right _ hp.1
  · intro i _
    simp only []
    rw [mul_comm]; exact Nat.div_add_mod i b
  · rintro ⟨x, y⟩ hp
    simp only [Finset.mem_range, Finset.mem_product] at hp
    simp only [Prod.mk.injEq]
    exact ⟨by rw [add_comm, Nat.add_mul_div_right _ _ hb, Nat.div_eq_of_lt hp.2, zero_add],
      by rw [add_comm, Nat.add_mul_mod_self_right, Nat.mod_eq_of_lt hp.2]⟩
  · intro i _; rfl

theorem rowMajor_length : ∀ (dims : List ℕ) (i : ℕ), (rowMajor dims i).length = dims.length
  | [], _ => rfl
  | _ :: ns, i => by simp [rowMajor, rowMajor_length ns]

/-- The flat index is determined by the multi-index. -/
theorem rowMajor_inj : ∀ {dims : List ℕ} {i j : ℕ}, i < dims.prod → j < dims.prod →
    rowMajor dims i = rowMajor dims j → i = j
  | [], i, j, hi, hj, _ => by simp at hi hj; omega
  | n :: ns, i, j, hi, hj, h => by
    simp only [List.prod_cons] at hi hj
    simp only [rowMajor, List.cons.injEq] at h
    have hM : 0 < ns.prod := by
      rcases Nat.eq_zero_or_pos ns.prod with h0 | h0
      · rw [h0] at hi; simp at hi
      · exact h0
    have e1 := rowMajor_inj (Nat.mod_lt i hM) (Nat.mod_lt j hM) h.2
    rw [Nat.mod_eq_of_lt (Nat.div_lt_of_lt_mul (by rwa [mul_comm])),
      Nat.mod_eq_of_lt (Nat.div_lt_of_lt_mul (by rwa [mul_comm]))] at h
    rw [← Nat.div_add_mod i ns.prod, ← Nat.div_add_mod j ns.prod, h.1, e1]

theorem phaseSum_symm : ∀ (d a b : List ℕ), phaseSum d a b = phaseSum d b a
  | [], _, _ => by simp [phaseSum]
  | _ :: _, [], [] => rfl
  | _ :: _, [], _ :: _ => rfl
  | _ :: _, _ :: _, [] => rfl
  | n :: ns, a :: as, b :: bs => by
    simp only [phaseSum, phaseSum_symm ns as bs]; ring

theorem phase_symm (d : List ℕ) (a b : ℕ) : phase d a b = phase d b a := phaseSum_symm _ _ _

/-- Orthogonality of the kernel. -/
theorem sum_kernel : ∀ (dims : List ℕ), (∀ d ∈ dims, 0 < d) → ∀ (x y : ℕ),
    x < dims.prod → y < dims.prod →
    ∑ k ∈ Finset.range dims.prod, cis (phase dims k x) * cis (-phase dims k y) =
      if x = y then (dims.prod : ℂ) else 0
  | [], _, x, y, hx, hy => by
    simp at hx hy; subst hx hy
    simp [phase, phaseSum, cis_zero]
  | n :: ns, h, x, y, hx, hy => by
    have hn : 0 < n := h n (by simp)
    have hns : ∀ d ∈ ns, 0 < d := fun d hd => h d (by simp [hd])
    have hM : 0 < ns.prod := List.prod_pos hns
    have ih := sum_kernel ns hns (x % ns.prod) (y % ns.prod) (Nat.mod_lt _ hM) (Nat.mod_lt _ hM)
    simp only [List.prod_cons] at hx hy
    have hx' : x / ns.prod < n := Nat.div_lt_of_lt_mul (by rwa [mul_comm])
    have hy' : y / ns.prod < n := Nat.div_lt_of_lt_mul (by rwa [mul_comm])
    have hterm : ∀ k ∈ Finset.range (n * ns.prod),
        cis (phase (n :: ns) k x) * cis (-phase (n :: ns) k y) =
        (fun (a b : ℕ) => cis ((a : ℚ) * ((((x / ns.prod : ℕ) : ℤ) - ((y / ns.prod : ℕ) : ℤ) : ℤ) / n)) *
          (cis (phase ns b (x % ns.prod)) * cis (-phase ns b (y % ns.prod))))
          (k / ns.prod) (k % ns.prod) := by
      intro k hk
      rw [Finset.mem_range] at hk
      have hk' : k / ns.prod < n := Nat.div_lt_of_lt_mul (by rwa [mul_comm])
      simp only []
      rw [← cis_add, ← cis_add, ← cis_add]
      congr 1
      simp only [phase, rowMajor, phaseSum, Nat.mod_eq_of_lt hk', Nat.mod_eq_of_lt hx',
        Nat.mod_eq_of_lt hy']
      generalize x / ns.prod = X
      generalize y / ns.prod = Y
      generalize k / ns.prod = K
      push_cast
      ring
    rw [List.prod_cons, Finset.sum_congr rfl hterm, sum_range_mul n ns.prod hM (fun (a b : ℕ) =>
      cis ((a : ℚ) * ((((x / ns.prod : ℕ) : ℤ) - ((y / ns.prod : ℕ) : ℤ) : ℤ) / n)) *
          (cis (phase ns b (x % ns.prod)) * cis (-phase ns b (y % ns.prod))))]
    simp only [← Finset.mul_sum, ih]
    rw [← Finset.sum_mul, sum_cis hn]
    have hdvd : (n : ℤ) ∣ ((x / ns.prod : ℕ) : ℤ) - ((y / ns.prod : ℕ) : ℤ) ↔
        x / ns.prod = y / ns.prod := by
      constructor
      · intro hd
        generalize x / ns.prod = X at *
        generalize y / ns.prod = Y at *
        have := Int.eq_zero_of_abs_lt_dvd hd (by rw [abs_lt]; omega)
        omega
      · intro e; rw [e]; simp
    have hiff : x = y ↔ x / ns.prod = y / ns.prod ∧ x % ns.prod = y % ns.prod := by
      constructor
      · rintro rfl; exact ⟨rfl, rfl⟩
      · rintro ⟨e1, e2⟩
        rw [← Nat.div_add_mod x ns.prod, ← Nat.div_add_mod y ns.prod, e1, e2]
    rw [if_congr hdvd rfl rfl, if_congr hiff rfl rfl]
    by_cases e1 : x / ns.prod = y / ns.prod <;> by_cases e2 : x % ns.prod = y % ns.prod <;>
      simp [e1, e2]

theorem sum_kernel_fin {dims : List ℕ} (h : ∀ d ∈ dims, 0 < d) (x y : Fin dims.prod) :
    ∑ k : Fin dims.prod, cis (phase dims k x) * cis (-phase dims k y) =
      if x = y then (dims.prod : ℂ) else 0 := by
  have := sum_kernel dims h x y x.2 y.2
  rw [Finset.sum_range] at this
  rw [this]
  simp [Fin.ext_iff]

theorem ifft_fft {dims : List ℕ} (h : ∀ d ∈ dims, 0 < d) (data : Fin dims.prod → ℂ)
    (x : Fin dims.prod) : ifft dims (fft dims data) x = dims.prod * data x := by
  unfold ifft fft
  simp only [Finset.sum_mul]
  rw [Finset.sum_comm]
  have : ∀ y : Fin dims.prod, ∑ k : Fin dims.prod,
      data y * cis (-phase dims k y) * cis (phase dims k x) =
      data y * if x = y then (dims.prod : ℂ) else 0 := by
    intro y
    rw [← sum_kernel_fin h x y, Finset.mul_sum]
    refine Finset.sum_congr rfl fun k _ => ?_
    ring
  simp only [this]
  simp [mul_comm]

theorem fft_ifft {dims : List ℕ} (h : ∀ d ∈ dims, 0 < d) (data : Fin dims.prod → ℂ)
    (x : Fin dims.prod) : fft dims (ifft dims data) x = dims.prod * data x := by
  unfold ifft fft
  simp only [Finset.sum_mul]
  rw [Finset.sum_comm]
  have : ∀ y : Fin dims.prod, ∑ k : Fin dims.prod,
      data y * cis (phase dims y k) * cis (-phase dims x k) =
      data y * if y = x then (dims.prod : ℂ) else 0 := by
    intro y
    rw [← sum_kernel_fin h y x, Finset.mul_sum]
    refine Finset.sum_congr rfl fun k _ => ?_
    rw [phase_symm dims y k, phase_symm dims x k]
    ring
  simp only [this]
  simp [mul_comm]

theorem sum_single {n : ℕ} (i : Fin n) (g : Fin n → ℂ) :
    ∑ x : Fin n, (Pi.single i 1 : Fin n → ℂ) x * g x = g i := by
  rw [Finset.sum_eq_single i]
  · rw [Pi.single_eq_same, one_mul]
  · intro j _ hj; rw [Pi.single_apply, if_neg hj, zero_mul]
  · exact fun h => absurd (Finset.mem_univ i) h

theorem fft_single (dims : List ℕ) (i b : Fin dims.prod) :
    fft dims (Pi.single i 1) b = cis (-phase dims b i) :=
  sum_single i _

/-- Kernel phases that differ by an integer give the same kernel. -/
theorem cis_congr {r s : ℚ} (h : ∃ m : ℤ, r = s + m) : cis r = cis s := by
  obtain ⟨m, rfl⟩ := h
  rw [cis_add, cis_int, mul_one]

end Gopf.Pfutil
