import Verif.Props.Reality
import Verif.Props.Freq

/-!
# C10, C24: on which domains real fields stay real
-/

namespace Gopf.Props
open Spec Pf Pfutil

variable {dims : List ℕ}

private theorem int_of_conj {b c x : Fin dims.prod} (h : ∀ data : Fin dims.prod → ℂ, (∀ i, (data i).im = 0) →
    fft dims data c = (starRingEnd ℂ) (fft dims data b)) : ∃ m : ℤ, phase dims c x + phase dims b x = m := by
  have := h (Pi.single x 1) (fun i => by rw [Pi.single_apply]; split_ifs <;> simp)
  rw [fft_single, fft_single, cis_conj, neg_neg] at this
  have e : cis (phase dims c x + phase dims b x) = 1 := by
    rw [cis_add, ← this, ← cis_add]
    simp [cis_zero]
  exact (cis_eq_one_iff _).mp e

private theorem dvd_of_int {a d : ℕ} (hd : 0 < d) (h : ∃ m : ℤ, (a : ℚ) / d = m) : d ∣ a := by
  obtain ⟨m, hm⟩ := h
  have hd' : (d : ℚ) ≠ 0 := by exact_mod_cast hd.ne'
  rw [div_eq_iff hd'] at hm
  have : (a : ℤ) = m * d := by exact_mod_cast hm
  exact Int.natCast_dvd_natCast.mp ⟨m, by rw [this]; ring⟩

/-- Phases of the transform with the nodes of the last, the middle and the first axis. -/
private theorem phase_last {d0 d1 d2 : ℕ} (h2 : 2 ≤ d2) (p1 : 0 < d1) (b : ℕ) :
    phase [d0, d1, d2] b 1 = ((b % d2 : ℕ) : ℚ) / d2 := by
  have u1 : 1 / (d1 * d2) = 0 := Nat.div_eq_of_lt (by nlinarith)
  have u2 : 1 % (d1 * d2) = 1 := Nat.mod_eq_of_lt (by nlinarith)
  have u3 : 1 / d2 = 0 := Nat.div_eq_of_lt (by omega)
  have u4 : 1 % d2 = 1 := Nat.mod_eq_of_lt (by omega)
  have u5 : b % (d1 * d2) % d2 = b % d2 := Nat.mod_mod_of_dvd _ (Dvd.intro_left d1 rfl)
  simp [phase, rowMajor, phaseSum, u1, u2, u3, u4, u5]

private theorem phase_middle {d0 d1 d2 : ℕ} (h1 : 2 ≤ d1) (p2 : 0 < d2) (b : ℕ) :
    phase [d0, d1, d2] b d2 = ((b / d2 % d1 : ℕ) : ℚ) / d1 := by
  have u1 : d2 / (d1 * d2) = 0 := Nat.div_eq_of_lt (by nlinarith)
  have u2 : d2 % (d1 * d2) = d2 := Nat.mod_eq_of_lt (by nlinarith)
  have u3 : d2 / d2 = 1 := Nat.div_self p2
  have u4 : 1 % d1 = 1 := Nat.mod_eq_of_lt (by omega)
  have u5 : b % (d1 * d2) / d2 % d1 = b / d2 % d1 := by
    rw [mul_comm d1 d2, Nat.mod_mul_right_div_self, Nat.mod_mod]
  simp [phase, rowMajor, phaseSum, u1, u2, u3, u4, u5]

private theorem phase_first {d0 d1 d2 : ℕ} (h0 : 2 ≤ d0) (p1 : 0 < d1) (p2 : 0 < d2) (b : ℕ) :
    phase [d0, d1, d2] b (d1 * d2) = ((b / (d1 * d2) % d0 : ℕ) : ℚ) / d0 := by
  have u1 : d1 * d2 / (d1 * d2) = 1 := Nat.div_self (by positivity)
  have u2 : 1 % d0 = 1 := Nat.mod_eq_of_lt (by omega)
  simp [phase, rowMajor, phaseSum, u1, u2]

/-- Two sides, `n` for the library and `m` for the transform, are equal if the conjugate of the first bin along the axis
is the same. -/
private theorem side_eq {n m : ℕ} (hn : 2 ≤ n) (hm : 2 ≤ m) (h1 : m ∣ (n - 1) % m + 1) (h2 : (n - 1) / m = 0) : n = m := by
  have h3 : n - 1 < m := by
    by_contra h
    have := Nat.div_pos (Nat.le_of_not_lt h) (by omega)
    omega
  rw [Nat.mod_eq_of_lt h3] at h1
  have := Nat.le_of_dvd (by omega) h1
  omega

private theorem zero_of_int {a d : ℕ} (hd : 0 < d) (h : ∃ m : ℤ, ((a % d : ℕ) : ℚ) / d = m) (ha : a < d) : a = 0 := by
  have := dvd_of_int hd h
  rw [Nat.mod_eq_of_lt ha] at this
  exact Nat.eq_zero_of_dvd_of_lt this ha

/-- The conjugates of the first bins along the middle and the first axis of the library. -/
private theorem conj_one {d0 d1 d2 : ℕ} (p0 : 0 < d0) (h1 : 2 ≤ d1) (p2 : 0 < d2) :
    conjugateNode (intDims [d0, d1, d2]) ((1 : ℕ) : Int) = some ((d1 - 1 : ℕ) : Int) := by
  have hg : GoodDims (intDims [d0, d1, d2]) := by
    refine ⟨Or.inr rfl, ?_⟩
    intro d hd
    simp only [intDims, List.map_cons, List.map_nil, List.mem_cons, List.not_mem_nil, or_false, Int.ofNat_eq_natCast] at hd
    rcases hd with rfl | rfl | rfl <;> omega
  have hlt : (1 : ℕ) < [d0, d1, d2].prod := by
    simp only [List.prod_cons, List.prod_nil, mul_one]
    calc 1 < d1 := by omega
      _ ≤ d1 * d2 := Nat.le_mul_of_pos_right _ p2
      _ ≤ d0 * (d1 * d2) := Nat.le_mul_of_pos_left _ p0
  have hN : ((1 : ℕ) : Int) < numNodes (intDims [d0, d1, d2]) := by
    rw [numNodes_intDims]
    exact_mod_cast hlt
  have hp : pos (intDims [d0, d1, d2]) ((1 : ℕ) : Int) = some [0, 1, 0] := by
    simp only [intDims, List.map_cons, List.map_nil, pos, Int.ofNat_eq_natCast]
    rw [pos3_eq (by exact_mod_cast p0) (by omega) (by omega)]
    have u1 : ((1 : ℕ) : Int) / (d1 : Int) = 0 := Int.ediv_eq_zero_of_lt (by omega) (by omega)
    have u2 : ((1 : ℕ) : Int) % (d1 : Int) = 1 := Int.emod_eq_of_lt (by omega) (by omega)
    have u3 : ((1 : ℕ) : Int) / ((d0 : Int) * d1) = 0 := Int.ediv_eq_zero_of_lt (by omega) (by
      have : (d1 : Int) ≤ (d0 : Int) * d1 := by exact_mod_cast Nat.le_mul_of_pos_left _ p0
      omega)
    rw [u1, u2, u3]
    simp
  rw [conjugateNode_eq hg (by omega) hN hp]
  simp only [intDims, conjPos, List.map_cons, List.map_nil, List.zipWith_cons_cons, List.zipWith_nil_left, nodeIdx,
    nodeIdx3, Int.ofNat_eq_natCast, Int.sub_zero, Int.emod_self, Option.some.injEq]
  rw [Int.emod_eq_of_lt (by omega) (by omega)]
  push_cast [show 1 ≤ d1 by omega]
  ring

private theorem conj_side {d0 d1 d2 : ℕ} (h0 : 2 ≤ d0) (p1 : 0 < d1) (p2 : 0 < d2) :
    conjugateNode (intDims [d0, d1, d2]) (d1 : Int) = some (((d0 - 1) * d1 : ℕ) : Int) := by
  have hg : GoodDims (intDims [d0, d1, d2]) := by
    refine ⟨Or.inr rfl, ?_⟩
    intro d hd
    simp only [intDims, List.map_cons, List.map_nil, List.mem_cons, List.not_mem_nil, or_false, Int.ofNat_eq_natCast] at hd
    rcases hd with rfl | rfl | rfl <;> omega
  have hlt : d1 < [d0, d1, d2].prod := by
    simp only [List.prod_cons, List.prod_nil, mul_one]
    calc d1 < d0 * d1 := by nlinarith
      _ ≤ d0 * (d1 * d2) := Nat.mul_le_mul_left _ (Nat.le_mul_of_pos_right _ p2)
  have hN : (d1 : Int) < numNodes (intDims [d0, d1, d2]) := by
    rw [numNodes_intDims]
    exact_mod_cast hlt
  have hp : pos (intDims [d0, d1, d2]) (d1 : Int) = some [1, 0, 0] := by
    simp only [intDims, List.map_cons, List.map_nil, pos, Int.ofNat_eq_natCast]
    rw [pos3_eq (by omega) (by omega) (by omega)]
    have u1 : (d1 : Int) / (d1 : Int) = 1 := Int.ediv_self (by omega)
    have u2 : (d1 : Int) % (d1 : Int) = 0 := Int.emod_self
    have u3 : (d1 : Int) / ((d0 : Int) * d1) = 0 := Int.ediv_eq_zero_of_lt (by omega) (by
      have : d1 < d0 * d1 := by nlinarith
      exact_mod_cast this)
    rw [u1, u2, u3, Int.emod_eq_of_lt (by omega) (by omega)]
  rw [conjugateNode_eq hg (by omega) hN hp]
  simp only [intDims, conjPos, List.map_cons, List.map_nil, List.zipWith_cons_cons, List.zipWith_nil_left, nodeIdx,
    nodeIdx3, Int.ofNat_eq_natCast, Int.sub_zero, Int.emod_self, Option.some.injEq]
  rw [Int.emod_eq_of_lt (by omega) (by omega)]
  push_cast [show 1 ≤ d0 by omega]
  ring

/-- C10: the spectrum of every real field at the conjugate node is the complex conjugate of the spectrum at the node
exactly on the domains of `LayoutOk`. -/
theorem c10_exact (h : GoodDims (intDims dims)) :
    (∀ data : Fin dims.prod → ℂ, (∀ i, (data i).im = 0) → ∀ b c : Fin dims.prod,
      conjugateNode (intDims dims) (b.val : Int) = some (c.val : Int) →
      fft dims data c = (starRingEnd ℂ) (fft dims data b)) ↔ LayoutOk dims := by
  constructor
  swap
  · intro hl data hr b c hc
    exact c10_real_spectrum h hl data hr b c hc
  intro hall
  rcases goodDims_nat h with ⟨d0, d1, rfl, p0, p1⟩ | ⟨d0, d1, d2, rfl, p0, p1, p2⟩
  · trivial
  have key : ∀ b c x : ℕ, b < [d0, d1, d2].prod → c < [d0, d1, d2].prod → x < [d0, d1, d2].prod →
      conjugateNode (intDims [d0, d1, d2]) (b : Int) = some (c : Int) →
      ∃ m : ℤ, phase [d0, d1, d2] c x + phase [d0, d1, d2] b x = m := by
    intro b c x hb hc hx hcn
    exact int_of_conj (b := ⟨b, hb⟩) (c := ⟨c, hc⟩) (x := ⟨x, hx⟩) fun data hr => hall data hr _ _ hcn
  have hprod : [d0, d1, d2].prod = d0 * (d1 * d2) := by simp
  rw [hprod] at key
  show d2 = 1 ∨ (d0 = 1 ∧ d1 = 1) ∨ (d0 = 1 ∧ d1 = d2) ∨ (d1 = 1 ∧ d0 = d2) ∨ (d0 = d1 ∧ d1 = d2)
  by_cases e2 : d2 = 1
  · exact Or.inl e2
  have g2 : 2 ≤ d2 := by omega
  have q2 : d2 ≤ d1 * d2 := Nat.le_mul_of_pos_left _ p1
  have q3 : d1 * d2 ≤ d0 * (d1 * d2) := Nat.le_mul_of_pos_left _ p0
  by_cases e1 : d1 = 1
  · by_cases e0 : d0 = 1
    · exact Or.inr (Or.inl ⟨e0, e1⟩)
    have g0 : 2 ≤ d0 := by omega
    subst e1
    have hc := conj_side g0 p1 p2
    rw [mul_one] at hc
    have hlt : d0 - 1 < d0 * (1 * d2) := by nlinarith [Nat.sub_le d0 1]
    have k1 := key 1 (d0 - 1) 1 (by omega) hlt (by omega) hc
    have k2 := key 1 (d0 - 1) (1 * d2) (by omega) hlt (by nlinarith) hc
    rw [phase_last g2 p1, phase_last g2 p1, Nat.mod_eq_of_lt (show 1 < d2 by omega), ← add_div] at k1
    rw [phase_first g0 p1 p2, phase_first g0 p1 p2, one_mul, Nat.div_eq_of_lt (show 1 < d2 by omega)] at k2
    have r2 := zero_of_int p0 (by simpa using k2) (lt_of_le_of_lt (Nat.div_le_self _ _) (by omega))
    have := side_eq g0 g2 (dvd_of_int p2 (by push_cast at k1 ⊢; exact k1)) r2
    exact Or.inr (Or.inr (Or.inr (Or.inl ⟨rfl, this⟩)))
  have g1 : 2 ≤ d1 := by omega
  have hc := conj_one p0 g1 p2
  have hlt : d1 - 1 < d0 * (d1 * d2) := by
    have : d1 ≤ d1 * d2 := Nat.le_mul_of_pos_right _ p2
    omega
  have hd2 : d2 < d0 * (d1 * d2) := by
    have : d2 < d1 * d2 := by nlinarith
    omega
  have k1 := key 1 (d1 - 1) 1 (by omega) hlt (by omega) hc
  have k2 := key 1 (d1 - 1) d2 (by omega) hlt hd2 hc
  rw [phase_last g2 p1, phase_last g2 p1, Nat.mod_eq_of_lt (show 1 < d2 by omega), ← add_div] at k1
  rw [phase_middle g1 p2, phase_middle g1 p2, Nat.div_eq_of_lt (show 1 < d2 by omega)] at k2
  have r2 := zero_of_int p1 (by simpa using k2) (lt_of_le_of_lt (Nat.div_le_self _ _) (by omega))
  obtain rfl := side_eq g1 g2 (dvd_of_int p2 (by push_cast at k1 ⊢; exact k1)) r2
  by_cases e0 : d0 = 1
  · exact Or.inr (Or.inr (Or.inl ⟨e0, rfl⟩))
  have g0 : 2 ≤ d0 := by omega
  have hc' := conj_side g0 p1 p2
  have hm : (d0 - 1) * d1 < d0 * (d1 * d1) := by
    have : (d0 - 1) * d1 < d0 * d1 := Nat.mul_lt_mul_of_pos_right (by omega) p1
    have : d0 * d1 ≤ d0 * (d1 * d1) := Nat.mul_le_mul_left _ (Nat.le_mul_of_pos_left _ p1)
    omega
  have hdd : d1 * d1 < d0 * (d1 * d1) := by nlinarith [Nat.mul_pos p1 p1]
  have k3 := key d1 ((d0 - 1) * d1) d1 hd2 hm hd2 hc'
  have k4 := key d1 ((d0 - 1) * d1) (d1 * d1) hd2 hm hdd hc'
  rw [phase_middle g1 p2, phase_middle g1 p2, Nat.mul_div_cancel _ p1, Nat.div_self p1,
    Nat.mod_eq_of_lt (show 1 < d1 by omega), ← add_div] at k3
  rw [phase_first g0 p1 p2, phase_first g0 p1 p2, Nat.mul_div_mul_right _ _ p1,
    Nat.div_eq_of_lt (show d1 < d1 * d1 by nlinarith)] at k4
  have r4 := zero_of_int p0 (by simpa using k4) (lt_of_le_of_lt (Nat.div_le_self _ _) (by omega))
  have := side_eq g0 g1 (dvd_of_int p1 (by push_cast at k3 ⊢; exact k3)) r4
  exact Or.inr (Or.inr (Or.inr (Or.inr ⟨this, rfl⟩)))

/-- One equation `du/dt = A u` with a factor `A` for every bin. -/
noncomputable def symbolModel {n : ℕ} (A : Fin n → ℂ) : Model 1 0 n :=
  { calcs := fun d => d.elim0
    terms := fun _ => [fun st _ _ k => A k * st.fields 0 k]
    denum := fun _ => []
    sources := fun _ => []
    modifiers := [] }

theorem symbolModel_real {A : Fin dims.prod → ℂ} (hA : Hermitian dims A) : RealModel (dims := dims) (symbolModel A) where
  fieldsOnly := fun d => d.elim0
  calcs := fun d => d.elim0
  terms := fun i f hf st t hst => by
    simp only [symbolModel, List.append_nil, List.mem_cons, List.not_mem_nil, or_false] at hf
    subst hf
    exact Hermitian.mul hA (hst.1 0)
  sources := fun i s hs => by simp [symbolModel] at hs
  modifiers := fun md hmd => by simp [symbolModel] at hmd

/-- C24: the domains of `LayoutOk` are the only ones on which the step keeps fields real for all such models: on every
other domain there is an equation with conjugate symmetric coefficients and a real field that one step makes complex. -/
theorem c24_exact (h : GoodDims (intDims dims)) :
    (∀ m : Model 1 0 dims.prod, RealModel m → ∀ st : Store 1 0 dims.prod, (∀ i, IsReal (st.fields i)) →
      ∀ i, IsReal ((eulerStep m (⟨1, freqOf dims, none, 0⟩, st)).2.fields i)) ↔ LayoutOk dims := by
  have hpos := pos_of_goodDims h
  constructor
  swap
  · intro hl m hm st hst i
    exact c24_real h hl hm ⟨1, freqOf dims, none, 0⟩ rfl st hst 1 i
  intro hall
  rw [← c10_exact h]
  intro data hr b c hc
  have hcb : conjugateNode (intDims dims) (c.val : Int) = some (b.val : Int) := by
    obtain ⟨j, f, g, hj, -, -, hji, -⟩ := c08_conjugate h (i := b.val) (by omega) (by
      rw [numNodes_intDims]; exact_mod_cast b.2)
    rw [hc, Option.some.injEq] at hj
    rw [hj]
    exact hji
  have hN : (dims.prod : ℂ) ≠ 0 := prod_ne_zero hpos
  have h0 : 0 < dims.prod := Nat.pos_of_ne_zero (by exact_mod_cast hN)
  -- the change of the first node in one step
  have step : ∀ z : ℂ, (b = c → (starRingEnd ℂ) z = z) →
      (if b = c then z * fft dims data b else z * fft dims data b + (starRingEnd ℂ) z * fft dims data c).im = 0 := by
    intro z hz
    let A : Fin dims.prod → ℂ := fun k => if k = b then z else if k = c then (starRingEnd ℂ) z else 0
    have hA : Hermitian dims A := by
      intro p q hpq
      have inj : ∀ x y w : Fin dims.prod, conjugateNode (intDims dims) (x.val : Int) = some (w.val : Int) →
          conjugateNode (intDims dims) (y.val : Int) = some (w.val : Int) → x = y := by
        intro x y w hx hy
        obtain ⟨j, f, g, hj, -, -, hji, -⟩ := c08_conjugate h (i := x.val) (by omega) (by
          rw [numNodes_intDims]; exact_mod_cast x.2)
        obtain ⟨j', f', g', hj', -, -, hji', -⟩ := c08_conjugate h (i := y.val) (by omega) (by
          rw [numNodes_intDims]; exact_mod_cast y.2)
        rw [hx, Option.some.injEq] at hj
        rw [hy, Option.some.injEq] at hj'
        rw [← hj] at hji
        rw [← hj', hji, Option.some.injEq] at hji'
        exact Fin.ext (by exact_mod_cast hji')
      by_cases hpb : p = b
      · subst hpb
        have : q = c := Fin.ext (by
          have := hpq.symm.trans hc
          rw [Option.some.injEq] at this
          exact_mod_cast this)
        subst this
        simp only [A, if_true]
        by_cases e : q = p
        · rw [if_pos e]; exact (hz e.symm).symm
        · rw [if_neg e]
      · by_cases hpc : p = c
        · subst hpc
          have : q = b := Fin.ext (by
            have := hpq.symm.trans hcb
            rw [Option.some.injEq] at this
            exact_mod_cast this)
          subst this
          simp only [A, if_true, if_neg hpb, Complex.conj_conj]
        · have n1 : q ≠ b := by
            rintro rfl
            exact hpc (inj _ _ _ hpq hcb)
          have n2 : q ≠ c := by
            rintro rfl
            exact hpb (inj _ _ _ hpq hc)
          simp only [A, if_neg hpb, if_neg hpc, if_neg n1, if_neg n2, map_zero]
    let st : Store 1 0 dims.prod := ⟨fun _ => data, fun d => d.elim0⟩
    have hreal := hall (symbolModel A) (symbolModel_real hA) st (fun _ => hr) 0
    generalize hy : (eulerStep (symbolModel A) (⟨1, freqOf dims, none, 0⟩, st)).2.fields 0 = y at hreal
    have hstep : ∀ k, fft dims y k = fft dims data k + A k * fft dims data k := by
      intro k
      have := c22_euler hpos (symbolModel A) (fun d => d.elim0) 0 (c22_single_equation _ _)
        ⟨1, freqOf dims, none, 0⟩ rfl st k
      dsimp only at this
      rw [← hy, this, c21_rhs, c21_denum]
      simp [symbolModel, st]
    have hw : ∀ x, (dims.prod : ℂ) * (y x - data x) = ifft dims (fun k => A k * fft dims data k) x := by
      intro x
      rw [mul_sub, ← ifft_fft hpos y x, ← ifft_fft hpos data x]
      unfold ifft
      rw [← Finset.sum_sub_distrib]
      refine Finset.sum_congr rfl fun k _ => ?_
      rw [hstep]
      ring
    have hx0 := hw ⟨0, h0⟩
    have hsum : ifft dims (fun k => A k * fft dims data k) ⟨0, h0⟩ =
        if b = c then z * fft dims data b else z * fft dims data b + (starRingEnd ℂ) z * fft dims data c := by
      unfold ifft
      have e0 : ∀ k : Fin dims.prod, cis (phase dims k 0) = 1 := by
        intro k
        rw [phase_symm, phase_zero_left, cis_zero]
      simp only [e0, mul_one]
      by_cases e : b = c
      · rw [if_pos e, Finset.sum_eq_single b]
        · simp only [A, if_true]
        · intro k _ hk
          simp only [A, if_neg hk, if_neg (fun hh : k = c => hk (hh.trans e.symm)), zero_mul]
        · intro hh
          exact absurd (Finset.mem_univ b) hh
      · rw [if_neg e, Finset.sum_eq_add b c e]
        · simp only [A, if_true, if_neg (Ne.symm e)]
        · rintro k _ ⟨h1, h2⟩
          simp only [A, if_neg h1, if_neg h2, zero_mul]
        · intro hh
          exact absurd (Finset.mem_univ b) hh
        · intro hh
          exact absurd (Finset.mem_univ c) hh
    rw [← hsum, ← hx0]
    have i1 : (y ⟨0, h0⟩ - data ⟨0, h0⟩).im = 0 := by
      rw [Complex.sub_im, hreal, hr, sub_zero]
    rw [Complex.mul_im, i1, Complex.natCast_im, mul_zero, zero_mul, add_zero]
  by_cases e : b = c
  · subst e
    have := step 1 (fun _ => map_one _)
    rw [if_pos rfl, one_mul] at this
    exact (Complex.conj_eq_iff_im.mpr this).symm
  · have s1 := step 1 (fun hh => absurd hh e)
    have s2 := step Complex.I (fun hh => absurd hh e)
    rw [if_neg e] at s1 s2
    simp at s1 s2
    apply Complex.ext
    · rw [Complex.conj_re]; linarith
    · rw [Complex.conj_im]; linarith

/-- A domain that is not of this kind. -/
example : GoodDims (intDims [2, 3, 4]) ∧ ¬ LayoutOk [2, 3, 4] := ⟨⟨by decide, by decide⟩, by simp [LayoutOk]⟩

end Gopf.Props
