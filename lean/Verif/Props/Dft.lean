import Verif.Proofs.Layout

/-!
# C09, C10: the Fourier transform, its frequencies and its symmetries
-/

namespace Gopf.Props
open Spec Pfutil
open scoped BigOperators

private theorem kernel_eq {dims : List ℕ} (h : GoodDims (intDims dims)) {b i : ℕ}
    (hb : b < dims.prod) (hi : i < dims.prod) :
    ∃ f p, freq (intDims dims) b = some f ∧ pos (intDims dims) i = some p ∧
      wave f p = cis (codePhase dims b i) := by
  have hbN : (b : Int) < numNodes (intDims dims) := by rw [numNodes_intDims]; exact_mod_cast hb
  have hiN : (i : Int) < numNodes (intDims dims) := by rw [numNodes_intDims]; exact_mod_cast hi
  obtain ⟨q, hq, -, -⟩ := pos_spec h (by omega : (0:Int) ≤ b) hbN
  obtain ⟨p, hp, -, -⟩ := pos_spec h (by omega : (0:Int) ≤ i) hiN
  have hf := freq_eq h (by omega) hbN hq
  exact ⟨_, p, hf, hp, cis_congr (dot_codePhase h hb hi hf hp)⟩

private theorem pos_of_good {dims : List ℕ} (h : GoodDims (intDims dims)) : ∀ d ∈ dims, 0 < d := by
  intro d hd
  have := h.2 (d : Int) (by simp only [intDims, List.mem_map]; exact ⟨d, hd, rfl⟩)
  exact_mod_cast this

/-- The waves that the library attributes to its bins, as a relation between a bin, a node and the
value of the wave of that bin at that node. -/
def BinWave (dims : List ℕ) (b i : ℕ) (w : ℂ) : Prop :=
  ∃ f p, freq (intDims dims) b = some f ∧ pos (intDims dims) i = some p ∧ w = wave f p

/-- C09: exactly for the domains of `LayoutOk` (all 2D domains, all cubic 3D domains, and a few with
sides of length one) is the transform the expansion in the waves reported by `Freq` and `Pos`:
`FFT(data)[b] = Σ_i data[i] · conj(exp(2πi Freq(b)·Pos(i)))` for all data and bins. -/
theorem c09_transform {dims : List ℕ} (h : GoodDims (intDims dims)) :
    (∀ (w : ℕ → ℕ → ℂ), (∀ b i, b < dims.prod → i < dims.prod → BinWave dims b i (w b i)) →
      ∀ (data : Fin dims.prod → ℂ) (b : Fin dims.prod),
        fft dims data b = ∑ i : Fin dims.prod, data i * (starRingEnd ℂ) (w b i)) ↔
    LayoutOk dims := by
  have hpos := pos_of_good h
  constructor
  · intro hall
    rcases goodDims_nat h with ⟨d0, d1, rfl, p0, p1⟩ | ⟨d0, d1, d2, rfl, p0, p1, p2⟩
    · trivial
    refine layout_of_phase p0 p1 p2 fun b i hb hi => ?_
    have := hall (fun b i => cis (codePhase [d0, d1, d2] b i)) (fun b i hb hi => by
      obtain ⟨f, p, hf, hp, hw⟩ := kernel_eq h hb hi
      exact ⟨f, p, hf, hp, hw.symm⟩) (Pi.single ⟨i, hi⟩ 1) ⟨b, hb⟩
    rw [fft_single, sum_single, cis_conj] at this
    exact this
  · intro hl w hw data b
    unfold fft
    refine Finset.sum_congr rfl fun i _ => ?_
    obtain ⟨f, p, hf, hp, e⟩ := hw b i b.2 i.2
    obtain ⟨f', p', hf', hp', e'⟩ := kernel_eq h b.2 i.2
    rw [hf] at hf'; rw [hp] at hp'
    obtain rfl : f = f' := by simpa using hf'
    obtain rfl : p = p' := by simpa using hp'
    rw [e, e', cis_conj, phase_codePhase hl hpos b.2 i.2]

example : GoodDims (intDims [4, 6]) ∧ LayoutOk [4, 6] ∧ LayoutOk [5, 5, 5] ∧ ¬ LayoutOk [2, 3, 4] ∧
    BinWave [4, 6] 7 9 (wave [1/4, 1/6] [1, 3]) := by
  refine ⟨⟨by decide, by decide⟩, trivial, by simp [LayoutOk], by simp [LayoutOk], ?_⟩
  exact ⟨_, _, by decide +kernel, by decide +kernel, rfl⟩

/-- C09: the transform of the plane wave that bin `c` reports, sampled at the node positions, is
supported on bin `c`, with value the number of nodes. -/
theorem c09_plane_wave {dims : List ℕ} (h : GoodDims (intDims dims)) (hl : LayoutOk dims)
    (c : Fin dims.prod) (data : Fin dims.prod → ℂ)
    (hdata : ∀ i : Fin dims.prod, BinWave dims c i (data i)) (b : Fin dims.prod) :
    fft dims data b = if b = c then (dims.prod : ℂ) else 0 := by
  have hpos := pos_of_good h
  have hd : ∀ i : Fin dims.prod, data i = cis (phase dims c i) := by
    intro i
    obtain ⟨f, p, hf, hp, e⟩ := hdata i
    obtain ⟨f', p', hf', hp', e'⟩ := kernel_eq h c.2 i.2
    rw [hf] at hf'; rw [hp] at hp'
    obtain rfl : f = f' := by simpa using hf'
    obtain rfl : p = p' := by simpa using hp'
    rw [e, e', phase_codePhase hl hpos c.2 i.2]
  unfold fft
  simp only [hd]
  have := sum_kernel_fin hpos c b
  simp only [phase_symm dims (↑c : ℕ), phase_symm dims (↑b : ℕ)]
  rw [this]
  simp [eq_comm]

/-- C09: in the 1×2×3 box the wave reported for bin 1 is not the wave of that bin: its transform
does not vanish at bin 2. -/
theorem c09_noncubic_fails :
    ∃ (data : Fin [1, 2, 3].prod → ℂ) (c b : Fin [1, 2, 3].prod), b ≠ c ∧
      (∀ i : Fin [1, 2, 3].prod, BinWave [1, 2, 3] c i (data i)) ∧ fft [1, 2, 3] data b ≠ 0 := by
  have h : GoodDims (intDims [1, 2, 3]) := ⟨by decide, by decide⟩
  by_contra hne
  push Not at hne
  have hnot : ¬ LayoutOk [1, 2, 3] := by simp [LayoutOk]
  apply hnot
  have hpos := pos_of_good h
  -- the reported waves would diagonalise the transform; inverting it gives the kernel
  have key : ∀ (c : Fin [1, 2, 3].prod), ∃ a : ℂ, ∀ x : Fin [1, 2, 3].prod,
      a * cis (phase [1, 2, 3] c x) = 6 * cis (codePhase [1, 2, 3] c x) := by
    intro c
    refine ⟨fft [1, 2, 3] (fun i => cis (codePhase [1, 2, 3] c i)) c, fun x => ?_⟩
    have hz : ∀ b : Fin [1, 2, 3].prod, b ≠ c →
        fft [1, 2, 3] (fun i => cis (codePhase [1, 2, 3] c i)) b = 0 := fun b hb =>
      hne _ c b hb (fun i => by
        obtain ⟨f, p, hf, hp, hw⟩ := kernel_eq h c.2 i.2
        exact ⟨f, p, hf, hp, hw.symm⟩)
    have hinv := ifft_fft hpos (fun i => cis (codePhase [1, 2, 3] c i)) x
    have hN : (([1, 2, 3].prod : ℕ) : ℂ) = 6 := by norm_num
    rw [hN] at hinv
    rw [← hinv]
    unfold ifft
    rw [Finset.sum_eq_single c (fun b _ hb => by rw [hz b hb, zero_mul])
      (fun hc => absurd (Finset.mem_univ c) hc)]
  refine layout_of_phase (by norm_num) (by norm_num) (by norm_num) fun b i hb hi => ?_
  obtain ⟨a, ha⟩ := key ⟨b, hb⟩
  have z : phase [1, 2, 3] b 0 = 0 ∧ codePhase [1, 2, 3] b 0 = 0 := by
    simp [codePhase, phase, rowMajor, phaseSum]
  have h0 := ha ⟨0, by norm_num⟩
  simp only [z.1, z.2, cis_zero, mul_one] at h0
  have hi' := ha ⟨i, hi⟩
  rw [h0] at hi'
  have := mul_left_cancel₀ (by norm_num : (6:ℂ) ≠ 0) hi'
  simp only [] at this
  rw [← cis_conj, ← cis_conj, this]

/-- C10: inverse after forward transform multiplies by the number of nodes, and vice versa. -/
theorem c10_round_trip {dims : List ℕ} (h : ∀ d ∈ dims, 0 < d) (data : Fin dims.prod → ℂ)
    (x : Fin dims.prod) :
    ifft dims (fft dims data) x = dims.prod * data x ∧
      fft dims (ifft dims data) x = dims.prod * data x :=
  ⟨ifft_fft h data x, fft_ifft h data x⟩

example : ∀ d ∈ [4, 3, 7], 0 < d := by decide

/-- C10: for the domains of `LayoutOk` the spectrum of a real field at the conjugate node is the
complex conjugate of the spectrum at the node. -/
theorem c10_real_spectrum {dims : List ℕ} (h : GoodDims (intDims dims)) (hl : LayoutOk dims)
    (data : Fin dims.prod → ℂ) (hreal : ∀ i, (data i).im = 0) (b c : Fin dims.prod)
    (hc : conjugateNode (intDims dims) b = some (c : Int)) :
    fft dims data c = (starRingEnd ℂ) (fft dims data b) := by
  have hpos := pos_of_good h
  have hbN : ((b : ℕ) : Int) < numNodes (intDims dims) := by
    rw [numNodes_intDims]; exact_mod_cast b.2
  unfold fft
  rw [map_sum]
  refine Finset.sum_congr rfl fun i _ => ?_
  rw [map_mul, Complex.conj_eq_iff_im.mpr (hreal i), cis_conj, neg_neg]
  congr 1
  rw [phase_codePhase hl hpos c.2 i.2, phase_codePhase hl hpos b.2 i.2]
  refine cis_congr ?_
  -- both phases are scalar products of the frequencies with the same position
  obtain ⟨fb, p, hfb, hp, -⟩ := kernel_eq h b.2 i.2
  obtain ⟨fc, p', hfc, hp', -⟩ := kernel_eq h c.2 i.2
  rw [hp] at hp'
  obtain rfl : p = p' := by simpa using hp'
  obtain ⟨m, hm⟩ := dot_codePhase h b.2 i.2 hfb hp
  obtain ⟨n, hn⟩ := dot_codePhase h c.2 i.2 hfc hp
  suffices ∃ l : ℤ, dot fb p + dot fc p = l by
    obtain ⟨l, hl⟩ := this
    exact ⟨n + m - l, by push_cast; linarith⟩
  obtain ⟨q, j, hq, hb, hj, -, -, hpj, -⟩ := conjugateNode_spec h (by omega) hbN
  rw [hc] at hj
  obtain rfl : ((c : ℕ) : Int) = j := by simpa using hj
  have hcN : ((c : ℕ) : Int) < numNodes (intDims dims) := by
    rw [numNodes_intDims]; exact_mod_cast c.2
  rw [freq_eq h (by omega) hbN hq, Option.some.injEq] at hfb
  rw [freq_eq h (by omega) hcN hpj, Option.some.injEq] at hfc
  subst hfb hfc
  clear hm hn hp hq hj hpj hc
  have key : ∀ (ds q p : List Int), InBox ds q → ∃ l : ℤ,
      dot (List.zipWith phi q ds) p + dot (List.zipWith phi (conjPos ds q) ds) p = l := by
    intro ds
    induction ds with
    | nil => intro q p hq; cases hq; exact ⟨0, by simp [dot]⟩
    | cons d ds ih =>
      intro q p hq
      cases hq with
      | cons h1 h2 =>
        rename_i x q
        cases p with
        | nil => exact ⟨0, by simp [dot]⟩
        | cons y p =>
          obtain ⟨l, hl⟩ := ih q p h2
          have : ∃ k : ℤ, phi x d + phi ((d - x) % d) d = k := by
            rcases phi_conj h1.1 h1.2 with e | ⟨-, e⟩
            · exact ⟨0, by rw [e]; simp⟩
            · exact ⟨1, by rw [e]; simp⟩
          obtain ⟨k, hk⟩ := this
          refine ⟨k * y + l, ?_⟩
          simp only [dot, conjPos, List.zipWith_cons_cons, List.sum_cons] at hl ⊢
          push_cast
          rw [← hk, ← hl]
          ring
  exact key _ _ _ hb

example : GoodDims (intDims [3, 3, 3]) ∧ LayoutOk [3, 3, 3] ∧
    conjugateNode (intDims [3, 3, 3]) 14 = some 25 := by
  refine ⟨⟨by decide, by decide⟩, by simp [LayoutOk], by decide +kernel⟩

/-- C10: in the 1×2×3 box the node that the library calls the conjugate of bin 1 is bin 1 itself, but
the spectrum of a real field is not real there. -/
theorem c10_noncubic_fails :
    conjugateNode (intDims [1, 2, 3]) 1 = some 1 ∧
      ∃ (data : Fin [1, 2, 3].prod → ℂ), (∀ i, (data i).im = 0) ∧
        ∀ b : Fin [1, 2, 3].prod, (b : ℕ) = 1 → fft [1, 2, 3] data b ≠ (starRingEnd ℂ) (fft [1, 2, 3] data b) := by
  refine ⟨by decide, Pi.single ⟨1, by norm_num⟩ 1, ?_, ?_⟩
  · intro i
    rw [Pi.single_apply]
    split_ifs <;> simp
  · intro b hb he
    have hf : fft [1, 2, 3] (Pi.single ⟨1, by norm_num⟩ 1) b = cis (-(1/3)) := by
      rw [fft_single]
      simp [hb, phase, rowMajor, phaseSum]
    rw [hf, cis_conj] at he
    have h2 : cis (-(1/3) + -(1/3)) = 1 := by
      rw [cis_add]; nth_rewrite 2 [he]; rw [← cis_add]; simp [cis_zero]
    obtain ⟨m, hm⟩ := (cis_eq_one_iff _).mp h2
    have h3 : (3 * m : ℚ) = -2 := by linarith
    have h4 : 3 * m = -2 := by exact_mod_cast h3
    omega

end Gopf.Props
