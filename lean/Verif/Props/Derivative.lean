import Verif.Props.Terms
import Verif.Proofs.Hermitian
import Verif.Proofs.Parseval

/-!
# C69, C70, C71: point sources and spectral derivatives
-/

namespace Gopf.Props
open Spec Pfutil Pf
open scoped BigOperators

variable {dims : List ℕ}

private theorem bin_lt (b : Fin dims.prod) : ((b : ℕ) : Int) < numNodes (intDims dims) := by
  rw [numNodes_intDims]; exact_mod_cast b.2

/-- The frequency of a bin in terms of its multi-index. -/
theorem freqOf_eq (h : GoodDims (intDims dims)) (b : Fin dims.prod) :
    ∃ q, pos (intDims dims) (b.val : Int) = some q ∧ InBox (intDims dims) q ∧
      freq (intDims dims) (b.val : Int) = some (List.zipWith phi q (intDims dims)) ∧
      freqOf dims b = (List.zipWith phi q (intDims dims)).map fun x : ℚ => (x : ℝ) := by
  obtain ⟨q, hq, hb, -⟩ := pos_spec h (by omega : (0:Int) ≤ b.val) (bin_lt b)
  have hf := freq_eq h (by omega : (0:Int) ≤ b.val) (bin_lt b) hq
  refine ⟨q, hq, hb, hf, ?_⟩
  unfold freqOf
  unfold intDims at hf
  rw [hf]
  rfl

/-! ## C69 -/

/-- C69: the spectrum of a source at a node is the transform of the field that has the strength of the
source at that node and is zero elsewhere. -/
theorem c69_point_source (h : GoodDims (intDims dims)) (hl : LayoutOk dims) (f : ℝ → ℝ) (t : ℝ)
    (i : Fin dims.prod) (p : List Int) (hp : pos (intDims dims) (i.val : Int) = some p) :
    Source.eval ⟨p.map fun x : Int => (x : ℝ), f⟩ (freqOf dims) t =
      fft dims (fun x => if x = i then (f t : ℂ) else 0) := by
  have hpos := pos_of_goodDims h
  funext b
  obtain ⟨q, hq, hb, hf, e⟩ := freqOf_eq h b
  have hfft : fft dims (fun x => if x = i then (f t : ℂ) else 0) b = (f t : ℂ) * cis (-phase dims b i) := by
    unfold fft
    rw [Finset.sum_eq_single i (fun x _ hx => by simp [hx]) (by simp)]
    simp
  rw [hfft, phase_codePhase hl hpos b.2 i.2]
  obtain ⟨m, hm⟩ := dot_codePhase h b.2 i.2 hf hp
  have hc : codePhase dims b i = dot (List.zipWith phi q (intDims dims)) p - m := by rw [hm]; ring
  have hcis : cis (-codePhase dims b i) = cis (-dot (List.zipWith phi q (intDims dims)) p) :=
    cis_congr ⟨m, by rw [hc]; ring⟩
  rw [hcis]
  unfold Source.eval
  congr 1
  unfold cis
  congr 1
  rw [e]
  have hdot : ∀ (l : List ℚ) (p : List Int),
      dotR (l.map fun x : ℚ => (x : ℝ)) (p.map fun x : Int => (x : ℝ)) = ((dot l p : ℚ) : ℝ) := by
    intro l
    induction l with
    | nil => intro p; simp [dotR, dot]
    | cons a l ih =>
      intro p
      cases p with
      | nil => simp [dotR, dot]
      | cons b p =>
        have := ih p
        simp only [dotR, dot] at this ⊢
        simp only [List.map_cons, List.zipWith_cons_cons, List.sum_cons, this]
        push_cast
        ring
  rw [hdot]
  push_cast
  ring

/-- The node (1, 2) of a 3×4 domain, with node number 6. -/
example : GoodDims (intDims [3, 4]) ∧ LayoutOk [3, 4] ∧ pos (intDims [3, 4]) 6 = some [1, 2] :=
  ⟨⟨by decide, by decide⟩, trivial, by decide +kernel⟩

/-! ## C70 -/

/-- The factor the gradient calculator applies to a frequency component. -/
noncomputable def gradFactor (keep : Bool) (f : ℝ) : ℂ :=
  if f = 1 / 2 ∧ keep = false then 0 else 2 * Real.pi * Complex.I * f

theorem fcomp_map (l : List ℚ) (c : ℕ) : fcomp (l.map fun x : ℚ => (x : ℝ)) c = ((l.getD c 0 : ℚ) : ℝ) := by
  unfold fcomp
  rw [List.getD_eq_getElem?_getD, List.getD_eq_getElem?_getD, List.getElem?_map]
  cases l[c]? <;> simp

/-- A frequency component of a domain with sides up to 10⁹ is one half or at least 10⁻¹⁰ away. -/
theorem nyquist_iff (h : GoodDims (intDims dims)) (hs : ∀ d ∈ dims, d ≤ 10 ^ 9) (b : Fin dims.prod)
    (c : ℕ) : |fcomp (freqOf dims b) c - 1 / 2| < 1 / 10 ^ 10 ↔ fcomp (freqOf dims b) c = 1 / 2 := by
  constructor
  swap
  · intro e; rw [e]; norm_num
  intro hlt
  obtain ⟨q, -, hb, -, e⟩ := freqOf_eq h b
  rw [e, fcomp_map] at hlt ⊢
  have hlt' : |(List.zipWith phi q (intDims dims)).getD c 0 - 1 / 2| < (1 : ℚ) / 10 ^ 10 := by
    have : ((|(List.zipWith phi q (intDims dims)).getD c 0 - 1 / 2| : ℚ) : ℝ) < ((1 / 10 ^ 10 : ℚ) : ℝ) := by
      push_cast; convert hlt using 2
    exact_mod_cast this
  suffices hq : (List.zipWith phi q (intDims dims)).getD c 0 = 1 / 2 by rw [hq]; norm_num
  clear e hlt
  have hs' : ∀ d ∈ intDims dims, d ≤ 10 ^ 9 := by
    intro d hd
    simp only [intDims, List.mem_map] at hd
    obtain ⟨x, hx, rfl⟩ := hd
    have := hs x hx
    show (x : Int) ≤ 10 ^ 9
    exact_mod_cast this
  generalize intDims dims = ds at hb hs' hlt' ⊢
  induction hb generalizing c with
  | nil => norm_num at hlt'
  | @cons d x ds q h1 h2 ih =>
    cases c with
    | zero =>
      simp only [List.zipWith_cons_cons, List.getD_cons_zero] at hlt' ⊢
      have hd : (0:ℚ) < d := by exact_mod_cast lt_of_le_of_lt h1.1 h1.2
      have hd9 : (d:ℚ) ≤ 10 ^ 9 := by exact_mod_cast hs' d (by simp)
      obtain ⟨k, hk⟩ := phi_int x d
      have e2 : phi x d - 1 / 2 = ((2 * x + 2 * k * d - d : Int) : ℚ) / (2 * d) := by
        rw [hk]; push_cast; field_simp
      rw [e2, abs_div, abs_of_pos (by positivity : (0:ℚ) < 2 * d), div_lt_iff₀ (by positivity)] at hlt'
      have h3 : (|((2 * x + 2 * k * d - d : Int) : ℚ)|) < 1 := by
        refine lt_of_lt_of_le hlt' ?_
        rw [div_mul_eq_mul_div, div_le_one (by positivity)]
        linarith
      rw [← Int.cast_abs] at h3
      have h4 : |2 * x + 2 * k * d - d| < 1 := by exact_mod_cast h3
      have h5 : 2 * x + 2 * k * d - d = 0 := Int.abs_lt_one_iff.mp h4
      rw [h5] at e2
      simp at e2
      linarith
    | succ c =>
      simp only [List.zipWith_cons_cons, List.getD_cons_succ] at hlt' ⊢
      exact ih c (fun d hd => hs' d (by simp [hd])) hlt'

/-- The transform of the gradient. -/
theorem fft_grad (h : GoodDims (intDims dims)) (hs : ∀ d ∈ dims, d ≤ 10 ^ 9) (comp : ℕ) (keep : Bool)
    (u : Data dims.prod) (k : Fin dims.prod) :
    fft dims (gradCalculate dims comp keep u) k =
      gradFactor keep (fcomp (freqOf dims k) comp) * fft dims u k := by
  have hpos := pos_of_goodDims h
  have := congrFun (fft_surjective hpos (fun i =>
    fft dims u i * (Complex.I * ((2 * Real.pi * (if |fcomp (freqOf dims i) comp - 1 / 2| < 1 / 10 ^ 10 ∧
      keep = false then 0 else fcomp (freqOf dims i) comp) : ℝ) : ℂ)))) k
  unfold gradCalculate divRealScalar
  simp only [Complex.ofReal_natCast]
  refine this.trans ?_
  simp only [nyquist_iff h hs]
  unfold gradFactor
  split_ifs
  · simp
  · push_cast; ring

/-- C70: for the plane wave of a bin the gradient calculator returns `2πi f` times the wave, where `f`
is the component of the frequency of the bin; the wave is differentiated exactly. At the Nyquist
frequency it returns zero, unless the Nyquist frequency is kept. -/
theorem c70_plane_wave (h : GoodDims (intDims dims)) (hl : LayoutOk dims) (hs : ∀ d ∈ dims, d ≤ 10 ^ 9)
    (comp : ℕ) (keep : Bool) (c : Fin dims.prod) (u : Data dims.prod)
    (hu : ∀ i : Fin dims.prod, BinWave dims c i (u i)) (f : List ℚ)
    (hf : freq (intDims dims) (c.val : Int) = some f) (x : Fin dims.prod) :
    gradCalculate dims comp keep u x =
      (if f.getD comp 0 = 1 / 2 ∧ keep = false then 0
       else 2 * Real.pi * Complex.I * ((f.getD comp 0 : ℚ) : ℂ)) * u x := by
  have hpos := pos_of_goodDims h
  have hfc : fcomp (freqOf dims c) comp = ((f.getD comp 0 : ℚ) : ℝ) := by
    obtain ⟨q, -, -, hf', e⟩ := freqOf_eq h c
    rw [hf] at hf'
    obtain rfl := Option.some.inj hf'
    rw [e, fcomp_map]
  have hfac : gradFactor keep (fcomp (freqOf dims c) comp) =
      if f.getD comp 0 = 1 / 2 ∧ keep = false then 0
       else 2 * Real.pi * Complex.I * ((f.getD comp 0 : ℚ) : ℂ) := by
    unfold gradFactor
    rw [hfc]
    have : ((f.getD comp 0 : ℚ) : ℝ) = 1 / 2 ↔ f.getD comp 0 = 1 / 2 := by
      rw [show (1:ℝ) / 2 = ((1 / 2 : ℚ) : ℝ) by norm_num]
      exact Rat.cast_inj
    simp only [this]
    simp
  rw [← hfac]
  have hw := c09_plane_wave h hl c u hu
  have : gradCalculate dims comp keep u = fun x => gradFactor keep (fcomp (freqOf dims c) comp) * u x := by
    apply fft_injective hpos
    funext k
    rw [fft_grad h hs, fft_smul]
    by_cases hk : k = c
    · rw [hk]
    · rw [hw, if_neg hk]; simp
  rw [this]

/-- C70: the gradient of a combination of fields is the combination of the gradients (so that the values
on plane waves determine it). -/
theorem c70_linear (h : GoodDims (intDims dims)) (hs : ∀ d ∈ dims, d ≤ 10 ^ 9) (comp : ℕ) (keep : Bool)
    (a b : ℂ) (u v : Data dims.prod) (x : Fin dims.prod) :
    gradCalculate dims comp keep (fun i => a * u i + b * v i) x =
      a * gradCalculate dims comp keep u x + b * gradCalculate dims comp keep v x := by
  have hpos := pos_of_goodDims h
  have : gradCalculate dims comp keep (fun i => a * u i + b * v i) =
      fun x => a * gradCalculate dims comp keep u x + b * gradCalculate dims comp keep v x := by
    apply fft_injective hpos
    funext k
    rw [fft_grad h hs, fft_add, fft_add, fft_smul, fft_smul, fft_smul, fft_smul, fft_grad h hs, fft_grad h hs]
    ring
  rw [this]

example : GoodDims (intDims [4, 6]) ∧ LayoutOk [4, 6] ∧ (∀ d ∈ [4, 6], d ≤ 10 ^ 9) ∧
    freq (intDims [4, 6]) 7 = some [1/4, 1/6] ∧ freq (intDims [4, 6]) 15 = some [1/2, 1/2] := by
  refine ⟨⟨by decide, by decide⟩, trivial, by decide, by decide +kernel, by decide +kernel⟩

/-! ## C71 -/

/-- Components of the frequencies of conjugate bins. -/
theorem fcomp_conj (h : GoodDims (intDims dims)) {b c : Fin dims.prod}
    (hc : conjugateNode (intDims dims) (b.val : Int) = some (c.val : Int)) (comp : ℕ) :
    fcomp (freqOf dims c) comp = -fcomp (freqOf dims b) comp ∨
      (fcomp (freqOf dims c) comp = 1 / 2 ∧ fcomp (freqOf dims b) comp = 1 / 2) := by
  obtain ⟨q, j, hq, hb, hj, -, -, hpj, -⟩ := conjugateNode_spec h (by omega) (bin_lt b)
  rw [hc] at hj
  obtain rfl : ((c : ℕ) : Int) = j := by simpa using hj
  obtain ⟨q1, hq1, -, -, e1⟩ := freqOf_eq h b
  obtain ⟨q2, hq2, -, -, e2⟩ := freqOf_eq h c
  rw [hq] at hq1; obtain rfl := Option.some.inj hq1
  rw [hpj] at hq2; obtain rfl := Option.some.inj hq2
  rw [e1, e2, fcomp_map, fcomp_map]
  have key : ∀ (ds q : List Int) (comp : ℕ), InBox ds q →
      (List.zipWith phi (conjPos ds q) ds).getD comp 0 = -(List.zipWith phi q ds).getD comp 0 ∨
      ((List.zipWith phi (conjPos ds q) ds).getD comp 0 = 1 / 2 ∧
        (List.zipWith phi q ds).getD comp 0 = 1 / 2) := by
    intro ds q comp hb
    induction hb generalizing comp with
    | nil => left; simp [conjPos]
    | @cons d x ds q h1 h2 ih =>
      cases comp with
      | zero =>
        simp only [conjPos, List.zipWith_cons_cons, List.getD_cons_zero]
        rcases phi_conj h1.1 h1.2 with e | ⟨e0, e⟩
        · exact .inl e
        · right
          have := phi_half (h1.1.trans_lt h1.2) e0
          rw [e, this]; norm_num
      | succ comp => simpa [conjPos] using ih comp
  rcases key _ _ comp hb with e | ⟨e, e'⟩
  · left; rw [e]; push_cast; ring
  · right; rw [e, e']; norm_num

/-- Frequencies are larger than minus one half. -/
theorem fcomp_gt (h : GoodDims (intDims dims)) (b : Fin dims.prod) (comp : ℕ) :
    -(1 / 2) < fcomp (freqOf dims b) comp := by
  obtain ⟨q, -, hq, -, e⟩ := freqOf_eq h b
  rw [e, fcomp_map]
  have key : ∀ (ds q : List Int) (comp : ℕ), InBox ds q →
      -(1 / 2) < (List.zipWith phi q ds).getD comp 0 := by
    intro ds q comp hb
    induction hb generalizing comp with
    | nil => norm_num
    | @cons d x ds q h1 h2 ih =>
      cases comp with
      | zero => simpa using (phi_range h1.1 h1.2).1
      | succ comp => simpa using ih comp
  have hr : ((-(1 / 2) : ℚ) : ℝ) < (((List.zipWith phi q (intDims dims)).getD comp 0 : ℚ) : ℝ) := by
    exact_mod_cast key _ _ comp hq
  push_cast at hr
  linarith

theorem gradFactor_conj (h : GoodDims (intDims dims)) {b c : Fin dims.prod}
    (hc : conjugateNode (intDims dims) (b.val : Int) = some (c.val : Int)) (comp : ℕ) :
    gradFactor false (fcomp (freqOf dims c) comp) =
      (starRingEnd ℂ) (gradFactor false (fcomp (freqOf dims b) comp)) := by
  unfold gradFactor
  rcases fcomp_conj h hc comp with e | ⟨e, e'⟩
  · have hb : fcomp (freqOf dims b) comp ≠ 1 / 2 := by
      intro hb
      have := fcomp_gt h c comp
      rw [e, hb] at this; linarith
    have hc2 : fcomp (freqOf dims c) comp ≠ 1 / 2 := by
      intro hb
      have := fcomp_gt h b comp
      rw [hb] at e; linarith
    rw [if_neg (by tauto), if_neg (by tauto), e]
    simp [Complex.conj_ofNat]
  · rw [if_pos ⟨e, rfl⟩, if_pos ⟨e', rfl⟩, map_zero]

/-- C71: the gradient of a real field is real if the Nyquist frequency is dropped. -/
theorem c71_real (h : GoodDims (intDims dims)) (hl : LayoutOk dims) (hs : ∀ d ∈ dims, d ≤ 10 ^ 9)
    (comp : ℕ) (u : Data dims.prod) (hu : IsReal u) : IsReal (gradCalculate dims comp false u) := by
  apply real_of_hermitian h hl
  intro b c hc
  rw [fft_grad h hs, fft_grad h hs, hermitian_fft h hl hu b c hc, map_mul]
  congr 1
  exact gradFactor_conj h hc comp

/-- C71: if the Nyquist frequency is kept, the gradient of a real field at that frequency is imaginary:
for the wave of a bin with component one half it is `iπ` times the wave. -/
theorem c71_keep_nyquist (h : GoodDims (intDims dims)) (hl : LayoutOk dims) (hs : ∀ d ∈ dims, d ≤ 10 ^ 9)
    (comp : ℕ) (c : Fin dims.prod) (u : Data dims.prod)
    (hu : ∀ i : Fin dims.prod, BinWave dims c i (u i)) (f : List ℚ)
    (hf : freq (intDims dims) (c.val : Int) = some f) (hn : f.getD comp 0 = 1 / 2) (x : Fin dims.prod) :
    gradCalculate dims comp true u x = Complex.I * Real.pi * u x := by
  rw [c70_plane_wave h hl hs comp true c u hu f hf x, hn]
  simp
  left
  ring

/-- C71: the components of the gradient sum to zero over the nodes. -/
theorem c71_sum (h : GoodDims (intDims dims)) (hs : ∀ d ∈ dims, d ≤ 10 ^ 9) (comp : ℕ) (keep : Bool)
    (u : Data dims.prod) : ∑ x, gradCalculate dims comp keep u x = 0 := by
  have hpos := pos_of_goodDims h
  have hN : 0 < dims.prod := Nat.pos_of_ne_zero (by
    rw [Ne, List.prod_eq_zero_iff]; intro hm; exact absurd (hpos 0 hm) (by omega))
  have h0 := fft_zero_bin (gradCalculate dims comp keep u) ⟨0, hN⟩ rfl
  rw [← h0, fft_grad h hs]
  unfold gradFactor
  rw [fcomp_zero (freqOf_zero dims ⟨0, hN⟩ rfl)]
  norm_num

/-- On a 2×2 domain the bin (1, 0) has the Nyquist frequency in its first component. -/
example : GoodDims (intDims [2, 2]) ∧ LayoutOk [2, 2] ∧
    ∃ f, freq (intDims [2, 2]) 2 = some f ∧ f.getD 0 0 = 1 / 2 :=
  ⟨⟨by decide, by decide⟩, trivial, [1/2, 0], by decide +kernel, by decide +kernel⟩

end Gopf.Props
