import Verif.Proofs.Hermitian
import Verif.Props.Euler

/-!
# C24: real fields stay real
-/

namespace Gopf.Props
open Spec Pf Pfutil

variable {nf nd : ℕ} {dims : List ℕ}

/-- A store in which all data is conjugate symmetric. -/
def HermitianStore (st : Store nf nd dims.prod) : Prop :=
  (∀ i, Hermitian dims (st.fields i)) ∧ ∀ d, Hermitian dims (st.derived d)

/-- The assumptions on a model under which real fields stay real: derived fields of real fields are
real, and terms, sources and modifiers produce conjugate symmetric spectra from conjugate symmetric
ones. -/
structure RealModel (m : Model nf nd dims.prod) : Prop where
  fieldsOnly : FieldsOnly m
  calcs : ∀ d (st : Store nf nd dims.prod), (∀ i, IsReal (st.fields i)) → IsReal (m.calcs d st)
  terms : ∀ i, ∀ f ∈ m.terms i ++ m.denum i, ∀ (st : Store nf nd dims.prod) (t : ℝ),
    HermitianStore st → Hermitian dims (f st (freqOf dims) t)
  sources : ∀ i, ∀ s ∈ m.sources i, ∀ t, Hermitian dims (s.eval (freqOf dims) t)
  modifiers : ∀ md ∈ m.modifiers, ∀ data, Hermitian dims data → Hermitian dims (md.2 data)

theorem hermitian_filter (h : GoodDims (intDims dims)) (filter : Option (ℝ → ℝ))
    {data : Fin dims.prod → ℂ} (hd : Hermitian dims data) :
    Hermitian dims (optFilter filter (freqOf dims) data) := by
  cases filter with
  | none => exact hd
  | some f =>
    intro b c hc
    have hdot : ∀ l : List ℝ, dotR l l = (l.map fun x => x ^ 2).sum := by
      intro l
      induction l with
      | nil => rfl
      | cons a l ih =>
        simp only [dotR, List.zipWith_cons_cons, List.sum_cons, List.map_cons] at ih ⊢
        rw [ih]; ring
    simp only [optFilter, applyModalFilter, hdot, freq_sq_conj h hc, hd b c hc, map_mul,
      Complex.conj_ofReal]

theorem hermitian_step (h : GoodDims (intDims dims)) {m : Model nf nd dims.prod} (hm : RealModel m)
    {s : Stepper dims.prod} (hs : s.freq = freqOf dims) (t : ℝ) {st : Store nf nd dims.prod}
    (hst : HermitianStore st) (i : Fin nf) : HermitianStore (eulerField m s t st i) := by
  refine ⟨fun j => ?_, hst.2⟩
  by_cases hj : j = i
  · subst hj
    simp only [eulerField, Function.update_self]
    rw [hs]
    apply hermitian_filter h
    have hden : Hermitian dims (m.getDenum j st (freqOf dims) t) := by
      have : m.getDenum j st (freqOf dims) t = fun k =>
          ((m.denum j).map fun f => f st (freqOf dims) t k).sum := funext fun k => c21_denum ..
      rw [this]
      exact Hermitian.sum _ _ fun f hf => hm.terms j f (by simp [hf]) st t hst
    have hrhs : Hermitian dims (m.getRHS j st (freqOf dims) t) := by
      rw [c21_rhs]
      have hfold : ∀ (l : List (Data dims.prod → Data dims.prod)) (d : Data dims.prod),
          (∀ f ∈ l, ∀ data, Hermitian dims data → Hermitian dims (f data)) → Hermitian dims d →
          Hermitian dims (l.foldl (fun data f => f data) d) := by
        intro l
        induction l with
        | nil => intro d _ hd; exact hd
        | cons f l ih =>
          intro d hl hd
          exact ih _ (fun g hg => hl g (by simp [hg])) (hl f (by simp) d hd)
      apply hfold
      · intro f hf
        obtain ⟨md, hmd, rfl⟩ := List.mem_map.mp hf
        exact hm.modifiers md (List.mem_filter.mp hmd).1
      · exact Hermitian.add
          (Hermitian.sum _ _ fun f hf => hm.terms j f (by simp [hf]) st t hst)
          (Hermitian.sum _ _ fun f hf => hm.sources j f hf t)
    have h1 := Hermitian.add (hst.1 j) (Hermitian.mul (Hermitian.const s.dt) hrhs)
    have h2 := Hermitian.add (Hermitian.const 1) (Hermitian.mul (Hermitian.const (-s.dt)) hden)
    have h3 := Hermitian.div h1 h2
    convert h3 using 2
    push_cast
    ring
  · simp only [eulerField, Function.update_of_ne hj]
    exact hst.1 j

/-- C24: on the domains of `LayoutOk` (all 2D and all cubic 3D domains) fields that are real stay
real after any number of steps. -/
theorem c24_real (h : GoodDims (intDims dims)) (hl : LayoutOk dims) {m : Model nf nd dims.prod}
    (hm : RealModel m) (s : Stepper dims.prod) (hs : s.freq = freqOf dims)
    (st : Store nf nd dims.prod) (hst : ∀ i, IsReal (st.fields i)) (steps : ℕ) (i : Fin nf) :
    IsReal (((eulerStep m)^[steps] (s, st)).2.fields i) := by
  have hstep : ∀ (s : Stepper dims.prod) (st : Store nf nd dims.prod), s.freq = freqOf dims →
      (∀ i, IsReal (st.fields i)) → ∀ i, IsReal ((eulerStep m (s, st)).2.fields i) := by
    intro s st hs hst i
    apply real_of_hermitian h hl
    have h0 : HermitianStore (fftDerived (fftFields (m.sync st))) := by
      rw [sync_eq hm.fieldsOnly]
      exact ⟨fun i => hermitian_fft h hl (hst i), fun d => hermitian_fft h hl (hm.calcs d st hst)⟩
    have hloop : ∀ (l : List (Fin nf)) (st : Store nf nd dims.prod), HermitianStore st →
        HermitianStore (l.foldl (eulerField m s s.getTime) st) := by
      intro l
      induction l with
      | nil => intro st hst; exact hst
      | cons a l ih => intro st hst; exact ih _ (hermitian_step h hm hs _ hst a)
    unfold eulerStep eulerStepAt
    dsimp only
    rw [fft_ifftFields (pos_of_goodDims h)]
    exact (hloop _ _ h0).1 i
  have hiter : ∀ (steps : ℕ) (p : Stepper dims.prod × Store nf nd dims.prod), p.1.freq = freqOf dims →
      (∀ i, IsReal (p.2.fields i)) → ∀ i, IsReal (((eulerStep m)^[steps] p).2.fields i) := by
    intro steps
    induction steps with
    | zero => intro p _ hp; exact hp
    | succ steps ih =>
      intro p hf hp
      rw [Function.iterate_succ_apply]
      exact ih _ hf (hstep p.1 p.2 hf hp)
  exact hiter steps (s, st) hs hst i

/-- C24: operator prefixes keep conjugate symmetry, so equations built from real coefficients, fields,
derived fields and Laplacians satisfy the assumption on the terms. -/
theorem c24_prefixes (h : GoodDims (intDims dims)) (prefixes : List Str) (term : Term dims.prod)
    (t : ℝ) (ht : Hermitian dims (term (freqOf dims) t)) :
    Hermitian dims (constructFunc term prefixes (freqOf dims) t) := by
  intro b c hc
  rw [c15_meaning, c15_meaning, map_mul, ht b c hc]
  congr 1
  rw [map_list_prod, List.map_map]
  congr 1
  refine List.map_congr_left fun p _ => ?_
  have hs : laplaceSymbol (freqOf dims c) = laplaceSymbol (freqOf dims b) := by
    unfold laplaceSymbol; rw [freq_sq_conj h hc]
  have hr : (starRingEnd ℂ) (laplaceSymbol (freqOf dims b)) = laplaceSymbol (freqOf dims b) := by
    unfold laplaceSymbol; rw [map_neg, Complex.conj_ofReal]
  simp only [Function.comp, prefixSymbol, hs]
  split_ifs <;> simp [hr]

/-- The Cahn-Hilliard model satisfies the assumptions. -/
example (h : GoodDims (intDims dims)) : RealModel (dims := dims) (cahnHilliard dims.prod) where
  fieldsOnly := fun d st st' he => by simp only [cahnHilliard, he]
  calcs := fun d st hr x => by
    simp only [cahnHilliard]
    have : (starRingEnd ℂ) (st.fields 0 x ^ 3) = st.fields 0 x ^ 3 := by
      rw [map_pow, Complex.conj_eq_iff_im.mpr (hr 0 x)]
    exact Complex.conj_eq_iff_im.mp this
  terms := fun i f hf st t hst => by
    simp only [cahnHilliard, List.cons_append, List.nil_append, List.mem_cons, List.not_mem_nil,
      or_false] at hf
    rcases hf with rfl | rfl
    · exact c24_prefixes h _ _ _ (hst.2 0)
    · exact c24_prefixes h _ _ _ (by simpa using Hermitian.const (dims := dims) 1)
  sources := fun i s hs => by simp [cahnHilliard] at hs
  modifiers := fun md hmd => by simp [cahnHilliard] at hmd

/-- `dc/dt = LAP c`, treated implicitly. -/
noncomputable def heatModel (n : ℕ) : Model 1 0 n :=
  { calcs := fun d => d.elim0
    terms := fun _ => []
    denum := fun _ => [fun _ => constructFunc (fun _ _ _ => 1) ["LAP".toList]]
    sources := fun _ => []
    modifiers := [] }

private theorem fft_lin_single {dims : List ℕ} (k : Fin dims.prod) (z : Fin dims.prod) (hz : z.val = 0) :
    fft dims (Pi.single z 1) k = 1 := by
  rw [fft_single, phase_symm, hz, phase_zero_left]; simp [cis_zero]

/-- C24: in the 1×2×3 box one implicit diffusion step turns a real field into a complex one. -/
theorem c24_noncubic_fails :
    let dims := [1, 2, 3]
    ∃ st : Store 1 0 dims.prod, (∀ i, IsReal (st.fields i)) ∧
      ¬ IsReal ((eulerStep (dims := dims) (heatModel dims.prod)
        (⟨1, freqOf dims, none, 0⟩, st)).2.fields 0) := by
  intro dims
  have hpos : ∀ d ∈ dims, 0 < d := by decide
  let z : Fin dims.prod := ⟨0, by decide⟩
  let st : Store 1 0 dims.prod := ⟨fun _ => Pi.single z 1, fun d => d.elim0⟩
  refine ⟨st, fun i x => ?_, fun hreal => ?_⟩
  · simp only [st, Pi.single_apply]; split_ifs <;> simp
  let k1 : Fin dims.prod := ⟨1, by decide⟩
  let k2 : Fin dims.prod := ⟨2, by decide⟩
  -- bins 1 and 2 are conjugate for the transform
  have hconj : ∀ data : Fin dims.prod → ℂ, IsReal data →
      fft dims data k2 = (starRingEnd ℂ) (fft dims data k1) := by
    intro data hr
    unfold fft
    rw [map_sum]
    refine Finset.sum_congr rfl fun x _ => ?_
    rw [map_mul, Complex.conj_eq_iff_im.mpr (hr x), cis_conj, neg_neg]
    congr 1
    refine cis_congr ?_
    obtain ⟨x, hx⟩ := x
    have hx6 : x < 6 := hx
    show ∃ m : ℤ, -phase [1, 2, 3] 2 x = phase [1, 2, 3] 1 x + m
    have : x = 0 ∨ x = 1 ∨ x = 2 ∨ x = 3 ∨ x = 4 ∨ x = 5 := by omega
    rcases this with rfl | rfl | rfl | rfl | rfl | rfl
    · exact ⟨0, by simp [phase, rowMajor, phaseSum]⟩
    · exact ⟨-1, by norm_num [phase, rowMajor, phaseSum]⟩
    · exact ⟨-2, by norm_num [phase, rowMajor, phaseSum]⟩
    · exact ⟨0, by norm_num [phase, rowMajor, phaseSum]⟩
    · exact ⟨-1, by norm_num [phase, rowMajor, phaseSum]⟩
    · exact ⟨-2, by norm_num [phase, rowMajor, phaseSum]⟩
  have hstep : ∀ k, fft dims ((eulerStep (dims := dims) (heatModel dims.prod)
        (⟨1, freqOf dims, none, 0⟩, st)).2.fields 0) k =
      1 / (1 - laplaceSymbol (freqOf dims k)) := by
    intro k
    have := c22_euler hpos (heatModel dims.prod) (fun d => d.elim0) 0 (c22_single_equation _ _)
      ⟨1, freqOf dims, none, 0⟩ rfl st k
    dsimp only at this
    rw [this, c21_rhs, c21_denum]
    have h1 : fft dims (st.fields 0) k = 1 := fft_lin_single k z rfl
    rw [h1]
    simp [heatModel, c15_meaning, prefixSymbol]
  have h := hconj _ hreal
  rw [hstep, hstep] at h
  have f1 : freqOf dims k1 = [0, 1/2, 0] := by
    have : Pfutil.freq [1, 2, 3] 1 = some [0, 1/2, 0] := by decide +kernel
    show ((Pfutil.freq [1, 2, 3] 1).getD []).map _ = _
    rw [this]; simp
  have f2 : freqOf dims k2 = [0, 0, 1/3] := by
    have : Pfutil.freq [1, 2, 3] 2 = some [0, 0, 1/3] := by decide +kernel
    show ((Pfutil.freq [1, 2, 3] 2).getD []).map _ = _
    rw [this]; simp
  have s1 : laplaceSymbol (freqOf dims k1) = ((-Real.pi ^ 2 : ℝ) : ℂ) := by
    rw [f1]; unfold laplaceSymbol; rw [← Complex.ofReal_neg]; congr 1; simp; ring
  have s2 : laplaceSymbol (freqOf dims k2) = ((-(4 / 9 * Real.pi ^ 2) : ℝ) : ℂ) := by
    rw [f2]; unfold laplaceSymbol; rw [← Complex.ofReal_neg]; congr 1; simp; ring
  rw [s1, s2] at h
  have e : (1 : ℂ) / (1 - ((-Real.pi ^ 2 : ℝ) : ℂ)) = ((1 / (1 + Real.pi ^ 2) : ℝ) : ℂ) := by
    push_cast; ring_nf
  have e' : (1 : ℂ) / (1 - ((-(4 / 9 * Real.pi ^ 2) : ℝ) : ℂ)) =
      ((1 / (1 + 4 / 9 * Real.pi ^ 2) : ℝ) : ℂ) := by
    push_cast; ring_nf
  rw [e, e', Complex.conj_ofReal, Complex.ofReal_inj] at h
  have hp := Real.pi_pos
  have h1 : (0:ℝ) < 1 + Real.pi ^ 2 := by positivity
  have h2 : (0:ℝ) < 1 + 4 / 9 * Real.pi ^ 2 := by positivity
  rw [div_eq_div_iff h2.ne' h1.ne'] at h
  nlinarith [sq_pos_of_pos hp]

end Gopf.Props
