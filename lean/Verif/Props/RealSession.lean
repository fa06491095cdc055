import Verif.Props.Conserved
import Verif.Props.Reality

/-!
# C117: real fields stay real through any session
-/

namespace Gopf.Props
open Spec Pf Pfutil

variable {nf nd n : ℕ} {dims : List ℕ}

/-- Real fields give real derived fields, and conjugate symmetric spectra give conjugate symmetric right-hand sides and
implicit parts; the implicit part does not depend on the fields. -/
structure RealRates (m : Model nf nd dims.prod) : Prop where
  fieldsOnly : FieldsOnly m
  calcs : ∀ d (st : Store nf nd dims.prod), (∀ i, IsReal (st.fields i)) → IsReal (m.calcs d st)
  rhs : ∀ i st t, HermitianStore st → Hermitian dims (m.getRHS i st (freqOf dims) t)
  denum : ∀ i st t, Hermitian dims (m.getDenum i st (freqOf dims) t)
  const : ∀ i st st' t, m.getDenum i st (freqOf dims) t = m.getDenum i st' (freqOf dims) t

section
variable (h : GoodDims (intDims dims)) (hl : LayoutOk dims) {m : Model nf nd dims.prod} (hm : RealRates m)
include h hl hm

theorem spectra_hermitian {st : Store nf nd dims.prod} (hst : ∀ i, IsReal (st.fields i)) :
    HermitianStore (fftDerived (fftFields (m.sync st))) := by
  rw [sync_eq hm.fieldsOnly]
  exact ⟨fun i => hermitian_fft h hl (hst i), fun d => hermitian_fft h hl (hm.calcs d st hst)⟩

omit h hl hm in
theorem hermitian_quotient {a r den : Data dims.prod} (w : ℝ) (ha : Hermitian dims a) (hr : Hermitian dims r)
    (hd : Hermitian dims den) : Hermitian dims fun k => (a k + (w : ℂ) * r k) / (1 - (w : ℂ) * den k) := by
  intro b c hc
  simp only [ha b c hc, hr b c hc, hd b c hc, map_div₀, map_add, map_sub, map_mul, map_one, Complex.conj_ofReal]

/-- C117: an Euler step takes real fields to real fields. -/
theorem c117_euler (s : Stepper dims.prod) (hs : s.freq = freqOf dims) (st : Store nf nd dims.prod)
    (hst : ∀ i, IsReal (st.fields i)) (i : Fin nf) : IsReal ((eulerStep m (s, st)).2.fields i) := by
  apply real_of_hermitian h hl
  have hloop : ∀ (l : List (Fin nf)) (st : Store nf nd dims.prod), HermitianStore st →
      HermitianStore (l.foldl (eulerField m s s.getTime) st) := by
    intro l
    induction l with
    | nil => intro st hst; exact hst
    | cons a l ih =>
      intro st hst
      refine ih _ ⟨fun j => ?_, hst.2⟩
      by_cases hj : j = a
      · subst hj
        simp only [eulerField, Function.update_self]
        rw [hs]
        apply hermitian_filter h
        exact hermitian_quotient s.dt (hst.1 j) (hm.rhs j st _ hst) (hm.denum j st _)
      · simp only [eulerField, Function.update_of_ne hj]
        exact hst.1 j
  unfold eulerStep eulerStepAt
  dsimp only
  rw [fft_ifftFields (pos_of_goodDims h)]
  exact (hloop _ _ (spectra_hermitian h hl hm hst)).1 i

theorem correction_hermitian {s : Stepper dims.prod} (hs : s.freq = freqOf dims) {a : Fin nf → Data dims.prod}
    (ha : ∀ i, Hermitian dims (a i)) (factor : ℝ) {st : Store nf nd dims.prod}
    (hst : ∀ i, Hermitian dims (st.fields i)) (i : Fin nf) :
    Hermitian dims ((rk4Correction m s a factor st).2 i) := by
  have hA : ∀ i (x : Store nf nd dims.prod), m.getDenum i x s.freq s.getTime = m.getDenum i st s.freq s.getTime := by
    rw [hs]
    exact fun i x => hm.const i _ _ _
  have hreal : ∀ i, IsReal (((List.finRange nf).foldl (rk4Field m s a factor) st).fields i) := by
    intro i
    apply real_of_hermitian h hl
    rw [rk4_fields s hA, fft_divided (pos_of_goodDims h), hs]
    exact hermitian_quotient (factor * s.dt) (hst i) (ha i) (hm.denum i st _)
  have := hm.rhs i _ s.getTime (spectra_hermitian h hl hm hreal)
  rw [← hs] at this
  exact this

theorem stage_hermitian {s : Stepper dims.prod} (hs : s.freq = freqOf dims) {F : Fin nf → Data dims.prod}
    (hF : ∀ i, Hermitian dims (F i)) (factor weight : ℝ)
    {p : (Fin nf → Data dims.prod) × (Fin nf → Data dims.prod) × (Fin nd → Data dims.prod)}
    (hp : ∀ i, Hermitian dims (p.1 i) ∧ Hermitian dims (p.2.1 i)) (i : Fin nf) :
    Hermitian dims ((stageOf m s F factor weight p).1 i) ∧ Hermitian dims ((stageOf m s F factor weight p).2.1 i) := by
  have hc := correction_hermitian h hl hm hs (fun i => (hp i).2) factor (st := ⟨F, p.2.2⟩) hF i
  refine ⟨fun b c hbc => ?_, hc⟩
  have e1 := (hp i).1 b c hbc
  have e2 := hc b c hbc
  simp only [stageOf, rk4Accumulate, e1, e2, map_add, map_mul, Complex.conj_ofReal]

/-- C117: an RK4 step takes real fields to real fields. -/
theorem c117_rk4 (s : Stepper dims.prod) (hs : s.freq = freqOf dims) (st : Store nf nd dims.prod)
    (hst : ∀ i, IsReal (st.fields i)) (i : Fin nf) : IsReal ((rk4Step m (s, st)).2.fields i) := by
  apply real_of_hermitian h hl
  have h1 := spectra_hermitian h hl hm hst
  have hA : ∀ i (x : Store nf nd dims.prod), m.getDenum i x s.freq s.getTime = m.getDenum i st s.freq s.getTime := by
    rw [hs]
    exact fun i x => hm.const i _ _ _
  have k1 : ∀ i, Hermitian dims (m.getRHS i (fftDerived (fftFields (m.sync st))) s.freq s.getTime) := by
    rw [hs]
    exact fun i => hm.rhs i _ _ h1
  have hfin : Hermitian dims ((stagesOf m s (fftDerived (fftFields (m.sync st)))).1 i) := by
    refine (stage_hermitian h hl hm hs h1.1 1 (1 / 6) (stage_hermitian h hl hm hs h1.1 0.5 (1 / 3)
      (stage_hermitian h hl hm hs h1.1 0.5 (1 / 3) (p := (rk4Accumulate s (fftDerived (fftFields (m.sync st))).fields
          (fun i => m.getRHS i (fftDerived (fftFields (m.sync st))) s.freq s.getTime) (1 / 6),
        fun i => m.getRHS i (fftDerived (fftFields (m.sync st))) s.freq s.getTime,
        (fftDerived (fftFields (m.sync st))).derived)) fun i => ⟨fun b c hbc => ?_, k1 i⟩)) i).1
    have e1 := h1.1 i b c hbc
    have e2 := k1 i b c hbc
    simp only [rk4Accumulate, e1, e2, map_add, map_mul, Complex.conj_ofReal]
  have e := rk4_stages s hA st i
  change Hermitian dims (fft dims ((rk4StepStore m s st).fields i))
  rw [e, fft_divided (pos_of_goodDims h), hs]
  apply hermitian_filter h
  intro b c hbc
  have e1 := hfin b c hbc
  have e2 := hm.denum i st s.getTime b c hbc
  dsimp only at e1 e2 ⊢
  rw [e1, e2]
  simp only [map_div₀, map_sub, map_mul, map_one, Complex.conj_ofReal]

/-- C117: real fields are real after any session. -/
theorem c117_session (bricks : Str → Option (BrickRef nf nd)) (dt : ℝ) (fields : Fin nf → List ℂ)
    (derived : Fin nd → Data dims.prod) (s r : SolverState nf nd dims)
    (hs : newSolver dims dt fields derived = some s) (hst : ∀ i, IsReal (s.store.fields i)) (calls : List SolverCall)
    (hr : s.session m bricks calls = some r) (i : Fin nf) : IsReal (r.store.fields i) :=
  (kept_session (m := m) (P := fun st => ∀ i, IsReal (st.fields i)) (Q := fun _ => True)
    (fun s' st h1 _ h3 => c117_euler h hl hm s' h1 st h3) (fun s' st h1 _ h3 => c117_rk4 h hl hm s' h1 st h3)
    bricks calls (fun _ _ => trivial) (newSolver_kept hs hst) hr).2.2 i

end

/-! ### Equations given as text -/

/-- A power of a real number that is real: the base is not negative or the power a whole number. -/
def RealPower (z : ℂ) (q : ℚ) : Prop := z.im = 0 ∧ (0 ≤ z.re ∨ q.den = 1)

theorem RealPower.real {z : ℂ} {q : ℚ} (hz : RealPower z q) : (z ^ (q : ℂ)).im = 0 := by
  obtain ⟨h0, h⟩ := hz
  have ez : z = ((z.re : ℝ) : ℂ) := by
    apply Complex.ext <;> simp [h0]
  rcases h with h | h
  · rw [ez]
    have : ((z.re ^ ((q : ℚ) : ℝ) : ℝ) : ℂ) = (z.re : ℂ) ^ (q : ℂ) := by
      rw [Complex.ofReal_cpow h]
      simp
    rw [← this, Complex.ofReal_im]
  · have eq : (q : ℂ) = ((q.num : ℤ) : ℂ) := by
      conv_lhs => rw [← Rat.num_div_den q, h]
      simp
    rw [eq, Complex.cpow_intCast, ez, ← Complex.ofReal_zpow, Complex.ofReal_im]

theorem real_prod (l : List ℂ) (hr : ∀ z ∈ l, z.im = 0) : l.prod.im = 0 := by
  induction l with
  | nil => simp
  | cons a l ih =>
    rw [List.prod_cons, Complex.mul_im, hr a (by simp), ih fun z hz => hr z (by simp [hz])]
    simp

/-- The powers of the fields are whole numbers, those of the scalars give real numbers. -/
def Equation.RealPowers (N : Names) (c : Str → ℂ) (eq : Equation) : Prop :=
  ∀ p ∈ eq.terms, (∀ f ∈ factorsIn N.fields p.1, f.power.den = 1) ∧
    ∀ f ∈ factorsIn N.scalars p.1, RealPower (c f.name) f.power

/-- A registered function is real where the fields are. -/
def RealFunction (c : Calc n) : Prop := ∀ u : Bricks n, (∀ x, IsReal (u x)) → IsReal (c.eval u)

theorem hermitian_symbol (h : GoodDims (intDims dims)) (z : ℂ) (hz : z.im = 0) (l : List ℕ) :
    Hermitian dims fun k => z * (l.map fun q => laplaceSymbol (freqOf dims k) ^ q).prod := by
  intro b c hc
  have hs : laplaceSymbol (freqOf dims c) = laplaceSymbol (freqOf dims b) := by
    unfold laplaceSymbol; rw [freq_sq_conj h hc]
  have hr : (starRingEnd ℂ) (laplaceSymbol (freqOf dims b)) = laplaceSymbol (freqOf dims b) := by
    unfold laplaceSymbol; rw [map_neg, Complex.conj_ofReal]
  dsimp only
  rw [hs, map_mul, Complex.conj_eq_iff_im.mpr hz, map_list_prod, List.map_map]
  congr 2
  apply List.map_congr_left
  intro q _
  simp [hr]

theorem coefficient_real {N : Names} {c : Str → ℂ} {p : List Item × Option Char}
    (hp : ∀ f ∈ factorsIn N.scalars p.1, RealPower (c f.name) f.power) :
    ((signOf p.2 : ℂ) * ((factorsIn N.scalars p.1).map fun f => c f.name ^ ((f.power : ℚ) : ℂ)).prod).im = 0 := by
  have h1 := real_prod ((factorsIn N.scalars p.1).map fun f => c f.name ^ ((f.power : ℚ) : ℂ)) (by
    intro z hz
    obtain ⟨f, hf, rfl⟩ := List.mem_map.mp hz
    exact (hp f hf).real)
  have h2 : ((signOf p.2 : ℂ)).im = 0 := by simp
  rw [Complex.mul_im, h1, h2]
  simp

theorem explicit_hermitian (h : GoodDims (intDims dims)) {N : Names} {c : Str → ℂ} {p : List Item × Option Char}
    (hp : ∀ f ∈ factorsIn N.scalars p.1, RealPower (c f.name) f.power) (field : Str) :
    Hermitian dims fun k => explicitFactor N field (fun y _ => c y) (freqOf dims) k p := by
  unfold explicitFactor
  by_cases hlin : LinearIn field N.varying p.1
  · simp only [if_pos hlin]
    exact Hermitian.zero
  · simp only [if_neg hlin]
    exact hermitian_symbol h _ (coefficient_real hp) _

theorem linear_hermitian (h : GoodDims (intDims dims)) {N : Names} {c : Str → ℂ} {p : List Item × Option Char}
    (hp : ∀ f ∈ factorsIn N.scalars p.1, RealPower (c f.name) f.power) (field : Str) :
    Hermitian dims fun k => linearFactor N field (fun y _ => c y) (freqOf dims) k p := by
  unfold linearFactor
  by_cases hlin : LinearIn field N.varying p.1
  · simp only [if_pos hlin]
    exact hermitian_symbol h _ (coefficient_real hp) _
  · simp only [if_neg hlin]
    exact Hermitian.zero

/-- What the text of the equations determines: the rates take real fields to real fields, and time does not occur. -/
theorem text_realRates (h : GoodDims (intDims dims)) (N : Names) (hN : N.WellNamed)
    (m0 : EqModel dims.prod) (h0 : StartsAs N m0) (heq : m0.equations = [])
    (hfun : ∀ p ∈ m0.derived, ReadsFields N p.2 ∧ RealFunction p.2)
    (eqs : List Equation) (hq : ∀ eq ∈ eqs, eq.Polynomial N ∧ Unregistered m0 eq)
    (hcount : N.fields.length ≤ eqs.length)
    (ss : List Str) (hs : ss.map (fun s => s.filter fun c => c ≠ ' ') = eqs.map Equation.text) (c : Str → ℂ)
    (hc : ∀ x ∈ N.scalars, (c x).im = 0) (hpow : ∀ eq ∈ eqs, Equation.RealPowers N c eq) :
    ∃ m M, ss.foldlM EqModel.addEquation m0 = some m ∧ m.fields = N.fields ∧ m.assemble c = some M ∧
      RealRates M ∧ TimeFree (freqOf dims) M := by
  obtain ⟨m, M, h1, hg, h3, ⟨l, hl1, hl2⟩, h5, h6⟩ := text_shape N hN m0 h0 heq eqs hq hcount ss hs c
  refine ⟨m, M, h1, hg.fields, h3, ?_⟩
  have hsc : ∀ (st : Store m.fields.length m.derived.length dims.prod), ∀ x ∈ N.scalars,
      m.brick c st x = fun _ => c x := fun st x hx => brick_scalar hN hg hx c st
  have hreads : ∀ p ∈ m.derived, ReadsFields N p.2 := fun p hp => calc_reads hg (fun p hp => (hfun p hp).1) hp
  have hfld : ∀ x ∈ N.fields, ∃ j : Fin m.fields.length, ∀ st, m.brick c st x = st.fields j := by
    intro x hx
    rw [← hg.fields] at hx
    obtain ⟨j, hj, rfl⟩ := List.getElem_of_mem hx
    exact ⟨⟨j, hj⟩, brick_field hN hg ⟨j, hj⟩ c⟩
  have hmem : ∀ (i : Fin m.fields.length) eq, eqs[i.val]? = some eq → eq ∈ eqs := fun i eq h =>
    List.mem_of_getElem? h
  refine ⟨⟨?_, ?_, ?_, ?_, ?_⟩, ?_⟩
  · intro d st st' he
    rw [h5, h5]
    refine hreads _ (List.getElem_mem d.2) _ _ (fun x hx => ?_) fun x hx => by rw [hsc st x hx, hsc st' x hx]
    obtain ⟨j, hj⟩ := hfld x hx
    rw [hj, hj, he]
  · intro d st hreal
    rw [h5]
    have hbf : ∀ x ∈ N.fields, IsReal (m.brick c st x) := by
      intro x hx
      obtain ⟨j, hj⟩ := hfld x hx
      rw [hj]
      exact hreal j
    have hd : m.derived[d] ∈ m0.derived ∨ m.derived[d] ∈ l := by
      rw [← List.mem_append, ← hl1]
      exact List.getElem_mem d.2
    rcases hd with hd | hd
    · classical
      let u : Bricks dims.prod := fun x => if x ∈ N.fields ∨ x ∈ N.scalars then m.brick c st x else fun _ => 0
      have e : (m.derived[d]).2.eval (m.brick c st) = (m.derived[d]).2.eval u := by
        refine (hfun _ hd).1 _ _ (fun x hx => ?_) fun x hx => ?_
        · simp only [u, if_pos (Or.inl hx : x ∈ N.fields ∨ x ∈ N.scalars)]
        · simp only [u, if_pos (Or.inr hx : x ∈ N.fields ∨ x ∈ N.scalars)]
      rw [e]
      refine (hfun _ hd).2 u fun x => ?_
      simp only [u]
      split_ifs with hx
      · rcases hx with hx | hx
        · exact hbf x hx
        · rw [hsc st x hx]
          exact fun _ => hc x hx
      · exact fun _ => rfl
    · obtain ⟨eq, heq', p, hp, hv⟩ := hl2 _ hd
      rw [hv]
      intro x
      apply real_prod
      intro z hz
      obtain ⟨f, hf, rfl⟩ := List.mem_map.mp hz
      have hff : f.name ∈ N.fields := by
        have := (List.mem_filter.mp hf).2
        simpa using this
      exact RealPower.real ⟨hbf _ hff x, Or.inr ((hpow eq heq' p hp).1 f hf)⟩
  · intro i st t hst
    obtain ⟨eq, hi, ⟨ts, hts, hR⟩, -⟩ := h6 i
    have e : M.getRHS i st (freqOf dims) t = fun k => (ts.map fun q =>
      explicitFactor N eq.field (fun y _ => c y) (freqOf dims) k q.1 * m.brick c st q.2 k).sum :=
      funext fun k => hR st _ t k
    rw [e]
    refine Hermitian.sum ts (fun q k =>
      explicitFactor N eq.field (fun y _ => c y) (freqOf dims) k q.1 * m.brick c st q.2 k) fun q hq => ?_
    refine Hermitian.mul (explicit_hermitian h ((hpow eq (hmem i eq hi) _ (hts q hq).1).2) _) ?_
    rcases List.mem_append.mp (hts q hq).2 with hx | hx
    · rw [hg.fields] at hx
      obtain ⟨j, hj⟩ := hfld _ hx
      rw [hj]
      exact hst.1 j
    · obtain ⟨p, hp, hpx⟩ := List.mem_map.mp hx
      obtain ⟨d, hd, rfl⟩ := List.getElem_of_mem hp
      rw [← hpx]
      have e : m.brick c st (m.derived[d]).1 = st.derived ⟨d, hd⟩ := brick_derived hN hg ⟨d, hd⟩ c st
      rw [e]
      exact hst.2 _
  · intro i st t
    obtain ⟨eq, hi, -, hD⟩ := h6 i
    have e : M.getDenum i st (freqOf dims) t = fun k =>
      (eq.terms.map (linearFactor N eq.field (fun y _ => c y) (freqOf dims) k)).sum := funext fun k => hD st _ t k
    rw [e]
    exact Hermitian.sum eq.terms (fun p k => linearFactor N eq.field (fun y _ => c y) (freqOf dims) k p)
      fun p hp => linear_hermitian h (hpow eq (hmem i eq hi) p hp).2 _
  · intro i st st' t
    obtain ⟨eq, hi, -, hD⟩ := h6 i
    funext k
    rw [hD, hD]
  · intro i st t
    obtain ⟨eq, hi, ⟨ts, hts, hR⟩, hD⟩ := h6 i
    exact ⟨funext fun k => by rw [hR, hR], funext fun k => by rw [hD, hD]⟩

/-- C117, from the text of the equations: with real scalars, whole powers of the fields and functions that are real
where the fields are, real initial fields stay real through any session. -/
theorem c117_text (h : GoodDims (intDims dims)) (hl : LayoutOk dims) (N : Names) (hN : N.WellNamed)
    (m0 : EqModel dims.prod) (h0 : StartsAs N m0) (heq : m0.equations = [])
    (hfun : ∀ p ∈ m0.derived, ReadsFields N p.2 ∧ RealFunction p.2)
    (eqs : List Equation) (hq : ∀ eq ∈ eqs, eq.Polynomial N ∧ Unregistered m0 eq)
    (hcount : N.fields.length ≤ eqs.length)
    (ss : List Str) (hs : ss.map (fun s => s.filter fun c => c ≠ ' ') = eqs.map Equation.text) (c : Str → ℂ)
    (hc : ∀ x ∈ N.scalars, (c x).im = 0) (hpow : ∀ eq ∈ eqs, Equation.RealPowers N c eq) :
    ∃ m M, ss.foldlM EqModel.addEquation m0 = some m ∧ m.fields = N.fields ∧ m.assemble c = some M ∧
      ∀ (bricks : Str → Option (BrickRef m.fields.length m.derived.length)) (dt : ℝ)
        (fields : Fin m.fields.length → List ℂ) (derived : Fin m.derived.length → Data dims.prod)
        (s r : SolverState m.fields.length m.derived.length dims),
      newSolver dims dt fields derived = some s → (∀ i, IsReal (s.store.fields i)) → ∀ calls : List SolverCall,
      s.session M bricks calls = some r → ∀ i, IsReal (r.store.fields i) := by
  obtain ⟨m, M, h1, h2, h3, h4, -⟩ := text_realRates h N hN m0 h0 heq hfun eqs hq hcount ss hs c hc hpow
  exact ⟨m, M, h1, h2, h3, fun bricks dt fields derived s r hnew hst calls hr i =>
    c117_session h hl h4 bricks dt fields derived s r hnew hst calls hr i⟩

/-! ### Fractional powers -/

theorem conc_root : Monomial concNames [⟨none, some ⟨"conc".toList, some ⟨['0'], some ['5']⟩⟩⟩] where
  readable :=
    { wf := by
        intro i hi
        obtain rfl := List.mem_singleton.mp hi
        refine ⟨by simp, ?_, by simp, by simp; decide, by simp⟩
        simp [Exponent.WellFormed]
      oneLap := by simp [laplacians]
      lapFirst := by
        intro pre i post h hl j hj
        cases pre with
        | nil => simp at hj
        | cons p pre => simp at h
      together := ⟨[], [⟨none, some ⟨"conc".toList, some ⟨['0'], some ['5']⟩⟩⟩], [], by simp, by simp, by simp,
        by simp; decide, by simp, by simp⟩ }
  once := by
    intro x _
    exact (List.length_filter_le _ _)
  kind := Or.inl ⟨by simp [factorsIn, concNames], by decide⟩
  exactOne := by
    intro f hf
    have : f = ⟨"conc".toList, some ⟨['0'], some ['5']⟩⟩ := by
      simpa using (List.mem_filter.mp hf).1
    subst this
    intro h
    have p1 : Factor.power ⟨"conc".toList, some ⟨['0'], some ['5']⟩⟩ = 1 / 2 := by decide +kernel
    rw [p1] at h
    norm_num at h

/-- `dconc/dt = conc^0.5`. -/
def rootEquation : Equation := ⟨"conc".toList, none, [⟨none, some ⟨"conc".toList, some ⟨['0'], some ['5']⟩⟩⟩], []⟩

/-- C117: whole powers are needed. With `dconc/dt = conc^0.5` the field that is -1 everywhere becomes `-1 + i*dt`. -/
theorem c117_root (h : GoodDims (intDims dims)) (hl : LayoutOk dims) (dt : ℝ) (hdt : dt ≠ 0) :
    ∃ m M, ["dconc/dt = conc^0.5".toList].foldlM EqModel.addEquation
        ((EqModel.empty (n := dims.prod)).addField "conc".toList) = some m ∧ m.assemble (fun _ => 0) = some M ∧
      ∃ (st : Store m.fields.length m.derived.length dims.prod) (i : Fin m.fields.length), (∀ j, IsReal (st.fields j)) ∧
        ∀ x, (eulerStep M (⟨dt, freqOf dims, none, 0⟩, st)).2.fields i x = -1 + Complex.I * dt ∧
          ¬ IsReal ((eulerStep M (⟨dt, freqOf dims, none, 0⟩, st)).2.fields i) := by
  have hpoly : Equation.Polynomial concNames rootEquation := by
    refine ⟨by decide, by simp [rootEquation], by simp [rootEquation], ?_⟩
    intro p hp
    simp only [rootEquation, Equation.terms, List.map_nil, List.mem_singleton] at hp
    subst hp
    exact conc_root
  obtain ⟨m, M, h1, h2, h3, h4⟩ := c115_euler h hl concNames conc_wellNamed
    ((EqModel.empty (n := dims.prod)).addField "conc".toList) ⟨rfl, rfl, fun x => Iff.rfl⟩ rfl
    (by intro p hp; simp [EqModel.empty, EqModel.addField] at hp) [rootEquation]
    (by
      intro eq heq
      obtain rfl := List.mem_singleton.mp heq
      exact ⟨hpoly, fun _ _ => ⟨rfl, rfl⟩⟩) (by decide) ["dconc/dt = conc^0.5".toList] (by decide) fun _ => 0
  have hlen : m.fields.length = 1 := by rw [h2]; rfl
  let i : Fin m.fields.length := ⟨0, by omega⟩
  have hi : m.fields[i] = "conc".toList := by
    have : ∀ (l : List Str) (e : l = concNames.fields) (h : 0 < l.length), l[0] = "conc".toList := by
      rintro _ rfl _
      rfl
    exact this _ h2 _
  refine ⟨m, M, h1, h3, ⟨fun _ _ => -1, fun _ _ => 0⟩, i, fun _ _ => by simp, ?_⟩
  intro x
  have p1 : Factor.power ⟨"conc".toList, some ⟨['0'], some ['5']⟩⟩ = 1 / 2 := by decide +kernel
  have hrate : Equation.rate concNames (fun _ => 0) (fun _ => -1) rootEquation = Complex.I := by
    have f1 : factorsIn concNames.varying [⟨none, some ⟨"conc".toList, some ⟨['0'], some ['5']⟩⟩⟩] =
        [⟨"conc".toList, some ⟨['0'], some ['5']⟩⟩] := by decide
    have g1 : signOf none = 1 := by decide
    have l1 : (laplacians [⟨none, some ⟨"conc".toList, some ⟨['0'], some ['5']⟩⟩⟩]).sum = 0 := by decide
    have s1 : ∀ l, factorsIn concNames.scalars l = [] := by intro l; simp [factorsIn, concNames]
    have hI : (-1 : ℂ) ^ (((1 / 2 : ℚ)) : ℂ) = Complex.I := by
      push_cast
      rw [← Complex.I_sq, one_div]
      have := Complex.pow_cpow_nat_inv (x := Complex.I) (n := 2) (by norm_num)
        (by rw [Complex.arg_I]; push_cast; linarith [Real.pi_pos]) (by rw [Complex.arg_I]; norm_num)
      exact_mod_cast this
    simp only [Equation.rate, rootEquation, Equation.terms, List.map_cons, List.map_nil, List.sum_cons, List.sum_nil,
      f1, s1, l1, g1, p1, if_true, List.prod_cons, List.prod_nil, hI]
    norm_num
  have hslope : Equation.slope concNames (fun _ => 0) rootEquation = 0 := by
    have n1 : ¬ LinearIn "conc".toList concNames.varying
        [⟨none, some ⟨"conc".toList, some ⟨['0'], some ['5']⟩⟩⟩] := by
      rintro ⟨-, -, h⟩
      have := h ⟨none, some ⟨"conc".toList, some ⟨['0'], some ['5']⟩⟩⟩ (by decide) _ rfl
      rw [p1] at this
      norm_num at this
    simp only [Equation.slope, rootEquation, Equation.terms, List.map_nil, List.map_cons, n1, false_and, if_false,
      List.sum_cons, List.sum_nil, add_zero]
  have key := (h4 ⟨dt, freqOf dims, none, 0⟩ rfl rfl ⟨fun _ _ => -1, fun _ _ => 0⟩ (fun _ => -1) (fun _ _ => rfl)
    (by simp [concNames]) (by intro p hp; simp [EqModel.empty, EqModel.addField] at hp)).2 i rootEquation rfl
    (by rw [hi]; rfl) (by
      intro f hf st st' freq t hd hj
      have : st.fields = st'.fields := by
        funext j
        exact hj j (by intro hlt; have := Fin.lt_def.mp hlt; simp [i] at this)
      have : st = st' := by
        cases st; cases st'; simp_all
      rw [this]) (by rw [hslope]; simp) x
  rw [hrate, hslope] at key
  have key' : (eulerStep M (⟨dt, freqOf dims, none, 0⟩, ⟨fun _ _ => -1, fun _ _ => 0⟩)).2.fields i x =
      -1 + Complex.I * dt := by
    rw [key]
    simp
    ring
  refine ⟨key', fun hr => hdt ?_⟩
  have := hr x
  rw [key'] at this
  simpa using this

/-! ### The conditions are met -/

/-- Powers and functions as used in `c117_text`; the other hypotheses are met as in `Props/Symmetry.lean`. -/
example : Equation.RealPowers concNames (fun _ => 0) spreadEquation ∧ RealPower 2 (1 / 2) ∧ RealPower (-2) 3 ∧
    ¬ RealPower (-2) (1 / 2) ∧ RealFunction (.function fun u k => Complex.exp (u "conc".toList k) : Calc n) := by
  refine ⟨?_, ⟨by simp, Or.inl (by simp)⟩, ⟨by simp, Or.inr (by decide)⟩, ?_, ?_⟩
  · intro p hp
    refine ⟨?_, by simp [factorsIn, concNames]⟩
    simp only [spreadEquation, Equation.terms, List.map_cons, List.map_nil, List.mem_cons, List.not_mem_nil,
      or_false] at hp
    intro f hf
    rcases hp with rfl | rfl
    · have : f = ⟨"conc".toList, some ⟨['2'], none⟩⟩ := by simpa using (List.mem_filter.mp hf).1
      subst this
      decide +kernel
    · have : f = ⟨"conc".toList, none⟩ := by simpa using (List.mem_filter.mp hf).1
      subst this
      decide +kernel
  · rintro ⟨-, h | h⟩
    · norm_num at h
    · revert h
      decide +kernel
  · intro u hu k
    have e : u "conc".toList k = (((u "conc".toList k).re : ℝ) : ℂ) := by
      apply Complex.ext <;> simp [hu _ k]
    simp only [Calc.eval]
    rw [e, ← Complex.ofReal_exp, Complex.ofReal_im]

end Gopf.Props
