import Verif.Props.ImplicitStability
import Verif.Props.ImplicitTotal
import Verif.Props.ImplicitSolver
import Verif.Props.Uniform

/-!
# C162: whether a filter has an effect with the implicit stepper
-/

namespace Gopf.Spec
open Pf

/-- The equation has at most one solution, as far as the entries that belong to the fields are concerned. -/
def OneSolution (len : ℕ) (F : SolverVec ℝ → SolverVec ℝ) : Prop :=
  ∀ v w : SolverVec ℝ, (∀ idx < len, F v idx = 0) → (∀ idx < len, F w idx = 0) → ∀ idx < len, v idx = w idx

/-- A solver that does not move away from a starting point that is a solution. -/
def KeepsSolutions (len : ℕ) (solve : (SolverVec ℝ → SolverVec ℝ) → SolverVec ℝ → SolverVec ℝ) : Prop :=
  ∀ (F : SolverVec ℝ → SolverVec ℝ) (x0 : SolverVec ℝ), (∀ idx < len, F x0 idx = 0) → ∀ idx < len, solve F x0 idx = x0 idx

end Gopf.Spec

namespace Gopf.Props
open Pf Pfutil Converge Spec

variable {nf nd : ℕ} {dims : List ℕ}

/-! ### No effect -/

/-- C162: the equation given to the solver depends on the fields only, not on the filter. -/
theorem c162_equation (m : Model nf nd dims.prod) (hm : InOrder m) (s : Stepper dims.prod) (f g : Option (ℝ → ℝ))
    {st st' : Store nf nd dims.prod} (hf : st.fields = st'.fields) (zeros : SolverVec ℝ) :
    (ieProblem m { s with filter := f } st zeros).1 = (ieProblem m { s with filter := g } st' zeros).1 := by
  have hs : m.sync st = m.sync st' := by
    cases st
    cases st'
    simp only at hf
    rw [hf]
    exact c157_unique m hm _ _ _
  funext x
  have e := (c158_function m hm { s with filter := f } (collectRHS m { s with filter := f } (ieFft m st)) (ieFft m st).fields
    (ieProblem m { s with filter := f } st zeros).2 (ieProblem m { s with filter := g } st' zeros).2 x zeros).1
  refine e.trans ?_
  have e2 : ieFft m st = ieFft m st' := by
    unfold ieFft
    rw [hs]
  rw [e2]
  rfl

theorem step_agrees (solve : (SolverVec ℝ → SolverVec ℝ) → SolverVec ℝ → SolverVec ℝ) (m : Model nf nd dims.prod) (hm : InOrder m)
    (s : Stepper dims.prod) (f g : Option (ℝ → ℝ)) {st st' : Store nf nd dims.prod} (hf : st.fields = st'.fields)
    (hone : OneSolution (nf * dims.prod) (ieProblem m { s with filter := f } st fun _ => 0).1)
    (h1 : ∀ idx < nf * dims.prod, leftOver solve m ({ s with filter := f }, st) idx = 0)
    (h2 : ∀ idx < nf * dims.prod, leftOver solve m ({ s with filter := g }, st') idx = 0) :
    (ieStep solve m ({ s with filter := f }, st)).2.fields = (ieStep solve m ({ s with filter := g }, st')).2.fields := by
  have e := c162_equation m hm s f g hf fun _ => 0
  unfold leftOver at h1 h2
  dsimp only at h1 h2
  funext i x
  rw [ieStep_value, ieStep_value]
  dsimp only
  generalize fields2vec (ieProblem m { s with filter := f } st fun _ => 0).2.fields (fun _ => 0) = x0 at *
  generalize fields2vec (ieProblem m { s with filter := g } st' fun _ => 0).2.fields (fun _ => 0) = x1 at *
  rw [← e] at h2 ⊢
  rw [hone _ _ h1 h2 _ (flatIdx_lt (i, x))]

/-- C162: if in every step the equation has at most one solution and the solver finds it, a filter has no effect on the
fields, however many steps are made. -/
theorem c162_no_effect (solve : (SolverVec ℝ → SolverVec ℝ) → SolverVec ℝ → SolverVec ℝ) (m : Model nf nd dims.prod)
    (hm : InOrder m) (s : Stepper dims.prod) (f g : Option (ℝ → ℝ)) (st : Store nf nd dims.prod) (n : ℕ)
    (hone : ∀ k < n, OneSolution (nf * dims.prod) (ieProblem m ((ieStep solve m)^[k] ({ s with filter := f }, st)).1
      ((ieStep solve m)^[k] ({ s with filter := f }, st)).2 fun _ => 0).1)
    (h1 : ∀ k < n, ∀ idx < nf * dims.prod, leftOver solve m ((ieStep solve m)^[k] ({ s with filter := f }, st)) idx = 0)
    (h2 : ∀ k < n, ∀ idx < nf * dims.prod, leftOver solve m ((ieStep solve m)^[k] ({ s with filter := g }, st)) idx = 0) :
    ((ieStep solve m)^[n] ({ s with filter := f }, st)).2.fields =
      ((ieStep solve m)^[n] ({ s with filter := g }, st)).2.fields := by
  induction n with
  | zero => rfl
  | succ n ih =>
    replace ih := ih (fun k hk => hone k (by omega)) (fun k hk => h1 k (by omega)) fun k hk => h2 k (by omega)
    have a1 := run_stepper solve m { s with filter := f } st n
    have a2 := run_stepper solve m { s with filter := g } st n
    replace hone := hone n (by omega)
    replace h1 := h1 n (by omega)
    replace h2 := h2 n (by omega)
    rw [Function.iterate_succ_apply', Function.iterate_succ_apply']
    generalize (ieStep solve m)^[n] ({ s with filter := f }, st) = p at *
    generalize (ieStep solve m)^[n] ({ s with filter := g }, st) = q at *
    obtain ⟨p1, p2⟩ := p
    obtain ⟨q1, q2⟩ := q
    simp only at a1 a2 ih
    subst a1 a2
    exact step_agrees solve m hm { s with currentStep := s.currentStep + n } f g ih hone h1 h2

/-- C162: so it is with `dconc/dt = conc - conc^3` on every grid, with every time step and every solver that finds the
solutions. -/
theorem c162_well (h : GoodDims (intDims dims)) (hl : LayoutOk dims) :
    ∃ m M, ((EqModel.empty (n := dims.prod)).addField "conc".toList).addEquation "dconc/dt = conc - conc^3".toList = some m ∧
      m.fields = ["conc".toList] ∧ m.assemble (fun _ => 0) = some M ∧
      ∀ s : Stepper dims.prod, 0 < s.dt → s.freq = freqOf dims → s.currentStep = 0 → ∀ f g : Option (ℝ → ℝ),
      ∀ solve, FindsSolutions (m.fields.length * dims.prod) solve →
      ∀ st : Store m.fields.length m.derived.length dims.prod, (∀ i, IsReal (st.fields i)) → ∀ n,
        ((ieStep solve M)^[n] ({ s with filter := f }, st)).2.fields =
          ((ieStep solve M)^[n] ({ s with filter := g }, st)).2.fields := by
  obtain ⟨m, M, hadd, hf, has, hrr, -, -⟩ := well_model h
  obtain ⟨m', M', hadd', -, has', huniq⟩ := c134_unique h hl
  obtain ⟨m'', M'', hadd'', -, has'', hsteps⟩ := well_steps h hl
  rw [hadd] at hadd' hadd''
  obtain rfl := Option.some.inj hadd'
  obtain rfl := Option.some.inj hadd''
  rw [has] at has' has''
  obtain rfl := Option.some.inj has'
  obtain rfl := Option.some.inj has''
  refine ⟨m, M, hadd, hf, has, fun s hdt hfreq hcs f g solve hsolve st hst n => ?_⟩
  have hi : 0 < m.fields.length := by rw [hf]; decide
  have hN : 0 < dims.prod := Nat.pos_of_ne_zero (by exact_mod_cast prod_ne_zero (pos_of_goodDims h))
  refine c162_no_effect solve M (c158_fields_only M hrr.fieldsOnly) s f g st n (fun k _ => ?_)
    (fun k _ => (hsteps { s with filter := f } hdt hfreq hcs solve hsolve st hst k ⟨0, hi⟩ ⟨0, hN⟩).1)
    (fun k _ => (hsteps { s with filter := g } hdt hfreq hcs solve hsolve st hst k ⟨0, hi⟩ ⟨0, hN⟩).1)
  have a := run_stepper solve M { s with filter := f } st k
  have b := run_real solve M { s with filter := f } st hst k
  generalize (ieStep solve M)^[k] ({ s with filter := f }, st) = p at *
  have c1 : 0 < p.1.dt := by rw [a]; exact hdt
  have c2 : p.1.freq = freqOf dims := by rw [a]; exact hfreq
  intro v w hv hw
  exact huniq p.1 c1 c2 p.2 b v w hv hw

/-! ### An effect: the equation `dconc/dt = conc^2` -/

theorem conc_squared : Monomial concNames [⟨none, some ⟨"conc".toList, some ⟨['2'], none⟩⟩⟩] where
  readable :=
    { wf := by
        intro i hi
        obtain rfl := List.mem_singleton.mp hi
        exact ⟨by simp, by simp [Exponent.WellFormed], by simp, by simp; decide, by simp⟩
      oneLap := by simp [laplacians]
      lapFirst := by
        intro pre i post h hl j hj
        cases pre with
        | nil => simp at hj
        | cons p pre => simp at h
      together := ⟨[], [⟨none, some ⟨"conc".toList, some ⟨['2'], none⟩⟩⟩], [], by simp, by simp, by simp,
        by simp; decide, by simp, by simp⟩ }
  once := by
    intro x _
    exact (List.length_filter_le _ _)
  kind := Or.inl ⟨by simp [factorsIn, concNames], by simp [factorsIn, concNames]⟩
  exactOne := by
    intro f hf
    have : f = ⟨"conc".toList, some ⟨['2'], none⟩⟩ := by
      simpa using (List.mem_filter.mp hf).1
    subst this
    have e : Factor.power ⟨"conc".toList, some ⟨['2'], none⟩⟩ = 2 := by decide +kernel
    intro h
    rw [e] at h
    norm_num at h

theorem blow_terms : blowEquation.terms = [([⟨none, some ⟨"conc".toList, some ⟨['2'], none⟩⟩⟩], none)] := rfl

theorem blow_polynomial : Equation.Polynomial concNames blowEquation := by
  refine ⟨by decide, by simp [blowEquation], by simp [blowEquation], ?_⟩
  intro p hp
  rw [blow_terms] at hp
  obtain rfl := List.mem_singleton.mp hp
  exact conc_squared

theorem blow_oneField : OneField concNames "conc".toList blowEquation := by
  refine ⟨rfl, rfl, ?_⟩
  intro p hp g hg
  have hf := (List.mem_filter.mp hg).1
  rw [blow_terms] at hp
  obtain rfl := List.mem_singleton.mp hp
  have : g = ⟨"conc".toList, some ⟨['2'], none⟩⟩ := by simpa using hf
  subst this
  exact ⟨2, by decide +kernel⟩

theorem blow_powers (c : Str → ℂ) : Equation.RealPowers concNames c blowEquation := by
  intro p hp
  refine ⟨fun g hg => ?_, fun g hg => by rw [conc_scalars] at hg; simp at hg⟩
  have hf := (List.mem_filter.mp hg).1
  rw [blow_terms] at hp
  obtain rfl := List.mem_singleton.mp hp
  have : g = ⟨"conc".toList, some ⟨['2'], none⟩⟩ := by simpa using hf
  subst this
  decide +kernel

theorem blow_nonlinear : ¬ LinearIn blowEquation.field concNames.varying [⟨none, some ⟨"conc".toList, some ⟨['2'], none⟩⟩⟩] := by
  rintro ⟨-, -, h3⟩
  have := h3 ⟨none, some ⟨"conc".toList, some ⟨['2'], none⟩⟩⟩ (by simp [occurrences, Item.name?, blowEquation]) _ rfl
  have e : Factor.power ⟨"conc".toList, some ⟨['2'], none⟩⟩ = 2 := by decide +kernel
  rw [e] at this
  norm_num at this

theorem blow_implicit (c : Str → ℂ) (k : Fin dims.prod) : implicitRate concNames c (freqOf dims) blowEquation k = 0 := by
  unfold implicitRate
  rw [blow_terms, List.map_cons, List.map_nil, if_neg (by exact blow_nonlinear)]
  simp

theorem blow_rhs (c : Str → ℂ) (w : Data dims.prod) (k : Fin dims.prod) :
    (blowEquation.terms.map fun p : List Item × Option Char => coefficient concNames c p *
      laplaceSymbol (freqOf dims k) ^ (laplacians p.1).sum * fft dims (fun x => w x ^ degree concNames p) k).sum =
      fft dims (fun x => w x ^ 2) k := by
  have g1 : signOf none = 1 := by decide
  have d1 : degree concNames ([⟨none, some ⟨"conc".toList, some ⟨['2'], none⟩⟩⟩], none) = 2 := by decide +kernel
  have l1 : ∀ f, (laplacians [⟨none, f⟩]).sum = 0 := by intro f; simp [laplacians]
  rw [blow_terms]
  simp only [coefficient, List.map_cons, List.map_nil, List.sum_cons, List.sum_nil, conc_scalars, g1, l1, d1,
    List.prod_nil, pow_zero]
  norm_num

/-- The equation as a model. -/
theorem blow_model (h : GoodDims (intDims dims)) :
    ∃ m M, ((EqModel.empty (n := dims.prod)).addField "conc".toList).addEquation "dconc/dt = conc^2".toList = some m ∧
      m.fields = ["conc".toList] ∧ m.assemble (fun _ => 0) = some M ∧ RealRates M ∧
      (∀ i st t, M.getDenum i st (freqOf dims) t = fun _ => 0) ∧
      ∀ i t Y k, spectralRHS (freqOf dims) M i t Y Y k = fft dims (fun x => realSpace (Y i) x ^ 2) k := by
  have h0 : StartsAs concNames ((EqModel.empty (n := dims.prod)).addField "conc".toList) := ⟨rfl, rfl, fun x => Iff.rfl⟩
  obtain ⟨m, M, hadd, hf, has, hden, hrhs⟩ := text_bins (pos_of_goodDims h) (freqOf dims) concNames conc_wellNamed
    "conc".toList _ h0 rfl blowEquation blow_oneField ⟨blow_polynomial, fun _ _ => ⟨rfl, rfl⟩⟩
    "dconc/dt = conc^2".toList (by decide) (fun _ => 0)
  obtain ⟨m', M', hadd', -, has', hrr, -⟩ := text_realRates h concNames conc_wellNamed _ h0 rfl
    (by intro p hp; simp [EqModel.empty, EqModel.addField] at hp) [blowEquation]
    (by intro e he; obtain rfl := List.mem_singleton.mp he; exact ⟨blow_polynomial, fun _ _ => ⟨rfl, rfl⟩⟩) (by decide)
    ["dconc/dt = conc^2".toList] (by decide) (fun _ => 0) (fun _ _ => rfl)
    (by intro e he; obtain rfl := List.mem_singleton.mp he; exact blow_powers _)
  rw [List.foldlM_cons, hadd] at hadd'
  have hadd2 : some m = some m' := hadd'
  obtain rfl := Option.some.inj hadd2
  rw [has] at has'
  obtain rfl := Option.some.inj has'
  refine ⟨m, M, hadd, hf, has, hrr, fun i st t => ?_, fun i t Y k => ?_⟩
  · rw [hden]
    funext k
    exact blow_implicit _ k
  · have e := hrhs i t Y k
    rw [blow_rhs, blow_implicit] at e
    linear_combination e

/-- The starting point of the solver is that of an explicit step, filtered. -/
theorem guess_bins {m : Model nf nd dims.prod} (h : ∀ d ∈ dims, 0 < d) (hd : FieldsOnly m) (hnf : nf = 1)
    (s : Stepper dims.prod) (st : Store nf nd dims.prod) (zeros : SolverVec ℝ) (i : Fin nf) :
    fft dims ((ieProblem m s st zeros).2.fields i) = optFilter s.filter s.freq fun k =>
      (fft dims (st.fields i) k + (s.dt : ℂ) * spectralRHS s.freq m i s.getTime (fun j => fft dims (st.fields j))
        (fun j => fft dims (st.fields j)) k) / (1 - (s.dt : ℂ) * m.getDenum i (seen m (ifftFields (ieFft m st))) s.freq s.getTime k) := by
  have eb : ∀ j, fft dims ((ifftFields (ieFft m st)).fields j) = fft dims (st.fields j) := by
    intro j
    rw [fft_ifftFields h]
    change fft dims ((m.sync st).fields j) = _
    rw [sync_fields]
  obtain ⟨st', h1, h2, h3⟩ := eulerStep_field h m s s.getTime (ifftFields (ieFft m st)) i
  have e : st' = seen m (ifftFields (ieFft m st)) := by
    have e1 : st'.derived = (seen m (ifftFields (ieFft m st))).derived := by
      rw [h1, ← ieFft_eq hd]
      rfl
    have e2 : st'.fields = (seen m (ifftFields (ieFft m st))).fields := by
      funext j
      exact h2 j (by have := j.isLt; have := i.isLt; intro hlt; have : j.val < i.val := hlt; omega)
    cases st'
    simp only at e1 e2
    rw [e1, e2]
  rw [e, seen_rhs h hd] at h3
  simp only [eb] at h3
  exact h3

/-- C162: an effect. The solver need not be a bad one: it does not leave starting points that are solutions. With
`dconc/dt = conc^2`, time step two and the field minus one everywhere, the field is one after the step without filter, and
zero with any filter that removes the mean. -/
theorem c162_effect (h : GoodDims (intDims dims)) (hl : LayoutOk dims) :
    ∃ m M, ((EqModel.empty (n := dims.prod)).addField "conc".toList).addEquation "dconc/dt = conc^2".toList = some m ∧
      m.fields = ["conc".toList] ∧ m.assemble (fun _ => 0) = some M ∧
      ∀ s : Stepper dims.prod, s.dt = 2 → s.freq = freqOf dims →
      ∀ solve, KeepsSolutions (m.fields.length * dims.prod) solve →
      ∀ st : Store m.fields.length m.derived.length dims.prod, (∀ i x, st.fields i x = -1) → ∀ i x,
        (ieStep solve M ({ s with filter := none }, st)).2.fields i x = 1 ∧
        ∀ f : ℝ → ℝ, f 0 = 0 → (ieStep solve M ({ s with filter := some f }, st)).2.fields i x = 0 := by
  have hpos := pos_of_goodDims h
  obtain ⟨m, M, hadd, hf, has, hrr, hden, hrhs⟩ := blow_model h
  refine ⟨m, M, hadd, hf, has, fun s hdt hfreq solve hsolve st hst => ?_⟩
  have hnf : m.fields.length = 1 := by rw [hf]; rfl
  have hreal : ∀ i, IsReal (st.fields i) := fun i x => by rw [hst]; simp
  have hst' : ∀ i, st.fields i = fun _ => -1 := fun i => funext (hst i)
  -- uniform solutions of the equation
  have hsol : ∀ (s' : Stepper dims.prod) (v : ℝ), s'.dt = 2 → s'.freq = freqOf dims → v = v ^ 2 →
      (∀ i x, (ieProblem M s' st fun _ => 0).2.fields i x = v) → ∀ i x, (ieStep solve M (s', st)).2.fields i x = v := by
    intro s' v hdt' hfreq' hv hguess i x
    have hx0 : ∀ p : Fin m.fields.length × Fin dims.prod,
        fields2vec (ieProblem M s' st fun _ => 0).2.fields (fun _ => 0) (flatIdx p) = v := by
      intro p
      rw [fields2vec_apply, hguess, Complex.ofReal_re]
    obtain ⟨y, hy, hy0⟩ := zero_of_step h hl hrr hden s' hfreq' st hreal (Y' := fun _ => fft dims fun _ => ((v : ℝ) : ℂ))
      (fun j => hermitian_fft h hl (fun x => by simp)) (by
        intro j k
        rw [hrhs, hrhs, realSpace_fft hpos, realSpace_fft hpos, hst', hdt']
        have e : nonlinearIntegral 2 0 (fft dims (fun _ => ((v : ℝ) : ℂ) ^ 2) k) (fft dims (fun _ => (-1 : ℂ) ^ 2) k) =
            fft dims (fun _ => ((v : ℝ) : ℂ) ^ 2) k + fft dims (fun _ => (-1 : ℂ) ^ 2) k := by
          unfold nonlinearIntegral
          dsimp only
          rw [if_pos (by norm_num), zero_mul, Complex.exp_zero]
          push_cast
          ring
        dsimp only
        rw [hst', e, zero_mul, Complex.exp_zero, fft_const hpos, fft_const hpos, fft_const hpos, fft_const hpos]
        have hvc : ((v : ℝ) : ℂ) ^ 2 = v := by exact_mod_cast hv.symm
        rw [hvc]
        split_ifs <;> simp)
    have hfun : ∀ idx < m.fields.length * dims.prod, (ieProblem M s' st fun _ => 0).1
        (fields2vec (ieProblem M s' st fun _ => 0).2.fields fun _ => 0) idx = 0 := by
      intro idx hidx
      refine Eq.trans ?_ (hy0 idx hidx)
      obtain ⟨p, rfl⟩ := flatIdx_surj hidx
      rw [problem_eq hrr.fieldsOnly, problem_eq hrr.fieldsOnly]
      have : (fun (i : Fin m.fields.length) (j : Fin dims.prod) =>
          ((fields2vec (ieProblem M s' st fun _ => 0).2.fields (fun _ => 0) (flatIdx (i, j)) : ℝ) : ℂ)) =
          fun i j => ((y (flatIdx (i, j)) : ℝ) : ℂ) := by
        funext i j
        rw [hx0, hy, realSpace_fft hpos]
      rw [this]
    rw [ieStep_value, hsolve _ _ hfun _ (flatIdx_lt (i, x)), hx0]
  -- the starting points
  have hbins : ∀ (s' : Stepper dims.prod) (i : Fin m.fields.length), s'.dt = 2 → s'.freq = freqOf dims →
      fft dims ((ieProblem M s' st fun _ => 0).2.fields i) = optFilter s'.filter s'.freq (fft dims fun _ => 1) := by
    intro s' i hdt' hfreq'
    rw [guess_bins hpos hrr.fieldsOnly hnf]
    congr 1
    funext k
    rw [hfreq', hrhs, hden, realSpace_fft hpos, hst', hdt', fft_const hpos, fft_const hpos, fft_const hpos]
    split_ifs
    · push_cast
      ring
    · simp
  intro i x
  constructor
  · have := hsol { s with filter := none } 1 hdt hfreq (by norm_num) (by
      intro i x
      have e := fft_injective hpos (hbins { s with filter := none } i hdt hfreq)
      rw [e]
      simp) i x
    simpa using this
  · intro f hf0
    have := hsol { s with filter := some f } 0 hdt hfreq (by norm_num) (by
      intro i x
      have e := hbins { s with filter := some f } i hdt hfreq
      have e0 : optFilter (some f) s.freq (fft dims fun _ => (1 : ℂ)) = fft dims fun _ => (0 : ℂ) := by
        funext k
        simp only [optFilter, applyModalFilter]
        rw [fft_const hpos, fft_const hpos, hfreq]
        split_ifs with hk
        · rw [dotR_origin h k hk, Real.sqrt_zero, zero_mul, zero_div, hf0]
          simp
        · simp
      have e1 := fft_injective hpos (e.trans e0)
      rw [e1]
      simp) i x
    simpa using this

/-- The solver of `c162_effect` may also find all solutions. -/
example (len : ℕ) : ∃ solve, KeepsSolutions len solve ∧ FindsSolutions len solve := by
  classical
  refine ⟨fun F x0 => if ∀ idx < len, F x0 idx = 0 then x0 else
    if hx : ∃ x : SolverVec ℝ, ∀ idx < len, F x idx = 0 then hx.choose else x0, ?_, ?_⟩
  · intro F x0 h0 idx _
    dsimp only
    rw [if_pos h0]
  · intro F x0 hx
    dsimp only
    by_cases h0 : ∀ idx < len, F x0 idx = 0
    · rw [if_pos h0]
      exact h0
    · rw [if_neg h0, dif_pos hx]
      exact hx.choose_spec

example : GoodDims (intDims [4, 6]) ∧ LayoutOk [4, 6] ∧ (fun q : ℝ => q) 0 = 0 := ⟨⟨by decide, by decide⟩, trivial, rfl⟩

end Gopf.Props
