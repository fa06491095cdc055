import Verif.Proofs.Well
import Verif.Props.ConvergeImplicit
import Verif.Props.Energy

/-!
# C134: the implicit stepper is not stable for all time steps
-/

namespace Gopf.Props
open Pf Pfutil Converge Set Spec Filter Topology

variable {dims : List ℕ}

/-! ## Specification -/

/-- A solver that returns a zero whenever there is one. -/
def FindsSolutions (len : ℕ) (solve : (SolverVec ℝ → SolverVec ℝ) → SolverVec ℝ → SolverVec ℝ) : Prop :=
  ∀ (F : SolverVec ℝ → SolverVec ℝ) (x0 : SolverVec ℝ), (∃ x, ∀ idx < len, F x idx = 0) → ∀ idx < len, F (solve F x0) idx = 0

/-- The square of the amplitude beyond which fields grow without bound. -/
noncomputable def tippingSquare (dt : ℝ) : ℝ := dt * (Real.exp dt + 1) / (Real.exp dt * (dt - 2) + dt + 2)

/-! ### One equation given as text -/

/-- The two parts of the model of one equation: the implicit part, and the explicit part in terms of the powers of the
field. -/
theorem text_bins (h : ∀ d ∈ dims, 0 < d) (freq : Frequency dims.prod) (N : Names) (hN : N.WellNamed) (f : Str)
    (m0 : EqModel dims.prod) (h0 : StartsAs N m0) (heq : m0.equations = [])
    (eq : Equation) (hone : OneField N f eq) (hq : eq.Polynomial N ∧ Unregistered m0 eq)
    (s0 : Str) (hs : s0.filter (fun c => c ≠ ' ') = eq.text) (c : Str → ℂ) :
    ∃ m M, m0.addEquation s0 = some m ∧ m.fields = [f] ∧ m.assemble c = some M ∧
      (∀ i st t, M.getDenum i st freq t = implicitRate N c freq eq) ∧
      ∀ (i : Fin m.fields.length) (t : ℝ) (Y : State m.fields.length dims.prod) (k : Fin dims.prod),
        spectralRHS freq M i t Y Y k + implicitRate N c freq eq k * Y i k =
          (eq.terms.map fun p : List Item × Option Char => coefficient N c p *
            laplaceSymbol (freq k) ^ (laplacians p.1).sum * fft dims (fun x => realSpace (Y i) x ^ degree N p) k).sum := by
  have hder : m0.derived = [] := by
    have := h0.functions
    rw [hone.functions] at this
    exact List.map_eq_nil_iff.mp this
  have hfun : ∀ p ∈ m0.derived, ReadsFields N p.2 := by rw [hder]; simp
  have hq' : ∀ e ∈ [eq], e.Polynomial N ∧ Unregistered m0 e := by
    intro e he; obtain rfl := List.mem_singleton.mp he; exact hq
  have hs' : [s0].map (fun s => s.filter fun c => c ≠ ' ') = [eq].map Equation.text := by simpa using hs
  obtain ⟨m, hadd, hg, -, ⟨l, hl, -⟩, -⟩ := add_all hN [eq] [s0] m0 (grown_start hN h0) hq' hs'
  obtain ⟨m', Rs, hadd', hinit, hall⟩ := c19_spectrum N hN m0 h0 heq [eq] hq' [s0] hs'
  obtain ⟨m'', Rs', hadd'', hinit', hall'⟩ := c19_equation N hN m0 h0 heq [eq] hq' [s0] hs'
  obtain ⟨m3, M3, hadd3, -, has3, -, -, hsh⟩ := text_shape N hN m0 h0 heq [eq] hq' (by rw [hone.fields]; simp) [s0] hs' c
  rw [hadd] at hadd' hadd'' hadd3
  obtain rfl := Option.some.inj hadd'
  obtain rfl := Option.some.inj hadd''
  obtain rfl := Option.some.inj hadd3
  rw [hinit] at hinit'
  obtain rfl := Option.some.inj hinit'
  have hf : m.fields = [f] := by rw [hg.fields, hone.fields]
  have hlen : m.fields.length = 1 := by rw [hf]; rfl
  have hRlen : m.fields.length ≤ Rs.length := by rw [← hall.length_eq, hlen]; simp
  have hfield : eq.field = f := field_is hone hq.1
  have hv : N.varying = [f] := by rw [Names.varying, hone.fields, hone.functions]; rfl
  have hfs : f ∉ N.scalars := by
    intro hm
    have := hN.nodup
    rw [Names.all, List.nodup_append] at this
    exact this.2.2 f (by rw [hv]; simp) f hm rfl
  refine ⟨m, _, by simpa [List.foldlM_cons, List.foldlM_nil] using hadd, hf,
    by rw [EqModel.assemble, hinit]; simp only [dif_pos hRlen]; rfl, ?_⟩
  set M : Model m.fields.length m.derived.length dims.prod :=
    { calcs := fun d st => (m.derived[d]).2.eval (m.brick c st)
      terms := fun i => (Rs[i]'(i.2.trans_le hRlen)).terms.map fun f st => f (m.brick c st)
      denum := fun i => (Rs[i]'(i.2.trans_le hRlen)).denum.map fun f st => f (m.brick c st)
      sources := fun _ => []
      modifiers := [] } with hM
  have hMM : M3 = M := by
    have : m.assemble c = some M := by rw [EqModel.assemble, hinit]; simp only [dif_pos hRlen]; rfl
    rw [this] at has3
    exact (Option.some.inj has3).symm
  have hden : ∀ i st t k, M.getDenum i st freq t k = implicitRate N c freq eq k := by
    intro i st t k
    obtain ⟨e, he, -, hd⟩ := hsh i
    have hi0 : i.val = 0 := by have := i.2; omega
    rw [hi0] at he
    obtain rfl : eq = e := by simpa using he
    rw [← hMM, hd, implicit_eq N c _ (fun x _ => rfl)]
  refine ⟨fun i st t => funext fun k => hden i st t k, ?_⟩
  intro i t Y k
  have hi0 : i.val = 0 := by have := i.2; omega
  have hget : ∀ j : Fin m.fields.length, m.fields[j] = f := by
    intro j
    have : m.fields[j] ∈ m.fields := List.getElem_mem j.2
    generalize m.fields[j] = a at this
    rw [hf] at this
    simpa using this
  have hij : ∀ j : Fin m.fields.length, j = i := fun j => Fin.ext (by have := j.2; omega)
  let st : Store m.fields.length m.derived.length dims.prod := ⟨fun j => realSpace (Y j), fun _ _ => 0⟩
  let u : Str → Data dims.prod := fun x => if x = f then realSpace (Y i) else fun _ => c x
  have huf : u f = realSpace (Y i) := by simp [u]
  have hu : ∀ j : Fin m.fields.length, u m.fields[j] = st.fields j := by
    intro j
    rw [hget, huf, hij j]
  have hc : ∀ x ∈ N.scalars, u x = fun _ => c x := by
    intro x hx
    have : x ≠ f := fun e => hfs (e ▸ hx)
    simp [u, this]
  set before : Store m.fields.length m.derived.length dims.prod :=
    ⟨Y, fun d => fft dims (M.calcs d st)⟩ with hbefore
  obtain ⟨hb1, hb2⟩ := brick_congr hN hg hu hc
  have hcalc : ∀ d : Fin m.derived.length, M.calcs d st = (m.derived[d]).2.eval u := fun d =>
    calc_reads hg hfun (List.getElem_mem d.2) _ _ hb1 hb2
  have hfft : ∀ j : Fin m.fields.length, fft dims (u m.fields[j]) = Y j := by
    intro j
    rw [hu j]
    exact fft_realSpace h (Y j)
  have htr : Transformed N m (fft dims) u (m.brick c before) := by
    refine ⟨?_, ?_, ?_, ?_⟩
    · intro x hx
      rw [← hg.fields] at hx
      obtain ⟨j, hj, rfl⟩ := List.getElem_of_mem hx
      exact (brick_field hN hg ⟨j, hj⟩ c before).trans (hfft ⟨j, hj⟩).symm
    · intro x hx
      rw [brick_scalar hN hg hx, hc x hx]
    · intro p hp
      obtain ⟨d, hd, rfl⟩ := List.getElem_of_mem hp
      exact (brick_derived hN hg ⟨d, hd⟩ c before).trans (congrArg (fft dims) (hcalc ⟨d, hd⟩))
    · intro p hp hpf
      rw [hone.functions] at hpf
      simp at hpf
  have hlt : i.val < [eq].length := by simp [hi0]
  have hsum := (List.forall₂_iff_get.mp hall').2 i.val hlt (i.2.trans_le hRlen) (fft dims)
    (fun x => divRealScalar (ifft dims x) (dims.prod : ℕ))
    ⟨fun a b => by funext k; exact fft_add a b k, fun a b => by funext k; exact fft_smul a b k⟩
    (fun x => by
      have e : divRealScalar (ifft dims x) (dims.prod : ℕ) = fun j => ifft dims x j / (dims.prod : ℂ) := by
        funext j; simp only [divRealScalar, Complex.ofReal_natCast]
      rw [e]; exact fft_surjective h x) c u hc _ htr freq t k
  have hR : M.getRHS i before freq t k =
      ((Rs[i.val]'(i.2.trans_le hRlen)).terms.map fun f => f (m.brick c before) freq t k).sum := by
    rw [c21_rhs]
    simp [hM, Function.comp_def]
  have hD : M.getDenum i before freq t k =
      ((Rs[i.val]'(i.2.trans_le hRlen)).denum.map fun f => f (m.brick c before) freq t k).sum := by
    rw [c21_denum]
    simp [hM, Function.comp_def]
  have hgeq : ([eq].get ⟨i.val, hlt⟩) = eq := by simp [hi0]
  rw [hgeq, fft_value h] at hsum
  simp only [List.get_eq_getElem] at hsum
  rw [← hR, ← hD, hden, hfield, huf, fft_realSpace h] at hsum
  refine (show _ = _ from hsum).trans ?_
  congr 1
  apply List.map_congr_left
  intro p hp
  rw [productValue_power hv (hone.powers p hp) u _ huf]

/-! ### The equation `dconc/dt = conc - conc^3` -/

theorem conc_cubed : Monomial concNames [⟨none, some ⟨"conc".toList, some ⟨['3'], none⟩⟩⟩] where
  readable :=
    { wf := by
        intro i hi
        obtain rfl := List.mem_singleton.mp hi
        exact ⟨by simp, by simp [Exponent.WellFormed], by simp, by simp; decide, by simp⟩
      oneLap := by simp [laplacians]
      lapFirst := by
        intro pre i post h hl j hj
        cases pre with
        | nil => simp at hj
        | cons p pre => simp at h
      together := ⟨[], [⟨none, some ⟨"conc".toList, some ⟨['3'], none⟩⟩⟩], [], by simp, by simp, by simp,
        by simp; decide, by simp, by simp⟩ }
  once := by
    intro x _
    exact (List.length_filter_le _ _)
  kind := Or.inl ⟨by simp [factorsIn, concNames], by simp [factorsIn, concNames]⟩
  exactOne := by
    intro f hf
    have : f = ⟨"conc".toList, some ⟨['3'], none⟩⟩ := by
      simpa using (List.mem_filter.mp hf).1
    subst this
    intro h
    rw [hilliard_power3] at h
    norm_num at h

/-- `dconc/dt = conc - conc^3`. -/
def wellEquation : Equation := ⟨"conc".toList, none, [⟨none, some ⟨"conc".toList, none⟩⟩],
  [('-', [⟨none, some ⟨"conc".toList, some ⟨['3'], none⟩⟩⟩])]⟩

theorem well_terms : wellEquation.terms = [([⟨none, some ⟨"conc".toList, none⟩⟩], none),
    ([⟨none, some ⟨"conc".toList, some ⟨['3'], none⟩⟩⟩], some '-')] := rfl

theorem well_polynomial : Equation.Polynomial concNames wellEquation := by
  refine ⟨by decide, by simp [wellEquation], by simp [wellEquation], ?_⟩
  intro p hp
  simp only [well_terms, List.mem_cons, List.not_mem_nil, or_false] at hp
  rcases hp with rfl | rfl
  · exact conc_plain
  · exact conc_cubed

theorem well_oneField : OneField concNames "conc".toList wellEquation := by
  refine ⟨rfl, rfl, ?_⟩
  intro p hp g hg
  have hf := (List.mem_filter.mp hg).1
  simp only [well_terms, List.mem_cons, List.not_mem_nil, or_false] at hp
  rcases hp with rfl | rfl
  · have : g = ⟨"conc".toList, none⟩ := by simpa using hf
    subst this
    exact ⟨1, by rw [hilliard_power1]; norm_num⟩
  · have : g = ⟨"conc".toList, some ⟨['3'], none⟩⟩ := by simpa using hf
    subst this
    exact ⟨3, by rw [hilliard_power3]; norm_num⟩

theorem well_powers (c : Str → ℂ) : Equation.RealPowers concNames c wellEquation := by
  intro p hp
  refine ⟨fun g hg => ?_, fun g hg => by rw [conc_scalars] at hg; simp at hg⟩
  have hf := (List.mem_filter.mp hg).1
  simp only [well_terms, List.mem_cons, List.not_mem_nil, or_false] at hp
  rcases hp with rfl | rfl
  · have : g = ⟨"conc".toList, none⟩ := by simpa using hf
    subst this
    decide +kernel
  · have : g = ⟨"conc".toList, some ⟨['3'], none⟩⟩ := by simpa using hf
    subst this
    decide +kernel

theorem well_implicit (c : Str → ℂ) (k : Fin dims.prod) : implicitRate concNames c (freqOf dims) wellEquation k = 1 := by
  have g1 : signOf none = 1 := by decide
  have l1 : ∀ f, (laplacians [⟨none, f⟩]).sum = 0 := by intro f; simp [laplacians]
  unfold implicitRate
  rw [well_terms, List.map_cons, List.map_cons, List.map_nil, if_pos (by exact conc_linearIn _),
    if_neg (by exact cube_not_linearIn _)]
  simp only [coefficient, List.sum_cons, List.sum_nil, conc_scalars, g1, l1, List.map_nil, List.prod_nil]
  norm_num

theorem well_rhs (c : Str → ℂ) (w : Data dims.prod) (k : Fin dims.prod) :
    (wellEquation.terms.map fun p : List Item × Option Char => coefficient concNames c p *
      laplaceSymbol (freqOf dims k) ^ (laplacians p.1).sum * fft dims (fun x => w x ^ degree concNames p) k).sum =
      fft dims w k - fft dims (fun x => w x ^ 3) k := by
  have g1 : signOf none = 1 := by decide
  have g2 : signOf (some '-') = -1 := by decide
  have d1 : degree concNames ([⟨none, some ⟨"conc".toList, some ⟨['3'], none⟩⟩⟩], some '-') = 3 := by decide +kernel
  have d2 : degree concNames ([⟨none, some ⟨"conc".toList, none⟩⟩], none) = 1 := by decide +kernel
  have l1 : ∀ f, (laplacians [⟨none, f⟩]).sum = 0 := by intro f; simp [laplacians]
  rw [well_terms]
  simp only [coefficient, List.map_cons, List.map_nil, List.sum_cons, List.sum_nil, conc_scalars, g1, g2, l1, d1, d2,
    List.prod_nil, pow_one, pow_zero]
  norm_num
  ring

/-! ### Steps -/

/-- The equation as a model. -/
theorem well_model (h : GoodDims (intDims dims)) :
    ∃ m M, ((EqModel.empty (n := dims.prod)).addField "conc".toList).addEquation "dconc/dt = conc - conc^3".toList = some m ∧
      m.fields = ["conc".toList] ∧ m.assemble (fun _ => 0) = some M ∧ RealRates M ∧
      (∀ i st t, M.getDenum i st (freqOf dims) t = fun _ => 1) ∧
      ∀ i t Y k, spectralRHS (freqOf dims) M i t Y Y k = -fft dims (fun x => realSpace (Y i) x ^ 3) k := by
  have h0 : StartsAs concNames ((EqModel.empty (n := dims.prod)).addField "conc".toList) := ⟨rfl, rfl, fun x => Iff.rfl⟩
  obtain ⟨m, M, hadd, hf, has, hden, hrhs⟩ := text_bins (pos_of_goodDims h) (freqOf dims) concNames conc_wellNamed
    "conc".toList _ h0 rfl wellEquation well_oneField ⟨well_polynomial, fun _ _ => ⟨rfl, rfl⟩⟩
    "dconc/dt = conc - conc^3".toList (by decide) (fun _ => 0)
  obtain ⟨m', M', hadd', -, has', hrr, -⟩ := text_realRates h concNames conc_wellNamed _ h0 rfl
    (by intro p hp; simp [EqModel.empty, EqModel.addField] at hp) [wellEquation]
    (by intro e he; obtain rfl := List.mem_singleton.mp he; exact ⟨well_polynomial, fun _ _ => ⟨rfl, rfl⟩⟩) (by decide)
    ["dconc/dt = conc - conc^3".toList] (by decide) (fun _ => 0) (fun _ _ => rfl)
    (by intro e he; obtain rfl := List.mem_singleton.mp he; exact well_powers _)
  rw [List.foldlM_cons, hadd] at hadd'
  have hadd2 : some m = some m' := hadd'
  obtain rfl := Option.some.inj hadd2
  rw [has] at has'
  obtain rfl := Option.some.inj has'
  refine ⟨m, M, hadd, hf, has, hrr, fun i st t => ?_, fun i t Y k => ?_⟩
  · rw [hden]
    funext k
    exact well_implicit _ k
  · have e := hrhs i t Y k
    rw [well_rhs, well_implicit, fft_realSpace (pos_of_goodDims h)] at e
    linear_combination e

theorem findsSolutions_exists (len : ℕ) : ∃ solve, FindsSolutions len solve := by
  classical
  refine ⟨fun F _ => if hx : ∃ x : SolverVec ℝ, ∀ idx < len, F x idx = 0 then hx.choose else fun _ => 0, ?_⟩
  intro F x0 hx
  dsimp only
  rw [dif_pos hx]
  exact hx.choose_spec

/-- Bins that satisfy the step are those of fields that do so at every node. -/
theorem well_bins (h : ∀ d ∈ dims, 0 < d) {dt : ℝ} (hdt : dt ≠ 0) {a b : Data dims.prod} :
    (∀ k, fft dims b k = fft dims a k * Complex.exp (1 * (dt : ℂ)) +
      nonlinearIntegral dt 1 (-fft dims (fun x => b x ^ 3) k) (-fft dims (fun x => a x ^ 3) k)) ↔
    ∀ x, b x + Well.late dt * b x ^ 3 = Real.exp dt * a x - Well.early dt * a x ^ 3 := by
  have e1 : ∀ k, fft dims (fun x => b x + (Well.late dt : ℂ) * b x ^ 3) k =
      fft dims b k + Well.late dt * fft dims (fun x => b x ^ 3) k := by
    intro k
    rw [fft_add, fft_smul]
  have e2 : ∀ k, fft dims (fun x => (Real.exp dt : ℂ) * a x + (-(Well.early dt : ℂ)) * a x ^ 3) k =
      Real.exp dt * fft dims a k + (-(Well.early dt : ℂ)) * fft dims (fun x => a x ^ 3) k := by
    intro k
    rw [fft_add, fft_smul, fft_smul]
  have hne : ¬ ‖(1 : ℂ)‖ < 1 / 10 ^ 5 := by norm_num
  have hdc : (dt : ℂ) ≠ 0 := by exact_mod_cast hdt
  have key : ∀ k, (fft dims b k = fft dims a k * Complex.exp (1 * (dt : ℂ)) +
      nonlinearIntegral dt 1 (-fft dims (fun x => b x ^ 3) k) (-fft dims (fun x => a x ^ 3) k)) ↔
      fft dims (fun x => b x + (Well.late dt : ℂ) * b x ^ 3) k =
        fft dims (fun x => (Real.exp dt : ℂ) * a x + (-(Well.early dt : ℂ)) * a x ^ 3) k := by
    intro k
    rw [e1, e2]
    unfold nonlinearIntegral
    dsimp only
    rw [if_neg hne, one_mul, ← Complex.ofReal_exp]
    have hL : ((Well.late dt : ℝ) : ℂ) = ((Real.exp dt : ℝ) - dt - 1) / dt := by
      unfold Well.late; push_cast; ring
    have hE : ((Well.early dt : ℝ) : ℂ) = (Real.exp dt : ℝ) - 1 - Well.late dt := by
      unfold Well.early; push_cast; ring
    rw [hE, hL]
    generalize ((Real.exp dt : ℝ) : ℂ) = e
    constructor <;> intro hh <;> field_simp at hh ⊢ <;> linear_combination hh
  simp only [key]
  constructor
  · intro hk x
    have := congrFun (fft_injective h (funext hk)) x
    rw [this]
    ring
  · intro hx k
    congr 1
    funext x
    rw [hx x]
    ring

theorem well_steps (h : GoodDims (intDims dims)) (hl : LayoutOk dims) :
    ∃ m M, ((EqModel.empty (n := dims.prod)).addField "conc".toList).addEquation "dconc/dt = conc - conc^3".toList = some m ∧
      m.fields = ["conc".toList] ∧ m.assemble (fun _ => 0) = some M ∧
      ∀ s : Stepper dims.prod, 0 < s.dt → s.freq = freqOf dims → s.currentStep = 0 →
      ∀ solve, FindsSolutions (m.fields.length * dims.prod) solve →
      ∀ st : Store m.fields.length m.derived.length dims.prod, (∀ i, IsReal (st.fields i)) → ∀ n i x,
        (∀ idx < m.fields.length * dims.prod, leftOver solve M ((ieStep solve M)^[n] (s, st)) idx = 0) ∧
        (((ieStep solve M)^[n] (s, st)).2.fields i x).im = 0 ∧
        Well.IsStep s.dt (((ieStep solve M)^[n] (s, st)).2.fields i x).re
          (((ieStep solve M)^[n + 1] (s, st)).2.fields i x).re := by
  have hpos := pos_of_goodDims h
  obtain ⟨m, M, hadd, hf, has, hrr, hden, hrhs⟩ := well_model h
  refine ⟨m, M, hadd, hf, has, ?_⟩
  intro s hdt hfreq hcs solve hsolve st hst n i x
  have hre := run_real solve M s st hst
  have hzero : ∀ idx < m.fields.length * dims.prod, leftOver solve M ((ieStep solve M)^[n] (s, st)) idx = 0 := by
    have hstp := run_stepper solve M s st n
    have hren := hre n
    generalize (ieStep solve M)^[n] (s, st) = p at hstp hren ⊢
    have hpdt : p.1.dt = s.dt := by rw [hstp]
    have hpf : p.1.freq = freqOf dims := by rw [hstp]; exact hfreq
    -- the values at the nodes
    choose z hz using fun (j : Fin m.fields.length) (x : Fin dims.prod) => Well.step_exists hdt (p.2.fields j x).re
    have hb : ∀ j x, ((z j x : ℝ) : ℂ) + Well.late s.dt * ((z j x : ℝ) : ℂ) ^ 3 =
        Real.exp s.dt * p.2.fields j x - Well.early s.dt * p.2.fields j x ^ 3 := by
      intro j x
      have e : p.2.fields j x = ((p.2.fields j x).re : ℂ) := Complex.ext (by simp) (by simpa using hren j x)
      have hz := hz j x
      unfold Well.IsStep at hz
      rw [e]
      exact_mod_cast hz
    obtain ⟨v, hv, hv0⟩ := zero_of_step h hl hrr hden p.1 hpf p.2 hren
      (Y' := fun j => fft dims fun x => ((z j x : ℝ) : ℂ))
      (fun j => hermitian_fft h hl (fun x => by simp)) (by
        intro j k
        rw [hrhs, hrhs, realSpace_fft hpos, realSpace_fft hpos, hpdt]
        have := (well_bins hpos hdt.ne').mpr (hb j) k
        rw [← this]
        simp)
    exact hsolve _ _ ⟨v, hv0⟩
  refine ⟨hzero, hre n i x, ?_⟩
  have hstep := run_step h hl hrr hden solve s hfreq hcs st hst n le_rfl (fun idx hidx => by rw [hzero idx hidx]; simp)
  have h0 := hre n i x
  have h1 := hre (n + 1) i x
  generalize ((ieStep solve M)^[n] (s, st)).2.fields = a at hstep h0 ⊢
  generalize ((ieStep solve M)^[n + 1] (s, st)).2.fields = b at hstep h1 ⊢
  have e := (well_bins (a := a i) (b := b i) hpos hdt.ne').mp (by
    intro k
    have := hstep i k
    rw [hrhs, hrhs, realSpace_fft hpos, realSpace_fft hpos, mul_zero, norm_le_zero_iff, sub_eq_zero] at this
    exact this) x
  have ea : a i x = ((a i x).re : ℂ) := Complex.ext (by simp) (by simpa using h0)
  have eb : b i x = ((b i x).re : ℂ) := Complex.ext (by simp) (by simpa using h1)
  rw [ea, eb] at e
  unfold Well.IsStep
  exact_mod_cast e

/-- C134: what the implicit stepper makes of `dconc/dt = conc - conc^3` with a solver that finds the solutions. Whatever
the grid, the function given to the solver has a zero in every step, the fields stay real, and the value at every node
is changed on its own. -/
theorem c134_step (h : GoodDims (intDims dims)) (hl : LayoutOk dims) :
    ∃ m M, ((EqModel.empty (n := dims.prod)).addField "conc".toList).addEquation "dconc/dt = conc - conc^3".toList = some m ∧
      m.fields = ["conc".toList] ∧ m.assemble (fun _ => 0) = some M ∧
      ∀ s : Stepper dims.prod, 0 < s.dt → s.freq = freqOf dims → s.currentStep = 0 →
      ∀ solve, FindsSolutions (m.fields.length * dims.prod) solve →
      ∀ st : Store m.fields.length m.derived.length dims.prod, (∀ i, IsReal (st.fields i)) → ∀ n i x,
        (∀ idx < m.fields.length * dims.prod, leftOver solve M ((ieStep solve M)^[n] (s, st)) idx = 0) ∧
        (((ieStep solve M)^[n] (s, st)).2.fields i x).im = 0 ∧
        (((ieStep solve M)^[n + 1] (s, st)).2.fields i x).re +
          (Real.exp s.dt - s.dt - 1) / s.dt * (((ieStep solve M)^[n + 1] (s, st)).2.fields i x).re ^ 3 =
        Real.exp s.dt * (((ieStep solve M)^[n] (s, st)).2.fields i x).re -
          (Real.exp s.dt - 1 - (Real.exp s.dt - s.dt - 1) / s.dt) * (((ieStep solve M)^[n] (s, st)).2.fields i x).re ^ 3 :=
  well_steps h hl

/-- C134: the function given to the solver has no other zero. -/
theorem c134_unique (h : GoodDims (intDims dims)) (hl : LayoutOk dims) :
    ∃ m M, ((EqModel.empty (n := dims.prod)).addField "conc".toList).addEquation "dconc/dt = conc - conc^3".toList = some m ∧
      m.fields = ["conc".toList] ∧ m.assemble (fun _ => 0) = some M ∧
      ∀ s : Stepper dims.prod, 0 < s.dt → s.freq = freqOf dims →
      ∀ st : Store m.fields.length m.derived.length dims.prod, (∀ i, IsReal (st.fields i)) → ∀ v w : SolverVec ℝ,
        (∀ idx < m.fields.length * dims.prod, (ieProblem M s st (fun _ => 0)).1 v idx = 0) →
        (∀ idx < m.fields.length * dims.prod, (ieProblem M s st (fun _ => 0)).1 w idx = 0) →
        ∀ idx < m.fields.length * dims.prod, v idx = w idx := by
  have hpos := pos_of_goodDims h
  obtain ⟨m, M, hadd, hf, has, hrr, hden, hrhs⟩ := well_model h
  refine ⟨m, M, hadd, hf, has, ?_⟩
  intro s hdt hfreq st hst v w hv hw
  have key : ∀ v : SolverVec ℝ, (∀ idx < m.fields.length * dims.prod, (ieProblem M s st (fun _ => 0)).1 v idx = 0) →
      ∀ i x, Well.IsStep s.dt (st.fields i x).re (v (flatIdx (i, x))) := by
    intro v hv i x
    have hstep := step_of_leftOver h hl hrr hden s hfreq st hst v le_rfl (fun idx hidx => by rw [hv idx hidx]; simp)
    have e := (well_bins (a := st.fields i) (b := fun y => ((v (flatIdx (i, y)) : ℝ) : ℂ)) hpos hdt.ne').mp (by
      intro k
      have := hstep i k
      rw [hrhs, hrhs, realSpace_fft hpos, realSpace_fft hpos, mul_zero, norm_le_zero_iff, sub_eq_zero] at this
      exact this) x
    have ea : st.fields i x = ((st.fields i x).re : ℂ) := Complex.ext (by simp) (by simpa using hst i x)
    rw [ea] at e
    unfold Well.IsStep
    exact_mod_cast e
  intro idx hidx
  obtain ⟨⟨i, x⟩, rfl⟩ := flatIdx_surj hidx
  exact Well.step_unique hdt (key v hv i x) (key w hw i x)

theorem norm_of_real {z : ℂ} (hz : z.im = 0) : ‖z‖ = |z.re| := by
  rw [show z = ((z.re : ℝ) : ℂ) from Complex.ext (by simp) (by simp [hz]), Complex.norm_real, Real.norm_eq_abs, Complex.ofReal_re]

/-- C134: whatever the time step, values beyond the tipping amplitude turn the sign in every step and grow without
bound. -/
theorem c134_diverges (h : GoodDims (intDims dims)) (hl : LayoutOk dims) :
    ∃ m M, ((EqModel.empty (n := dims.prod)).addField "conc".toList).addEquation "dconc/dt = conc - conc^3".toList = some m ∧
      m.fields = ["conc".toList] ∧ m.assemble (fun _ => 0) = some M ∧
      ∀ s : Stepper dims.prod, 0 < s.dt → s.freq = freqOf dims → s.currentStep = 0 →
      ∀ solve, FindsSolutions (m.fields.length * dims.prod) solve →
      ∀ st : Store m.fields.length m.derived.length dims.prod, (∀ i, IsReal (st.fields i)) → ∀ i x, tippingSquare s.dt < ‖st.fields i x‖ ^ 2 →
        Tendsto (fun n => ‖((ieStep solve M)^[n] (s, st)).2.fields i x‖) atTop atTop ∧
        ∀ n, (((ieStep solve M)^[n] (s, st)).2.fields i x).re * (((ieStep solve M)^[n + 1] (s, st)).2.fields i x).re < 0 := by
  obtain ⟨m, M, h1, h2, h3, h4⟩ := well_steps (dims := dims) h hl
  refine ⟨m, M, h1, h2, h3, ?_⟩
  intro s hdt hfreq hcs solve hsolve st hst i x hx
  have hrun := h4 s hdt hfreq hcs solve hsolve st hst
  rw [norm_of_real (hst i x), sq_abs] at hx
  obtain ⟨d1, d2⟩ := Well.diverges hdt (y := fun n => (((ieStep solve M)^[n] (s, st)).2.fields i x).re)
    (fun n => (hrun n i x).2.2) hx
  exact ⟨d1.congr fun n => (norm_of_real (hrun n i x).2.1).symm, d2⟩

/-- C134: values at the tipping amplitude turn the sign for ever. -/
theorem c134_cycles (h : GoodDims (intDims dims)) (hl : LayoutOk dims) :
    ∃ m M, ((EqModel.empty (n := dims.prod)).addField "conc".toList).addEquation "dconc/dt = conc - conc^3".toList = some m ∧
      m.fields = ["conc".toList] ∧ m.assemble (fun _ => 0) = some M ∧
      ∀ s : Stepper dims.prod, 0 < s.dt → s.freq = freqOf dims → s.currentStep = 0 →
      ∀ solve, FindsSolutions (m.fields.length * dims.prod) solve →
      ∀ st : Store m.fields.length m.derived.length dims.prod, (∀ i, IsReal (st.fields i)) → ∀ i x, ‖st.fields i x‖ ^ 2 = tippingSquare s.dt →
        ∀ n, ((ieStep solve M)^[n] (s, st)).2.fields i x = (-1) ^ n * st.fields i x := by
  obtain ⟨m, M, h1, h2, h3, h4⟩ := well_steps (dims := dims) h hl
  refine ⟨m, M, h1, h2, h3, ?_⟩
  intro s hdt hfreq hcs solve hsolve st hst i x hx n
  have hrun := h4 s hdt hfreq hcs solve hsolve st hst
  rw [norm_of_real (hst i x), sq_abs] at hx
  have e := Well.cycles hdt (y := fun n => (((ieStep solve M)^[n] (s, st)).2.fields i x).re)
    (fun n => (hrun n i x).2.2) hx n
  have e0 : st.fields i x = ((st.fields i x).re : ℂ) := Complex.ext (by simp) (by simpa using hst i x)
  rw [show ((ieStep solve M)^[n] (s, st)).2.fields i x = ((((ieStep solve M)^[n] (s, st)).2.fields i x).re : ℂ) from
    Complex.ext (by simp) (by simp [(hrun n i x).2.1]), e, e0]
  simp

/-- C134: for time steps up to one, values up to the tipping amplitude never exceed it. -/
theorem c134_bounded (h : GoodDims (intDims dims)) (hl : LayoutOk dims) :
    ∃ m M, ((EqModel.empty (n := dims.prod)).addField "conc".toList).addEquation "dconc/dt = conc - conc^3".toList = some m ∧
      m.fields = ["conc".toList] ∧ m.assemble (fun _ => 0) = some M ∧
      ∀ s : Stepper dims.prod, 0 < s.dt → s.dt ≤ 1 → s.freq = freqOf dims → s.currentStep = 0 →
      ∀ solve, FindsSolutions (m.fields.length * dims.prod) solve →
      ∀ st : Store m.fields.length m.derived.length dims.prod, (∀ i, IsReal (st.fields i)) → ∀ i x, ‖st.fields i x‖ ^ 2 ≤ tippingSquare s.dt →
        ∀ n, ‖((ieStep solve M)^[n] (s, st)).2.fields i x‖ ^ 2 ≤ tippingSquare s.dt := by
  obtain ⟨m, M, h1, h2, h3, h4⟩ := well_steps (dims := dims) h hl
  refine ⟨m, M, h1, h2, h3, ?_⟩
  intro s hdt hdt1 hfreq hcs solve hsolve st hst i x hx n
  have hrun := h4 s hdt hfreq hcs solve hsolve st hst
  rw [norm_of_real (hrun n i x).2.1, sq_abs]
  induction n with
  | zero => rwa [norm_of_real (hst i x), sq_abs] at hx
  | succ n ih => exact Well.stays hdt hdt1 (hrun n i x).2.2 ih

/-- C134: for time steps of six or more even the value one half, which lies between the two states of rest zero and one,
leads to values that grow without bound. -/
theorem c134_large_steps (h : GoodDims (intDims dims)) (hl : LayoutOk dims) :
    ∃ m M, ((EqModel.empty (n := dims.prod)).addField "conc".toList).addEquation "dconc/dt = conc - conc^3".toList = some m ∧
      m.fields = ["conc".toList] ∧ m.assemble (fun _ => 0) = some M ∧
      ∀ s : Stepper dims.prod, 6 ≤ s.dt → s.freq = freqOf dims → s.currentStep = 0 →
      ∀ solve, FindsSolutions (m.fields.length * dims.prod) solve →
      ∀ st : Store m.fields.length m.derived.length dims.prod, (∀ i, IsReal (st.fields i)) → ∀ i x, st.fields i x = 1 / 2 →
        Tendsto (fun n => ‖((ieStep solve M)^[n] (s, st)).2.fields i x‖) atTop atTop := by
  obtain ⟨m, M, h1, h2, h3, h4⟩ := well_steps (dims := dims) h hl
  refine ⟨m, M, h1, h2, h3, ?_⟩
  intro s hdt6 hfreq hcs solve hsolve st hst i x hx
  have hdt : 0 < s.dt := by linarith
  have hrun := h4 s hdt hfreq hcs solve hsolve st hst
  have e0 : (st.fields i x).re = 1 / 2 := by rw [hx]; norm_num
  have hout := Well.leaves hdt hdt6 (z := (((ieStep solve M)^[0 + 1] (s, st)).2.fields i x).re) (by
    have := (hrun 0 i x).2.2
    rw [show ((ieStep solve M)^[0] (s, st)).2.fields i x = st.fields i x from rfl, e0] at this
    exact this)
  obtain ⟨d1, -⟩ := Well.diverges hdt (y := fun n => (((ieStep solve M)^[n + 1] (s, st)).2.fields i x).re)
    (fun n => (hrun (n + 1) i x).2.2) hout
  refine (tendsto_add_atTop_iff_nat 1).mp (d1.congr fun n => ?_)
  exact (norm_of_real (hrun (n + 1) i x).2.1).symm

/-- C134: for time steps of three or more the state of rest one, which attracts all positive solutions of the equation,
is not approached by any run: a value that tends to one is one from some step on. -/
theorem c134_repels (h : GoodDims (intDims dims)) (hl : LayoutOk dims) :
    ∃ m M, ((EqModel.empty (n := dims.prod)).addField "conc".toList).addEquation "dconc/dt = conc - conc^3".toList = some m ∧
      m.fields = ["conc".toList] ∧ m.assemble (fun _ => 0) = some M ∧
      ∀ s : Stepper dims.prod, 3 ≤ s.dt → s.freq = freqOf dims → s.currentStep = 0 →
      ∀ solve, FindsSolutions (m.fields.length * dims.prod) solve →
      ∀ st : Store m.fields.length m.derived.length dims.prod, (∀ i, IsReal (st.fields i)) → ∀ i x,
        Tendsto (fun n => ((ieStep solve M)^[n] (s, st)).2.fields i x) atTop (𝓝 1) →
        ∃ n, ∀ k ≥ n, ((ieStep solve M)^[k] (s, st)).2.fields i x = 1 := by
  obtain ⟨m, M, h1, h2, h3, h4⟩ := well_steps (dims := dims) h hl
  refine ⟨m, M, h1, h2, h3, ?_⟩
  intro s hdt3 hfreq hcs solve hsolve st hst i x hx
  have hdt : 0 < s.dt := by linarith
  have hrun := h4 s hdt hfreq hcs solve hsolve st hst
  obtain ⟨n, hn⟩ := Well.repels hdt (Well.edge_lt_three hdt hdt3)
    (y := fun n => (((ieStep solve M)^[n] (s, st)).2.fields i x).re) (fun n => (hrun n i x).2.2) (by
      have := (Complex.continuous_re.tendsto 1).comp hx
      rw [Complex.one_re] at this
      exact this)
  exact ⟨n, fun k hk => Complex.ext (by simpa using hn k hk) (by simpa using (hrun k i x).2.1)⟩

/-! ### The solutions of the equation -/

/-- What is under the root in the solution that starts at `a`. -/
noncomputable def wellRoot (a t : ℝ) : ℝ := a ^ 2 + (1 - a ^ 2) * Real.exp (-2 * t)

theorem wellRoot_bounds {t : ℝ} (ht : 0 ≤ t) (a : ℝ) : 0 < wellRoot a t ∧ (a ^ 2 ≤ 1 → a ^ 2 ≤ wellRoot a t) ∧ (1 ≤ a ^ 2 → 1 ≤ wellRoot a t) := by
  have h1 : Real.exp (-2 * t) ≤ 1 := Real.exp_le_one_iff.mpr (by linarith)
  have h0 := Real.exp_pos (-2 * t)
  have ha := sq_nonneg a
  unfold wellRoot
  refine ⟨?_, ?_, ?_⟩
  · have : 0 ≤ a ^ 2 * (1 - Real.exp (-2 * t)) := mul_nonneg ha (by linarith)
    nlinarith
  · intro h
    have := mul_nonneg (sub_nonneg.mpr h) h0.le
    linarith
  · intro h
    nlinarith

theorem well_derivative {t : ℝ} (ht : 0 ≤ t) (a : ℝ) :
    HasDerivAt (fun t => a / Real.sqrt (wellRoot a t)) (a / Real.sqrt (wellRoot a t) - (a / Real.sqrt (wellRoot a t)) ^ 3) t := by
  have hg := (wellRoot_bounds ht a).1
  have h1 : HasDerivAt (wellRoot a) ((1 - a ^ 2) * (Real.exp (-2 * t) * -2)) t := by
    have h2 : HasDerivAt (fun t => Real.exp (-2 * t)) (Real.exp (-2 * t) * -2) t := by
      have := ((hasDerivAt_id t).const_mul (-2)).exp
      simpa using this
    exact (h2.const_mul _).const_add _
  have hs : 0 < Real.sqrt (wellRoot a t) := Real.sqrt_pos.mpr hg
  have h3 := (h1.sqrt hg.ne').inv hs.ne' |>.const_mul a
  have e : (fun t => a / Real.sqrt (wellRoot a t)) = fun t => a * (Real.sqrt (wellRoot a t))⁻¹ := by
    funext t; rw [div_eq_mul_inv]
  rw [e]
  refine h3.congr_deriv ?_
  have hsq : Real.sqrt (wellRoot a t) ^ 2 = a ^ 2 + (1 - a ^ 2) * Real.exp (-2 * t) := Real.sq_sqrt hg.le
  generalize Real.exp (-2 * t) = q at hsq ⊢
  generalize Real.sqrt (wellRoot a t) = r at hsq hs ⊢
  field_simp
  linear_combination (-a) * hsq

/-- C134: the solutions of the equation. From any values there is a solution, no value ever exceeds both one and where
it started, and every value other than zero tends to one or minus one. -/
theorem c134_solution (a : Fin dims.prod → ℝ) :
    ∃ u : ℝ → Str → Data dims.prod,
      (∀ T, SolvesEquations T (freqOf dims) concNames (fun _ => 0) [] [wellEquation] u) ∧
      (∀ x, u 0 "conc".toList x = a x) ∧ (∀ t, 0 ≤ t → ∀ x, ‖u t "conc".toList x‖ ≤ max 1 |a x|) ∧
      ∀ x, a x ≠ 0 → Tendsto (fun t => u t "conc".toList x) atTop (𝓝 ((a x / |a x| : ℝ) : ℂ)) := by
  have hmul : ∀ (z : ℂ) (v : Data dims.prod) (x : Fin dims.prod), (z • v) x = z * v x := fun _ _ _ => rfl
  refine ⟨fun t _ x => ((a x / Real.sqrt (wellRoot (a x) t) : ℝ) : ℂ), ?_, ?_, ?_, ?_⟩
  · intro T t ht
    refine ⟨by simp [concNames], by simp, ?_⟩
    intro eq heq x
    obtain rfl := List.mem_singleton.mp heq
    refine ((well_derivative ht.1 (a x)).ofReal_comp.hasDerivWithinAt (s := Icc 0 T)).congr_deriv ?_
    have f1 : factorsIn concNames.varying [⟨none, some ⟨"conc".toList, some ⟨['3'], none⟩⟩⟩] =
        [⟨"conc".toList, some ⟨['3'], none⟩⟩] := by decide
    have f2 : factorsIn concNames.varying [⟨none, some ⟨"conc".toList, none⟩⟩] = [⟨"conc".toList, none⟩] := by decide
    have g1 : signOf none = 1 := by decide
    have g2 : signOf (some '-') = -1 := by decide
    have l1 : ∀ f, (laplacians [⟨none, f⟩]).sum = 0 := by intro f; simp [laplacians]
    have v1 : ∀ (u : Str → Data dims.prod) x, productValue [⟨"conc".toList, some ⟨['3'], none⟩⟩] u x =
        u "conc".toList x ^ 3 := by
      intro u x
      simp only [productValue, List.map_cons, List.map_nil, List.prod_cons, List.prod_nil, mul_one, hilliard_power3]
      norm_num
    have v2 : ∀ (u : Str → Data dims.prod) x, productValue [⟨"conc".toList, none⟩] u x = u "conc".toList x := by
      intro u x
      rw [productValue_single]
    simp only [Equation.value, well_terms, List.map_cons, List.map_nil, List.sum_cons, List.sum_nil,
      f1, f2, conc_scalars, List.prod_nil, mul_one, l1, Function.iterate_zero, id, add_zero, Pi.add_apply, hmul, v1, v2, g1, g2]
    push_cast
    ring
  · intro x
    simp [wellRoot]
  · intro t ht x
    obtain ⟨h0, h1, h2⟩ := wellRoot_bounds ht (a x)
    rw [Complex.norm_real, Real.norm_eq_abs, abs_div, abs_of_pos (Real.sqrt_pos.mpr h0), div_le_iff₀ (Real.sqrt_pos.mpr h0)]
    rcases le_total (a x ^ 2) 1 with h | h
    · have h3 : |a x| ≤ Real.sqrt (wellRoot (a x) t) := Real.abs_le_sqrt (h1 h)
      have h4 : 1 * Real.sqrt (wellRoot (a x) t) ≤ max 1 |a x| * Real.sqrt (wellRoot (a x) t) :=
        mul_le_mul_of_nonneg_right (le_max_left _ _) (Real.sqrt_nonneg _)
      linarith
    · have h3 : 1 ≤ Real.sqrt (wellRoot (a x) t) := Real.one_le_sqrt.mpr (h2 h)
      have h4 : |a x| * 1 ≤ max 1 |a x| * Real.sqrt (wellRoot (a x) t) :=
        mul_le_mul (le_max_right _ _) h3 zero_le_one (by positivity)
      linarith
  · intro x hx
    have h1 : Tendsto (fun t : ℝ => Real.exp (-2 * t)) atTop (𝓝 0) :=
      Real.tendsto_exp_atBot.comp (tendsto_id.const_mul_atTop_of_neg (by norm_num))
    have h2 : Tendsto (fun t => wellRoot (a x) t) atTop (𝓝 (a x ^ 2)) := by
      have := (h1.const_mul (1 - a x ^ 2)).const_add (a x ^ 2)
      simpa [wellRoot] using this
    have h3 := h2.sqrt
    rw [Real.sqrt_sq_eq_abs] at h3
    have h4 : Tendsto (fun t => a x / Real.sqrt (wellRoot (a x) t)) atTop (𝓝 (a x / |a x|)) :=
      tendsto_const_nhds.div h3 (by simpa using hx)
    exact (Complex.continuous_ofReal.tendsto _).comp h4

/-! ### Cases -/

/-- With time step one, a value of four is beyond the tipping amplitude. -/
theorem tipping_one : tippingSquare 1 < 4 ^ 2 := by
  unfold tippingSquare
  have h1 := Real.exp_one_lt_d9
  have h2 : 0 < Real.exp 1 * (1 - 2) + 1 + 2 := by linarith
  rw [div_lt_iff₀ h2]
  linarith

/-- Grids, solvers, steppers and fields as in the theorems. -/
example : (GoodDims (intDims [4, 4]) ∧ LayoutOk [4, 4]) ∧ (∀ len, ∃ solve, FindsSolutions len solve) ∧
    (tippingSquare 1 < ‖(4 : ℂ)‖ ^ 2) ∧ (‖(2 : ℂ)‖ ^ 2 ≤ tippingSquare 1) ∧
    ∃ y : ℝ, y ^ 2 = tippingSquare 1 ∧ 0 < y := by
  refine ⟨⟨⟨Or.inl rfl, by decide⟩, trivial⟩, findsSolutions_exists, ?_, ?_, ?_⟩
  · simpa using tipping_one
  · have h1 := Real.exp_one_gt_d9
    have h3 := Real.exp_one_lt_d9
    unfold tippingSquare
    have h2 : 0 < Real.exp 1 * (1 - 2) + 1 + 2 := by linarith
    rw [le_div_iff₀ h2]
    norm_num
    linarith
  · have := Well.edge_pos (dt := 1) one_pos
    exact ⟨Real.sqrt (tippingSquare 1), Real.sq_sqrt this.le, Real.sqrt_pos.mpr this⟩

end Gopf.Props
