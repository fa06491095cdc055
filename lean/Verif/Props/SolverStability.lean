import Verif.Model.SolverStability
import Verif.Proofs.Cubic
import Verif.Props.Kks
import Verif.Props.ImplicitStability

/-!
# C137: the example program that compares the steppers
-/

namespace Gopf.Props
open Spec Pf Pfutil Filter Topology

variable {n : ℕ} {dims : List ℕ}

/-! ### The specification -/

/-- The energy of the Allen-Cahn equation: a double well, and the interfaces. -/
noncomputable def allenCahnEnergy (gamma : ℝ) (u : Data dims.prod) : ℝ :=
  ∑ x, ((u x).re ^ 2 - 1) ^ 2 / 4 + gamma / 2 * ((∑ k, laplaceNumber dims k * ‖fft dims u k‖ ^ 2) / (dims.prod : ℕ))

/-! ### Equations with registered functions -/

/-- What the steppers see of equations given as text, with registered functions: the implicit and the explicit part
together are the right-hand side that is spelled. -/
theorem text_values (h : ∀ d ∈ dims, 0 < d) (freq : Frequency dims.prod) (N : Names) (hN : N.WellNamed)
    (m0 : EqModel dims.prod) (h0 : StartsAs N m0) (heq : m0.equations = []) (hfun : ∀ p ∈ m0.derived, ReadsFields N p.2)
    (eqs : List Equation) (hq : ∀ eq ∈ eqs, eq.Polynomial N ∧ Unregistered m0 eq) (hcount : N.fields.length ≤ eqs.length)
    (ss : List Str) (hs : ss.map (fun s => s.filter fun c => c ≠ ' ') = eqs.map Equation.text) (c : Str → ℂ) :
    ∃ m M, ss.foldlM EqModel.addEquation m0 = some m ∧ m.fields = N.fields ∧ m.assemble c = some M ∧
      ∀ (i : Fin m.fields.length) (eq : Equation), eqs[i.val]? = some eq →
        (∀ st t k, M.getDenum i st freq t k = (eq.terms.map (linearFactor N eq.field (fun y _ => c y) freq k)).sum) ∧
        ∀ (t : ℝ) (Y : Converge.State m.fields.length dims.prod) (u : Str → Data dims.prod),
          (∀ j : Fin m.fields.length, u m.fields[j] = realSpace (Y j)) → (∀ x ∈ N.scalars, u x = fun _ => c x) →
          (∀ p ∈ m0.derived, u p.1 = p.2.eval u) → ∀ k,
          spectralRHS freq M i t Y Y k +
            (eq.terms.map (linearFactor N eq.field (fun y _ => c y) freq k)).sum * fft dims (u eq.field) k =
          fft dims (Equation.value N (gridLaplacian freq) c u eq) k := by
  obtain ⟨m, hadd, hg, -, ⟨l, hl, -⟩, -⟩ := add_all hN eqs ss m0 (grown_start hN h0) hq hs
  obtain ⟨m'', Rs, hadd'', hinit, hall'⟩ := c19_equation N hN m0 h0 heq eqs hq ss hs
  obtain ⟨m3, M3, hadd3, -, has3, -, -, hsh⟩ := text_shape N hN m0 h0 heq eqs hq hcount ss hs c
  rw [hadd] at hadd'' hadd3
  obtain rfl := Option.some.inj hadd''
  obtain rfl := Option.some.inj hadd3
  have hRlen : m.fields.length ≤ Rs.length := by rw [← hall'.length_eq, hg.fields]; exact hcount
  set M : Model m.fields.length m.derived.length dims.prod :=
    { calcs := fun d st => (m.derived[d]).2.eval (m.brick c st)
      terms := fun i => (Rs[i]'(i.2.trans_le hRlen)).terms.map fun f st => f (m.brick c st)
      denum := fun i => (Rs[i]'(i.2.trans_le hRlen)).denum.map fun f st => f (m.brick c st)
      sources := fun _ => []
      modifiers := [] } with hM
  have hassm : m.assemble c = some M := by rw [EqModel.assemble, hinit]; simp only [dif_pos hRlen]; rfl
  have hMM : M3 = M := by
    rw [hassm] at has3
    exact (Option.some.inj has3).symm
  refine ⟨m, M, hadd, hg.fields, hassm, ?_⟩
  intro i eq hi
  have hlt : i.val < eqs.length := (List.getElem?_eq_some_iff.mp hi).1
  have hget : eqs[i.val] = eq := (List.getElem?_eq_some_iff.mp hi).2
  have hden : ∀ st t k, M.getDenum i st freq t k = (eq.terms.map (linearFactor N eq.field (fun y _ => c y) freq k)).sum := by
    intro st t k
    obtain ⟨e, he, -, hd⟩ := hsh i
    rw [hi] at he
    obtain rfl := Option.some.inj he
    rw [← hMM, hd]
  refine ⟨hden, ?_⟩
  intro t Y u hu hc hf k
  let st : Store m.fields.length m.derived.length dims.prod := ⟨fun j => realSpace (Y j), fun _ _ => 0⟩
  have hu' : ∀ j : Fin m.fields.length, u m.fields[j] = st.fields j := hu
  set before : Store m.fields.length m.derived.length dims.prod :=
    ⟨Y, fun d => fft dims (M.calcs d st)⟩ with hbefore
  obtain ⟨hb1, hb2⟩ := brick_congr hN hg hu' hc
  have hcalc : ∀ d : Fin m.derived.length, M.calcs d st = (m.derived[d]).2.eval u := fun d =>
    calc_reads hg hfun (List.getElem_mem d.2) _ _ hb1 hb2
  have hfft : ∀ j : Fin m.fields.length, fft dims (u m.fields[j]) = Y j := by
    intro j
    rw [hu' j]
    exact fft_realSpace h (Y j)
  have htr : Transformed N m (fft dims) u (m.brick c before) := by
    refine ⟨?_, ?_, ?_, ?_⟩
    · intro x hx
      rw [← hg.fields] at hx
      obtain ⟨j, hj, rfl⟩ := List.getElem_of_mem hx
      exact (brick_field hN hg ⟨j, hj⟩ c before).trans (hfft ⟨j, hj⟩).symm
    · intro x hx
      rw [brick_scalar hN hg hx, hc x hx]
    · intro p hp
      obtain ⟨d, hd, rfl⟩ := List.getElem_of_mem hp
      exact (brick_derived hN hg ⟨d, hd⟩ c before).trans (congrArg (fft dims) (hcalc ⟨d, hd⟩))
    · intro p hp hpf
      rw [← h0.functions] at hpf
      obtain ⟨q, hq', hqp⟩ := List.mem_map.mp hpf
      have hqm : q ∈ m.derived := by rw [hl]; simp [hq']
      have : q = p := List.inj_on_of_nodup_map hg.keys hqm hp hqp
      rw [← this]
      exact hf q hq'
  have hsum := (List.forall₂_iff_get.mp hall').2 i.val hlt (i.2.trans_le hRlen) (fft dims)
    (fun x => divRealScalar (ifft dims x) (dims.prod : ℕ))
    ⟨fun a b => by funext k; exact fft_add a b k, fun a b => by funext k; exact fft_smul a b k⟩
    (fun x => by
      have e : divRealScalar (ifft dims x) (dims.prod : ℕ) = fun j => ifft dims x j / (dims.prod : ℂ) := by
        funext j; simp only [divRealScalar, Complex.ofReal_natCast]
      rw [e]; exact fft_surjective h x) c u hc _ htr freq t k
  have hR : M.getRHS i before freq t k =
      ((Rs[i.val]'(i.2.trans_le hRlen)).terms.map fun f => f (m.brick c before) freq t k).sum := by
    rw [c21_rhs]
    simp [hM, Function.comp_def]
  have hD : M.getDenum i before freq t k =
      ((Rs[i.val]'(i.2.trans_le hRlen)).denum.map fun f => f (m.brick c before) freq t k).sum := by
    rw [c21_denum]
    simp [hM, Function.comp_def]
  simp only [List.get_eq_getElem, hget] at hsum
  rw [← hR, ← hD, hden] at hsum
  exact hsum

/-! ### Reading the equation -/

/-- The names of the program. -/
def stabilityNames : Names := ⟨["conc".toList], ["CHEMPOT".toList], ["gamma".toList]⟩

theorem stability_wellNamed : stabilityNames.WellNamed where
  ident := by
    have : ∀ x ∈ stabilityNames.all, (∀ c ∈ x, c.isAlphanum = true ∨ c = '_') ∧ ∃ c ∈ x.head?, c.isAlpha = true := by
      decide +kernel
    intro x hx
    obtain ⟨h1, c, hc, h2⟩ := this x hx
    cases x with
    | nil => simp at hc
    | cons y x =>
      simp only [List.head?_cons, Option.mem_some_iff] at hc
      subst hc
      exact ⟨⟨y, x, rfl, h2⟩, h1⟩
  nodup := by decide +kernel
  noLap := by decide +kernel
  long := by decide +kernel
  sepLap := by decide +kernel
  sepVarying := by decide +kernel
  sepScalar := by decide +kernel

/-- `CHEMPOT` -/
def stabilityForce : List Item := [⟨none, some ⟨"CHEMPOT".toList, none⟩⟩]

/-- `gamma*LAPconc` -/
def stabilitySmooth : List Item := [⟨none, some ⟨"gamma".toList, none⟩⟩, ⟨some none, some ⟨"conc".toList, none⟩⟩]

/-- `dconc/dt = CHEMPOT + gamma*LAP conc` -/
def stabilitySpelled : Equation := ⟨"conc".toList, none, stabilityForce, [('+', stabilitySmooth)]⟩

theorem stability_wf {x : Str} (hx : x ∈ stabilityNames.all) : Item.WellFormed stabilityNames ⟨none, some ⟨x, none⟩⟩ :=
  ⟨by simp, by simp, by simp, by
    intro f hf
    obtain rfl : (⟨x, none⟩ : Factor) = f := by simpa using hf
    exact hx, by simp⟩

theorem stability_exactOne (items : List Item) (hi : ∀ i ∈ items, ∀ f ∈ i.fac, f.exp = none) :
    ∀ f ∈ factorsIn stabilityNames.fields items, |f.power - 1| < 1 / 10 ^ 10 → f.power = 1 := by
  intro f hf _
  obtain ⟨i, h1, h2⟩ := List.mem_filterMap.mp (List.mem_filter.mp hf).1
  simp [Factor.power, hi i h1 f h2]

theorem stability_noLA : ∀ x ∈ stabilityNames.all, ¬ ['L', 'A'] <:+: x ∨ x = "INTERPOLANT".toList := by decide +kernel

theorem stabilityForce_monomial : Monomial stabilityNames stabilityForce := by
  have hw : ∀ i ∈ stabilityForce, i.WellFormed stabilityNames := by
    intro i hi
    obtain rfl := List.mem_singleton.mp hi
    exact stability_wf (by decide +kernel)
  exact
  { readable :=
    { wf := hw
      oneLap := by decide +kernel
      lapFirst := lapFirst_of stability_noLA hw (by decide +kernel)
      together := ⟨[], [⟨none, some ⟨"CHEMPOT".toList, none⟩⟩], [],
        by decide +kernel, by decide +kernel, by decide +kernel, by decide +kernel, by decide +kernel, by decide +kernel⟩ }
    once := by decide +kernel
    kind := Or.inr ⟨"CHEMPOT".toList, by decide +kernel, by decide +kernel⟩
    exactOne := stability_exactOne _ (by decide +kernel) }

theorem stabilitySmooth_monomial : Monomial stabilityNames stabilitySmooth := by
  have hw : ∀ i ∈ stabilitySmooth, i.WellFormed stabilityNames := by
    intro i hi
    rcases List.mem_cons.mp hi with rfl | hi
    · exact stability_wf (by decide +kernel)
    · obtain rfl := List.mem_singleton.mp hi
      refine ⟨by simp, by simp, by simp, ?_, ?_⟩
      · intro f hf
        obtain rfl : (⟨"conc".toList, none⟩ : Factor) = f := by simpa using hf
        exact List.mem_of_elem_eq_true (by rfl)
      · intro f hf _
        obtain rfl : (⟨"conc".toList, none⟩ : Factor) = f := by simpa using hf
        exact ⟨List.mem_of_elem_eq_true (by rfl), by simp, by simp⟩
  exact
  { readable :=
    { wf := hw
      oneLap := by decide +kernel
      lapFirst := lapFirst_of stability_noLA hw (by decide +kernel)
      together := ⟨[], [⟨some none, some ⟨"conc".toList, none⟩⟩], [⟨none, some ⟨"gamma".toList, none⟩⟩],
        by decide +kernel, by decide +kernel, by decide +kernel, by decide +kernel, by decide +kernel, by decide +kernel⟩ }
    once := by decide +kernel
    kind := Or.inl ⟨by decide +kernel, by decide +kernel⟩
    exactOne := stability_exactOne _ (by decide +kernel) }

theorem stability_polynomial : Equation.Polynomial stabilityNames stabilitySpelled := by
  refine ⟨by decide +kernel, by simp [stabilitySpelled], by simp [stabilitySpelled], ?_⟩
  intro p hp
  simp only [stabilitySpelled, Equation.terms, List.map_cons, List.map_nil, List.mem_cons, List.not_mem_nil, or_false] at hp
  rcases hp with rfl | rfl
  · exact stabilityForce_monomial
  · exact stabilitySmooth_monomial

theorem stability_text : [stabilityEquation].map (fun s => s.filter fun c => c ≠ ' ') = [stabilitySpelled].map Equation.text := by
  decide +kernel

theorem stability_starts : StartsAs stabilityNames (stabilityModel n) := by
  refine ⟨rfl, rfl, fun x => ?_⟩
  have e : (stabilityModel n).brickNames = ["gamma".toList, "conc".toList, "CHEMPOT".toList] := rfl
  have e2 : stabilityNames.all = ["conc".toList, "CHEMPOT".toList, "gamma".toList] := rfl
  rw [e, e2]
  simp only [List.mem_cons, List.not_mem_nil, or_false]
  tauto

theorem stability_reads : ∀ q ∈ (stabilityModel n).derived, ReadsFields stabilityNames q.2 ∧ RealFunction q.2 := by
  have e : (stabilityModel n).derived = [("CHEMPOT".toList, .function derivChemPot)] := rfl
  rw [e]
  intro q hq
  obtain rfl := List.mem_singleton.mp hq
  refine ⟨?_, ?_⟩
  · intro u u' hf _
    have h2 : u "conc".toList = u' "conc".toList := hf _ (List.mem_of_elem_eq_true (by rfl))
    simp only [Calc.eval]
    unfold derivChemPot
    rw [h2]
  · intro u hu
    simp only [Calc.eval]
    unfold derivChemPot
    intro x
    dsimp only
    have := hu "conc".toList x
    generalize u "conc".toList x = z at this
    simp [Complex.mul_im, Complex.mul_re, this]

theorem stability_rate (c : Str → ℂ) (u : Str → Data n) (hu : ∀ x ∈ stabilityNames.scalars, u x = fun _ => c x) (freq : Frequency n) (k : Fin n) :
    (stabilitySpelled.terms.map (linearFactor stabilityNames stabilitySpelled.field u freq k)).sum =
      c "gamma".toList * laplaceSymbol (freq k) := by
  have e1 : factorsIn stabilityNames.scalars stabilitySmooth = [⟨"gamma".toList, none⟩] := by decide +kernel
  have e2 : laplacians stabilitySmooth = [1] := by decide +kernel
  have l1 : LinearIn stabilitySpelled.field stabilityNames.varying stabilitySmooth :=
    linearIn_of (by decide +kernel) (by decide +kernel) (by decide +kernel)
  have l2 : ¬ LinearIn stabilitySpelled.field stabilityNames.varying stabilityForce := fun h => absurd h.1 (by decide +kernel)
  have hs : u "gamma".toList = fun _ => c "gamma".toList := hu _ (List.mem_of_elem_eq_true (by rfl))
  have ht : stabilitySpelled.terms = [(stabilityForce, none), (stabilitySmooth, some '+')] := rfl
  rw [ht, List.map_cons, List.map_cons, List.map_nil, List.sum_cons, List.sum_cons, List.sum_nil]
  simp only [linearFactor, if_pos l1, if_neg l2, e1, e2, List.map_cons, List.map_nil, List.prod_cons, List.prod_nil, hs]
  simp [signOf, Factor.power]

theorem stability_seen (lap : Data n → Data n) (c : Str → ℂ) (u v : Str → Data n) :
    Equation.seen stabilityNames lap c u v stabilitySpelled =
      u "CHEMPOT".toList + c "gamma".toList • lap (v "conc".toList) := by
  have a1 : factorsIn stabilityNames.scalars stabilityForce = [] := by decide +kernel
  have a2 : factorsIn stabilityNames.varying stabilityForce = [⟨"CHEMPOT".toList, none⟩] := by decide +kernel
  have a3 : laplacians stabilityForce = [] := by decide +kernel
  have b1 : factorsIn stabilityNames.scalars stabilitySmooth = [⟨"gamma".toList, none⟩] := by decide +kernel
  have b2 : factorsIn stabilityNames.varying stabilitySmooth = [⟨"conc".toList, none⟩] := by decide +kernel
  have b3 : laplacians stabilitySmooth = [1] := by decide +kernel
  have h1 : ¬ BareField stabilityNames (stabilityForce, none) := notBare_of a2 (by decide +kernel)
  have h2 : BareField stabilityNames (stabilitySmooth, some '+') := ⟨"conc".toList, by decide +kernel, b2⟩
  have ht : stabilitySpelled.terms = [(stabilityForce, none), (stabilitySmooth, some '+')] := rfl
  rw [Equation.seen, ht, List.map_cons, List.map_cons, List.map_nil, List.sum_cons, List.sum_cons, List.sum_nil]
  simp only [if_neg h1, if_pos h2, a1, a2, a3, b1, b2, b3, productValue_single, List.map_cons, List.map_nil, List.prod_cons,
    List.prod_nil, List.sum_cons, List.sum_nil, Function.iterate_one, Function.iterate_zero, id, add_zero]
  simp [signOf, Factor.power]

theorem stability_value (lap : Data n → Data n) (c : Str → ℂ) (u : Str → Data n) :
    Equation.value stabilityNames lap c u stabilitySpelled =
      u "CHEMPOT".toList + c "gamma".toList • lap (u "conc".toList) := by
  have a1 : factorsIn stabilityNames.scalars stabilityForce = [] := by decide +kernel
  have a2 : factorsIn stabilityNames.varying stabilityForce = [⟨"CHEMPOT".toList, none⟩] := by decide +kernel
  have a3 : laplacians stabilityForce = [] := by decide +kernel
  have b1 : factorsIn stabilityNames.scalars stabilitySmooth = [⟨"gamma".toList, none⟩] := by decide +kernel
  have b2 : factorsIn stabilityNames.varying stabilitySmooth = [⟨"conc".toList, none⟩] := by decide +kernel
  have b3 : laplacians stabilitySmooth = [1] := by decide +kernel
  have ht : stabilitySpelled.terms = [(stabilityForce, none), (stabilitySmooth, some '+')] := rfl
  rw [Equation.value, ht, List.map_cons, List.map_cons, List.map_nil, List.sum_cons, List.sum_cons, List.sum_nil]
  simp only [a1, a2, a3, b1, b2, b3, productValue_single, List.map_cons, List.map_nil, List.prod_cons,
    List.prod_nil, List.sum_cons, List.sum_nil, Function.iterate_one, Function.iterate_zero, id, add_zero]
  simp [signOf, Factor.power]

open Classical in
/-- What the names stand for. -/
noncomputable def stabilityValues (gamma : ℝ) (c : Data n) (x : Str) : Data n :=
  if x = "conc".toList then c else if x = "CHEMPOT".toList then fun i => c i - c i ^ 3
  else fun _ => stabilityScalars gamma x

theorem stabilityValues_conc (gamma : ℝ) (c : Data n) : stabilityValues gamma c "conc".toList = c := by
  unfold stabilityValues; rw [if_pos rfl]

theorem stabilityValues_force (gamma : ℝ) (c : Data n) :
    stabilityValues gamma c "CHEMPOT".toList = fun i => c i - c i ^ 3 := by
  unfold stabilityValues; rw [if_neg (by decide), if_pos rfl]

theorem stabilityValues_scalar (gamma : ℝ) (c : Data n) {x : Str} (hx : x ∈ stabilityNames.scalars) :
    stabilityValues gamma c x = fun _ => stabilityScalars gamma x := by
  have e : ∀ x ∈ stabilityNames.scalars, x ≠ "conc".toList ∧ x ≠ "CHEMPOT".toList := by decide +kernel
  obtain ⟨h1, h2⟩ := e x hx
  unfold stabilityValues; rw [if_neg h1, if_neg h2]

theorem stabilityValues_functions (gamma : ℝ) (c : Data n) :
    ∀ q ∈ (stabilityModel n).derived, stabilityValues gamma c q.1 = q.2.eval (stabilityValues gamma c) := by
  have e : (stabilityModel n).derived = [("CHEMPOT".toList, .function derivChemPot)] := rfl
  rw [e]
  intro q hq
  obtain rfl := List.mem_singleton.mp hq
  simp only [Calc.eval]
  rw [stabilityValues_force]
  unfold derivChemPot
  rw [stabilityValues_conc]
  funext i
  ring

theorem stabilityScalars_gamma (gamma : ℝ) : stabilityScalars gamma "gamma".toList = (gamma : ℂ) := by
  unfold stabilityScalars; rw [if_pos rfl]

/-- The equation as the steppers see it. -/
theorem stability_model (h : GoodDims (intDims dims)) (gamma : ℝ) :
    ∃ (m : EqModel dims.prod) (M : Model m.fields.length m.derived.length dims.prod),
      (stabilityModel dims.prod).addEquation stabilityEquation = some m ∧ m.fields = ["conc".toList] ∧
      m.assemble (stabilityScalars gamma) = some M ∧ RealRates M ∧
      (∀ i st t, M.getDenum i st (freqOf dims) t = fun k => ((-(gamma * laplaceNumber dims k) : ℝ) : ℂ)) ∧
      (∀ i t Y k, spectralRHS (freqOf dims) M i t Y Y k = fft dims (fun x => realSpace (Y i) x - realSpace (Y i) x ^ 3) k) ∧
      ∀ (s : Stepper dims.prod), s.freq = freqOf dims → s.filter = none → ∀ i st k,
        1 + s.dt * (gamma * laplaceNumber dims k) ≠ 0 →
          fft dims ((eulerStep M (s, st)).2.fields i) k - fft dims (st.fields i) k =
            -((s.dt * 1 : ℝ) : ℂ) * (fft dims (fun x => st.fields i x ^ 3 - st.fields i x) k +
              ((gamma * laplaceNumber dims k : ℝ) : ℂ) * fft dims ((eulerStep M (s, st)).2.fields i) k) := by
  have hpos := pos_of_goodDims h
  have hq : ∀ e ∈ [stabilitySpelled], e.Polynomial stabilityNames ∧ Unregistered (stabilityModel dims.prod) e := by
    intro e he
    obtain rfl := List.mem_singleton.mp he
    exact ⟨stability_polynomial, fun _ _ => ⟨rfl, rfl⟩⟩
  have hpow : Equation.RealPowers stabilityNames (stabilityScalars gamma) stabilitySpelled := by
    intro p hp
    have ht : ∀ p ∈ stabilitySpelled.terms, ∀ i ∈ p.1, ∀ f ∈ i.fac, f.exp = none := by decide +kernel
    have hone : ∀ l, ∀ g ∈ factorsIn l p.1, g.power = 1 := by
      intro l g hg
      obtain ⟨i, h1, h2⟩ := List.mem_filterMap.mp (List.mem_filter.mp hg).1
      simp [Factor.power, ht p hp i h1 g h2]
    refine ⟨fun f hf => by rw [hone _ f hf]; rfl, fun f hf => ⟨?_, Or.inr (by rw [hone _ f hf]; rfl)⟩⟩
    unfold stabilityScalars
    split_ifs <;> simp
  obtain ⟨m, M, hadd, hf, has, hall⟩ := text_values hpos (freqOf dims) stabilityNames stability_wellNamed _ stability_starts rfl
    (fun p hp => (stability_reads p hp).1) [stabilitySpelled] hq (by decide) [stabilityEquation] stability_text (stabilityScalars gamma)
  obtain ⟨m', M', hadd', -, has', hrr, -⟩ := text_realRates h stabilityNames stability_wellNamed _ stability_starts rfl
    stability_reads [stabilitySpelled] hq (by decide) [stabilityEquation] stability_text (stabilityScalars gamma)
    (fun x _ => by unfold stabilityScalars; split_ifs <;> simp)
    (by intro e he; obtain rfl := List.mem_singleton.mp he; exact hpow)
  obtain ⟨m2, M2, hadd2, -, has2, hst⟩ := c132_step hpos stabilityNames stability_wellNamed _ stability_starts rfl
    (fun p hp => (stability_reads p hp).1) [stabilitySpelled] hq [stabilityEquation] stability_text (by decide) (stabilityScalars gamma)
  rw [hadd] at hadd' hadd2
  obtain rfl := Option.some.inj hadd'
  obtain rfl := Option.some.inj hadd2
  rw [has] at has' has2
  obtain rfl := Option.some.inj has'
  obtain rfl := Option.some.inj has2
  have hadd1 : (stabilityModel dims.prod).addEquation stabilityEquation = some m := by
    simpa [List.foldlM_cons, List.foldlM_nil] using hadd
  have hlen : m.fields.length = 1 := by rw [hf]; rfl
  have hi0 : ∀ i : Fin m.fields.length, i.val = 0 := fun i => by have := i.2; omega
  have heq : ∀ i : Fin m.fields.length, [stabilitySpelled][i.val]? = some stabilitySpelled := fun i => by rw [hi0 i]; rfl
  have hget : ∀ j : Fin m.fields.length, m.fields[j] = "conc".toList := by
    intro j
    have : m.fields[j] ∈ m.fields := List.getElem_mem j.2
    generalize m.fields[j] = a at this
    rw [hf] at this
    exact List.mem_singleton.mp this
  have hij : ∀ i j : Fin m.fields.length, j = i := fun i j => Fin.ext (by rw [hi0 i, hi0 j])
  have e0 : ∀ (z : ℂ) (w : Data dims.prod) k, fft dims (z • w) k = z * fft dims w k := fun z w k => fft_smul z w k
  have e1 : ∀ (w w' : Data dims.prod) k, fft dims (w + w') k = fft dims w k + fft dims w' k := fun w w' k => fft_add w w' k
  refine ⟨m, M, hadd1, hf, has, hrr, ?_, ?_, ?_⟩
  · intro i st t
    funext k
    rw [(hall i _ (heq i)).1, stability_rate (stabilityScalars gamma) _ (fun _ _ => rfl), stabilityScalars_gamma, symbol_laplaceNumber]
    push_cast
    ring
  · intro i t Y k
    have := (hall i _ (heq i)).2 t Y (stabilityValues gamma (realSpace (Y i))) (by
      intro j
      rw [hget, stabilityValues_conc, hij i j]) (fun x hx => stabilityValues_scalar gamma _ hx) (stabilityValues_functions gamma _) k
    rw [stability_rate (stabilityScalars gamma) _ (fun _ _ => rfl), stability_value, e1, e0, gridLaplacian, fft_lap hpos,
      stabilityValues_conc, stabilityValues_force, stabilityScalars_gamma, fft_realSpace hpos,
      show stabilitySpelled.field = "conc".toList from rfl, stabilityValues_conc, fft_realSpace hpos] at this
    linear_combination this
  · intro s hfreq hfil i st k hne
    have a := hst i _ (heq i) (hget i).symm s st (stabilityValues gamma (st.fields i)) (stabilityValues gamma (st.fields i))
      (by intro j; rw [hget, stabilityValues_conc, hij i j]) (fun x hx => stabilityValues_scalar gamma _ hx)
      (stabilityValues_functions gamma _)
      (by intro j; rw [hget, stabilityValues_conc, hij i j, if_neg (lt_irrefl _)]) k
    rw [stability_rate (stabilityScalars gamma) _ (fun x hx => stabilityValues_scalar gamma _ hx), stability_seen, e1, e0, fft_lap hpos,
      stabilityValues_conc, stabilityValues_force, stabilityScalars_gamma, hfreq, symbol_laplaceNumber] at a
    simp only [hfil, waveGain, Option.elim, Complex.ofReal_one, one_mul] at a
    have hne' : (1 : ℂ) - s.dt * ((gamma : ℂ) * -(laplaceNumber dims k : ℂ)) ≠ 0 := by
      intro e
      apply hne
      have := congrArg Complex.re e
      rw [← Complex.ofReal_neg, ← Complex.ofReal_mul, ← Complex.ofReal_mul, ← Complex.ofReal_one, ← Complex.ofReal_sub, Complex.ofReal_re] at this
      simp only [Complex.zero_re] at this
      linarith
    have hneg : fft dims (fun x => st.fields i x - st.fields i x ^ 3) k = -fft dims (fun x => st.fields i x ^ 3 - st.fields i x) k := by
      rw [← neg_one_mul, ← fft_smul]
      congr 1
      funext x
      ring
    have := a hne'
    rw [hneg] at this
    push_cast at this ⊢
    linear_combination this

/-! ### Explicit steps of uniform fields -/

theorem stability_denom {gamma dt : ℝ} (hg : 0 ≤ gamma) (hdt : 0 ≤ dt) (k : Fin dims.prod) :
    1 + dt * (gamma * laplaceNumber dims k) ≠ 0 := by
  have := laplaceNumber_nonneg k
  positivity

/-- What a step makes of a uniform value. -/
def uniformStep (dt z : ℝ) : ℝ := z + dt * (z - z ^ 3)

theorem uniformStep_bound {dt z : ℝ} (hdt : 0 < dt) (h2 : dt ≤ 2) (hz : z ^ 2 ≤ 1 + 2 / dt) : uniformStep dt z ^ 2 ≤ 1 + 2 / dt := by
  have e : 1 + 2 / dt - uniformStep dt z ^ 2 = (1 + 2 / dt - z ^ 2) *
      ((dt * (1 + 2 / dt - z ^ 2) - (dt + 4) / 2) ^ 2 + (dt + 2) * (2 - dt) / 4) := by
    unfold uniformStep
    field_simp
    ring
  have : 0 ≤ 1 + 2 / dt - uniformStep dt z ^ 2 := by
    rw [e]
    refine mul_nonneg (by linarith) (add_nonneg (sq_nonneg _) ?_)
    have : 0 ≤ (dt + 2) * (2 - dt) := mul_nonneg (by linarith) (by linarith)
    linarith
  linarith

theorem uniformStep_grow {dt z q : ℝ} (hq : 1 ≤ q) (hz : q + 1 + dt ≤ dt * z ^ 2) :
    q * |z| ≤ |uniformStep dt z| := by
  have e : uniformStep dt z = -(z * (dt * z ^ 2 - 1 - dt)) := by unfold uniformStep; ring
  rw [e, abs_neg, abs_mul, abs_of_nonneg (show 0 ≤ dt * z ^ 2 - 1 - dt by linarith), mul_comm]
  exact mul_le_mul_of_nonneg_left (by linarith) (abs_nonneg _)

theorem uniformStep_diverges {dt z : ℝ} (hdt : 0 < dt) (hz : 1 + 2 / dt < z ^ 2) :
    Tendsto (fun n : ℕ => |(uniformStep dt)^[n] z|) atTop atTop := by
  have hz' : dt + 2 < dt * z ^ 2 := by
    have := mul_lt_mul_of_pos_left hz hdt
    rw [mul_add, mul_div_cancel₀ _ hdt.ne'] at this
    linarith
  set q := dt * z ^ 2 - 1 - dt with hq
  have hq1 : 1 < q := by linarith
  have hz0 : 0 < |z| := by
    rw [abs_pos]
    rintro rfl
    have : 0 < 2 / dt := by positivity
    norm_num at hz
    linarith
  have key : ∀ n : ℕ, q ^ n * |z| ≤ |(uniformStep dt)^[n] z| := by
    intro n
    induction n with
    | zero => simp
    | succ n ih =>
      rw [Function.iterate_succ_apply']
      have h1 : |z| ≤ |(uniformStep dt)^[n] z| := le_trans (by
        have := one_le_pow₀ (n := n) hq1.le
        nlinarith) ih
      have h2 : z ^ 2 ≤ ((uniformStep dt)^[n] z) ^ 2 := sq_le_sq.mpr h1
      have h3 := uniformStep_grow (dt := dt) hq1.le (z := (uniformStep dt)^[n] z) (by
        have := mul_le_mul_of_nonneg_left h2 hdt.le
        linarith)
      calc q ^ (n + 1) * |z| = q * (q ^ n * |z|) := by ring
        _ ≤ q * |(uniformStep dt)^[n] z| := mul_le_mul_of_nonneg_left ih (by linarith)
        _ ≤ _ := h3
  exact tendsto_atTop_mono key ((tendsto_pow_atTop_atTop_of_one_lt hq1).atTop_mul_const hz0)

/-- The first step takes the value `sqrt (1 / 2)` beyond the point of no return if the time step is above two. -/
theorem uniformStep_escapes {dt : ℝ} (h2 : 2 < dt) : 1 + 2 / dt < uniformStep dt (Real.sqrt (1 / 2)) ^ 2 := by
  have hs : Real.sqrt (1 / 2) ^ 2 = 1 / 2 := Real.sq_sqrt (by norm_num)
  have e : uniformStep dt (Real.sqrt (1 / 2)) ^ 2 = 1 / 2 * (1 + dt / 2) ^ 2 := by
    have e0 : uniformStep dt (Real.sqrt (1 / 2)) = Real.sqrt (1 / 2) * (1 + dt * (1 - Real.sqrt (1 / 2) ^ 2)) := by
      unfold uniformStep; ring
    rw [e0, mul_pow, hs]
    ring
  rw [e]
  have e1 : 1 / 2 * (1 + dt / 2) ^ 2 - (1 + 2 / dt) = (1 + dt / 2) * ((dt - 2) * (dt + 4)) / (4 * dt) := by
    field_simp
    ring
  have e2 : 0 < (1 + dt / 2) * ((dt - 2) * (dt + 4)) / (4 * dt) := by
    have : 0 < dt - 2 := by linarith
    positivity
  linarith

theorem stability_uniform (h : GoodDims (intDims dims)) {gamma : ℝ} (hg : 0 ≤ gamma) :
    ∃ (m : EqModel dims.prod) (M : Model m.fields.length m.derived.length dims.prod),
      (stabilityModel dims.prod).addEquation stabilityEquation = some m ∧ m.fields = ["conc".toList] ∧
      m.assemble (stabilityScalars gamma) = some M ∧
      ∀ (s : Stepper dims.prod), s.freq = freqOf dims → s.filter = none → 0 ≤ s.dt → ∀ st i (z : ℝ), Store.fields st i = (fun _ => (z : ℂ)) →
        ∀ steps, (eulerPropagate M steps (s, st)).2.fields i = fun _ => (((uniformStep s.dt)^[steps] z : ℝ) : ℂ) := by
  have hpos := pos_of_goodDims h
  obtain ⟨m, M, h1, h2, h3, -, -, -, h6⟩ := stability_model h gamma
  refine ⟨m, M, h1, h2, h3, ?_⟩
  intro s hfreq hfil hdt st i z hz steps
  induction steps with
  | zero => exact hz
  | succ n ih =>
    have e := propagate_stepper M n s st
    rw [propagate_succ, Function.iterate_succ_apply']
    generalize eulerPropagate M n (s, st) = q at *
    obtain ⟨s', st'⟩ := q
    dsimp only at *
    have hdt' : s'.dt = s.dt := by rw [e]
    generalize (uniformStep s.dt)^[n] z = y at *
    apply fft_injective hpos
    funext k
    have hne := stability_denom (dims := dims) hg hdt k
    have a := h6 s' (by rw [e]; exact hfreq) (by rw [e]; exact hfil) i st' k (by rw [hdt']; exact hne)
    rw [ih, hdt'] at a
    have l := laplace_const h ((uniformStep s.dt y : ℝ) : ℂ) k
    have c : fft dims (fun _ => ((uniformStep s.dt y : ℝ) : ℂ)) k =
        fft dims (fun _ => (y : ℂ)) k - s.dt * fft dims (fun _ => (y : ℂ) ^ 3 - (y : ℂ)) k := by
      simp only [fft_const hpos]
      unfold uniformStep
      split_ifs
      · push_cast; ring
      · simp
    have hn : (1 : ℂ) + s.dt * (gamma * laplaceNumber dims k) ≠ 0 := by exact_mod_cast hne
    refine mul_right_cancel₀ hn ?_
    push_cast at a l c ⊢
    linear_combination a - c - (s.dt * gamma : ℂ) * l

/-- C137: the explicit stepper on uniform starts. Whatever the constant in front of the Laplacian: up to the time step two
starts between `-1` and `1` stay bounded (and so do all starts up to a value above one), but starts beyond that value grow without bound. -/
theorem c137_explicit (h : GoodDims (intDims dims)) {gamma : ℝ} (hg : 0 ≤ gamma) :
    ∃ (m : EqModel dims.prod) (M : Model m.fields.length m.derived.length dims.prod),
      (stabilityModel dims.prod).addEquation stabilityEquation = some m ∧ m.fields = ["conc".toList] ∧
      m.assemble (stabilityScalars gamma) = some M ∧
      ∀ (s : Stepper dims.prod), s.freq = freqOf dims → s.filter = none → 0 < s.dt → ∀ st i (z : ℝ), Store.fields st i = (fun _ => (z : ℂ)) →
        (s.dt ≤ 2 → z ^ 2 ≤ 1 + 2 / s.dt → ∀ steps x, ‖(eulerPropagate M steps (s, st)).2.fields i x‖ ^ 2 ≤ 1 + 2 / s.dt) ∧
        (1 + 2 / s.dt < z ^ 2 → ∀ x, Tendsto (fun steps => ‖(eulerPropagate M steps (s, st)).2.fields i x‖) atTop atTop) := by
  obtain ⟨m, M, h1, h2, h3, h4⟩ := stability_uniform h hg
  refine ⟨m, M, h1, h2, h3, ?_⟩
  intro s hfreq hfil hdt st i z hz
  have e := h4 s hfreq hfil hdt.le st i z hz
  refine ⟨fun hle hb steps x => ?_, fun hb x => ?_⟩
  · rw [e, Complex.norm_real, Real.norm_eq_abs, sq_abs]
    induction steps with
    | zero => exact hb
    | succ n ih => rw [Function.iterate_succ_apply']; exact uniformStep_bound hdt hle ih
  · simp only [e, Complex.norm_real, Real.norm_eq_abs]
    exact uniformStep_diverges hdt hb

/-- C137: above the time step two the explicit stepper takes a start between `-1` and `1` to infinity. -/
theorem c137_explicit_limit (h : GoodDims (intDims dims)) {gamma : ℝ} (hg : 0 ≤ gamma) :
    ∃ (m : EqModel dims.prod) (M : Model m.fields.length m.derived.length dims.prod),
      (stabilityModel dims.prod).addEquation stabilityEquation = some m ∧ m.fields = ["conc".toList] ∧
      m.assemble (stabilityScalars gamma) = some M ∧
      ∀ (s : Stepper dims.prod), s.freq = freqOf dims → s.filter = none → 2 < s.dt → ∀ st i, Store.fields st i = (fun _ => (Real.sqrt (1 / 2) : ℂ)) →
        (∀ x, ‖st.fields i x‖ ≤ 1) ∧ ∀ x, Tendsto (fun steps => ‖(eulerPropagate M steps (s, st)).2.fields i x‖) atTop atTop := by
  obtain ⟨m, M, h1, h2, h3, h4⟩ := stability_uniform h hg
  refine ⟨m, M, h1, h2, h3, ?_⟩
  intro s hfreq hfil hdt st i hz
  have e := h4 s hfreq hfil (by linarith) st i _ hz
  refine ⟨fun x => ?_, fun x => ?_⟩
  · rw [hz, Complex.norm_real, Real.norm_eq_abs, abs_of_nonneg (Real.sqrt_nonneg _)]
    exact Real.sqrt_le_one.mpr (by norm_num)
  · simp only [e, Complex.norm_real, Real.norm_eq_abs]
    rw [← tendsto_add_atTop_iff_nat 1]
    simp only [Function.iterate_succ_apply]
    exact uniformStep_diverges (by linarith) (uniformStep_escapes hdt)

/-! ### The energy of explicit steps -/

/-- C137: an explicit step of real values between `-b` and `b` to such values does not raise the energy if the time step
is small enough for `b`, whatever the grid. -/
theorem c137_energy (h : GoodDims (intDims dims)) (hl : LayoutOk dims) {gamma : ℝ} (hg : 0 ≤ gamma) :
    ∃ (m : EqModel dims.prod) (M : Model m.fields.length m.derived.length dims.prod),
      (stabilityModel dims.prod).addEquation stabilityEquation = some m ∧ m.fields = ["conc".toList] ∧
      m.assemble (stabilityScalars gamma) = some M ∧
      ∀ (s : Stepper dims.prod), s.freq = freqOf dims → s.filter = none → 0 ≤ s.dt → ∀ st i, IsReal (Store.fields st i) →
        IsReal ((eulerStep M (s, st)).2.fields i) ∧
        (∀ b ε : ℝ, (∀ x, |(st.fields i x).re| ≤ b) → (∀ x, |((eulerStep M (s, st)).2.fields i x).re| ≤ b) →
          s.dt * (2 * ε + (3 * b ^ 2 - 1)) ≤ 2 →
          allenCahnEnergy gamma ((eulerStep M (s, st)).2.fields i) + ε * squares ((eulerStep M (s, st)).2.fields i - st.fields i) ≤
            allenCahnEnergy gamma (st.fields i)) ∧
        ∀ b : ℝ, s.dt ≤ 1 → (∀ x, |(st.fields i x).re| ≤ b) →
          ∀ x, |((eulerStep M (s, st)).2.fields i x).re| ≤ (dims.prod : ℕ) * (2 * b + b ^ 3) := by
  have hpos := pos_of_goodDims h
  obtain ⟨m, M, h1, h2, h3, hrr, -, -, h6⟩ := stability_model h gamma
  refine ⟨m, M, h1, h2, h3, ?_⟩
  intro s hfreq hfil hdt st i hu
  have hi0 : ∀ j : Fin m.fields.length, j = i := fun j => by
    have hlen : m.fields.length = 1 := by rw [h2]; rfl
    exact Fin.ext (by have := j.2; have := i.2; omega)
  have hv : IsReal ((eulerStep M (s, st)).2.fields i) := c117_euler h hl hrr s hfreq st (fun j => by rw [hi0 j]; exact hu) i
  have hw := fun k => h6 s hfreq hfil i st k (stability_denom hg hdt k)
  have hx0 : ∀ k : Fin dims.prod, 0 ≤ laplaceNumber dims k := laplaceNumber_nonneg
  generalize (eulerStep M (s, st)).2.fields i = v at hv hw ⊢
  generalize st.fields i = u at hu hw ⊢
  have hur : ∀ x, u x = ((u x).re : ℂ) := fun x => Complex.ext (by simp) (by simpa using hu x)
  have hvr : ∀ x, v x = ((v x).re : ℂ) := fun x => Complex.ext (by simp) (by simpa using hv x)
  have hFe : (fun x => u x ^ 3 - u x) = fun x => (((u x).re ^ 3 - (u x).re : ℝ) : ℂ) := by
    funext x
    have := hur x
    generalize (u x).re = r at *
    rw [this]
    push_cast
    ring
  refine ⟨hv, ?_, ?_⟩
  · intro b ε hub hvb hlim
    have loss := field_loss hpos hu hv (fun x => (u x).re ^ 3 - (u x).re) (K := 3 * b ^ 2 - 1) (dt := s.dt) (ε := ε) hdt
      (fun _ => 1) (fun k => gamma * laplaceNumber dims k) (fun _ => zero_le_one) (fun k => by rw [← hFe]; exact hw k) (fun k => by
        have := mul_nonneg hdt (mul_nonneg hg (hx0 k))
        linarith)
    have g1 : ∀ t : ℝ, HasDerivAt (fun t : ℝ => (t ^ 2 - 1) ^ 2 / 4) (t ^ 3 - t) t := by
      intro t
      have := (((hasDerivAt_pow 2 t).sub_const 1).pow 2).div_const 4
      refine this.congr_deriv ?_
      norm_num
      ring
    have g2 : ∀ t : ℝ, HasDerivAt (fun t : ℝ => t ^ 3 - t) (3 * t ^ 2 - 1) t := by
      intro t
      have := (hasDerivAt_pow 3 t).sub (hasDerivAt_id t)
      refine this.congr_deriv ?_
      norm_num
    have hK : ∀ t ∈ Set.Icc (-b) b, 3 * t ^ 2 - 1 ≤ 3 * b ^ 2 - 1 := by
      intro t ht
      have := sq_le_sq' ht.1 ht.2
      linarith
    have hsum : ∑ x, ((v x).re ^ 2 - 1) ^ 2 / 4 ≤ ∑ x, (((u x).re ^ 2 - 1) ^ 2 / 4 + ((u x).re ^ 3 - (u x).re) * ((v x).re - (u x).re) +
        (3 * b ^ 2 - 1) / 2 * ((v x).re - (u x).re) ^ 2) :=
      Finset.sum_le_sum fun x _ => tangent_le g1 g2 hK (abs_le.mp (hub x)) (abs_le.mp (hvb x))
    rw [Finset.sum_add_distrib, Finset.sum_add_distrib, ← Finset.mul_sum] at hsum
    have hgrad : ∀ w : Data dims.prod, (∑ k, gamma * laplaceNumber dims k * ‖fft dims w k‖ ^ 2) / (2 * (dims.prod : ℕ)) =
        gamma / 2 * ((∑ k, laplaceNumber dims k * ‖fft dims w k‖ ^ 2) / (dims.prod : ℕ)) := by
      intro w
      simp only [mul_assoc]
      rw [← Finset.mul_sum]
      field_simp
    rw [hgrad, hgrad] at loss
    unfold allenCahnEnergy
    linarith
  · intro b hd1 hub x
    have hb : 0 ≤ b := (abs_nonneg _).trans (hub x)
    set w : Data dims.prod := fun y => u y + (-(s.dt : ℂ)) * (u y ^ 3 - u y) with hwdef
    have hwn : ∀ y, ‖w y‖ ≤ 2 * b + b ^ 3 := by
      intro y
      have hn : ‖u y‖ ≤ b := by rw [hur y, Complex.norm_real]; exact hub y
      calc ‖w y‖ ≤ ‖u y‖ + ‖(-(s.dt : ℂ)) * (u y ^ 3 - u y)‖ := norm_add_le _ _
        _ = ‖u y‖ + s.dt * ‖u y ^ 3 - u y‖ := by rw [norm_mul, norm_neg, Complex.norm_real, Real.norm_eq_abs, abs_of_nonneg hdt]
        _ ≤ b + 1 * (b ^ 3 + b) := by
          refine add_le_add hn (mul_le_mul hd1 ?_ (norm_nonneg _) zero_le_one)
          refine (norm_sub_le _ _).trans (add_le_add ?_ hn)
          rw [norm_pow]
          exact pow_le_pow_left₀ (norm_nonneg _) hn 3
        _ = _ := by ring
    have hfw : ∀ k, fft dims w k = (1 + s.dt * (gamma * laplaceNumber dims k) : ℝ) * fft dims v k := by
      intro k
      have := hw k
      rw [hwdef, fft_add, fft_smul]
      push_cast at this ⊢
      linear_combination -this
    have hle : ∀ k, ‖fft dims v k‖ ^ 2 ≤ ‖fft dims w k‖ ^ 2 := by
      intro k
      rw [hfw, norm_mul, Complex.norm_real, Real.norm_eq_abs]
      have h0 : 0 ≤ s.dt * (gamma * laplaceNumber dims k) := by have := hx0 k; positivity
      rw [abs_of_nonneg (by linarith)]
      refine pow_le_pow_left₀ (norm_nonneg _) ?_ 2
      nlinarith [norm_nonneg (fft dims v k)]
    have hP : (0 : ℝ) < (dims.prod : ℕ) := Cubic.prod_pos hpos
    have hP1 : (1 : ℝ) ≤ (dims.prod : ℕ) := by
      have := List.prod_pos hpos
      exact_mod_cast this
    have s1 := Finset.sum_le_sum fun k (_ : k ∈ Finset.univ) => hle k
    rw [squares_parseval hpos, squares_parseval hpos] at s1
    have s2 := le_of_mul_le_mul_left s1 hP
    have s3 : ‖v x‖ ^ 2 ≤ ∑ y, ‖v y‖ ^ 2 :=
      Finset.single_le_sum (f := fun y => ‖v y‖ ^ 2) (fun _ _ => by positivity) (Finset.mem_univ x)
    have s4 : ∑ y, ‖w y‖ ^ 2 ≤ ∑ _y : Fin dims.prod, (2 * b + b ^ 3) ^ 2 :=
      Finset.sum_le_sum fun y _ => pow_le_pow_left₀ (norm_nonneg _) (hwn y) 2
    rw [Finset.sum_const, Finset.card_univ, Fintype.card_fin, nsmul_eq_mul] at s4
    refine (Complex.abs_re_le_norm _).trans ?_
    refine le_of_sq_le_sq ?_ (by positivity)
    rw [mul_pow]
    have s5 : (dims.prod : ℝ) * (2 * b + b ^ 3) ^ 2 ≤ (dims.prod : ℝ) ^ 2 * (2 * b + b ^ 3) ^ 2 :=
      mul_le_mul_of_nonneg_right (by nlinarith) (sq_nonneg _)
    linarith

theorem allenCahnEnergy_bound {gamma E0 : ℝ} (hg : 0 ≤ gamma) (u : Data dims.prod) (hE : allenCahnEnergy gamma u ≤ E0) (x : Fin dims.prod) :
    (u x).re ^ 2 ≤ 1 + 2 * Real.sqrt E0 := by
  unfold allenCahnEnergy at hE
  have h0 : 0 ≤ gamma / 2 * ((∑ k, laplaceNumber dims k * ‖fft dims u k‖ ^ 2) / (dims.prod : ℕ)) := by
    have : 0 ≤ ∑ k, laplaceNumber dims k * ‖fft dims u k‖ ^ 2 :=
      Finset.sum_nonneg fun k _ => mul_nonneg (laplaceNumber_nonneg k) (by positivity)
    positivity
  have h1 : ((u x).re ^ 2 - 1) ^ 2 / 4 ≤ ∑ x, ((u x).re ^ 2 - 1) ^ 2 / 4 :=
    Finset.single_le_sum (f := fun x => ((u x).re ^ 2 - 1) ^ 2 / 4) (fun _ _ => by positivity) (Finset.mem_univ x)
  have h2 : (((u x).re ^ 2 - 1) / 2) ^ 2 ≤ E0 := by
    have : (((u x).re ^ 2 - 1) / 2) ^ 2 = ((u x).re ^ 2 - 1) ^ 2 / 4 := by ring
    linarith
  have := (le_abs_self _).trans (Real.abs_le_sqrt h2)
  linarith

/-- C137: for every energy there is a time step below which the energy of runs of the explicit stepper never rises, from all real
starts with at most this energy. The values are then bounded for ever. -/
theorem c137_small_steps (h : GoodDims (intDims dims)) (hl : LayoutOk dims) {gamma : ℝ} (hg : 0 ≤ gamma) :
    ∃ (m : EqModel dims.prod) (M : Model m.fields.length m.derived.length dims.prod),
      (stabilityModel dims.prod).addEquation stabilityEquation = some m ∧ m.fields = ["conc".toList] ∧
      m.assemble (stabilityScalars gamma) = some M ∧
      ∀ E0 : ℝ, ∃ dt0 : ℝ, 0 < dt0 ∧
      ∀ (s : Stepper dims.prod), s.freq = freqOf dims → s.filter = none → 0 ≤ s.dt → s.dt ≤ dt0 →
      ∀ st i, IsReal (Store.fields st i) → allenCahnEnergy gamma (st.fields i) ≤ E0 → ∀ steps,
        IsReal ((eulerPropagate M steps (s, st)).2.fields i) ∧
        allenCahnEnergy gamma ((eulerPropagate M (steps + 1) (s, st)).2.fields i) ≤
          allenCahnEnergy gamma ((eulerPropagate M steps (s, st)).2.fields i) ∧
        ∀ x, ((eulerPropagate M steps (s, st)).2.fields i x).re ^ 2 ≤ 1 + 2 * Real.sqrt E0 := by
  have hpos := pos_of_goodDims h
  obtain ⟨m, M, h1, h2, h3, h4⟩ := c137_energy h hl hg
  refine ⟨m, M, h1, h2, h3, ?_⟩
  intro E0
  set b := Real.sqrt (1 + 2 * Real.sqrt E0) with hb
  have hb0 : 0 ≤ b := Real.sqrt_nonneg _
  have hP1 : (1 : ℝ) ≤ (dims.prod : ℕ) := by
    have := List.prod_pos hpos
    exact_mod_cast this
  set b1 : ℝ := ((dims.prod : ℕ) : ℝ) * (2 * b + b ^ 3) with hb1
  have hbb : b ≤ b1 := by
    have : 0 ≤ b ^ 3 := by positivity
    rw [hb1]
    nlinarith
  have hb10 : 0 ≤ b1 := hb0.trans hbb
  refine ⟨min 1 (2 / (3 * b1 ^ 2 + 1)), lt_min one_pos (by positivity), ?_⟩
  intro s hfreq hfil hdt hle st i hu hE
  have hd1 : s.dt ≤ 1 := hle.trans (min_le_left _ _)
  have hd2 : s.dt * (3 * b1 ^ 2 + 1) ≤ 2 := by
    rw [← le_div_iff₀ (by positivity)]
    exact hle.trans (min_le_right _ _)
  have hvals : ∀ u : Data dims.prod, allenCahnEnergy gamma u ≤ E0 → ∀ x, |(u x).re| ≤ b := fun u hu x =>
    Real.abs_le_sqrt (allenCahnEnergy_bound hg u hu x)
  have one : ∀ s' st', s' = { s with currentStep := Stepper.currentStep s' } → IsReal (Store.fields st' i) →
      allenCahnEnergy gamma (st'.fields i) ≤ E0 → IsReal ((eulerStep M (s', st')).2.fields i) ∧
        allenCahnEnergy gamma ((eulerStep M (s', st')).2.fields i) ≤ allenCahnEnergy gamma (st'.fields i) := by
    intro s' st' e hu' hE'
    have hdt' : s'.dt = s.dt := by rw [e]
    obtain ⟨r1, r2, r3⟩ := h4 s' (by rw [e]; exact hfreq) (by rw [e]; exact hfil) (by rw [hdt']; exact hdt) st' i hu'
    refine ⟨r1, ?_⟩
    have := r2 b1 0 (fun x => (hvals _ hE' x).trans hbb) (fun x => r3 b (by rw [hdt']; exact hd1) (hvals _ hE') x) (by
      rw [hdt']
      nlinarith)
    rw [zero_mul, add_zero] at this
    exact this
  have key : ∀ steps, IsReal ((eulerPropagate M steps (s, st)).2.fields i) ∧
      allenCahnEnergy gamma ((eulerPropagate M steps (s, st)).2.fields i) ≤ E0 := by
    intro steps
    induction steps with
    | zero => exact ⟨hu, hE⟩
    | succ n ih =>
      have e := propagate_stepper M n s st
      rw [propagate_succ]
      generalize eulerPropagate M n (s, st) = q at *
      obtain ⟨s', st'⟩ := q
      dsimp only at *
      obtain ⟨r1, r2⟩ := one s' st' (by rw [e]) ih.1 ih.2
      exact ⟨r1, r2.trans ih.2⟩
  intro steps
  refine ⟨(key steps).1, ?_, fun x => allenCahnEnergy_bound hg _ (key steps).2 x⟩
  obtain ⟨k1, k2⟩ := key steps
  have e := propagate_stepper M steps s st
  rw [propagate_succ]
  generalize eulerPropagate M steps (s, st) = q at *
  obtain ⟨s', st'⟩ := q
  dsimp only at *
  exact (one s' st' (by rw [e]) k1 k2).2

/-! ### Implicit steps -/

/-- How much the explicit part at the end of a step counts, for the rate `-g`. -/
noncomputable def lateWeight (dt g : ℝ) : ℝ :=
  if g < 1 / 10 ^ 5 then dt / 2 else (Real.exp (-(g * dt)) + g * dt - 1) / (g * g * dt)

/-- How much the explicit part at the start of a step counts, for the rate `-g`. -/
noncomputable def earlyWeight (dt g : ℝ) : ℝ :=
  if g < 1 / 10 ^ 5 then dt / 2 * Real.exp (-(g * dt)) else (1 - Real.exp (-(g * dt))) / g - lateWeight dt g

theorem integral_weights {dt g : ℝ} (hdt : 0 < dt) (hg : 0 ≤ g) (r r0 : ℂ) :
    nonlinearIntegral dt ((-g : ℝ) : ℂ) r r0 = lateWeight dt g * r + earlyWeight dt g * r0 := by
  have hn : ‖((-g : ℝ) : ℂ)‖ = g := by rw [Complex.norm_real, Real.norm_eq_abs, abs_neg, abs_of_nonneg hg]
  have he : Complex.exp (((-g : ℝ) : ℂ) * (dt : ℂ)) = ((Real.exp (-(g * dt)) : ℝ) : ℂ) := by
    rw [Complex.ofReal_exp]
    congr 1
    push_cast
    ring
  have hdc : (dt : ℂ) ≠ 0 := by exact_mod_cast hdt.ne'
  unfold nonlinearIntegral earlyWeight lateWeight
  dsimp only
  rw [hn, he]
  split_ifs with hs
  · push_cast
    ring
  · have hg0 : (g : ℂ) ≠ 0 := by
      intro e
      have : g = 0 := by exact_mod_cast e
      rw [this] at hs
      norm_num at hs
    generalize Real.exp (-(g * dt)) = E
    push_cast
    field_simp
    ring

theorem exp_neg_facts {y : ℝ} (hy : 0 < y) : 0 < Real.exp (-y) + y - 1 ∧ 0 < 1 - Real.exp (-y) - y * Real.exp (-y) ∧
    0 < Real.exp (-y) * (2 + y) + y - 2 ∧ Real.exp (-y) + y - 1 ≤ y ^ 2 / 2 := by
  have hmul : Real.exp (-y) * Real.exp y = 1 := by rw [← Real.exp_add]; simp
  have hE : 0 < Real.exp (-y) := Real.exp_pos _
  have h1 := Real.add_one_lt_exp hy.ne'
  have h2 := Real.add_one_lt_exp (neg_ne_zero.mpr hy.ne')
  have h3 := mul_pos hE (Well.denominator_pos hy)
  have h4 := Real.quadratic_le_exp_of_nonneg hy.le
  refine ⟨by linarith, ?_, ?_, ?_⟩
  · have := mul_lt_mul_of_pos_left h1 hE
    rw [hmul] at this
    linarith
  · have e : Real.exp (-y) * (Real.exp y * (y - 2) + y + 2) = (Real.exp (-y) * Real.exp y) * (y - 2) + Real.exp (-y) * (y + 2) := by ring
    rw [e, hmul] at h3
    linarith
  · -- `exp (-y) ≤ 1 - y + y ^ 2 / 2`
    have h5 : (1 - y + y ^ 2 / 2) * (1 + y + y ^ 2 / 2) = 1 + (y ^ 2 / 2) ^ 2 := by ring
    have h6 : 0 ≤ 1 - y + y ^ 2 / 2 := by nlinarith [sq_nonneg (1 - y)]
    have h7 : 1 ≤ (1 - y + y ^ 2 / 2) * Real.exp y := by
      have := mul_le_mul_of_nonneg_left h4 h6
      rw [h5] at this
      nlinarith [sq_nonneg (y ^ 2 / 2)]
    have h8 := mul_le_mul_of_nonneg_left h7 hE.le
    have h9 : Real.exp (-y) * ((1 - y + y ^ 2 / 2) * Real.exp y) = (Real.exp (-y) * Real.exp y) * (1 - y + y ^ 2 / 2) := by ring
    rw [h9, hmul] at h8
    linarith

theorem weights {dt g : ℝ} (hdt : 0 < dt) (hg : 0 ≤ g) :
    0 < lateWeight dt g ∧ lateWeight dt g ≤ dt / 2 ∧ 0 ≤ earlyWeight dt g ∧ earlyWeight dt g ≤ lateWeight dt g ∧
      (earlyWeight dt g = lateWeight dt g → g = 0) := by
  unfold earlyWeight
  by_cases hs : g < 1 / 10 ^ 5
  · have e : lateWeight dt g = dt / 2 := by unfold lateWeight; rw [if_pos hs]
    rw [e, if_pos hs]
    have hE : Real.exp (-(g * dt)) ≤ 1 := Real.exp_le_one_iff.mpr (by have := mul_nonneg hg hdt.le; linarith)
    refine ⟨by linarith, le_rfl, by positivity, by nlinarith, ?_⟩
    intro h1
    have h2 : Real.exp (-(g * dt)) = 1 := by
      have h3 : dt / 2 * Real.exp (-(g * dt)) = dt / 2 * 1 := by rw [h1, mul_one]
      exact mul_left_cancel₀ (by positivity) h3
    rw [Real.exp_eq_one_iff, neg_eq_zero, mul_eq_zero] at h2
    exact h2.resolve_right hdt.ne'
  · rw [if_neg hs]
    have hg0 : 0 < g := lt_of_lt_of_le (by norm_num) (not_lt.mp hs)
    have e : lateWeight dt g = (Real.exp (-(g * dt)) + g * dt - 1) / (g * g * dt) := by unfold lateWeight; rw [if_neg hs]
    obtain ⟨f1, f2, f3, f4⟩ := exp_neg_facts (mul_pos hg0 hdt)
    have hd : 0 < g * g * dt := by positivity
    have e2 : (1 - Real.exp (-(g * dt))) / g - lateWeight dt g =
        (1 - Real.exp (-(g * dt)) - g * dt * Real.exp (-(g * dt))) / (g * g * dt) := by
      rw [e]
      field_simp
      ring
    rw [e2, e]
    refine ⟨div_pos f1 hd, ?_, div_nonneg f2.le hd.le, ?_, ?_⟩
    · rw [div_le_iff₀ hd]
      nlinarith
    · exact div_le_div_of_nonneg_right (by linarith) hd.le
    · intro h1
      rw [div_left_inj' hd.ne'] at h1
      exfalso
      linarith

/-- Multiples of the waves that depend on the wave number only belong to real fields. -/
theorem real_filter (h : GoodDims (intDims dims)) (hl : LayoutOk dims) (f : ℝ → ℝ) (u : Fin dims.prod → ℝ) :
    ∃ e : Fin dims.prod → ℝ, ∀ k, Cubic.waves e k = (f (laplaceNumber dims k) : ℂ) * Cubic.waves u k := by
  have hpos := pos_of_goodDims h
  set Y : Data dims.prod := fun k => (f (laplaceNumber dims k) : ℂ) * Cubic.waves u k with hY
  have hr : IsReal (realSpace Y) := by
    apply real_of_hermitian h hl
    rw [fft_realSpace hpos]
    intro b c hc
    have hx : laplaceNumber dims c = laplaceNumber dims b := by
      have e1 : laplaceSymbol (freqOf dims c) = laplaceSymbol (freqOf dims b) := by unfold laplaceSymbol; rw [freq_sq_conj h hc]
      rw [symbol_laplaceNumber, symbol_laplaceNumber] at e1
      have := neg_injective e1
      exact_mod_cast this
    have hu : IsReal (fun x => (u x : ℂ)) := fun x => by simp
    simp only [hY, hx, map_mul, Complex.conj_ofReal]
    rw [show Cubic.waves u c = (starRingEnd ℂ) (Cubic.waves u b) from hermitian_fft h hl hu b c hc]
  refine ⟨fun x => (realSpace Y x).re, fun k => ?_⟩
  have e : (fun x => (((realSpace Y x).re : ℝ) : ℂ)) = realSpace Y := by
    funext x
    exact Complex.ext (by simp) (by simpa using (hr x).symm)
  unfold Cubic.waves
  rw [e, fft_realSpace hpos]
  rfl

/-- A step in the form of `Cubic`. -/
theorem stability_kept {dt : ℝ} (hdt : 0 < dt) {g : Fin dims.prod → ℝ} (hg : ∀ k, 0 ≤ g k) {a b : Fin dims.prod → ℝ} (k : Fin dims.prod) :
    Cubic.waves b k = Cubic.waves a k * Complex.exp (((-g k : ℝ) : ℂ) * (dt : ℂ)) + nonlinearIntegral dt ((-g k : ℝ) : ℂ)
      (fft dims (fun x => ((b x : ℝ) : ℂ) - ((b x : ℝ) : ℂ) ^ 3) k) (fft dims (fun x => ((a x : ℝ) : ℂ) - ((a x : ℝ) : ℂ) ^ 3) k) ↔
    Cubic.kept (fun k => 1 / lateWeight dt (g k) - 1) b k = Cubic.given
      (fun k => Real.exp (-(g k * dt)) / lateWeight dt (g k) + earlyWeight dt (g k) / lateWeight dt (g k))
      (fun k => earlyWeight dt (g k) / lateWeight dt (g k)) a k := by
  have e1 : ∀ v : Fin dims.prod → ℝ, fft dims (fun x => ((v x : ℝ) : ℂ) - ((v x : ℝ) : ℂ) ^ 3) k =
      Cubic.waves v k - Cubic.waves (Cubic.cube v) k := by
    intro v
    have e : (fun x => ((v x : ℝ) : ℂ) - ((v x : ℝ) : ℂ) ^ 3) = fun x => ((v x : ℝ) : ℂ) + (-1 : ℂ) * ((Cubic.cube v x : ℝ) : ℂ) := by
      funext x
      unfold Cubic.cube
      push_cast
      ring
    rw [e, fft_add, fft_smul]
    unfold Cubic.waves
    ring
  have he : Complex.exp (((-g k : ℝ) : ℂ) * (dt : ℂ)) = ((Real.exp (-(g k * dt)) : ℝ) : ℂ) := by
    rw [Complex.ofReal_exp]
    congr 1
    push_cast
    ring
  have hQ : (lateWeight dt (g k) : ℂ) ≠ 0 := by exact_mod_cast (weights hdt (hg k)).1.ne'
  rw [integral_weights hdt (hg k), e1, e1, he]
  unfold Cubic.kept Cubic.given
  push_cast
  generalize (lateWeight dt (g k) : ℂ) = Q at *
  generalize (earlyWeight dt (g k) : ℂ) = P at *
  generalize Complex.exp (-((g k : ℂ) * (dt : ℂ))) = E at *
  generalize Cubic.waves b k = B at *
  generalize Cubic.waves a k = A at *
  constructor
  · intro hh
    refine mul_left_cancel₀ hQ ?_
    field_simp
    linear_combination hh
  · intro hh
    have := congrArg (fun z => Q * z) hh
    field_simp at this
    linear_combination this

theorem stability_given (h : GoodDims (intDims dims)) (hl : LayoutOk dims) (dt gamma : ℝ) (a : Fin dims.prod → ℝ) :
    ∃ e : Fin dims.prod → ℝ, ∀ k, Cubic.waves e k = Cubic.given
      (fun k => Real.exp (-(gamma * laplaceNumber dims k * dt)) / lateWeight dt (gamma * laplaceNumber dims k) +
        earlyWeight dt (gamma * laplaceNumber dims k) / lateWeight dt (gamma * laplaceNumber dims k))
      (fun k => earlyWeight dt (gamma * laplaceNumber dims k) / lateWeight dt (gamma * laplaceNumber dims k)) a k := by
  obtain ⟨e1, h1⟩ := real_filter h hl (fun x => Real.exp (-(gamma * x * dt)) / lateWeight dt (gamma * x) +
    earlyWeight dt (gamma * x) / lateWeight dt (gamma * x)) a
  obtain ⟨e2, h2⟩ := real_filter h hl (fun x => earlyWeight dt (gamma * x) / lateWeight dt (gamma * x)) (Cubic.cube a)
  refine ⟨e1 + (-1 : ℝ) • e2, fun k => ?_⟩
  rw [Cubic.waves_add, Cubic.waves_smul, h1, h2]
  unfold Cubic.given
  push_cast
  ring

/-- C137: the implicit stepper, with a solver that finds a solution of the step equation when there is one: there is a solution in every
step, whatever the time step, and the runs from all real starts up to any size stay below a bound that depends on neither the
start, nor the number of steps, nor the solver. -/
theorem c137_implicit (h : GoodDims (intDims dims)) (hl : LayoutOk dims) {gamma : ℝ} (hg : 0 ≤ gamma) :
    ∃ (m : EqModel dims.prod) (M : Model m.fields.length m.derived.length dims.prod),
      (stabilityModel dims.prod).addEquation stabilityEquation = some m ∧ m.fields = ["conc".toList] ∧
      m.assemble (stabilityScalars gamma) = some M ∧
      ∀ dt : ℝ, 0 < dt → ∀ R : ℝ, ∃ C : ℝ, ∀ s : Stepper dims.prod, s.dt = dt → s.freq = freqOf dims → s.currentStep = 0 →
      ∀ solve, FindsSolutions (m.fields.length * dims.prod) solve →
      ∀ st : Store m.fields.length m.derived.length dims.prod, (∀ i, IsReal (st.fields i)) → (∀ i x, ‖st.fields i x‖ ≤ R) → ∀ n,
        (∀ idx < m.fields.length * dims.prod, leftOver solve M ((ieStep solve M)^[n] (s, st)) idx = 0) ∧
        ∀ i, IsReal (((ieStep solve M)^[n] (s, st)).2.fields i) ∧ ∀ x, ‖((ieStep solve M)^[n] (s, st)).2.fields i x‖ ≤ C := by
  have hpos := pos_of_goodDims h
  obtain ⟨m, M, h1, h2, h3, hrr, hden, hrhs, -⟩ := stability_model h gamma
  refine ⟨m, M, h1, h2, h3, ?_⟩
  intro dt hdt R
  have hg0 : ∀ k : Fin dims.prod, 0 ≤ gamma * laplaceNumber dims k := fun k => mul_nonneg hg (laplaceNumber_nonneg k)
  set g : Fin dims.prod → ℝ := fun k => gamma * laplaceNumber dims k with hgdef
  set α : Fin dims.prod → ℝ := fun k => 1 / lateWeight dt (g k) - 1 with hα
  set ρ : Fin dims.prod → ℝ := fun k => earlyWeight dt (g k) / lateWeight dt (g k) with hρ
  set β : Fin dims.prod → ℝ := fun k => Real.exp (-(g k * dt)) / lateWeight dt (g k) + earlyWeight dt (g k) / lateWeight dt (g k) with hβ
  have hρ1 : ∀ k, |ρ k| ≤ 1 := by
    intro k
    obtain ⟨w1, -, w3, w4, -⟩ := weights hdt (hg0 k)
    rw [hρ, abs_of_nonneg (div_nonneg w3 w1.le)]
    exact (div_le_one w1).mpr w4
  have hc2 : ∀ k, |ρ k| = 1 → α k + β k * ρ k = 4 / dt := by
    intro k hk
    obtain ⟨w1, -, w3, -, w5⟩ := weights hdt (hg0 k)
    rw [hρ, abs_of_nonneg (div_nonneg w3 w1.le), div_eq_one_iff_eq w1.ne'] at hk
    have hz : g k = 0 := w5 hk
    have e1 : lateWeight dt 0 = dt / 2 := by unfold lateWeight; rw [if_pos (by norm_num)]
    have e2 : earlyWeight dt 0 = dt / 2 := by unfold earlyWeight; rw [if_pos (by norm_num)]; simp
    simp only [hα, hβ, hρ, hz, e1, e2]
    simp only [zero_mul, neg_zero, Real.exp_zero]
    field_simp
    ring
  obtain ⟨C, hC⟩ := Cubic.bounded hpos hρ1 (show (0 : ℝ) < 4 / dt by positivity) hc2 |R|
  refine ⟨C, ?_⟩
  intro s hsdt hfreq hcs solve hsolve st hst hR n
  have hre := run_real solve M s st hst
  have hcast : ∀ w : Data dims.prod, IsReal w → (fun x => (((w x).re : ℝ) : ℂ)) = w := fun w hw => by
    funext x
    exact Complex.ext (by simp) (by simpa using (hw x).symm)
  have hzero : ∀ n, ∀ idx < m.fields.length * dims.prod, leftOver solve M ((ieStep solve M)^[n] (s, st)) idx = 0 := by
    intro n
    have hstp := run_stepper solve M s st n
    have hren := hre n
    generalize (ieStep solve M)^[n] (s, st) = p at hstp hren ⊢
    have hpdt : p.1.dt = dt := by rw [hstp]; exact hsdt
    have hpf : p.1.freq = freqOf dims := by rw [hstp]; exact hfreq
    have hex : ∀ j, ∃ z : Fin dims.prod → ℝ, ∀ k, Cubic.kept α z k = Cubic.given β ρ (fun x => (p.2.fields j x).re) k := by
      intro j
      obtain ⟨e, he⟩ := stability_given h hl dt gamma (fun x => (p.2.fields j x).re)
      obtain ⟨z, hz⟩ := Cubic.exists_kept hpos (α := α) (fun k => by
          have := (weights hdt (hg0 k)).1
          have : 0 < 1 / lateWeight dt (g k) := by positivity
          simp only [hα]
          linarith)
        (real_filter h hl fun x => 1 / lateWeight dt (gamma * x) - 1) e
      exact ⟨z, fun k => (hz k).trans (he k)⟩
    choose z hz using hex
    obtain ⟨v, hv, hv0⟩ := zero_of_step h hl hrr hden p.1 hpf p.2 hren
      (Y' := fun j => fft dims fun x => ((z j x : ℝ) : ℂ))
      (fun j => hermitian_fft h hl (fun x => by simp)) (by
        intro j k
        rw [hrhs, hrhs, realSpace_fft hpos, realSpace_fft hpos, hpdt]
        have := (stability_kept hdt hg0 k).mpr (hz j k)
        unfold Cubic.waves at this
        rw [hcast _ (hren j)] at this
        have e : (fun x => (((p.2.fields j x).re : ℝ) : ℂ) - (((p.2.fields j x).re : ℝ) : ℂ) ^ 3) =
            fun x => p.2.fields j x - p.2.fields j x ^ 3 := by
          funext x
          rw [congrFun (hcast _ (hren j)) x]
        rw [e] at this
        rw [← this]
        simp)
    exact hsolve _ _ ⟨v, hv0⟩
  refine ⟨hzero n, fun i => ⟨hre n i, fun x => ?_⟩⟩
  have hall := hC (fun n x => (((ieStep solve M)^[n] (s, st)).2.fields i x).re) (by
    rw [pi_norm_le_iff_of_nonneg (abs_nonneg _)]
    intro y
    exact ((Complex.abs_re_le_norm _).trans (hR i y)).trans (le_abs_self R)) (by
    intro n k
    have hstep := run_step h hl hrr hden solve s hfreq hcs st hst n le_rfl (fun idx hidx => by rw [hzero n idx hidx]; simp) i k
    rw [hrhs, hrhs, realSpace_fft hpos, realSpace_fft hpos, mul_zero, norm_le_zero_iff, sub_eq_zero, hsdt] at hstep
    refine (stability_kept hdt hg0 k).mp ?_
    unfold Cubic.waves
    have c1 := hcast _ (hre n i)
    have c2 := hcast _ (hre (n + 1) i)
    have d1 := fun x => congrFun c1 x
    have d2 := fun x => congrFun c2 x
    simp only [d1, d2]
    exact hstep) n
  have hx := (norm_le_pi_norm (fun x => (((ieStep solve M)^[n] (s, st)).2.fields i x).re) x).trans hall
  rw [← congrFun (hcast _ (hre n i)) x, Complex.norm_real]
  exact hx

theorem kept_injective (h : ∀ d ∈ dims, 0 < d) {α : Fin dims.prod → ℝ} (hα : ∀ k, 0 ≤ α k) {a b : Fin dims.prod → ℝ}
    (hab : ∀ k, Cubic.kept α a k = Cubic.kept α b k) : a = b := by
  set w : Fin dims.prod → ℝ := a + (-1 : ℝ) • b with hw
  set c : Fin dims.prod → ℝ := Cubic.cube a + (-1 : ℝ) • Cubic.cube b with hc
  have hwv : ∀ k, Cubic.waves w k = Cubic.waves a k - Cubic.waves b k := by
    intro k; rw [hw, Cubic.waves_add, Cubic.waves_smul]; push_cast; ring
  have hcv : ∀ k, Cubic.waves c k = Cubic.waves (Cubic.cube a) k - Cubic.waves (Cubic.cube b) k := by
    intro k; rw [hc, Cubic.waves_add, Cubic.waves_smul]; push_cast; ring
  have hz : ∀ k, Cubic.waves c k = ((-α k : ℝ) : ℂ) * Cubic.waves w k := by
    intro k
    have := hab k
    unfold Cubic.kept at this
    rw [hwv, hcv]
    push_cast
    linear_combination this
  have hd := Cubic.waves_dot h w c
  have hle : ∑ k, (Cubic.waves w k * (starRingEnd ℂ) (Cubic.waves c k)).re ≤ 0 := by
    refine Finset.sum_nonpos fun k _ => ?_
    rw [hz, map_mul, Complex.conj_ofReal, show Cubic.waves w k * (((-α k : ℝ) : ℂ) * (starRingEnd ℂ) (Cubic.waves w k)) =
      ((-α k : ℝ) : ℂ) * (Cubic.waves w k * (starRingEnd ℂ) (Cubic.waves w k)) by ring, Complex.mul_conj, ← Complex.ofReal_mul, Complex.ofReal_re]
    have := mul_nonneg (hα k) (Complex.normSq_nonneg (Cubic.waves w k))
    linarith
  have hwc : ∀ x, w x * c x = (a x - b x) ^ 2 * ((a x + b x / 2) ^ 2 + 3 / 4 * b x ^ 2) := by
    intro x
    simp only [hw, hc, Pi.add_apply, Pi.smul_apply, smul_eq_mul, Cubic.cube]
    ring
  have hnn : ∀ x, 0 ≤ w x * c x := fun x => by rw [hwc]; positivity
  have hs0 : ∑ x, w x * c x = 0 := by
    refine le_antisymm ?_ (Finset.sum_nonneg fun x _ => hnn x)
    rw [hd] at hle
    by_contra hp
    have := mul_pos (Cubic.prod_pos h) (not_le.mp hp)
    linarith
  funext x
  have h0 := (Finset.sum_eq_zero_iff_of_nonneg fun x _ => hnn x).mp hs0 x (Finset.mem_univ x)
  rw [hwc] at h0
  rcases mul_eq_zero.mp h0 with h1 | h1
  · exact sub_eq_zero.mp (pow_eq_zero_iff two_ne_zero |>.mp h1)
  · have hb : b x = 0 := by
      have : b x ^ 2 = 0 := le_antisymm (by nlinarith [sq_nonneg (a x + b x / 2)]) (sq_nonneg _)
      exact pow_eq_zero_iff two_ne_zero |>.mp this
    have ha : (a x + b x / 2) ^ 2 = 0 := le_antisymm (by nlinarith [sq_nonneg (b x)]) (sq_nonneg _)
    rw [pow_eq_zero_iff two_ne_zero, hb] at ha
    rw [hb]
    linarith

/-- C137: up to the time step two the step equation of the implicit stepper has one solution only. -/
theorem c137_unique (h : GoodDims (intDims dims)) (hl : LayoutOk dims) {gamma : ℝ} (hg : 0 ≤ gamma) :
    ∃ (m : EqModel dims.prod) (M : Model m.fields.length m.derived.length dims.prod),
      (stabilityModel dims.prod).addEquation stabilityEquation = some m ∧ m.fields = ["conc".toList] ∧
      m.assemble (stabilityScalars gamma) = some M ∧
      ∀ s : Stepper dims.prod, 0 < s.dt → s.dt ≤ 2 → s.freq = freqOf dims →
      ∀ st : Store m.fields.length m.derived.length dims.prod, (∀ i, IsReal (st.fields i)) → ∀ v w : SolverVec ℝ,
        (∀ idx < m.fields.length * dims.prod, (ieProblem M s st (fun _ => 0)).1 v idx = 0) →
        (∀ idx < m.fields.length * dims.prod, (ieProblem M s st (fun _ => 0)).1 w idx = 0) →
        ∀ idx < m.fields.length * dims.prod, v idx = w idx := by
  have hpos := pos_of_goodDims h
  obtain ⟨m, M, h1, h2, h3, hrr, hden, hrhs, -⟩ := stability_model h gamma
  refine ⟨m, M, h1, h2, h3, ?_⟩
  intro s hdt hle hfreq st hst v w hv hw
  have hg0 : ∀ k : Fin dims.prod, 0 ≤ gamma * laplaceNumber dims k := fun k => mul_nonneg hg (laplaceNumber_nonneg k)
  have hcast : ∀ w : Data dims.prod, IsReal w → (fun x => (((w x).re : ℝ) : ℂ)) = w := fun w hw => by
    funext x
    exact Complex.ext (by simp) (by simpa using (hw x).symm)
  have key : ∀ v : SolverVec ℝ, (∀ idx < m.fields.length * dims.prod, (ieProblem M s st (fun _ => 0)).1 v idx = 0) → ∀ i k,
      Cubic.kept (fun k => 1 / lateWeight s.dt (gamma * laplaceNumber dims k) - 1) (fun x => v (flatIdx (i, x))) k =
        Cubic.given (fun k => Real.exp (-(gamma * laplaceNumber dims k * s.dt)) / lateWeight s.dt (gamma * laplaceNumber dims k) +
            earlyWeight s.dt (gamma * laplaceNumber dims k) / lateWeight s.dt (gamma * laplaceNumber dims k))
          (fun k => earlyWeight s.dt (gamma * laplaceNumber dims k) / lateWeight s.dt (gamma * laplaceNumber dims k))
          (fun x => (st.fields i x).re) k := by
    intro v hv i k
    have hstep := step_of_leftOver h hl hrr hden s hfreq st hst v le_rfl (fun idx hidx => by rw [hv idx hidx]; simp) i k
    rw [hrhs, hrhs, realSpace_fft hpos, realSpace_fft hpos, mul_zero, norm_le_zero_iff, sub_eq_zero] at hstep
    refine (stability_kept hdt hg0 k).mp ?_
    unfold Cubic.waves
    have d1 := fun x => congrFun (hcast _ (hst i)) x
    simp only [d1]
    exact hstep
  intro idx hidx
  obtain ⟨⟨i, x⟩, rfl⟩ := flatIdx_surj hidx
  have hinj := kept_injective hpos (fun k => by
      obtain ⟨w1, w2, -⟩ := weights hdt (hg0 k)
      have : 1 ≤ 1 / lateWeight s.dt (gamma * laplaceNumber dims k) := by
        rw [le_div_iff₀ w1]
        linarith
      linarith)
    (fun k => (key v hv i k).trans (key w hw i k).symm)
  exact congrFun hinj x

/-- C137: above the time step two this is not so: from a field of zeros there are several solutions. Which one the program takes is left
to the solver. -/
theorem c137_several (h : GoodDims (intDims dims)) (hl : LayoutOk dims) {gamma : ℝ} :
    ∃ (m : EqModel dims.prod) (M : Model m.fields.length m.derived.length dims.prod),
      (stabilityModel dims.prod).addEquation stabilityEquation = some m ∧ m.fields = ["conc".toList] ∧
      m.assemble (stabilityScalars gamma) = some M ∧
      ∀ s : Stepper dims.prod, 2 < s.dt → s.freq = freqOf dims →
      ∀ st : Store m.fields.length m.derived.length dims.prod, (∀ i x, st.fields i x = 0) → ∃ v w : SolverVec ℝ,
        (∀ idx < m.fields.length * dims.prod, (ieProblem M s st (fun _ => 0)).1 v idx = 0) ∧
        (∀ idx < m.fields.length * dims.prod, (ieProblem M s st (fun _ => 0)).1 w idx = 0) ∧
        ∀ idx < m.fields.length * dims.prod, v idx ≠ w idx := by
  have hpos := pos_of_goodDims h
  obtain ⟨m, M, h1, h2, h3, hrr, hden, hrhs, -⟩ := stability_model h gamma
  refine ⟨m, M, h1, h2, h3, ?_⟩
  intro s hdt hfreq st hst
  have hst' : ∀ j, st.fields j = fun _ => ((0 : ℝ) : ℂ) := fun j => by funext x; rw [hst]; simp
  have one : ∀ z : ℝ, z * (z ^ 2 - (1 - 2 / s.dt)) = 0 → ∃ v : SolverVec ℝ,
      (∀ idx < m.fields.length * dims.prod, (ieProblem M s st (fun _ => 0)).1 v idx = 0) ∧
        ∀ idx < m.fields.length * dims.prod, v idx = z := by
    intro z hz
    obtain ⟨v, hv, hv0⟩ := zero_of_step h hl hrr hden s hfreq st (fun i x => by rw [hst]; rfl)
      (Y' := fun _ => fft dims fun _ => ((z : ℝ) : ℂ)) (fun j => hermitian_fft h hl (fun x => by simp)) (by
        intro j k
        rw [hrhs, hrhs, realSpace_fft hpos, realSpace_fft hpos]
        simp only [hst', fft_const hpos]
        split_ifs with hk
        · rw [laplace_origin h k hk]
          have hs : ‖(((-(gamma * 0) : ℝ)) : ℂ)‖ < 1 / 10 ^ 5 := by norm_num
          unfold nonlinearIntegral
          dsimp only
          rw [if_pos hs]
          have hd0 : s.dt ≠ 0 := by linarith
          have hz' : z = 1 / 2 * s.dt * (z - z ^ 3) := by
            field_simp at hz
            field_simp
            linear_combination hz
          have hzc : (z : ℂ) = 1 / 2 * (s.dt : ℂ) * ((z : ℂ) - (z : ℂ) ^ 3) := by
            have := congrArg (fun r : ℝ => (r : ℂ)) hz'
            push_cast at this
            exact this
          rw [norm_le_zero_iff, sub_eq_zero]
          simp only [mul_zero, neg_zero, Complex.ofReal_zero, zero_mul, zero_add, Complex.exp_zero, mul_one]
          linear_combination (dims.prod : ℂ) * hzc
        · unfold nonlinearIntegral
          dsimp only
          split_ifs <;> simp)
    refine ⟨v, hv0, fun idx hidx => ?_⟩
    obtain ⟨⟨i, x⟩, rfl⟩ := flatIdx_surj hidx
    have := hv (i, x)
    rw [realSpace_fft hpos] at this
    exact_mod_cast this
  have hp : 0 < 1 - 2 / s.dt := by
    rw [sub_pos, div_lt_one (by linarith)]
    exact hdt
  obtain ⟨v, hv, hv'⟩ := one 0 (by ring)
  obtain ⟨w, hw, hw'⟩ := one (Real.sqrt (1 - 2 / s.dt)) (by rw [Real.sq_sqrt hp.le]; ring)
  refine ⟨v, w, hv, hw, fun idx hidx => ?_⟩
  rw [hv' idx hidx, hw' idx hidx]
  exact (Real.sqrt_pos.mpr hp).ne

/-! ### The hypotheses can be met -/

/-- The constant and the grid of the program; a start that stays bounded with the largest time step the program tries, and one that does
not; a solver. -/
example : 0 ≤ stabilityGamma ∧ GoodDims (intDims [32, 32]) ∧ LayoutOk [32, 32] ∧ (1 : ℝ) ^ 2 ≤ 1 + 2 / (3 / 2) ∧
    1 + 2 / (3 / 2) < (2 : ℝ) ^ 2 ∧ ∃ solve, FindsSolutions (1 * 1024) solve :=
  ⟨by norm_num [stabilityGamma], ⟨by decide, by decide⟩, trivial, by norm_num, by norm_num, findsSolutions_exists _⟩

end Gopf.Props
