import Verif.Props.Instability
import Verif.Props.ConvergeText
import Verif.Props.NucleationRest

/-!
# C159: the stability of the RK4 stepper
-/

namespace Gopf.Props
open Spec Pf Pfutil

variable {n : ℕ} {dims : List ℕ}

/-! ### The specification -/

/-- What a step of the Runge-Kutta method multiplies a wave by, if the implicit part of the equation multiplies it by
`a` and the explicit part by `b`; `α = dt a` and `β = dt b`. -/
def rungeKuttaFactor {K : Type} [Field K] (α β : K) : K :=
  let u2 := (1 + β / 2) / (1 - α / 2)
  let u3 := (1 + β / 2 * u2) / (1 - α / 2)
  let u4 := (1 + β * u3) / (1 - α)
  (1 + β / 6 * (1 + 2 * u2 + 2 * u3 + u4)) / (1 - α)

/-- What a step of the RK4 stepper multiplies the wave `k` of a small perturbation of the uniform state `z` by. -/
noncomputable def rungeKuttaWave (N : Names) (c : Str → ℂ) (freq : Frequency n) (dt : ℝ) (eq : Equation) (z : ℂ)
    (k : Fin n) : ℂ :=
  rungeKuttaFactor (dt * implicitRate N c freq eq k)
    (dt * (linearisedRate N c freq eq z k - implicitRate N c freq eq k))

/-! ### The step as a map of the field -/

/-- The right-hand side without its implicit part, as a map of the field. -/
noncomputable def explicitMap (dims : List ℕ) (terms : List (Data dims.prod × ℕ)) (a : Data dims.prod) (y : Data dims.prod) :
    Data dims.prod :=
  (terms.map fun t => multiplier dims t.1 fun x => y x ^ t.2).sum + multiplier dims (fun k => -a k) y

/-- The state from which a slope is computed. -/
noncomputable def stageMap (dims : List ℕ) (a : Data dims.prod) (c : ℂ) (y k : Data dims.prod) : Data dims.prod :=
  multiplier dims (fun q => 1 / (1 - c * a q)) (y + multiplier dims (fun _ => c) k)

/-- A step of the Runge-Kutta method with the explicit part `E` and the implicit part `a`. -/
noncomputable def rungeKuttaMap (dims : List ℕ) (E : Data dims.prod → Data dims.prod) (a : Data dims.prod) (dt : ℂ)
    (y : Data dims.prod) : Data dims.prod :=
  let y2 := stageMap dims a (dt / 2) y (E y)
  let y3 := stageMap dims a (dt / 2) y (E y2)
  let y4 := stageMap dims a dt y (E y3)
  multiplier dims (fun q => 1 / (1 - dt * a q)) (y + multiplier dims (fun _ => dt / 6)
    (E y + multiplier dims (fun _ => 2) (E y2) + multiplier dims (fun _ => 2) (E y3) + E y4))

theorem fft_explicitMap (h : ∀ d ∈ dims, 0 < d) (terms : List (Data dims.prod × ℕ)) (a y : Data dims.prod)
    (k : Fin dims.prod) : fft dims (explicitMap dims terms a y) k =
      (terms.map fun t => t.1 k * fft dims (fun x => y x ^ t.2) k).sum - a k * fft dims y k := by
  unfold explicitMap
  have := fft_add ((terms.map fun t => multiplier dims t.1 fun x => y x ^ t.2).sum) (multiplier dims (fun k => -a k) y) k
  refine this.trans ?_
  rw [fft_list_sum, List.map_map, fft_multiplier h, neg_mul, ← sub_eq_add_neg]
  congr 2
  apply List.map_congr_left
  intro t _
  exact fft_multiplier h _ _ k

theorem fft_plus (v w : Data dims.prod) (k : Fin dims.prod) : fft dims (v + w) k = fft dims v k + fft dims w k :=
  fft_add v w k

theorem fft_stageMap (h : ∀ d ∈ dims, 0 < d) (a : Data dims.prod) (c : ℂ) (y w : Data dims.prod) (k : Fin dims.prod) :
    fft dims (stageMap dims a c y w) k = (fft dims y k + c * fft dims w k) / (1 - c * a k) := by
  unfold stageMap
  rw [fft_multiplier h, fft_plus, fft_multiplier h]
  ring

theorem multiplier_comp (h : ∀ d ∈ dims, 0 < d) (a b w : Data dims.prod) :
    multiplier dims a (multiplier dims b w) = multiplier dims (fun k => a k * b k) w := by
  apply fft_injective h
  funext k
  rw [fft_multiplier h, fft_multiplier h, fft_multiplier h, mul_assoc]

/-- The first order of a map at a uniform state. -/
def Acts (f : Data dims.prod → Data dims.prod) (φ : Data dims.prod) (z : ℂ) : Prop :=
  HasFDerivAt f (LinearMap.toContinuousLinearMap (multiplier dims φ)) (fun _ => z)

theorem acts_id (h : ∀ d ∈ dims, 0 < d) (z : ℂ) : Acts (dims := dims) (fun y => y) (fun _ => 1) z := by
  refine (hasFDerivAt_id (𝕜 := ℂ) (fun _ : Fin dims.prod => z)).congr_fderiv ?_
  refine ContinuousLinearMap.ext fun w => ?_
  simp only [ContinuousLinearMap.id_apply, LinearMap.coe_toContinuousLinearMap']
  rw [multiplier_one h]

theorem acts_add {f g : Data dims.prod → Data dims.prod} {φ ψ : Data dims.prod} {z : ℂ} (hf : Acts f φ z)
    (hg : Acts g ψ z) : Acts (fun y => f y + g y) (fun k => φ k + ψ k) z := by
  refine (HasFDerivAt.add hf hg).congr_fderiv ?_
  refine ContinuousLinearMap.ext fun w => ?_
  simp only [_root_.add_apply, LinearMap.coe_toContinuousLinearMap']
  rw [multiplier_plus]

theorem acts_multiplier (h : ∀ d ∈ dims, 0 < d) {f : Data dims.prod → Data dims.prod} {φ : Data dims.prod} {z : ℂ}
    (hf : Acts f φ z) (a : Data dims.prod) : Acts (fun y => multiplier dims a (f y)) (fun k => a k * φ k) z := by
  refine ((LinearMap.toContinuousLinearMap (multiplier dims a)).hasFDerivAt.comp _ hf).congr_fderiv ?_
  refine ContinuousLinearMap.ext fun w => ?_
  simp only [ContinuousLinearMap.comp_apply, LinearMap.coe_toContinuousLinearMap']
  rw [multiplier_comp h]

theorem acts_comp (h : ∀ d ∈ dims, 0 < d) {f g : Data dims.prod → Data dims.prod} {φ ψ : Data dims.prod} {z : ℂ}
    (hf : Acts f φ z) (hz : f (fun _ => z) = fun _ => z) (hg : Acts g ψ z) : Acts (fun y => g (f y)) (fun k => ψ k * φ k) z := by
  have hg' : HasFDerivAt g (LinearMap.toContinuousLinearMap (multiplier dims ψ)) (f fun _ => z) := by
    rw [hz]; exact hg
  refine (hg'.comp _ hf).congr_fderiv ?_
  refine ContinuousLinearMap.ext fun w => ?_
  simp only [ContinuousLinearMap.comp_apply, LinearMap.coe_toContinuousLinearMap']
  rw [multiplier_comp h]

theorem acts_stage (h : ∀ d ∈ dims, 0 < d) {f : Data dims.prod → Data dims.prod} {φ : Data dims.prod} {z : ℂ}
    (hf : Acts f φ z) (a : Data dims.prod) (c : ℂ) :
    Acts (fun y => stageMap dims a c y (f y)) (fun k => 1 / (1 - c * a k) * (1 + c * φ k)) z :=
  acts_multiplier h (acts_add (acts_id h z) (acts_multiplier h hf fun _ => c)) _

/-- The derivative of the step at a uniform state that rests. -/
theorem acts_step (h : ∀ d ∈ dims, 0 < d) {E : Data dims.prod → Data dims.prod} {g a : Data dims.prod} {z : ℂ}
    (hE : Acts E g z) (dt : ℂ)
    (h1 : stageMap dims a (dt / 2) (fun _ => z) (E fun _ => z) = fun _ => z)
    (h2 : stageMap dims a dt (fun _ => z) (E fun _ => z) = fun _ => z) :
    Acts (rungeKuttaMap dims E a dt) (fun k => rungeKuttaFactor (dt * a k) (dt * g k)) z := by
  have a2 := acts_stage h hE a (dt / 2)
  have b2 := acts_comp h a2 h1 hE
  have a3 := acts_stage h b2 a (dt / 2)
  have e3 : stageMap dims a (dt / 2) (fun _ => z) (E (stageMap dims a (dt / 2) (fun _ => z) (E fun _ => z))) = fun _ => z := by
    rw [h1, h1]
  have b3 := acts_comp h a3 e3 hE
  have a4 := acts_stage h b3 a dt
  have e4 : stageMap dims a dt (fun _ => z) (E (stageMap dims a (dt / 2) (fun _ => z)
      (E (stageMap dims a (dt / 2) (fun _ => z) (E fun _ => z))))) = fun _ => z := by
    rw [h1, h1, h2]
  have b4 := acts_comp h a4 e4 hE
  have := acts_multiplier h (acts_add (acts_id h z) (acts_multiplier h
    (acts_add (acts_add (acts_add hE (acts_multiplier h b2 fun _ => 2)) (acts_multiplier h b3 fun _ => 2)) b4)
      fun _ => dt / 6)) (fun q => 1 / (1 - dt * a q))
  have e : (fun k => rungeKuttaFactor (dt * a k) (dt * g k)) = fun k => 1 / (1 - dt * a k) *
      (1 + dt / 6 * (g k + 2 * (g k * (1 / (1 - dt / 2 * a k) * (1 + dt / 2 * g k))) +
        2 * (g k * (1 / (1 - dt / 2 * a k) * (1 + dt / 2 * (g k * (1 / (1 - dt / 2 * a k) * (1 + dt / 2 * g k)))))) +
        g k * (1 / (1 - dt * a k) * (1 + dt * (g k * (1 / (1 - dt / 2 * a k) *
          (1 + dt / 2 * (g k * (1 / (1 - dt / 2 * a k) * (1 + dt / 2 * g k)))))))))) := by
    funext k
    unfold rungeKuttaFactor
    dsimp only
    rw [show dt * a k / 2 = dt / 2 * a k by ring]
    ring
  rw [e]
  exact this

theorem rest_step (h : ∀ d ∈ dims, 0 < d) {E : Data dims.prod → Data dims.prod} {a : Data dims.prod} {z : ℂ} (dt : ℂ)
    (h1 : stageMap dims a (dt / 2) (fun _ => z) (E fun _ => z) = fun _ => z)
    (h2 : stageMap dims a dt (fun _ => z) (E fun _ => z) = fun _ => z) :
    rungeKuttaMap dims E a dt (fun _ => z) = fun _ => z := by
  unfold rungeKuttaMap
  dsimp only
  rw [h1, h1, h2]
  refine Eq.trans ?_ h2
  unfold stageMap
  congr 2
  rw [← multiplier_one h (E fun _ => z), multiplier_comp h, multiplier_plus, multiplier_plus, multiplier_plus,
    multiplier_comp h, multiplier_comp h]
  congr 1
  congr 1
  funext k
  ring

/-- The explicit part at a uniform state. -/
theorem acts_explicit (terms : List (Data dims.prod × ℕ)) (h : ∀ d ∈ dims, 0 < d) (a : Data dims.prod) (z : ℂ) :
    Acts (explicitMap dims terms a) (fun k => (terms.map fun t => t.1 k * ((t.2 : ℂ) * z ^ (t.2 - 1))).sum - a k) z := by
  have := acts_add (sum_hasFDerivAt terms z) (acts_multiplier h (acts_id h z) fun k => -a k)
  simp only [mul_one, ← sub_eq_add_neg] at this
  exact this

/-- The terms of an equation: the multiplier in front of each power of the field. -/
noncomputable def valueTerms (N : Names) (c : Str → ℂ) (freq : Frequency n) (eq : Equation) : List (Data n × ℕ) :=
  eq.terms.map fun p => (fun k => coefficient N c p * laplaceSymbol (freq k) ^ (laplacians p.1).sum, degree N p)

theorem valueTerms_linearised (N : Names) (c : Str → ℂ) (freq : Frequency n) (eq : Equation) (z : ℂ) (k : Fin n) :
    ((valueTerms N c freq eq).map fun t => t.1 k * ((t.2 : ℂ) * z ^ (t.2 - 1))).sum = linearisedRate N c freq eq z k := by
  unfold valueTerms linearisedRate
  rw [List.map_map]
  rfl

/-- The states from which the slopes are computed, at a uniform state that rests. -/
theorem stage_rests (h : GoodDims (intDims dims)) (N : Names) (c : Str → ℂ) (eq : Equation) (z : ℂ)
    (hz : uniformRate N c eq z = 0) (dt : ℂ) (hne : ∀ k, 1 - dt * implicitRate N c (freqOf dims) eq k ≠ 0) :
    stageMap dims (implicitRate N c (freqOf dims) eq) dt (fun _ => z)
      (explicitMap dims (valueTerms N c (freqOf dims) eq) (implicitRate N c (freqOf dims) eq) fun _ => z) = fun _ => z := by
  have hpos := pos_of_goodDims h
  apply fft_injective hpos
  funext k
  rw [fft_stageMap hpos, fft_explicitMap hpos, div_eq_iff (hne k)]
  simp only [fft_const hpos]
  have e : ((valueTerms N c (freqOf dims) eq).map fun t => t.1 k *
      (if k.val = 0 then (dims.prod : ℂ) * z ^ t.2 else 0)).sum = 0 := by
    by_cases hk : k.val = 0
    · have e : ((valueTerms N c (freqOf dims) eq).map fun t => t.1 k *
          (if k.val = 0 then (dims.prod : ℂ) * z ^ t.2 else 0)).sum = (dims.prod : ℂ) * uniformRate N c eq z := by
        unfold valueTerms uniformRate
        rw [List.map_map]
        induction eq.terms with
        | nil => simp
        | cons p l ih =>
          rw [List.map_cons, List.sum_cons, List.map_cons, List.sum_cons, mul_add, ← ih]
          congr 1
          simp only [Function.comp_apply, symbol_origin h k hk, if_pos hk]
          split_ifs with hp
          · rw [hp]; ring
          · rw [zero_pow hp]; ring
      rw [e, hz, mul_zero]
    · apply List.sum_eq_zero
      intro y hy
      obtain ⟨t, -, rfl⟩ := List.mem_map.mp hy
      rw [if_neg hk, mul_zero]
  rw [e]
  ring

/-! ### The model built from the text -/

/-- The right-hand side of the model built from an equation, and its implicit part. -/
theorem text_rates (h : ∀ d ∈ dims, 0 < d) (N : Names) (hN : N.WellNamed) (f : Str)
    (m0 : EqModel dims.prod) (h0 : StartsAs N m0) (heq : m0.equations = [])
    (eq : Equation) (hone : OneField N f eq) (hq : eq.Polynomial N ∧ Unregistered m0 eq)
    (s0 : Str) (hs : s0.filter (fun c => c ≠ ' ') = eq.text) (c : Str → ℂ) :
    ∃ m M, m0.addEquation s0 = some m ∧ m.fields = [f] ∧ m.assemble c = some M ∧ FieldsOnly M ∧
      (∀ i st freq t, M.getDenum i st freq t = implicitRate N c freq eq) ∧
      ∀ freq t Y i, slope M freq t Y i = fft dims (explicitMap dims (valueTerms N c freq eq) (implicitRate N c freq eq)
        (realSpace (Y i))) := by
  have hder : m0.derived = [] := by
    have := h0.functions
    rw [hone.functions] at this
    exact List.map_eq_nil_iff.mp this
  have hfun : ∀ p ∈ m0.derived, ReadsFields N p.2 := by rw [hder]; simp
  have hqs : ∀ e ∈ [eq], e.Polynomial N ∧ Unregistered m0 e := by
    intro e he; obtain rfl := List.mem_singleton.mp he; exact hq
  have hss : [s0].map (fun s => s.filter fun c => c ≠ ' ') = [eq].map Equation.text := by simpa using hs
  obtain ⟨m, hadd, hg, -, ⟨l, hl, -⟩, -⟩ := add_all hN [eq] [s0] m0 (grown_start hN h0) hqs hss
  obtain ⟨m', Rs, hadd', hinit, hall⟩ := initRHS_shape N hN m0 h0 heq [eq] hqs [s0] hss
  obtain ⟨m'', Rs', hadd'', hinit', hall'⟩ := c19_equation N hN m0 h0 heq [eq] hqs [s0] hss
  rw [hadd] at hadd' hadd''
  obtain rfl := Option.some.inj hadd'
  obtain rfl := Option.some.inj hadd''
  rw [hinit] at hinit'
  obtain rfl := Option.some.inj hinit'
  have h2 : m.fields = [f] := by rw [hg.fields, hone.fields]
  have hlen : m.fields.length = 1 := by rw [h2]; rfl
  have hRlen : m.fields.length ≤ Rs.length := by rw [← hall.length_eq, hlen]; rfl
  have hadd1 : m0.addEquation s0 = some m := by
    simpa [List.foldlM_cons, List.foldlM_nil] using hadd
  refine ⟨m, _, hadd1, h2, by rw [EqModel.assemble, hinit]; simp only [dif_pos hRlen]; rfl, ?_⟩
  set M : Model m.fields.length m.derived.length dims.prod :=
    { calcs := fun d st => (m.derived[d]).2.eval (m.brick c st)
      terms := fun i => (Rs[i]'(i.2.trans_le hRlen)).terms.map fun f st => f (m.brick c st)
      denum := fun i => (Rs[i]'(i.2.trans_le hRlen)).denum.map fun f st => f (m.brick c st)
      sources := fun _ => []
      modifiers := [] } with hM
  have hR : ∀ i st freq t k, M.getRHS i st freq t k =
      ((Rs[i.val]'(i.2.trans_le hRlen)).terms.map fun f => f (m.brick c st) freq t k).sum := by
    intro i st freq t k
    rw [c21_rhs]
    simp [hM, Function.comp_def]
  have hD : ∀ i st freq t k, M.getDenum i st freq t k =
      ((Rs[i.val]'(i.2.trans_le hRlen)).denum.map fun f => f (m.brick c st) freq t k).sum := by
    intro i st freq t k
    rw [c21_denum]
    simp [hM, Function.comp_def]
  have hi0 : ∀ i : Fin m.fields.length, i.val = 0 := fun i => by have := i.2; omega
  have hij : ∀ i j : Fin m.fields.length, j = i := fun i j => Fin.ext (by rw [hi0, hi0])
  have hget : ∀ j : Fin m.fields.length, m.fields[j] = f := by
    intro j
    have : m.fields[j] ∈ m.fields := List.getElem_mem j.2
    generalize m.fields[j] = a at this
    rw [h2] at this
    simpa using this
  have hfield : eq.field = f := by
    have := hq.1.field
    rw [hone.fields] at this
    simpa using this
  have hv : N.varying = [f] := by rw [Names.varying, hone.fields, hone.functions]; rfl
  have hfs : f ∉ N.scalars := by
    intro hm
    have := hN.nodup
    rw [Names.all, List.nodup_append] at this
    exact this.2.2 f (by rw [hv]; simp) f hm rfl
  have hlt : ∀ i : Fin m.fields.length, i.val < [eq].length := fun i => by rw [hi0 i]; simp
  have hge : ∀ i : Fin m.fields.length, [eq][i.val]'(hlt i) = eq := fun i => by simp
  have hshape := fun i : Fin m.fields.length =>
    (List.forall₂_iff_get.mp hall).2 i.val (hlt i) (i.2.trans_le hRlen)
  have hval := fun i : Fin m.fields.length =>
    (List.forall₂_iff_get.mp hall').2 i.val (hlt i) (i.2.trans_le hRlen)
  simp only [List.get_eq_getElem, hge] at hshape hval
  have hFO : FieldsOnly M := by
    intro d st st' hst
    refine calc_reads hg hfun (List.getElem_mem d.2) _ _ ?_ ?_
    · intro x hx
      rw [← hg.fields] at hx
      obtain ⟨j, hj, rfl⟩ := List.getElem_of_mem hx
      exact (brick_field hN hg ⟨j, hj⟩ c st).trans
        ((congrFun hst ⟨j, hj⟩).trans (brick_field hN hg ⟨j, hj⟩ c st').symm)
    · intro x hx
      rw [brick_scalar hN hg hx, brick_scalar hN hg hx]
  have hA : ∀ i st freq t, M.getDenum i st freq t = implicitRate N c freq eq := by
    intro i st freq t
    funext k
    rw [hD, (hshape i).2]
    exact implicit_eq N c _ (fun x hx => brick_scalar hN hg hx c st) freq eq k
  refine ⟨hFO, hA, ?_⟩
  intro freq t Y i
  funext k
  rw [fft_explicitMap h]
  set y : Data dims.prod := realSpace (Y i) with hy
  have hYy : ∀ j, fft dims y = Y j := by
    intro j
    rw [hy, hij i j]
    exact fft_surjective h (Y i)
  let u : Str → Data dims.prod := fun x => if x = f then y else fun _ => c x
  have huf : u f = y := by simp [u]
  have hus : ∀ x ∈ N.scalars, u x = fun _ => c x := by
    intro x hx
    have : x ≠ f := fun e => hfs (e ▸ hx)
    simp [u, this]
  set st : Store m.fields.length m.derived.length dims.prod := ⟨fun j => realSpace (Y j), fun _ _ => 0⟩ with hst
  set before : Store m.fields.length m.derived.length dims.prod :=
    ⟨Y, fun d => fft dims (M.calcs d st)⟩ with hbefore
  have hu : ∀ j : Fin m.fields.length, u m.fields[j] = st.fields j := by
    intro j
    rw [hget, huf, hij i j]
  obtain ⟨hb1, hb2⟩ := brick_congr hN hg hu hus
  have hcalc : ∀ d : Fin m.derived.length, M.calcs d st = (m.derived[d]).2.eval u := fun d =>
    calc_reads hg hfun (List.getElem_mem d.2) _ _ hb1 hb2
  have htr : Transformed N m (fft dims) u (m.brick c before) := by
    refine ⟨?_, ?_, ?_, ?_⟩
    · intro x hx
      rw [← hg.fields] at hx
      obtain ⟨j, hj, rfl⟩ := List.getElem_of_mem hx
      refine (brick_field hN hg ⟨j, hj⟩ c before).trans ?_
      have := hu ⟨j, hj⟩
      refine Eq.trans ?_ (congrArg (fft dims) this.symm)
      exact (fft_surjective h (Y ⟨j, hj⟩)).symm
    · intro x hx
      rw [brick_scalar hN hg hx, hus x hx]
    · intro p hp
      obtain ⟨d, hd, rfl⟩ := List.getElem_of_mem hp
      exact (brick_derived hN hg ⟨d, hd⟩ c before).trans (congrArg (fft dims) (hcalc ⟨d, hd⟩))
    · intro p hp hpf
      rw [hone.functions] at hpf
      simp at hpf
  have hsum := hval i (fft dims) (fun x => divRealScalar (ifft dims x) (dims.prod : ℕ))
    ⟨fun a b => by funext k; exact fft_add a b k, fun a b => by funext k; exact fft_smul a b k⟩
    (fun x => fft_divided h x) c u hus _ htr freq t k
  rw [← hR i before freq t k, ← hD i before freq t k, hA, hfield, huf, fft_value h] at hsum
  have hvals : (eq.terms.map fun p : List Item × Option Char => coefficient N c p *
        laplaceSymbol (freq k) ^ (laplacians p.1).sum * fft dims (productValue (factorsIn N.varying p.1) u) k).sum =
      ((valueTerms N c freq eq).map fun t => t.1 k * fft dims (fun x => y x ^ t.2) k).sum := by
    unfold valueTerms
    rw [List.map_map]
    congr 1
    apply List.map_congr_left
    intro p hp
    rw [productValue_power hv (hone.powers p hp) u _ huf]
    rfl
  rw [hvals] at hsum
  have : slope M freq t Y i k = M.getRHS i before freq t k := rfl
  rw [this, ← hsum]
  ring

/-- A step of the RK4 stepper as a map of the field. -/
theorem text_rungeKutta (h : ∀ d ∈ dims, 0 < d) (N : Names) (hN : N.WellNamed) (f : Str)
    (m0 : EqModel dims.prod) (h0 : StartsAs N m0) (heq : m0.equations = [])
    (eq : Equation) (hone : OneField N f eq) (hq : eq.Polynomial N ∧ Unregistered m0 eq)
    (s0 : Str) (hs : s0.filter (fun c => c ≠ ' ') = eq.text) (c : Str → ℂ) :
    ∃ m M, m0.addEquation s0 = some m ∧ m.fields = [f] ∧ m.assemble c = some M ∧
      ∀ s : Stepper dims.prod, s.filter = none →
      ∀ (st : Store m.fields.length m.derived.length dims.prod) (i : Fin m.fields.length),
        (rk4Step M (s, st)).2.fields i = rungeKuttaMap dims
          (explicitMap dims (valueTerms N c s.freq eq) (implicitRate N c s.freq eq)) (implicitRate N c s.freq eq)
          (s.dt : ℂ) (st.fields i) := by
  obtain ⟨m, M, h1, h2, h3, h4, h5, h6⟩ := text_rates h N hN f m0 h0 heq eq hone hq s0 hs c
  refine ⟨m, M, h1, h2, h3, ?_⟩
  intro s hfil st i
  apply fft_injective h
  have key := congrFun (c111_scheme h M h4 (fun _ => implicitRate N c s.freq eq) s hfil
    (fun i st => h5 i st s.freq _) st) i
  rw [key]
  set a := implicitRate N c s.freq eq with ha
  set E := explicitMap dims (valueTerms N c s.freq eq) a with hE
  -- the stages
  have hst : ∀ (dt : ℂ) (Y K : Fin m.fields.length → Data dims.prod) (y w : Data dims.prod), Y i = fft dims y → K i = fft dims w →
      ((Y + dt • K) / (1 - dt • fun _ => a) : Fin m.fields.length → Data dims.prod) i = fft dims (stageMap dims a dt y w) := by
    intro dt Y K y w e1 e2
    funext k
    rw [fft_stageMap h, ← e1, ← e2]
    rfl
  have hsl : ∀ (Y : Fin m.fields.length → Data dims.prod) (y : Data dims.prod), Y i = fft dims y →
      slope M s.freq (s.currentStep * s.dt) Y i = fft dims (E y) := by
    intro Y y e
    rw [h6, e, realSpace_fft h]
  have hY : (fun i => fft dims (st.fields i)) i = fft dims (st.fields i) := rfl
  generalize (fun i => fft dims (st.fields i)) = Y at hY
  unfold rungeKutta4Implicit rungeKuttaMap
  dsimp only
  have k1 := hsl Y _ hY
  generalize slope M s.freq (s.currentStep * s.dt) Y = K1 at k1
  have k2 := hsl _ _ (hst ((s.dt : ℂ) / 2) Y K1 _ _ hY k1)
  generalize slope M s.freq (s.currentStep * s.dt) ((Y + ((s.dt : ℂ) / 2) • K1) / (1 - ((s.dt : ℂ) / 2) • fun _ => a)) = K2 at k2
  have k3 := hsl _ _ (hst ((s.dt : ℂ) / 2) Y K2 _ _ hY k2)
  generalize slope M s.freq (s.currentStep * s.dt) ((Y + ((s.dt : ℂ) / 2) • K2) / (1 - ((s.dt : ℂ) / 2) • fun _ => a)) = K3 at k3
  have k4 := hsl _ _ (hst (s.dt : ℂ) Y K3 _ _ hY k3)
  generalize slope M s.freq (s.currentStep * s.dt) ((Y + (s.dt : ℂ) • K3) / (1 - (s.dt : ℂ) • fun _ => a)) = K4 at k4
  funext k
  simp only [fft_multiplier h, fft_plus, ← k1, ← k2, ← k3, ← k4, ← hY]
  simp only [Pi.div_apply, Pi.add_apply, Pi.sub_apply, Pi.smul_apply, Pi.one_apply, smul_eq_mul]
  ring

/-- The steps of the RK4 stepper. -/
theorem rk4Propagate_iterate {nf nd : ℕ} {M : Model nf nd dims.prod} {i : Fin nf} {F : Data dims.prod → Data dims.prod}
    {s : Stepper dims.prod} (hF : ∀ s' : Stepper dims.prod, s'.dt = s.dt → s'.freq = s.freq → s'.filter = s.filter →
      ∀ st, (rk4Step M (s', st)).2.fields i = F (st.fields i)) (st : Store nf nd dims.prod) (steps : ℕ) :
    (rk4Propagate M steps (s, st)).2.fields i = F^[steps] (st.fields i) := by
  induction steps with
  | zero => simp [rk4Propagate]
  | succ j ih =>
    rw [rk4_succ, Function.iterate_succ_apply', ← ih]
    have e := rk4_stepper M j s st
    generalize rk4Propagate M j (s, st) = p at e
    obtain ⟨p1, p2⟩ := p
    dsimp only at e ⊢
    exact hF p1 (by rw [e]) (by rw [e]) (by rw [e]) p2

/-- The step at a uniform state that rests. -/
theorem text_acts (h : GoodDims (intDims dims)) (N : Names) (c : Str → ℂ) (eq : Equation) (z : ℂ)
    (hz : uniformRate N c eq z = 0) (dt : ℝ) (hne : ∀ k, 1 - dt * implicitRate N c (freqOf dims) eq k ≠ 0)
    (hne2 : ∀ k, 1 - dt / 2 * implicitRate N c (freqOf dims) eq k ≠ 0) :
    Acts (rungeKuttaMap dims (explicitMap dims (valueTerms N c (freqOf dims) eq) (implicitRate N c (freqOf dims) eq))
      (implicitRate N c (freqOf dims) eq) dt) (rungeKuttaWave N c (freqOf dims) dt eq z) z ∧
    rungeKuttaMap dims (explicitMap dims (valueTerms N c (freqOf dims) eq) (implicitRate N c (freqOf dims) eq))
      (implicitRate N c (freqOf dims) eq) dt (fun _ => z) = fun _ => z := by
  have hpos := pos_of_goodDims h
  have h1 := stage_rests h N c eq z hz (dt / 2) hne2
  have h2 := stage_rests h N c eq z hz dt hne
  refine ⟨?_, rest_step hpos _ h1 h2⟩
  have hE := acts_explicit (valueTerms N c (freqOf dims) eq) hpos (implicitRate N c (freqOf dims) eq) z
  simp only [valueTerms_linearised] at hE
  exact acts_step hpos hE dt h1 h2

/-- C159: a uniform state of which the equation says that it rests does rest with the RK4 stepper. A small perturbation
of it is, to first order, taken by the steps wave by wave: each step multiplies the wave `k` by the factor of the
Runge-Kutta method for its implicit and its explicit rate. -/
theorem c159_waves (h : GoodDims (intDims dims)) (N : Names) (hN : N.WellNamed) (f : Str)
    (m0 : EqModel dims.prod) (h0 : StartsAs N m0) (heq : m0.equations = [])
    (eq : Equation) (hone : OneField N f eq) (hq : eq.Polynomial N ∧ Unregistered m0 eq)
    (s0 : Str) (hs : s0.filter (fun c => c ≠ ' ') = eq.text) (c : Str → ℂ) :
    ∃ m M, m0.addEquation s0 = some m ∧ m.fields = [f] ∧ m.assemble c = some M ∧
      ∀ z, uniformRate N c eq z = 0 → ∀ s : Stepper dims.prod, s.filter = none → s.freq = freqOf dims →
      (∀ k, 1 - s.dt * implicitRate N c (freqOf dims) eq k ≠ 0) →
      (∀ k, 1 - s.dt / 2 * implicitRate N c (freqOf dims) eq k ≠ 0) →
      ∀ (y : ℂ → Store m.fields.length m.derived.length dims.prod) (v : Data dims.prod) (i : Fin m.fields.length),
        (∀ x, (y 0).fields i x = z) → (∀ x, HasDerivAt (fun ε => (y ε).fields i x) (v x) 0) → ∀ steps,
        (∀ x, (rk4Propagate M steps (s, y 0)).2.fields i x = z) ∧
        ∃ w : Data dims.prod, (∀ x, HasDerivAt (fun ε => (rk4Propagate M steps (s, y ε)).2.fields i x) (w x) 0) ∧
          ∀ k, fft dims w k = rungeKuttaWave N c (freqOf dims) s.dt eq z k ^ steps * fft dims v k := by
  have hpos := pos_of_goodDims h
  obtain ⟨m, M, h1, h2, h3, h4⟩ := text_rungeKutta hpos N hN f m0 h0 heq eq hone hq s0 hs c
  refine ⟨m, M, h1, h2, h3, ?_⟩
  intro z hz s hfil hfreq hne hne2 y v i hy hv steps
  obtain ⟨hD, hfix⟩ := text_acts h N c eq z hz s.dt hne hne2
  set F := rungeKuttaMap dims (explicitMap dims (valueTerms N c (freqOf dims) eq) (implicitRate N c (freqOf dims) eq))
      (implicitRate N c (freqOf dims) eq) s.dt with hFdef
  have hF : ∀ s' : Stepper dims.prod, s'.dt = s.dt → s'.freq = s.freq → s'.filter = s.filter →
      ∀ st, (rk4Step M (s', st)).2.fields i = F (st.fields i) := by
    intro s' a b d st
    rw [h4 s' (by rw [d, hfil]) st i, a, b, hfreq]
  simp only [rk4Propagate_iterate hF]
  induction steps with
  | zero => exact ⟨hy, v, hv, fun k => by simp⟩
  | succ j ih =>
    obtain ⟨a, w, b, d⟩ := ih
    simp only [Function.iterate_succ_apply']
    have ha : F^[j] ((y 0).fields i) = fun _ => z := funext a
    refine ⟨fun x => by rw [ha, hfix], multiplier dims (rungeKuttaWave N c (freqOf dims) s.dt eq z) w, ?_, ?_⟩
    · have hcurve : HasDerivAt (fun ε => F^[j] ((y ε).fields i)) w 0 := hasDerivAt_pi.mpr b
      have hD' : HasFDerivAt F (LinearMap.toContinuousLinearMap (multiplier dims
          (rungeKuttaWave N c (freqOf dims) s.dt eq z))) (F^[j] ((y 0).fields i)) := by rw [ha]; exact hD
      have := hD'.comp_hasDerivAt (0 : ℂ) hcurve
      exact fun x => hasDerivAt_pi.mp this x
    · intro k
      rw [fft_multiplier hpos, d k, pow_succ]
      ring

/-- The common part of the two theorems on stability. -/
theorem stable_rungeKutta (h : GoodDims (intDims dims)) (N : Names) (hN : N.WellNamed) (f : Str)
    (m0 : EqModel dims.prod) (h0 : StartsAs N m0) (heq : m0.equations = [])
    (eq : Equation) (hone : OneField N f eq) (hq : eq.Polynomial N ∧ Unregistered m0 eq)
    (s0 : Str) (hs : s0.filter (fun c => c ≠ ' ') = eq.text) (c : Str → ℂ) :
    ∃ m M, m0.addEquation s0 = some m ∧ m.fields = [f] ∧ m.assemble c = some M ∧
      ∀ z, uniformRate N c eq z = 0 → ∀ s : Stepper dims.prod, s.filter = none → s.freq = freqOf dims →
      (∀ k, 1 - s.dt * implicitRate N c (freqOf dims) eq k ≠ 0) →
      (∀ k, 1 - s.dt / 2 * implicitRate N c (freqOf dims) eq k ≠ 0) →
      ∀ Z : Set (Fin dims.prod), (∀ k, k ∉ Z → ‖rungeKuttaWave N c (freqOf dims) s.dt eq z k‖ < 1) →
      (∀ k ∈ Z, ∀ p ∈ eq.terms, laplaceSymbol (freqOf dims k) ^ (laplacians p.1).sum = 0) →
      ∃ δ C q : ℝ, 0 < δ ∧ q < 1 ∧ 0 ≤ q ∧ ∀ (st : Store m.fields.length m.derived.length dims.prod)
        (i : Fin m.fields.length), (∀ x, ‖st.fields i x - z‖ < δ) →
        (∀ k ∈ Z, fft dims (st.fields i - fun _ => z) k = 0) →
        ∀ steps x, ‖(rk4Propagate M steps (s, st)).2.fields i x - z‖ ≤ C * q ^ steps := by
  have hpos := pos_of_goodDims h
  obtain ⟨m, M, h1, h2, h3, h4⟩ := text_rungeKutta hpos N hN f m0 h0 heq eq hone hq s0 hs c
  refine ⟨m, M, h1, h2, h3, ?_⟩
  intro z hz s hfil hfreq hne hne2 Z hφ hZ
  obtain ⟨hD, hfix⟩ := text_acts h N c eq z hz s.dt hne hne2
  set a := implicitRate N c (freqOf dims) eq with hadef
  set E := explicitMap dims (valueTerms N c (freqOf dims) eq) a with hEdef
  set F := rungeKuttaMap dims E a s.dt with hFdef
  have hF : ∀ (i : Fin m.fields.length) (s' : Stepper dims.prod), s'.dt = s.dt → s'.freq = s.freq →
      s'.filter = s.filter → ∀ st, (rk4Step M (s', st)).2.fields i = F (st.fields i) := by
    intro i s' a' b d st
    rw [h4 s' (by rw [d, hfil]) st i, a', b, hfreq]
  have ha0 : ∀ k ∈ Z, a k = 0 := by
    intro k hk
    rw [hadef]
    unfold implicitRate
    apply List.sum_eq_zero
    intro y hy
    obtain ⟨p, hp, rfl⟩ := List.mem_map.mp hy
    rw [hZ k hk p hp]
    simp
  have hE0 : ∀ (y : Data dims.prod), ∀ k ∈ Z, fft dims (E y) k = 0 := by
    intro y k hk
    rw [hEdef, fft_explicitMap hpos, ha0 k hk, List.sum_eq_zero]
    · ring
    · intro v hv
      obtain ⟨t, ht, rfl⟩ := List.mem_map.mp hv
      obtain ⟨p, hp, rfl⟩ := List.mem_map.mp ht
      dsimp only
      rw [hZ k hk p hp]
      simp
  have hF0 : ∀ (y : Data dims.prod), ∀ k ∈ Z, fft dims (F y) k = fft dims y k := by
    intro y k hk
    rw [hFdef]
    unfold rungeKuttaMap
    simp only [fft_multiplier hpos, fft_plus, hE0 _ k hk, ha0 k hk]
    simp
  have esub : ∀ (w : Data dims.prod) k, fft dims (w - fun _ => z) k = fft dims w k - fft dims (fun _ => z) k := by
    intro w k
    have := fft_add (w - fun _ => z) (fun _ => z) k
    have e2 : (fun j => (w - fun _ => z : Data dims.prod) j + z) = w := by funext j; simp
    rw [e2] at this
    rw [this]
    ring
  obtain ⟨q, hq0, hq1, hqb⟩ := uniform_bound (rungeKuttaWave N c (freqOf dims) s.dt eq z) Z hφ
  obtain ⟨δ, C, hδ, hall⟩ := attraction hpos hD hfix (q := q) (q' := (q + 1) / 2) (by linarith) (by linarith) hq0 Z hqb
    (by
      intro y hy k hk
      rw [esub, hF0 y k hk, ← esub]
      exact hy k hk)
  refine ⟨δ, C, (q + 1) / 2, hδ, by linarith, by linarith, ?_⟩
  intro st i hst hstZ steps x
  rw [rk4Propagate_iterate (hF i)]
  exact hall _ hst hstZ steps x

/-- C159: if all these factors are less than one in modulus, fields that are everywhere close enough to the uniform
state converge to it, exponentially in the number of steps. -/
theorem c159_stable (h : GoodDims (intDims dims)) (N : Names) (hN : N.WellNamed) (f : Str)
    (m0 : EqModel dims.prod) (h0 : StartsAs N m0) (heq : m0.equations = [])
    (eq : Equation) (hone : OneField N f eq) (hq : eq.Polynomial N ∧ Unregistered m0 eq)
    (s0 : Str) (hs : s0.filter (fun c => c ≠ ' ') = eq.text) (c : Str → ℂ) :
    ∃ m M, m0.addEquation s0 = some m ∧ m.fields = [f] ∧ m.assemble c = some M ∧
      ∀ z, uniformRate N c eq z = 0 → ∀ s : Stepper dims.prod, s.filter = none → s.freq = freqOf dims →
      (∀ k, 1 - s.dt * implicitRate N c (freqOf dims) eq k ≠ 0) →
      (∀ k, 1 - s.dt / 2 * implicitRate N c (freqOf dims) eq k ≠ 0) →
      (∀ k, ‖rungeKuttaWave N c (freqOf dims) s.dt eq z k‖ < 1) →
      ∃ δ C q : ℝ, 0 < δ ∧ q < 1 ∧ 0 ≤ q ∧ ∀ (st : Store m.fields.length m.derived.length dims.prod)
        (i : Fin m.fields.length), (∀ x, ‖st.fields i x - z‖ < δ) →
        ∀ steps x, ‖(rk4Propagate M steps (s, st)).2.fields i x - z‖ ≤ C * q ^ steps := by
  obtain ⟨m, M, h1, h2, h3, h4⟩ := stable_rungeKutta h N hN f m0 h0 heq eq hone hq s0 hs c
  refine ⟨m, M, h1, h2, h3, ?_⟩
  intro z hz s hfil hfreq hne hne2 hφ
  obtain ⟨δ, C, q, a, b, b', d⟩ := h4 z hz s hfil hfreq hne hne2 ∅ (fun k _ => hφ k) (by simp)
  exact ⟨δ, C, q, a, b, b', fun st i hst => d st i hst (by simp)⟩

/-- C159: if every term has a Laplacian and the factors of all waves except the uniform one are less than one in
modulus, fields close enough to a uniform state with the same mean converge to it. -/
theorem c159_conserved (h : GoodDims (intDims dims)) (N : Names) (hN : N.WellNamed) (f : Str)
    (m0 : EqModel dims.prod) (h0 : StartsAs N m0) (heq : m0.equations = [])
    (eq : Equation) (hone : OneField N f eq) (hq : eq.Polynomial N ∧ Unregistered m0 eq) (hdiv : Equation.Divergence eq)
    (s0 : Str) (hs : s0.filter (fun c => c ≠ ' ') = eq.text) (c : Str → ℂ) :
    ∃ m M, m0.addEquation s0 = some m ∧ m.fields = [f] ∧ m.assemble c = some M ∧
      ∀ (z : ℂ) (s : Stepper dims.prod), s.filter = none → s.freq = freqOf dims →
      (∀ k, 1 - s.dt * implicitRate N c (freqOf dims) eq k ≠ 0) →
      (∀ k, 1 - s.dt / 2 * implicitRate N c (freqOf dims) eq k ≠ 0) →
      (∀ k : Fin dims.prod, k.val ≠ 0 → ‖rungeKuttaWave N c (freqOf dims) s.dt eq z k‖ < 1) →
      ∃ δ C q : ℝ, 0 < δ ∧ q < 1 ∧ 0 ≤ q ∧ ∀ (st : Store m.fields.length m.derived.length dims.prod)
        (i : Fin m.fields.length), (∀ x, ‖st.fields i x - z‖ < δ) → ∑ x, st.fields i x = ∑ _x : Fin dims.prod, z →
        ∀ steps x, ‖(rk4Propagate M steps (s, st)).2.fields i x - z‖ ≤ C * q ^ steps := by
  obtain ⟨m, M, h1, h2, h3, h4⟩ := stable_rungeKutta h N hN f m0 h0 heq eq hone hq s0 hs c
  refine ⟨m, M, h1, h2, h3, ?_⟩
  intro z s hfil hfreq hne hne2 hφ
  have hz : uniformRate N c eq z = 0 := by
    apply List.sum_eq_zero
    intro y hy
    obtain ⟨p, hp, rfl⟩ := List.mem_map.mp hy
    rw [if_neg (hdiv p hp)]
  obtain ⟨δ, C, q, a, b, b', d⟩ := h4 z hz s hfil hfreq hne hne2 {k | k.val = 0} (fun k hk => hφ k hk) (by
    intro k hk p hp
    rw [symbol_origin h k hk, zero_pow (hdiv p hp)])
  refine ⟨δ, C, q, a, b, b', fun st i hst hsum => d st i hst ?_⟩
  intro k hk
  rw [fft_zero_bin _ k hk]
  simp only [Pi.sub_apply, Finset.sum_sub_distrib, hsum, sub_self]

theorem wave_conj (h : GoodDims (intDims dims)) (N : Names) (c : Str → ℂ) (dt : ℝ) (eq : Equation) (z : ℂ)
    {b b' : Fin dims.prod} (hb : conjugateNode (intDims dims) (b.val : Int) = some (b'.val : Int)) :
    rungeKuttaWave N c (freqOf dims) dt eq z b' = rungeKuttaWave N c (freqOf dims) dt eq z b := by
  have e : laplaceSymbol (freqOf dims b') = laplaceSymbol (freqOf dims b) := by
    rw [symbol_laplaceNumber, symbol_laplaceNumber, laplaceNumber, laplaceNumber, freq_sq_conj h hb]
  unfold rungeKuttaWave linearisedRate implicitRate
  rw [e]

/-- C159: if some factor is larger than one in modulus, real fields that are as close to the uniform state as one
likes, and in which only waves are there that grow, leave it. -/
theorem c159_leaves (h : GoodDims (intDims dims)) (hl : LayoutOk dims) (N : Names) (hN : N.WellNamed) (f : Str)
    (m0 : EqModel dims.prod) (h0 : StartsAs N m0) (heq : m0.equations = [])
    (eq : Equation) (hone : OneField N f eq) (hq : eq.Polynomial N ∧ Unregistered m0 eq)
    (s0 : Str) (hs : s0.filter (fun c => c ≠ ' ') = eq.text) (c : Str → ℂ) :
    ∃ m M, m0.addEquation s0 = some m ∧ m.fields = [f] ∧ m.assemble c = some M ∧
      ∀ z, uniformRate N c eq z = 0 → ∀ s : Stepper dims.prod, s.filter = none → s.freq = freqOf dims →
      (∀ k, 1 - s.dt * implicitRate N c (freqOf dims) eq k ≠ 0) →
      (∀ k, 1 - s.dt / 2 * implicitRate N c (freqOf dims) eq k ≠ 0) →
      (∃ k, 1 < ‖rungeKuttaWave N c (freqOf dims) s.dt eq z k‖) →
      ∃ ε : ℝ, 0 < ε ∧ ∀ δ : ℝ, 0 < δ → ∃ v : Data dims.prod, IsReal v ∧ (∀ x, ‖v x‖ < δ) ∧
        (∀ k, fft dims v k ≠ 0 → 1 < ‖rungeKuttaWave N c (freqOf dims) s.dt eq z k‖) ∧
        ∀ (st : Store m.fields.length m.derived.length dims.prod) (i : Fin m.fields.length),
          (st.fields i = fun x => z + v x) →
          ∃ steps x, ε ≤ ‖(rk4Propagate M steps (s, st)).2.fields i x - z‖ := by
  have hpos := pos_of_goodDims h
  obtain ⟨m, M, h1, h2, h3, h4⟩ := text_rungeKutta hpos N hN f m0 h0 heq eq hone hq s0 hs c
  refine ⟨m, M, h1, h2, h3, ?_⟩
  intro z hz s hfil hfreq hne hne2 ⟨k1, hk1⟩
  obtain ⟨hD, hfix⟩ := text_acts h N c eq z hz s.dt hne hne2
  set F := rungeKuttaMap dims (explicitMap dims (valueTerms N c (freqOf dims) eq) (implicitRate N c (freqOf dims) eq))
      (implicitRate N c (freqOf dims) eq) s.dt with hFdef
  have hF : ∀ (i : Fin m.fields.length) (s' : Stepper dims.prod), s'.dt = s.dt → s'.freq = s.freq →
      s'.filter = s.filter → ∀ st, (rk4Step M (s', st)).2.fields i = F (st.fields i) := by
    intro i s' a b d st
    rw [h4 s' (by rw [d, hfil]) st i, a, b, hfreq]
  obtain ⟨k0, -, hmax⟩ := Finset.exists_max_image Finset.univ
    (fun k => ‖rungeKuttaWave N c (freqOf dims) s.dt eq z k‖) ⟨k1, Finset.mem_univ k1⟩
  obtain ⟨ε, hε, hall⟩ := repulsion hpos hD hfix (lt_of_lt_of_le hk1 (hmax k1 (Finset.mem_univ k1)))
    (fun k => hmax k (Finset.mem_univ k))
  refine ⟨ε, hε, fun δ hδ => ?_⟩
  obtain ⟨v, v1, v2, v3, v4⟩ := perturbation_exists h hl
    {k | ∀ k', ‖rungeKuttaWave N c (freqOf dims) s.dt eq z k'‖ ≤ ‖rungeKuttaWave N c (freqOf dims) s.dt eq z k‖}
    k0 (fun k' => hmax k' (Finset.mem_univ k')) (by
      intro b b' hb
      simp only [Set.mem_ofPred_eq, wave_conj h N c s.dt eq z hb]) hδ
  refine ⟨v, v1, v3, fun k hk => lt_of_lt_of_le hk1 (v4 k hk k1), fun st i hst => ?_⟩
  have e : (st.fields i - fun _ => z) = v := by
    rw [hst]
    funext x
    simp
  obtain ⟨j, x, hj⟩ := hall (st.fields i) (fun hc => v2 (by
      rw [← e, hc]
      funext x
      simp)) (fun k hk => le_antisymm (hmax k (Finset.mem_univ k)) (by rw [e] at hk; exact v4 k hk k0))
  refine ⟨j, x, ?_⟩
  rw [rk4Propagate_iterate (hF i)]
  exact hj

/-! ### The factor -/

theorem factor_real (α β : ℝ) : rungeKuttaFactor (α : ℂ) (β : ℂ) = ((rungeKuttaFactor α β : ℝ) : ℂ) := by
  unfold rungeKuttaFactor
  push_cast
  rfl

/-- The sign of this polynomial decides whether a wave that decays is damped. -/
def dampingPolynomial (x b : ℝ) : ℝ :=
  24 + 48 * x + 30 * x ^ 2 + 6 * x ^ 3 - (12 + 16 * x + 5 * x ^ 2) * b + (4 + 3 * x) * b ^ 2 - b ^ 3

theorem factor_below {x b : ℝ} (h1 : 1 + x ≠ 0) (h2 : 2 + x ≠ 0) :
    1 - rungeKuttaFactor (-x) (-b) = (b + x) * dampingPolynomial x b / (6 * (1 + x) ^ 2 * (2 + x) ^ 2) := by
  unfold rungeKuttaFactor dampingPolynomial
  have e1 : 1 - -x = 1 + x := by ring
  have e2 : 1 - -x / 2 = (2 + x) / 2 := by ring
  dsimp only
  rw [e1, e2]
  field_simp
  ring

theorem factor_above {x b : ℝ} (h1 : 1 + x ≠ 0) (h2 : 2 + x ≠ 0) :
    1 + rungeKuttaFactor (-x) (-b) = (48 + 120 * x + 108 * x ^ 2 + 42 * x ^ 3 + 6 * x ^ 4 -
      (24 + 36 * x + 14 * x ^ 2 + x ^ 3) * b + (12 + 12 * x + 2 * x ^ 2) * b ^ 2 - (4 + 2 * x) * b ^ 3 + b ^ 4) /
        (6 * (1 + x) ^ 2 * (2 + x) ^ 2) := by
  unfold rungeKuttaFactor
  have e1 : 1 - -x = 1 + x := by ring
  have e2 : 1 - -x / 2 = (2 + x) / 2 := by ring
  dsimp only
  rw [e1, e2]
  field_simp
  ring

theorem above_pos {x : ℝ} (hx : -(2 / 3) ≤ x) (b : ℝ) : 0 < 48 + 120 * x + 108 * x ^ 2 + 42 * x ^ 3 + 6 * x ^ 4 -
      (24 + 36 * x + 14 * x ^ 2 + x ^ 3) * b + (12 + 12 * x + 2 * x ^ 2) * b ^ 2 - (4 + 2 * x) * b ^ 3 + b ^ 4 := by
  obtain ⟨y, rfl⟩ : ∃ y, x = y - 2 / 3 := ⟨x + 2 / 3, by ring⟩
  obtain ⟨s, rfl⟩ : ∃ s, b = 2 + (y - 2 / 3) - s := ⟨2 + (y - 2 / 3) - b, by ring⟩
  have hy : 0 ≤ y := by linarith
  have e : 48 + 120 * (y - 2 / 3) + 108 * (y - 2 / 3) ^ 2 + 42 * (y - 2 / 3) ^ 3 + 6 * (y - 2 / 3) ^ 4 -
      (24 + 36 * (y - 2 / 3) + 14 * (y - 2 / 3) ^ 2 + (y - 2 / 3) ^ 3) * (2 + (y - 2 / 3) - s) +
      (12 + 12 * (y - 2 / 3) + 2 * (y - 2 / 3) ^ 2) * (2 + (y - 2 / 3) - s) ^ 2 -
      (4 + 2 * (y - 2 / 3)) * (2 + (y - 2 / 3) - s) ^ 3 + (2 + (y - 2 / 3) - s) ^ 4 =
      (s ^ 2 - 4 / 3 * s - y * s) ^ 2 + (64 / 27 - 64 / 27 * s + 28 / 9 * s ^ 2) +
        y * (128 / 9 - 16 / 3 * s + 20 / 3 * s ^ 2) + y ^ 2 * (s ^ 2 - (4 + y) * s + (28 + 22 * y + 6 * y ^ 2)) := by ring
  rw [e]
  have h1 : 0 < 64 / 27 - 64 / 27 * s + 28 / 9 * s ^ 2 := by nlinarith [sq_nonneg (s - 1 / 2)]
  have h2 : 0 ≤ 128 / 9 - 16 / 3 * s + 20 / 3 * s ^ 2 := by nlinarith [sq_nonneg (s - 1 / 2)]
  have h3 : 0 ≤ s ^ 2 - (4 + y) * s + (28 + 22 * y + 6 * y ^ 2) := by nlinarith [sq_nonneg (s - (4 + y) / 2), sq_nonneg y]
  have h4 := mul_nonneg hy h2
  have h5 := mul_nonneg (sq_nonneg y) h3
  have h6 := sq_nonneg (s ^ 2 - 4 / 3 * s - y * s)
  linarith

/-- C159: the limit. As long as `dt a ≤ 2/3`, a wave that decays by the linearised equation (`r = a + b < 0`) is damped
exactly if the explicit rate `b` is not too large for a polynomial of degree three; a wave that grows by the linearised
equation grows. -/
theorem c159_limit {x b : ℝ} (hx : -(2 / 3) ≤ x) :
    (|rungeKuttaFactor (-x) (-b)| < 1 ↔ -x < b ∧ 0 < dampingPolynomial x b) ∧
      (b < -x → 1 < rungeKuttaFactor (-x) (-b)) := by
  have h1 : 0 < 1 + x := by linarith
  have h2 : 0 < 2 + x := by linarith
  have hd : 0 < 6 * (1 + x) ^ 2 * (2 + x) ^ 2 := by positivity
  have hA := factor_above (b := b) h1.ne' h2.ne'
  have hB := factor_below (b := b) h1.ne' h2.ne'
  have hlow : -1 < rungeKuttaFactor (-x) (-b) := by
    have := div_pos (above_pos hx b) hd
    rw [← hA] at this
    linarith
  have hgrow : b < -x → 0 < dampingPolynomial x b := by
    intro hb
    obtain ⟨y, rfl⟩ : ∃ y, x = y - 2 / 3 := ⟨x + 2 / 3, by ring⟩
    obtain ⟨s, rfl⟩ : ∃ s, b = -(y - 2 / 3) - s := ⟨-(y - 2 / 3) - b, by ring⟩
    have hy : 0 ≤ y := by linarith
    have hs : 0 < s := by linarith
    have e : dampingPolynomial (y - 2 / 3) (-(y - 2 / 3) - s) = 16 / 9 + 20 / 9 * s + s ^ 3 + 40 / 3 * y +
        16 / 3 * (y * s) + 6 * (y * s ^ 2) + 20 * y ^ 2 + 14 * (y ^ 2 * s) + 15 * y ^ 3 := by
      unfold dampingPolynomial; ring
    rw [e]
    positivity
  refine ⟨⟨?_, ?_⟩, ?_⟩
  · intro h
    have h3 : 0 < 1 - rungeKuttaFactor (-x) (-b) := by linarith [(abs_lt.mp h).2]
    rw [hB, div_pos_iff_of_pos_right hd] at h3
    rcases lt_trichotomy b (-x) with hb | hb | hb
    · have := mul_neg_of_neg_of_pos (by linarith : b + x < 0) (hgrow hb)
      linarith
    · rw [hb] at h3
      simp at h3
    · exact ⟨hb, (pos_iff_pos_of_mul_pos h3).mp (by linarith)⟩
  · rintro ⟨h3, h4⟩
    refine abs_lt.mpr ⟨hlow, ?_⟩
    have := div_pos (mul_pos (by linarith : 0 < b + x) h4) hd
    rw [← hB] at this
    linarith
  · intro hb
    have := div_neg_of_neg_of_pos (mul_neg_of_neg_of_pos (by linarith : b + x < 0) (hgrow hb)) hd
    rw [← hB] at this
    linarith

/-- The larger the explicit rate, the smaller the polynomial. -/
theorem damping_anti {x b b' : ℝ} (hx : -(2 / 3) ≤ x) (h : b < b') : dampingPolynomial x b' < dampingPolynomial x b := by
  have e : dampingPolynomial x b - dampingPolynomial x b' = (b' - b) * ((12 + 16 * x + 5 * x ^ 2) -
      (4 + 3 * x) * (b + b') + (b ^ 2 + b * b' + b' ^ 2)) := by unfold dampingPolynomial; ring
  have h1 : 0 < (12 + 16 * x + 5 * x ^ 2) - (4 + 3 * x) * (b + b') + (b ^ 2 + b * b' + b' ^ 2) := by
    have e2 : (12 + 16 * x + 5 * x ^ 2) - (4 + 3 * x) * (b + b') + (b ^ 2 + b * b' + b' ^ 2) =
        3 / 4 * (b + b' - 2 / 3 * (4 + 3 * x)) ^ 2 + 1 / 4 * (b - b') ^ 2 + (20 / 3 + 8 * x + 2 * x ^ 2) := by ring
    rw [e2]
    have : 0 < 20 / 3 + 8 * x + 2 * x ^ 2 := by nlinarith [sq_nonneg (x + 2 / 3)]
    positivity
  have := mul_pos (by linarith : 0 < b' - b) h1
  linarith

/-- C159: as long as `dt a ≤ 2/3`, the RK4 stepper damps every wave that the Euler stepper damps. -/
theorem c159_euler {α β : ℝ} (hα : α ≤ 2 / 3) (h : |(1 + β) / (1 - α)| < 1) : |rungeKuttaFactor α β| < 1 := by
  obtain ⟨x, rfl⟩ : ∃ x, α = -x := ⟨-α, by ring⟩
  obtain ⟨b, rfl⟩ : ∃ b, β = -b := ⟨-β, by ring⟩
  have hx : -(2 / 3) ≤ x := by linarith
  have h1 : 0 < 1 - -x := by linarith
  rw [abs_div, abs_of_pos h1, div_lt_one h1, abs_lt] at h
  refine (c159_limit hx).1.mpr ⟨by linarith, ?_⟩
  refine lt_of_le_of_lt ?_ (damping_anti hx (by linarith : b < 2 + x))
  obtain ⟨y, rfl⟩ : ∃ y, x = y - 2 / 3 := ⟨x + 2 / 3, by ring⟩
  have hy : 0 ≤ y := by linarith
  have e : dampingPolynomial (y - 2 / 3) (2 + (y - 2 / 3)) = 16 / 3 * y + 8 * y ^ 2 + 3 * y ^ 3 := by
    unfold dampingPolynomial; ring
  rw [e]
  positivity

/-- C159: how much is won if the implicit part does not make the wave grow (`a ≤ 0`). The Euler stepper damps a wave
with `a + b < 0` if `dt |b| < 2 + dt |a|`. The RK4 stepper damps it if `dt |b| ≤ 2 + 2 dt |a|`, and makes it grow if
`dt |b| ≥ 3 + 2 dt |a|`. -/
theorem c159_gain {x b : ℝ} (hx : 0 ≤ x) :
    (-x < b → b ≤ 2 + 2 * x → |rungeKuttaFactor (-x) (-b)| < 1) ∧
      (3 + 2 * x ≤ b → 1 < rungeKuttaFactor (-x) (-b)) := by
  have hx' : -(2 / 3) ≤ x := by linarith
  have hanti : ∀ {b b' : ℝ}, b ≤ b' → dampingPolynomial x b' ≤ dampingPolynomial x b := by
    intro b b' h
    rcases h.lt_or_eq with h | h
    · exact (damping_anti hx' h).le
    · rw [h]
  constructor
  · intro h1 h2
    refine (c159_limit hx').1.mpr ⟨h1, lt_of_lt_of_le ?_ (hanti h2)⟩
    have e : dampingPolynomial x (2 + 2 * x) = 8 + 12 * x + 4 * x ^ 2 := by unfold dampingPolynomial; ring
    rw [e]
    positivity
  · intro h
    have e : dampingPolynomial x (3 + 2 * x) = -(3 + 3 * x + x ^ 2) := by unfold dampingPolynomial; ring
    have h1 : dampingPolynomial x b < 0 := by
      refine lt_of_le_of_lt (hanti h) ?_
      rw [e]
      have : 0 < 3 + 3 * x + x ^ 2 := by positivity
      linarith
    have h2 := factor_below (x := x) (b := b) (by positivity) (by positivity)
    have hd : 0 < 6 * (1 + x) ^ 2 * (2 + x) ^ 2 := by positivity
    have := div_neg_of_neg_of_pos (mul_neg_of_pos_of_neg (by linarith : 0 < b + x) h1) hd
    rw [← h2] at this
    linarith

/-! ### The Cahn-Hilliard equation -/

theorem hilliard_wave (dt z : ℝ) (k : Fin dims.prod) :
    rungeKuttaWave concNames (fun _ => 0) (freqOf dims) dt hilliardEquation z k =
      ((rungeKuttaFactor (-(dt * (laplaceNumber dims k ^ 2 - laplaceNumber dims k)))
        (-(dt * (3 * z ^ 2 * laplaceNumber dims k))) : ℝ) : ℂ) := by
  unfold rungeKuttaWave
  rw [hilliard_linearised, hilliard_implicit, ← factor_real]
  congr 1
  · push_cast; ring
  · push_cast; ring

theorem hilliard_small (q : ℝ) : q - q ^ 2 ≤ 1 / 4 := by nlinarith [sq_nonneg (q - 1 / 2)]

theorem hilliard_denominators {dt : ℝ} (hdt : 0 < dt) (h4 : dt < 4) (k : Fin dims.prod) :
    1 - (dt : ℂ) * implicitRate concNames (fun _ => 0) (freqOf dims) hilliardEquation k ≠ 0 ∧
    1 - (dt : ℂ) / 2 * implicitRate concNames (fun _ => 0) (freqOf dims) hilliardEquation k ≠ 0 := by
  rw [hilliard_implicit]
  have h1 := mul_le_mul_of_nonneg_left (hilliard_small (laplaceNumber dims k)) hdt.le
  constructor
  · intro h0
    have : (1 - dt * (laplaceNumber dims k - laplaceNumber dims k ^ 2) : ℝ) = 0 := by exact_mod_cast h0
    linarith
  · intro h0
    have : (1 - dt / 2 * (laplaceNumber dims k - laplaceNumber dims k ^ 2) : ℝ) = 0 := by exact_mod_cast h0
    linarith

/-- C159: the Cahn-Hilliard equation with the RK4 stepper. Outside the spinodal (`3 z^2 > 1`) and for time steps up to
`16/(3 z^2 + 2)^2`, fields that are close enough to the uniform state `z` and have mean `z` converge to it, on every
grid. -/
theorem c159_cahn_hilliard (h : GoodDims (intDims dims)) {z dt : ℝ} (hz : 1 < 3 * z ^ 2) (hdt : 0 < dt)
    (hlim : dt * (3 * z ^ 2 + 2) ^ 2 ≤ 16) :
    ∃ m M, ((EqModel.empty (n := dims.prod)).addField "conc".toList).addEquation
        "dconc/dt = LAPconc^3 - LAPconc - LAP^2conc".toList = some m ∧ m.assemble (fun _ => 0) = some M ∧
      ∀ s : Stepper dims.prod, s.dt = dt → s.filter = none → s.freq = freqOf dims →
      ∃ δ C q : ℝ, 0 < δ ∧ q < 1 ∧ 0 ≤ q ∧ ∀ (st : Store m.fields.length m.derived.length dims.prod)
        (i : Fin m.fields.length), (∀ x, ‖st.fields i x - z‖ < δ) → ∑ x, st.fields i x = ∑ _x : Fin dims.prod, (z : ℂ) →
        ∀ steps x, ‖(rk4Propagate M steps (s, st)).2.fields i x - z‖ ≤ C * q ^ steps := by
  obtain ⟨m, M, h1, h2, h3, h4⟩ := c159_conserved h concNames conc_wellNamed "conc".toList
    ((EqModel.empty (n := dims.prod)).addField "conc".toList) ⟨rfl, rfl, fun x => Iff.rfl⟩ rfl hilliardEquation
    hilliard_oneField ⟨hilliard_polynomial, fun _ _ => ⟨rfl, rfl⟩⟩ hilliard_divergence
    "dconc/dt = LAPconc^3 - LAPconc - LAP^2conc".toList (by decide) fun _ => 0
  refine ⟨m, M, h1, h3, ?_⟩
  intro s hs hfil hfreq
  have hsmall : dt < 2 := by
    by_contra hc
    push Not at hc
    have : (9 : ℝ) ≤ (3 * z ^ 2 + 2) ^ 2 := by nlinarith
    nlinarith
  refine h4 z s hfil hfreq (fun k => ?_) (fun k => ?_) ?_
  · rw [hs]; exact (hilliard_denominators hdt (by linarith) k).1
  · rw [hs]; exact (hilliard_denominators hdt (by linarith) k).2
  · intro k hk
    have hq := laplaceNumber_pos h k hk
    rw [hs, hilliard_wave, Complex.norm_real, Real.norm_eq_abs]
    generalize laplaceNumber dims k = q at hq
    set w : ℝ := 3 * z ^ 2 with hw
    have hdq : 0 < dt * q := mul_pos hdt hq
    have hdecay : -(dt * (q ^ 2 - q)) < dt * (w * q) := by
      have : 0 < dt * q * (w - 1 + q) := mul_pos hdq (by linarith)
      linarith
    rcases le_or_gt 1 q with h1 | h1
    · have hx : 0 ≤ dt * (q ^ 2 - q) := mul_nonneg hdt.le (by nlinarith)
      refine (c159_gain hx).1 hdecay ?_
      have h6 : (w + 2) * q - 2 * q ^ 2 ≤ (w + 2) ^ 2 / 8 := by nlinarith [sq_nonneg (q - (w + 2) / 4)]
      have h7 := mul_le_mul_of_nonneg_left h6 hdt.le
      linarith
    · have hα : dt * (q - q ^ 2) ≤ dt * (1 / 4) := mul_le_mul_of_nonneg_left (hilliard_small q) hdt.le
      refine c159_euler (by linarith) ?_
      have hp : 0 < 1 - -(dt * (q ^ 2 - q)) := by linarith
      rw [abs_div, abs_of_pos hp, div_lt_one hp, abs_lt]
      refine ⟨?_, by linarith⟩
      have h8 : q * (1 + w - q) < w := by nlinarith
      have h9 : dt * (q * (1 + w - q)) < dt * w := mul_lt_mul_of_pos_left h8 hdt
      have h10 : dt * w ≤ 2 := by
        have : 8 * w ≤ (w + 2) ^ 2 := by nlinarith [sq_nonneg (w - 2)]
        have := mul_le_mul_of_nonneg_left this hdt.le
        linarith
      linarith

/-- The numbers of the last theorem: `z = 1` with a time step of 16/25. -/
example : (1 : ℝ) < 3 * 1 ^ 2 ∧ (16 / 25 : ℝ) * (3 * 1 ^ 2 + 2) ^ 2 ≤ 16 := by norm_num

theorem nine_wave : ∃ k : Fin [9, 9].prod, laplaceNumber [9, 9] k = 4 * Real.pi ^ 2 / 81 := by
  refine ⟨⟨1, by decide⟩, ?_⟩
  have hf : freqOf [9, 9] ⟨1, by decide⟩ = [0, 1 / 9] := by
    have h1 : freq (intDims [9, 9]) 1 = some [0, 1 / 9] := by decide +kernel
    show ((freq (intDims [9, 9]) 1).getD []).map (fun q : ℚ => (q : ℝ)) = _
    rw [h1]
    simp
  rw [laplaceNumber, hf]
  simp only [List.map_cons, List.map_nil, List.sum_cons, List.sum_nil]
  ring

theorem nine_bounds : (4873 / 10000 : ℝ) ≤ 4 * Real.pi ^ 2 / 81 ∧ 4 * Real.pi ^ 2 / 81 ≤ 4883 / 10000 := by
  have h1 := Real.pi_gt_d4
  have h2 := Real.pi_lt_d4
  have h0 := Real.pi_pos
  constructor
  · nlinarith
  · nlinarith

/-- C159: beyond `dt a = 2/3` the comparison is the other way round. The Cahn-Hilliard equation on a grid of 9 times 9
nodes, with mean 5/12 and a time step of 17/5: with the Euler stepper every field close enough to the uniform state
that has its mean converges to it; with the RK4 stepper there are real fields of this mean, as close to the uniform
state as one likes, that go a fixed distance away from it. -/
theorem c159_worse :
    ∃ m M, ((EqModel.empty (n := [9, 9].prod)).addField "conc".toList).addEquation
        "dconc/dt = LAPconc^3 - LAPconc - LAP^2conc".toList = some m ∧ m.assemble (fun _ => 0) = some M ∧
      ∀ s : Stepper [9, 9].prod, s.dt = 17 / 5 → s.filter = none → s.freq = freqOf [9, 9] →
      (∃ δ C q : ℝ, 0 < δ ∧ q < 1 ∧ 0 ≤ q ∧ ∀ (st : Store m.fields.length m.derived.length [9, 9].prod)
        (i : Fin m.fields.length), (∀ x, ‖st.fields i x - ((5 / 12 : ℝ) : ℂ)‖ < δ) →
        ∑ x, st.fields i x = ∑ _x : Fin [9, 9].prod, ((5 / 12 : ℝ) : ℂ) →
        ∀ steps x, ‖(eulerPropagate M steps (s, st)).2.fields i x - ((5 / 12 : ℝ) : ℂ)‖ ≤ C * q ^ steps) ∧
      ∃ ε : ℝ, 0 < ε ∧ ∀ δ : ℝ, 0 < δ → ∃ v : Data [9, 9].prod, IsReal v ∧ (∀ x, ‖v x‖ < δ) ∧ ∑ x, v x = 0 ∧
        ∀ (st : Store m.fields.length m.derived.length [9, 9].prod) (i : Fin m.fields.length),
          (st.fields i = fun x => ((5 / 12 : ℝ) : ℂ) + v x) →
          ∃ steps x, ε ≤ ‖(rk4Propagate M steps (s, st)).2.fields i x - ((5 / 12 : ℝ) : ℂ)‖ := by
  have h : GoodDims (intDims [9, 9]) := ⟨by decide, by decide⟩
  obtain ⟨m, M, h1, h2, h3, h4⟩ := c126_conserved h concNames conc_wellNamed "conc".toList
    ((EqModel.empty (n := [9, 9].prod)).addField "conc".toList) ⟨rfl, rfl, fun x => Iff.rfl⟩ rfl hilliardEquation
    hilliard_oneField ⟨hilliard_polynomial, fun _ _ => ⟨rfl, rfl⟩⟩ hilliard_divergence
    "dconc/dt = LAPconc^3 - LAPconc - LAP^2conc".toList (by decide) fun _ => 0
  obtain ⟨m', M', h1', h2', h3', h4'⟩ := c159_leaves h trivial concNames conc_wellNamed "conc".toList
    ((EqModel.empty (n := [9, 9].prod)).addField "conc".toList) ⟨rfl, rfl, fun x => Iff.rfl⟩ rfl hilliardEquation
    hilliard_oneField ⟨hilliard_polynomial, fun _ _ => ⟨rfl, rfl⟩⟩
    "dconc/dt = LAPconc^3 - LAPconc - LAP^2conc".toList (by decide) fun _ => 0
  rw [h1] at h1'
  obtain rfl := Option.some.inj h1'
  rw [h3] at h3'
  obtain rfl := Option.some.inj h3'
  refine ⟨m, M, h1, h3, ?_⟩
  intro s hs hfil hfreq
  have hden := fun k => hilliard_denominators (dims := [9, 9]) (dt := 17 / 5) (by norm_num) (by norm_num) k
  obtain ⟨b1, b2⟩ := nine_bounds
  constructor
  · refine h4 ((5 / 12 : ℝ) : ℂ) s hfil hfreq (fun k => by rw [hs]; exact (hden k).1) ?_
    intro k hk
    have hq : (4873 / 10000 : ℝ) ≤ laplaceNumber [9, 9] k := by
      refine b1.trans (le_trans (le_of_eq ?_) (laplaceNumber_ge (N := 9) (by norm_num) k hk))
      norm_num
    have hA := mul_le_mul_of_nonneg_left (hilliard_small (laplaceNumber [9, 9] k)) (by norm_num : (0 : ℝ) ≤ 17 / 5)
    rw [hs]
    rw [(c126_limit concNames (fun _ => 0) (freqOf [9, 9]) (by norm_num : (0 : ℝ) < 17 / 5) hilliardEquation _ k
      (hilliard_linearised _ (5 / 12) k) (hilliard_implicit _ k) (by linarith)).1]
    generalize laplaceNumber [9, 9] k = q at hq
    constructor
    · nlinarith
    · nlinarith [sq_nonneg (q - 3 / 4)]
  · have hrest : uniformRate concNames (fun _ => 0) hilliardEquation ((5 / 12 : ℝ) : ℂ) = 0 := by
      apply List.sum_eq_zero
      intro y hy
      obtain ⟨p, hp, rfl⟩ := List.mem_map.mp hy
      rw [if_neg (hilliard_divergence p hp)]
    obtain ⟨ε, hε, hall⟩ := h4' ((5 / 12 : ℝ) : ℂ) hrest s hfil hfreq (fun k => by rw [hs]; exact (hden k).1)
      (fun k => by
        have := (hden k).2
        rw [hs]
        exact this) (by
        obtain ⟨k, hk⟩ := nine_wave
        refine ⟨k, ?_⟩
        rw [hs, hilliard_wave, hk, Complex.norm_real, Real.norm_eq_abs]
        generalize 4 * Real.pi ^ 2 / 81 = q at b1 b2
        refine lt_of_lt_of_le ?_ (le_abs_self _)
        obtain ⟨e, rfl⟩ : ∃ e, q = 4873 / 10000 + e := ⟨q - 4873 / 10000, by ring⟩
        have e0 : 0 ≤ e := by linarith
        have e1 : e ≤ 1 / 1000 := by linarith
        have e2 : e ^ 2 ≤ 1 / 1000000 := by nlinarith
        have e3 : e ^ 4 ≤ e ^ 2 := pow_le_pow_of_le_one e0 (by linarith) (by norm_num)
        have e4 : e ^ 6 ≤ e ^ 2 := pow_le_pow_of_le_one e0 (by linarith) (by norm_num)
        have e5 : 0 ≤ e ^ 3 := by positivity
        have e6 : 0 ≤ e ^ 5 := by positivity
        set q : ℝ := 4873 / 10000 + e with hq
        set x : ℝ := 17 / 5 * (q ^ 2 - q) with hx
        have hA := mul_le_mul_of_nonneg_left (hilliard_small q) (by norm_num : (0 : ℝ) ≤ 17 / 5)
        have hp1 : 0 < 1 + x := by linarith
        have hp2 : 0 < 2 + x := by linarith
        have hb : 0 < 17 / 5 * (3 * (5 / 12 : ℝ) ^ 2 * q) + x := by
          rw [hx]
          nlinarith
        have hneg : dampingPolynomial x (17 / 5 * (3 * (5 / 12 : ℝ) ^ 2 * q)) < 0 := by
          rw [hx, hq]
          have : dampingPolynomial (17 / 5 * ((4873 / 10000 + e) ^ 2 - (4873 / 10000 + e)))
              (17 / 5 * (3 * (5 / 12 : ℝ) ^ 2 * (4873 / 10000 + e))) =
              -357970304322241351714739891 / 3375000000000000000000000000
              - 100954881459672628436371 / 28125000000000000000000 * e
              + 4128527863848916569 / 250000000000000000 * e ^ 2
              - 17925308241826867 / 675000000000000 * e ^ 3 + 591789840479 / 3750000000 * e ^ 4
              - 451214833 / 3750000 * e ^ 5 + 29478 / 125 * e ^ 6 := by
            unfold dampingPolynomial
            ring
          rw [this]
          linarith
        have hB := factor_below (b := 17 / 5 * (3 * (5 / 12 : ℝ) ^ 2 * q)) hp1.ne' hp2.ne'
        have := div_neg_of_neg_of_pos (mul_neg_of_pos_of_neg hb hneg)
          (by positivity : 0 < 6 * (1 + x) ^ 2 * (2 + x) ^ 2)
        rw [← hB] at this
        linarith)
    refine ⟨ε, hε, fun δ hδ => ?_⟩
    obtain ⟨v, v1, v2, v3, v4⟩ := hall δ hδ
    refine ⟨v, v1, v2, ?_, v4⟩
    have hp0 : 0 < [9, 9].prod := by decide
    rw [← fft_zero_bin v ⟨0, hp0⟩ rfl]
    by_contra hc
    have h5 := v3 _ hc
    have e : laplaceNumber [9, 9] ⟨0, hp0⟩ = 0 := by
      have := symbol_origin h ⟨0, hp0⟩ rfl
      rw [symbol_laplaceNumber, neg_eq_zero] at this
      exact_mod_cast this
    rw [hilliard_wave, e, Complex.norm_real, Real.norm_eq_abs] at h5
    norm_num [rungeKuttaFactor] at h5

end Gopf.Props
