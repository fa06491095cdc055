import Verif.Model.Currents
import Verif.Props.Prepare
import Verif.Props.WhiteNoise

/-!
# C129: fluctuations of a field driven by conservative noise
-/

namespace Gopf.Props
open Spec Pf Pfutil

variable {nf nd n : ℕ} {dims : List ℕ}

/-! ### The specification -/

/-- What conservative noise multiplies a wave of one component of the current by, `f` being the component of the
frequency: `2 i sin(π f)`, the discrete derivative between nodes, without the Nyquist frequency. -/
noncomputable def currentGain (f : ℝ) : ℂ :=
  if abs (abs f - 1 / 2) > 1 / 10 ^ 6 then Complex.I * ((2 * Real.sin (Real.pi * f) : ℝ) : ℂ) else 0

/-- How strongly conservative noise acts on a wave with frequency `f`: if every component of the current has its own
random numbers the squares are added, if they share them the components are added first. -/
noncomputable def noisePower (together : Bool) (dim : ℕ) (f : List ℝ) : ℝ :=
  if together then ‖∑ c ∈ Finset.range dim, currentGain (fcomp f c)‖ ^ 2
  else ∑ c ∈ Finset.range dim, ‖currentGain (fcomp f c)‖ ^ 2

/-- The right-hand side of an equation with conservative noise: its linear part multiplies the wave `k` of the field
by `a k`, and the other part is the noise times `lam k`. -/
structure NoiseDriven (R : BuiltRHS n) (u dim : ℕ) (freq : Frequency n) (a lam : Fin n → ℂ) : Prop where
  rate : ∀ bricks t k, (R.denum.map fun g => g bricks freq t k).sum = a k
  noise : ∀ bricks t k, (R.terms.map fun g => g bricks freq t k).sum = lam k * noiseConstruct u dim bricks freq t k

/-! ### Equations given as text -/

/-- The text of a registered implicit term, perhaps with operators in front of its name, and its value. -/
def IsImplicitText (m : EqModel n) (text : Str) (v : BTerm n) : Prop :=
  ∃ (ps : List Str) (name : Str) (f : BTerm n), (∀ p ∈ ps, IsOperator p) ∧ text = ps.flatten ++ name ∧
    checkName name = some () ∧ name.head? ≠ some '^' ∧ m.implicitTerms.lookup name = some f ∧
    ∀ b freq t i, v b freq t i = (ps.map fun p => prefixSymbol p (freq i)).prod * f b freq t i

private theorem build_term (m : EqModel n) (field text : Str) (d : Option Char) (v w : BTerm n)
    (h : (IsExplicitText m text v ∧ ∀ b freq t i, w b freq t i = 0) ∨
      (IsImplicitText m text w ∧ ∀ b freq t i, v b freq t i = 0)) (rhs : BuiltRHS n) :
    ∃ R : BuiltRHS n, buildTerm m field rhs ⟨text, d⟩ = some R ∧
      ∀ b freq t i, (R.terms.map fun g => g b freq t i).sum =
          (rhs.terms.map fun g => g b freq t i).sum + delimSign d * v b freq t i ∧
        (R.denum.map fun g => g b freq t i).sum =
          (rhs.denum.map fun g => g b freq t i).sum + delimSign d * w b freq t i := by
  rcases h with ⟨⟨ps, name, f, hps, rfl, hc, hcaret, himp, hexp, hv⟩, hw⟩ |
    ⟨⟨ps, name, f, hps, rfl, hc, hcaret, himp, hv⟩, hw⟩
  · obtain ⟨h1, h2⟩ := read_operators name hc hcaret ps hps
    refine ⟨⟨rhs.terms ++ [fun b => constructFunc (f b) (ps ++ [d.toList])], rhs.denum⟩, ?_, fun b freq t i => ⟨?_, ?_⟩⟩
    · unfold buildTerm
      simp only [h1, h2, himp, hexp]
    · rw [List.map_append, List.sum_append, List.map_cons, List.map_nil, List.sum_cons, List.sum_nil]
      show _ + (constructFunc (f b) (ps ++ [d.toList]) freq t i + 0) = _
      rw [built_meaning, hv]
      ring
    · rw [hw]; simp
  · obtain ⟨h1, h2⟩ := read_operators name hc hcaret ps hps
    refine ⟨⟨rhs.terms, rhs.denum ++ [fun b => constructFunc (f b) (ps ++ [d.toList])]⟩, ?_, fun b freq t i => ⟨?_, ?_⟩⟩
    · unfold buildTerm
      simp only [h1, h2, himp]
    · rw [hw]; simp
    · rw [List.map_append, List.sum_append, List.map_cons, List.map_nil, List.sum_cons, List.sum_nil]
      show _ + (constructFunc (f b) (ps ++ [d.toList]) freq t i + 0) = _
      rw [built_meaning, hv]
      ring

/-- C129: the right-hand side of an equation that is a sum of registered terms, explicit or implicit: the two parts
are the sums of the two kinds of terms. `V` are the values of explicit terms and `W` those of implicit terms. -/
theorem c129_text (m : EqModel n) (field : Str) (hne : field ≠ []) (hfe : '=' ∉ field) (s : SignedSum)
    (hs : s.WellFormed ['+', '-']) (hse : '=' ∉ s.render) (V W : Str → BTerm n)
    (hV : ∀ p ∈ s.terms, (IsExplicitText m p.1 (V p.1) ∧ ∀ b freq t i, W p.1 b freq t i = 0) ∨
      (IsImplicitText m p.1 (W p.1) ∧ ∀ b freq t i, V p.1 b freq t i = 0)) :
    ∃ R, build ('d' :: (field ++ "/dt".toList) ++ '=' :: s.render) m = some R ∧
      ∀ b freq t i, (R.terms.map fun g => g b freq t i).sum =
          (s.terms.map fun p => delimSign p.2 * V p.1 b freq t i).sum ∧
        (R.denum.map fun g => g b freq t i).sum = (s.terms.map fun p => delimSign p.2 * W p.1 b freq t i).sum := by
  obtain ⟨res, hres, hperm⟩ := c13_split _ s hs
  have key : ∀ (l : List SubDelim) (rhs : BuiltRHS n), (∀ x ∈ l,
      (IsExplicitText m x.sub (V x.sub) ∧ ∀ b freq t i, W x.sub b freq t i = 0) ∨
      (IsImplicitText m x.sub (W x.sub) ∧ ∀ b freq t i, V x.sub b freq t i = 0)) →
      ∃ R, l.foldlM (buildTerm m field) rhs = some R ∧
        ∀ b freq t i, (R.terms.map fun g => g b freq t i).sum = (rhs.terms.map fun g => g b freq t i).sum +
            (l.map fun x => delimSign x.delim * V x.sub b freq t i).sum ∧
          (R.denum.map fun g => g b freq t i).sum = (rhs.denum.map fun g => g b freq t i).sum +
            (l.map fun x => delimSign x.delim * W x.sub b freq t i).sum := by
    intro l
    induction l with
    | nil => intro rhs _; exact ⟨rhs, rfl, by simp⟩
    | cons x l ih =>
      intro rhs hl
      obtain ⟨R1, hg, hgv⟩ := build_term m field x.sub x.delim (V x.sub) (W x.sub) (hl x (by simp)) rhs
      obtain ⟨R, h1, h3⟩ := ih R1 fun y hy => hl y (by simp [hy])
      refine ⟨R, ?_, ?_⟩
      · rw [List.foldlM_cons]
        have : buildTerm m field rhs x = some R1 := hg
        rw [this]
        exact h1
      · intro b freq t i
        obtain ⟨e1, e2⟩ := h3 b freq t i
        obtain ⟨g1, g2⟩ := hgv b freq t i
        rw [e1, e2, g1, g2, List.map_cons, List.sum_cons, List.map_cons, List.sum_cons]
        constructor <;> ring
  have hmem : ∀ x ∈ res, (IsExplicitText m x.sub (V x.sub) ∧ ∀ b freq t i, W x.sub b freq t i = 0) ∨
      (IsImplicitText m x.sub (W x.sub) ∧ ∀ b freq t i, V x.sub b freq t i = 0) := by
    intro x hx
    exact hV (x.sub, x.delim) (hperm.subset (List.mem_map_of_mem hx))
  obtain ⟨R, h1, h3⟩ := key res ⟨[], []⟩ hmem
  refine ⟨R, ?_, ?_⟩
  · unfold build
    rw [goSplit_two (by
      have : '=' ∉ "/dt".toList := by decide
      simp only [List.mem_cons, List.mem_append, not_or]
      exact ⟨by decide, hfe, this⟩) hse]
    have hl : fieldNameFromLeibniz ('d' :: (field ++ "/dt".toList)) = some field := leibniz hne
    dsimp only
    rw [hl, hres]
    exact h1
  · intro b freq t i
    obtain ⟨e1, e2⟩ := h3 b freq t i
    have p1 := (hperm.map fun p => delimSign p.2 * V p.1 b freq t i).sum_eq
    have p2 := (hperm.map fun p => delimSign p.2 * W p.1 b freq t i).sum_eq
    rw [List.map_map] at p1 p2
    rw [e1, e2, List.map_nil, List.sum_nil, zero_add, zero_add, ← p1, ← p2]
    exact ⟨rfl, rfl⟩

/-! ### One step -/

theorem noise_sum (dim : ℕ) (current : ℕ → Data n) (freq : Frequency n) (t : ℝ) (k : Fin n) :
    conservativeNoise dim current freq t k =
      ∑ c ∈ Finset.range dim, currentGain (fcomp (freq k) c) * current c k := by
  unfold conservativeNoise
  rw [← range_sum, ← zero_add (List.sum _), ← foldl_add_sum]
  refine List.foldl_ext _ _ _ fun acc c _ => ?_
  dsimp only
  unfold currentGain
  split_ifs <;> simp

/-- The component whose random numbers the component `comp` of the current gets. -/
def drawsOf (together : Bool) (dim comp : ℕ) : ℕ := if together then dim - 1 else comp

private theorem currentName_injective {u d e : ℕ} (h : currentName u d = currentName u e) : d = e := by
  unfold currentName at h
  have := fmtInt_injective (List.append_cancel_left h)
  exact_mod_cast this

theorem currentDraws_own {u dim c : ℕ} (hc : c < dim) (noise : ℕ → Data n) :
    currentDraws u dim noise (currentName u c) = some (noise c) := by
  have : ∀ l : List ℕ, c ∈ l →
      (l.map fun comp => (currentName u comp, noise comp)).lookup (currentName u c) = some (noise c) := by
    intro l
    induction l with
    | nil => simp
    | cons a l ih =>
      intro hm
      rw [List.map_cons, List.lookup_cons]
      by_cases h : currentName u c = currentName u a
      · rw [currentName_injective h]; simp
      · have h' : (currentName u c == currentName u a) = false := by simpa using h
        rw [h']
        refine ih ?_
        rcases List.mem_cons.mp hm with rfl | hm
        · exact absurd rfl h
        · exact hm
  exact this _ (List.mem_range.mpr hc)

theorem registered_currents {b0 b : Bench n} {together : Bool} {u dim : ℕ} (hdim : 0 < dim)
    (hnew : ∀ comp < dim, b0.isFieldName (currentName u comp) = false) (hb : b = b0.registerCurrents together u dim) :
    ∀ comp < dim, ∃ d f, b.bricks.lookup (currentName u comp) = some (.derived d) ∧
      b.derived[d]? = some (currentName u (drawsOf together dim comp), f) := by
  intro comp hc
  unfold Bench.registerCurrents at hb
  cases together with
  | true =>
    obtain ⟨k, rfl⟩ : ∃ k, dim = k + 1 := ⟨dim - 1, by omega⟩
    obtain ⟨h1, h2⟩ := noise_together u k _ b0 b hnew hb
    exact ⟨_, _, h1 comp hc, h2⟩
  | false =>
    obtain ⟨h1, h2⟩ := noise_separate u (fun _ _ => 0) b0 dim comp hc
    simp only [Bool.false_eq_true, if_false] at hb
    rw [← hb] at h1 h2
    exact ⟨_, _, h2, h1⟩

/-- C129: one Euler step of a field with conservative noise. -/
theorem c129_step (hpos : ∀ d ∈ dims, 0 < d) {b0 b : Bench dims.prod} {together : Bool} {u dim : ℕ} (hdim : 0 < dim)
    (hnew : ∀ comp < dim, b0.isFieldName (currentName u comp) = false) (hb : b = b0.registerCurrents together u dim)
    (rhs : Fin b.fields.length → BuiltRHS dims.prod) (i : Fin b.fields.length) (s : Stepper dims.prod)
    (hfil : s.filter = none) (a lam : Fin dims.prod → ℂ) (hR : NoiseDriven (rhs i) u dim s.freq a lam)
    (noise : ℕ → Data dims.prod) (st : Store b.fields.length b.derived.length dims.prod) (k : Fin dims.prod) :
    fft dims ((eulerStep (b.drawn rhs (currentDraws u dim noise)) (s, st)).2.fields i) k =
      (fft dims (st.fields i) k + s.dt * (lam k * ∑ c ∈ Finset.range dim,
        currentGain (fcomp (s.freq k) c) * fft dims (noise (drawsOf together dim c)) k)) / (1 - s.dt * a k) := by
  set M := b.drawn rhs (currentDraws u dim noise) with hM
  obtain ⟨st', h1, -, h3⟩ := eulerStep_field hpos M s s.getTime st i
  have hread : ∀ c < dim, b.named st' (currentName u c) = fft dims (noise (drawsOf together dim c)) := by
    intro c hc
    obtain ⟨d, f, hl, hg⟩ := registered_currents hdim hnew hb c hc
    obtain ⟨hlt, hget⟩ := List.getElem?_eq_some_iff.mp hg
    unfold Bench.named
    rw [hl]
    unfold Bench.read
    dsimp only
    rw [dif_pos hlt, h1]
    show fft dims ((M.sync st).derived _) = _
    rw [sync_derived]
    congr 1
    have hdr : drawsOf together dim c < dim := by unfold drawsOf; split_ifs <;> omega
    show (currentDraws u dim noise (b.derived[d]).1).getD _ = _
    rw [hget, currentDraws_own hdr]
    rfl
  show fft dims ((eulerStepAt M s s.getTime st).fields i) k = _
  rw [h3, hfil]
  show (_ + _ * M.getRHS i st' s.freq s.getTime k) / (1 - _ * M.getDenum i st' s.freq s.getTime k) = _
  rw [c21_rhs, c21_denum]
  have e1 : ((M.terms i).map fun f => f st' s.freq s.getTime k).sum =
      lam k * noiseConstruct u dim (b.named st') s.freq s.getTime k := by
    rw [← hR.noise]
    simp [hM, Bench.drawn, Bench.toModel, Function.comp_def]
  have e2 : ((M.denum i).map fun f => f st' s.freq s.getTime k).sum = a k := by
    rw [← hR.rate (b.named st') s.getTime k]
    simp [hM, Bench.drawn, Bench.toModel, Function.comp_def]
  have e4 : (List.filter (fun md => decide (md.1 = (i : ℕ))) M.modifiers) = [] := by
    simp [hM, Bench.drawn, Bench.toModel]
  have e5 : ((M.sources i).map fun x => x.eval s.freq s.getTime k).sum = 0 := by
    simp [hM, Bench.drawn, Bench.toModel]
  rw [e4, List.map_nil, List.foldl_nil]
  rw [e1, e2, e5, add_zero]
  have e3 : noiseConstruct u dim (b.named st') s.freq s.getTime k = ∑ c ∈ Finset.range dim,
      currentGain (fcomp (s.freq k) c) * fft dims (noise (drawsOf together dim c)) k := by
    unfold noiseConstruct
    rw [noise_sum]
    exact Finset.sum_congr rfl fun c hc => by rw [hread c (Finset.mem_range.mp hc)]
  rw [e3]

/-! ### Many steps -/

theorem noisy_currents (M : ℕ → Model nf nd dims.prod) (i : Fin nf) (k : Fin dims.prod) (A B : ℂ)
    (s : Stepper dims.prod) (x : ℕ → ℂ)
    (hstep : ∀ s' : Stepper dims.prod, s'.dt = s.dt → s'.freq = s.freq → s'.filter = s.filter → ∀ j st,
      fft dims ((eulerStep (M j) (s', st)).2.fields i) k = A * fft dims (st.fields i) k + B * x j)
    (st : Store nf nd dims.prod) (steps : ℕ) :
    (((List.range steps).foldl (fun p j => eulerStep (M j) p) (s, st)).1.dt = s.dt ∧
      ((List.range steps).foldl (fun p j => eulerStep (M j) p) (s, st)).1.freq = s.freq ∧
      ((List.range steps).foldl (fun p j => eulerStep (M j) p) (s, st)).1.filter = s.filter) ∧
    fft dims (((List.range steps).foldl (fun p j => eulerStep (M j) p) (s, st)).2.fields i) k =
      A ^ steps * fft dims (st.fields i) k + ∑ j ∈ Finset.range steps, B * A ^ (steps - 1 - j) * x j := by
  induction steps with
  | zero => simp
  | succ N ih =>
    rw [List.range_succ, List.foldl_append, List.foldl_cons, List.foldl_nil]
    generalize (List.range N).foldl (fun p j => eulerStep (M j) p) (s, st) = p at ih
    obtain ⟨p1, p2⟩ := p
    obtain ⟨⟨a, b, c⟩, hd⟩ := ih
    dsimp only at a b c hd
    refine ⟨⟨a, b, c⟩, ?_⟩
    rw [hstep p1 a b c, hd, Finset.sum_range_succ]
    have : ∑ j ∈ Finset.range N, B * A ^ (N + 1 - 1 - j) * x j =
        A * ∑ j ∈ Finset.range N, B * A ^ (N - 1 - j) * x j := by
      rw [Finset.mul_sum]
      apply Finset.sum_congr rfl
      intro j hj
      have hj := Finset.mem_range.mp hj
      have e : N + 1 - 1 - j = (N - 1 - j) + 1 := by omega
      rw [e, pow_succ]
      ring
    rw [this]
    have e0 : N + 1 - 1 - N = 0 := by omega
    rw [e0]
    ring

/-! ### Statistics -/

section
open MeasureTheory ProbabilityTheory

variable {Ω : Type} [MeasurableSpace Ω] {P : Measure Ω} [IsProbabilityMeasure P]

/-- The currents of all steps: in the step `j` the component `comp` of the current gets at the node `x` the number
made of the draw `(j, comp, x)`. -/
noncomputable def currentsOf (strength : ℝ) (ξ : ℕ × ℕ × Fin n → Ω → ℝ) (ω : Ω) (j comp : ℕ) : Data n :=
  fun x => whiteNoise strength (ξ (j, comp, x) ω)

/-- The weight of the random numbers of the component `c`. -/
noncomputable def drawWeight (together : Bool) (dim : ℕ) (f : List ℝ) (c : ℕ) : ℂ :=
  ∑ comp ∈ Finset.range dim, if drawsOf together dim comp = c then currentGain (fcomp f comp) else 0

theorem drawWeight_sum (together : Bool) {dim : ℕ} (hdim : 0 < dim) (f : List ℝ) (y : ℕ → ℂ) :
    ∑ comp ∈ Finset.range dim, currentGain (fcomp f comp) * y (drawsOf together dim comp) =
      ∑ c ∈ Finset.range dim, drawWeight together dim f c * y c := by
  unfold drawWeight
  simp only [Finset.sum_mul]
  rw [Finset.sum_comm]
  refine Finset.sum_congr rfl fun comp hc => ?_
  have hc := Finset.mem_range.mp hc
  rw [Finset.sum_eq_single_of_mem (drawsOf together dim comp)]
  · rw [if_pos rfl]
  · rw [Finset.mem_range]; unfold drawsOf; split_ifs <;> omega
  · intro c _ h
    rw [if_neg h.symm, zero_mul]

theorem drawWeight_power (together : Bool) {dim : ℕ} (hdim : 0 < dim) (f : List ℝ) :
    ∑ c ∈ Finset.range dim, ‖drawWeight together dim f c‖ ^ 2 = noisePower together dim f := by
  unfold drawWeight noisePower drawsOf
  cases together with
  | true =>
    simp only [if_true]
    rw [Finset.sum_eq_single_of_mem (dim - 1) (by rw [Finset.mem_range]; omega)]
    · simp
    · intro c _ h
      simp [h.symm]
  | false =>
    simp only [Bool.false_eq_true, if_false]
    refine Finset.sum_congr rfl fun c hc => ?_
    rw [Finset.sum_eq_single_of_mem c hc]
    · rw [if_pos rfl]
    · intro e _ h
      rw [if_neg h]

omit [MeasurableSpace Ω] in
theorem current_weights (S : ℝ) (ξ : ℕ × ℕ × Fin dims.prod → Ω → ℝ) (ω : Ω) (A B : ℂ) (w : ℕ → ℂ) (k : Fin dims.prod)
    (dim steps : ℕ) :
    ∑ j ∈ Finset.range steps, B * A ^ (steps - 1 - j) *
        ∑ c ∈ Finset.range dim, w c * fft dims (currentsOf S ξ ω j c) k =
      ∑ a ∈ Finset.range steps ×ˢ Finset.range dim ×ˢ (Finset.univ : Finset (Fin dims.prod)),
        (B * A ^ (steps - 1 - a.1) * w a.2.1 * (Real.sqrt (2 * S) : ℂ) * cis (-phase dims k a.2.2)) * (ξ a ω : ℂ) := by
  rw [Finset.sum_product]
  apply Finset.sum_congr rfl
  intro j _
  rw [Finset.sum_product, Finset.mul_sum]
  apply Finset.sum_congr rfl
  intro c _
  unfold fft
  rw [Finset.mul_sum, Finset.mul_sum]
  apply Finset.sum_congr rfl
  intro x _
  unfold currentsOf whiteNoise
  rw [Complex.ofReal_mul]
  ring

theorem current_square {S : ℝ} (hS : 0 ≤ S) (A B : ℂ) (w : ℕ → ℂ) (k : Fin dims.prod) (dim steps : ℕ) :
    ∑ a ∈ Finset.range steps ×ˢ Finset.range dim ×ˢ (Finset.univ : Finset (Fin dims.prod)),
        ‖B * A ^ (steps - 1 - a.1) * w a.2.1 * (Real.sqrt (2 * S) : ℂ) * cis (-phase dims k a.2.2)‖ ^ 2 =
      2 * S * (dims.prod : ℕ) * (‖B‖ ^ 2 * ∑ c ∈ Finset.range dim, ‖w c‖ ^ 2) *
        ∑ j ∈ Finset.range steps, (‖A‖ ^ 2) ^ j := by
  rw [Finset.sum_product]
  have e : ∀ j ∈ Finset.range steps, ∑ y ∈ Finset.range dim ×ˢ (Finset.univ : Finset (Fin dims.prod)),
      ‖B * A ^ (steps - 1 - j) * w y.1 * (Real.sqrt (2 * S) : ℂ) * cis (-phase dims k y.2)‖ ^ 2 =
      2 * S * (dims.prod : ℕ) * (‖B‖ ^ 2 * ∑ c ∈ Finset.range dim, ‖w c‖ ^ 2) * (‖A‖ ^ 2) ^ (steps - 1 - j) := by
    intro j _
    rw [Finset.sum_product]
    have e2 : ∀ c ∈ Finset.range dim, ∑ x : Fin dims.prod,
        ‖B * A ^ (steps - 1 - j) * w c * (Real.sqrt (2 * S) : ℂ) * cis (-phase dims k x)‖ ^ 2 =
        2 * S * (dims.prod : ℕ) * ‖B‖ ^ 2 * (‖A‖ ^ 2) ^ (steps - 1 - j) * ‖w c‖ ^ 2 := by
      intro c _
      have e1 : ∀ x : Fin dims.prod,
          ‖B * A ^ (steps - 1 - j) * w c * (Real.sqrt (2 * S) : ℂ) * cis (-phase dims k x)‖ ^ 2 =
          2 * S * ‖B‖ ^ 2 * (‖A‖ ^ 2) ^ (steps - 1 - j) * ‖w c‖ ^ 2 := by
        intro x
        rw [norm_mul, norm_mul, norm_mul, norm_mul, cis_norm, norm_pow, Complex.norm_real, Real.norm_eq_abs, mul_one,
          mul_pow, mul_pow, mul_pow, sq_abs, Real.sq_sqrt (by linarith), ← pow_mul, ← pow_mul, mul_comm _ 2]
        ring
      rw [Finset.sum_congr rfl fun x _ => e1 x, Finset.sum_const, Finset.card_univ, Fintype.card_fin, nsmul_eq_mul]
      ring
    rw [Finset.sum_congr rfl e2, ← Finset.mul_sum]
    ring
  rw [Finset.sum_congr rfl e, ← Finset.mul_sum, Finset.sum_range_reflect (fun j => (‖A‖ ^ 2) ^ j)]

/-- C129: the mean and the fluctuations of every wave of a field with conservative noise, after any number of steps. -/
theorem c129_fluctuations (hpos : ∀ d ∈ dims, 0 < d) {b0 b : Bench dims.prod} {together : Bool} {u dim : ℕ}
    (hdim : 0 < dim) (hnew : ∀ comp < dim, b0.isFieldName (currentName u comp) = false)
    (hb : b = b0.registerCurrents together u dim) (rhs : Fin b.fields.length → BuiltRHS dims.prod)
    (i : Fin b.fields.length) (s : Stepper dims.prod) (hfil : s.filter = none) (a lam : Fin dims.prod → ℂ)
    (hR : NoiseDriven (rhs i) u dim s.freq a lam) (k : Fin dims.prod) (hne : 1 - s.dt * a k ≠ 0) {S : ℝ} (hS : 0 ≤ S)
    {ξ : ℕ × ℕ × Fin dims.prod → Ω → ℝ} (hξ : NormalDraws P ξ) (st : Store b.fields.length b.derived.length dims.prod)
    (steps : ℕ) :
    ∫ ω, fft dims ((b.noisyPropagate rhs u dim (currentsOf S ξ ω) steps (s, st)).2.fields i) k ∂P =
      (1 / (1 - s.dt * a k)) ^ steps * fft dims (st.fields i) k ∧
    ∫ ω, ‖fft dims ((b.noisyPropagate rhs u dim (currentsOf S ξ ω) steps (s, st)).2.fields i) k -
        (1 / (1 - s.dt * a k)) ^ steps * fft dims (st.fields i) k‖ ^ 2 ∂P =
      2 * S * (dims.prod : ℕ) * (‖s.dt * lam k / (1 - s.dt * a k)‖ ^ 2 * noisePower together dim (s.freq k)) *
        ∑ j ∈ Finset.range steps, (‖1 / (1 - s.dt * a k)‖ ^ 2) ^ j := by
  set A := 1 / (1 - s.dt * a k) with hA
  set B := s.dt * lam k / (1 - s.dt * a k) with hB
  have hsol : ∀ ω, fft dims ((b.noisyPropagate rhs u dim (currentsOf S ξ ω) steps (s, st)).2.fields i) k =
      A ^ steps * fft dims (st.fields i) k +
      ∑ y ∈ Finset.range steps ×ˢ Finset.range dim ×ˢ (Finset.univ : Finset (Fin dims.prod)),
        (B * A ^ (steps - 1 - y.1) * drawWeight together dim (s.freq k) y.2.1 * (Real.sqrt (2 * S) : ℂ) *
          cis (-phase dims k y.2.2)) * (ξ y ω : ℂ) := by
    intro ω
    have hh := (noisy_currents (fun j => b.drawn rhs (currentDraws u dim (currentsOf S ξ ω j))) i k A B s
      (fun j => ∑ c ∈ Finset.range dim, drawWeight together dim (s.freq k) c * fft dims (currentsOf S ξ ω j c) k) (by
        intro s' e1 e2 e3 j st
        rw [c129_step hpos hdim hnew hb rhs i s' (e3.trans hfil) a lam (by rw [e2]; exact hR), e1, e2,
          drawWeight_sum together hdim (s.freq k) fun c => fft dims (currentsOf S ξ ω j c) k, hA, hB]
        field_simp) st steps).2
    rw [current_weights] at hh
    exact hh
  obtain ⟨e1, e2⟩ := draws_combination hξ (Finset.range steps ×ˢ Finset.range dim ×ˢ Finset.univ) fun y =>
    B * A ^ (steps - 1 - y.1) * drawWeight together dim (s.freq k) y.2.1 * (Real.sqrt (2 * S) : ℂ) *
      cis (-phase dims k y.2.2)
  have hdiff : ∀ ω, fft dims ((b.noisyPropagate rhs u dim (currentsOf S ξ ω) steps (s, st)).2.fields i) k -
      A ^ steps * fft dims (st.fields i) k = _ := fun ω => by rw [hsol ω, add_sub_cancel_left]
  simp only [hdiff]
  simp only [hsol]
  refine ⟨?_, ?_⟩
  · rw [integral_add (integrable_const _), e1, add_zero, integral_const]
    · simp
    · exact integrable_finsetSum _ fun y _ =>
        (((draws_memLp hξ y).integrable (by norm_num)).ofReal (𝕜 := ℂ)).const_mul _
  · rw [e2, current_square hS, drawWeight_power together hdim]

/-- C129: the fluctuations of a wave that decays at the rate `-a` settle at `dt / (1 - dt a / 2)` times
`n S |lam|² p / (-a)`, `p` being the strength of the noise at that wave. -/
theorem c129_stationary (hpos : ∀ d ∈ dims, 0 < d) {b0 b : Bench dims.prod} {together : Bool} {u dim : ℕ}
    (hdim : 0 < dim) (hnew : ∀ comp < dim, b0.isFieldName (currentName u comp) = false)
    (hb : b = b0.registerCurrents together u dim) (rhs : Fin b.fields.length → BuiltRHS dims.prod)
    (i : Fin b.fields.length) (s : Stepper dims.prod) (hfil : s.filter = none) (hdt : 0 < s.dt)
    (a lam : Fin dims.prod → ℂ) (hR : NoiseDriven (rhs i) u dim s.freq a lam) (k : Fin dims.prod) {r : ℝ} (hr : r < 0)
    (ha : a k = r) {S : ℝ} (hS : 0 ≤ S) {ξ : ℕ × ℕ × Fin dims.prod → Ω → ℝ} (hξ : NormalDraws P ξ)
    (st : Store b.fields.length b.derived.length dims.prod) :
    Filter.Tendsto (fun steps =>
      ∫ ω, ‖fft dims ((b.noisyPropagate rhs u dim (currentsOf S ξ ω) steps (s, st)).2.fields i) k -
        ∫ ω', fft dims ((b.noisyPropagate rhs u dim (currentsOf S ξ ω') steps (s, st)).2.fields i) k ∂P‖ ^ 2 ∂P)
      Filter.atTop (nhds (s.dt / (1 - s.dt * r / 2) *
        ((dims.prod : ℕ) * S * ‖lam k‖ ^ 2 * noisePower together dim (s.freq k) / -r))) := by
  have hp : s.dt * r < 0 := mul_neg_of_pos_of_neg hdt hr
  have hlt : 0 < 1 - s.dt * r := by linarith
  have e : (1 - (s.dt : ℂ) * a k) = ((1 - s.dt * r : ℝ) : ℂ) := by rw [ha]; push_cast; ring
  have hne : 1 - s.dt * a k ≠ 0 := by
    rw [e]
    exact_mod_cast hlt.ne'
  have n1 : ‖1 / (1 - (s.dt : ℂ) * a k)‖ ^ 2 = 1 / (1 - s.dt * r) ^ 2 := by
    rw [e, norm_div, norm_one, Complex.norm_real, Real.norm_eq_abs, div_pow, one_pow, sq_abs]
  have n2 : ‖s.dt * lam k / (1 - s.dt * a k)‖ ^ 2 = s.dt ^ 2 * ‖lam k‖ ^ 2 / (1 - s.dt * r) ^ 2 := by
    rw [e, norm_div, norm_mul, Complex.norm_real, Complex.norm_real, Real.norm_eq_abs, Real.norm_eq_abs, div_pow, mul_pow,
      sq_abs, sq_abs]
  have hval : ∀ steps,
      ∫ ω, ‖fft dims ((b.noisyPropagate rhs u dim (currentsOf S ξ ω) steps (s, st)).2.fields i) k -
        ∫ ω', fft dims ((b.noisyPropagate rhs u dim (currentsOf S ξ ω') steps (s, st)).2.fields i) k ∂P‖ ^ 2 ∂P =
      s.dt / (1 - s.dt * r / 2) * ((dims.prod : ℕ) * S * ‖lam k‖ ^ 2 * noisePower together dim (s.freq k) / -r) *
        (1 - (1 / (1 - s.dt * r) ^ 2) ^ steps) := by
    intro steps
    obtain ⟨e1, e2⟩ := c129_fluctuations hpos hdim hnew hb rhs i s hfil a lam hR k hne hS hξ st steps
    rw [e1, e2, ← fluctuation_value hdt hr, n1, n2]
    ring
  simp only [hval]
  have hq : Filter.Tendsto (fun steps : ℕ => (1 / (1 - s.dt * r) ^ 2) ^ steps) Filter.atTop (nhds 0) := by
    apply tendsto_pow_atTop_nhds_zero_of_lt_one (by positivity)
    rw [div_lt_one (by positivity)]
    nlinarith
  have := (hq.const_sub 1).const_mul
    (s.dt / (1 - s.dt * r / 2) * ((dims.prod : ℕ) * S * ‖lam k‖ ^ 2 * noisePower together dim (s.freq k) / -r))
  simpa using this

end

/-! ### The strength of the noise -/

theorem gain_square {f : ℝ} (h : abs (abs f - 1 / 2) > 1 / 10 ^ 6) :
    ‖currentGain f‖ ^ 2 = 4 * Real.sin (Real.pi * f) ^ 2 := by
  unfold currentGain
  rw [if_pos h, norm_mul, Complex.norm_I, one_mul, Complex.norm_real, Real.norm_eq_abs, sq_abs]
  ring

theorem sine_bounds {f : ℝ} (h : abs f ≤ 1 / 2) :
    16 * f ^ 2 ≤ 4 * Real.sin (Real.pi * f) ^ 2 ∧ 4 * Real.sin (Real.pi * f) ^ 2 ≤ 4 * Real.pi ^ 2 * f ^ 2 := by
  have e : Real.sin (Real.pi * f) ^ 2 = Real.sin (Real.pi * abs f) ^ 2 := by
    rcases abs_cases f with ⟨h, -⟩ | ⟨h, -⟩
    · rw [h]
    · rw [h, mul_neg, Real.sin_neg, neg_sq]
  have hp := Real.pi_pos
  have h0 : 0 ≤ abs f := abs_nonneg f
  have h1 : 0 ≤ Real.pi * abs f := by positivity
  have h2 : Real.pi * abs f ≤ Real.pi / 2 := by nlinarith
  have l1 : 2 / Real.pi * (Real.pi * abs f) ≤ Real.sin (Real.pi * abs f) := Real.mul_le_sin h1 h2
  have l2 : 2 / Real.pi * (Real.pi * abs f) = 2 * abs f := by field_simp
  have l3 : Real.sin (Real.pi * abs f) ≤ Real.pi * abs f := Real.sin_le h1
  rw [l2] at l1
  rw [e, ← sq_abs f]
  constructor
  · nlinarith
  · have : 0 ≤ Real.sin (Real.pi * abs f) := by linarith
    nlinarith

/-- C129: with random numbers of its own for each component, the noise acts on a wave with the strength
`Σ 4 sin²(π f_d)`, which is between `4/π²` and one times `4π²|f|²`, what the Laplacian multiplies it by, away from the
Nyquist frequency. Waves whose components are all zero or Nyquist frequencies get no noise at all. -/
theorem c129_power (f : List ℝ) (dim : ℕ) (hf : ∀ c < dim, abs (fcomp f c) ≤ 1 / 2) :
    ((∀ c < dim, abs (abs (fcomp f c) - 1 / 2) > 1 / 10 ^ 6) →
      noisePower false dim f = ∑ c ∈ Finset.range dim, 4 * Real.sin (Real.pi * fcomp f c) ^ 2 ∧
      4 / Real.pi ^ 2 * (4 * Real.pi ^ 2 * ∑ c ∈ Finset.range dim, fcomp f c ^ 2) ≤ noisePower false dim f ∧
      noisePower false dim f ≤ 4 * Real.pi ^ 2 * ∑ c ∈ Finset.range dim, fcomp f c ^ 2) ∧
    ((∀ c < dim, fcomp f c = 0 ∨ abs (fcomp f c) = 1 / 2) → ∀ together, noisePower together dim f = 0) := by
  constructor
  · intro h
    have e : noisePower false dim f = ∑ c ∈ Finset.range dim, 4 * Real.sin (Real.pi * fcomp f c) ^ 2 := by
      unfold noisePower
      simp only [Bool.false_eq_true, if_false]
      exact Finset.sum_congr rfl fun c hc => gain_square (h c (Finset.mem_range.mp hc))
    refine ⟨e, ?_, ?_⟩
    · rw [e]
      have hp := Real.pi_pos
      have : 4 / Real.pi ^ 2 * (4 * Real.pi ^ 2 * ∑ c ∈ Finset.range dim, fcomp f c ^ 2) =
          ∑ c ∈ Finset.range dim, 16 * fcomp f c ^ 2 := by
        rw [← Finset.mul_sum]
        field_simp
        ring
      rw [this]
      exact Finset.sum_le_sum fun c hc => (sine_bounds (hf c (Finset.mem_range.mp hc))).1
    · rw [e, Finset.mul_sum]
      exact Finset.sum_le_sum fun c hc => (sine_bounds (hf c (Finset.mem_range.mp hc))).2
  · intro h together
    have hz : ∀ c ∈ Finset.range dim, currentGain (fcomp f c) = 0 := by
      intro c hc
      unfold currentGain
      rcases h c (Finset.mem_range.mp hc) with h | h
      · rw [h]; simp
      · rw [h]; norm_num
    unfold noisePower
    rw [Finset.sum_eq_zero hz, Finset.sum_eq_zero fun c hc => by rw [hz c hc]; simp]
    simp

/-- C129: if the currents are registered together, the noise is not the same in all directions: in two dimensions it
does not act at all on waves with opposite components of the frequency, and it acts on waves with equal components
with twice the strength it has otherwise. -/
theorem c129_shared (f : ℝ) (hf : abs (abs f - 1 / 2) > 1 / 10 ^ 6) :
    noisePower true 2 [f, -f] = 0 ∧ noisePower true 2 [f, f] = 2 * noisePower false 2 [f, f] ∧
    noisePower false 2 [f, -f] = noisePower false 2 [f, f] ∧
    (abs f < 1 / 2 → f ≠ 0 → 0 < noisePower false 2 [f, -f]) := by
  have hodd : currentGain (-f) = -currentGain f := by
    unfold currentGain
    rw [abs_neg, if_pos hf, if_pos hf, mul_neg, Real.sin_neg]
    push_cast
    ring
  have c0 : ∀ g : ℝ, fcomp [f, g] 0 = f := fun g => rfl
  have c1 : ∀ g : ℝ, fcomp [f, g] 1 = g := fun g => rfl
  unfold noisePower
  simp only [Finset.sum_range_succ, Finset.sum_range_zero, c0, c1, hodd, if_true, Bool.false_eq_true, if_false, zero_add,
    norm_neg]
  refine ⟨by simp, ?_, trivial, ?_⟩
  · rw [← two_mul, norm_mul, mul_pow]
    norm_num
    ring
  · intro h1 h2
    have h3 := (sine_bounds h1.le).1
    rw [gain_square hf]
    have : 0 < f ^ 2 := by positivity
    linarith

/-! ### Diffusion with conservative noise -/

/-- C129: the text `d<field>/dt = LAP <diff> + <noise>`, where `diff` names an implicit term, the constant `D`, and
`noise` an explicit term, the conservative noise, is a diffusion equation driven by the noise. -/
theorem c129_diffusion (D : ℝ) (u dim : ℕ) (m : EqModel n) (diff noise : Str) (hdn : "LAP".toList ++ diff ≠ noise)
    (hd1 : checkName diff = some ()) (hd2 : diff.head? ≠ some '^') (hd3 : IsTerm ['+', '-'] ("LAP".toList ++ diff))
    (hd4 : m.implicitTerms.lookup diff = some fun _ _ _ _ => (D : ℂ)) (hn1 : checkName noise = some ())
    (hn2 : noise.head? ≠ some '^') (hn3 : IsTerm ['+', '-'] noise) (hn4 : m.implicitTerms.lookup noise = none)
    (hn5 : m.explicitTerms.lookup noise = some (noiseConstruct u dim))
    (heq : '=' ∉ "LAP".toList ++ diff ++ '+' :: noise) (field : Str) (hne : field ≠ []) (hfe : '=' ∉ field) :
    ∃ R, build ('d' :: (field ++ "/dt".toList) ++ '=' :: ("LAP".toList ++ diff ++ '+' :: noise)) m = some R ∧
      ∀ freq, NoiseDriven R u dim freq (fun k => D * laplaceSymbol (freq k)) fun _ => 1 := by
  have hlap : ∀ f : List ℝ, prefixSymbol "LAP".toList f = laplaceSymbol f := by
    intro f
    unfold prefixSymbol
    rw [if_neg (by decide), if_pos rfl]
  have hop : IsOperator "LAP".toList := List.mem_map.mpr ⟨"LAP", by decide, rfl⟩
  generalize "LAP".toList = lap at *
  obtain ⟨R, hR, hv⟩ := c129_text m field hne hfe ⟨none, lap ++ diff, [('+', noise)]⟩
    ⟨by simp, hd3, by
      intro p hp
      obtain rfl := List.mem_singleton.mp hp
      exact ⟨by simp, hn3⟩⟩
    (by simpa [SignedSum.render, renderTail] using heq)
    (fun x => if x = lap ++ diff then fun _ _ _ _ => 0 else noiseConstruct u dim)
    (fun x => if x = lap ++ diff then fun _ freq _ k => D * laplaceSymbol (freq k) else fun _ _ _ _ => 0) (by
      intro p hp
      have hp : p = (lap ++ diff, none) ∨ p = (noise, some '+') := by
        simpa [SignedSum.terms] using hp
      rcases hp with rfl | rfl
      · refine Or.inr ⟨⟨[lap], diff, fun _ _ _ _ => (D : ℂ), ?_, by simp, hd1, hd2, hd4, ?_⟩, ?_⟩
        · intro p hp
          obtain rfl := List.mem_singleton.mp hp
          exact hop
        · intro b freq t k
          dsimp only
          rw [if_pos rfl, List.map_cons, List.map_nil, List.prod_cons, List.prod_nil, hlap]
          ring
        · intro b freq t k
          dsimp only
          rw [if_pos rfl]
      · refine Or.inl ⟨⟨[], noise, noiseConstruct u dim, by simp, by simp, hn1, hn2, hn4, hn5, ?_⟩, ?_⟩
        · intro b freq t k
          dsimp only
          rw [if_neg hdn.symm]
          simp
        · intro b freq t k
          dsimp only
          rw [if_neg hdn.symm])
  refine ⟨R, by simpa [SignedSum.render, renderTail] using hR, fun freq => ⟨fun b t k => ?_, fun b t k => ?_⟩⟩
  · rw [(hv b freq t k).2]
    simp only [SignedSum.terms, List.map_cons, List.map_nil, List.sum_cons, List.sum_nil]
    rw [if_pos trivial, if_neg hdn.symm]
    simp [delimSign]
  · rw [(hv b freq t k).1]
    simp only [SignedSum.terms, List.map_cons, List.map_nil, List.sum_cons, List.sum_nil]
    rw [if_pos trivial, if_neg hdn.symm]
    simp [delimSign]

theorem sum_squares (f : List ℝ) : (f.map fun x => x ^ 2).sum = ∑ c ∈ Finset.range f.length, fcomp f c ^ 2 := by
  rw [Finset.sum_range, ← List.sum_ofFn]
  congr 1
  apply List.ext_getElem
  · simp
  · intro c h1 h2
    have hc : c < f.length := by simpa using h1
    simp [fcomp]

open MeasureTheory ProbabilityTheory in
/-- C129: diffusion with conservative noise whose components have random numbers of their own. The fluctuations of
every wave other than the uniform one and away from the Nyquist frequency settle between `4/π²` and one times
`dt / (1 + 2π² D |f|² dt) n S / D`; for noise with the correlation function of the documentation in space and time
they would be `n S / D`, the same for all waves. -/
theorem c129_equilibrium {Ω : Type} [MeasurableSpace Ω] {P : Measure Ω} [IsProbabilityMeasure P]
    (hpos : ∀ d ∈ dims, 0 < d) {b0 b : Bench dims.prod} {u dim : ℕ}
    (hdim : 0 < dim) (hnew : ∀ comp < dim, b0.isFieldName (currentName u comp) = false)
    (hb : b = b0.registerCurrents false u dim) (rhs : Fin b.fields.length → BuiltRHS dims.prod)
    (i : Fin b.fields.length) (s : Stepper dims.prod) (hfil : s.filter = none) (hdt : 0 < s.dt) {D : ℝ} (hD : 0 < D)
    (hR : NoiseDriven (rhs i) u dim s.freq (fun k => D * laplaceSymbol (s.freq k)) fun _ => 1) (k : Fin dims.prod)
    (hlen : (s.freq k).length = dim) (hmax : ∀ c < dim, abs (fcomp (s.freq k) c) ≤ 1 / 2)
    (hnyq : ∀ c < dim, abs (abs (fcomp (s.freq k) c) - 1 / 2) > 1 / 10 ^ 6) (hk : ∃ c < dim, fcomp (s.freq k) c ≠ 0)
    {S : ℝ} (hS : 0 ≤ S) {ξ : ℕ × ℕ × Fin dims.prod → Ω → ℝ} (hξ : NormalDraws P ξ)
    (st : Store b.fields.length b.derived.length dims.prod) :
    ∃ v : ℝ, 4 / Real.pi ^ 2 ≤ v ∧ v ≤ 1 ∧ Filter.Tendsto (fun steps =>
      ∫ ω, ‖fft dims ((b.noisyPropagate rhs u dim (currentsOf S ξ ω) steps (s, st)).2.fields i) k -
        ∫ ω', fft dims ((b.noisyPropagate rhs u dim (currentsOf S ξ ω') steps (s, st)).2.fields i) k ∂P‖ ^ 2 ∂P)
      Filter.atTop (nhds (v * (s.dt / (1 + 2 * Real.pi ^ 2 * D * ((s.freq k).map fun x => x ^ 2).sum * s.dt) *
        ((dims.prod : ℕ) * S / D)))) := by
  set q := ∑ c ∈ Finset.range dim, fcomp (s.freq k) c ^ 2 with hq
  have hqs : ((s.freq k).map fun x => x ^ 2).sum = q := by rw [sum_squares, hlen]
  have hq0 : 0 < q := by
    obtain ⟨c, hc, hne⟩ := hk
    exact Finset.sum_pos' (fun c _ => sq_nonneg _) ⟨c, Finset.mem_range.mpr hc, by positivity⟩
  have hp := Real.pi_pos
  obtain ⟨-, p2, p3⟩ := (c129_power (s.freq k) dim hmax).1 hnyq
  rw [← hq] at p2 p3
  have hr : -(D * (4 * Real.pi ^ 2 * q)) < 0 := by
    have : 0 < D * (4 * Real.pi ^ 2 * q) := by positivity
    linarith
  have hlim := c129_stationary hpos hdim hnew hb rhs i s hfil hdt _ _ hR k hr (by
    unfold laplaceSymbol
    rw [hqs]
    push_cast
    ring) hS hξ st
  refine ⟨noisePower false dim (s.freq k) / (4 * Real.pi ^ 2 * q), ?_, ?_, ?_⟩
  · rw [le_div_iff₀ (by positivity)]
    exact p2
  · rw [div_le_one (by positivity)]
    exact p3
  · convert hlim using 2
    rw [hqs, norm_one]
    have h1 : 1 + 2 * Real.pi ^ 2 * D * q * s.dt ≠ 0 := by positivity
    have h2 : 1 - s.dt * -(D * (4 * Real.pi ^ 2 * q)) / 2 = 1 + 2 * Real.pi ^ 2 * D * q * s.dt := by ring
    rw [h2]
    field_simp

/-! ### A concrete case -/

/-- The hypotheses of the theorems hold for a field `conc` on a 4×4 grid, for both ways of registering the currents. -/
example (together : Bool) (D dt : ℝ) (hdt : 0 < dt) (k : Fin [4, 4].prod) (hk : k.val = 1) :
    let b0 : Bench [4, 4].prod := Bench.empty.addField "conc".toList
    let s : Stepper [4, 4].prod := ⟨dt, freqOf [4, 4], none, 0⟩
    (∀ comp < 2, b0.isFieldName (currentName 7 comp) = false) ∧
    (b0.registerCurrents together 7 2).fields = ["conc".toList] ∧
    (∃ m1 m2 R, (EqModel.empty (n := [4, 4].prod)).registerImplicit "DIFF".toList (fun _ _ _ _ => (D : ℂ)) = some m1 ∧
      m1.registerExplicit "NOISE".toList (noiseConstruct 7 2) = some m2 ∧
      build "dconc/dt=LAPDIFF+NOISE".toList m2 = some R ∧
      NoiseDriven R 7 2 s.freq (fun k => D * laplaceSymbol (s.freq k)) fun _ => 1) ∧
    s.freq k = [0, 1 / 4] := by
  refine ⟨?_, ?_, ?_, ?_⟩
  · intro comp hc
    have h2 : ("conc".toList == currentName 7 comp) = false := by
      have : currentName 7 comp ≠ "conc".toList := by
        intro h
        have h1 : (currentName 7 comp).length = 4 := by rw [h]; decide
        unfold currentName at h1
        have e : "_current_".toList.length = 9 := by decide
        rw [List.length_append, List.length_append, e] at h1
        omega
      simpa using this.symm
    unfold Bench.isFieldName Bench.addField Bench.empty
    simpa using fun h => absurd h.symm (by simpa using h2)
  · cases together <;> rfl
  · have c1 : checkName "DIFF".toList = some () := (c98_accepted _).mpr (by decide)
    have c2 : checkName "NOISE".toList = some () := (c98_accepted _).mpr (by decide)
    have e1 : (EqModel.empty (n := [4, 4].prod)).registerImplicit "DIFF".toList (fun _ _ _ _ => (D : ℂ)) =
        some { EqModel.empty with implicitTerms := [("DIFF".toList, fun _ _ _ _ => (D : ℂ))] } := by
      unfold EqModel.registerImplicit
      rw [c1]
      rfl
    have e2 : ({ EqModel.empty with implicitTerms := [("DIFF".toList, fun _ _ _ _ => (D : ℂ))] } :
        EqModel [4, 4].prod).registerExplicit "NOISE".toList (noiseConstruct 7 2) =
        some { EqModel.empty with implicitTerms := [("DIFF".toList, fun _ _ _ _ => (D : ℂ))],
                                  explicitTerms := [("NOISE".toList, noiseConstruct 7 2)] } := by
      unfold EqModel.registerExplicit
      rw [c2]
      rfl
    obtain ⟨R, h1, h2⟩ := c129_diffusion (n := [4, 4].prod) D 7 2
      { EqModel.empty with implicitTerms := [("DIFF".toList, fun _ _ _ _ => (D : ℂ))],
                           explicitTerms := [("NOISE".toList, noiseConstruct 7 2)] }
      "DIFF".toList "NOISE".toList (by decide) c1 (by decide) ⟨by decide, by decide⟩ rfl c2 (by decide)
      ⟨by decide, by decide⟩ rfl rfl (by decide) "conc".toList (by decide) (by decide)
    exact ⟨_, _, R, e1, e2, h1, h2 _⟩
  · have : freq ([4, 4].map Int.ofNat) 1 = some [0, 1 / 4] := by decide +kernel
    show freqOf [4, 4] k = _
    unfold freqOf
    rw [hk]
    simp only [Nat.cast_one, this, Option.getD_some]
    simp

end Gopf.Props
