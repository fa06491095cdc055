import Verif.Model.Register
import Verif.Props.Prefix
import Verif.Props.Concrete
import Mathlib.Analysis.Real.Pi.Bounds
import Mathlib.Tactic.NormNum
import Mathlib.Tactic.Linarith

/-!
# C77, C98, C99, C101: reserved names, registered terms, equation numbers
-/

namespace Gopf.Props
open Gopf Gopf.Pf

variable {n : ℕ}

/-! ## C77: the check of implicit terms -/

/-- C77: terms that do not depend on the bricks are accepted. -/
theorem c77_field_free (t : BTerm n) (ht : ∀ b b', t b = t b') (b : Bricks n) (freq : Frequency n) :
    isImplicit t b freq := by
  intro i
  rw [ht (perturbedBricks b) b]
  norm_num

/-- C77: a term that is affine in the bricks, with coefficients that depend on the frequency, is accepted
by `Init` exactly if the sum of the coefficients at the frequency (0.4, 0.4) is at most 5e-10 in both
parts. -/
theorem c77_affine (hn : 0 < n) (names : List Str) (c : Str → List ℝ → ℂ) (d : List ℝ → ℂ) (b : Bricks n) :
    isImplicit (fun b freq _ i => (names.map fun s => c s (freq i) * b s i).sum + d (freq i)) b
        (probeFreq n) ↔
      |((names.map fun s => c s [0.4, 0.4]).sum).re| ≤ 5 / 10 ^ 10 ∧
        |((names.map fun s => c s [0.4, 0.4]).sum).im| ≤ 5 / 10 ^ 10 := by
  have key : ∀ i : Fin n, ((names.map fun s => c s (probeFreq n i) * perturbedBricks b s i).sum +
      d (probeFreq n i)) = ((names.map fun s => c s (probeFreq n i) * b s i).sum + d (probeFreq n i)) +
        (names.map fun s => c s [0.4, 0.4]).sum * ((0.2 : ℝ) : ℂ) := by
    intro i
    have : ∀ l : List Str, (l.map fun s => c s (probeFreq n i) * perturbedBricks b s i).sum =
        (l.map fun s => c s (probeFreq n i) * b s i).sum +
          (l.map fun s => c s [0.4, 0.4]).sum * ((0.2 : ℝ) : ℂ) := by
      intro l
      induction l with
      | nil => simp
      | cons s l ih =>
        simp only [List.map_cons, List.sum_cons]
        rw [ih]
        simp only [perturbedBricks, probeFreq]
        ring
    rw [this]
    ring
  unfold isImplicit cmplxEqualApprox
  simp only [key]
  generalize (names.map fun s => c s [0.4, 0.4]).sum = S
  have hre : ∀ z : ℂ, z.re - (z + S * ((0.2 : ℝ) : ℂ)).re = -(S.re * 0.2) := by
    intro z
    rw [Complex.add_re, Complex.re_mul_ofReal]
    ring
  have him : ∀ z : ℂ, z.im - (z + S * ((0.2 : ℝ) : ℂ)).im = -(S.im * 0.2) := by
    intro z
    rw [Complex.add_im, Complex.im_mul_ofReal]
    ring
  simp only [hre, him, abs_neg, abs_mul, not_or, not_lt, gt_iff_lt]
  have h02 : |(0.2 : ℝ)| = 1 / 5 := by rw [abs_of_pos] <;> norm_num
  rw [h02]
  constructor
  · intro h
    obtain ⟨h1, h2⟩ := h ⟨0, hn⟩
    norm_num at h1 h2 ⊢
    constructor <;> linarith
  · rintro ⟨h1, h2⟩ _
    norm_num at h1 h2 ⊢
    constructor <;> linarith

/-- C77: the difference of two fields is accepted as implicit although it depends on the fields. -/
theorem c77_difference (hn : 0 < n) :
    let t : BTerm n := fun b _ _ i => b "conc".toList i - b "eta".toList i
    (∀ b, isImplicit t b (probeFreq n)) ∧ ∃ b b', t b (probeFreq n) 0 ≠ t b' (probeFreq n) 0 := by
  intro t
  constructor
  · intro b
    have h := (c77_affine hn ["conc".toList, "eta".toList]
      (fun s _ => if s = "conc".toList then 1 else -1) (fun _ => 0) b).mpr (by
        rw [List.map_cons, List.map_cons, List.map_nil, if_pos rfl, if_neg (by decide)]
        norm_num)
    convert h using 1
    funext b freq _ i
    simp only [t, List.map_cons, List.map_nil, List.sum_cons, List.sum_nil]
    rw [if_pos trivial, if_neg (by decide)]
    ring
  · refine ⟨fun _ _ => 0, fun s _ => if s = "conc".toList then 1 else 0, fun h => ?_⟩
    have := congrFun h ⟨0, hn⟩
    simp only [t, if_true] at this
    rw [if_neg (by decide)] at this
    norm_num at this

/-- C77: only one frequency is tested: a term that depends on a field wherever the two frequency
components differ is accepted. -/
theorem c77_one_frequency (hn : 0 < n) :
    let t : BTerm n := fun b freq _ i =>
      (((freq i)[0]?.getD 0 - (freq i)[1]?.getD 0 : ℝ) : ℂ) * b "conc".toList i
    (∀ b, isImplicit t b (probeFreq n)) ∧ ∃ b b' freq, t b freq 0 ≠ t b' freq 0 := by
  intro t
  constructor
  · intro b
    have h := (c77_affine hn ["conc".toList]
      (fun _ f => ((f[0]?.getD 0 - f[1]?.getD 0 : ℝ) : ℂ)) (fun _ => 0) b).mpr (by norm_num)
    convert h using 1
    funext b freq _ i
    simp [t]
  · refine ⟨fun _ _ => 0, fun _ _ => 1, fun _ => [1, 0], fun h => ?_⟩
    have := congrFun h ⟨0, hn⟩
    simp [t] at this

/-- C77: a coefficient that is read from a scalar of the model, which no time step changes, is not
accepted. -/
theorem c77_scalar_rejected (hn : 0 < n) (scalar : Str) (b : Bricks n) (symbol : List ℝ → ℂ)
    (hs : 5 / 10 ^ 10 < |(symbol [0.4, 0.4]).re|) :
    ¬ isImplicit (fun b freq _ i => symbol (freq i) * b scalar i) b (probeFreq n) := by
  intro h
  have h' := (c77_affine hn [scalar] (fun _ f => symbol f) (fun _ => 0) b).mp (by
    convert h using 1
    funext b freq _ i
    simp)
  simp only [List.map_cons, List.map_nil, List.sum_cons, List.sum_nil, add_zero] at h'
  linarith [h'.1]

example : ¬ isImplicit (fun b freq _ i => laplaceSymbol (freq i) * b "mob".toList i)
    (fun _ _ => 1 : Bricks 4) (probeFreq 4) :=
  c77_scalar_rejected (by norm_num) _ _ laplaceSymbol (by
    have := Real.pi_gt_three
    unfold laplaceSymbol
    rw [← Complex.ofReal_neg, Complex.ofReal_re, abs_neg, abs_of_nonneg (by norm_num; positivity)]
    norm_num
    nlinarith)

/-- C77: after registering an affine term, `Init` accepts the model exactly if it accepted the other implicit terms
and this one meets the condition of `c77_affine`. -/
theorem c77_init (hn : 0 < n) (m m' : EqModel n) (name : Str) (hnew : m.implicitTerms.lookup name = none)
    (names : List Str) (c : Str → List ℝ → ℂ) (d : List ℝ → ℂ) (b : Bricks n)
    (hreg : m.registerImplicit name (fun b freq _ i => (names.map fun s => c s (freq i) * b s i).sum + d (freq i)) =
      some m') :
    m'.implicitChecked b ↔ m.implicitChecked b ∧
      |((names.map fun s => c s [0.4, 0.4]).sum).re| ≤ 5 / 10 ^ 10 ∧
        |((names.map fun s => c s [0.4, 0.4]).sum).im| ≤ 5 / 10 ^ 10 := by
  rw [← c77_affine hn names c d b]
  generalize (fun b freq _ i => (names.map fun s => c s (freq i) * b s i).sum + d (freq i) : BTerm n) = t at hreg ⊢
  unfold EqModel.registerImplicit at hreg
  rw [Option.map_eq_some_iff] at hreg
  obtain ⟨_, -, rfl⟩ := hreg
  have hl : ∀ x, List.lookup x ((name, t) :: m.implicitTerms) = if x = name then some t else m.implicitTerms.lookup x := by
    intro x
    rw [List.lookup_cons]
    by_cases h : x = name
    · simp [h]
    · have : (x == name) = false := by simpa using h
      simp [h, this]
  unfold EqModel.implicitChecked
  simp only [hl]
  constructor
  · intro h
    refine ⟨fun x u hu => h x u ?_, h name t (by simp)⟩
    rw [if_neg (by rintro rfl; rw [hnew] at hu; cases hu), hu]
  · rintro ⟨h1, h2⟩ x u hu
    split_ifs at hu with hx
    · cases hu; exact h2
    · exact h1 x u hu

/-! ## C98: reserved names -/

/-- The words a name must not begin with. -/
def reserved : List String := ["-", "*", "LAP"]

/-- C98: exactly the names that do not begin with one of the reserved words are accepted. -/
theorem c98_accepted (name : Str) :
    checkName name = some () ↔ ∀ w ∈ reserved, ¬ w.toList <+: name := by
  have hl := c15_lossless name
  have hk := (c15_complete name).1
  have hc := (c15_complete name).2
  constructor
  · intro h
    have h0 : getKnownPrefixes name = [] := by
      unfold checkName at h
      split_ifs at h with hp
      exact List.length_eq_zero_iff.mp (by omega)
    rw [h0] at hl
    simp only [List.flatten_nil, List.nil_append] at hl
    rw [hl] at hc
    intro w hw
    exact hc w (by simp only [reserved, operatorPrefixes, List.mem_cons] at *; tauto)
  · intro h
    unfold checkName
    rw [if_neg]
    intro hp
    obtain ⟨p, ps, he⟩ := List.exists_cons_of_length_pos hp
    have hp := hk p (by rw [he]; simp)
    have hpre : p <+: name := by
      rw [← hl, he, List.flatten_cons, List.append_assoc]
      exact List.prefix_append _ _
    simp only [operatorPrefixes, List.map_cons, List.map_nil, List.mem_cons, List.not_mem_nil, or_false] at hp
    have hL : "LAP".toList <+: "LAP^4".toList := ⟨"^4".toList, rfl⟩
    have hL2 : "LAP".toList <+: "LAP^2".toList := ⟨"^2".toList, rfl⟩
    rcases hp with rfl | rfl | rfl | rfl | rfl
    · exact h "-" (by simp [reserved]) hpre
    · exact h "LAP" (by simp [reserved]) (hL.trans hpre)
    · exact h "LAP" (by simp [reserved]) (hL2.trans hpre)
    · exact h "LAP" (by simp [reserved]) hpre
    · exact h "*" (by simp [reserved]) hpre

/-- C98: a term whose text contains `LAP` anywhere, for instance within the name of a scalar, is
evaluated with a Laplacian. -/
theorem c98_hidden_laplacian (m : EqModel n) (before after : Str) (delim : Option Char) (c : Concrete)
    (h : concreteTerm (before ++ "LAP".toList ++ after) delim m = some c) : c.lap ≠ none := by
  have hc : ∀ s : Str, contains "LAP".toList (s ++ "LAP".toList ++ after) = true := by
    intro s
    induction s with
    | nil => rfl
    | cons x s ih =>
      rw [List.cons_append, List.cons_append, contains, ih, Bool.or_true]
  unfold concreteTerm at h
  simp only [hc before, if_true] at h
  rw [Option.bind_eq_bind, Option.bind_eq_some_iff] at h
  obtain ⟨sc, -, h⟩ := h
  rw [Option.bind_eq_bind, Option.bind_eq_some_iff] at h
  obtain ⟨p, -, h⟩ := h
  rw [← Option.some.inj h]
  simp

/-- C98: the name `OVERLAP` is accepted for a scalar; the term `OVERLAP*conc` of the equation of `eta`
is then read as `LAP(OVERLAP*conc)`. -/
theorem c98_overlap : checkName "OVERLAP".toList = some () ∧
    (((((EqModel.empty (n := 1)).addField "conc".toList).addField "eta".toList).addScalar
      "OVERLAP".toList).addEquation "deta/dt=OVERLAP*conc".toList).bind (fun m =>
        (concreteTerm "OVERLAP*conc".toList none m).map fun c => (c.field, c.lap, c.scalars.map Prod.fst)) =
      some ("conc".toList, some 1, ["OVERLAP".toList]) := by
  refine ⟨(c98_accepted _).mpr (by decide), by decide +kernel⟩

/-! ## C99: numbers of equations -/

private theorem beforeDt_spec (f rest : Str) (hf : '/' ∉ f) :
    EqModel.beforeDt (f ++ "/dt".toList ++ rest) = some f := by
  induction f with
  | nil => rfl
  | cons x f ih =>
    have hx : x ≠ '/' := fun e => hf (by simp [e])
    rw [List.cons_append, List.cons_append, EqModel.beforeDt, if_neg]
    · rw [ih (fun h => hf (by simp [h]))]
      rfl
    · intro h
      rw [List.isPrefixOf_iff_prefix] at h
      obtain ⟨r, hr⟩ := h
      have : '/' = x := by
        have := congrArg List.head? hr
        simpa using this
      exact hx this.symm

/-- C99: with equations `d<name>/dt=...`, the number returned for a field is that of the first equation
with its name on the left-hand side; without such an equation the call panics. -/
theorem c99_number (m : EqModel n) (eqs : List (Str × Str)) (hf : ∀ e ∈ eqs, '/' ∉ e.1)
    (hm : m.equations = eqs.map fun e => "d".toList ++ e.1 ++ "/dt".toList ++ e.2) (name : Str) :
    m.eqNumber name = eqs.findIdx? fun e => decide (e.1 = name) := by
  unfold EqModel.eqNumber
  rw [hm, List.findIdx?_map]
  have hcap : ∀ e ∈ eqs, EqModel.leibnizCapture ("d".toList ++ e.1 ++ "/dt".toList ++ e.2) = some e.1 := by
    intro e he
    show EqModel.leibnizCapture ('d' :: (e.1 ++ "/dt".toList ++ e.2)) = _
    rw [EqModel.leibnizCapture, if_pos rfl, beforeDt_spec _ _ (hf e he)]
  clear hm hf
  induction eqs with
  | nil => rfl
  | cons e es ih =>
    rw [List.findIdx?_cons, List.findIdx?_cons, ih fun x hx => hcap x (by simp [hx])]
    simp only [Function.comp, hcap e (by simp), Option.some.injEq]

/-- C99: whatever the equations are, the equation of the returned number contains `d<name>/dt`; in
particular an equation without a time derivative is never chosen. -/
theorem c99_contains (m : EqModel n) (name : Str) {i : ℕ} (h : m.eqNumber name = some i) :
    ∃ eq pre post : Str, m.equations[i]? = some eq ∧ eq = pre ++ ('d' :: name) ++ "/dt".toList ++ post := by
  have hb : ∀ s r : Str, EqModel.beforeDt s = some r → ∃ post, s = r ++ "/dt".toList ++ post := by
    intro s
    induction s with
    | nil => intro r hr; rw [EqModel.beforeDt] at hr; simp at hr
    | cons x xs ih =>
      intro r hr
      rw [EqModel.beforeDt] at hr
      split_ifs at hr with hp
      · obtain ⟨post, hpost⟩ := List.isPrefixOf_iff_prefix.mp hp
        cases hr
        exact ⟨post, hpost.symm⟩
      · obtain ⟨r', h1, rfl⟩ := Option.map_eq_some_iff.mp hr
        obtain ⟨post, e⟩ := ih r' h1
        exact ⟨post, by rw [e]; simp⟩
  have hc : ∀ s r : Str, EqModel.leibnizCapture s = some r →
      ∃ pre post, s = pre ++ ('d' :: r) ++ "/dt".toList ++ post := by
    intro s
    induction s with
    | nil => intro r hr; simp [EqModel.leibnizCapture] at hr
    | cons x xs ih =>
      intro r hr
      have hrec : EqModel.leibnizCapture xs = some r →
          ∃ pre post, x :: xs = pre ++ ('d' :: r) ++ "/dt".toList ++ post := by
        intro h1
        obtain ⟨pre, post, e⟩ := ih r h1
        exact ⟨x :: pre, post, by rw [e]; simp⟩
      rw [EqModel.leibnizCapture] at hr
      split_ifs at hr with hx
      · cases hbd : EqModel.beforeDt xs with
        | some r' =>
          rw [hbd] at hr
          cases hr
          obtain ⟨post, e⟩ := hb _ _ hbd
          exact ⟨[], post, by rw [hx, e]; simp⟩
        | none => rw [hbd] at hr; exact hrec hr
      · exact hrec hr
  unfold EqModel.eqNumber at h
  rw [List.findIdx?_eq_some_iff_getElem] at h
  obtain ⟨hi, hcap, -⟩ := h
  obtain ⟨pre, post, e⟩ := hc _ _ (of_decide_eq_true hcap)
  exact ⟨_, pre, post, List.getElem?_eq_getElem hi, e⟩

/-- C99: the number counts equations, not fields. With equations added in another order than the fields,
the number found for `eta` is 0, which the model uses for the first field, `conc`. -/
theorem c99_not_field_number :
    (((((EqModel.empty (n := 1)).addField "conc".toList).addField "eta".toList).addEquation
      "deta/dt=conc".toList).bind fun m => (m.addEquation "dconc/dt=eta".toList)).bind (fun m =>
        (m.eqNumber "eta".toList).bind fun i => m.fields.getD i [] |> some) = some "conc".toList := by
  decide +kernel

/-! ## C101: registered terms in equations -/

/-- The operators that may be written in front of a registered term. -/
def IsOperator (p : Str) : Prop := p ∈ operatorPrefixes.map String.toList

private theorem loop_neg (p : Str) (ps : List Str) (str : Str) (h : p.isPrefixOf str = false) :
    getPrefixesLoop (p :: ps) str = getPrefixesLoop ps str := by
  rw [getPrefixesLoop, dif_neg (by rw [h]; simp)]

private theorem loop_pos (p : Str) (ps : List Str) (rest : Str) (h : p ≠ []) :
    getPrefixesLoop (p :: ps) (p ++ rest) = p :: getPrefixesLoop knownPrefixes rest := by
  rw [getPrefixesLoop, dif_pos ⟨List.isPrefixOf_iff_prefix.mpr (List.prefix_append _ _), h⟩,
    List.drop_left]

/-- Operators in front of an accepted name are read as written, if the name does not begin with `^`. -/
theorem read_operators (name : Str) (hname : checkName name = some ()) (hcaret : name.head? ≠ some '^') :
    ∀ ps : List Str, (∀ p ∈ ps, IsOperator p) →
      getKnownPrefixes (ps.flatten ++ name) = ps ∧ removeKnownPrefixes (ps.flatten ++ name) = name := by
  have hhead : ∀ ps : List Str, (∀ p ∈ ps, IsOperator p) → (ps.flatten ++ name).head? ≠ some '^' := by
    intro ps hps
    cases ps with
    | nil => simpa using hcaret
    | cons p ps =>
      have hp := hps p (by simp)
      simp only [IsOperator, operatorPrefixes, List.map_cons, List.map_nil, List.mem_cons, List.not_mem_nil,
        or_false] at hp
      rcases hp with rfl | rfl | rfl | rfl | rfl <;> simp
  intro ps
  induction ps with
  | nil =>
    intro _
    simp only [List.flatten_nil, List.nil_append]
    have h0 : getKnownPrefixes name = [] := by
      unfold checkName at hname
      split_ifs at hname with hp
      exact List.length_eq_zero_iff.mp (by omega)
    refine ⟨h0, ?_⟩
    have hl := c15_lossless name
    rw [h0] at hl
    simpa using hl
  | cons p ps ih =>
    intro hps
    obtain ⟨i1, i2⟩ := ih fun q hq => hps q (by simp [hq])
    have hh := hhead ps fun q hq => hps q (by simp [hq])
    have hg : getKnownPrefixes ((p :: ps).flatten ++ name) = p :: getKnownPrefixes (ps.flatten ++ name) := by
      rw [List.flatten_cons, List.append_assoc]
      generalize ps.flatten ++ name = rest at hh
      have hp := hps p (by simp)
      simp only [IsOperator, operatorPrefixes, List.map_cons, List.map_nil, List.mem_cons, List.not_mem_nil,
        or_false] at hp
      unfold getKnownPrefixes
      have hcar : ∀ tl, rest ≠ '^' :: tl := by
        rintro tl rfl
        simp at hh
      have hno4 : "LAP^4".toList.isPrefixOf ("LAP".toList ++ rest) = false := by
        cases rest with
        | nil => rfl
        | cons x xs =>
          have : x ≠ '^' := fun e => hcar xs (by rw [e])
          simp [List.isPrefixOf, this.symm]
      have hno2 : "LAP^2".toList.isPrefixOf ("LAP".toList ++ rest) = false := by
        cases rest with
        | nil => rfl
        | cons x xs =>
          have : x ≠ '^' := fun e => hcar xs (by rw [e])
          simp [List.isPrefixOf, this.symm]
      have hlist : knownPrefixes =
        ["-".toList, "LAP^4".toList, "LAP^2".toList, "LAP".toList, "*".toList] := rfl
      rcases hp with rfl | rfl | rfl | rfl | rfl
      · conv_lhs => rw [hlist]
        rw [loop_pos _ _ _ (by decide)]
      · conv_lhs => rw [hlist]
        rw [loop_neg _ _ _ rfl, loop_pos _ _ _ (by decide)]
      · conv_lhs => rw [hlist]
        rw [loop_neg _ _ _ rfl, loop_neg _ _ _ rfl, loop_pos _ _ _ (by decide)]
      · conv_lhs => rw [hlist]
        rw [loop_neg _ _ _ rfl, loop_neg _ _ _ hno4, loop_neg _ _ _ hno2, loop_pos _ _ _ (by decide)]
      · conv_lhs => rw [hlist]
        rw [loop_neg _ _ _ rfl, loop_neg _ _ _ rfl, loop_neg _ _ _ rfl, loop_neg _ _ _ rfl,
          loop_pos _ _ _ (by decide)]
    refine ⟨by rw [hg, i1], ?_⟩
    have hl := c15_lossless ((p :: ps).flatten ++ name)
    rw [hg, i1] at hl
    exact List.append_cancel_left hl

/-- The sign of a term in a sum. -/
def delimSign (d : Option Char) : ℂ := if d = some '-' then -1 else 1

theorem built_meaning (f : Term n) (ps : List Str) (d : Option Char) (freq : Frequency n) (t : ℝ)
    (i : Fin n) : constructFunc f (ps ++ [d.toList]) freq t i =
      delimSign d * (ps.map fun p => prefixSymbol p (freq i)).prod * f freq t i := by
  rw [c15_meaning, List.map_append, List.prod_append, List.map_cons, List.map_nil, List.prod_cons,
    List.prod_nil, mul_one, mul_comm (delimSign d)]
  congr 2
  unfold delimSign prefixSymbol
  cases d with
  | none => simp
  | some c =>
    by_cases hc : c = '-'
    · subst hc; simp
    · simp [hc]

/-- C101: a term registered as explicit and written with operators in front is added to the explicit part,
multiplied by the meaning of the operators. -/
theorem c101_explicit (m m' : EqModel n) (name : Str) (f : BTerm n)
    (hreg : m.registerExplicit name f = some m') (hcaret : name.head? ≠ some '^')
    (himp : m.implicitTerms.lookup name = none) (ps : List Str) (hps : ∀ p ∈ ps, IsOperator p)
    (field : Str) (rhs : BuiltRHS n) (d : Option Char) :
    ∃ g : BTerm n, buildTerm m' field rhs ⟨ps.flatten ++ name, d⟩ = some ⟨rhs.terms ++ [g], rhs.denum⟩ ∧
      ∀ b freq t i, g b freq t i =
        delimSign d * (ps.map fun p => prefixSymbol p (freq i)).prod * f b freq t i := by
  unfold EqModel.registerExplicit at hreg
  rw [Option.map_eq_some_iff] at hreg
  obtain ⟨_, hc, rfl⟩ := hreg
  obtain ⟨h1, h2⟩ := read_operators name hc hcaret ps hps
  refine ⟨fun b => constructFunc (f b) (ps ++ [d.toList]), ?_, fun b freq t i => built_meaning _ _ _ _ _ _⟩
  unfold buildTerm
  simp only [h1, h2, himp, List.lookup_cons, beq_self_eq_true]

/-- C101: a term registered as implicit is added to the implicit part. -/
theorem c101_implicit (m m' : EqModel n) (name : Str) (f : BTerm n)
    (hreg : m.registerImplicit name f = some m') (hcaret : name.head? ≠ some '^')
    (ps : List Str) (hps : ∀ p ∈ ps, IsOperator p) (field : Str) (rhs : BuiltRHS n) (d : Option Char) :
    ∃ g : BTerm n, buildTerm m' field rhs ⟨ps.flatten ++ name, d⟩ = some ⟨rhs.terms, rhs.denum ++ [g]⟩ ∧
      ∀ b freq t i, g b freq t i =
        delimSign d * (ps.map fun p => prefixSymbol p (freq i)).prod * f b freq t i := by
  unfold EqModel.registerImplicit at hreg
  rw [Option.map_eq_some_iff] at hreg
  obtain ⟨_, hc, rfl⟩ := hreg
  obtain ⟨h1, h2⟩ := read_operators name hc hcaret ps hps
  refine ⟨fun b => constructFunc (f b) (ps ++ [d.toList]), ?_, fun b freq t i => built_meaning _ _ _ _ _ _⟩
  unfold buildTerm
  simp only [h1, h2, List.lookup_cons, beq_self_eq_true]

/-- C101: of a mixed term the linear part is added to the implicit part and the other part to the
explicit part, both with the operators in front. -/
theorem c101_mixed (m m' : EqModel n) (name : Str) (f : BTerm n × BTerm n)
    (hreg : m.registerMixed name f = some m') (hcaret : name.head? ≠ some '^')
    (himp : m.implicitTerms.lookup name = none) (hexp : m.explicitTerms.lookup name = none)
    (ps : List Str) (hps : ∀ p ∈ ps, IsOperator p) (field : Str) (rhs : BuiltRHS n) (d : Option Char) :
    ∃ g1 g2 : BTerm n, buildTerm m' field rhs ⟨ps.flatten ++ name, d⟩ =
        some ⟨rhs.terms ++ [g2], rhs.denum ++ [g1]⟩ ∧
      ∀ b freq t i,
        g1 b freq t i = delimSign d * (ps.map fun p => prefixSymbol p (freq i)).prod * f.1 b freq t i ∧
        g2 b freq t i = delimSign d * (ps.map fun p => prefixSymbol p (freq i)).prod * f.2 b freq t i := by
  unfold EqModel.registerMixed at hreg
  rw [Option.map_eq_some_iff] at hreg
  obtain ⟨_, hc, rfl⟩ := hreg
  obtain ⟨h1, h2⟩ := read_operators name hc hcaret ps hps
  refine ⟨fun b => constructFunc (f.1 b) (ps ++ [d.toList]), fun b => constructFunc (f.2 b) (ps ++ [d.toList]),
    ?_, fun b freq t i => ⟨built_meaning _ _ _ _ _ _, built_meaning _ _ _ _ _ _⟩⟩
  unfold buildTerm
  simp only [h1, h2, himp, hexp, List.lookup_cons, beq_self_eq_true]

/-- C101: a name registered as implicit and then as explicit: the explicit term is silently ignored. -/
theorem c101_implicit_wins (m m1 m2 : EqModel n) (name : Str) (f g : BTerm n)
    (h1 : m.registerImplicit name f = some m1) (h2 : m1.registerExplicit name g = some m2)
    (hcaret : name.head? ≠ some '^') (field : Str) (rhs : BuiltRHS n) (d : Option Char) :
    ∃ k : BTerm n, buildTerm m2 field rhs ⟨name, d⟩ = some ⟨rhs.terms, rhs.denum ++ [k]⟩ ∧
      ∀ b freq t i, k b freq t i = delimSign d * f b freq t i := by
  unfold EqModel.registerImplicit at h1
  unfold EqModel.registerExplicit at h2
  rw [Option.map_eq_some_iff] at h1 h2
  obtain ⟨_, hc, rfl⟩ := h1
  obtain ⟨_, -, rfl⟩ := h2
  obtain ⟨e1, e2⟩ := read_operators name hc hcaret [] (by simp)
  simp only [List.flatten_nil, List.nil_append] at e1 e2
  refine ⟨fun b => constructFunc (f b) ([] ++ [d.toList]), ?_, fun b freq t i => ?_⟩
  · unfold buildTerm
    simp only [e1, e2, List.lookup_cons, beq_self_eq_true]
  · show constructFunc (f b) ([] ++ [d.toList]) freq t i = _
    rw [built_meaning]
    simp

/-- C101: any other power of the Laplacian in front of a registered term is not understood: the name
that is left begins with the power. -/
theorem c101_other_powers (name : Str) (p : Char) (hp : p ≠ '2') (hp' : p ≠ '4') :
    removeKnownPrefixes ("LAP^".toList ++ p :: name) = '^' :: p :: name := by
  have hg : getKnownPrefixes ("LAP^".toList ++ p :: name) = ["LAP".toList] := by
    unfold getKnownPrefixes
    have hlist : knownPrefixes =
      ["-".toList, "LAP^4".toList, "LAP^2".toList, "LAP".toList, "*".toList] := rfl
    have e : "LAP^".toList ++ p :: name = "LAP".toList ++ '^' :: p :: name := rfl
    conv_lhs => rw [hlist]
    rw [loop_neg _ _ _ rfl, loop_neg _ _ _ (by simp [List.isPrefixOf, Ne.symm hp']),
      loop_neg _ _ _ (by simp [List.isPrefixOf, Ne.symm hp]), e, loop_pos _ _ _ (by decide), hlist,
      loop_neg _ _ _ rfl, loop_neg _ _ _ rfl, loop_neg _ _ _ rfl, loop_neg _ _ _ rfl, loop_neg _ _ _ rfl,
      getPrefixesLoop]
  have hl := c15_lossless ("LAP^".toList ++ p :: name)
  rw [hg] at hl
  exact List.append_cancel_left (as := "LAP".toList) (by simpa using hl)

example : ∃ m', (EqModel.empty (n := 4)).registerExplicit "ELAST".toList (fun b _ _ i => b "conc".toList i) =
    some m' :=
  ⟨_, by unfold EqModel.registerExplicit; rw [(c98_accepted "ELAST".toList).mpr (by decide)]; rfl⟩

end Gopf.Props
