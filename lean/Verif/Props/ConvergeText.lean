import Verif.Props.ConvergeRk
import Verif.Props.ConvergeExists
import Verif.Props.Assemble
import Mathlib.Analysis.SpecialFunctions.Log.Deriv

/-!
# C107, C111: from the text of the equations to the solution of the equations
-/

namespace Gopf.Props
open Spec Pf Pfutil Converge Set

variable {n : ℕ}

/-! ## The shape of the built terms -/

open Classical in
/-- The coefficient of an explicit term. -/
noncomputable def explicitFactor (N : Names) (field : Str) (u : Str → Data n) (freq : Frequency n) (k : Fin n)
    (p : List Item × Option Char) : ℂ :=
  if LinearIn field N.varying p.1 then 0 else
    (signOf p.2 : ℂ) * ((factorsIn N.scalars p.1).map fun f => u f.name k ^ ((f.power : ℚ) : ℂ)).prod *
      ((laplacians p.1).map fun q => laplaceSymbol (freq k) ^ q).prod

/-- What is built from a term, for arbitrary bricks. -/
theorem buildTerm_shape {N : Names} (hN : N.WellNamed) {m0 m : EqModel n}
    (hg : Grown N m0 m) {field : Str} (hf : field ∈ N.fields) {p : List Item × Option Char}
    (hm : Monomial N p.1) (hu : m0.isUserDefinedTerm (removeKnownPrefixes (productText p.1)) = false)
    (hk : Known N field m p.1) (rhs : BuiltRHS n) :
    ∃ T D, buildTerm m field rhs (pairText p) = some ⟨rhs.terms ++ T, rhs.denum ++ D⟩ ∧
      (∃ x ∈ m.allFieldNames, ∀ (b : Bricks n) (freq : Frequency n) (t : ℝ) (k : Fin n),
        (T.map fun f => f b freq t k).sum = explicitFactor N field b freq k p * b x k) ∧
      ∀ (b : Bricks n) (freq : Frequency n) (t : ℝ) (k : Fin n),
        (D.map fun f => f b freq t k).sum = linearFactor N field b freq k p := by
  have hw := hm.readable.wf
  have hfv : field ∈ N.varying := by simp [Names.varying, hf]
  obtain ⟨l1, l2, l3⟩ : m.implicitTerms.lookup (removeKnownPrefixes (productText p.1)) = none ∧
      m.explicitTerms.lookup (removeKnownPrefixes (productText p.1)) = none ∧
      m.mixedTerms.lookup (removeKnownPrefixes (productText p.1)) = none := by
    rw [hg.user.1, hg.user.2.1, hg.user.2.2]
    simpa [EqModel.isUserDefinedTerm, and_assoc] using hu
  have hvne : factorsIn N.varying p.1 ≠ [] := by
    rcases hm.kind with ⟨h, h'⟩ | ⟨g, _, h⟩
    · rwa [factorsIn_varying h]
    · rw [h]; simp
  obtain ⟨bl, hbl, hlin⟩ := isBilinear_spec hN hfv m.allFieldNames (fun k hk' => by
    rw [EqModel.allFieldNames, List.mem_append] at hk'
    rcases hk' with hk' | hk'
    · exact Or.inl (by simp [Names.varying, (hg.rep.fields k).mp hk'])
    · rcases hg.rep.derived k hk' with h | h
      · exact Or.inl (by simp [Names.varying, h])
      · exact Or.inr h) p.1 hw
  rw [linear_known hN hg.rep hw] at hlin
  cases bl with
  | true =>
    have hl := hlin.mp rfl
    obtain ⟨e, he⟩ := linear_factors hfv hl
    have hpow : Factor.power ⟨field, e⟩ = 1 := by
      have hmem : (⟨field, e⟩ : Factor) ∈ factorsIn N.varying p.1 := by rw [he]; simp
      have hmem' : (⟨field, e⟩ : Factor) ∈ factorsIn N.fields p.1 := by
        simp only [factorsIn, List.mem_filter, decide_eq_true_eq] at hmem ⊢
        exact ⟨hmem.1, hf⟩
      refine hm.exactOne _ hmem' ?_
      obtain ⟨i, hi, hif⟩ := List.mem_filterMap.mp (List.mem_filter.mp hmem).1
      exact hl.2.2 i (by simp [occurrences, hi, Item.name?, hif]) _ hif
    obtain ⟨c, hc, hcv⟩ := c18_factor N hN m hg.rep field hf p.1 hm.readable hl (by
      rw [he]; simpa using hpow) p.2
    refine ⟨[], [c.eval], ?_, ⟨field, by simp [EqModel.allFieldNames, hg.fields, hf], ?_⟩, ?_⟩
    · simp only [buildTerm, pairText, l1, l2, l3, hbl, hc]
      simp
    · intro b freq t k
      simp [explicitFactor, if_pos hl]
    · intro b freq t k
      simp only [List.map_cons, List.map_nil, List.sum_cons, List.sum_nil, add_zero, hcv, linearFactor, if_pos hl]
  | false =>
    have hnl : ¬ LinearIn field N.varying p.1 := fun h => by simpa using hlin.mpr h
    obtain ⟨D, hD, hDk⟩ := hk.resolve_left hnl
    obtain ⟨c, hc, hcv⟩ := c18_meaning N hN m hg.rep p.1 (by
      intro h; rw [h] at hvne; exact hvne (by simp [factorsIn])) hm.readable D hD (Or.inr hDk) p.2
    refine ⟨[c.eval], [], ?_, ⟨D, hDk, ?_⟩, ?_⟩
    · simp only [buildTerm, pairText, l1, l2, l3, hbl, hc]
      simp
    · intro b freq t k
      simp only [List.map_cons, List.map_nil, List.sum_cons, List.sum_nil, add_zero, hcv, explicitFactor, if_neg hnl,
        if_neg hvne]
      ring
    · intro b freq t k
      simp only [List.map_nil, List.sum_nil, linearFactor, if_neg hnl]

/-- All terms of an equation. -/
theorem buildTerms_shape {N : Names} (hN : N.WellNamed) {m0 m : EqModel n}
    (hg : Grown N m0 m) {field : Str} (hf : field ∈ N.fields) : ∀ (L : List (List Item × Option Char)),
    (∀ p ∈ L, Monomial N p.1 ∧ m0.isUserDefinedTerm (removeKnownPrefixes (productText p.1)) = false ∧
      Known N field m p.1) → ∀ rhs : BuiltRHS n,
    ∃ T D, (L.map pairText).foldlM (buildTerm m field) rhs = some ⟨rhs.terms ++ T, rhs.denum ++ D⟩ ∧
      (∃ ts : List ((List Item × Option Char) × Str), (∀ q ∈ ts, q.1 ∈ L ∧ q.2 ∈ m.allFieldNames) ∧
        ∀ (b : Bricks n) (freq : Frequency n) (t : ℝ) (k : Fin n), (T.map fun f => f b freq t k).sum = (ts.map fun q => explicitFactor N field b freq k q.1 * b q.2 k).sum) ∧
      ∀ (b : Bricks n) (freq : Frequency n) (t : ℝ) (k : Fin n),
        (D.map fun f => f b freq t k).sum = (L.map (linearFactor N field b freq k)).sum
  | [], _, rhs => ⟨[], [], by simp, ⟨[], by simp, by simp⟩, by simp⟩
  | p :: L, h, rhs => by
    obtain ⟨h1, h2, h3⟩ := h p (by simp)
    obtain ⟨T1, D1, e1, ⟨x, hx, v1⟩, w1⟩ := buildTerm_shape hN hg hf h1 h2 h3 rhs
    obtain ⟨T2, D2, e2, ⟨ts, hts, v2⟩, w2⟩ := buildTerms_shape hN hg hf L (fun q hq => h q (by simp [hq]))
      ⟨rhs.terms ++ T1, rhs.denum ++ D1⟩
    refine ⟨T1 ++ T2, D1 ++ D2, ?_, ⟨(p, x) :: ts, ?_, ?_⟩, ?_⟩
    · rw [List.map_cons, List.foldlM_cons, e1]
      simpa [List.append_assoc] using e2
    · intro q hq
      rcases List.mem_cons.mp hq with rfl | hq
      · exact ⟨by simp, hx⟩
      · exact ⟨by simp [(hts q hq).1], (hts q hq).2⟩
    · intro b freq t k
      rw [List.map_append, List.sum_append, v1, v2, List.map_cons, List.sum_cons]
    · intro b freq t k
      rw [List.map_append, List.sum_append, w1, w2, List.map_cons, List.sum_cons]

theorem initRHS_shape (N : Names) (hN : N.WellNamed) (m0 : EqModel n) (h0 : StartsAs N m0)
    (heq : m0.equations = []) (eqs : List Equation) (hq : ∀ eq ∈ eqs, eq.Polynomial N ∧ Unregistered m0 eq)
    (ss : List Str) (hs : ss.map (fun s => s.filter fun c => c ≠ ' ') = eqs.map Equation.text) :
    ∃ m Rs, ss.foldlM EqModel.addEquation m0 = some m ∧ m.initRHS = some Rs ∧
      List.Forall₂ (fun eq (R : BuiltRHS n) =>
        (∃ ts : List ((List Item × Option Char) × Str), (∀ q ∈ ts, q.1 ∈ eq.terms ∧ q.2 ∈ m.allFieldNames) ∧
          ∀ (b : Bricks n) (freq : Frequency n) (t : ℝ) (k : Fin n), (R.terms.map fun f => f b freq t k).sum =
            (ts.map fun q => explicitFactor N eq.field b freq k q.1 * b q.2 k).sum) ∧
        ∀ (b : Bricks n) (freq : Frequency n) (t : ℝ) (k : Fin n),
          (R.denum.map fun f => f b freq t k).sum = (eq.terms.map (linearFactor N eq.field b freq k)).sum) eqs Rs := by
  obtain ⟨m, h1, hg, h3, -, h5⟩ := add_all hN eqs ss m0 (grown_start hN h0) hq hs
  rw [heq, List.nil_append] at h3
  suffices h : ∀ l : List Equation, (∀ eq ∈ l, eq ∈ eqs) → ∃ Rs, (l.map Equation.text).mapM (fun s => build s m) = some Rs ∧
      List.Forall₂ (fun eq (R : BuiltRHS n) =>
        (∃ ts : List ((List Item × Option Char) × Str), (∀ q ∈ ts, q.1 ∈ eq.terms ∧ q.2 ∈ m.allFieldNames) ∧
          ∀ (b : Bricks n) (freq : Frequency n) (t : ℝ) (k : Fin n), (R.terms.map fun f => f b freq t k).sum =
            (ts.map fun q => explicitFactor N eq.field b freq k q.1 * b q.2 k).sum) ∧
        ∀ (b : Bricks n) (freq : Frequency n) (t : ℝ) (k : Fin n),
          (R.denum.map fun f => f b freq t k).sum = (eq.terms.map (linearFactor N eq.field b freq k)).sum) l Rs by
    obtain ⟨Rs, e1, e2⟩ := h eqs fun _ h => h
    exact ⟨m, Rs, h1, by rw [EqModel.initRHS, h3]; exact e1, e2⟩
  intro l
  induction l with
  | nil => exact fun _ => ⟨[], by simp, List.Forall₂.nil⟩
  | cons eq l ih =>
    intro hl
    obtain ⟨Rs, e1, e2⟩ := ih fun q hq' => hl q (by simp [hq'])
    have hmem := hl eq (by simp)
    obtain ⟨hp, hu⟩ := hq eq hmem
    obtain ⟨s1, s2, L, hL, s3⟩ := split_equation hN hp
    obtain ⟨T, D, b1, b2, b3⟩ := buildTerms_shape hN hg hp.field L (fun p hp' =>
      ⟨hp.monomials p (hL.subset hp'), (hu p (hL.subset hp')).2, h5 eq hmem p (hL.subset hp')⟩) ⟨[], []⟩
    have hb : build eq.text m = some ⟨T, D⟩ := by
      unfold build
      rw [s1]
      simp only [s2, s3]
      simpa using b1
    obtain ⟨ts, hts, b2⟩ := b2
    refine ⟨⟨T, D⟩ :: Rs, ?_, List.Forall₂.cons ⟨⟨ts, fun q hq => ⟨hL.subset (hts q hq).1, (hts q hq).2⟩, b2⟩, ?_⟩ e2⟩
    · rw [List.map_cons, List.mapM_cons, hb, e1]
      rfl
    · intro b freq t k
      rw [b3]
      exact (hL.map _).sum_eq

/-! ## Lipschitz conditions -/

/-- A registered function is Lipschitz on bounded sets as a function of the fields. -/
def LipschitzFunction (N : Names) (c : Calc n) : Prop :=
  ∀ R : ℝ, ∃ L : ℝ, 0 ≤ L ∧ ∀ (u u' : Bricks n) (δ : ℝ), (∀ x ∈ N.fields, ‖u x‖ ≤ R ∧ ‖u' x‖ ≤ R ∧ ‖u x - u' x‖ ≤ δ) →
    (∀ x ∈ N.scalars, u x = u' x) → 0 ≤ δ → ‖c.eval u - c.eval u'‖ ≤ L * δ

/-- The powers of the fields in an equation are natural numbers. -/
def NaturalPowers (N : Names) (eq : Equation) : Prop :=
  ∀ p ∈ eq.terms, ∀ f ∈ factorsIn N.fields p.1, ∃ q : ℕ, f.power = q

theorem readsFields_of_lipschitz {N : Names} {c : Calc n} (h : LipschitzFunction N c) : ReadsFields N c := by
  intro u u' hf hs
  obtain ⟨L, -, hL⟩ := h (N.fields.map fun x => ‖u x‖).sum
  have hle : ∀ x ∈ N.fields, ‖u x‖ ≤ (N.fields.map fun x => ‖u x‖).sum := fun x hx =>
    List.single_le_sum (by simp) _ (List.mem_map_of_mem hx)
  have := hL u u' 0 (fun x hx => ⟨hle x hx, by rw [← hf x hx]; exact hle x hx, by
    rw [hf x hx, sub_self, norm_zero]⟩) hs le_rfl
  rw [mul_zero] at this
  exact sub_eq_zero.mp (norm_le_zero_iff.mp this)

/-- Lipschitz and bounded on a bounded set of values. -/
def Tame (R : ℝ) (names : List Str) (P : (Str → ℂ) → ℂ) : Prop :=
  ∃ B L : ℝ, 0 ≤ B ∧ 0 ≤ L ∧ ∀ (z z' : Str → ℂ) (δ : ℝ),
    (∀ x ∈ names, ‖z x‖ ≤ R ∧ ‖z' x‖ ≤ R ∧ ‖z x - z' x‖ ≤ δ) → 0 ≤ δ →
      ‖P z‖ ≤ B ∧ ‖P z'‖ ≤ B ∧ ‖P z - P z'‖ ≤ L * δ

theorem tame_one {R : ℝ} {names : List Str} : Tame R names fun _ => 1 :=
  ⟨1, 0, zero_le_one, le_rfl, fun z z' δ _ _ => by simp⟩

theorem tame_mul {R : ℝ} {names : List Str} {P Q : (Str → ℂ) → ℂ} (hP : Tame R names P) (hQ : Tame R names Q) :
    Tame R names fun z => P z * Q z := by
  obtain ⟨B, L, hB, hL, h⟩ := hP
  obtain ⟨B', L', hB', hL', h'⟩ := hQ
  refine ⟨B * B', B * L' + L * B', by positivity, by positivity, ?_⟩
  intro z z' δ hz hδ
  obtain ⟨a1, a2, a3⟩ := h z z' δ hz hδ
  obtain ⟨b1, b2, b3⟩ := h' z z' δ hz hδ
  refine ⟨by rw [norm_mul]; exact mul_le_mul a1 b1 (norm_nonneg _) hB,
    by rw [norm_mul]; exact mul_le_mul a2 b2 (norm_nonneg _) hB, ?_⟩
  have e : P z * Q z - P z' * Q z' = P z * (Q z - Q z') + (P z - P z') * Q z' := by ring
  rw [e]
  calc _ ≤ ‖P z‖ * ‖Q z - Q z'‖ + ‖P z - P z'‖ * ‖Q z'‖ := by
        rw [← norm_mul, ← norm_mul]; exact norm_add_le _ _
    _ ≤ B * (L' * δ) + (L * δ) * B' := add_le_add (mul_le_mul a1 b3 (norm_nonneg _) hB)
        (mul_le_mul a3 b2 (norm_nonneg _) (by positivity))
    _ = _ := by ring

theorem tame_pow {R : ℝ} (hR : 0 ≤ R) {names : List Str} {x : Str} (hx : x ∈ names) (q : ℕ) :
    Tame R names fun z => z x ^ q := by
  induction q with
  | zero => simpa using tame_one
  | succ q ih =>
    simp only [pow_succ]
    exact tame_mul ih ⟨R, 1, hR, zero_le_one, fun z z' δ hz _ => by
      obtain ⟨h1, h2, h3⟩ := hz x hx
      exact ⟨h1, h2, by rw [one_mul]; exact h3⟩⟩

theorem tame_product {R : ℝ} (hR : 0 ≤ R) {names : List Str} (fs : List Factor)
    (hf : ∀ f ∈ fs, f.name ∈ names ∧ ∃ q : ℕ, f.power = q) :
    Tame R names fun z => (fs.map fun f => z f.name ^ ((f.power : ℚ) : ℂ)).prod := by
  induction fs with
  | nil => simpa using tame_one
  | cons f fs ih =>
    obtain ⟨hn, q, hq⟩ := hf f (by simp)
    simp only [List.map_cons, List.prod_cons]
    refine tame_mul ?_ (ih fun g hg => hf g (by simp [hg]))
    have e : ((f.power : ℚ) : ℂ) = (q : ℂ) := by rw [hq]; simp
    simp only [e, Complex.cpow_natCast]
    exact tame_pow hR hn q

theorem lipschitz_product {N : Names} {cl : Calc n} (fs : List Factor)
    (hf : ∀ f ∈ fs, f.name ∈ N.fields ∧ ∃ q : ℕ, f.power = q) (hv : ∀ u : Bricks n, cl.eval u = productValue fs u) :
    LipschitzFunction N cl := by
  intro R
  obtain ⟨B, L, -, hL, h⟩ := tame_product (le_max_right R 0) fs hf
  refine ⟨L, hL, ?_⟩
  intro u u' δ hu _ hδ
  rw [hv, hv, pi_norm_le_iff_of_nonneg (by positivity)]
  intro k
  exact (h (fun x => u x k) (fun x => u' x k) δ (fun x hx => by
    obtain ⟨h1, h2, h3⟩ := hu x hx
    exact ⟨((norm_le_pi_norm (u x) k).trans h1).trans (le_max_left _ _),
      ((norm_le_pi_norm (u' x) k).trans h2).trans (le_max_left _ _), (norm_le_pi_norm (u x - u' x) k).trans h3⟩) hδ).2.2

theorem brick_dist (m : EqModel n) (c : Str → ℂ) (st st' : Store m.fields.length m.derived.length n) (x : Str)
    (k : Fin n) :
    ‖m.brick c st x k - m.brick c st' x k‖ ≤ ‖st.fields - st'.fields‖ + ‖st.derived - st'.derived‖ := by
  have h1 := norm_nonneg (st.fields - st'.fields)
  have h2 := norm_nonneg (st.derived - st'.derived)
  unfold EqModel.brick
  split_ifs with ha hb
  · have := (norm_le_pi_norm ((st.fields - st'.fields) ⟨_, ha⟩) k).trans (norm_le_pi_norm (st.fields - st'.fields) ⟨_, ha⟩)
    simp only [Pi.sub_apply] at this
    linarith
  · have := (norm_le_pi_norm ((st.derived - st'.derived) ⟨_, hb⟩) k).trans
      (norm_le_pi_norm (st.derived - st'.derived) ⟨_, hb⟩)
    simp only [Pi.sub_apply] at this
    linarith
  · rw [sub_self, norm_zero]; linarith

/-- A sum of bricks with fixed coefficients is Lipschitz. -/
theorem lipschitz_sum (m : EqModel n) (c : Str → ℂ) (α : (List Item × Option Char) × Str → Fin n → ℂ)
    (ts : List ((List Item × Option Char) × Str)) : ∃ L : ℝ, 0 ≤ L ∧
    ∀ (st st' : Store m.fields.length m.derived.length n) (k : Fin n),
      ‖(ts.map fun q => α q k * m.brick c st q.2 k).sum - (ts.map fun q => α q k * m.brick c st' q.2 k).sum‖ ≤
        L * (‖st.fields - st'.fields‖ + ‖st.derived - st'.derived‖) := by
  induction ts with
  | nil => exact ⟨0, le_rfl, by simp⟩
  | cons q ts ih =>
    obtain ⟨L, hL, h⟩ := ih
    refine ⟨‖α q‖ + L, by positivity, ?_⟩
    intro st st' k
    simp only [List.map_cons, List.sum_cons]
    have e : ∀ a b c' d : ℂ, a + b - (c' + d) = (a - c') + (b - d) := fun _ _ _ _ => by ring
    rw [e, ← mul_sub, add_mul]
    refine (norm_add_le _ _).trans (add_le_add ?_ (h st st' k))
    rw [norm_mul]
    exact mul_le_mul (norm_le_pi_norm (α q) k) (brick_dist m c st st' q.2 k) (norm_nonneg _) (norm_nonneg _)

/-! ## Smoothness -/

/-- A registered function is four times continuously differentiable as a function of the fields: it is so along
every four times continuously differentiable family of fields, with fixed scalars. -/
def SmoothFunction (N : Names) (c : Calc n) : Prop :=
  ∀ (V : Type) [NormedAddCommGroup V] [NormedSpace ℝ V] (b : V → Bricks n), (∀ x ∈ N.fields, ContDiff ℝ 4 fun v => b v x) →
    (∀ x ∈ N.scalars, ∀ v v', b v x = b v' x) → ContDiff ℝ 4 fun v => c.eval (b v)

theorem smooth_product {N : Names} {cl : Calc n} (fs : List Factor)
    (hf : ∀ f ∈ fs, f.name ∈ N.fields ∧ ∃ q : ℕ, f.power = q) (hv : ∀ u : Bricks n, cl.eval u = productValue fs u) :
    SmoothFunction N cl := by
  intro V _ _ b hb _
  rw [contDiff_pi]
  intro k
  simp only [hv, productValue]
  clear hv
  induction fs with
  | nil => simpa using contDiff_const
  | cons f fs ih =>
    obtain ⟨hn, q, hq⟩ := hf f (by simp)
    simp only [List.map_cons, List.prod_cons]
    refine ContDiff.mul ?_ (ih fun g hg => hf g (by simp [hg]))
    have e : ((f.power : ℚ) : ℂ) = (q : ℂ) := by rw [hq]; simp
    simp only [e, Complex.cpow_natCast]
    exact ((contDiff_pi.mp (hb _ hn)) k).pow q

theorem smooth_brick (m : EqModel n) (c : Str → ℂ) (x : Str) (k : Fin n) :
    ContDiff ℝ 4 fun p : (Fin m.fields.length → Data n) × (Fin m.derived.length → Data n) =>
      m.brick c ⟨p.1, p.2⟩ x k := by
  unfold EqModel.brick
  split_ifs with ha hb
  · exact (contDiff_apply_apply ℝ ℂ (⟨_, ha⟩ : Fin m.fields.length) k).comp contDiff_fst
  · exact (contDiff_apply_apply ℝ ℂ (⟨_, hb⟩ : Fin m.derived.length) k).comp contDiff_snd
  · exact contDiff_const

theorem smooth_sum (m : EqModel n) (c : Str → ℂ) (α : (List Item × Option Char) × Str → ℂ)
    (ts : List ((List Item × Option Char) × Str)) (k : Fin n) :
    ContDiff ℝ 4 fun p : (Fin m.fields.length → Data n) × (Fin m.derived.length → Data n) =>
      (ts.map fun q => α q * m.brick c ⟨p.1, p.2⟩ q.2 k).sum := by
  induction ts with
  | nil => simpa using contDiff_const
  | cons q ts ih =>
    simp only [List.map_cons, List.sum_cons]
    exact (contDiff_const.mul (smooth_brick m c q.2 k)).add ih

theorem explicitFactor_congr {N : Names} {field : Str} {u u' : Str → Data n} (freq : Frequency n) (k : Fin n)
    (hw : ∀ x ∈ N.scalars, u x = u' x) (p : List Item × Option Char) :
    explicitFactor N field u freq k p = explicitFactor N field u' freq k p := by
  unfold explicitFactor
  split_ifs with h
  · rfl
  · congr 3
    apply List.map_congr_left
    intro f hf
    rw [hw f.name (by simpa using (List.mem_filter.mp hf).2)]

theorem linearFactor_congr {N : Names} {field : Str} {u u' : Str → Data n} (freq : Frequency n) (k : Fin n)
    (hw : ∀ x ∈ N.scalars, u x = u' x) (p : List Item × Option Char) :
    linearFactor N field u freq k p = linearFactor N field u' freq k p := by
  unfold linearFactor
  split_ifs with h
  · congr 3
    apply List.map_congr_left
    intro f hf
    rw [hw f.name (by simpa using (List.mem_filter.mp hf).2)]
  · rfl

variable {dims : List ℕ}

/-- The Laplacian on the grid: transform, multiply by the symbol, transform back. -/
noncomputable def gridLaplacian (freq : Frequency dims.prod) : Data dims.prod → Data dims.prod :=
  spectralLaplacian (fft dims) (fun x => divRealScalar (ifft dims x) (dims.prod : ℕ)) freq

/-- The fields `u` solve the equations on `[0, T]`, as they are written: every field changes at the rate spelled
by the right-hand side of its equation. `c` are the values of the scalars and `fns` the registered functions. -/
def SolvesEquations (T : ℝ) (freq : Frequency dims.prod) (N : Names) (c : Str → ℂ)
    (fns : List (Str × Calc dims.prod)) (eqs : List Equation) (u : ℝ → Str → Data dims.prod) : Prop :=
  ∀ t ∈ Icc 0 T, (∀ x ∈ N.scalars, u t x = fun _ => c x) ∧ (∀ p ∈ fns, u t p.1 = p.2.eval (u t)) ∧
    ∀ eq ∈ eqs, ∀ x : Fin dims.prod, HasDerivWithinAt (fun s => u s eq.field x)
      (Equation.value N (gridLaplacian freq) c (u t) eq x) (Icc 0 T) t

/-- The model built from the text: it is Lipschitz on bounded sets, has a constant implicit part and is solved by
the solutions of the equations and by no others. -/
theorem text_model (h : ∀ d ∈ dims, 0 < d) (freq : Frequency dims.prod) (N : Names)
    (hN : N.WellNamed) (m0 : EqModel dims.prod) (h0 : StartsAs N m0) (heq : m0.equations = [])
    (hfun : ∀ p ∈ m0.derived, LipschitzFunction N p.2)
    (eqs : List Equation) (hq : ∀ eq ∈ eqs, eq.Polynomial N ∧ Unregistered m0 eq)
    (hnat : ∀ eq ∈ eqs, NaturalPowers N eq) (hord : eqs.map Equation.field = N.fields)
    (ss : List Str) (hs : ss.map (fun s => s.filter fun c => c ≠ ' ') = eqs.map Equation.text) (c : Str → ℂ) :
    ∃ m M, ss.foldlM EqModel.addEquation m0 = some m ∧ m.fields = N.fields ∧ m.assemble c = some M ∧
      (∀ T, LocallyLipschitz T freq M) ∧
      (∃ A, (∀ i st t, M.getDenum i st freq t = A i) ∧
        (∀ T u, SolvesEquations T freq N c m0.derived eqs u → SolvesModel T freq M A (fun t j => u t m.fields[j])) ∧
        (∀ T f, SolvesModel T freq M A f →
          ∃ u, (∀ t j, u t m.fields[j] = f t j) ∧ SolvesEquations T freq N c m0.derived eqs u) ∧
        ((∀ eq ∈ eqs, ∀ p ∈ eq.terms, ¬ LinearIn eq.field N.varying p.1) → A = fun _ _ => 0)) ∧
      ((∀ p ∈ m0.derived, SmoothFunction N p.2) → SmoothModel freq M) := by
  obtain ⟨m, hadd, hg, -, ⟨l, hl, hl'⟩, -⟩ := add_all hN eqs ss m0 (grown_start hN h0) hq hs
  obtain ⟨m', Rs, hadd', hinit, hall⟩ := initRHS_shape N hN m0 h0 heq eqs hq ss hs
  obtain ⟨m'', Rs', hadd'', hinit', hall'⟩ := c19_equation N hN m0 h0 heq eqs hq ss hs
  rw [hadd] at hadd' hadd''
  obtain rfl := Option.some.inj hadd'
  obtain rfl := Option.some.inj hadd''
  rw [hinit] at hinit'
  obtain rfl := Option.some.inj hinit'
  have hlenE : eqs.length = m.fields.length := by rw [hg.fields, ← hord, List.length_map]
  have hRlen : m.fields.length ≤ Rs.length := by rw [← hall.length_eq, hlenE]
  refine ⟨m, _, hadd, hg.fields, by rw [EqModel.assemble, hinit]; simp only [dif_pos hRlen]; rfl, ?_⟩
  set M : Model m.fields.length m.derived.length dims.prod :=
    { calcs := fun d st => (m.derived[d]).2.eval (m.brick c st)
      terms := fun i => (Rs[i]'(i.2.trans_le hRlen)).terms.map fun f st => f (m.brick c st)
      denum := fun i => (Rs[i]'(i.2.trans_le hRlen)).denum.map fun f st => f (m.brick c st)
      sources := fun _ => []
      modifiers := [] } with hM
  have hR : ∀ i st t k, M.getRHS i st freq t k =
      ((Rs[i.val]'(i.2.trans_le hRlen)).terms.map fun f => f (m.brick c st) freq t k).sum := by
    intro i st t k
    rw [c21_rhs]
    simp [hM, Function.comp_def]
  have hD : ∀ i st t k, M.getDenum i st freq t k =
      ((Rs[i.val]'(i.2.trans_le hRlen)).denum.map fun f => f (m.brick c st) freq t k).sum := by
    intro i st t k
    rw [c21_denum]
    simp [hM, Function.comp_def]
  have hlt : ∀ i : Fin m.fields.length, i.val < eqs.length := fun i => by rw [hlenE]; exact i.2
  have hfield : ∀ i : Fin m.fields.length, (eqs[i.val]'(hlt i)).field = m.fields[i] := by
    intro i
    have : (eqs.map Equation.field)[i.val]'(by rw [List.length_map]; exact hlt i) = m.fields[i.val] := by
      simp only [hord, hg.fields]
    simpa using this
  have hshape := fun i : Fin m.fields.length =>
    (List.forall₂_iff_get.mp hall).2 i.val (hlt i) (i.2.trans_le hRlen)
  have hval := fun i : Fin m.fields.length =>
    (List.forall₂_iff_get.mp hall').2 i.val (hlt i) (i.2.trans_le hRlen)
  simp only [List.get_eq_getElem] at hshape hval
  have hsc : ∀ (st : Store m.fields.length m.derived.length dims.prod), ∀ x ∈ N.scalars,
      m.brick c st x = (fun y (_ : Fin dims.prod) => c y) x := fun st x hx => brick_scalar hN hg hx c st
  -- every derived field is Lipschitz
  have hcalc : ∀ p ∈ m.derived, LipschitzFunction N p.2 := by
    intro p hp
    rw [hl, List.mem_append] at hp
    rcases hp with hp | hp
    · exact hfun p hp
    · obtain ⟨eq, heq', q, hq', hv⟩ := hl' p hp
      exact lipschitz_product _ (fun f hf => ⟨by simpa using (List.mem_filter.mp hf).2, hnat eq heq' q hq' f hf⟩) hv
  have hreads : ∀ p ∈ m.derived, ReadsFields N p.2 := fun p hp => readsFields_of_lipschitz (hcalc p hp)
  have hlin : ∀ i : Fin m.fields.length, ∃ ts : List ((List Item × Option Char) × Str),
      ∀ (st : Store m.fields.length m.derived.length dims.prod) (t : ℝ) (k : Fin dims.prod), M.getRHS i st freq t k =
        (ts.map fun q => explicitFactor N (eqs[i.val]'(hlt i)).field (fun y (_ : Fin dims.prod) => c y) freq k q.1 *
          m.brick c st q.2 k).sum := by
    intro i
    obtain ⟨⟨ts, -, hts⟩, -⟩ := hshape i
    refine ⟨ts, fun st t k => ?_⟩
    rw [hR, hts]
    congr 1
    apply List.map_congr_left
    intro q _
    rw [explicitFactor_congr freq k (hsc st)]
  have hLip : ∀ T, LocallyLipschitz T freq M := by
    intro T
    refine ⟨?_, ?_⟩
    · intro R
      have hone : ∀ i : Fin m.fields.length, ∃ L : ℝ, 0 ≤ L ∧
          ∀ (st st' : Store m.fields.length m.derived.length dims.prod) (s t : ℝ),
          ‖M.getRHS i st freq s - M.getRHS i st' freq t‖ ≤
            L * (‖st.fields - st'.fields‖ + ‖st.derived - st'.derived‖) := by
        intro i
        obtain ⟨ts, hts⟩ := hlin i
        obtain ⟨L, hL, hb⟩ := lipschitz_sum m c (fun q k => explicitFactor N (eqs[i.val]'(hlt i)).field
          (fun y (_ : Fin dims.prod) => c y) freq k q.1) ts
        refine ⟨L, hL, ?_⟩
        intro st st' s t
        rw [pi_norm_le_iff_of_nonneg (by positivity)]
        intro k
        rw [Pi.sub_apply, hts, hts]
        exact hb st st' k
      choose L hL hb using hone
      refine ⟨∑ i, L i, Finset.sum_nonneg fun i _ => hL i, ?_⟩
      intro i s _ t _ st st' _ _ _ _
      refine (hb i st st' s t).trans ?_
      have h1 : L i ≤ ∑ i, L i := Finset.single_le_sum (fun j _ => hL j) (Finset.mem_univ i)
      refine mul_le_mul h1 ?_ (by positivity) (Finset.sum_nonneg fun i _ => hL i)
      have := abs_nonneg (s - t)
      linarith
    · intro R
      have hone : ∀ d : Fin m.derived.length, ∃ L : ℝ, 0 ≤ L ∧
          ∀ st st' : Store m.fields.length m.derived.length dims.prod, ‖st.fields‖ ≤ R → ‖st'.fields‖ ≤ R →
          ‖M.calcs d st - M.calcs d st'‖ ≤ L * ‖st.fields - st'.fields‖ := by
        intro d
        obtain ⟨L, hL, hb⟩ := hcalc _ (List.getElem_mem d.2) R
        refine ⟨L, hL, ?_⟩
        intro st st' h1 h2
        refine hb _ _ _ (fun x hx => ?_) (fun x hx => by rw [hsc st x hx, hsc st' x hx]) (norm_nonneg _)
        rw [← hg.fields] at hx
        obtain ⟨j, hj, rfl⟩ := List.getElem_of_mem hx
        have e : ∀ st, m.brick c st m.fields[j] = st.fields ⟨j, hj⟩ := brick_field hN hg ⟨j, hj⟩ c
        rw [e, e]
        exact ⟨(norm_le_pi_norm st.fields _).trans h1, (norm_le_pi_norm st'.fields _).trans h2,
          norm_le_pi_norm (st.fields - st'.fields) _⟩
      choose L hL hb using hone
      refine ⟨∑ i, L i, Finset.sum_nonneg fun i _ => hL i, ?_⟩
      intro d st st' h1 h2
      refine (hb d st st' h1 h2).trans (mul_le_mul_of_nonneg_right ?_ (norm_nonneg _))
      exact Finset.single_le_sum (fun j _ => hL j) (Finset.mem_univ d)
  set A : Fin m.fields.length → Data dims.prod := fun i k =>
    ((eqs[i.val]'(hlt i)).terms.map (linearFactor N (eqs[i.val]'(hlt i)).field
      (fun y (_ : Fin dims.prod) => c y) freq k)).sum with hAdef
  have hA : ∀ i st t, M.getDenum i st freq t = A i := by
    intro i st t
    funext k
    rw [hD, (hshape i).2]
    simp only [hAdef]
    congr 1
    apply List.map_congr_left
    intro q _
    exact linearFactor_congr freq k (hsc st) q
  -- the right-hand sides of the model are those of the equations
  have hrate : ∀ (v : Str → Data dims.prod) (t : ℝ), (∀ x ∈ N.scalars, v x = fun _ => c x) →
      (∀ p ∈ m0.derived, v p.1 = p.2.eval v) → ∀ (i : Fin m.fields.length) (k : Fin dims.prod),
      fft dims (Equation.value N (gridLaplacian freq) c v (eqs[i.val]'(hlt i))) k =
        M.getRHS i ⟨fun j => fft dims (v m.fields[j]),
          fun d => fft dims (M.calcs d ⟨fun j => v m.fields[j], fun _ _ => 0⟩)⟩ freq t k +
        A i k * fft dims (v m.fields[i]) k := by
    intro v t hc hf i k
    set st : Store m.fields.length m.derived.length dims.prod := ⟨fun j => v m.fields[j], fun _ _ => 0⟩ with hst
    set before : Store m.fields.length m.derived.length dims.prod :=
      ⟨fun j => fft dims (v m.fields[j]), fun d => fft dims (M.calcs d st)⟩ with hbefore
    obtain ⟨hb1, hb2⟩ := brick_congr (c := c) (st := st) hN hg (fun j => rfl) hc
    have hcal : ∀ d : Fin m.derived.length, M.calcs d st = (m.derived[d]).2.eval v := fun d =>
      hreads _ (List.getElem_mem d.2) _ _ hb1 hb2
    have htr : Transformed N m (fft dims) v (m.brick c before) := by
      refine ⟨?_, ?_, ?_, ?_⟩
      · intro x hx
        rw [← hg.fields] at hx
        obtain ⟨j, hj, rfl⟩ := List.getElem_of_mem hx
        exact brick_field hN hg ⟨j, hj⟩ c before
      · intro x hx
        rw [brick_scalar hN hg hx, hc x hx]
      · intro p hp
        obtain ⟨d, hd, rfl⟩ := List.getElem_of_mem hp
        exact (brick_derived hN hg ⟨d, hd⟩ c before).trans (congrArg (fft dims) (hcal ⟨d, hd⟩))
      · intro p hp hpf
        rw [← h0.functions] at hpf
        obtain ⟨q, hq', hqp⟩ := List.mem_map.mp hpf
        have hqm : q ∈ m.derived := by rw [hl]; simp [hq']
        have : q = p := List.inj_on_of_nodup_map hg.keys hqm hp hqp
        rw [← this]
        exact hf q hq'
    have hsum := hval i (fft dims) (fun x => divRealScalar (ifft dims x) (dims.prod : ℕ))
      ⟨fun a b => by funext k; exact fft_add a b k, fun a b => by funext k; exact fft_smul a b k⟩
      (fun x => by
        have e : divRealScalar (ifft dims x) (dims.prod : ℕ) = fun j => ifft dims x j / (dims.prod : ℂ) := by
          funext j; simp only [divRealScalar, Complex.ofReal_natCast]
        rw [e]; exact fft_surjective h x) c v hc _ htr freq t k
    rw [← hR i before t k, ← hD i before t k, hA, hfield i] at hsum
    exact hsum.symm
  have hsol : ∀ (T : ℝ) (u : ℝ → Str → Data dims.prod), SolvesEquations T freq N c m0.derived eqs u →
      SolvesModel T freq M A (fun t j => u t m.fields[j]) := by
    intro T u hu t ht i k
    obtain ⟨hc, hf, hder⟩ := hu t ht
    have hd := hder _ (List.getElem_mem (hlt i))
    have hd' : HasDerivWithinAt (fun s => fft dims (u s m.fields[i]) k)
        (fft dims (Equation.value N (gridLaplacian freq) c (u t) (eqs[i.val]'(hlt i))) k) (Icc 0 T) t := by
      unfold fft
      refine HasDerivWithinAt.fun_sum fun x _ => ?_
      have := (hd x).mul_const (cis (-phase dims k x))
      rw [hfield i] at this
      exact this
    exact hd'.congr_deriv (hrate (u t) t hc hf i k)
  have hback : ∀ (T : ℝ) (f : ℝ → Fin m.fields.length → Data dims.prod), SolvesModel T freq M A f →
      ∃ u : ℝ → Str → Data dims.prod, (∀ t j, u t m.fields[j] = f t j) ∧
        SolvesEquations T freq N c m0.derived eqs u := by
    intro T f hf
    have hbr : ∀ t, ∃ st : Store m.fields.length m.derived.length dims.prod, st.fields = f t ∧
        ∀ d, st.derived d = M.calcs d st := by
      intro t
      refine ⟨⟨f t, fun d => M.calcs d ⟨f t, fun _ _ => 0⟩⟩, rfl, ?_⟩
      intro d
      exact fieldsOnly_of_lipschitz (hLip T) d _ _ rfl
    choose st hst1 hst2 using hbr
    have hfld : ∀ t j, m.brick c (st t) m.fields[j] = f t j := by
      intro t j
      rw [← hst1 t]
      exact brick_field hN hg j c (st t)
    have hsc' : ∀ t, ∀ x ∈ N.scalars, m.brick c (st t) x = fun _ => c x := fun t x hx => hsc (st t) x hx
    have hfun' : ∀ t, ∀ p ∈ m0.derived, m.brick c (st t) p.1 = p.2.eval (m.brick c (st t)) := by
      intro t p hp
      have hpm : p ∈ m.derived := by rw [hl]; simp [hp]
      obtain ⟨d, hd, rfl⟩ := List.getElem_of_mem hpm
      exact (brick_derived hN hg ⟨d, hd⟩ c (st t)).trans (hst2 t ⟨d, hd⟩)
    refine ⟨fun t => m.brick c (st t), hfld, ?_⟩
    intro t ht
    refine ⟨hsc' t, hfun' t, ?_⟩
    intro eq heq' x
    obtain ⟨i, hi, rfl⟩ := List.getElem_of_mem heq'
    have hi' : i < m.fields.length := by rw [← hlenE]; exact hi
    have hfe : (eqs[i]).field = m.fields[i] := hfield ⟨i, hi'⟩
    have hre : (fun j : Fin m.fields.length => m.brick c (st t) m.fields[j]) = f t := funext fun j => hfld t j
    have hk : ∀ k, HasDerivWithinAt (fun s => fft dims (f s ⟨i, hi'⟩) k)
        (fft dims (Equation.value N (gridLaplacian freq) c (m.brick c (st t)) eqs[i]) k) (Icc 0 T) t := by
      intro k
      refine (hf t ht ⟨i, hi'⟩ k).congr_deriv ?_
      have := hrate (m.brick c (st t)) t (hsc' t) (hfun' t) ⟨i, hi'⟩ k
      simp only [hfld] at this
      exact this.symm
    have hx : HasDerivWithinAt (fun s => realSpace (fft dims (f s ⟨i, hi'⟩)) x)
        (realSpace (fft dims (Equation.value N (gridLaplacian freq) c (m.brick c (st t)) eqs[i])) x) (Icc 0 T) t := by
      unfold realSpace ifft
      refine HasDerivWithinAt.div_const ?_ _
      exact HasDerivWithinAt.fun_sum fun k _ => (hk k).mul_const _
    simp only [realSpace_fft h] at hx
    rw [hfe]
    refine hx.congr_of_eventuallyEq (Filter.Eventually.of_forall fun s => ?_) ?_
    · exact congrFun (hfld s ⟨i, hi'⟩) x
    · exact congrFun (hfld t ⟨i, hi'⟩) x
  refine ⟨hLip, ⟨A, hA, hsol, hback, ?_⟩, ?_⟩
  · intro hno
    funext i k
    simp only [hAdef]
    apply List.sum_eq_zero
    intro z hz
    obtain ⟨p, hp, rfl⟩ := List.mem_map.mp hz
    unfold linearFactor
    rw [if_neg (hno _ (List.getElem_mem (hlt i)) p hp)]
  · intro hsm
    refine ⟨?_, ?_, ?_⟩
    · intro i st t
      obtain ⟨ts, hts⟩ := hlin i
      funext k
      rw [hts, hts]
    · intro i
      obtain ⟨ts, hts⟩ := hlin i
      rw [contDiff_pi]
      intro k
      simp only [hts]
      exact smooth_sum m c (fun q => explicitFactor N (eqs[i.val]'(hlt i)).field
        (fun y (_ : Fin dims.prod) => c y) freq k q.1) ts k
    · intro d
      have hsmooth : ∀ p ∈ m.derived, SmoothFunction N p.2 := by
        intro p hp
        rw [hl, List.mem_append] at hp
        rcases hp with hp | hp
        · exact hsm _ hp
        · obtain ⟨eq, heq', q, hq', hv⟩ := hl' _ hp
          exact smooth_product _ (fun f hf => ⟨by simpa using (List.mem_filter.mp hf).2, hnat eq heq' q hq' f hf⟩) hv
      refine hsmooth _ (List.getElem_mem d.2) _ (fun f => m.brick c ⟨f, fun _ _ => 0⟩) (fun x hx => ?_) (fun x hx v v' => by
        rw [hsc ⟨v, fun _ _ => 0⟩ x hx, hsc ⟨v', fun _ _ => 0⟩ x hx])
      rw [← hg.fields] at hx
      obtain ⟨j, hj, rfl⟩ := List.getElem_of_mem hx
      have e : ∀ st, m.brick c st m.fields[j] = st.fields ⟨j, hj⟩ := brick_field hN hg ⟨j, hj⟩ c
      simp only [e]
      exact contDiff_apply ℝ (Data dims.prod) (⟨j, hj⟩ : Fin m.fields.length)

/-- C107: from the text to the solution. Polynomial equations, one for each field in the order of the fields,
are parsed; if `u` solves the equations as they are written, the fields computed by the Euler stepper from
`u 0` tend to `u` with first order in the time step. -/
theorem c107_text (h : ∀ d ∈ dims, 0 < d) {T : ℝ} (hT : 0 ≤ T) (freq : Frequency dims.prod) (N : Names)
    (hN : N.WellNamed) (m0 : EqModel dims.prod) (h0 : StartsAs N m0) (heq : m0.equations = [])
    (hfun : ∀ p ∈ m0.derived, LipschitzFunction N p.2)
    (eqs : List Equation) (hq : ∀ eq ∈ eqs, eq.Polynomial N ∧ Unregistered m0 eq)
    (hnat : ∀ eq ∈ eqs, NaturalPowers N eq) (hord : eqs.map Equation.field = N.fields)
    (ss : List Str) (hs : ss.map (fun s => s.filter fun c => c ≠ ' ') = eqs.map Equation.text) (c : Str → ℂ)
    (u : ℝ → Str → Data dims.prod) (hu : SolvesEquations T freq N c m0.derived eqs u) :
    ∃ m M, ss.foldlM EqModel.addEquation m0 = some m ∧ m.fields = N.fields ∧ m.assemble c = some M ∧
      ∃ C dt0 : ℝ, 0 ≤ C ∧ 0 < dt0 ∧ ∀ dt : ℝ, 0 < dt → dt ≤ dt0 →
        ∀ st : Store m.fields.length m.derived.length dims.prod, (∀ j, st.fields j = u 0 m.fields[j]) →
        ∀ k : ℕ, (k : ℝ) * dt ≤ T → ∀ j, ∀ x : Fin dims.prod,
          ‖(eulerPropagate M k (⟨dt, freq, none, 0⟩, st)).2.fields j x - u (k * dt) m.fields[j] x‖ ≤ C * dt := by
  obtain ⟨m, M, hadd, hf, has, hLip, ⟨A, hA, hsol, -⟩, -⟩ :=
    text_model h freq N hN m0 h0 heq hfun eqs hq hnat hord ss hs c
  refine ⟨m, M, hadd, hf, has, ?_⟩
  obtain ⟨C, dt0, hC, hdt0, hconv⟩ := c107_euler_converges h hT freq M (hLip T) A hA _ (hsol T u hu)
  refine ⟨C, dt0, hC, hdt0, ?_⟩
  intro dt hdt hle st hst k hk j x
  exact hconv dt hdt hle st (funext hst) k hk j x

/-- C111: the same for the RK4 stepper. -/
theorem c111_text (h : ∀ d ∈ dims, 0 < d) {T : ℝ} (hT : 0 ≤ T) (freq : Frequency dims.prod) (N : Names)
    (hN : N.WellNamed) (m0 : EqModel dims.prod) (h0 : StartsAs N m0) (heq : m0.equations = [])
    (hfun : ∀ p ∈ m0.derived, LipschitzFunction N p.2)
    (eqs : List Equation) (hq : ∀ eq ∈ eqs, eq.Polynomial N ∧ Unregistered m0 eq)
    (hnat : ∀ eq ∈ eqs, NaturalPowers N eq) (hord : eqs.map Equation.field = N.fields)
    (ss : List Str) (hs : ss.map (fun s => s.filter fun c => c ≠ ' ') = eqs.map Equation.text) (c : Str → ℂ)
    (u : ℝ → Str → Data dims.prod) (hu : SolvesEquations T freq N c m0.derived eqs u) :
    ∃ m M, ss.foldlM EqModel.addEquation m0 = some m ∧ m.fields = N.fields ∧ m.assemble c = some M ∧
      ∃ C dt0 : ℝ, 0 ≤ C ∧ 0 < dt0 ∧ ∀ dt : ℝ, 0 < dt → dt ≤ dt0 →
        ∀ st : Store m.fields.length m.derived.length dims.prod, (∀ j, st.fields j = u 0 m.fields[j]) →
        ∀ k : ℕ, (k : ℝ) * dt ≤ T → ∀ j, ∀ x : Fin dims.prod,
          ‖(rk4Propagate M k (⟨dt, freq, none, 0⟩, st)).2.fields j x - u (k * dt) m.fields[j] x‖ ≤ C * dt := by
  obtain ⟨m, M, hadd, hf, has, hLip, ⟨A, hA, hsol, -⟩, -⟩ :=
    text_model h freq N hN m0 h0 heq hfun eqs hq hnat hord ss hs c
  refine ⟨m, M, hadd, hf, has, ?_⟩
  obtain ⟨C, dt0, hC, hdt0, hconv⟩ := c111_converges h hT freq M (hLip T) A hA _ (hsol T u hu)
  refine ⟨C, dt0, hC, hdt0, ?_⟩
  intro dt hdt hle st hst k hk j x
  exact hconv dt hdt hle st (funext hst) k hk j x

/-- C111: if in addition no term is linear in the field of its own equation, so that nothing is treated implicitly,
and the registered functions are smooth, the RK4 stepper converges with fourth order. -/
theorem c111_text_fourth_order (h : ∀ d ∈ dims, 0 < d) {T : ℝ} (hT : 0 < T) (freq : Frequency dims.prod) (N : Names)
    (hN : N.WellNamed) (m0 : EqModel dims.prod) (h0 : StartsAs N m0) (heq : m0.equations = [])
    (hfun : ∀ p ∈ m0.derived, LipschitzFunction N p.2 ∧ SmoothFunction N p.2)
    (eqs : List Equation) (hq : ∀ eq ∈ eqs, eq.Polynomial N ∧ Unregistered m0 eq)
    (hnat : ∀ eq ∈ eqs, NaturalPowers N eq) (hno : ∀ eq ∈ eqs, ∀ p ∈ eq.terms, ¬ LinearIn eq.field N.varying p.1)
    (hord : eqs.map Equation.field = N.fields)
    (ss : List Str) (hs : ss.map (fun s => s.filter fun c => c ≠ ' ') = eqs.map Equation.text) (c : Str → ℂ)
    (u : ℝ → Str → Data dims.prod) (hu : SolvesEquations T freq N c m0.derived eqs u) :
    ∃ m M, ss.foldlM EqModel.addEquation m0 = some m ∧ m.fields = N.fields ∧ m.assemble c = some M ∧
      ∃ C dt0 : ℝ, 0 ≤ C ∧ 0 < dt0 ∧ ∀ dt : ℝ, 0 < dt → dt ≤ dt0 →
        ∀ st : Store m.fields.length m.derived.length dims.prod, (∀ j, st.fields j = u 0 m.fields[j]) →
        ∀ k : ℕ, (k : ℝ) * dt ≤ T → ∀ j, ∀ x : Fin dims.prod,
          ‖(rk4Propagate M k (⟨dt, freq, none, 0⟩, st)).2.fields j x - u (k * dt) m.fields[j] x‖ ≤ C * dt ^ 4 := by
  obtain ⟨m, M, hadd, hf, has, hLip, ⟨A, hA, hsol, -, hA0⟩, hsm⟩ :=
    text_model h freq N hN m0 h0 heq (fun p hp => (hfun p hp).1) eqs hq hnat hord ss hs c
  refine ⟨m, M, hadd, hf, has, ?_⟩
  obtain rfl := hA0 hno
  obtain ⟨C, dt0, hC, hdt0, hconv⟩ := c111_fourth_order h hT freq M (hsm fun p hp => (hfun p hp).2)
    (fieldsOnly_of_lipschitz (hLip T)) (fun i st t k => by rw [hA]) _ (hsol T u hu)
  refine ⟨C, dt0, hC, hdt0, ?_⟩
  intro dt hdt hle st hst k hk j x
  exact hconv dt hdt hle st (funext hst) k hk j x

/-- C112: from the text, without a solution given. The equations are parsed, and from any fields there is an end
time up to which the equations, as they are written, have a solution. Its fields are unique, and both steppers
tend to them with first order in the time step. -/
theorem c112_text (h : ∀ d ∈ dims, 0 < d) (freq : Frequency dims.prod) (N : Names)
    (hN : N.WellNamed) (m0 : EqModel dims.prod) (h0 : StartsAs N m0) (heq : m0.equations = [])
    (hfun : ∀ p ∈ m0.derived, LipschitzFunction N p.2)
    (eqs : List Equation) (hq : ∀ eq ∈ eqs, eq.Polynomial N ∧ Unregistered m0 eq)
    (hnat : ∀ eq ∈ eqs, NaturalPowers N eq) (hord : eqs.map Equation.field = N.fields)
    (ss : List Str) (hs : ss.map (fun s => s.filter fun c => c ≠ ' ') = eqs.map Equation.text) (c : Str → ℂ) :
    ∃ m M, ss.foldlM EqModel.addEquation m0 = some m ∧ m.fields = N.fields ∧ m.assemble c = some M ∧
      ∀ f0 : Fin m.fields.length → Data dims.prod, ∃ (T : ℝ) (u : ℝ → Str → Data dims.prod), 0 < T ∧
        SolvesEquations T freq N c m0.derived eqs u ∧ (∀ j, u 0 m.fields[j] = f0 j) ∧
        (∀ v, SolvesEquations T freq N c m0.derived eqs v → (∀ j, v 0 m.fields[j] = f0 j) →
          ∀ t ∈ Icc 0 T, ∀ x ∈ N.fields, v t x = u t x) ∧
        ∃ C dt0 : ℝ, 0 ≤ C ∧ 0 < dt0 ∧ ∀ dt : ℝ, 0 < dt → dt ≤ dt0 →
          ∀ st : Store m.fields.length m.derived.length dims.prod, st.fields = f0 →
          ∀ k : ℕ, (k : ℝ) * dt ≤ T → ∀ j, ∀ x : Fin dims.prod,
            ‖(eulerPropagate M k (⟨dt, freq, none, 0⟩, st)).2.fields j x - u (k * dt) m.fields[j] x‖ ≤ C * dt ∧
            ‖(rk4Propagate M k (⟨dt, freq, none, 0⟩, st)).2.fields j x - u (k * dt) m.fields[j] x‖ ≤ C * dt := by
  obtain ⟨m, M, hadd, hf, has, hLip, ⟨A, hA, hsol, hback, -⟩, -⟩ :=
    text_model h freq N hN m0 h0 heq hfun eqs hq hnat hord ss hs c
  refine ⟨m, M, hadd, hf, has, ?_⟩
  intro f0
  obtain ⟨T, hT, -, f, hf0, hfs⟩ := c112_exists h zero_lt_one freq M (hLip 1) A f0
  obtain ⟨u, hu1, hu2⟩ := hback T f hfs
  have hu0 : ∀ j, u 0 m.fields[j] = f0 j := fun j => by rw [hu1, hf0]
  refine ⟨T, u, hT, hu2, hu0, ?_, ?_⟩
  · intro v hv hv0 t ht x hx
    have e := c112_unique h freq M (hLip T) A hA _ _ (hsol T v hv) (hsol T u hu2)
      (funext fun j => by rw [hv0, hu0]) t ht
    rw [← hf] at hx
    obtain ⟨j, hj, rfl⟩ := List.getElem_of_mem hx
    exact congrFun e ⟨j, hj⟩
  · obtain ⟨C1, d1, hC1, hd1, h1⟩ := c107_euler_converges h hT.le freq M (hLip T) A hA _ (hsol T u hu2)
    obtain ⟨C2, d2, hC2, hd2, h2⟩ := c111_converges h hT.le freq M (hLip T) A hA _ (hsol T u hu2)
    refine ⟨C1 + C2, min d1 d2, by positivity, lt_min hd1 hd2, ?_⟩
    intro dt hdt hle st hst k hk j x
    have hst' : st.fields = fun j => u 0 m.fields[j] := by
      funext j
      rw [hu0, hst]
    have e1 := h1 dt hdt (hle.trans (min_le_left _ _)) st hst' k hk j x
    have e2 := h2 dt hdt (hle.trans (min_le_right _ _)) st hst' k hk j x
    have p1 : 0 ≤ C1 * dt := by positivity
    have p2 : 0 ≤ C2 * dt := by positivity
    rw [add_mul]
    exact ⟨e1.trans (by linarith), e2.trans (by linarith)⟩

/-! ### The conditions are met -/

theorem pair_square : Monomial pairNames [⟨none, some ⟨"conc".toList, some ⟨['2'], none⟩⟩⟩] where
  readable :=
    { wf := by
        intro i hi
        obtain rfl := List.mem_singleton.mp hi
        exact ⟨by simp, by simp [Exponent.WellFormed], by simp, by simp; decide, by simp⟩
      oneLap := by simp [laplacians]
      lapFirst := by
        intro pre i post h hl j hj
        cases pre with
        | nil => simp at hj
        | cons p pre => simp at h
      together := ⟨[], [⟨none, some ⟨"conc".toList, some ⟨['2'], none⟩⟩⟩], [], by simp, by simp, by simp,
        by simp; decide, by simp, by simp⟩ }
  once := by
    intro x _
    exact (List.length_filter_le _ _)
  kind := Or.inl ⟨by simp [factorsIn, pairNames], by decide⟩
  exactOne := by
    intro f hf
    have : f = ⟨"conc".toList, some ⟨['2'], none⟩⟩ := by
      simpa using (List.mem_filter.mp hf).1
    subst this
    decide +kernel

/-- `dconc/dt=conc^2-conc`. -/
def squareEquation : Equation := ⟨"conc".toList, none, [⟨none, some ⟨"conc".toList, some ⟨['2'], none⟩⟩⟩],
  [('-', [⟨none, some ⟨"conc".toList, none⟩⟩])]⟩

/-- `deta/dt=conc`. -/
def followEquation : Equation := ⟨"eta".toList, none, [⟨none, some ⟨"conc".toList, none⟩⟩], []⟩

/-- A solution of the two equations, constant in space. -/
noncomputable def pairSolution (t : ℝ) (x : Str) : Data dims.prod := fun _ =>
  if x = "conc".toList then ((1 / (1 + Real.exp t) : ℝ) : ℂ) else ((t - Real.log (1 + Real.exp t) : ℝ) : ℂ)

/-- The hypotheses of `c107_text` are met by `dconc/dt=conc^2-conc`, `deta/dt=conc`. The second equation reads a
field that has been updated before. -/
theorem pair_conditions (T : ℝ) (freq : Frequency dims.prod) :
    pairNames.WellNamed ∧
    StartsAs pairNames (((EqModel.empty (n := dims.prod)).addField "conc".toList).addField "eta".toList) ∧
    (∀ eq ∈ [squareEquation, followEquation], Equation.Polynomial pairNames eq ∧ NaturalPowers pairNames eq ∧
      Unregistered (((EqModel.empty (n := dims.prod)).addField "conc".toList).addField "eta".toList) eq) ∧
    [squareEquation, followEquation].map Equation.field = pairNames.fields ∧
    ["dconc/dt = conc^2 - conc".toList, "deta/dt = conc".toList].map (fun s => s.filter fun c => c ≠ ' ') =
      [squareEquation, followEquation].map Equation.text ∧
    SolvesEquations T freq pairNames (fun _ => 0) [] [squareEquation, followEquation] (pairSolution (dims := dims)) := by
  have hmul : ∀ (z : ℂ) (v : Data dims.prod) (x : Fin dims.prod), (z • v) x = z * v x := fun _ _ _ => rfl
  refine ⟨pair_wellNamed, ⟨rfl, rfl, fun x => Iff.rfl⟩, ?_, by decide, by decide, ?_⟩
  · intro eq heq
    simp only [List.mem_cons, List.not_mem_nil, or_false] at heq
    rcases heq with rfl | rfl
    · refine ⟨⟨by decide, by simp [squareEquation], by simp [squareEquation], ?_⟩, ?_, fun _ _ => ⟨rfl, rfl⟩⟩
      · intro p hp
        simp only [squareEquation, Equation.terms, List.map_cons, List.map_nil, List.mem_cons, List.not_mem_nil,
          or_false] at hp
        rcases hp with rfl | rfl
        · exact pair_square
        · exact pair_monomial (by decide)
      · intro p hp f hf
        simp only [squareEquation, Equation.terms, List.map_cons, List.map_nil, List.mem_cons, List.not_mem_nil,
          or_false] at hp
        rcases hp with rfl | rfl
        · have : f = ⟨"conc".toList, some ⟨['2'], none⟩⟩ := by simpa using (List.mem_filter.mp hf).1
          subst this
          exact ⟨2, by decide +kernel⟩
        · have : f = ⟨"conc".toList, none⟩ := by simpa using (List.mem_filter.mp hf).1
          subst this
          exact ⟨1, by decide +kernel⟩
    · refine ⟨⟨by decide, by simp [followEquation], by simp [followEquation], ?_⟩, ?_, fun _ _ => ⟨rfl, rfl⟩⟩
      · intro p hp
        simp only [followEquation, Equation.terms, List.map_nil, List.mem_singleton] at hp
        subst hp
        exact pair_monomial (by decide)
      · intro p hp f hf
        simp only [followEquation, Equation.terms, List.map_nil, List.mem_singleton] at hp
        subst hp
        have : f = ⟨"conc".toList, none⟩ := by simpa using (List.mem_filter.mp hf).1
        subst this
        exact ⟨1, by decide +kernel⟩
  · intro t _
    have hne : (1 + Real.exp t) ≠ 0 := by positivity
    refine ⟨by simp [pairNames], by simp, ?_⟩
    have f1 : factorsIn pairNames.varying [⟨none, some ⟨"conc".toList, some ⟨['2'], none⟩⟩⟩] =
        [⟨"conc".toList, some ⟨['2'], none⟩⟩] := by decide
    have f2 : factorsIn pairNames.varying [⟨none, some ⟨"conc".toList, none⟩⟩] = [⟨"conc".toList, none⟩] := by decide
    have g1 : signOf none = 1 := by decide
    have g2 : signOf (some '-') = -1 := by decide
    have l1 : (laplacians [⟨none, some ⟨"conc".toList, some ⟨['2'], none⟩⟩⟩]).sum = 0 := by decide
    have l2 : (laplacians [⟨none, some ⟨"conc".toList, none⟩⟩]).sum = 0 := by decide
    have p1 : Factor.power ⟨"conc".toList, some ⟨['2'], none⟩⟩ = 2 := by decide +kernel
    have s1 : ∀ l, factorsIn pairNames.scalars l = [] := by intro l; simp [factorsIn, pairNames]
    have v1 : ∀ u : Str → Data dims.prod, ∀ x, productValue [⟨"conc".toList, some ⟨['2'], none⟩⟩] u x =
        u "conc".toList x ^ 2 := by
      intro u x
      simp only [productValue, List.map_cons, List.map_nil, List.prod_cons, List.prod_nil, mul_one, p1]
      norm_num
    have v2 : ∀ u : Str → Data dims.prod, ∀ x, productValue [⟨"conc".toList, none⟩] u x = u "conc".toList x := by
      intro u x
      rw [productValue_single]
    intro eq heq x
    simp only [List.mem_cons, List.not_mem_nil, or_false] at heq
    rcases heq with rfl | rfl
    · have h1 : HasDerivAt (fun s => 1 / (1 + Real.exp s)) (-(Real.exp t) / (1 + Real.exp t) ^ 2) t := by
        have := ((Real.hasDerivAt_exp t).const_add 1).inv hne
        simp only [one_div]
        exact this
      have h2 := h1.ofReal_comp.hasDerivWithinAt (s := Icc 0 T)
      have e : (fun s => (pairSolution (dims := dims) s squareEquation.field x)) =
          fun s => ((1 / (1 + Real.exp s) : ℝ) : ℂ) := by
        funext s; simp only [pairSolution, squareEquation, if_true]
      rw [e]
      refine h2.congr_deriv ?_
      simp only [Equation.value, squareEquation, Equation.terms, List.map_cons, List.map_nil, List.sum_cons, List.sum_nil,
        f1, f2, s1, List.prod_nil, mul_one, l1, l2, Function.iterate_zero, id, add_zero, Pi.add_apply, hmul, v1, v2]
      simp only [pairSolution, if_true]
      rw [← Complex.ofReal_pow]
      simp only [g1, g2]
      norm_num
      rw [← Complex.ofReal_exp]
      have hc : ((1 : ℂ) + ((Real.exp t : ℝ) : ℂ)) ≠ 0 := by exact_mod_cast hne
      field_simp
      ring
    · have h1 : HasDerivAt (fun s => s - Real.log (1 + Real.exp s)) (1 - Real.exp t / (1 + Real.exp t)) t :=
        (hasDerivAt_id t).sub (((Real.hasDerivAt_exp t).const_add 1).log hne)
      have h2 := h1.ofReal_comp.hasDerivWithinAt (s := Icc 0 T)
      have e : (fun s => (pairSolution (dims := dims) s followEquation.field x)) =
          fun s => ((s - Real.log (1 + Real.exp s) : ℝ) : ℂ) := by
        funext s
        have : ¬ followEquation.field = "conc".toList := by decide
        simp only [pairSolution, if_neg this]
      rw [e]
      refine h2.congr_deriv ?_
      simp only [Equation.value, followEquation, Equation.terms, List.map_cons, List.map_nil, List.sum_cons, List.sum_nil,
        f2, s1, List.prod_nil, mul_one, l2, Function.iterate_zero, id, add_zero, hmul, v2]
      simp only [pairSolution, if_true]
      simp only [g1]
      norm_num
      rw [← Complex.ofReal_exp]
      have hc : ((1 : ℂ) + ((Real.exp t : ℝ) : ℂ)) ≠ 0 := by exact_mod_cast hne
      field_simp
      ring

/-- `dconc/dt=conc^2`. -/
def blowEquation : Equation := ⟨"conc".toList, none, [⟨none, some ⟨"conc".toList, some ⟨['2'], none⟩⟩⟩], []⟩

/-- A solution of `dconc/dt=conc^2`, `deta/dt=conc`, constant in space. -/
noncomputable def blowSolution (t : ℝ) (x : Str) : Data dims.prod := fun _ =>
  if x = "conc".toList then ((-(1 + t)⁻¹ : ℝ) : ℂ) else ((-Real.log (1 + t) : ℝ) : ℂ)

/-- The additional hypotheses of `c111_text_fourth_order` are met by `dconc/dt=conc^2`, `deta/dt=conc`. -/
example (T : ℝ) (freq : Frequency dims.prod) :
    (∀ eq ∈ [blowEquation, followEquation], Equation.Polynomial pairNames eq ∧ NaturalPowers pairNames eq) ∧
    (∀ eq ∈ [blowEquation, followEquation], ∀ p ∈ eq.terms, ¬ LinearIn eq.field pairNames.varying p.1) ∧
    [blowEquation, followEquation].map Equation.field = pairNames.fields ∧
    ["dconc/dt = conc^2".toList, "deta/dt = conc".toList].map (fun s => s.filter fun c => c ≠ ' ') =
      [blowEquation, followEquation].map Equation.text ∧
    SolvesEquations T freq pairNames (fun _ => 0) [] [blowEquation, followEquation] (blowSolution (dims := dims)) := by
  have hmul : ∀ (z : ℂ) (v : Data dims.prod) (x : Fin dims.prod), (z • v) x = z * v x := fun _ _ _ => rfl
  have p1 : Factor.power ⟨"conc".toList, some ⟨['2'], none⟩⟩ = 2 := by decide +kernel
  refine ⟨?_, ?_, by decide, by decide, ?_⟩
  · intro eq heq
    simp only [List.mem_cons, List.not_mem_nil, or_false] at heq
    rcases heq with rfl | rfl
    · refine ⟨⟨by decide, by simp [blowEquation], by simp [blowEquation], ?_⟩, ?_⟩
      · intro p hp
        simp only [blowEquation, Equation.terms, List.map_nil, List.mem_singleton] at hp
        subst hp
        exact pair_square
      · intro p hp f hf
        simp only [blowEquation, Equation.terms, List.map_nil, List.mem_singleton] at hp
        subst hp
        have : f = ⟨"conc".toList, some ⟨['2'], none⟩⟩ := by simpa using (List.mem_filter.mp hf).1
        subst this
        exact ⟨2, p1⟩
    · refine ⟨⟨by decide, by simp [followEquation], by simp [followEquation], ?_⟩, ?_⟩
      · intro p hp
        simp only [followEquation, Equation.terms, List.map_nil, List.mem_singleton] at hp
        subst hp
        exact pair_monomial (by decide)
      · intro p hp f hf
        simp only [followEquation, Equation.terms, List.map_nil, List.mem_singleton] at hp
        subst hp
        have : f = ⟨"conc".toList, none⟩ := by simpa using (List.mem_filter.mp hf).1
        subst this
        exact ⟨1, by decide +kernel⟩
  · intro eq heq p hp
    simp only [List.mem_cons, List.not_mem_nil, or_false] at heq
    rcases heq with rfl | rfl
    · simp only [blowEquation, Equation.terms, List.map_nil, List.mem_singleton] at hp
      subst hp
      rintro ⟨-, -, h3⟩
      have := h3 ⟨none, some ⟨"conc".toList, some ⟨['2'], none⟩⟩⟩ (by decide) ⟨"conc".toList, some ⟨['2'], none⟩⟩ rfl
      rw [p1] at this
      norm_num at this
    · simp only [followEquation, Equation.terms, List.map_nil, List.mem_singleton] at hp
      subst hp
      rintro ⟨h1, -, -⟩
      revert h1
      decide
  · intro t ht
    have hne : 1 + t ≠ 0 := by have := ht.1; positivity
    refine ⟨by simp [pairNames], by simp, ?_⟩
    have f1 : factorsIn pairNames.varying [⟨none, some ⟨"conc".toList, some ⟨['2'], none⟩⟩⟩] =
        [⟨"conc".toList, some ⟨['2'], none⟩⟩] := by decide
    have f2 : factorsIn pairNames.varying [⟨none, some ⟨"conc".toList, none⟩⟩] = [⟨"conc".toList, none⟩] := by decide
    have g1 : signOf none = 1 := by decide
    have l1 : (laplacians [⟨none, some ⟨"conc".toList, some ⟨['2'], none⟩⟩⟩]).sum = 0 := by decide
    have l2 : (laplacians [⟨none, some ⟨"conc".toList, none⟩⟩]).sum = 0 := by decide
    have s1 : ∀ l, factorsIn pairNames.scalars l = [] := by intro l; simp [factorsIn, pairNames]
    have v1 : ∀ u : Str → Data dims.prod, ∀ x, productValue [⟨"conc".toList, some ⟨['2'], none⟩⟩] u x =
        u "conc".toList x ^ 2 := by
      intro u x
      simp only [productValue, List.map_cons, List.map_nil, List.prod_cons, List.prod_nil, mul_one, p1]
      norm_num
    have v2 : ∀ u : Str → Data dims.prod, ∀ x, productValue [⟨"conc".toList, none⟩] u x = u "conc".toList x := by
      intro u x
      rw [productValue_single]
    intro eq heq x
    simp only [List.mem_cons, List.not_mem_nil, or_false] at heq
    rcases heq with rfl | rfl
    · have h1 : HasDerivAt (fun s : ℝ => -(1 + s)⁻¹) (-(-1 / (1 + t) ^ 2)) t :=
        (((hasDerivAt_id t).const_add 1).inv hne).neg
      have h2 := h1.ofReal_comp.hasDerivWithinAt (s := Icc 0 T)
      have e : (fun s => (blowSolution (dims := dims) s blowEquation.field x)) = fun s => ((-(1 + s)⁻¹ : ℝ) : ℂ) := by
        funext s; simp only [blowSolution, blowEquation, if_true]
      rw [e]
      refine h2.congr_deriv ?_
      simp only [Equation.value, blowEquation, Equation.terms, List.map_cons, List.map_nil, List.sum_cons, List.sum_nil,
        f1, s1, List.prod_nil, mul_one, l1, Function.iterate_zero, id, add_zero, hmul, v1]
      simp only [blowSolution, if_true, g1]
      rw [← Complex.ofReal_pow]
      norm_num
      rw [neg_div, neg_neg, one_div]
    · have h1 : HasDerivAt (fun s : ℝ => -Real.log (1 + s)) (-(1 / (1 + t))) t :=
        (((hasDerivAt_id t).const_add 1).log hne).neg
      have h2 := h1.ofReal_comp.hasDerivWithinAt (s := Icc 0 T)
      have e : (fun s => (blowSolution (dims := dims) s followEquation.field x)) =
          fun s => ((-Real.log (1 + s) : ℝ) : ℂ) := by
        funext s
        have : ¬ followEquation.field = "conc".toList := by decide
        simp only [blowSolution, if_neg this]
      rw [e]
      refine h2.congr_deriv ?_
      simp only [Equation.value, followEquation, Equation.terms, List.map_cons, List.map_nil, List.sum_cons, List.sum_nil,
        f2, s1, List.prod_nil, mul_one, l2, Function.iterate_zero, id, add_zero, hmul, v2]
      simp only [blowSolution, if_true, g1]
      norm_num

end Gopf.Props
