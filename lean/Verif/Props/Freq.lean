import Verif.Proofs.FreqCount

/-!
# C08, C43, C44: frequencies, conjugate nodes and frequency iterators
-/

namespace Gopf.Props
open Spec Pfutil Pf

/-- C08: the frequency of a node has one component per dimension, each component lies in
`(-1/2, 1/2]` and differs from (coordinate)/(side) by an integer. -/
theorem c08_freq {dims : List Int} (h : GoodDims dims) {i : Int} (h0 : 0 ≤ i)
    (h1 : i < numNodes dims) :
    ∃ p f, pos dims i = some p ∧ freq dims i = some f ∧ f.length = dims.length ∧
      ∀ (k : Nat) (x d : Int) (y : ℚ), p[k]? = some x → dims[k]? = some d → f[k]? = some y →
        -(1/2) < y ∧ y ≤ 1/2 ∧ ∃ m : Int, y = (x : ℚ) / d + m := by
  obtain ⟨p, hp, hb, -⟩ := pos_spec h h0 h1
  refine ⟨p, _, hp, freq_eq h h0 h1 hp, ?_, ?_⟩
  · simp [List.Forall₂.length_eq hb]
  · intro k x d y hx hd hy
    rw [List.getElem?_zipWith, hx, hd] at hy
    obtain rfl : phi x d = y := by simpa using hy
    have hr : 0 ≤ x ∧ x < d := by
      obtain ⟨hk, hx'⟩ := List.getElem?_eq_some_iff.mp hx
      obtain ⟨hk', hd'⟩ := List.getElem?_eq_some_iff.mp hd
      have := (List.forall₂_iff_get.mp hb).2 k hk' hk
      simpa [hx', hd'] using this
    obtain ⟨a, b⟩ := phi_range hr.1 hr.2
    exact ⟨a, b, phi_int x d⟩

example : GoodDims [4, 5, 3] ∧ (17 : Int) < numNodes [4, 5, 3] ∧
    freq [4, 5, 3] 17 = some [-1/4, 2/5, 0] := by
  refine ⟨⟨by decide, by decide⟩, by decide, by decide +kernel⟩

/-- C08: the conjugate node is a node, conjugation is an involution, and corresponding components
of the two frequencies add up to an integer. -/
theorem c08_conjugate {dims : List Int} (h : GoodDims dims) {i : Int} (h0 : 0 ≤ i)
    (h1 : i < numNodes dims) :
    ∃ j f g, conjugateNode dims i = some j ∧ 0 ≤ j ∧ j < numNodes dims ∧
      conjugateNode dims j = some i ∧ freq dims i = some f ∧ freq dims j = some g ∧
      ∀ (k : Nat) (a b : ℚ), f[k]? = some a → g[k]? = some b → ∃ m : Int, a + b = m := by
  obtain ⟨p, j, hp, hb, hj, j0, j1, hpj, hinv⟩ := conjugateNode_spec h h0 h1
  refine ⟨j, _, _, hj, j0, j1, hinv, freq_eq h h0 h1 hp, freq_eq h j0 j1 hpj, ?_⟩
  intro k a b ha hb'
  rw [List.getElem?_zipWith] at ha hb'
  rw [conjPos, List.getElem?_zipWith] at hb'
  cases hx : p[k]? with
  | none => simp [hx] at ha
  | some x =>
    cases hd : dims[k]? with
    | none => simp [hx, hd] at ha
    | some d =>
      simp only [hx, hd, Option.some.injEq] at ha hb'
      subst ha hb'
      have hr : 0 ≤ x ∧ x < d := by
        obtain ⟨hk, hx'⟩ := List.getElem?_eq_some_iff.mp hx
        obtain ⟨hk', hd'⟩ := List.getElem?_eq_some_iff.mp hd
        have := (List.forall₂_iff_get.mp hb).2 k hk' hk
        simpa [hx', hd'] using this
      rcases phi_conj hr.1 hr.2 with e | ⟨-, e⟩
      · exact ⟨0, by rw [e]; simp⟩
      · exact ⟨1, by rw [e]; simp⟩

example : conjugateNode [4, 5, 3] 17 = some 8 ∧ freq [4, 5, 3] 8 = some [1/4, -2/5, 0] := by
  decide +kernel

/-- C08: two different nodes have different frequencies. -/
theorem c08_freq_injective {dims : List Int} (h : GoodDims dims) {i j : Int} (h0 : 0 ≤ i)
    (h1 : i < numNodes dims) (g0 : 0 ≤ j) (g1 : j < numNodes dims)
    (he : freq dims i = freq dims j) : i = j := by
  obtain ⟨p, hp, hb, hn⟩ := pos_spec h h0 h1
  obtain ⟨q, hq, hb', hn'⟩ := pos_spec h g0 g1
  rw [freq_eq h h0 h1 hp, freq_eq h g0 g1 hq, Option.some.injEq] at he
  suffices p = q by subst this; rw [hn] at hn'; simpa using hn'
  clear hp hq hn hn'
  have key : ∀ (ds p q : List Int), InBox ds p → InBox ds q →
      List.zipWith phi p ds = List.zipWith phi q ds → p = q := by
    intro ds
    induction ds with
    | nil => intro p q hp hq _; cases hp; cases hq; rfl
    | cons d ds ih =>
      intro p q hp hq e
      cases hp with
      | cons a1 a2 =>
        cases hq with
        | cons b1 b2 =>
          simp only [List.zipWith_cons_cons, List.cons.injEq] at e
          refine List.cons_eq_cons.mpr ⟨?_, ih _ _ a2 b2 e.2⟩
          rename_i x _ y _
          obtain ⟨m, hm⟩ := phi_int x d
          obtain ⟨n, hn⟩ := phi_int y d
          have hd : (0:ℚ) < d := by exact_mod_cast lt_of_le_of_lt a1.1 a1.2
          have e1 : (x:ℚ) - y = (n - m) * d := by
            have := e.1
            rw [hm, hn] at this
            field_simp at this
            linarith
          have e2 : x - y = (n - m) * d := by exact_mod_cast e1
          have : n - m = 0 := by
            by_contra hne
            rcases lt_or_gt_of_ne hne with hl | hl
            · nlinarith [a1.1, a1.2, b1.1, b1.2]
            · nlinarith [a1.1, a1.2, b1.1, b1.2]
          rw [this] at e2; omega
  exact key _ _ _ hb hb' he

/-- C08: two different nodes have different frequencies even modulo one; so the conjugate node is the
only node whose frequency is the negated one modulo one. -/
theorem c08_conjugate_unique {dims : List Int} (h : GoodDims dims) {i j : Int} (h0 : 0 ≤ i)
    (h1 : i < numNodes dims) (g0 : 0 ≤ j) (g1 : j < numNodes dims) :
    ((∃ f g, freq dims i = some f ∧ freq dims j = some g ∧
      ∀ (k : Nat) (a b : ℚ), f[k]? = some a → g[k]? = some b → ∃ m : Int, a - b = m) ↔ i = j) ∧
    ((∃ f g, freq dims i = some f ∧ freq dims j = some g ∧
      ∀ (k : Nat) (a b : ℚ), f[k]? = some a → g[k]? = some b → ∃ m : Int, a + b = m) ↔
      conjugateNode dims i = some j) := by
  have key : ∀ {i j : Int}, 0 ≤ i → i < numNodes dims → 0 ≤ j → j < numNodes dims →
      (∃ f g, freq dims i = some f ∧ freq dims j = some g ∧
      ∀ (k : Nat) (a b : ℚ), f[k]? = some a → g[k]? = some b → ∃ m : Int, a - b = m) → i = j := by
    rintro i j h0 h1 g0 g1 ⟨f, g, hf, hg, hk⟩
    obtain ⟨p, f', hp, hf', hl, hb⟩ := c08_freq h h0 h1
    obtain ⟨q, g', hq, hg', hl', hb'⟩ := c08_freq h g0 g1
    rw [hf] at hf'; rw [hg] at hg'
    cases hf'; cases hg'
    obtain ⟨p', hp', hin, _⟩ := pos_spec h h0 h1
    obtain ⟨q', hq', hin', _⟩ := pos_spec h g0 g1
    rw [hp] at hp'; rw [hq] at hq'
    cases hp'; cases hq'
    have hlp : p.length = dims.length := hin.length_eq.symm
    have hlq : q.length = dims.length := hin'.length_eq.symm
    refine c08_freq_injective h h0 h1 g0 g1 ?_
    rw [hf, hg]
    congr 1
    refine List.ext_getElem (by rw [hl, hl']) fun k k1 k2 => ?_
    have kd : k < dims.length := hl ▸ k1
    obtain ⟨m, hm⟩ := hk k f[k] g[k] (List.getElem?_eq_getElem k1) (List.getElem?_eq_getElem k2)
    obtain ⟨a1, a2, _⟩ := hb k p[k] dims[k] f[k] (List.getElem?_eq_getElem (by omega))
      (List.getElem?_eq_getElem kd) (List.getElem?_eq_getElem k1)
    obtain ⟨b1, b2, _⟩ := hb' k q[k] dims[k] g[k] (List.getElem?_eq_getElem (by omega))
      (List.getElem?_eq_getElem kd) (List.getElem?_eq_getElem k2)
    have m1 : (-1 : ℚ) < m := by linarith
    have m2 : (m : ℚ) < 1 := by linarith
    have m1' : -1 < m := by exact_mod_cast m1
    have m2' : m < 1 := by exact_mod_cast m2
    have : m = 0 := by omega
    rw [this] at hm
    push_cast at hm
    linarith
  refine ⟨⟨key h0 h1 g0 g1, ?_⟩, ?_, ?_⟩
  · rintro rfl
    obtain ⟨p, f, hp, hf, _⟩ := c08_freq h h0 h1
    exact ⟨f, f, hf, hf, fun k a b ha hb => ⟨0, by rw [ha] at hb; cases hb; simp⟩⟩
  · rintro ⟨f, g, hf, hg, hk⟩
    obtain ⟨c, f', g', hc, c0, c1, _, hf', hg', hk'⟩ := c08_conjugate h h0 h1
    rw [hf] at hf'; cases hf'
    rw [hc]
    congr 1
    refine key c0 c1 g0 g1 ⟨g', g, hg', hg, fun k a b ha hb => ?_⟩
    have hlen : f.length = g'.length := by
      obtain ⟨_, x, _, hx, hxl, _⟩ := c08_freq h h0 h1
      obtain ⟨_, y, _, hy, hyl, _⟩ := c08_freq h c0 c1
      rw [hf] at hx; rw [hg'] at hy
      cases hx; cases hy
      rw [hxl, hyl]
    have hkf : k < f.length := by
      have := (List.getElem?_eq_some_iff.mp ha).1
      omega
    obtain ⟨m, hm⟩ := hk k f[k] b (List.getElem?_eq_getElem hkf) hb
    obtain ⟨n, hn⟩ := hk' k f[k] a (List.getElem?_eq_getElem hkf) ha
    exact ⟨n - m, by push_cast; linarith⟩
  · intro hc
    obtain ⟨c, f', g', hc', c0, c1, _, hf', hg', hk'⟩ := c08_conjugate h h0 h1
    rw [hc] at hc'; cases hc'
    exact ⟨f', g', hf', hg', hk'⟩

/-- The frequency function handed to the iterators for a transform on `dims`. -/
abbrev nodeFreq (dims : List Int) (i : Nat) : Option (List ℚ) := freq dims (i : Int)

private theorem unique_aux {dims : List Int} (h : GoodDims dims) (hs : ∀ d ∈ dims, d ≤ 10 ^ 9)
    {i : Int} (h0 : 0 ≤ i) (h1 : i < numNodes dims) :
    ∃ j a b, conjugateNode dims i = some j ∧ 0 ≤ j ∧ j < numNodes dims ∧
      (freq dims i).bind uniqueTest = some a ∧ (freq dims j).bind uniqueTest = some b ∧
      (a = true ∨ b = true) ∧ (a = true → b = true → i = j) := by
  obtain ⟨p, j, hp, hb, hj, j0, j1, hpj, hinv⟩ := conjugateNode_spec h h0 h1
  have hlen := List.Forall₂.length_eq hb
  have hl2 : dims.length ≠ 0 := by rcases h.1 with e | e <;> omega
  have hx : ∀ s, s < dims.length → s < p.length := fun s hs => hlen ▸ hs
  have hfr := freq_eq h h0 h1 hp
  have hgr := freq_eq h j0 j1 hpj
  have l1 : (List.zipWith phi p dims).length = dims.length := by simp [hlen]
  have l2 : (List.zipWith phi (conjPos dims p) dims).length = dims.length := by
    simp [conjPos, hlen]
  obtain ⟨a, b, ha, hb2, hor, hand, -⟩ := includeFreq_pair (List.zipWith phi p dims)
    (List.zipWith phi (conjPos dims p) dims)
    (fun s => ∀ x d, p[s]? = some x → dims[s]? = some d → (d - x) % d = x) dims.length l1 l2
    (by
      intro s hs'
      have hsp := hx s hs'
      have hr : 0 ≤ p[s] ∧ p[s] < dims[s] := by
        have := (List.forall₂_iff_get.mp hb).2 s hs' hsp
        simpa using this
      have hdm : dims[s] ≤ 10 ^ 9 := hs _ (List.getElem_mem _)
      have hself : (∀ x d, p[s]? = some x → dims[s]? = some d → (d - x) % d = x) ↔
          (dims[s] - p[s]) % dims[s] = p[s] := by
        simp [List.getElem?_eq_getElem hs', List.getElem?_eq_getElem hsp]
      rw [hself]
      have e1 : (List.zipWith phi p dims)[s] = phi p[s] dims[s] := by simp
      have e2 : (List.zipWith phi (conjPos dims p) dims)[s]'(by rw [l2]; exact hs') =
          phi ((dims[s] - p[s]) % dims[s]) dims[s] := by simp [conjPos]
      rw [e1, e2]
      obtain ⟨c1, c2, c3⟩ := comp_class hr.1 hr.2 hdm
      set x := p[s]
      set d := dims[s]
      have hr' : 0 ≤ (d - x) % d ∧ (d - x) % d < d :=
        ⟨Int.emod_nonneg _ (by omega), Int.emod_lt_of_pos _ (by omega)⟩
      obtain ⟨g1, g2, g3⟩ := comp_class hr'.1 hr'.2 hdm
      have inv : (d - (d - x) % d) % d = x := by
        rcases conj1 hr.1 hr.2 with ⟨u, v⟩ | ⟨u, v⟩
        · rw [v, u]; simp
        · rw [v, Int.emod_eq_of_lt (by omega) (by omega)]; omega
      rw [inv] at g1 g2 g3
      exact ⟨c1, g1.trans eq_comm, c2, fun e => g2 e.symm, fun e => c3 e⟩)
    (dims.length - 1) (by omega)
  refine ⟨j, a, b, hj, j0, j1, ?_, ?_, hor, ?_⟩
  · rw [hfr, Option.bind_some, uniqueTest, l1, if_neg hl2]; exact ha
  · rw [hgr, Option.bind_some, uniqueTest, l2, if_neg hl2]; exact hb2
  · intro e1 e2
    have hall := hand e1 e2
    have : conjPos dims p = p := by
      refine List.ext_getElem (by simp [conjPos, hlen]) fun s s1 s2 => ?_
      have := hall s (by omega) p[s] (dims[s]'(by omega)) (List.getElem?_eq_getElem _)
        (List.getElem?_eq_getElem _)
      simpa [conjPos] using this
    rw [this, hp.symm] at hpj
    have := (conj_self_iff h h0 h1 hp).mpr this
    rw [hj] at this; simpa using this.symm

/-- C43: for every domain with sides up to 10^9 there is a strictly increasing list of nodes such
that the calls of `Next` on a fresh iterator return that list and then -1 for ever; of a node and its
conjugate at least one is in the list, and both only if they are the same node. -/
theorem c43_unique {dims : List Int} (h : GoodDims dims) (hs : ∀ d ∈ dims, d ≤ 10 ^ 9) :
    ∃ visited : List Nat, visited.Pairwise (· < ·) ∧ (∀ i ∈ visited, (i : Int) < numNodes dims) ∧
      (∀ k, iterCalls (nodeFreq dims) uniqueTest (numNodes dims).toNat k 0 =
        some ((visited.map Int.ofNat ++ List.replicate k (-1)).take k)) ∧
      ∀ i : Nat, (i : Int) < numNodes dims → ∃ j : Nat, conjugateNode dims i = some (j : Int) ∧
        (i ∈ visited ∨ j ∈ visited) ∧ (i ∈ visited → j ∈ visited → i = j) := by
  classical
  let acc : Nat → Bool := fun i => ((freq dims (i : Int)).bind uniqueTest).getD false
  have hN := numNodes_nonneg h
  have hacc : ∀ i : Nat, (i : Int) < numNodes dims →
      (freq dims (i : Int)).bind uniqueTest = some (acc i) := by
    intro i hi
    obtain ⟨j, a, b, -, -, -, ha, -⟩ := unique_aux h hs (by omega) hi
    simp [acc, ha]
  have hmem : ∀ i : Nat, i ∈ (List.range (numNodes dims).toNat).filter acc ↔
      (i : Int) < numNodes dims ∧ acc i = true := by
    intro i; rw [List.mem_filter, List.mem_range]
    constructor
    · rintro ⟨a, b⟩; exact ⟨by omega, b⟩
    · rintro ⟨a, b⟩; exact ⟨by omega, b⟩
  refine ⟨(List.range (numNodes dims).toNat).filter acc, ?_, ?_, ?_, ?_⟩
  · exact (List.pairwise_lt_range).filter _
  · intro i hi; exact ((hmem i).mp hi).1
  · intro k
    rw [iterCalls_spec _ _ acc _ (fun j hj => hacc j (by omega))]
    simp [List.range_eq_range']
  · intro i hi
    obtain ⟨j, a, b, hj, j0, j1, ha, hb, hor, hand⟩ := unique_aux h hs (i := (i : Int)) (by omega) hi
    lift j to ℕ using j0
    refine ⟨j, hj, ?_, ?_⟩
    · rw [hmem, hmem]
      rw [hacc i hi, Option.some.injEq] at ha
      rw [hacc j j1, Option.some.injEq] at hb
      rw [ha, hb]
      rcases hor with e | e
      · exact Or.inl ⟨hi, e⟩
      · exact Or.inr ⟨j1, e⟩
    · rw [hmem, hmem]
      rw [hacc i hi, Option.some.injEq] at ha
      rw [hacc j j1, Option.some.injEq] at hb
      rintro ⟨-, e1⟩ ⟨-, e2⟩
      have := hand (ha ▸ e1) (hb ▸ e2)
      exact_mod_cast this

example : GoodDims [4, 3] ∧ (∀ d ∈ ([4, 3] : List Int), d ≤ 10 ^ 9) ∧
    iterCalls (nodeFreq [4, 3]) uniqueTest 12 9 0 = some [0, 1, 3, 4, 6, 7, 10, -1, -1] := by
  refine ⟨⟨by decide, by decide⟩, by decide, by decide +kernel⟩

/-- C44: the calls of `Next` return exactly the nodes that are their own conjugate, in increasing
order, and then -1 for ever; there are two to the number of even sides of them. -/
theorem c44_real_amplitude {dims : List Int} (h : GoodDims dims) (hs : ∀ d ∈ dims, d ≤ 10 ^ 9) :
    ∃ visited : List Nat, visited.Pairwise (· < ·) ∧
      (∀ i : Nat, i ∈ visited ↔ (i : Int) < numNodes dims ∧ conjugateNode dims i = some (i : Int)) ∧
      (∀ k, iterCalls (nodeFreq dims) realAmpTest (numNodes dims).toNat k 0 =
        some ((visited.map Int.ofNat ++ List.replicate k (-1)).take k)) ∧
      visited.length = 2 ^ (dims.filter fun d => decide (Even d)).length := by
  classical
  have hN := numNodes_nonneg h
  have hacc : ∀ i : Nat, (i : Int) < numNodes dims → (freq dims (i : Int)).bind realAmpTest =
      some (decide (conjugateNode dims (i : Int) = some (i : Int))) := by
    intro i hi
    obtain ⟨p, hp, hb, -⟩ := pos_spec h (by omega) hi
    rw [freq_eq h (by omega) hi hp, Option.bind_some, realAmpTest, Option.some.injEq]
    have hfold : ∀ (l : List ℚ) (b : Bool), l.foldl (fun all x =>
        if |x| > freqTol ∧ |x| < 1 / 2 - freqTol then false else all) b =
        (b && decide (∀ x ∈ l, ¬ (|x| > freqTol ∧ |x| < 1 / 2 - freqTol))) := by
      intro l
      induction l with
      | nil => intro b; simp
      | cons y l ih =>
        intro b
        rw [List.foldl_cons, ih]
        by_cases hy : |y| > freqTol ∧ |y| < 1 / 2 - freqTol
        · rw [if_pos hy]; simp only [Bool.false_and]
          rw [decide_eq_false]
          · simp
          · intro hc; exact hc y (by simp) hy
        · rw [if_neg hy]
          congr 1
          rw [decide_eq_decide]
          simp only [List.forall_mem_cons]
          tauto
    rw [hfold, Bool.true_and, decide_eq_decide, conj_self_iff h (by omega) hi hp]
    clear hp hfold
    have key : ∀ (ds p : List Int), InBox ds p → (∀ d ∈ ds, d ≤ 10 ^ 9) →
        ((∀ x ∈ List.zipWith phi p ds, ¬ (|x| > freqTol ∧ |x| < 1 / 2 - freqTol)) ↔
          conjPos ds p = p) := by
      intro ds
      induction ds with
      | nil => intro p hp _; cases hp; simp [conjPos]
      | cons d ds ih =>
        intro p hp hs
        cases hp with
        | cons a1 a2 =>
          rename_i x p
          have ih' := ih p a2 (fun d hd => hs d (by simp [hd]))
          simp only [conjPos, List.zipWith_cons_cons, List.forall_mem_cons, List.cons.injEq] at ih' ⊢
          rw [ih']
          refine and_congr_left fun _ => ?_
          have hd : d ≤ 10 ^ 9 := hs d (by simp)
          rw [← (comp_class a1.1 a1.2 hd).1]
          -- the two tests differ only at the tolerance itself, which no frequency hits
          have hdq : (0:ℚ) < d := by exact_mod_cast lt_of_le_of_lt a1.1 a1.2
          have hdq' : (d:ℚ) ≤ 10 ^ 9 := by exact_mod_cast hd
          have t2 : freqTol < 1 / (2 * (d:ℚ)) := by
            unfold freqTol; rw [lt_div_iff₀ (by positivity)]; linarith
          have t1 : freqTol < 1 / (d:ℚ) := by
            unfold freqTol; rw [lt_div_iff₀ hdq]; linarith
          have t0 : (0:ℚ) < freqTol := by unfold freqTol; norm_num
          have hlow : ∀ z : Int, 0 < z → 2 * z < d → |phi z d| ≠ freqTol ∧
              |phi z d| ≠ 1/2 - freqTol := by
            intro z z0 z1
            obtain ⟨l1, l2⟩ := phi_low z0 z1
            have hp : 0 < phi z d := lt_of_lt_of_le (by positivity) l1
            rw [abs_of_pos hp]
            constructor <;> intro e <;> linarith
          have hne : |phi x d| ≠ freqTol ∧ |phi x d| ≠ 1/2 - freqTol := by
            rcases a1.1.lt_or_eq with hx | hx
            · rcases lt_trichotomy (2 * x) d with hh | hh | hh
              · exact hlow x hx hh
              · rw [phi_half (by omega) hh]
                unfold freqTol; norm_num [abs_of_pos]
              · rw [phi_high hh a1.2, abs_neg]
                exact hlow _ (by omega) (by omega)
            · rw [← hx, phi_zero]
              unfold freqTol; norm_num
          constructor
          · intro hc
            by_contra hc2
            push Not at hc2
            exact hc ⟨lt_of_le_of_ne hc2.1 (Ne.symm hne.1), lt_of_le_of_ne hc2.2 hne.2⟩
          · rintro (hc | hc) ⟨e1, e2⟩ <;> linarith
    exact key _ _ hb hs
  refine ⟨(List.range (numNodes dims).toNat).filter fun (i : Nat) =>
    decide (conjugateNode dims (i : Int) = some (i : Int)), ?_, ?_, ?_, count_self h⟩
  · exact (List.pairwise_lt_range).filter _
  · intro i
    rw [List.mem_filter, List.mem_range, decide_eq_true_iff]
    constructor
    · rintro ⟨a, b⟩; exact ⟨by omega, b⟩
    · rintro ⟨a, b⟩; exact ⟨by omega, b⟩
  · intro k
    rw [iterCalls_spec _ _ (fun i => decide (conjugateNode dims (i : Int) = some (i : Int))) _
      (fun j hj => hacc j (by omega))]
    simp [List.range_eq_range']

example : iterCalls (nodeFreq [4, 3, 2]) realAmpTest 24 6 0 = some [0, 6, 12, 18, -1, -1] := by
  decide +kernel

end Gopf.Props
