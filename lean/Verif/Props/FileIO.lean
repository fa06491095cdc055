import Verif.Model.FileIO
import Verif.Model.Solver
import Verif.Proofs.Database
import Mathlib.Tactic.Linarith
import Mathlib.Tactic.Ring
import Mathlib.Tactic.FieldSimp
import Mathlib.Tactic.IntervalCases
import Mathlib.Tactic.NormNum

/-!
# C39–C42: files
-/

namespace Gopf.Props
open Pf Spec Pfutil

/-! ## C39 -/

private theorem uint64_put (v : Word) (rest : List Byte) : uint64 (putUint64 v ++ rest) = v := by
  simp only [putUint64, uint64, List.cons_append, List.getD_cons_succ, List.getD_cons_zero]
  apply BitVec.eq_of_getLsbD_eq
  intro i hi
  interval_cases i <;> simp

private theorem put_length (v : Word) : (putUint64 v).length = 8 := rfl

private theorem save_length (data : List Word) : (saveFloat64 data).length = 8 * data.length := by
  induction data with
  | nil => rfl
  | cons v l ih =>
    unfold saveFloat64 at *
    rw [List.flatMap_cons, List.length_append, ih, put_length, List.length_cons]
    ring

private theorem read_save (data : List Word) (rest : List Byte) :
    readWords data.length (saveFloat64 data ++ rest) = data := by
  induction data with
  | nil => rfl
  | cons v l ih =>
    have h : saveFloat64 (v :: l) ++ rest = putUint64 v ++ (saveFloat64 l ++ rest) := by
      simp [saveFloat64]
    rw [h, List.length_cons, readWords, uint64_put]
    rw [List.drop_left' (put_length v), ih]

/-- C39: a raw file holds eight bytes per value, most significant first. -/
theorem c39_layout (data : List Word) :
    (saveFloat64 data).length = 8 * data.length ∧
    ∀ i (hi : i < data.length) (k : ℕ), k < 8 →
      ((saveFloat64 data)[8 * i + k]?).map BitVec.toNat =
        some (data[i].toNat / 256 ^ (7 - k) % 256) := by
  refine ⟨save_length data, ?_⟩
  induction data with
  | nil => intro i hi; simp at hi
  | cons v l ih =>
    intro i hi k hk
    have h : saveFloat64 (v :: l) = putUint64 v ++ saveFloat64 l := by simp [saveFloat64]
    rw [h]
    cases i with
    | zero =>
      rw [List.getElem?_append_left (by rw [put_length]; omega)]
      interval_cases k <;> simp [putUint64, Nat.shiftRight_eq_div_pow]
    | succ i =>
      rw [List.getElem?_append_right (by rw [put_length]; omega), put_length,
        show 8 * (i + 1) + k - 8 = 8 * i + k by omega]
      exact ih i (by simpa using hi) k hk

/-- C39: reading a raw file returns the bit patterns that were written, in the same order. -/
theorem c39_round_trip (data : List Word) : loadFloat64 (saveFloat64 data) = data := by
  unfold loadFloat64
  rw [save_length, Nat.mul_div_cancel_left _ (by norm_num)]
  have := read_save data []
  rwa [List.append_nil] at this

/-- C39: a file with some bytes too many is read as the complete words in it. -/
theorem c39_partial_word (data : List Word) (rest : List Byte) (h : rest.length < 8) :
    loadFloat64 (saveFloat64 data ++ rest) = data := by
  unfold loadFloat64
  rw [List.length_append, save_length, show (8 * data.length + rest.length) / 8 = data.length by omega,
    read_save]

example : saveFloat64 [0x0102030405060708#64] = [1, 2, 3, 4, 5, 6, 7, 8] := by decide

/-! ## C40 -/

private theorem digits_isDigit {n : ℕ} : ∀ c ∈ Nat.toDigits 10 n, c.isDigit = true :=
  fun _ hc => Nat.isDigit_of_mem_toDigits (by norm_num) (by norm_num) hc

private theorem round_spec (q : ℚ) : |(roundHalfEven q : ℚ) - q| ≤ 1 / 2 := by
  have h1 := Int.floor_le q
  have h2 := Int.lt_floor_add_one q
  unfold roundHalfEven
  dsimp only
  rw [abs_le]
  split_ifs with a b c
  · constructor <;> linarith
  · push_cast; constructor <;> linarith
  · constructor <;> linarith
  · push_cast; constructor <;> linarith

private theorem round_nonneg {q : ℚ} (h : 0 ≤ q) : 0 ≤ roundHalfEven q := by
  have : 0 ≤ ⌊q⌋ := Int.floor_nonneg.mpr h
  unfold roundHalfEven
  dsimp only
  split_ifs <;> omega

private theorem round_int (n : Int) : roundHalfEven (n : ℚ) = n := by
  unfold roundHalfEven
  simp

private theorem parseUnsigned_fmt (m : ℕ) :
    parseUnsigned (Nat.toDigits 10 (m / 10 ^ 6) ++ '.' ::
      (Nat.toDigits 10 (m % 10 ^ 6)).leftpad 6 '0') = some ((m : ℚ) / 10 ^ 6) := by
  have hd := @digits_isDigit (m / 10 ^ 6)
  have hlen : ((Nat.toDigits 10 (m % 10 ^ 6)).leftpad 6 '0').length = 6 := by
    unfold List.leftpad
    rw [List.length_append, List.length_replicate]
    have := (Nat.length_toDigits_le_iff (n := m % 10 ^ 6) (k := 6) (b := 10) (by norm_num)
      (by norm_num)).mpr (Nat.mod_lt _ (by norm_num))
    omega
  have hall : ((Nat.toDigits 10 (m % 10 ^ 6)).leftpad 6 '0').all Char.isDigit = true := by
    rw [List.all_eq_true]
    intro c hc
    unfold List.leftpad at hc
    rcases List.mem_append.mp hc with h | h
    · rw [List.eq_of_mem_replicate h]; rfl
    · exact digits_isDigit c h
  have hval : Nat.ofDigitChars 10 ((Nat.toDigits 10 (m % 10 ^ 6)).leftpad 6 '0') 0 = m % 10 ^ 6 := by
    unfold List.leftpad
    rw [Nat.ofDigitChars_append, Nat.ofDigitChars_replicate_zero, Nat.mul_zero,
      Nat.ofDigitChars_ten_toDigits]
  unfold parseUnsigned
  dsimp only
  rw [List.dropWhile_append_of_pos hd, List.takeWhile_append_of_pos hd]
  have e1 : List.dropWhile Char.isDigit ('.' :: (Nat.toDigits 10 (m % 10 ^ 6)).leftpad 6 '0') =
      '.' :: (Nat.toDigits 10 (m % 10 ^ 6)).leftpad 6 '0' := by
    rw [List.dropWhile_cons_of_neg (by decide)]
  have e2 : List.takeWhile Char.isDigit ('.' :: (Nat.toDigits 10 (m % 10 ^ 6)).leftpad 6 '0') = [] := by
    rw [List.takeWhile_cons_of_neg (by decide)]
  rw [e1, e2, List.append_nil]
  simp only []
  rw [if_pos ⟨hall, fun h => Nat.toDigits_ne_nil h.1⟩, hlen, hval, Nat.ofDigitChars_ten_toDigits]
  congr 1
  have := Nat.div_add_mod m (10 ^ 6)
  have h2 : (m : ℚ) = 10 ^ 6 * ((m / 10 ^ 6 : ℕ) : ℚ) + ((m % 10 ^ 6 : ℕ) : ℚ) := by
    exact_mod_cast this.symm
  rw [h2]
  generalize ((m / 10 ^ 6 : ℕ) : ℚ) = a
  generalize ((m % 10 ^ 6 : ℕ) : ℚ) = b
  field_simp

private theorem parse_digit_head (t : Str) (n : ℕ) :
    parseFloat (Nat.toDigits 10 n ++ t) = parseUnsigned (Nat.toDigits 10 n ++ t) := by
  have hne : Nat.toDigits 10 n ≠ [] := Nat.toDigits_ne_nil
  have hd := @digits_isDigit n
  cases h : Nat.toDigits 10 n with
  | nil => exact absurd h hne
  | cons c l =>
    have hc : c.isDigit = true := hd c (by rw [h]; simp)
    rw [List.cons_append]
    unfold parseFloat
    split
    · rename_i heq; obtain ⟨rfl, -⟩ := List.cons.inj heq; simp at hc
    · rename_i heq; obtain ⟨rfl, -⟩ := List.cons.inj heq; simp at hc
    · rfl

private theorem parse_fmt (x : ℚ) :
    ∃ y, parseFloat (fmtF x) = some y ∧ |y - x| ≤ 1 / (2 * 10 ^ 6) ∧
      ((∃ n : Int, x = n / 10 ^ 6) → y = x) := by
  set m := (roundHalfEven (|x| * 10 ^ 6)).toNat with hm
  have hnn : 0 ≤ roundHalfEven (|x| * 10 ^ 6) := round_nonneg (by positivity)
  have hcast : (m : ℚ) = (roundHalfEven (|x| * 10 ^ 6) : ℚ) := by
    have : ((m : Int) : ℚ) = (roundHalfEven (|x| * 10 ^ 6) : ℚ) := by
      rw [hm, Int.toNat_of_nonneg hnn]
    exact_mod_cast this
  have herr : |(m : ℚ) / 10 ^ 6 - (|x| : ℚ)| ≤ 1 / (2 * 10 ^ 6) := by
    have h := round_spec (|x| * 10 ^ 6)
    rw [← hcast, abs_le] at h
    rw [abs_le]
    constructor
    · have : -(1 / (2 * 10 ^ 6) : ℚ) = (-(1/2)) / 10 ^ 6 := by norm_num
      rw [this, div_le_iff₀ (by norm_num)]
      rw [sub_mul, div_mul_cancel₀ _ (by norm_num)]; linarith [h.1]
    · have : (1 / (2 * 10 ^ 6) : ℚ) = (1/2) / 10 ^ 6 := by norm_num
      rw [this, le_div_iff₀ (by norm_num)]
      rw [sub_mul, div_mul_cancel₀ _ (by norm_num)]; linarith [h.2]
  have hexact : (∃ n : Int, x = n / 10 ^ 6) → (m : ℚ) / 10 ^ 6 = |x| := by
    rintro ⟨n, hn⟩
    have : |x| * 10 ^ 6 = ((|n| : Int) : ℚ) := by
      rw [hn, abs_div, abs_of_pos (by norm_num : (0 : ℚ) < 10 ^ 6), div_mul_cancel₀ _ (by norm_num)]
      push_cast; rfl
    rw [hcast, this, round_int, ← this, mul_div_cancel_right₀ _ (by norm_num)]
  by_cases hx : x < 0
  · refine ⟨-((m : ℚ) / 10 ^ 6), ?_, ?_, ?_⟩
    · unfold fmtF
      rw [if_pos hx]
      rw [parseFloat, ← hm, parseUnsigned_fmt]; rfl
    · rw [abs_of_neg hx] at herr
      rw [show -((m : ℚ) / 10 ^ 6) - x = -((m : ℚ) / 10 ^ 6 - -x) by ring, abs_neg]; exact herr
    · intro h; rw [hexact h, abs_of_neg hx]; ring
  · refine ⟨(m : ℚ) / 10 ^ 6, ?_, ?_, ?_⟩
    · unfold fmtF
      rw [if_neg hx, parse_digit_head, ← hm, parseUnsigned_fmt]
    · rw [abs_of_nonneg (not_lt.mp hx)] at herr; exact herr
    · intro h; rw [hexact h, abs_of_nonneg (not_lt.mp hx)]

/-- C40: a number written with `%f` is read back with an error of at most 5·10⁻⁷, and exactly if it has
at most six decimals. -/
theorem c40_number (x : ℚ) :
    ∃ y, parseFloat (fmtF x) = some y ∧ |y - x| ≤ 5 / 10 ^ 7 ∧
      ((∃ n : Int, x = n / 10 ^ 6) → y = x) := by
  obtain ⟨y, h1, h2, h3⟩ := parse_fmt x
  exact ⟨y, h1, h2.trans (by norm_num), h3⟩

/-- C40: a plus sign in front of a number changes nothing; a minus sign changes the sign. -/
theorem c40_signs (x : ℚ) (hx : 0 ≤ x) :
    parseFloat ('+' :: fmtF x) = parseFloat (fmtF x) ∧
    parseFloat ('-' :: fmtF x) = (parseFloat (fmtF x)).map fun y => -y := by
  have e : parseFloat (fmtF x) = parseUnsigned (fmtF x) := by
    unfold fmtF
    rw [if_neg (not_lt.mpr hx), parse_digit_head]
  rw [e]
  exact ⟨rfl, rfl⟩

private theorem csvLoop_eq {dims : List Int} (hd : GoodDims dims) (data : List (Str × List ℚ))
    (hl : ∀ f ∈ data, (f.2.length : Int) = numNodes dims) :
    ∀ n : ℕ, (n : Int) ≤ numNodes dims → ∃ s, s.length = 3 ∧
      s.drop dims.length = List.replicate (3 - dims.length) 0 ∧
      csvLoop data dims (List.range n) = some (s, (List.range n).map fun i =>
        (padPos dims i).map fmtInt ++ data.map fun f => fmtF (f.2.getD i 0)) := by
  intro n
  have hdl : dims.length ≤ 3 := by rcases hd.1 with h | h <;> omega
  induction n with
  | zero =>
    intro _
    refine ⟨[0, 0, 0], rfl, ?_, rfl⟩
    rcases hd.1 with h | h <;> rw [h] <;> rfl
  | succ n ih =>
    intro hn
    obtain ⟨s, hs, hsd, ih⟩ := ih (by omega)
    obtain ⟨p, hp, hpl⟩ := pos_length hd (i := n) (by omega)
    have hcopy : goCopy s p = p ++ List.replicate (3 - dims.length) 0 := by
      unfold goCopy
      rw [List.take_of_length_le (by omega), hpl, hsd]
    refine ⟨p ++ List.replicate (3 - dims.length) 0, by simp; omega, ?_, ?_⟩
    · rw [← hpl, List.drop_left]
    · unfold csvLoop at ih ⊢
      rw [List.range_succ, List.foldlM_append, ih]
      have hvals : (data.mapM fun f => (goGet f.2 (n : Int)).map fmtF) =
          some (data.map fun f => fmtF (f.2.getD n 0)) := by
        clear ih hs hsd
        clear * - hl hn
        induction data with
        | nil => rfl
        | cons f fs ihf =>
          have hf := hl f (by simp)
          have hnf : n < f.2.length := by omega
          rw [List.mapM_cons, ihf (fun g hg => hl g (by simp [hg]))]
          have : goGet f.2 (n : Int) = some (f.2.getD n 0) := by
            simp [goGet, List.getD, List.getElem?_eq_getElem hnf]
          rw [this]; rfl
      simp only [Option.bind_eq_bind, Option.bind_some, List.foldlM_cons, List.foldlM_nil, hp, hvals,
        hcopy, Option.pure_def, List.map_append, List.map_cons, List.map_nil]
      have : padPos dims n = p ++ List.replicate (3 - dims.length) 0 := by simp [padPos, hp]
      rw [this, List.map_append]

private theorem csvAppend_eq (fields : List (Str × List (ℚ × ℚ))) (pre vals : List Str)
    (hpre : pre.length = 3) (hv : vals.length = fields.length) :
    csvAppend fields (pre ++ vals) = some (List.zipWith (fun f v =>
      (f.1, f.2 ++ [((parseFloat v).getD 0, 0)])) fields vals) := by
  have key : ∀ (fs : List (Str × List (ℚ × ℚ))) (vs done : List Str), vs.length = fs.length →
      ((fs.zipIdx done.length).mapM fun f => (do
        let text ← goGet (pre ++ (done ++ vs)) ((f.2 + 3 : ℕ) : Int)
        return (f.1.1, f.1.2 ++ [((parseFloat text).getD 0, (0 : ℚ))]) : Option (Str × List (ℚ × ℚ)))) =
      some (List.zipWith (fun f v => (f.1, f.2 ++ [((parseFloat v).getD 0, 0)])) fs vs) := by
    intro fs
    induction fs with
    | nil => intro vs done _; rfl
    | cons f fs ih =>
      intro vs done hl
      cases vs with
      | nil => simp at hl
      | cons v vs =>
        have h1 := ih vs (done ++ [v]) (by simpa using hl)
        rw [List.zipIdx_cons, List.mapM_cons]
        have hg : goGet (pre ++ (done ++ v :: vs)) ((done.length + 3 : ℕ) : Int) = some v := by
          unfold goGet
          rw [if_pos (by omega), Int.toNat_natCast, List.getElem?_append_right (by omega), hpre,
            Nat.add_sub_cancel, List.getElem?_append_right (le_refl _)]
          simp
        have h2 : done ++ v :: vs = (done ++ [v]) ++ vs := by simp
        have h3 : done.length + 1 = (done ++ [v]).length := by simp
        simp only [hg, Option.bind_eq_bind, Option.bind_some, Option.pure_def]
        simp only [Option.bind_eq_bind, Option.pure_def] at h1
        rw [h2, h3, h1]
        rfl
  have := key fields vals [] hv
  simpa [csvAppend] using this

/-- The records of a saved file. -/
theorem saved_file {dims : List Int} (hd : GoodDims dims) (data : List (Str × List ℚ))
    (hne : data ≠ []) (hl : ∀ f ∈ data, (f.2.length : Int) = numNodes dims) :
    saveCsv data dims = some (some ((["X".toList, "Y".toList, "Z".toList] ++ data.map (·.1)) ::
      (List.range (numNodes dims).toNat).map fun i => (padPos dims i).map fmtInt ++
        data.map fun f => fmtF (f.2.getD i 0))) := by
  obtain ⟨d, ds, rfl⟩ := List.exists_cons_of_ne_nil hne
  have hdl := hl d (by simp)
  have hdims : dims ≠ [] := by rintro rfl; simp [GoodDims] at hd
  obtain ⟨s, -, -, hs⟩ := csvLoop_eq hd (d :: ds) hl d.2.length (by omega)
  have e : (numNodes dims).toNat = d.2.length := by omega
  unfold saveCsv
  rw [if_neg hdims, e]
  dsimp only
  rw [if_neg (by rw [not_not, prodInt_eq, hdl]; rfl), hs]
  rfl

/-- C40: saving to CSV succeeds for every non-empty list of named data on a 2D or 3D domain; the file
lists for every node its position (three coordinates) and its values; loading it returns the names in
order and, for every node, the number read back from the text of its value. -/
theorem c40_table {dims : List Int} (hd : GoodDims dims) (data : List (Str × List ℚ))
    (hne : data ≠ []) (hl : ∀ f ∈ data, (f.2.length : Int) = numNodes dims) :
    ∃ header rows, saveCsv data dims = some (some (header :: rows)) ∧
      (rows.length : Int) = numNodes dims ∧
      (∀ i : ℕ, (i : Int) < numNodes dims → ∃ p, pos dims (i : Int) = some p ∧
        rows[i]? = some ((p ++ List.replicate (3 - p.length) 0).map fmtInt ++
          data.map fun f => fmtF (f.2.getD i 0))) ∧
      loadCsv (header :: rows) = some (data.map fun f =>
        (f.1, f.2.map fun x => ((parseFloat (fmtF x)).getD 0, 0))) := by
  obtain ⟨d, ds, rfl⟩ := List.exists_cons_of_ne_nil hne
  have hdl := hl d (by simp)
  have hdims : dims ≠ [] := by rintro rfl; simp [GoodDims] at hd
  obtain ⟨s, -, -, hs⟩ := csvLoop_eq hd (d :: ds) hl d.2.length (by omega)
  refine ⟨["X".toList, "Y".toList, "Z".toList] ++ (d :: ds).map (·.1),
    (List.range d.2.length).map fun i => (padPos dims i).map fmtInt ++
      (d :: ds).map fun f => fmtF (f.2.getD i 0), ?_, ?_, ?_, ?_⟩
  · unfold saveCsv
    rw [if_neg hdims]
    dsimp only
    rw [if_neg (by rw [not_not, prodInt_eq, hdl]; rfl), hs]
    rfl
  · rw [List.length_map, List.length_range, hdl]
  · intro i hi
    obtain ⟨p, hp, hpl⟩ := pos_length hd hi
    refine ⟨p, hp, ?_⟩
    rw [List.getElem?_map, List.getElem?_range (by omega)]
    simp [padPos, hp, hpl]
  · set dd := d :: ds with hdd
    have hlen : (["X".toList, "Y".toList, "Z".toList] ++ dd.map (·.1)).length = 3 + dd.length := by
      simp; omega
    unfold loadCsv
    simp only []
    rw [if_neg (by rw [hlen]; omega)]
    have hdrop : (["X".toList, "Y".toList, "Z".toList] ++ dd.map (·.1)).drop 3 = dd.map (·.1) := rfl
    rw [hdrop, hlen]
    have key : ∀ n : ℕ, n ≤ d.2.length →
        ((List.range n).map fun i => (padPos dims i).map fmtInt ++
          dd.map fun f => fmtF (f.2.getD i 0)).foldlM
        (fun (fields : List (Str × List (ℚ × ℚ))) (r : List Str) =>
          if r.length ≠ 3 + dd.length then none else csvAppend fields r)
        ((dd.map (·.1)).map fun n => (n, [])) =
        some (dd.map fun f => (f.1, (f.2.take n).map fun x => ((parseFloat (fmtF x)).getD 0, 0))) := by
      intro n
      induction n with
      | zero => intro _; simp
      | succ n ih =>
        intro hn
        rw [List.range_succ, List.map_append, List.foldlM_append, ih (by omega)]
        obtain ⟨p, hp, hpl⟩ := pos_length hd (i := n) (by omega)
        have hpad : ((padPos dims n).map fmtInt).length = 3 := by
          rcases hd.1 with h | h <;> simp [padPos, hp, hpl, h]
        simp only [Option.bind_eq_bind, Option.bind_some, List.map_cons, List.map_nil,
          List.foldlM_cons, List.foldlM_nil]
        rw [if_neg (by rw [List.length_append, hpad, List.length_map]; simp),
          csvAppend_eq _ _ _ hpad (by simp)]
        simp only [Option.bind_some, Option.pure_def, Option.some.injEq]
        rw [List.zipWith_map, List.zipWith_self]
        apply List.map_congr_left
        intro f hf
        have hfl := hl f hf
        have hnf : n < f.2.length := by omega
        rw [List.take_succ_eq_append_getElem hnf, List.map_append]
        simp only [List.getD, List.getElem?_eq_getElem hnf, Option.getD_some, List.map_cons,
          List.map_nil]
    rw [key _ (le_refl _)]
    congr 1
    apply List.map_congr_left
    intro f hf
    have hfl := hl f hf
    rw [List.take_of_length_le (by omega)]

/-- C40: saving and loading returns the same names in the same order, the same number of nodes,
imaginary parts zero, and every real part within 5·10⁻⁷. -/
theorem c40_round_trip {dims : List Int} (hd : GoodDims dims) (data : List (Str × List ℚ))
    (hne : data ≠ []) (hl : ∀ f ∈ data, (f.2.length : Int) = numNodes dims) :
    ∃ file fields, saveCsv data dims = some (some file) ∧ loadCsv file = some fields ∧
      List.Forall₂ (fun d f => f.1 = d.1 ∧
        List.Forall₂ (fun x y => |y.1 - x| ≤ 5 / 10 ^ 7 ∧ y.2 = 0) d.2 f.2) data fields := by
  obtain ⟨header, rows, h1, -, -, h2⟩ := c40_table hd data hne hl
  refine ⟨_, _, h1, h2, ?_⟩
  rw [List.forall₂_map_right_iff, List.forall₂_same]
  intro d _
  refine ⟨rfl, ?_⟩
  rw [List.forall₂_map_right_iff, List.forall₂_same]
  intro x _
  obtain ⟨y, e1, e2, -⟩ := c40_number x
  rw [e1]
  exact ⟨e2, rfl⟩

example : saveCsv [("c".toList, [1/3, -2]), ("eta".toList, [5/2, 0])] [1, 2] =
    some (some [["X".toList, "Y".toList, "Z".toList, "c".toList, "eta".toList],
      ["0".toList, "0".toList, "0".toList, "0.333333".toList, "2.500000".toList],
      ["0".toList, "1".toList, "0".toList, "-2.000000".toList, "0.000000".toList]]) := by
  decide +kernel

/-! ## C41 -/

private theorem foldl_max (l : List ℚ) (a : ℚ) :
    let m := l.foldl (fun m x => if x > m then x else m) a
    a ≤ m ∧ (∀ x ∈ l, x ≤ m) ∧ (m = a ∨ m ∈ l) := by
  induction l generalizing a with
  | nil => simp
  | cons b l ih =>
    obtain ⟨h1, h2, h3⟩ := ih (if b > a then b else a)
    simp only [List.foldl_cons]
    refine ⟨?_, ?_, ?_⟩
    · exact le_trans (by split_ifs with h <;> linarith) h1
    · intro x hx
      rcases List.mem_cons.mp hx with rfl | hx
      · exact le_trans (by split_ifs with h <;> linarith) h1
      · exact h2 x hx
    · rcases h3 with h3 | h3
      · rw [h3]; split_ifs
        · right; simp
        · left; rfl
      · right; simp [h3]

private theorem foldl_min (l : List ℚ) (a : ℚ) :
    let m := l.foldl (fun m x => if x < m then x else m) a
    m ≤ a ∧ (∀ x ∈ l, m ≤ x) ∧ (m = a ∨ m ∈ l) := by
  induction l generalizing a with
  | nil => simp
  | cons b l ih =>
    obtain ⟨h1, h2, h3⟩ := ih (if b < a then b else a)
    simp only [List.foldl_cons]
    refine ⟨?_, ?_, ?_⟩
    · exact le_trans h1 (by split_ifs with h <;> linarith)
    · intro x hx
      rcases List.mem_cons.mp hx with rfl | hx
      · exact le_trans h1 (by split_ifs with h <;> linarith)
      · exact h2 x hx
    · rcases h3 with h3 | h3
      · rw [h3]; split_ifs
        · right; simp
        · left; rfl
      · right; simp [h3]

private theorem toUint8_spec {y : ℚ} (h0 : 0 ≤ y) (h1 : y ≤ 255) :
    ∃ b : ℕ, toUint8 y = some b ∧ b ≤ 255 ∧ (b : ℚ) ≤ y ∧ y < b + 1 := by
  have hf : 0 ≤ ⌊y⌋ := Int.floor_nonneg.mpr h0
  have hc : ((⌊y⌋.toNat : ℕ) : ℚ) = (⌊y⌋ : ℚ) := by
    have : ((⌊y⌋.toNat : Int) : ℚ) = (⌊y⌋ : ℚ) := by rw [Int.toNat_of_nonneg hf]
    exact_mod_cast this
  refine ⟨⌊y⌋.toNat, by rw [toUint8, if_pos ⟨by linarith, by linarith⟩], ?_, ?_, ?_⟩
  · have : ⌊y⌋ ≤ 255 := by
      have := Int.floor_le y
      have h : (⌊y⌋ : ℚ) ≤ 255 := by linarith
      exact_mod_cast h
    omega
  · rw [hc]; exact Int.floor_le y
  · rw [hc]; exact Int.lt_floor_add_one y

/-- C41: the grey values of a non-empty field. `lo` and `hi` are the least and the greatest value. No
conversion is out of range, all bytes are at most 255 and grow with the value. If the values differ by
at least 10⁻¹⁰, every byte is within one grey level of the linear map that takes `lo` to 0 and `hi` to
255, and these two are met exactly. If they differ by less, all bytes are 0. -/
theorem c41_grey (data : List ℚ) (hne : data ≠ []) :
    ∃ lo hi bs, lo ∈ data ∧ hi ∈ data ∧ (∀ x ∈ data, lo ≤ x ∧ x ≤ hi) ∧
      uint8Rep data = some bs ∧ bs.length = data.length ∧
      (∀ i (h : i < data.length) (h' : i < bs.length), bs[i] ≤ 255 ∧
        (1 / 10 ^ 10 ≤ hi - lo → (bs[i] : ℚ) ≤ 255 * (data[i] - lo) / (hi - lo) ∧
          255 * (data[i] - lo) / (hi - lo) < bs[i] + 1 ∧
          (data[i] = lo → bs[i] = 0) ∧ (data[i] = hi → bs[i] = 255)) ∧
        (hi - lo < 1 / 10 ^ 10 → bs[i] = 0)) ∧
      ∀ i j (hi : i < bs.length) (hj : j < bs.length) (hi' : i < data.length) (hj' : j < data.length),
        data[i] ≤ data[j] → bs[i] ≤ bs[j] := by
  obtain ⟨a, l, rfl⟩ := List.exists_cons_of_ne_nil hne
  set data := a :: l with hdata
  obtain ⟨m1, m2, m3⟩ := foldl_min data a
  obtain ⟨M1, M2, M3⟩ := foldl_max data a
  set lo := data.foldl (fun m x => if x < m then x else m) a with hlo
  set hi := data.foldl (fun m x => if x > m then x else m) a with hhi
  have hle : lo ≤ hi := m1.trans M1
  set d : ℚ := (if |hi - lo| < 1 / 10 ^ 10 then lo + 1 else hi) - lo with hd
  have hdpos : 0 < d := by
    rw [hd]; split_ifs with h
    · linarith
    · have : (0 : ℚ) < 1 / 10 ^ 10 := by norm_num
      rw [abs_of_nonneg (by linarith)] at h; linarith
  have hdle : hi - lo ≤ d := by
    rw [hd]; split_ifs with h
    · rw [abs_of_nonneg (by linarith)] at h
      have : (1 : ℚ) / 10 ^ 10 ≤ 1 := by norm_num
      linarith
    · exact le_refl _
  have hdeq : 1 / 10 ^ 10 ≤ hi - lo → d = hi - lo := by
    intro h; rw [hd, if_neg]; rw [abs_of_nonneg (by linarith)]; linarith
  have hdone : hi - lo < 1 / 10 ^ 10 → d = 1 := by
    intro h; rw [hd, if_pos]; · ring
    · rw [abs_of_nonneg (by linarith)]; exact h
  have hy : ∀ x ∈ data, 0 ≤ 255 * (x - lo) / d ∧ 255 * (x - lo) / d ≤ 255 := by
    intro x hx
    have h1 := m2 x hx
    have h2 := M2 x hx
    constructor
    · apply div_nonneg _ hdpos.le; linarith
    · rw [div_le_iff₀ hdpos]; linarith
  have hmap : ∀ ys : List ℚ, (∀ x ∈ ys, x ∈ data) →
      ys.mapM (fun x => toUint8 (255 * (x - lo) / d)) =
      some (ys.map fun x => ⌊255 * (x - lo) / d⌋.toNat) := by
    intro ys hys
    induction ys with
    | nil => rfl
    | cons x ys ih =>
      have := hy x (hys x (by simp))
      rw [List.mapM_cons, ih fun z hz => hys z (by simp [hz])]
      rw [toUint8, if_pos ⟨by linarith [this.1], by linarith [this.2]⟩]; rfl
  have hspec : ∀ x ∈ data, ⌊255 * (x - lo) / d⌋.toNat ≤ 255 ∧
      ((⌊255 * (x - lo) / d⌋.toNat : ℕ) : ℚ) ≤ 255 * (x - lo) / d ∧
      255 * (x - lo) / d < (⌊255 * (x - lo) / d⌋.toNat : ℕ) + 1 := by
    intro x hx
    obtain ⟨b, h1, h2, h3, h4⟩ := toUint8_spec (hy x hx).1 (hy x hx).2
    rw [toUint8, if_pos ⟨by linarith [(hy x hx).1], by linarith [(hy x hx).2]⟩] at h1
    obtain rfl := Option.some.inj h1
    exact ⟨h2, h3, h4⟩
  refine ⟨lo, hi, data.map fun x => ⌊255 * (x - lo) / d⌋.toNat, ?_, ?_, ?_, ?_, ?_, ?_, ?_⟩
  · rcases m3 with h | h
    · change lo = a at h; rw [h]; simp [hdata]
    · exact h
  · rcases M3 with h | h
    · change hi = a at h; rw [h]; simp [hdata]
    · exact h
  · exact fun x hx => ⟨m2 x hx, M2 x hx⟩
  · rw [← hmap data fun _ h => h]; rfl
  · simp
  · intro i h h'
    have hmem : data[i] ∈ data := List.getElem_mem h
    obtain ⟨s1, s2, s3⟩ := hspec _ hmem
    rw [List.getElem_map]
    refine ⟨s1, ?_, ?_⟩
    · intro hg
      rw [← hdeq hg]
      refine ⟨s2, s3, ?_, ?_⟩
      · intro e; rw [e]; simp
      · intro e; rw [e, hdeq hg, mul_div_assoc, div_self (by rw [← hdeq hg]; exact hdpos.ne')]; simp
    · intro hg
      have h1 := m2 _ hmem
      have h2 := M2 _ hmem
      have : ⌊255 * (data[i] - lo) / d⌋ = 0 := by
        rw [Int.floor_eq_zero_iff, hdone hg]
        constructor
        · simpa using h1
        · have : (255 : ℚ) * (1 / 10 ^ 10) < 1 := by norm_num
          rw [div_one]; linarith
      rw [this]; rfl
  · intro i j hi' hj' hid hjd hij
    rw [List.getElem_map, List.getElem_map]
    apply Int.toNat_le_toNat
    apply Int.floor_le_floor
    gcongr

example : uint8Rep [1, 3, 2, 1] = some [0, 255, 127, 0] := by decide +kernel

/-- C41: called with bounds that do not enclose the data the conversion leaves the range of `uint8`. -/
theorem c41_out_of_bounds {x lo hi : ℚ} (h : 1 ≤ hi - lo) (hx : hi + (hi - lo) ≤ x) :
    realPartAsUint8 [x] lo hi = none := by
  unfold realPartAsUint8
  dsimp only
  have : ¬ |hi - lo| < 1 / 10 ^ 10 := by
    rw [abs_of_nonneg (by linarith)]
    have : (1 : ℚ) / 10 ^ 10 ≤ 1 := by norm_num
    linarith
  rw [if_neg this, List.mapM_cons]
  have : toUint8 (255 * (x - lo) / (hi - lo)) = none := by
    unfold toUint8
    rw [if_neg]
    rintro ⟨-, h2⟩
    rw [div_lt_iff₀ (by linarith)] at h2
    nlinarith
  rw [this]; rfl

/-! ## C42 -/

theorem fmtInt_injective : Function.Injective fmtInt := by
  have hpos : ∀ a b, Nat.toDigits 10 a = Nat.toDigits 10 b → a = b := by
    intro a b h
    rw [← Nat.ofDigitChars_ten_toDigits (n := a), h, Nat.ofDigitChars_ten_toDigits]
  have hneg : ∀ a t, Nat.toDigits 10 a ≠ '-' :: t := by
    intro a t h
    have := @digits_isDigit a '-' (by rw [h]; simp)
    simp at this
  intro a b h
  unfold fmtInt at h
  split_ifs at h with h1 h2 h2
  · have := hpos _ _ (List.cons.inj h).2; omega
  · exact absurd h.symm (hneg _ _)
  · exact absurd h (hneg _ _)
  · have := hpos _ _ h; omega

private theorem fmtInt_no_underscore (i : Int) : '_' ∉ fmtInt i := by
  intro h
  unfold fmtInt at h
  split_ifs at h
  · rcases List.mem_cons.mp h with h | h
    · exact absurd h (by decide)
    · exact Nat.underscore_not_in_toDigits h
  · exact Nat.underscore_not_in_toDigits h

private theorem last_sep (a b x y : Str) (hx : '_' ∉ x) (hy : '_' ∉ y)
    (h : a ++ '_' :: x = b ++ '_' :: y) : a = b ∧ x = y := by
  induction a generalizing b with
  | nil =>
    cases b with
    | nil => exact ⟨rfl, (List.cons.inj h).2⟩
    | cons c b =>
      exfalso
      obtain ⟨-, h2⟩ := List.cons.inj h
      exact hx (by rw [h2]; simp)
  | cons c a ih =>
    cases b with
    | nil =>
      exfalso
      obtain ⟨-, h2⟩ := List.cons.inj h
      exact hy (by rw [← h2]; simp)
    | cons d b =>
      obtain ⟨h1, h2⟩ := List.cons.inj h
      obtain ⟨h3, h4⟩ := ih b h2
      exact ⟨by rw [h1, h3], h4⟩

/-- C42: with one prefix, different (field, epoch) pairs are written to different files, whatever
characters the names contain. -/
theorem c42_distinct (pfx f g : Str) (e e' : Int) (h : binName pfx f e = binName pfx g e') :
    f = g ∧ e = e' := by
  unfold binName at h
  have h1 := List.append_cancel_right h
  simp only [List.append_assoc, List.cons_append] at h1
  have h2 := (List.cons.inj (List.append_cancel_left h1)).2
  obtain ⟨h3, h4⟩ := last_sep _ _ _ _ (fmtInt_no_underscore e) (fmtInt_no_underscore e') h2
  exact ⟨h3, fmtInt_injective h4⟩

/-- C42: different prefixes do not keep files apart: a field `b_c` written with prefix `a` and a field
`c` written with prefix `a_b` share their files. -/
theorem c42_prefixes_collide (a b c : Str) (e : Int) :
    binName a (b ++ '_' :: c) e = binName (a ++ '_' :: b) c e := by
  simp [binName]

/-- The state of the file system after the epochs `e`, `e+1`, …, given what the fields are at each. -/
def filesAfter (pfx : Str) (snaps : List (List (Str × List Word))) (e : Int) (fs : FS) : FS :=
  (snaps.zipIdx).foldl (fun fs s => float64IO pfx s.1 ((s.2 : Int) + e) fs) fs

theorem float64IO_other (pfx : Str) (fields : List (Str × List Word)) (e : Int) (fs : FS)
    (nm : Str) (h : ∀ f ∈ fields, binName pfx f.1 e ≠ nm) : float64IO pfx fields e fs nm = fs nm := by
  unfold float64IO
  induction fields generalizing fs with
  | nil => rfl
  | cons f l ih =>
    rw [List.foldl_cons, ih _ fun g hg => h g (by simp [hg]),
      Function.update_of_ne (Ne.symm (h f (by simp)))]

theorem float64IO_get (pfx : Str) (fields : List (Str × List Word)) (e : Int) (fs : FS)
    (hn : (fields.map (·.1)).Nodup) (f : Str × List Word) (hf : f ∈ fields) :
    float64IO pfx fields e fs (binName pfx f.1 e) = some (saveFloat64 f.2) := by
  induction fields generalizing fs with
  | nil => simp at hf
  | cons g l ih =>
    rw [List.map_cons, List.nodup_cons] at hn
    have hstep : float64IO pfx (g :: l) e fs = float64IO pfx l e
        (Function.update fs (binName pfx g.1 e) (some (saveFloat64 g.2))) := rfl
    rw [hstep]
    rcases List.mem_cons.mp hf with rfl | hf
    · rw [float64IO_other, Function.update_self]
      intro h hh heq
      exact hn.1 (List.mem_map.mpr ⟨h, hh, (c42_distinct _ _ _ _ _ heq).1⟩)
    · exact ih _ hn.2 hf

/-- C42: the meta file for `n` epochs lists, for epoch `i` and field `j`, a file which — after a run that
called the writer once per epoch starting at epoch 0 — holds exactly the real parts field `j` had at
epoch `i`. Files of later epochs do not disturb those of earlier ones. -/
theorem c42_meta_file (pfx : Str) (names : List Str) (hn : names.Nodup) (dims : List Int)
    (hd : dims.length = 2 ∨ dims.length = 3)
    (snaps : List (List (Str × List Word))) (hs : ∀ s ∈ snaps, s.map (·.1) = names) (fs : FS) :
    ∃ grids, createXdmf names pfx snaps.length dims = some grids ∧ grids.length = snaps.length ∧
      ∀ i (hi : i < snaps.length) (hg : i < grids.length),
        grids[i].attributes.map (·.1) = names ∧
        List.Forall₂ (fun a f => (filesAfter pfx snaps 0 fs a.2.2).map loadFloat64 = some f.2)
          grids[i].attributes snaps[i] := by
  obtain ⟨dim, hdim⟩ : ∃ d, xdmfDims dims = some d := by
    rcases hd with h | h
    · obtain ⟨a, b, rfl⟩ := List.length_eq_two.mp h; exact ⟨_, rfl⟩
    · obtain ⟨a, b, c, rfl⟩ := List.length_eq_three.mp h; exact ⟨_, rfl⟩
  have hfiles : ∀ (l : List (List (Str × List Word))) (k : ℕ) (fs : FS),
      (∀ s ∈ l, s.map (·.1) = names) →
      (∀ i (hi : i < l.length), ∀ f ∈ l[i],
        ((l.zipIdx k).foldl (fun fs s => float64IO pfx s.1 ((s.2 : Int) + 0) fs) fs)
          (binName pfx f.1 ((k + i : ℕ) : Int)) = some (saveFloat64 f.2)) ∧
      ∀ (m : ℕ) (nm : Str), m < k →
        ((l.zipIdx k).foldl (fun fs s => float64IO pfx s.1 ((s.2 : Int) + 0) fs) fs)
          (binName pfx nm (m : Int)) = fs (binName pfx nm (m : Int)) := by
    intro l
    induction l with
    | nil => intro k fs _; exact ⟨fun i hi => by simp at hi, fun _ _ _ => rfl⟩
    | cons s l ih =>
      intro k fs hl
      obtain ⟨ih1, ih2⟩ := ih (k + 1) (float64IO pfx s ((k : Int) + 0) fs) fun t ht => hl t (by simp [ht])
      rw [List.zipIdx_cons, List.foldl_cons]
      simp only []
      refine ⟨?_, ?_⟩
      · intro i hi f hf
        cases i with
        | zero =>
          rw [Nat.add_zero]
          refine (ih2 k f.1 (by omega)).trans ?_
          rw [Int.add_zero]
          exact float64IO_get _ _ _ _ (by rw [hl s (by simp)]; exact hn) f hf
        | succ i =>
          rw [show k + (i + 1) = k + 1 + i by omega]
          exact ih1 i (by simpa using hi) f hf
      · intro m nm hm
        refine (ih2 m nm (by omega)).trans ?_
        rw [float64IO_other]
        intro f _ heq
        have := (c42_distinct _ _ _ _ _ heq).2
        omega
  obtain ⟨h1, -⟩ := hfiles snaps 0 fs hs
  refine ⟨_, by unfold createXdmf; rw [hdim]; rfl, by simp, ?_⟩
  intro i hi hg
  rw [List.getElem_map, List.getElem_range]
  refine ⟨by simp [List.map_map, Function.comp_def], ?_⟩
  have hsi := hs snaps[i] (List.getElem_mem hi)
  have hrw : names.map (fun n => (n, dim, binName pfx n (i : Int))) =
      snaps[i].map fun f => (f.1, dim, binName pfx f.1 (i : Int)) := by
    rw [← hsi, List.map_map]; rfl
  dsimp only
  rw [hrw, List.forall₂_map_left_iff, List.forall₂_same]
  intro f hf
  have := h1 i hi f hf
  rw [Nat.zero_add] at this
  unfold filesAfter
  rw [this, Option.map_some, c39_round_trip]

/-- C42: the meta file can be made for two and three dimensions only; there every attribute carries the
sides of the domain in order, separated by blanks, and the grids are called T1, T2, ... -/
theorem c42_shape (pfx : Str) (names : List Str) (num : ℕ) (dims : List Int) :
    ((createXdmf names pfx num dims).isSome ↔ dims.length = 2 ∨ dims.length = 3) ∧
    ∀ grids, createXdmf names pfx num dims = some grids →
      grids.map (·.name) = (List.range num).map (fun i : ℕ => 'T' :: fmtInt ((i : Int) + 1)) ∧
      ∀ g ∈ grids, ∀ a ∈ g.attributes, a.2.1 = List.intercalate [' '] (dims.map fmtInt) := by
  have key : (∀ d, xdmfDims dims = some d → d = List.intercalate [' '] (dims.map fmtInt)) ∧
      ((xdmfDims dims).isSome ↔ dims.length = 2 ∨ dims.length = 3) := by
    rcases dims with _ | ⟨a, _ | ⟨b, _ | ⟨c, _ | ⟨d, l⟩⟩⟩⟩ <;>
      simp [xdmfDims, List.intercalate, List.intersperse]
  constructor
  · rw [← key.2]
    unfold createXdmf
    cases xdmfDims dims <;> simp
  · intro grids h
    unfold createXdmf at h
    cases hx : xdmfDims dims with
    | none => rw [hx] at h; simp at h
    | some d =>
      rw [hx] at h
      simp only [Option.bind_eq_bind, Option.bind_some, Option.some.injEq, pure] at h
      subst h
      refine ⟨by simp [List.map_map, Function.comp_def], ?_⟩
      intro g hg a ha
      obtain ⟨i, -, rfl⟩ := List.mem_map.mp hg
      obtain ⟨n, -, rfl⟩ := List.mem_map.mp ha
      exact key.1 d hx

example : ∃ g, createXdmf ["c".toList] "run".toList 2 [8, 4] = some g ∧ g.length = 2 := ⟨_, rfl, rfl⟩

/-- C42: a run that continues at epoch `s > 0` does not write the file of epoch 0 the meta file refers
to. -/
theorem c42_restart (pfx : Str) (snaps : List (List (Str × List Word))) (s : Int) (hs : 0 < s) (fs : FS)
    (nm : Str) : filesAfter pfx snaps s fs (binName pfx nm 0) = fs (binName pfx nm 0) := by
  have key : ∀ (l : List (List (Str × List Word))) (k : ℕ) (fs : FS),
      ((l.zipIdx k).foldl (fun fs t => float64IO pfx t.1 ((t.2 : Int) + s) fs) fs)
        (binName pfx nm 0) = fs (binName pfx nm 0) := by
    intro l
    induction l with
    | nil => intro k fs; rfl
    | cons t l ih =>
      intro k fs
      rw [List.zipIdx_cons, List.foldl_cons, ih, float64IO_other]
      intro f _ heq
      have := (c42_distinct _ _ _ _ _ heq).2
      omega
  exact key snaps 0 fs

example : binName "run".toList "conc_1".toList 12 = "run_conc_1_12.bin".toList := by decide +kernel

example : (["c".toList, "c_1".toList].Nodup ∧ ([8, 8] : List Int).length = 2) ∧
    ∀ s ∈ [[("c".toList, [1#64]), ("c_1".toList, [2#64])], [("c".toList, [3#64]), ("c_1".toList, [])]],
      s.map (·.1) = ["c".toList, "c_1".toList] := by decide

end Gopf.Props
