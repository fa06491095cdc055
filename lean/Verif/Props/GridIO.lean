import Verif.Model.GridIO
import Verif.Props.FileIO
import Verif.Props.Plot

/-!
# C151: grids as fields and as files
-/

namespace Gopf.Props
open Spec Pf Pfutil

/-! ### Complex arrays -/

theorem fromComplex_loop (c : List (ℚ × ℚ)) (d : List ℚ) (k : ℕ) (hk : k ≤ d.length) :
    (c.zipIdx k).foldlM (fun (d : List ℚ) (c : (ℚ × ℚ) × ℕ) => goSet d (c.2 : Int) c.1.1) d =
      if k + c.length ≤ d.length then some (d.take k ++ c.map (·.1) ++ d.drop (k + c.length)) else none := by
  induction c generalizing d k with
  | nil => simp [hk]
  | cons a c ih =>
    rw [List.zipIdx_cons, List.foldlM_cons]
    by_cases h : k < d.length
    · have e : goSet d ((k : ℕ) : Int) a.1 = some (d.set k a.1) := by
        unfold goSet
        rw [if_pos ⟨by omega, by exact_mod_cast h⟩, Int.toNat_natCast]
      simp only [e, Option.bind_eq_bind, Option.bind_some]
      rw [ih _ _ (by simpa using h)]
      simp only [List.length_set, List.length_cons]
      have e1 : k + 1 + c.length = k + (c.length + 1) := by omega
      rw [e1]
      by_cases h2 : k + (c.length + 1) ≤ d.length
      · rw [if_pos h2, if_pos h2]
        congr 1
        rw [List.take_succ_eq_append_getElem (by simpa using h), List.drop_set_of_lt (by omega)]
        simp [List.take_set_of_le]
      · rw [if_neg h2, if_neg h2]
    · have e : goSet d ((k : ℕ) : Int) a.1 = none := by
        unfold goSet
        rw [if_neg]
        rintro ⟨-, h'⟩
        exact h (by exact_mod_cast h')
      simp only [e]
      rw [if_neg (by simp; omega)]
      rfl

/-- C151: `FromComplex` panics exactly if it is given more numbers than the grid has nodes. Otherwise the real parts
replace the values of the first nodes and all other nodes keep theirs. -/
theorem c151_from (g : Grid ℚ) (c : List (ℚ × ℚ)) :
    (g.fromComplex c = none ↔ g.data.length < c.length) ∧
    ∀ g', g.fromComplex c = some g' → g'.dims = g.dims ∧ g'.data.length = g.data.length ∧
      ∀ i (hi : i < g.data.length), g'.data[i]? = some (if h : i < c.length then c[i].1 else g.data[i]) := by
  have e := fromComplex_loop c g.data 0 (by omega)
  unfold Grid.fromComplex
  rw [e]
  simp only [zero_add, List.take_zero, List.nil_append]
  by_cases h : c.length ≤ g.data.length
  · rw [if_pos h]
    refine ⟨by simp; omega, ?_⟩
    intro g' hg
    obtain rfl := Option.some.inj hg
    refine ⟨rfl, by simp; omega, ?_⟩
    intro i hi
    show (List.map (·.1) c ++ List.drop c.length g.data)[i]? = _
    by_cases hc : i < c.length
    · rw [dif_pos hc, List.getElem?_append_left (by simpa using hc), List.getElem?_map, List.getElem?_eq_getElem hc]
      rfl
    · rw [dif_neg hc, List.getElem?_append_right (by simpa using hc), List.length_map, List.getElem?_drop]
      have : c.length + (i - c.length) = i := by omega
      rw [this, List.getElem?_eq_getElem hi]
  · rw [if_neg h]
    refine ⟨by simp; omega, ?_⟩
    intro g' hg
    simp at hg

/-- C151: a grid turned into a complex array and read back, into any grid of the same size, is the grid. -/
theorem c151_round_trip (g g0 : Grid ℚ) (hd : g0.dims = g.dims) (hl : g0.data.length = g.data.length) :
    g0.fromComplex g.toComplex = some g ∧ (∀ c ∈ g.toComplex, c.2 = 0) ∧ g.toComplex.length = g.data.length := by
  have e := fromComplex_loop g.toComplex g0.data 0 (by omega)
  have hlen : g.toComplex.length = g.data.length := by simp [Grid.toComplex]
  refine ⟨?_, ?_, hlen⟩
  · unfold Grid.fromComplex
    rw [e, if_pos (by omega)]
    have h1 : List.map (fun x : ℚ × ℚ => x.1) g.toComplex = g.data := by simp [Grid.toComplex, Function.comp_def]
    rw [h1, List.drop_of_length_le (by omega)]
    simp [hd]
  · intro c hc
    obtain ⟨x, -, rfl⟩ := List.mem_map.mp hc
    rfl

/-! ### Views of the real part -/

/-- C151: writing through the view of a complex array changes one real part and nothing else; it panics outside the
array. -/
theorem c151_view (s : List (ℚ × ℚ)) (i : ℕ) (v : ℚ) :
    (realPartSet s i v = none ↔ s.length ≤ i) ∧
    ∀ s', realPartSet s i v = some s' → realPartGet s' i = some v ∧ realPartLen s' = realPartLen s ∧
      (∀ j : ℕ, j ≠ i → realPartGet s' j = realPartGet s j) ∧ s'.map Prod.snd = s.map Prod.snd := by
  unfold realPartSet
  by_cases h : i < s.length
  · have e1 : goGet s (i : Int) = some s[i] := by simp [goGet, List.getElem?_eq_getElem h]
    have e2 : goSet s (i : Int) (v, s[i].2) = some (s.set i (v, s[i].2)) := by
      unfold goSet
      rw [if_pos ⟨by omega, by exact_mod_cast h⟩, Int.toNat_natCast]
    simp only [e1, Option.bind_eq_bind, Option.bind_some, e2]
    refine ⟨by simp; omega, ?_⟩
    intro s' hs
    obtain rfl := Option.some.inj hs
    refine ⟨?_, by simp [realPartLen], ?_, ?_⟩
    · simp [realPartGet, goGet, h]
    · intro j hj
      simp [realPartGet, goGet, List.getElem?_set_ne (Ne.symm hj)]
    · apply List.ext_getElem?
      intro j
      rw [List.getElem?_map, List.getElem?_map]
      by_cases hj : j = i
      · subst hj; simp [h]
      · rw [List.getElem?_set_ne (Ne.symm hj)]
  · have e1 : goGet s (i : Int) = none := by simp [goGet]; omega
    simp only [e1]
    exact ⟨by simp; omega, fun s' hs => by simp at hs⟩

/-- C151: the view can be read exactly at the positions from zero up to its length, and shows the real parts. -/
theorem c151_view_length (s : List (ℚ × ℚ)) (i : Int) :
    ((realPartGet s i).isSome ↔ 0 ≤ i ∧ i < realPartLen s) ∧
      ∀ j : ℕ, realPartGet s j = (s.map Prod.fst)[j]? := by
  refine ⟨?_, fun j => by simp [realPartGet, goGet]⟩
  unfold realPartGet goGet realPartLen
  by_cases hi : 0 ≤ i
  · rw [if_pos hi]
    rw [Option.isSome_map, Option.isSome_iff_exists]
    constructor
    · rintro ⟨x, hx⟩
      have := (List.getElem?_eq_some_iff.mp hx).1
      omega
    · rintro ⟨-, h⟩
      exact ⟨_, List.getElem?_eq_getElem (by omega)⟩
  · rw [if_neg hi]
    simp [hi]

/-! ### Files -/

theorem goGet_range (p : List Int) (n : ℕ) (hp : p.length = n) :
    ((List.range n).mapM fun j : ℕ => (goGet p (j : Int)).map fmtInt) = some (p.map fmtInt) := by
  have : ∀ (q : List Int) (k : ℕ), k + q.length = p.length → p.drop k = q →
      ((List.range' k q.length).mapM fun j : ℕ => (goGet p (j : Int)).map fmtInt) = some (q.map fmtInt) := by
    intro q
    induction q with
    | nil => intro k _ _; rfl
    | cons a q ih =>
      intro k hk hq
      rw [List.length_cons, List.range'_succ, List.mapM_cons]
      have h1 : p[k]? = some a := by
        have : (p.drop k)[0]? = some a := by rw [hq]; rfl
        simpa using this
      have h2 : goGet p (k : Int) = some a := by simpa [goGet] using h1
      have h3 : p.drop (k + 1) = q := by
        rw [← List.drop_drop, hq]; rfl
      rw [ih (k + 1) (by simp at hk; omega) h3, h2]
      rfl
  have := this p 0 (by omega) (by simp)
  rw [← hp, List.range_eq_range']
  exact this

theorem gridLine {g : Grid ℚ} (hd : GoodDims g.dims) {i : ℕ} (hi : i < g.data.length)
    (hl : (g.data.length : Int) = numNodes g.dims) :
    ∃ p, pos g.dims (i : Int) = some p ∧ p.length = g.dims.length ∧
      g.csvLine i = some (p.map fmtInt ++ [fmtF g.data[i]]) := by
  obtain ⟨p, hp, hpl⟩ := pos_length hd (i := i) (by omega)
  refine ⟨p, hp, hpl, ?_⟩
  unfold Grid.csvLine
  have e0 : g.pos (i : Int) = some p := hp
  have e1 : goGet g.data (i : Int) = some g.data[i] := by simp [goGet, List.getElem?_eq_getElem hi]
  simp only [e0, e1, Option.bind_eq_bind, Option.bind_some, Option.pure_def, goGet_range p _ hpl]

theorem mapM_range_eq {α : Type} (f : ℕ → Option α) (g : ℕ → α) (n : ℕ) (h : ∀ i < n, f i = some (g i)) :
    (List.range n).mapM f = some ((List.range n).map g) := by
  have : ∀ l : List ℕ, (∀ i ∈ l, f i = some (g i)) → l.mapM f = some (l.map g) := by
    intro l
    induction l with
    | nil => intro _; rfl
    | cons a l ih =>
      intro hl
      rw [List.mapM_cons, hl a (by simp), ih fun i hi => hl i (by simp [hi])]
      rfl
  exact this _ fun i hi => h i (List.mem_range.mp hi)

/-- C151: the file of a grid with two or three dimensions has a line of names and a line for each node, with as many
coordinates as the grid has dimensions and the value. -/
theorem c151_file {g : Grid ℚ} (hd : GoodDims g.dims) (hl : (g.data.length : Int) = numNodes g.dims) :
    ∃ header rows, g.saveCsv = some (header :: rows) ∧ header.length = g.dims.length + 1 ∧
      header.getLast? = some "value".toList ∧ rows.length = g.data.length ∧
      ∀ i (hi : i < g.data.length), ∃ p, pos g.dims (i : Int) = some p ∧ p.length = g.dims.length ∧
        rows[i]? = some (p.map fmtInt ++ [fmtF g.data[i]]) := by
  have hline := fun i (hi : i < g.data.length) => gridLine hd hi hl
  have hrows := mapM_range_eq g.csvLine (fun i => (padPos g.dims i).take g.dims.length |>.map fmtInt |>.append [fmtF (g.data.getD i 0)])
    g.data.length (by
      intro i hi
      obtain ⟨p, hp, hpl, hp2⟩ := hline i hi
      rw [hp2]
      simp [padPos, hp, ← hpl, List.getD, List.getElem?_eq_getElem hi])
  refine ⟨_, _, by unfold Grid.saveCsv; rw [hrows]; rfl, ?_, ?_, by simp, ?_⟩
  · rcases hd.1 with h | h <;> rw [h] <;> rfl
  · rcases hd.1 with h | h <;> rw [h] <;> rfl
  · intro i hi
    obtain ⟨p, hp, hpl, hp2⟩ := hline i hi
    refine ⟨p, hp, hpl, ?_⟩
    rw [List.getElem?_map, List.getElem?_range hi]
    simp [padPos, hp, ← hpl, List.getD, List.getElem?_eq_getElem hi]

/-- `LoadCSV` does not look at the first three names. -/
theorem load_header {h1 h2 : List Str} (hl : h1.length = h2.length) (hd : h1.drop 3 = h2.drop 3) (rows : List (List Str)) :
    loadCsv (h1 :: rows) = loadCsv (h2 :: rows) := by
  unfold loadCsv
  simp only [hl, hd]

/-- C151: the file of a grid with three dimensions is read by `LoadCSV` as one field with the name `value`, whose real
parts are the values of the grid up to 5·10⁻⁷. -/
theorem c151_three {g : Grid ℚ} (hd : GoodDims g.dims) (h3 : g.dims.length = 3)
    (hl : (g.data.length : Int) = numNodes g.dims) :
    ∃ file data, g.saveCsv = some file ∧ loadCsv file = some [("value".toList, data)] ∧
      List.Forall₂ (fun x y => |y.1 - x| ≤ 5 / 10 ^ 7 ∧ y.2 = 0) g.data data := by
  have hsave := saved_file hd [("value".toList, g.data)] (by simp) (by simpa using hl)
  obtain ⟨file, fields, f1, f2, f3⟩ := c40_round_trip hd [("value".toList, g.data)] (by simp) (by simpa using hl)
  rw [hsave] at f1
  have f1 := Option.some.inj (Option.some.inj f1)
  obtain ⟨data, hdata, hall⟩ : ∃ data, fields = [("value".toList, data)] ∧
      List.Forall₂ (fun x y => |y.1 - x| ≤ 5 / 10 ^ 7 ∧ y.2 = 0) g.data data := by
    cases f3 with
    | cons a b =>
      cases b with
      | nil =>
        rename_i f
        exact ⟨f.2, by rw [show f = (f.1, f.2) from rfl, a.1], a.2⟩
  have hrows := mapM_range_eq g.csvLine (fun i => (padPos g.dims i).map fmtInt ++
      [("value".toList, g.data)].map fun f => fmtF (f.2.getD i 0))
    g.data.length (by
      intro i hi
      obtain ⟨p, hp, hpl, hp2⟩ := gridLine hd hi hl
      rw [hp2]
      simp [padPos, hp, h3, List.getD, List.getElem?_eq_getElem hi])
  refine ⟨_, data, by unfold Grid.saveCsv; rw [hrows]; rfl, ?_, hall⟩
  rw [← hdata, ← f2, ← f1, if_pos h3]
  have e : (numNodes g.dims).toNat = g.data.length := by omega
  rw [e]
  exact load_header rfl rfl _

/-- C151: of the file of a grid with two dimensions `LoadCSV` returns no field at all, and the contour command stops
whatever column is asked for. -/
theorem c151_two {g : Grid ℚ} (hd : GoodDims g.dims) (h2 : g.dims.length = 2)
    (hl : (g.data.length : Int) = numNodes g.dims) :
    ∃ file, g.saveCsv = some file ∧ loadCsv file = some [] ∧
      (∀ {C : Type} (cmap : ℚ → ℚ → ℚ → Option C) (column : Str), Cmd.contour cmap file column = none) := by
  obtain ⟨header, rows, h1, hh, -, hr, hall⟩ := c151_file hd hl
  rw [h2] at hh
  refine ⟨_, h1, ?_, ?_⟩
  · unfold loadCsv
    simp only []
    rw [if_neg (by omega), List.drop_of_length_le (by omega), List.map_nil]
    have hlen : ∀ r ∈ rows, r.length = header.length := by
      intro r hr'
      obtain ⟨i, hi, rfl⟩ := List.getElem_of_mem hr'
      obtain ⟨p, -, hpl, hp⟩ := hall i (by omega)
      rw [List.getElem?_eq_getElem hi] at hp
      rw [Option.some.inj hp, hh]
      simp [hpl, h2]
    clear hall hr h1
    induction rows with
    | nil => rfl
    | cons r rows ih =>
      rw [List.foldlM_cons, if_neg (by rw [hlen r (by simp)]; simp)]
      exact ih fun r' hr' => hlen r' (by simp [hr'])
  · intro C cmap column
    have hread : ∀ title, Cmd.readData (header :: rows) title = none := by
      intro title
      unfold Cmd.readData
      simp only []
      rw [if_pos (by omega)]
    unfold Cmd.contour
    simp only [List.head?_cons, Option.bind_eq_bind, Option.bind_some, hread, Option.bind_none]
    cases goGet header (Cmd.getColIndex header column : ℕ) <;> rfl

/-- C151: grids that have neither two nor three dimensions, and some node, cannot be written. -/
theorem c151_other {g : Grid ℚ} (h2 : g.dims.length ≠ 2) (h3 : g.dims.length ≠ 3) (hne : g.data ≠ []) :
    g.saveCsv = none := by
  have hpos : ∀ i, pos g.dims i = none := by
    intro i
    unfold pos
    split
    · rename_i h; rw [h] at h2; simp at h2
    · rename_i h; rw [h] at h3; simp at h3
    · rfl
  have hlen : 0 < g.data.length := List.length_pos_of_ne_nil hne
  obtain ⟨k, hk⟩ : ∃ k, g.data.length = k + 1 := ⟨g.data.length - 1, by omega⟩
  have hline : g.csvLine 0 = none := by
    unfold Grid.csvLine
    have : g.pos ((0 : ℕ) : Int) = none := hpos _
    rw [this]
    rfl
  unfold Grid.saveCsv
  rw [hk, List.range_succ_eq_map, List.mapM_cons, hline]
  rfl

/-! ### Concrete cases -/

example : (⟨[1, 2], [1 / 3, -2]⟩ : Grid ℚ).saveCsv = some [["x".toList, "y".toList, "value".toList],
    ["0".toList, "0".toList, "0.333333".toList], ["0".toList, "1".toList, "-2.000000".toList]] := by
  decide +kernel

example : GoodDims (⟨[1, 2], [1 / 3, -2]⟩ : Grid ℚ).dims ∧ GoodDims [1, 1, 2] := by
  refine ⟨⟨Or.inl rfl, by simp⟩, ⟨Or.inr rfl, by simp⟩⟩

example : (⟨[1, 2], [5, 6]⟩ : Grid ℚ).fromComplex [(1, 7)] = some ⟨[1, 2], [1, 6]⟩ ∧
    (⟨[1, 2], [5, 6]⟩ : Grid ℚ).fromComplex [(1, 7), (2, 0), (3, 0)] = none := by
  constructor <;> rfl

example : realPartSet [(1, 7), (2, 8)] 1 5 = some [(1, 7), (5, 8)] := rfl

end Gopf.Props
