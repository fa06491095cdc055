import Verif.Props.Overview
import Verif.Props.Markup
import Verif.Props.FileIO

/-!
# C120: what stands in the table of `info`
-/

namespace Gopf.Props
open Cmd Pf

/-! ### The specification -/

/-- The text between the bars of the first column. -/
def nameColumn (line : Str) : Str := (line.drop 2).take 16

/-- A name at the left end of the first column. -/
def leftAligned (name : Str) : Str := name ++ List.replicate (16 - name.length) ' '

/-- A line with a name and one value, which is at the right end of the second column. -/
def ShowsValue (name value line : Str) : Prop :=
  nameColumn line = leftAligned name ∧ valueColumn line = List.replicate (60 - value.length) ' ' ++ value

/-- Lines of which the first has a name and the others none. Their values are those of a list joined by commas, with blanks before the
last piece. -/
def ShowsList (name : Str) (values lines : List Str) : Prop :=
  (∃ first others, lines = first :: others ∧ nameColumn first = leftAligned name ∧
    ∀ line ∈ others, nameColumn line = List.replicate 16 ' ') ∧
  ∃ blanks : ℕ, ∃ before last : Str, before ++ last = ([',', ' '] : Str).intercalate values ∧
    (lines.map valueColumn).flatten = before ++ List.replicate blanks ' ' ++ last

/-! ### The proofs -/

theorem nameColumn_infoLine {d v : Str} (hd : d.length ≤ 16) : nameColumn (infoLine d v) = leftAligned d := by
  have h1 : (padRight descWidth d).length = 16 := padRight_length (w := descWidth) hd
  unfold nameColumn infoLine
  rw [List.append_assoc, List.append_assoc, List.append_assoc]
  refine (List.take_append_of_le_length h1.ge).trans ?_
  rw [List.take_of_length_le h1.le]
  rfl

theorem infoLine_shows {d v : Str} (hd : d.length ≤ 16) (hv : v.length ≤ 60) : ShowsValue d v (infoLine d v) :=
  ⟨nameColumn_infoLine hd, valueColumn_infoLine hd hv⟩

theorem listLines_shows {name : Str} (hn : name.length ≤ 16) (array : List Str) : ShowsList name array (listLines name array) := by
  refine ⟨?_, c120_info_list name hn array⟩
  have hlen := (c67_printList array).2.2.1
  cases hp : printList array with
  | nil =>
    rw [hp] at hlen
    simp at hlen
  | cons c l =>
    refine ⟨infoLine name c, (l.zipIdx 1).map fun c => infoLine (if c.2 > 0 then [] else name) c.1, ?_, nameColumn_infoLine hn, ?_⟩
    · unfold listLines
      rw [hp, List.zipIdx_cons, List.map_cons]
      rfl
    · intro line hl
      obtain ⟨⟨v, k⟩, hc, rfl⟩ := List.mem_map.mp hl
      have hk : 1 ≤ k := List.le_snd_of_mem_zipIdx hc
      dsimp only
      rw [if_pos (by omega), nameColumn_infoLine (by simp)]
      rfl

/-- C120: the table of `info` shows, between lines of dashes and below a header, the number of simulations, the three sides in the
order of the axes, the fields, the attributes and the time series, each under its name. -/
theorem c120_info_table (i : Info) (h1 : (fmtInt i.numCalc).length ≤ 60) (h2 : (dimString i.dims).length ≤ 60) :
    ∃ header number sides fields attributes series, infoLines i = [List.replicate 83 '-', header, List.replicate 83 '-', number, sides] ++
        fields ++ attributes ++ series ++ [List.replicate 83 '-'] ∧
      ShowsValue "Num calc.".toList (fmtInt i.numCalc) number ∧
      ShowsValue "Dims".toList ('(' :: (fmtInt i.dims.1 ++ ',' :: ' ' :: (fmtInt i.dims.2.1 ++ ',' :: ' ' ::
        (fmtInt i.dims.2.2 ++ [')'])))) sides ∧
      ShowsList "Fields".toList i.fields fields ∧ ShowsList "Attributes".toList i.attributes attributes ∧
      ShowsList "Timeseries".toList i.series series ∧
      nameColumn header = leftAligned "Desc.".toList ∧
      valueColumn header = "Value".toList ++ List.replicate 55 ' ' := by
  have e : dimString i.dims = '(' :: (fmtInt i.dims.1 ++ ',' :: ' ' :: (fmtInt i.dims.2.1 ++ ',' :: ' ' ::
        (fmtInt i.dims.2.2 ++ [')']))) := by
    show ['('] ++ _ ++ [',', ' '] ++ _ ++ [',', ' '] ++ _ ++ [')'] = _
    simp only [List.append_assoc, List.cons_append, List.nil_append]
  rw [e] at h2
  refine ⟨_, _, _, _, _, _, rfl, infoLine_shows (by decide) h1, ?_, listLines_shows (by decide) _, listLines_shows (by decide) _,
    listLines_shows (by decide) _, by decide, by decide⟩
  rw [e]
  exact infoLine_shows (by decide) h2

/-- C120: so two databases with the same table have the same number of simulations. -/
theorem c120_info_distinct (i j : Info) (hi : (fmtInt i.numCalc).length ≤ 60) (hj : (fmtInt j.numCalc).length ≤ 60)
    (h : infoLines i = infoLines j) : i.numCalc = j.numCalc := by
  have e : infoLine "Num calc.".toList (fmtInt i.numCalc) = infoLine "Num calc.".toList (fmtInt j.numCalc) := by
    have := congrArg (fun l : List Str => l[3]?) h
    simpa [infoLines] using this
  have e2 := congrArg valueColumn e
  rw [valueColumn_infoLine (by decide) hi, valueColumn_infoLine (by decide) hj] at e2
  have e3 := congrArg (List.dropWhile fun c => decide (c = ' ')) e2
  have key : ∀ x : ℤ, (padLeft 60 (fmtInt x)).dropWhile (fun c => decide (c = ' ')) = fmtInt x := by
    intro x
    unfold padLeft
    rw [List.dropWhile_append_of_pos (by
      intro c hc
      rw [List.eq_of_mem_replicate hc]
      rfl)]
    cases hx : fmtInt x with
    | nil => rfl
    | cons c l =>
      rw [List.dropWhile_cons_of_neg]
      intro hc
      have hb := fmtInt_no_blank x
      rw [hx, of_decide_eq_true hc] at hb
      simp at hb
  rw [key, key] at e3
  exact_mod_cast fmtInt_injective e3

/-- An overview whose numbers fit into the column. -/
example : ∃ i : Info, (fmtInt i.numCalc).length ≤ 60 ∧ (dimString i.dims).length ≤ 60 ∧ i.fields ≠ [] :=
  ⟨⟨12, (128, 64, 1), ["conc".toList, "eta".toList], [], []⟩, by decide, by decide, by simp⟩

end Gopf.Props
