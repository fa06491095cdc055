import Verif.Props.Prepare

/-!
# C121: advection terms whose velocities have names that read the same in a row
-/

namespace Gopf.Props
open Spec Pfutil Pf

variable {dims : List ℕ}

theorem getName_flatten (ad : Advection) : ad.getName = ad.velocityFields.flatten ++ ("DotGrad".toList ++ ad.field) := by
  have e : ∀ (l : List Str) (a : Str), l.foldl (fun name vel => name ++ vel) a = a ++ l.flatten := by
    intro l
    induction l with
    | nil => simp
    | cons v l ih => intro a; rw [List.foldl_cons, ih, List.flatten_cons, List.append_assoc]
  unfold Advection.getName
  rw [e]
  rfl

/-- C121: two advection terms for the same field whose names of velocities, written in a row, read the same share the name of their
product: both use the velocities of the one that was prepared last. -/
theorem c121_advection_same_name (hd : dims.length ≤ 3) (ad ad' : Advection) (hfield : ad'.field = ad.field)
    (hnames : ad'.velocityFields.flatten = ad.velocityFields.flatten) (b0 b1 : Bench dims.prod) (i : ℕ)
    (hi0 : b0.bricks.lookup ad.field = some (.field i)) (hprep : ad.prepareModel b0 = some b1) (hi : i < b1.fields.length)
    (hv : ∀ v ∈ ad.velocityFields, ReadyName b1 (b0.derived.length + dims.length) v)
    (rhs : Fin b1.fields.length → BuiltRHS dims.prod) (st st' : Store b1.fields.length b1.derived.length dims.prod)
    (hst : st'.derived = (spectral (b1.toModel rhs) st).derived) (freq : Frequency dims.prod) (t : ℝ) :
    ad'.construct (b1.named st') freq t =
      advection dims (fun d => b1.named ((b1.toModel rhs).sync st) (ad.velocityFields.getD d [])) (st.fields ⟨i, hi⟩) := by
  have e : ad'.construct (b1.named st') = ad.construct (b1.named st') := by
    unfold Advection.construct
    rw [getName_flatten, getName_flatten, hfield, hnames]
  rw [e]
  exact c121_advection hd ad b0 b1 i hi0 hprep [] (by simp) b1 rfl hi hv rhs st st' hst freq t

/-- Velocities with different names that read the same in a row, and a model in which the fields of both terms are known. -/
example : ∃ ad ad' : Advection, ad'.field = ad.field ∧ ad'.velocityFields.flatten = ad.velocityFields.flatten ∧
    ad'.velocityFields ≠ ad.velocityFields ∧ ∃ b0 b1 : Bench ([4, 6] : List ℕ).prod, ad'.prepareModel (dims := [4, 6]) b0 = some b1 ∧
      (ad.prepareModel (dims := [4, 6]) b1).isSome := by
  refine ⟨⟨"conc".toList, ["vx".toList, "x".toList]⟩, ⟨"conc".toList, ["v".toList, "xx".toList]⟩, rfl, by decide, by decide, ?_⟩
  set b0 : Bench ([4, 6] : List ℕ).prod := ((((Bench.empty.addField "conc".toList).addField "vx".toList).addField "x".toList).addField
    "v".toList).addField "xx".toList with hb0
  have h1 := ((advection_prepared (dims := [4, 6]) (by decide) ⟨"conc".toList, ["v".toList, "xx".toList]⟩ b0)).1.mpr
    ⟨rfl, by decide +kernel, by decide +kernel⟩
  obtain ⟨b1, hb1⟩ := Option.isSome_iff_exists.mp h1
  refine ⟨b0, b1, hb1, ?_⟩
  obtain ⟨ref, -, -, -, -, -, hkeep⟩ := (advection_prepared (dims := [4, 6]) (by decide)
    ⟨"conc".toList, ["v".toList, "xx".toList]⟩ b0).2 b1 hb1
  have known : ∀ x ∈ ["conc".toList, "vx".toList, "x".toList], (b1.bricks.lookup x).isSome := by
    intro x hx
    rw [hkeep x]
    · revert x
      decide +kernel
    · revert x
      decide +kernel
    · revert x
      decide +kernel
  refine (advection_prepared (dims := [4, 6]) (by decide) ⟨"conc".toList, ["vx".toList, "x".toList]⟩ b1).1.mpr ⟨rfl, fun v hv => ?_, ?_⟩
  · exact known v (List.mem_cons_of_mem _ hv)
  · exact known _ (by simp)

end Gopf.Props
