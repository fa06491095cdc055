import Verif.Model.Register
import Verif.Model.Terms
import Verif.Model.Format

/-!
# Model of the preparation of a model for terms with derived fields

`DivGrad.PrepareModel`, `Advection.PrepareModel` and `ConservativeNoise.RequiredDerivedFields` make derived
fields whose calculators read other fields, either through a pointer taken when the calculator was made or by
name when it runs. `Bricks` is a map, so a name stands for what was entered last under it.
-/

namespace Gopf.Pf
open Pfutil

/-- What a pointer in `Bricks` leads to (pf/model.go:119): the data of a field, of a derived field, or a
scalar. -/
inductive Ref
  | field (i : ℕ)
  | derived (d : ℕ)
  | scalar (c : ℂ)

/-- A closure of type `DerivedFieldCalc`, pf/model.go:59: it reads pointers it has captured and names in the
map. -/
abbrev Calculator (n : ℕ) := (Ref → Data n) → Bricks n → Data n

/-- `Model.Fields`, `Model.DerivedFields` and `Model.Bricks`, pf/model.go:115-119; the newest entry of the map
comes first. -/
structure Bench (n : ℕ) where
  fields : List Str
  derived : List (Str × Calculator n)
  bricks : List (Str × Ref)

namespace Bench
variable {n : ℕ}

/-- `NewModel`, pf/model.go:129-138. -/
def empty : Bench n := ⟨[], [], []⟩

/-- `AddField`, pf/model.go:140-144. -/
def addField (b : Bench n) (name : Str) : Bench n :=
  { b with fields := b.fields ++ [name], bricks := (name, .field b.fields.length) :: b.bricks }

/-- `AddScalar`, pf/model.go:146-149. -/
def addScalar (b : Bench n) (name : Str) (c : ℂ) : Bench n :=
  { b with bricks := (name, .scalar c) :: b.bricks }

/-- `RegisterDerivedField`, pf/model.go:414-418. -/
def registerDerivedField (b : Bench n) (name : Str) (f : Calculator n) : Bench n :=
  { b with derived := b.derived ++ [(name, f)], bricks := (name, .derived b.derived.length) :: b.bricks }

/-- `IsFieldName`, pf/model.go:208-224. -/
def isFieldName (b : Bench n) (name : Str) : Bool :=
  b.fields.contains name || (b.derived.map Prod.fst).contains name

/-- The derived fields appended by the loop of `registerDerivedFields`, pf/model.go:336-345. -/
def appendNew (b : Bench n) (f : Str × Calculator n) : Bench n :=
  if b.isFieldName f.1 then b else { b with derived := b.derived ++ [f] }

/-- The keys entered by the loop of `registerDerivedFields`, pf/model.go:336-345. -/
def newNames : List (Str × Calculator n) → Bench n → List Str
  | [], _ => []
  | f :: fs, b => (if b.isFieldName f.1 then [] else [f.1]) ++ newNames fs (b.appendNew f)

/-- `registerDerivedFields`, pf/model.go:334-345. All keys get the address of the one loop variable (`go.mod`
declares go 1.13), which after the loop holds the last element. If that one was not appended, its data are never
computed: they stay what `make` gave, zeros. -/
def registerDerivedFields (b : Bench n) (fs : List (Str × Calculator n)) : Bench n :=
  let b' := fs.foldl appendNew b
  let target : Ref := match fs.getLast? with
    | some f => if (fs.dropLast.foldl appendNew b).isFieldName f.1 then .scalar 0 else .derived (b'.derived.length - 1)
    | none => .scalar 0
  { b' with bricks := (newNames fs b).reverse.map (fun x => (x, target)) ++ b.bricks }

/-- Following a pointer. pf/model.go:23-25, 71-73, 106-108. -/
def read (b : Bench n) (st : Store b.fields.length b.derived.length n) : Ref → Data n
  | .field i => if h : i < b.fields.length then st.fields ⟨i, h⟩ else fun _ => 0
  | .derived d => if h : d < b.derived.length then st.derived ⟨d, h⟩ else fun _ => 0
  | .scalar c => fun _ => c

/-- `m.Bricks[name].Get`, pf/model.go:119. (A name that is missing gives a nil pointer and a panic in Go, zero
here; the theorems are about names that are there.) -/
def named (b : Bench n) (st : Store b.fields.length b.derived.length n) : Bricks n := fun name =>
  match b.bricks.lookup name with
  | some r => b.read st r
  | none => fun _ => 0

/-- The model the steppers work with: the calculators of the derived fields (pf/model.go:234-241) and the
right-hand sides made by `Init` (pf/model.go:243-248). -/
def toModel (b : Bench n) (rhs : Fin b.fields.length → BuiltRHS n) :
    Model b.fields.length b.derived.length n :=
  { calcs := fun d st => (b.derived[d]).2 (b.read st) (b.named st)
    terms := fun i => (rhs i).terms.map fun f st => f (b.named st)
    denum := fun i => (rhs i).denum.map fun f st => f (b.named st)
    sources := fun _ => []
    modifiers := [] }

end Bench

/-- Further calls on a model. pf/model.go:140-149, 414-418. -/
inductive BenchCall (n : ℕ)
  | field (name : Str)
  | scalar (name : Str) (c : ℂ)
  | derived (name : Str) (f : Calculator n)

/-- The name a call enters into the map. pf/model.go:140-149, 414-418. -/
def BenchCall.name {n : ℕ} : BenchCall n → Str
  | .field name => name
  | .scalar name _ => name
  | .derived name _ => name

/-- The effect of a call. pf/model.go:140-149, 414-418. -/
def Bench.call {n : ℕ} (b : Bench n) : BenchCall n → Bench n
  | .field name => b.addField name
  | .scalar name c => b.addScalar name c
  | .derived name f => b.registerDerivedField name f

variable {dims : List ℕ}

/-! ## `DivGrad` -/

/-- `DivGrad`, pf/gradientCalculator.go:50-53. -/
structure DivGrad (n : ℕ) where
  field : Str
  F : Bricks n → Data n

/-- `DivGrad.FuncName`, pf/gradientCalculator.go:56-58. -/
def DivGrad.funcName {n : ℕ} (dg : DivGrad n) : Str := "DivGrad_".toList ++ dg.field ++ "_Func".toList

/-- `DivGrad.GradName`, pf/gradientCalculator.go:61-63. -/
def DivGrad.gradName {n : ℕ} (dg : DivGrad n) (comp : ℕ) : Str :=
  "GRAD_".toList ++ dg.field ++ '_' :: fmtInt (comp : Int)

/-- The name of the product of function and gradient, pf/gradientCalculator.go:81, 99. -/
def DivGrad.fluxName {n : ℕ} (dg : DivGrad n) (comp : ℕ) : Str := dg.funcName ++ dg.gradName comp

/-- `GradientCalculator.ToDerivedField`, pf/gradientCalculator.go:36-47: the calculator. -/
noncomputable def gradCalculator (dims : List ℕ) (comp : ℕ) (ref : Ref) : Calculator dims.prod := fun read _ =>
  gradCalculate dims comp false (read ref)

/-- The calculator of the product, pf/gradientCalculator.go:83-87. -/
def DivGrad.fluxCalculator {n : ℕ} (dg : DivGrad n) (comp : ℕ) : Calculator n := fun _ named i =>
  dg.F named i * named (dg.gradName comp) i

/-- The body of the loop of `DivGrad.PrepareModel`, pf/gradientCalculator.go:71-90. (An unknown field gives a
nil brick, which panics when the model is initialised.) -/
noncomputable def DivGrad.prepareOne (dg : DivGrad dims.prod) (b : Bench dims.prod) (d : ℕ) :
    Option (Bench dims.prod) :=
  (b.bricks.lookup dg.field).map fun ref =>
    (b.registerDerivedField (dg.gradName d) (gradCalculator dims d ref)).registerDerivedField (dg.fluxName d)
      (dg.fluxCalculator d)

/-- `DivGrad.PrepareModel`, pf/gradientCalculator.go:69-91. -/
noncomputable def DivGrad.prepareModel (dg : DivGrad dims.prod) (b : Bench dims.prod) : Option (Bench dims.prod) :=
  (List.range dims.length).foldlM dg.prepareOne b

/-- `DivGrad.Construct`, pf/gradientCalculator.go:94-106; `dim` is the number of components of a frequency. -/
noncomputable def DivGrad.construct {n : ℕ} (dg : DivGrad n) (dim : ℕ) : BTerm n := fun bricks =>
  divGrad dim fun d => bricks (dg.fluxName d)

/-! ## `Advection` -/

/-- `Advection`, pf/advection.go:17-20. -/
structure Advection where
  field : Str
  velocityFields : List Str

/-- `Advection.GradName`, pf/advection.go:23-25. -/
def Advection.gradName (ad : Advection) (comp : ℕ) : Str := ad.field ++ '_' :: fmtInt (comp : Int)

/-- `Advection.GetName`, pf/advection.go:29-36. -/
def Advection.getName (ad : Advection) : Str :=
  ad.velocityFields.foldl (fun name vel => name ++ vel) [] ++ ("Dot".toList ++ "Grad".toList ++ ad.field)

/-- `Advection.AllFieldsExist`, pf/advection.go:39-46. -/
def Advection.allFieldsExist {n : ℕ} (ad : Advection) (b : Bench n) : Bool :=
  ad.velocityFields.all (fun vf => (b.bricks.lookup vf).isSome) && (b.bricks.lookup ad.field).isSome

/-- The body of the first loop of `Advection.PrepareModel`, pf/advection.go:60-67. -/
noncomputable def Advection.prepareOne (ad : Advection) (b : Bench dims.prod) (d : ℕ) : Option (Bench dims.prod) :=
  (b.bricks.lookup ad.field).map fun ref => b.registerDerivedField (ad.gradName d) (gradCalculator dims d ref)

/-- The calculator of the product of velocity and gradient, pf/advection.go:72-82. -/
noncomputable def Advection.calculator {n : ℕ} (ad : Advection) : Calculator n := fun _ named x =>
  ad.velocityFields.zipIdx.foldl (fun (acc : ℂ) (v : Str × ℕ) =>
    acc + named v.1 x * named (ad.gradName v.2) x) 0

/-- `Advection.PrepareModel`, pf/advection.go:50-85. -/
noncomputable def Advection.prepareModel (ad : Advection) (b : Bench dims.prod) : Option (Bench dims.prod) :=
  if ad.velocityFields.length ≠ dims.length then none
  else if ad.allFieldsExist b = false then none
  else ((List.range dims.length).foldlM ad.prepareOne b).map fun b =>
    b.registerDerivedField ad.getName ad.calculator

/-- `Advection.Construct`, pf/advection.go:88-95. -/
def Advection.construct {n : ℕ} (ad : Advection) : BTerm n := fun bricks _ _ i => -bricks ad.getName i

/-! ## `ConservativeNoise` -/

/-- `ConservativeNoise.GetCurrentName`, pf/noise.go:48-50. -/
def currentName (uniquePrefix comp : ℕ) : Str :=
  fmtInt (uniquePrefix : Int) ++ "_current_".toList ++ fmtInt (comp : Int)

/-- `ConservativeNoise.RequiredDerivedFields`, pf/noise.go:85-102. The random numbers component `comp` gets in
the step considered are `noise comp`. -/
def requiredDerivedFields {n : ℕ} (uniquePrefix dim : ℕ) (noise : ℕ → Data n) : List (Str × Calculator n) :=
  (List.range dim).map fun comp => (currentName uniquePrefix comp, fun _ _ => noise comp)

/-- `ConservativeNoise.Construct`, pf/noise.go:60-77. -/
noncomputable def noiseConstruct {n : ℕ} (uniquePrefix dim : ℕ) : BTerm n := fun bricks =>
  conservativeNoise dim fun comp => bricks (currentName uniquePrefix comp)

end Gopf.Pf
