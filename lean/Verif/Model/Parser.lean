import Verif.Model.Regex
import Verif.Model.SortFactors
import Verif.Model.Format
import Verif.Model.Prefix
import Mathlib.Analysis.SpecialFunctions.Pow.Complex

/-!
# Model of the equation parser: `pf/rhsBuilder.go`, `pf/util.go` and the naming part of `pf/model.go`

Texts are ASCII. `none` stands for a panic (or, where noted, for a regular expression outside the
modelled fragment).
-/

namespace Gopf.Pf

/-- A decimal digit, `\d`. Part of the pattern pf/util.go:69. -/
def isDigitB (c : Char) : Bool := c.isDigit

/-- `[^\*]*`, pf/rhsBuilder.go:132 and pf/util.go:45. -/
def patFactor : Pattern := [.star fun c => c ≠ '*']

/-- `^[^\^]*`, pf/rhsBuilder.go:138 and pf/util.go:51. -/
def patName : Pattern := [.bol, .star fun c => c ≠ '^']

/-- `\^(-?\d+\.?\d*)`, pf/rhsBuilder.go:94 and pf/util.go:69. -/
def patPower : Pattern :=
  [.one fun c => c = '^', .opt fun c => c = '-', .one isDigitB, .star isDigitB, .opt fun c => c = '.',
   .star isDigitB]

/-- `LAP*[^a-zA-Z]*`, pf/rhsBuilder.go:155. -/
def patLap : Pattern :=
  [.one fun c => c = 'L', .one fun c => c = 'A', .star fun c => c = 'P', .star fun c => !c.isAlpha]

/-- First submatch of `patPower`: the text after `^`. pf/util.go:69-70 and pf/rhsBuilder.go:94-95. -/
def powerText (s : Str) : Option Str := (findFrom patPower true s).map fun r => r.2.1.drop 1

/-- `GetPower`, pf/util.go:68-80. -/
def getPower (s : Str) : Option ℚ :=
  match powerText s with
  | none => some 1
  | some t => parseFloat t

/-- `fieldNameFromLeibniz`, pf/rhsBuilder.go:58-66. -/
def fieldNameFromLeibniz (s : Str) : Option Str :=
  if s.length ≤ 3 then none
  else if s.take 1 ≠ "d".toList ∨ s.drop (s.length - 3) ≠ "/dt".toList then none
  else some ((s.take (s.length - 3)).drop 1)

/-- The loop over the other fields in `isBilinear`, pf/rhsBuilder.go:78-87: `some false` if one of
them matches. -/
def noOtherField (term field : Str) : List Str → Option Bool
  | [] => some true
  | f :: fs =>
    if f = field then noOtherField term field fs
    else match compileText f with
      | none => none
      | some r => if (findAll r term).length > 0 then some false else noOtherField term field fs

/-- `isBilinear`, pf/rhsBuilder.go:69-106. -/
def isBilinear (term field : Str) (fieldNames : List Str) : Option Bool :=
  match compileText field with
  | none => none
  | some r =>
    if (findAll r term).length ≠ 1 then some false
    else match noOtherField term field fieldNames with
      | none => none
      | some false => some false
      | some true =>
        match compileText (field ++ ['*']) with
        | none => none
        | some r2 =>
          let res := findString (r2 ++ [.star fun c => c ≠ '/' && c ≠ '*']) term
          match powerText res with
          | none => some true
          | some t =>
            match parseFloat t with
            | none => some true
            | some p => some (decide (|p - 1| < 1 / 10 ^ 10))

/-- The loop of `GetNonLinearFieldExpressions`, pf/util.go:17-34. -/
def nonLinearLoop (pattern field : Str) (fieldNames : List Str) : List Str → Str → Option Str
  | [], expr => some expr
  | f :: fs, expr =>
    match (if f = field then isBilinear pattern field fieldNames else some false) with
    | none => none
    | some true => nonLinearLoop pattern field fieldNames fs expr
    | some false =>
      match compileText f with
      | none => none
      | some r =>
        let res := findString (r ++ [.star fun c => c ≠ '*']) pattern
        nonLinearLoop pattern field fieldNames fs (if res ≠ [] then expr ++ res ++ ['*'] else expr)

/-- `GetNonLinearFieldExpressions`, pf/util.go:17-34. -/
def getNonLinearFieldExpressions (pattern field : Str) (fieldNames : List Str) : Option Str :=
  (nonLinearLoop pattern field fieldNames fieldNames []).map fun expr =>
    if expr.length > 1 then expr.take (expr.length - 1) else expr

/-- The condition of the inner loop of `GetFieldName`, pf/util.go:91-97: no field name is left after
removing all occurrences of `f`. -/
def onlyField (term f : Str) (fieldNames : List Str) : Bool :=
  fieldNames.all fun f1 => !contains f1 (removeAll f term)

/-- `GetFieldName`, pf/util.go:83-104: the longest (first among equals) suitable name. -/
def getFieldName (term : Str) (fieldNames : List Str) : Str :=
  fieldNames.foldl (fun field f =>
    if contains f term && onlyField term f fieldNames && decide (f.length > field.length) then f
    else field) []

/-- The names and powers read by `DerivedFieldCalcFromDesc`, pf/util.go:45-55. -/
def descFactors (desc : Str) : Option (List (Str × ℚ)) :=
  (findAll patFactor desc).mapM fun s => (getPower s).map fun p => (findString patName s, p)

/-- What the bricks contain: the value of `m.Bricks[name].Get(i)`. pf/model.go:119. -/
abbrev Bricks (n : ℕ) := Str → Data n

/-- `cmplx.Pow(z, complex(p, 0))` of the standard library, for exact numbers. (Go gives an infinity for 0 to a
negative power, the model gives 0.). Used at pf/util.go:61 and pf/rhsBuilder.go:162, 180. -/
noncomputable def cpow (z : ℂ) (p : ℚ) : ℂ := z ^ ((p : ℚ) : ℂ)

/-- The closure returned by `DerivedFieldCalcFromDesc`, pf/util.go:57-64. The fields are read from the
bricks (they share the data of the fields). -/
noncomputable def evalDesc {n : ℕ} (factors : List (Str × ℚ)) (b : Bricks n) : Data n := fun i =>
  factors.foldl (fun acc f => acc * cpow (b f.1 i) f.2) 1

/-- How a derived field is computed: by `DerivedFieldCalcFromDesc` or by a user supplied function of
the bricks (pf/model.go:405-409). -/
inductive Calc (n : ℕ)
  | product (factors : List (Str × ℚ))
  | function (f : Bricks n → Data n)

/-- The result of the calculator. pf/util.go:53-65. -/
noncomputable def Calc.eval {n : ℕ} (c : Calc n) (b : Bricks n) : Data n :=
  match c with
  | .product factors => evalDesc factors b
  | .function f => f b

/-- A term that reads the bricks when it is evaluated. The closures returned at pf/rhsBuilder.go:158-186. -/
abbrev BTerm (n : ℕ) := Bricks n → Term n

/-- The naming part of `Model`, pf/model.go:115-126: field names, derived fields, the keys of
`Bricks`, the registered terms and the equations. Maps are association lists. -/
structure EqModel (n : ℕ) where
  fields : List Str
  derived : List (Str × Calc n)
  brickNames : List Str
  implicitTerms : List (Str × BTerm n)
  explicitTerms : List (Str × BTerm n)
  mixedTerms : List (Str × (BTerm n × BTerm n))
  equations : List Str

namespace EqModel
variable {n : ℕ}

/-- `NewModel`, pf/model.go:129-138. -/
def empty : EqModel n := ⟨[], [], [], [], [], [], []⟩

/-- `AddField`, pf/model.go:140-144. -/
def addField (m : EqModel n) (name : Str) : EqModel n :=
  { m with fields := m.fields ++ [name], brickNames := m.brickNames ++ [name] }

/-- `AddScalar`, pf/model.go:146-149. -/
def addScalar (m : EqModel n) (name : Str) : EqModel n :=
  { m with brickNames := m.brickNames ++ [name] }

/-- `AllFieldNames`, pf/model.go:195-208. -/
def allFieldNames (m : EqModel n) : List Str := m.fields ++ m.derived.map Prod.fst

/-- `IsFieldName`, pf/model.go:208-224. -/
def isFieldName (m : EqModel n) (name : Str) : Bool :=
  m.fields.contains name || (m.derived.map Prod.fst).contains name

/-- `IsBrickName`, pf/model.go:224-234. -/
def isBrickName (m : EqModel n) (name : Str) : Bool := m.brickNames.contains name

/-- `IsUserDefinedTerm`, pf/model.go:395-397. -/
def isUserDefinedTerm (m : EqModel n) (desc : Str) : Bool :=
  (m.implicitTerms.lookup desc).isSome || (m.explicitTerms.lookup desc).isSome ||
    (m.mixedTerms.lookup desc).isSome

/-- `RegisterFunction` and `RegisterDerivedField`, pf/model.go:400-418. -/
def registerFunction (m : EqModel n) (name : Str) (f : Bricks n → Data n) : EqModel n :=
  { m with derived := m.derived ++ [(name, .function f)], brickNames := m.brickNames ++ [name] }

/-- `ValidName`, pf/rhsBuilder.go:109-122. Slicing `[:3]` panics for shorter names. -/
def validName (m : EqModel n) (name : Str) : Option Bool :=
  let stripped := name.filter fun c => c ≠ ' '
  if stripped = [] ∨ stripped = "LAP".toList then some true
  else if stripped.length < 3 then none
  else
    let stripped := if stripped.take 3 = "LAP".toList then stripped.drop 3 else stripped
    some (m.isBrickName stripped || m.isFieldName stripped)

end EqModel

/-- What the closure built by `ConcreteTerm` captures: sign, scalar factors with powers, the name of the field
and the power of the Laplacian (`none` without a Laplacian). pf/rhsBuilder.go:125-189. -/
structure Concrete where
  sign : ℤ
  scalars : List (Str × ℚ)
  field : Str
  lap : Option ℤ

/-- The closures of `ConcreteTerm`, pf/rhsBuilder.go:158-172 and 176-189. -/
noncomputable def Concrete.eval {n : ℕ} (c : Concrete) : BTerm n := fun b freq _ =>
  let d0 : Data n := fun i => c.scalars.foldl (fun acc s => acc * cpow (b s.1 i) s.2) (c.sign : ℂ)
  let d1 : Data n := fun i => if c.field ≠ [] then d0 i * b c.field i else d0 i
  match c.lap with
  | some p => lapEval p freq d1
  | none => d1

/-- `int(x)` for a floating point number. Used at pf/rhsBuilder.go:157. -/
def truncQ (x : ℚ) : ℤ := if 0 ≤ x then ⌊x⌋ else ⌈x⌉

/-- The loop over the factors in `ConcreteTerm`, pf/rhsBuilder.go:139-149. -/
def concreteLoop {n : ℕ} (m : EqModel n) : List Str → List (Str × ℚ) → Option (List (Str × ℚ))
  | [], acc => some acc
  | s :: ss, acc =>
    let name := findString patName s
    if !m.isFieldName name && m.isBrickName name then
      match getPower s with
      | none => none
      | some p => concreteLoop m ss (acc ++ [(name, p)])
    else match m.validName name with
      | some true => concreteLoop m ss acc
      | _ => none

/-- `ConcreteTerm`, pf/rhsBuilder.go:125-190. -/
def concreteTerm {n : ℕ} (term : Str) (delim : Option Char) (m : EqModel n) : Option Concrete := do
  let sign : ℤ := if delim = some '-' then -1 else 1
  let scalars : List (Str × ℚ) ← concreteLoop m (findAll patFactor term) []
  let fieldName := getFieldName (sortFactors term) m.allFieldNames
  if contains "LAP".toList term then
    let p : ℚ ← getPower (findString patLap term)
    return ⟨sign, scalars, fieldName, some (truncQ p)⟩
  else return ⟨sign, scalars, fieldName, none⟩

/-- `RHS`, pf/rhsBuilder.go:19-22. -/
structure BuiltRHS (n : ℕ) where
  terms : List (BTerm n)
  denum : List (BTerm n)

/-- One iteration of the loop of `Build`, pf/rhsBuilder.go:35-52. -/
noncomputable def buildTerm {n : ℕ} (m : EqModel n) (field : Str) (rhs : BuiltRHS n) (t : SubDelim) :
    Option (BuiltRHS n) :=
  let name := removeKnownPrefixes t.sub
  let prefixes := getKnownPrefixes t.sub ++ [t.delim.toList]
  match m.implicitTerms.lookup name with
  | some f => some { rhs with denum := rhs.denum ++ [fun b => constructFunc (f b) prefixes] }
  | none =>
    match m.explicitTerms.lookup name with
    | some f => some { rhs with terms := rhs.terms ++ [fun b => constructFunc (f b) prefixes] }
    | none =>
      match m.mixedTerms.lookup name with
      | some f => some ⟨rhs.terms ++ [fun b => constructFunc (f.2 b) prefixes],
          rhs.denum ++ [fun b => constructFunc (f.1 b) prefixes]⟩
      | none =>
        match isBilinear t.sub field m.allFieldNames with
        | none => none
        | some true =>
          (concreteTerm (removeAll field t.sub) t.delim m).map fun c =>
            { rhs with denum := rhs.denum ++ [c.eval] }
        | some false =>
          (concreteTerm t.sub t.delim m).map fun c => { rhs with terms := rhs.terms ++ [c.eval] }

/-- `Build`, pf/rhsBuilder.go:26-54. -/
noncomputable def build {n : ℕ} (eq : Str) (m : EqModel n) : Option (BuiltRHS n) :=
  match goSplit '=' eq with
  | [lhs, rhs] => do
    let field ← fieldNameFromLeibniz lhs
    let ts ← splitOnMany rhs ['+', '-']
    ts.foldlM (buildTerm m field) ⟨[], []⟩
  | _ => none

namespace EqModel
variable {n : ℕ}

/-- One iteration of the loop of `UpdateDerivedFields`, pf/model.go:179-194. -/
def updateOne (field : Str) (m : EqModel n) (term : Str) : Option (EqModel n) :=
  if m.isUserDefinedTerm term then some m
  else do
    let expr ← getNonLinearFieldExpressions term field m.fields
    let newFields := sortFactors expr
    if newFields ≠ [] ∧ !m.isFieldName newFields then
      let factors : List (Str × ℚ) ← descFactors newFields
      return { m with derived := m.derived ++ [(newFields, .product factors)]
                      brickNames := m.brickNames ++ [newFields] }
    else return m

/-- `UpdateDerivedFields`, pf/model.go:165-195. -/
def updateDerivedFields (m : EqModel n) (eq : Str) : Option (EqModel n) :=
  match goSplit '=' eq with
  | lhs :: rhs :: _ => do
    let ts ← splitOnMany rhs ['+', '-']
    let field ← fieldNameFromLeibniz lhs
    (ts.map SubDelim.sub).foldlM (updateOne field) m
  | _ => none

/-- `AddEquation`, pf/model.go:157-162. -/
def addEquation (m : EqModel n) (eq : Str) : Option (EqModel n) :=
  let eq := eq.filter fun c => c ≠ ' '
  { m with equations := m.equations ++ [eq] }.updateDerivedFields eq

/-- The right-hand sides made by `Init`, pf/model.go:244-248. -/
noncomputable def initRHS (m : EqModel n) : Option (List (BuiltRHS n)) := m.equations.mapM fun eq => build eq m

end EqModel

end Gopf.Pf
