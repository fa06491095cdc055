import Verif.Model.Format

/-!
# Readers of XML and JSON

What a program that reads the files makes of their text, written from the two standards (the part without declarations,
comments, name spaces and surrogate pairs). The readers know nothing about the writers.
-/

namespace Gopf.Spec
open Pf (Str)

/-- White space of both standards. -/
def isBlank (c : Char) : Bool := c = ' ' || c = '\n' || c = '\t' || c = '\r'

def skipBlank (t : Str) : Str := t.dropWhile isBlank

/-- The value of a hexadecimal digit. -/
def hexValue (c : Char) : Option ℕ :=
  if '0' ≤ c ∧ c ≤ '9' then some (c.toNat - 48)
  else if 'a' ≤ c ∧ c ≤ 'f' then some (c.toNat - 87)
  else if 'A' ≤ c ∧ c ≤ 'F' then some (c.toNat - 55)
  else none

/-! ## JSON -/

inductive Json
  | null
  | bool (b : Bool)
  | num (text : Str)
  | str (s : Str)
  | arr (l : List Json)
  | obj (l : List (Str × Json))

/-- Escapes of one character. -/
def simpleEscape (c : Char) : Option Char :=
  if c = '"' ∨ c = '\\' ∨ c = '/' then some c
  else if c = 'b' then some (Char.ofNat 8)
  else if c = 'f' then some (Char.ofNat 12)
  else if c = 'n' then some '\n'
  else if c = 'r' then some '\r'
  else if c = 't' then some '\t'
  else none

/-- The rest of a string, after the opening quotation mark. -/
def readString : Str → Option (Str × Str)
  | [] => none
  | '"' :: t => some ([], t)
  | '\\' :: 'u' :: a :: b :: c :: d :: t => do
    let x ← hexValue a
    let y ← hexValue b
    let z ← hexValue c
    let w ← hexValue d
    let r ← readString t
    return (Char.ofNat (((x * 16 + y) * 16 + z) * 16 + w) :: r.1, r.2)
  | '\\' :: c :: t => do
    let e ← simpleEscape c
    let r ← readString t
    return (e :: r.1, r.2)
  | c :: t => if c.toNat < 0x20 then none else (readString t).map fun r => (c :: r.1, r.2)

/-- Characters of numbers. -/
def isNumberChar (c : Char) : Bool := c.isDigit || c = '-' || c = '+' || c = '.' || c = 'e' || c = 'E'

/-- Digits, at least one. -/
def digits1 (t : Str) : Bool := !t.isEmpty && t.all Char.isDigit

/-- The part of a number after the whole part: nothing, a fraction, an exponent, or both. -/
def isExponent (t : Str) : Bool :=
  match t with
  | [] => true
  | c :: t => (c = 'e' || c = 'E') && (digits1 t || (t.head? = some '-' || t.head? = some '+') && digits1 t.tail)

def isFraction (t : Str) : Bool :=
  match t with
  | '.' :: t => !(t.takeWhile Char.isDigit).isEmpty && isExponent (t.dropWhile Char.isDigit)
  | t => isExponent t

/-- A number without sign: no leading zeros. -/
def isUnsigned (t : Str) : Bool :=
  match t with
  | '0' :: t => isFraction t
  | t => !(t.takeWhile Char.isDigit).isEmpty && isFraction (t.dropWhile Char.isDigit)

/-- Numbers: `-? (0 | [1-9][0-9]*) (. [0-9]+)? ([eE] [+-]? [0-9]+)?`. -/
def isNumber (t : Str) : Bool :=
  match t with
  | '-' :: t => isUnsigned t
  | t => isUnsigned t

mutual
/-- A value and what follows it. The first argument bounds the depth of the recursion. -/
def readValue : ℕ → Str → Option (Json × Str)
  | 0, _ => none
  | fuel + 1, t =>
    match skipBlank t with
    | 'n' :: 'u' :: 'l' :: 'l' :: t => some (.null, t)
    | 't' :: 'r' :: 'u' :: 'e' :: t => some (.bool true, t)
    | 'f' :: 'a' :: 'l' :: 's' :: 'e' :: t => some (.bool false, t)
    | '"' :: t => (readString t).map fun r => (.str r.1, r.2)
    | '[' :: t =>
      match skipBlank t with
      | ']' :: t => some (.arr [], t)
      | t => (readItems fuel t).map fun r => (.arr r.1, r.2)
    | '{' :: t =>
      match skipBlank t with
      | '}' :: t => some (.obj [], t)
      | t => (readMembers fuel t).map fun r => (.obj r.1, r.2)
    | t =>
      if isNumber (t.takeWhile isNumberChar) then some (.num (t.takeWhile isNumberChar), t.dropWhile isNumberChar) else none

/-- The items of an array up to the closing bracket. -/
def readItems : ℕ → Str → Option (List Json × Str)
  | 0, _ => none
  | fuel + 1, t =>
    match readValue fuel t with
    | none => none
    | some (v, t) =>
      match skipBlank t with
      | ']' :: t => some ([v], t)
      | ',' :: t => (readItems fuel t).map fun r => (v :: r.1, r.2)
      | _ => none

/-- The members of an object up to the closing brace. -/
def readMembers : ℕ → Str → Option (List (Str × Json) × Str)
  | 0, _ => none
  | fuel + 1, t =>
    match skipBlank t with
    | '"' :: t =>
      match readString t with
      | none => none
      | some (k, t) =>
        match skipBlank t with
        | ':' :: t =>
          match readValue fuel t with
          | none => none
          | some (v, t) =>
            match skipBlank t with
            | '}' :: t => some ([(k, v)], t)
            | ',' :: t => (readMembers fuel t).map fun r => ((k, v) :: r.1, r.2)
            | _ => none
        | _ => none
    | _ => none
end

/-- A JSON text: one value. -/
def readJson (t : Str) : Option Json :=
  match readValue (t.length + 1) t with
  | some (v, r) => if skipBlank r = [] then some v else none
  | none => none

/-! ## XML -/

/-- An element: name, attributes, text, elements inside. -/
inductive Xml
  | node (name : Str) (attrs : List (Str × Str)) (text : Str) (children : List Xml)

def Xml.name : Xml → Str
  | .node n _ _ _ => n
def Xml.attrs : Xml → List (Str × Str)
  | .node _ a _ _ => a
def Xml.text : Xml → Str
  | .node _ _ t _ => t
def Xml.children : Xml → List Xml
  | .node _ _ _ c => c

/-- The elements inside with a given name. -/
def Xml.sub (x : Xml) (name : String) : List Xml := x.children.filter fun c => c.name = name.toList

/-- An attribute; a missing one counts as empty. -/
def Xml.attr (x : Xml) (name : String) : Str := (x.attrs.lookup name.toList).getD []

/-- Characters of names of elements and attributes. -/
def isNameChar (c : Char) : Bool := c.isAlphanum || c = '_' || c = '-' || c = '.' || c = ':'

/-- A character reference or one of the five entities. -/
def entity (e : Str) : Option Char :=
  if e = "amp".toList then some '&'
  else if e = "lt".toList then some '<'
  else if e = "gt".toList then some '>'
  else if e = "quot".toList then some '"'
  else if e = "apos".toList then some '\''
  else match e with
    | '#' :: 'x' :: t =>
      if t = [] then none else (t.foldlM (fun (n : ℕ) c => (hexValue c).map (n * 16 + ·)) 0).map Char.ofNat
    | '#' :: t => if digits1 t then some (Char.ofNat (Nat.ofDigitChars 10 t 0)) else none
    | _ => none

/-- The characters up to the delimiter `stop`, with entities replaced; `white` is what the reader makes of white space
that is written literally. -/
def readText (stop : Char) (white : Char → Char) : ℕ → Str → Option (Str × Str)
  | 0, _ => none
  | _, [] => none
  | fuel + 1, c :: t =>
    if c = stop then some ([], c :: t)
    else if c = '<' then none
    else if c = '&' then
      match t.dropWhile (· ≠ ';') with
      | ';' :: r =>
        match entity (t.takeWhile (· ≠ ';')) with
        | some e => (readText stop white fuel r).map fun x => (e :: x.1, x.2)
        | none => none
      | _ => none
    else (readText stop white fuel t).map fun x => (white c :: x.1, x.2)

/-- In values of attributes literal white space is a blank. -/
def attrWhite (c : Char) : Char := if isBlank c then ' ' else c

/-- In texts a carriage return is a line feed. -/
def textWhite (c : Char) : Char := if c = '\r' then '\n' else c

/-- The attributes up to the end of the start tag. -/
def readAttrs : ℕ → Str → Option (List (Str × Str) × Str)
  | 0, _ => none
  | fuel + 1, t =>
    match skipBlank t with
    | '>' :: r => some ([], r)
    | t' =>
      if t'.takeWhile isNameChar = [] then none
      else match t'.dropWhile isNameChar with
        | '=' :: '"' :: r =>
          match readText '"' attrWhite (r.length + 1) r with
          | some (v, _ :: r) => (readAttrs fuel r).map fun x => ((t'.takeWhile isNameChar, v) :: x.1, x.2)
          | _ => none
        | _ => none

mutual
/-- An element, from the character after `<`. -/
def readElement : ℕ → Str → Option (Xml × Str)
  | 0, _ => none
  | fuel + 1, t =>
    if t.takeWhile isNameChar = [] then none
    else match readAttrs fuel (t.dropWhile isNameChar) with
      | none => none
      | some (attrs, r) =>
        match readContent fuel r with
        | none => none
        | some (text, children, r) =>
          if r.takeWhile isNameChar = t.takeWhile isNameChar then
            match skipBlank (r.dropWhile isNameChar) with
            | '>' :: r =>
              some (.node (t.takeWhile isNameChar) attrs (if children ≠ [] ∧ text.all isBlank then [] else text) children, r)
            | _ => none
          else none

/-- What is between the tags: all texts together and the elements, and what follows `</`. -/
def readContent : ℕ → Str → Option (Str × List Xml × Str)
  | 0, _ => none
  | fuel + 1, t =>
    match readText '<' textWhite (t.length + 1) t with
    | some (text, _ :: '/' :: r) => some (text, [], r)
    | some (text, _ :: r) =>
      match readElement fuel r with
      | some (e, r) => (readContent fuel r).map fun x => (text ++ x.1, e :: x.2.1, x.2.2)
      | none => none
    | _ => none
end

/-- An XML document: one element. White space between elements is dropped. -/
def readXml (t : Str) : Option Xml :=
  match skipBlank t with
  | '<' :: t =>
    match readElement (t.length + 1) t with
    | some (e, r) => if skipBlank r = [] then some e else none
    | none => none
  | _ => none

/-! ## What a viewer finds in an XDMF file -/

/-- The data of an attribute. -/
structure ViewItem where
  name : Str
  center : Str
  format : Str
  dataType : Str
  precision : Str
  endian : Str
  dimensions : Str
  file : Str

/-- The data items of an attribute. -/
def viewItems (a : Xml) : List ViewItem :=
  (a.sub "DataItem").map fun d => ⟨a.attr "Name", a.attr "Center", d.attr "Format", d.attr "DataType", d.attr "Precision",
    d.attr "Endian", d.attr "Dimensions", d.text⟩

/-- The steps of the time series, `Xdmf/Domain/Grid/Grid`. -/
def viewSteps (x : Xml) : List (Str × List ViewItem) :=
  (x.sub "Domain").flatMap fun d => (d.sub "Grid").flatMap fun g => (g.sub "Grid").map fun s =>
    (s.attr "Name", (s.sub "Attribute").flatMap viewItems)

/-- The time item of the series, `Xdmf/Domain/Grid/Time`: its type and the text of its data. -/
def viewTimes (x : Xml) : List (Str × Str) :=
  (x.sub "Domain").flatMap fun d => (d.sub "Grid").flatMap fun g => (g.sub "Time").flatMap fun t =>
    (t.sub "DataItem").map fun i => (t.attr "TimeType", i.text)

/-- Origin and spacing, `Xdmf/Domain/Geometry`: how many numbers are declared and the text. -/
def viewGeometry (x : Xml) : List (Str × Str) :=
  (x.sub "Domain").flatMap fun d => (d.sub "Geometry").flatMap fun g =>
    (g.sub "DataItem").map fun i => (i.attr "Dimensions", i.text)

/-- The mesh, `Xdmf/Domain/Topology` and `Xdmf/Domain/Geometry`: type and sides of the mesh, type of the geometry. -/
def viewMesh (x : Xml) : List (Str × Str) × List Str :=
  ((x.sub "Domain").flatMap fun d => (d.sub "Topology").map fun t => (t.attr "TopologyType", t.attr "Dimensions"),
   (x.sub "Domain").flatMap fun d => (d.sub "Geometry").map fun g => g.attr "Type")

/-- What the steps of the series refer to as their mesh. -/
def viewReferences (x : Xml) : List (List Str × List Str) :=
  (x.sub "Domain").flatMap fun d => (d.sub "Grid").flatMap fun g => (g.sub "Grid").map fun s =>
    ((s.sub "Topology").map fun t => t.attr "Reference", (s.sub "Geometry").map fun t => t.attr "Reference")

/-- Parts of a text separated by blanks. -/
def splitBlank : Str → List Str
  | [] => [[]]
  | c :: t =>
    if c = ' ' then [] :: splitBlank t
    else match splitBlank t with
      | w :: ws => (c :: w) :: ws
      | [] => [[c]]

/-- The number of a value in the file of a grid with the given sides, the last index running fastest. -/
def viewOffset (sides index : List Int) : Int := (sides.zip index).foldl (fun n p => n * p.1 + p.2) 0

/-- The number spelled by bytes, the most significant first. -/
def bigEndian (bytes : List (BitVec 8)) : ℕ := bytes.foldl (fun n b => n * 256 + b.toNat) 0

end Gopf.Spec
