import Verif.Model.FileIO
import Verif.Model.Session

/-!
# Model of the text of meta files and of monitors

`WriteXDMF` (pf/xdmf.go) passes a structure to `encoding/xml`, `JSONifyMonitors` (pf/solver.go) passes the monitors to
`encoding/json`. What these two packages write is modelled from their documentation and source: the struct tags decide
about names, attributes and omitted items; texts are escaped; elements are indented.
-/

namespace Gopf.Pf

/-! ## `encoding/xml` -/

/-- What the encoder writes: a name, attributes, and either a text or further elements (the structures of
pf/xdmf.go:10-80 have never both). -/
inductive Element
  | text (name : Str) (attrs : List (Str × Str)) (value : Str)
  | nest (name : Str) (attrs : List (Str × Str)) (children : List Element)

/-- `isInCharacterRange` of encoding/xml, used by `EscapeText`, see pf/xdmf.go:171. -/
def isXmlChar (c : Char) : Bool :=
  c = '\t' || c = '\n' || c = '\r' || (0x20 ≤ c.toNat && c.toNat ≤ 0xD7FF) || (0xE000 ≤ c.toNat && c.toNat ≤ 0xFFFD) ||
    (0x10000 ≤ c.toNat && c.toNat ≤ 0x10FFFF)

/-- `EscapeText` of encoding/xml for one character, see pf/xdmf.go:171. -/
def xmlEscape (c : Char) : Str :=
  if c = '"' then "&#34;".toList
  else if c = '\'' then "&#39;".toList
  else if c = '&' then "&amp;".toList
  else if c = '<' then "&lt;".toList
  else if c = '>' then "&gt;".toList
  else if c = '\t' then "&#x9;".toList
  else if c = '\n' then "&#xA;".toList
  else if c = '\r' then "&#xD;".toList
  else if isXmlChar c then [c]
  else ['�']

/-- Start tag written by `writeStart` of encoding/xml, see pf/xdmf.go:171. -/
def startTag (name : Str) (attrs : List (Str × Str)) : Str :=
  '<' :: name ++ attrs.flatMap (fun a => ' ' :: a.1 ++ '=' :: '"' :: a.2.flatMap xmlEscape ++ ['"']) ++ ['>']

/-- End tag written by `writeEnd` of encoding/xml, see pf/xdmf.go:171. -/
def endTag (name : Str) : Str := '<' :: '/' :: name ++ ['>']

/-- Four blanks per level, pf/xdmf.go:170. -/
def indentation (depth : ℕ) : Str := List.replicate (4 * depth) ' '

mutual
/-- `Encode` of encoding/xml after `Indent("", "    ")`, pf/xdmf.go:169-171: elements start on lines of their own; the
end tag is on a line of its own if there are elements inside. -/
def encodeXml (depth : ℕ) : Element → Str
  | .text name attrs value => startTag name attrs ++ value.flatMap xmlEscape ++ endTag name
  | .nest name attrs [] => startTag name attrs ++ endTag name
  | .nest name attrs (c :: cs) =>
    startTag name attrs ++ encodeAll (depth + 1) (c :: cs) ++ '\n' :: indentation depth ++ endTag name

/-- The elements inside an element, each on its own line. pf/xdmf.go:169-171. -/
def encodeAll (depth : ℕ) : List Element → Str
  | [] => []
  | e :: es => '\n' :: indentation depth ++ encodeXml depth e ++ encodeAll depth es
end

/-! ## `pf/xdmf.go` -/

/-- An attribute with the option `omitempty`, pf/xdmf.go:10-74. -/
def optAttr (name : String) (value : Str) : List (Str × Str) := if value = [] then [] else [(name.toList, value)]

/-- `XDMFTopology`, pf/xdmf.go:10-16. -/
def xdmfTopology (name type dimensions reference : Str) : Element :=
  .text "Topology".toList (optAttr "name" name ++ optAttr "TopologyType" type ++ optAttr "Dimensions" dimensions ++
    optAttr "Reference" reference) []

/-- `XDMFGeometry`, pf/xdmf.go:19-25. -/
def xdmfGeometry (name type reference : Str) (items : List Element) : Element :=
  .nest "Geometry".toList (optAttr "name" name ++ optAttr "Type" type ++ optAttr "Reference" reference) items

/-- `XDMFDataItem`, pf/xdmf.go:28-38. `Dimension` is never set, `Precision` is given as text. -/
def xdmfDataItem (format value numberType dimensions precision dataType endian : Str) : Element :=
  .text "DataItem".toList (optAttr "Format" format ++ optAttr "NumberType" numberType ++ optAttr "Dimensions" dimensions ++
    optAttr "Precision" precision ++ optAttr "DataType" dataType ++ optAttr "Endian" endian) value

/-- `XDMFAttribute`, pf/xdmf.go:41-46. -/
def xdmfAttribute (name center : Str) (item : Element) : Element :=
  .nest "Attribute".toList (optAttr "Name" name ++ optAttr "Center" center) [item]

/-- `XDMFTime`, pf/xdmf.go:49-53. -/
def xdmfTime (type : Str) (item : Element) : Element := .nest "Time".toList [("TimeType".toList, type)] [item]

/-- `XDMFGrid`, pf/xdmf.go:56-66. `omitempty` has no effect on structures, so topology and geometry are always written;
`time` is a pointer and left out if it is nil. -/
def xdmfGrid (name type collectionType : Str) (grids attributes : List Element) (topology geometry : Element)
    (time : Option Element) : Element :=
  .nest "Grid".toList (optAttr "Name" name ++ optAttr "GridType" type ++ optAttr "CollectionType" collectionType)
    (grids ++ attributes ++ [topology, geometry] ++ time.toList)

/-- The type of the geometry, pf/xdmf.go:88-98. -/
def xdmfGeoType (domainSize : List Int) : Str :=
  if domainSize.length = 2 then "ORIGIN_DXDY".toList else "ORIGIN_DXDYDZ".toList

/-- The text of the time item, pf/xdmf.go:119-123. -/
def xdmfTimes (num : ℕ) : Str :=
  (List.range num).flatMap (fun i : ℕ => fmtF ((i : ℚ) / (num : ℚ)) ++ [' ']) ++ fmtInt (num : Int)

/-- The grid of one time step, pf/xdmf.go:135-158. -/
def xdmfStep (fieldNames : List Str) (pfx dimensions : Str) (i : ℕ) : Element :=
  xdmfGrid ('T' :: fmtInt ((i : Int) + 1)) "Uniform".toList [] []
    (fieldNames.map fun name => xdmfAttribute name "Node".toList
      (xdmfDataItem "Binary".toList (binName pfx name (i : Int)) [] dimensions "8".toList "Float".toList "Big".toList))
    (xdmfTopology [] [] [] "/Xdmf/Domain/Topology[1]".toList)
    (xdmfGeometry [] [] "/Xdmf/Domain/Geometry[1]".toList []) none

/-- `CreateXDMF`, pf/xdmf.go:83-160. -/
def xdmfDocument (fieldNames : List Str) (pfx : Str) (num : ℕ) (domainSize : List Int) : Option Element :=
  (xdmfDims domainSize).map fun dimensions =>
    let dim := fmtInt (domainSize.length : Int)
    .nest "Xdmf".toList [] [.nest "Domain".toList []
      [xdmfTopology "topo".toList (dim ++ "DCoRectMesh".toList) dimensions [],
       xdmfGeometry "geo".toList (xdmfGeoType domainSize) []
        [xdmfDataItem "XML".toList "0.0 0.0 0.0".toList [] dim [] [] [],
         xdmfDataItem "XML".toList "1.0 1.0 1.0".toList [] dim [] [] []],
       xdmfGrid "TimeSeries".toList "Collection".toList "Temporal".toList
        ((List.range num).map (xdmfStep fieldNames pfx dimensions)) [] (xdmfTopology [] [] [] []) (xdmfGeometry [] [] [] [])
        (some (xdmfTime "HyperSlab".toList
          (xdmfDataItem "XML".toList (xdmfTimes num) "Float".toList dim [] [] [])))]]

/-- The text of the file written by `WriteXDMF`, pf/xdmf.go:164-173. -/
def writeXdmf (fieldNames : List Str) (pfx : Str) (num : ℕ) (domainSize : List Int) : Option Str :=
  (xdmfDocument fieldNames pfx num domainSize).map (encodeXml 0)

/-! ## `encoding/json` -/

/-- A hexadecimal digit. Part of encoding/json, see pf/solver.go:129. -/
def hexDigit (n : ℕ) : Char := "0123456789abcdef".toList.getD n '0'

/-- How encoding/json writes a character of a string, see pf/solver.go:129 (ASCII; newer versions of the package have
shorter forms for two control characters). -/
def jsonEscape (c : Char) : Str :=
  if c = '"' ∨ c = '\\' then ['\\', c]
  else if c = '\n' then ['\\', 'n']
  else if c = '\r' then ['\\', 'r']
  else if c = '\t' then ['\\', 't']
  else if c.toNat < 0x20 ∨ c = '<' ∨ c = '>' ∨ c = '&' then
    ['\\', 'u', '0', '0', hexDigit (c.toNat / 16), hexDigit (c.toNat % 16)]
  else [c]

/-- A string in JSON, see pf/solver.go:129. -/
def jsonString (s : Str) : Str := '"' :: s.flatMap jsonEscape ++ ['"']

/-- A sequence with commas, as encoding/json writes it, see pf/solver.go:129. -/
def commaSep : List Str → Str
  | [] => []
  | [x] => x
  | x :: y :: l => x ++ ',' :: commaSep (y :: l)

/-- A `PointMonitor` in JSON: the fields of the structure in order, pf/monitor.go:9-14, pf/solver.go:129. `num` is the
text of a float (infinities and NaN are errors, which do not occur here). -/
def monitorJson (num : ℝ → Str) (p : PointMonitor) : Str :=
  '{' :: commaSep
    [jsonString "Data".toList ++ ':' :: '[' :: commaSep (p.data.map num) ++ [']'],
     jsonString "Site".toList ++ ':' :: fmtInt p.site,
     jsonString "Field".toList ++ ':' :: jsonString p.field,
     jsonString "Name".toList ++ ':' :: jsonString "PointMonitor".toList] ++ ['}']

/-- `JSONifyMonitors`, pf/solver.go:128-134. -/
def jsonifyMonitors (num : ℝ → Str) (monitors : List PointMonitor) : Str :=
  '[' :: commaSep (monitors.map (monitorJson num)) ++ [']']

end Gopf.Pf
