import Verif.JsonIndentRead
import Verif.PatchTextLemmas
import Verif.VssPrint
/-
Documents and data as indented JSON texts (internal/tson/serialization.go:20-26, internal/vssgen/vss.go:86-92).
-/
namespace Verif

/-- `json.MarshalIndent(…, "", "    ")` after the text of `json.Marshal`: the text is scanned again, which gives an error if it is
nested deeper than 10000 (internal/tson/serialization.go:21, internal/vssgen/vss.go:87). -/
def indentedWide (s : Res Bytes) : Res Bytes := s.bind fun b => if (readText b).isSome then .ok (appendIndent 4 .out 0 false b) else .err

/-- `ToCompatibleTsonString` (internal/tson/serialization.go:20-26); an error is a panic. -/
def toCompatibleString (t : Tson) : Res Bytes :=
  match indentedWide (toCompatibleText t) with
  | .ok s => .ok s
  | _ => .panic

/-- `PrintWithIndex` of a data set (internal/vssgen/vss.go:86-92): the error of `json.MarshalIndent` is ignored, and the text is empty
then. -/
def printData (d : Js) : Bytes :=
  match indentedWide (marshalAny d) with
  | .ok s => printWithIndex s
  | _ => printWithIndex []

end Verif
