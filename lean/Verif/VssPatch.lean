import Verif.VssGen
import Verif.Diff
import Verif.PatchText
/-
The patch that `GenerateNext` returns beside the next data set (internal/vssgen/vss.go:352-376).
-/
namespace Verif

/-- The text of an operation type (internal/tsonpatch/tsonpatch.go:35-45). -/
def OpKind.text : OpKind → Bytes
  | .add => b!"add"
  | .remove => b!"remove"
  | .replace => b!"replace"
  | .move => b!"move"
  | .copy => b!"copy"
  | .test => b!"test"
  | .other s => s

/-- The value of a generated operation (internal/tsonpatch/tsonpatch.go:84): nil or the value of a leaf.  Other values do not
occur in generated patches; they become nil here. -/
def GVal.any : GVal → Js
  | .str s => .str s
  | .num f => .num f
  | .int n => .int n
  | .bool b => .bool b
  | _ => .null

/-- A generated operation with its value in full (internal/tsonpatch/tsonpatch.go:81-86). -/
def Op.full (o : Op) : POp := ⟨o.kind.text, o.path, .any o.value.any, o.ts⟩

/-- The document of a data set (internal/vssgen/vss.go:356-364): `mapToJson` (418-421) ignores the error of `json.Marshal` and
returns no bytes then; an error of `FromCompatibleTsonBytes` is a panic. -/
def vssTson (m : List (Bytes × Js)) : Res Tson :=
  let text := match marshalAny (.obj m) with
    | .ok b => b
    | _ => []
  match fromCompatibleText text with
  | .ok t => .ok t
  | _ => .panic

/-- The patch as JSON data (internal/vssgen/vss.go:368-373); errors leave the variable nil. -/
def patchData (p : Option (List POp)) : Js :=
  match (patchJson p).bind unmarshalText with
  | .ok j => j
  | _ => .null

/-- The patch returned by `GenerateNext` (internal/vssgen/vss.go:352-376); the patch is nil if there is an error, which is
ignored. -/
def vssPatch (old new : List (Bytes × Js)) : Res Js :=
  (vssTson old).bind fun a => (vssTson new).bind fun b =>
    match generatePatchWithTimestamp a b with
    | .ok ops => .ok (patchData (some (ops.map Op.full)))
    | .err => .ok (patchData none)
    | .panic => .panic

end Verif
