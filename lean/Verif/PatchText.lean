import Verif.JsonText
import Verif.Logument
/-
Patches as texts (internal/tsonpatch/tsonpatch.go:51-117): `String`, `Marshal`, `Unmarshal` and `FromJson`.
-/
namespace Verif

/-- The values of an operation that can be written as JSON: values of type `any` made of maps, slices and primitive
values, and TSON documents (internal/tsonpatch/tsonpatch.go:84). -/
inductive PVal where
  | any (j : Js)
  | doc (t : Tson)

/-- `Value == nil`. [internal/tsonpatch/tsonpatch.go:84, 107] -/
def PVal.isNil : PVal → Bool
  | .any .null => true
  | .doc .null => true
  | _ => false

/-- `json.Marshal` on the value (internal/tsonpatch/tsonpatch.go:93, 108). -/
def PVal.text : PVal → Res Bytes
  | .any j => marshalAny j
  | .doc t => toCompatibleText t

/-- An operation with its value in full (internal/tsonpatch/tsonpatch.go:81-86); `Op` of `Verif.Patch` abstracts from the
contents of maps and slices. -/
structure POp where
  op : Bytes
  path : Bytes
  value : PVal
  ts : Int

/-- The operation types (internal/tsonpatch/tsonpatch.go:35-45). -/
def opKind (s : Bytes) : OpKind :=
  if s = b!"add" then .add
  else if s = b!"remove" then .remove
  else if s = b!"replace" then .replace
  else if s = b!"move" then .move
  else if s = b!"copy" then .copy
  else if s = b!"test" then .test
  else .other s

/-- The value as `Op` sees it: maps and slices by their type only; an integer is a Go `int`. [internal/tsonpatch/tsonpatch.go:84] -/
def PVal.gval : PVal → GVal
  | .any .null => .nil
  | .any (.str s) => .str s
  | .any (.num f) => .num f
  | .any (.int n) => .int n
  | .any (.bool b) => .bool b
  | .any (.obj _) => .container 0 0
  | .any (.arr _) => .container 1 0
  | .doc .null => .nil
  | .doc (.leaf p ts) => .leaf p ts
  | .doc (.obj _) => .container 2 0
  | .doc (.arr _) => .container 3 0

/-- The operation as the rest of the model sees it. [internal/tsonpatch/tsonpatch.go:81-86] -/
def POp.toOp (o : POp) : Op := ⟨opKind o.op, o.path, o.value.gval, o.ts⟩

/-! ### Writing -/

/-- The text of a value, empty if `json.Marshal` fails: `value, _ = json.Marshal(p.Value)`
(internal/tsonpatch/tsonpatch.go:93). -/
def PVal.textOrNothing (v : PVal) : Bytes :=
  match v.text with
  | .ok b => b
  | _ => []

/-- `Operation.String` (internal/tsonpatch/tsonpatch.go:89-101): operation and path are not escaped. -/
def POp.string (o : POp) : Bytes :=
  b!"{ \"op\": \"" ++ o.op ++ b!"\", \"path\": \"" ++ o.path ++ b!"\", \"value\": " ++ o.value.textOrNothing ++
    b!", \"timestamp\": " ++ itoa o.ts ++ b!" }"

/-- The lines of `Patch.String`, joined (internal/tsonpatch/tsonpatch.go:52-56). -/
def joinLines : List Bytes → Bytes
  | [] => []
  | [s] => b!"    " ++ s
  | s :: t :: l => b!"    " ++ s ++ b!",\n" ++ joinLines (t :: l)

/-- `Patch.String` (internal/tsonpatch/tsonpatch.go:51-57). -/
def patchString (p : List POp) : Bytes := b!"[\n" ++ joinLines (p.map POp.string) ++ b!"\n]"

/-- The test of `Operation.Marshal` whether the value is written (internal/tsonpatch/tsonpatch.go:107). -/
def POp.showsValue (o : POp) : Bool :=
  !o.value.isNil || o.op == b!"replace" || o.op == b!"add" || o.op == b!"test"

/-- `Operation.Marshal` (internal/tsonpatch/tsonpatch.go:104-116). -/
def POp.marshal (o : POp) : Res Bytes :=
  if o.showsValue then
    o.value.text.map fun v =>
      b!"{ \"op\": \"" ++ o.op ++ b!"\", \"path\": \"" ++ o.path ++ b!"\", \"value\": " ++ v ++
        b!", \"timestamp\": " ++ itoa o.ts ++ b!" }"
  else .ok (b!"{ \"op\": \"" ++ o.op ++ b!"\", \"path\": \"" ++ o.path ++ b!"\", \"timestamp\": " ++ itoa o.ts ++ b!" }")

/-- The JSON text of an operation by its struct tags: the value is left out if it is nil
(`json.Marshal` at internal/tsonpatch/tsonpatch.go:60, tags at 82-85). -/
def POp.json (o : POp) : Res Bytes :=
  if o.value.isNil then
    .ok (b!"{\"op\":" ++ jsonStr o.op ++ b!",\"path\":" ++ jsonStr o.path ++ b!",\"timestamp\":" ++ itoa o.ts ++ b!"}")
  else
    o.value.text.map fun v => b!"{\"op\":" ++ jsonStr o.op ++ b!",\"path\":" ++ jsonStr o.path ++ b!",\"value\":" ++ v ++
      b!",\"timestamp\":" ++ itoa o.ts ++ b!"}"

/-- The JSON texts of the operations. [`json.Marshal` at internal/tsonpatch/tsonpatch.go:60] -/
def jsonOps : List POp → Res (List Bytes)
  | [] => .ok []
  | o :: p => o.json.bind fun b => (jsonOps p).map fun l => b :: l

/-- `json.Marshal` on a `Patch`; nil is written as `null` (internal/tsonpatch/tsonpatch.go:60). -/
def patchJson : Option (List POp) → Res Bytes
  | none => .ok b!"null"
  | some p => (jsonOps p).map fun l => 91 :: (joinElems l ++ [93])

/-! ### Reading -/

/-- The folding of field names by `encoding/json`: ASCII letters become capitals, and U+017F becomes `S`.  No other
character folds to a letter of the field names. [decoding at internal/tsonpatch/tsonpatch.go:70, tags at 82-85] -/
def foldName : Bytes → Bytes
  | 0xC5 :: 0xBF :: s => 83 :: foldName s
  | c :: s => (if 97 ≤ c ∧ c ≤ 122 then c - 32 else c) :: foldName s
  | [] => []

/-- Decoding into a string field: null changes nothing, other types are an error.
[internal/tsonpatch/tsonpatch.go:70, fields at 82-83] -/
def decodeStr (old : Bytes) : Jt → Res Bytes
  | .str s => .ok s
  | .null => .ok old
  | _ => .err

/-- Decoding into the field `Timestamp`: null changes nothing; numbers with fraction or exponent, numbers out of range
and other types are an error. [internal/tsonpatch/tsonpatch.go:70, field at 85] -/
def decodeInt (old : Int) : Jt → Res Int
  | .num neg int frac exp =>
    match litInt neg int frac exp with
    | some n => .ok n
    | none => .err
  | .null => .ok old
  | _ => .err

/-- One member of the JSON object of an operation; unknown names are ignored, in a name case does not matter, the last of
several members for a field wins. [decoding at internal/tsonpatch/tsonpatch.go:70, fields at 82-85] -/
def decodeField (o : POp) (k : Bytes) (v : Jt) : Res POp :=
  let name := foldName k
  if name = b!"OP" then (decodeStr o.op v).map fun s => { o with op := s }
  else if name = b!"PATH" then (decodeStr o.path v).map fun s => { o with path := s }
  else if name = b!"VALUE" then v.toAny.map fun j => { o with value := .any j }
  else if name = b!"TIMESTAMP" then (decodeInt o.ts v).map fun n => { o with ts := n }
  else .ok o

/-- The members of the JSON object of an operation in turn. [decoding at internal/tsonpatch/tsonpatch.go:70] -/
def decodeFields (o : POp) : List (Bytes × Jt) → Res POp
  | [] => .ok o
  | (k, v) :: m => (decodeField o k v).bind fun o => decodeFields o m

/-- The zero value of `Operation` (internal/tsonpatch/tsonpatch.go:81-86). -/
def POp.zero : POp := ⟨[], [], .any .null, 0⟩

/-- Decoding of one operation; null gives the zero value. [internal/tsonpatch/tsonpatch.go:70] -/
def decodeOp : Jt → Res POp
  | .obj m => decodeFields .zero m
  | .null => .ok .zero
  | _ => .err

/-- Decoding of the operations of a patch. [internal/tsonpatch/tsonpatch.go:70] -/
def decodeOps : List Jt → Res (List POp)
  | [] => .ok []
  | v :: l => (decodeOp v).bind fun o => (decodeOps l).map fun p => o :: p

/-- `Unmarshal` (internal/tsonpatch/tsonpatch.go:68-74): null gives the nil patch.  Type errors do not stop
`encoding/json`, but in the end the error is returned and the patch dropped. -/
def unmarshalPatch (s : Bytes) : Res (Option (List POp)) :=
  match readText s with
  | some (.arr l) => (decodeOps l).map some
  | some .null => .ok none
  | _ => .err

/-- The arguments of `FromJson` considered: a patch, or a value of type `any` made of maps and slices
(internal/tsonpatch/tsonpatch.go:59). -/
inductive FromArg where
  | patch (p : Option (List POp))
  | any (j : Js)

/-- `FromJson` (internal/tsonpatch/tsonpatch.go:59-65). -/
def patchFromJson : FromArg → Res (Option (List POp))
  | .patch p => (patchJson p).bind unmarshalPatch
  | .any j => (marshalAny j).bind unmarshalPatch

/-- `Store` with a text (internal/logument/logument.go:134-145). -/
def storeText (s : Bytes) : StoreArg := .text ((unmarshalPatch s).map fun p => p.map fun l => l.map POp.toOp)

/-- `Store` with a patch (internal/logument/logument.go:146-147). -/
def storePatch (p : List POp) : StoreArg := .patch (some (p.map POp.toOp))

example : patchString [⟨b!"add", b!"/a", .any (.num (.ofInt 2)), 7⟩, ⟨b!"remove", b!"/b", .any .null, -1⟩] =
    b!"[\n    { \"op\": \"add\", \"path\": \"/a\", \"value\": 2, \"timestamp\": 7 },\n    { \"op\": \"remove\", \"path\": \"/b\", \"value\": null, \"timestamp\": -1 }\n]" := by
  decide +kernel
example : (unmarshalPatch b!" [ {\"OP\":\"x\",\"path\":null,\"TimeſTamp\":5,\"z\":[1]}, null ]").map
    (fun p => p.map fun l => l.map POp.toOp) = .ok (some [⟨.other b!"x", [], .nil, 5⟩, ⟨.other [], [], .nil, 0⟩]) := by
  decide +kernel
example : (unmarshalPatch b!"[{\"timestamp\":1.0}]").isOk = false := by decide +kernel

end Verif
