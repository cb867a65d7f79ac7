import Verif.Codec
import Verif.VssPatch
/-
Saving of data sets and of patches (internal/vssgen/vss.go:379-410), with `tson.MarshalIndent` on plain Go data.
-/
namespace Verif

/-- `fmt.Sprintf("%.f", f)`: rounded to a whole number, half to even (internal/tson/serialization.go:193). -/
def fmtWhole : F64 → Bytes
  | .nan => b!"NaN"
  | .inf neg => if neg then b!"-Inf" else b!"+Inf"
  | .fin neg m e _ =>
    (if neg then [45] else []) ++ natDigits (if 0 ≤ e then m * 2 ^ e.toNat else F64.divRound m (2 ^ (-e).toNat))

/-- `formatPrimitive` (internal/tson/serialization.go:420-431). -/
def formatPrimitive (P : Nat → Bool) : Js → Res Bytes
  | .str s => .ok (quote P s)
  | .num f => .ok (fmtFloat f)
  | .int n => .ok (itoa n)
  | .bool b => .ok (if b then b!"true" else b!"false")
  | _ => .err

/-- A leaf in its context (internal/tson/serialization.go:203-222; in the loop over members 232-244, over elements
264-277). -/
def leafInCtx (ctx : Ctx) (s : Bytes) (ts : Int) : Bytes :=
  match ctx with
  | .array => fmtTs ts ++ 32 :: s
  | .object => s
  | .top => s ++ 32 :: fmtTs ts

/-- What stands between a key and `": "`: the timestamp if the member is a leaf (internal/tson/serialization.go:232-244). -/
def anyKeyTs : Js → Bytes
  | .obj m => match checkLeaf m with
    | some (_, ts) => 32 :: fmtTs ts
    | none => []
  | _ => []

mutual
/-- `marshalIndentValue` on plain Go data (internal/tson/serialization.go:186-286 and the default case 414-415, which an
integer outside a leaf runs into).  The members of a map come in the order of the list; Go's order is random. -/
def anyIndent (P : Nat → Bool) (cur ind : Bytes) (ctx : Ctx) : Js → Res Bytes
  | .null => .ok b!"null"
  | .bool b => .ok (if b then b!"true" else b!"false")
  | .num f => .ok (fmtWhole f)
  | .int _ => .err
  | .str s => .ok (quote P s)
  | .obj m => match checkLeaf m with
    | some (v, ts) => (formatPrimitive P v).map fun s => leafInCtx ctx s ts
    | none => (anyMembers P cur ind true m).map fun s => b!"{\n" ++ s ++ 10 :: cur ++ b!"}"
  | .arr l => (anyElems P cur ind true l).map fun s => b!"[\n" ++ s ++ 10 :: cur ++ b!"]"
/-- The loop over a map (internal/tson/serialization.go:226-251). -/
def anyMembers (P : Nat → Bool) (cur ind : Bytes) (first : Bool) : List (Bytes × Js) → Res Bytes
  | [] => .ok []
  | (k, v) :: m =>
    (anyIndent P (cur ++ ind) ind .object v).bind fun s => (anyMembers P cur ind false m).map fun r =>
      (if first then [] else b!",\n") ++ cur ++ ind ++ quote P k ++ anyKeyTs v ++ b!": " ++ s ++ r
/-- The loop over a slice (internal/tson/serialization.go:259-284). -/
def anyElems (P : Nat → Bool) (cur ind : Bytes) (first : Bool) : List Js → Res Bytes
  | [] => .ok []
  | v :: l =>
    (anyIndent P (cur ++ ind) ind .array v).bind fun s => (anyElems P cur ind false l).map fun r =>
      (if first then [] else b!",\n") ++ cur ++ ind ++ s ++ r
end

/-- The `%s` of `Save` (internal/vssgen/vss.go:396-398): a string as it is, without escaping; nil becomes `%!s(<nil>)`.
Simplification: for values of other types the model has no text of its own; they do not occur, because
`json.Marshal` writes the operation type and the path as strings. -/
def fmtS : Option Js → Bytes
  | some (.str s) => s
  | _ => b!"%!s(<nil>)"

/-- The `%#v` of `Save` (internal/vssgen/vss.go:396-398): the Go syntax of the value.  Simplification: maps and slices,
which do not occur as values of generated patches, are treated as nil. -/
def fmtGo (P : Nat → Bool) : Option Js → Bytes
  | some (.str s) => quote P s
  | some (.num f) => fmtFloat f
  | some (.int n) => itoa n
  | some (.bool b) => if b then b!"true" else b!"false"
  | _ => b!"<nil>"

/-- One line of a saved patch (internal/vssgen/vss.go:393-399). -/
def saveItem (P : Nat → Bool) : Js → Res Bytes
  | .obj d => match mget d b!"timestamp" with
    | some (.num f) => .ok (b!"    { \"op\": \"" ++ fmtS (mget d b!"op") ++ b!"\", \"path\": \"" ++ fmtS (mget d b!"path") ++
        b!"\", \"value\": " ++ fmtGo P (mget d b!"value") ++ b!", \"timestamp\": " ++ itoa f.toInt64 ++ b!" }")
    | _ => .panic
  | _ => .panic

/-- The lines of a saved patch, joined (internal/vssgen/vss.go:391-403). -/
def saveItems (P : Nat → Bool) : List Js → Res Bytes
  | [] => .ok []
  | [i] => saveItem P i
  | i :: is => (saveItem P i).bind fun s => (saveItems P is).map fun r => s ++ b!",\n" ++ r

/-- The content of the file that `Save` writes (internal/vssgen/vss.go:379-410).  If `MarshalIndent` fails, a message is
printed and the file is empty.  Not modelled: the file system. -/
def vssSave (P : Nat → Bool) : Js → Res Bytes
  | .obj m => match anyIndent P [] b!"    " .top (.obj m) with
    | .ok s => .ok s
    | .err => .ok []
    | .panic => .panic
  | .arr l => (saveItems P l).map fun s => b!"[\n" ++ s ++ b!"\n]"
  | _ => .panic

example : vssSave (fun _ => true) (.obj [(b!"V", .obj [(b!"value", .int 7), (b!"timestamp", .int 5)])]) =
    .ok b!"{\n    \"V\" <5>: 7\n}" := by rfl

end Verif
