import Verif.Tson
import Verif.Quote
/-
Conversions between TSON documents and JSON, and the equality functions (internal/tson/tson.go:110-146, 183-534).

A JSON text is modelled by its syntax tree: the trees below, with the members of an object in the order of the text.
The step between the tree and the bytes is the business of `encoding/json` and not modelled; bytes that are not a
JSON text are the error of `json.Unmarshal`.  What `encoding/json` does to values is modelled: object keys are sorted
when written, invalid UTF-8 is replaced, NaN and infinities are refused, numbers are read as `float64`, the last of
several equal keys wins, and nesting deeper than 10000 is refused.
-/
namespace Verif

/-- A JSON text, or a Go value of type `any` made of `map[string]any`, `[]any`, `string`, `float64`, `int64`, `bool` and
nil. [`any` at internal/tson/tson.go:217, 275, 328] -/
inductive Js where
  | null
  | bool (b : Bool)
  | num (f : F64)
  | int (n : Int)
  | str (s : Bytes)
  | obj (m : List (Bytes × Js))
  | arr (l : List Js)
deriving Repr

instance : Inhabited Js := ⟨.null⟩

/-! ### `encoding/json` -/

/-- The string written by `json.Marshal` (used at internal/tson/tson.go:211, 364, 378, 488) and read back: every byte
that is not part of valid UTF-8 is replaced by U+FFFD.  The first argument bounds the recursion depth. -/
def sanitizeN : Nat → Bytes → Bytes
  | 0, _ => []
  | _ + 1, [] => []
  | n + 1, c :: s =>
    if c < 0x80 then c :: sanitizeN n s
    else
      match runeAt (c :: s) with
      | some (_, w) => (c :: s).take w ++ sanitizeN n ((c :: s).drop w)
      | none => 0xEF :: 0xBF :: 0xBD :: sanitizeN n s

/-- The string written by `json.Marshal` and read back (internal/tson/tson.go:211, 364, 378, 488). -/
def sanitize (s : Bytes) : Bytes := sanitizeN s.length s

/-- Order of Go strings: `a <= b` (`sort.Strings`, internal/tson/tson.go:507, and the key order of `json.Marshal`). -/
def bytesLe : Bytes → Bytes → Bool
  | [], _ => true
  | _ :: _, [] => false
  | a :: s, b :: t => if a < b then true else if b < a then false else bytesLe s t

/-- Insert a member into a list sorted by key. [part of `sort.Strings`, internal/tson/tson.go:507] -/
def insertM (p : Bytes × α) : List (Bytes × α) → List (Bytes × α)
  | [] => [p]
  | q :: m => if bytesLe p.1 q.1 then p :: q :: m else q :: insertM p m

/-- The members sorted by key (`json.Marshal` on maps; internal/tson/tson.go:507). -/
def sortM : List (Bytes × α) → List (Bytes × α)
  | [] => []
  | p :: m => insertM p (sortM m)

/-- `json.Marshal` on a primitive leaf value (internal/tson/tson.go:45, 211); NaN and infinities are an error. -/
def encPrim : Prim → Res Js
  | .str s => .ok (.str (sanitize s))
  | .bool b => .ok (.bool b)
  | .num f =>
    match f with
    | .fin _ _ _ _ => .ok (.num f)
    | _ => .err

/-- A key as written (internal/tson/tson.go:211). -/
def encKey (p : Bytes × Js) : Bytes × Js := (sanitize p.1, p.2)

mutual
/-- `ToCompatibleTsonBytes`, that is `json.Marshal` on a TSON document (internal/tson/tson.go:210-212; field names of
`Leaf` at 44-47). -/
def encTson : Tson → Res Js
  | .null => .ok .null
  | .leaf p ts => (encPrim p).map fun v => .obj [(b!"value", v), (b!"timestamp", .int ts)]
  | .obj m => (encTsonF m).map fun l => .obj ((sortM l).map encKey)
  | .arr l => (encTsonL l).map .arr
/-- The members. [internal/tson/tson.go:210-212] -/
def encTsonF : List (Bytes × Tson) → Res (List (Bytes × Js))
  | [] => .ok []
  | (k, v) :: m => (encTson v).bind fun j => (encTsonF m).map fun r => (k, j) :: r
/-- The elements. [internal/tson/tson.go:210-212] -/
def encTsonL : List Tson → Res (List Js)
  | [] => .ok []
  | v :: l => (encTson v).bind fun j => (encTsonL l).map fun r => j :: r
end

mutual
/-- `json.Marshal` on a value of type `any` (internal/tson/tson.go:364, 378, 488). -/
def encAny : Js → Res Js
  | .null => .ok .null
  | .bool b => .ok (.bool b)
  | .num f =>
    match f with
    | .fin _ _ _ _ => .ok (.num f)
    | _ => .err
  | .int n => .ok (.int n)
  | .str s => .ok (.str (sanitize s))
  | .obj m => (encAnyF m).map fun l => .obj ((sortM l).map encKey)
  | .arr l => (encAnyL l).map .arr
/-- The members. [internal/tson/tson.go:364, 378, 488] -/
def encAnyF : List (Bytes × Js) → Res (List (Bytes × Js))
  | [] => .ok []
  | (k, v) :: m => (encAny v).bind fun j => (encAnyF m).map fun r => (k, j) :: r
/-- The elements. [internal/tson/tson.go:364, 378, 488] -/
def encAnyL : List Js → Res (List Js)
  | [] => .ok []
  | v :: l => (encAny v).bind fun j => (encAnyL l).map fun r => j :: r
end

mutual
/-- Nesting depth of a JSON text. [limit of `json.Unmarshal`, internal/tson/tson.go:119, 250, 266, 385] -/
def Js.depth : Js → Nat
  | .obj m => 1 + Js.depthF m
  | .arr l => 1 + Js.depthL l
  | _ => 0
/-- Greatest depth of the members. [limit of `json.Unmarshal`, internal/tson/tson.go:119, 250, 266, 385] -/
def Js.depthF : List (Bytes × Js) → Nat
  | [] => 0
  | (_, v) :: m => max (Js.depth v) (Js.depthF m)
/-- Greatest depth of the elements. [limit of `json.Unmarshal`, internal/tson/tson.go:119, 250, 266, 385] -/
def Js.depthL : List Js → Nat
  | [] => 0
  | v :: l => max (Js.depth v) (Js.depthL l)
end

/-- A map filled from a list of members: the last of several equal keys wins.
[internal/tson/tson.go:119, 250, 266, 385] -/
def fillMap (m : List (Bytes × Js)) : List (Bytes × Js) := m.foldl (fun acc p => mset acc p.1 p.2) []

mutual
/-- The Go value read from a JSON text: numbers become `float64`. [internal/tson/tson.go:119, 250, 266, 385] -/
def decAny : Js → Js
  | .int n => .num (.ofInt n)
  | .obj m => .obj (fillMap (decAnyF m))
  | .arr l => .arr (decAnyL l)
  | j => j
/-- The members. [internal/tson/tson.go:119, 250, 266, 385] -/
def decAnyF : List (Bytes × Js) → List (Bytes × Js)
  | [] => []
  | (k, v) :: m => (k, decAny v) :: decAnyF m
/-- The elements. [internal/tson/tson.go:119, 250, 266, 385] -/
def decAnyL : List Js → List Js
  | [] => []
  | v :: l => decAny v :: decAnyL l
end

/-- `json.Unmarshal` into a variable of type `any` (internal/tson/tson.go:119, 122, 137, 140, 250, 266, 385); nesting
deeper than 10000 is an error. -/
def unmarshalAny (j : Js) : Res Js := if j.depth ≤ 10000 then .ok (decAny j) else .err

/-! ### Conversions -/

/-- `checkLeaf` (internal/tson/tson.go:463-479): value and timestamp. -/
def checkLeaf (m : List (Bytes × Js)) : Option (Js × Int) :=
  if m.length = 2 then
    match mget m b!"value", mget m b!"timestamp" with
    | some v, some (.num f) => some (v, f.toInt64)
    | some v, some (.int n) => some (v, n)
    | _, _ => none
  else none

/-- The leaf of a value and a timestamp; values of other types give nil (internal/tson/tson.go:221-232). -/
def mkLeaf (v : Js) (ts : Int) : Tson :=
  match v with
  | .str s => .leaf (.str s) ts
  | .num f => .leaf (.num f) ts
  | .bool b => .leaf (.bool b) ts
  | _ => .null

mutual
/-- The closure `convert` of `FromCompatibleTsonBytes` (internal/tson/tson.go:217-246). -/
def convert : Js → Res Tson
  | .obj m =>
    match checkLeaf m with
    | some (v, ts) => .ok (mkLeaf v ts)
    | none => (convertF m).map .obj
  | .arr l => (convertL l).map .arr
  | _ => .panic
/-- The members. [internal/tson/tson.go:233-237] -/
def convertF : List (Bytes × Js) → Res (List (Bytes × Tson))
  | [] => .ok []
  | (k, v) :: m => (convert v).bind fun t => (convertF m).map fun r => (k, t) :: r
/-- The elements. [internal/tson/tson.go:238-243] -/
def convertL : List Js → Res (List Tson)
  | [] => .ok []
  | v :: l => (convert v).bind fun t => (convertL l).map fun r => t :: r
end

/-- `FromCompatibleTsonBytes` on a JSON text (internal/tson/tson.go:216-255). -/
def fromCompatible (j : Js) : Res Tson := (unmarshalAny j).bind convert

/-- `ToCompatibleTson` (internal/tson/tson.go:259-271). -/
def toCompatible (t : Tson) : Res Js := (encTson t).bind unmarshalAny

mutual
/-- One entry of the loops of `removeTimestamp` (internal/tson/tson.go:279-295, 300-315): a leaf is replaced by its
value, everything else is treated recursively.  The cases `Leaf[T]` cannot occur in a decoded JSON text. -/
def stripEntry : Js → Js
  | .obj m =>
    match checkLeaf m with
    | some (v, _) => v
    | none => .obj (stripF m)
  | .arr l => .arr (stripL l)
  | j => j
/-- The loop over a map (internal/tson/tson.go:278-297). -/
def stripF : List (Bytes × Js) → List (Bytes × Js)
  | [] => []
  | (k, v) :: m => (k, stripEntry v) :: stripF m
/-- The loop over a slice (internal/tson/tson.go:298-316). -/
def stripL : List Js → List Js
  | [] => []
  | v :: l => stripEntry v :: stripL l
end

/-- `removeTimestamp` (internal/tson/tson.go:275-318); the root is not tested for being a leaf. -/
def removeTimestamp : Js → Js
  | .obj m => .obj (stripF m)
  | .arr l => .arr (stripL l)
  | j => j

/-- `ToJson` with a fresh variable `j` (internal/tson/tson.go:275-324): the error of `ToCompatibleTson` is ignored and
leaves nil in the variable. -/
def toJson (t : Tson) : Js :=
  match toCompatible t with
  | .ok o => removeTimestamp o
  | _ => .null

/-- `ToJsonBytes` (internal/tson/tson.go:372-379). -/
def toJsonBytes (t : Tson) : Res Js := encAny (toJson t)

/-- A `Leaf[T]` with the default timestamp as seen by `json.Marshal` (internal/tson/tson.go:44-47, 336-340). -/
def leafAny (v : Js) : Js := .obj [(b!"value", v), (b!"timestamp", .int defaultTimestamp)]

mutual
/-- One entry of the loops of `addTimestamp` (internal/tson/tson.go:333-344, 346-357). -/
def stampEntry : Js → Js
  | .str s => leafAny (.str s)
  | .num f => leafAny (.num f)
  | .bool b => leafAny (.bool b)
  | .obj m => .obj (stampAnyF m)
  | .arr l => .arr (stampAnyL l)
  | j => j
/-- The loop over a map (internal/tson/tson.go:332-344). -/
def stampAnyF : List (Bytes × Js) → List (Bytes × Js)
  | [] => []
  | (k, v) :: m => (k, stampEntry v) :: stampAnyF m
/-- The loop over a slice (internal/tson/tson.go:345-357). -/
def stampAnyL : List Js → List Js
  | [] => []
  | v :: l => stampEntry v :: stampAnyL l
end

/-- `addTimestamp` (internal/tson/tson.go:329-361); the root is not changed if it is a primitive value.
Simplification: the code changes the caller's maps and slices in place; the model returns the changed value. -/
def addTimestamp : Js → Js
  | .obj m => .obj (stampAnyF m)
  | .arr l => .arr (stampAnyL l)
  | j => j

/-- `FromJson` (internal/tson/tson.go:328-368): the error of `json.Marshal` is ignored, but then the text is empty and
`FromCompatibleTsonBytes` returns an error. -/
def fromJson (o : Js) : Res Tson :=
  match encAny (addTimestamp o) with
  | .ok j => fromCompatible j
  | _ => .err

/-- `FromJsonBytes` (internal/tson/tson.go:383-390). -/
def fromJsonBytes (j : Js) : Res Tson := (unmarshalAny j).bind fromJson

/-- `ToArray` (internal/tson/tson.go:186-201). -/
def toArray : List Tson → Res (List Prim)
  | [] => .ok []
  | .leaf p _ :: l => (toArray l).map fun r => p :: r
  | _ :: _ => .err

mutual
/-- `toSortedInterface` (internal/tson/tson.go:492-534).  The result is a Go map, so only the texts made from it show
an order. -/
def toSortedInterface : Tson → Res Js
  | .null => .err
  | .leaf p ts =>
    .ok (.obj [(b!"value", match p with | .str s => .str s | .num f => .num f | .bool b => .bool b),
      (b!"timestamp", .int ts)])
  | .obj m => (toSortedF m).map fun l => .obj (sortM l)
  | .arr l => (toSortedL l).map .arr
/-- The members.  Simplification: the loop of the code goes through the keys in sorted order; the members are sorted
afterwards here.  An error of any member is the error of the loop. [internal/tson/tson.go:501-518] -/
def toSortedF : List (Bytes × Tson) → Res (List (Bytes × Js))
  | [] => .ok []
  | (k, v) :: m => (toSortedInterface v).bind fun j => (toSortedF m).map fun r => (k, j) :: r
/-- The elements. [internal/tson/tson.go:520-529] -/
def toSortedL : List Tson → Res (List Js)
  | [] => .ok []
  | v :: l => (toSortedInterface v).bind fun j => (toSortedL l).map fun r => j :: r
end

/-- `ToCompatibleTsonBytesSorted` (internal/tson/tson.go:483-489). -/
def toCompatibleSorted (t : Tson) : Res Js := (toSortedInterface t).bind encAny

/-! ### Equality -/

mutual
/-- `reflect.DeepEqual` on decoded JSON (internal/tson/tson.go:125, 144): maps with the same keys and equal values,
slices elementwise, `==` on the rest. -/
def jsEq : Js → Js → Bool
  | .null, .null => true
  | .bool a, .bool b => a == b
  | .num f, .num g => F64.feq f g
  | .int a, .int b => a == b
  | .str a, .str b => a == b
  | .obj m, .obj n => decide (m.length = n.length) && jsEqF m n
  | .arr l, .arr k => jsEqL l k
  | _, _ => false
/-- Every member has an equal partner. [internal/tson/tson.go:125, 144] -/
def jsEqF : List (Bytes × Js) → List (Bytes × Js) → Bool
  | [], _ => true
  | (k, v) :: m, n =>
    (match mget n k with
    | some w => jsEq v w
    | none => false) && jsEqF m n
/-- The elements are equal. [internal/tson/tson.go:125, 144] -/
def jsEqL : List Js → List Js → Bool
  | [], [] => true
  | v :: l, w :: k => jsEq v w && jsEqL l k
  | _, _ => false
end

/-- `Equal` (internal/tson/tson.go:111-126): errors of `ToCompatibleTsonBytes` are ignored, but then the text is empty
and `json.Unmarshal` returns an error. -/
def equal (a b : Tson) : Res Bool :=
  match toCompatible a with
  | .ok o1 =>
    match toCompatible b with
    | .ok o2 => .ok (jsEq o1 o2)
    | _ => .err
  | _ => .err

/-- `EqualWithoutTimestamp` (internal/tson/tson.go:129-145). -/
def equalWithoutTimestamp (a b : Tson) : Res Bool :=
  match (toJsonBytes a).bind unmarshalAny with
  | .ok o1 =>
    match (toJsonBytes b).bind unmarshalAny with
    | .ok o2 => .ok (jsEq o1 o2)
    | _ => .err
  | _ => .err

/-! ### The unexported parser of decoded JSON (not called by the rest of the package) -/

/-- `parseLeaf` on the value and timestamp of a leaf (internal/tson/tson.go:441-460); `int64(raw["timestamp"].(float64))`
panics for other types. -/
def parseLeafValue (m : List (Bytes × Js)) : Res Tson :=
  match mget m b!"timestamp" with
  | some (.num f) =>
    match mget m b!"value" with
    | some (.str s) => .ok (.leaf (.str s) f.toInt64)
    | some (.num g) => .ok (.leaf (.num g) f.toInt64)
    | some (.bool b) => .ok (.leaf (.bool b) f.toInt64)
    | _ => .err
  | _ => .panic

mutual
/-- `parseValue` (internal/tson/tson.go:397-412). -/
def parseValueAny : Js → Res Tson
  | .null => .ok .null
  | .obj m =>
    match checkLeaf m with
    | some _ => parseLeafValue m
    | none => (parseObjectAny m).map .obj
  | .arr l => (parseArrayAny l).map .arr
  | _ => .err
/-- `parseObject` (internal/tson/tson.go:415-425). -/
def parseObjectAny : List (Bytes × Js) → Res (List (Bytes × Tson))
  | [] => .ok []
  | (k, v) :: m => (parseValueAny v).bind fun t => (parseObjectAny m).map fun r => (k, t) :: r
/-- `parseArray` (internal/tson/tson.go:428-438). -/
def parseArrayAny : List Js → Res (List Tson)
  | [] => .ok []
  | v :: l => (parseValueAny v).bind fun t => (parseArrayAny l).map fun r => t :: r
end

example : fromCompatible (.obj [(b!"a", .obj [(b!"timestamp", .int 5), (b!"value", .bool true)])]) =
    .ok (.obj [(b!"a", .leaf (.bool true) 5)]) := by decide +kernel
example : equal (.obj [(b!"a", .leaf (.bool true) 1), (b!"b", .arr [])])
    (.obj [(b!"b", .arr []), (b!"a", .leaf (.bool true) 1)]) = .ok true := by decide +kernel
example : sanitize [0x61, 0xFF, 0xC3, 0xA9] = [0x61, 0xEF, 0xBF, 0xBD, 0xC3, 0xA9] := by decide +kernel

end Verif
