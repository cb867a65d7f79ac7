import Verif.Tson
import Verif.FloatText
import Verif.Quote
/-
The text format of TSON documents: `Marshal`, `MarshalIndent` and `Unmarshal`
(internal/tson/serialization.go).
-/
namespace Verif

/-! ### Printing -/

/-- The context of a printed value (internal/tson/serialization.go:30-34). -/
inductive Ctx where
  | top
  | object
  | array
deriving DecidableEq, Repr

/-- A primitive value: `%q` on strings, `%v` on numbers and booleans
(internal/tson/serialization.go:55-98, 305-317, 371-412). -/
def fmtPrim (P : Nat → Bool) : Prim → Bytes
  | .str s => quote P s
  | .num f => fmtFloat f
  | .bool b => if b then b!"true" else b!"false"

/-- The timestamp in angle brackets, empty if negative (`<%d>` or `<>`,
internal/tson/serialization.go:58-69, 118-136, 301-304). -/
def fmtTs (ts : Int) : Bytes := 60 :: ((if 0 ≤ ts then itoa ts else []) ++ [62])

/-- A leaf in its context (internal/tson/serialization.go:55-98 and 371-412). -/
def fmtLeaf (P : Nat → Bool) (ctx : Ctx) (p : Prim) (ts : Int) : Bytes :=
  match ctx with
  | .array => fmtTs ts ++ 32 :: fmtPrim P p
  | .object => fmtPrim P p
  | .top => fmtPrim P p ++ 32 :: fmtTs ts

/-- What stands between a key and `": "`: the timestamp of a leaf
(internal/tson/serialization.go:118-137). -/
def keyTs : Tson → Bytes
  | .leaf _ ts => 32 :: fmtTs ts
  | _ => []

mutual
/-- `marshalTson` (internal/tson/serialization.go:49-102). -/
def marshalTson (P : Nat → Bool) (ctx : Ctx) : Tson → Res Bytes
  | .null => .err
  | .leaf p ts => .ok (fmtLeaf P ctx p ts)
  | .obj m => (marshalMembers P true m).map fun s => 123 :: (s ++ [125])
  | .arr l => (marshalElems P true l).map fun s => 91 :: (s ++ [93])
/-- The loop of `marshalObject` (internal/tson/serialization.go:105-147); the flag is `first`. -/
def marshalMembers (P : Nat → Bool) (first : Bool) : List (Bytes × Tson) → Res Bytes
  | [] => .ok []
  | (k, v) :: m =>
    (marshalTson P .object v).bind fun s => (marshalMembers P false m).map fun r =>
      (if first then [] else b!", ") ++ quote P k ++ keyTs v ++ b!": " ++ s ++ r
/-- The loop of `marshalArray` (internal/tson/serialization.go:150-170). -/
def marshalElems (P : Nat → Bool) (first : Bool) : List Tson → Res Bytes
  | [] => .ok []
  | v :: l =>
    (marshalTson P .array v).bind fun s => (marshalElems P false l).map fun r =>
      (if first then [] else b!", ") ++ s ++ r
end

/-- `tson.Marshal` (internal/tson/serialization.go:37-43). -/
def marshal (P : Nat → Bool) (t : Tson) : Res Bytes := marshalTson P .top t

mutual
/-- `marshalIndentValue` on a TSON value (internal/tson/serialization.go:186-417), the cases `nil`, `Object`,
`Array` and `Leaf[T]`; it returns no error on these. -/
def marshalIndentValue (P : Nat → Bool) (cur ind : Bytes) (ctx : Ctx) : Tson → Bytes
  | .null => b!"null"
  | .leaf p ts => fmtLeaf P ctx p ts
  | .obj m => b!"{\n" ++ indentMembers P cur ind true m ++ 10 :: cur ++ b!"}"
  | .arr l => b!"[\n" ++ indentElems P cur ind true l ++ 10 :: cur ++ b!"]"
/-- The loop over an `Object` (internal/tson/serialization.go:288-327). -/
def indentMembers (P : Nat → Bool) (cur ind : Bytes) (first : Bool) : List (Bytes × Tson) → Bytes
  | [] => []
  | (k, v) :: m =>
    (if first then [] else b!",\n") ++ cur ++ ind ++ quote P k ++ keyTs v ++ b!": " ++
      marshalIndentValue P (cur ++ ind) ind .object v ++ indentMembers P cur ind false m
/-- The loop over an `Array` (internal/tson/serialization.go:329-369). -/
def indentElems (P : Nat → Bool) (cur ind : Bytes) (first : Bool) : List Tson → Bytes
  | [] => []
  | v :: l =>
    (if first then [] else b!",\n") ++ cur ++ ind ++ marshalIndentValue P (cur ++ ind) ind .array v ++
      indentElems P cur ind false l
end

/-- `tson.MarshalIndent` on a TSON document (internal/tson/serialization.go:174-180).
Go values that are not TSON documents (`map[string]any` and the like) are in `VssSave`. -/
def marshalIndent (P : Nat → Bool) (t : Tson) (pre ind : Bytes) : Bytes := marshalIndentValue P pre ind .top t

/-! ### Parsing

The parser state (`input`, `pos`; internal/tson/serialization.go:436-439) is the rest `input[pos:]` of the input. -/

/-- Result of a parsing function: a value with the rest of the input, a non-nil error, a panic; `more` is not an
outcome of the code but says that the bound on the recursion depth was too small (excluded by theorem).
[results of internal/tson/serialization.go:511-788] -/
inductive PRes (α : Type) where
  | ok (a : α) (rest : Bytes)
  | err
  | panic
  | more
deriving DecidableEq, Repr

/-- White space (internal/tson/serialization.go:478-486). -/
def isWs (c : UInt8) : Bool := c == 32 || c == 9 || c == 10 || c == 13

/-- `skipWhitespace` (internal/tson/serialization.go:478-486). -/
def skipWs : Bytes → Bytes
  | [] => []
  | c :: r => if isWs c then skipWs r else c :: r

/-- `expect` (internal/tson/serialization.go:501-508); `none` is the error.  It is only called with non-zero bytes,
so the end of the input (`peek() == 0`) is an error. -/
def expect (ch : UInt8) (s : Bytes) : Option Bytes :=
  match skipWs s with
  | [] => none
  | c :: r => if c = ch then some r else none

/-- The escape sequences understood by `parseString` (internal/tson/serialization.go:625-640). -/
def unescape (c : UInt8) : Option UInt8 :=
  if c = 34 ∨ c = 92 ∨ c = 47 ∨ c = 39 then some c
  else if c = 98 then some 8
  else if c = 102 then some 12
  else if c = 110 then some 10
  else if c = 114 then some 13
  else if c = 116 then some 9
  else none

/-- The loop of `parseString` (internal/tson/serialization.go:617-647). -/
def stringBody : Bytes → Option (Bytes × Bytes)
  | [] => none
  | 92 :: [] => none
  | 92 :: e :: r =>
    match unescape e with
    | none => none
    | some c =>
      match stringBody r with
      | none => none
      | some (s, rest) => some (c :: s, rest)
  | c :: r =>
    if c = 34 then some ([], r)
    else match stringBody r with
      | none => none
      | some (s, rest) => some (c :: s, rest)

/-- `parseString` (internal/tson/serialization.go:613-648). -/
def parseString (s : Bytes) : Option (Bytes × Bytes) :=
  match expect 34 s with
  | none => none
  | some r => stringBody r

/-- The optional decimal point and the digits after it (internal/tson/serialization.go:659-664). -/
def fraction : Bytes → Bytes × Bytes
  | 46 :: r => spanDigits r
  | s => ([], s)

/-- `parseNumber` (internal/tson/serialization.go:651-667). -/
def parseNumber (s : Bytes) : Option (F64 × Bytes) :=
  let neg := s.head? == some 45
  let s := if neg then s.tail else s
  let int := spanDigits s
  let frac := fraction int.2
  match parseFloat neg int.1 frac.1 with
  | none => none
  | some f => some (f, frac.2)

/-- First bytes of a number (internal/tson/serialization.go:539, 605). -/
def isNumStart (c : UInt8) : Bool := c == 45 || isDigit c

/-- `parsePrimitive` (internal/tson/serialization.go:600-610). -/
def parsePrim (s : Bytes) : Option (Prim × Bytes) :=
  match skipWs s with
  | [] => none
  | c :: r =>
    if c = 34 then
      match parseString (c :: r) with
      | none => none
      | some (x, rest) => some (.str x, rest)
    else if isNumStart c then
      match parseNumber (c :: r) with
      | none => none
      | some (f, rest) => some (.num f, rest)
    else none

/-- `parseTimestamp` (internal/tson/serialization.go:671-696); `<>` gives -1, numbers above the largest `int64` are
an error of `strconv.ParseInt`. -/
def parseTs (s : Bytes) : Option (Int × Bytes) :=
  match expect 60 s with
  | none => none
  | some r =>
    match r with
    | 62 :: rest => some (-1, rest)
    | r =>
      let ds := spanDigits r
      if ds.1 = [] then none
      else if digitsVal 0 ds.1 > 9223372036854775807 then none
      else match expect 62 ds.2 with
        | none => none
        | some rest => some (digitsVal 0 ds.1, rest)

/-- An optional timestamp after a primitive value (internal/tson/serialization.go:544-552, 557-565, 568-576). -/
def suffixTs (p : Prim) (s : Bytes) : PRes Tson :=
  match skipWs s with
  | 60 :: r =>
    match parseTs (60 :: r) with
    | none => .err
    | some (ts, rest) => .ok (.leaf p ts) rest
  | s => .ok (.leaf p defaultTimestamp) s

/-- An optional timestamp after a key or in front of an array element; 0 if there is none
(internal/tson/serialization.go:718-725, 762-770). -/
def prefixTs (s : Bytes) : Option (Int × Bytes) :=
  match skipWs s with
  | 60 :: r => parseTs (60 :: r)
  | s => some (0, s)

/-- `wrapIfPrimitive` on a parsed value (internal/tson/serialization.go:450-476); `none` is the panic of the type
assertion `v.(Value)` on nil. -/
def rewrap (v : Tson) (ts : Int) : Option Tson :=
  match v with
  | .leaf p old => some (.leaf p (if 0 ≤ ts then ts else old))
  | .null => none
  | v => some v

/-- `true`, `false` or `null` at the beginning of the input (internal/tson/serialization.go:555-583). -/
def parseWord (s : Bytes) : PRes Tson :=
  if hasPrefix s b!"true" then suffixTs (.bool true) (s.drop 4)
  else if hasPrefix s b!"false" then suffixTs (.bool false) (s.drop 5)
  else if hasPrefix s b!"null" then .ok .null (s.drop 4)
  else .err

/-- The body of `parseVal` (internal/tson/serialization.go:517-584) with the heads of `parseObject` (700-708) and
`parseArray` (751-759); `pm` and `pe` are the loops of `parseObject` and `parseArray`. -/
def valStep (pm : List (Bytes × Tson) → Bytes → PRes Tson) (pe : List Tson → Bytes → PRes Tson) (s : Bytes) :
    PRes Tson :=
  match skipWs s with
  | [] => .err
  | c :: r =>
    if c = 60 then
      match parseTs (c :: r) with
      | none => .err
      | some (ts, r) =>
        match parsePrim (skipWs r) with
        | none => .err
        | some (p, rest) => .ok (.leaf p ts) rest
    else if c = 123 then
      match skipWs r with
      | 125 :: rest => .ok (.obj []) rest
      | r => pm [] r
    else if c = 91 then
      match skipWs r with
      | 93 :: rest => .ok (.arr []) rest
      | r => pe [] r
    else if c = 34 ∨ isNumStart c = true then
      match parsePrim (c :: r) with
      | none => .err
      | some (p, rest) => suffixTs p rest
    else parseWord (c :: r)

/-- The text after a member or an element: the next one, the end of the container, or an error
(internal/tson/serialization.go:735-744, 776-785). -/
def afterItem (close : UInt8) (next : Bytes → PRes Tson) (done : Tson) (s : Bytes) : PRes Tson :=
  match skipWs s with
  | [] => .err
  | c :: r => if c = 44 then next r else if c = close then .ok done r else .err

/-- One round of the loop of `parseObject` (internal/tson/serialization.go:709-745); `m` is the map `obj`, `pv` is
`parseVal` and `pm` the rest of the loop. -/
def memStep (pv : Bytes → PRes Tson) (pm : List (Bytes × Tson) → Bytes → PRes Tson) (m : List (Bytes × Tson))
    (s : Bytes) : PRes Tson :=
  match parseString (skipWs s) with
  | none => .err
  | some (key, r) =>
    match prefixTs r with
    | none => .err
    | some (ts, r) =>
      match expect 58 r with
      | none => .err
      | some r =>
        match pv (skipWs r) with
        | .more => .more
        | .err => .err
        | .panic => .panic
        | .ok v r =>
          match rewrap v ts with
          | none => .panic
          | some v => afterItem 125 (pm (mset m key v)) (.obj (mset m key v)) r

/-- One round of the loop of `parseArray` (internal/tson/serialization.go:760-786); `l` is the slice `arr`. -/
def elemStep (pv : Bytes → PRes Tson) (pe : List Tson → Bytes → PRes Tson) (l : List Tson) (s : Bytes) : PRes Tson :=
  match prefixTs s with
  | none => .err
  | some (ts, r) =>
    match pv r with
    | .more => .more
    | .err => .err
    | .panic => .panic
    | .ok v r =>
      match rewrap v ts with
      | none => .panic
      | some v => afterItem 93 (pe (l ++ [v])) (.arr (l ++ [v])) r

mutual
/-- `parseVal` (internal/tson/serialization.go:517-584); the first argument bounds the recursion depth. -/
def parseVal : Nat → Bytes → PRes Tson
  | 0 => fun _ => .more
  | n + 1 => valStep (parseMembers n) (parseElems n)
/-- The loop of `parseObject` (internal/tson/serialization.go:709-745). -/
def parseMembers : Nat → List (Bytes × Tson) → Bytes → PRes Tson
  | 0 => fun _ _ => .more
  | n + 1 => memStep (parseVal n) (parseMembers n)
/-- The loop of `parseArray` (internal/tson/serialization.go:760-786). -/
def parseElems : Nat → List Tson → Bytes → PRes Tson
  | 0 => fun _ _ => .more
  | n + 1 => elemStep (parseVal n) (parseElems n)
end

/-- `tson.Unmarshal` (internal/tson/serialization.go:443-447): the document, or the error, or a panic.  What follows
the first value is ignored.  The bound on the recursion depth is never reached (`C35_fuel`). -/
def unmarshal (s : Bytes) : Res Tson :=
  match parseVal (2 * s.length + 1) (skipWs s) with
  | .ok v _ => .ok v
  | .err => .err
  | .panic => .panic
  | .more => .err

example : unmarshal b!"{\"a\" <5>: true, \"b\": [<7> \"x\", 1.5 , {}], \"a\" <> : false}" =
    .ok (.obj [(b!"a", .leaf (.bool false) (-1)),
      (b!"b", .arr [.leaf (.str b!"x") 7, .leaf (.num ((F64.ofRatio false 3 2).getD .nan)) 0, .obj []])]) := by
  decide +kernel
example : unmarshal b!"[1, 2" = .err := by decide +kernel
example : unmarshal b!"[null]" = .panic := by decide +kernel
example : marshal (fun _ => true)
    (.obj [(b!"a", .leaf (.bool false) (-1)), (b!"b", .arr [.leaf (.str b!"x") 7, .obj []])]) =
    .ok b!"{\"a\" <>: false, \"b\": [<7> \"x\", {}]}" := by decide +kernel
example : marshalIndent (fun _ => true)
    (.obj [(b!"a", .leaf (.bool false) (-1)), (b!"b", .arr [.leaf (.str b!"x") 7, .obj []])]) [] b!"  " =
    b!"{\n  \"a\" <>: false,\n  \"b\": [\n    <7> \"x\",\n    {\n\n    }\n  ]\n}" := by decide +kernel

end Verif
