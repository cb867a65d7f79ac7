import Verif.Json
import Verif.Codec
/-
JSON texts as bytes: what `json.Marshal` writes and what `json.Unmarshal` accepts (package `encoding/json`, as used at
internal/tson/tson.go:119, 211, 250, 266, 364, 378, 385, 488 and internal/tsonpatch/tsonpatch.go:61, 70, 93, 108).

The rest of the model works on syntax trees (`Verif.Json`); the theorems of `Verif.PropsText` show that going through
the bytes gives the same results.
-/
namespace Verif

/-! ### Writing -/

/-- `appendString` of `encoding/json` on a one-byte character (HTML characters are escaped).
[part of `json.Marshal`, internal/tson/tson.go:211] -/
def jsonByte (c : UInt8) : Bytes :=
  if c = 34 ∨ c = 92 then [92, c]
  else if c = 8 then [92, 98]
  else if c = 12 then [92, 102]
  else if c = 10 then [92, 110]
  else if c = 13 then [92, 114]
  else if c = 9 then [92, 116]
  else if c < 32 ∨ c = 60 ∨ c = 62 ∨ c = 38 then 92 :: 117 :: hexDigits 4 c.toNat
  else [c]

/-- The loop of `appendString`; the first argument bounds the number of rounds.  Invalid UTF-8 is written as `�`,
and the characters U+2028 and U+2029 are escaped. [part of `json.Marshal`, internal/tson/tson.go:211] -/
def jsonStrBody : Nat → Bytes → Bytes
  | 0, _ => []
  | _ + 1, [] => []
  | n + 1, c :: r =>
    if c < 0x80 then jsonByte c ++ jsonStrBody n r
    else match runeAt (c :: r) with
      | some (cp, w) =>
        (if cp = 0x2028 ∨ cp = 0x2029 then 92 :: 117 :: hexDigits 4 cp else (c :: r).take w) ++
          jsonStrBody n ((c :: r).drop w)
      | none => 92 :: 117 :: (hexDigits 4 0xFFFD ++ jsonStrBody n r)

/-- A string as written by `json.Marshal` (internal/tson/tson.go:211). -/
def jsonStr (s : Bytes) : Bytes := 34 :: (jsonStrBody s.length s ++ [34])

/-- Is the magnitude `m * 2^e` less than `m' * 2^e'` (both canonical)?
[`abs < 1e-6 || abs >= 1e21` of `json.Marshal`, internal/tson/tson.go:211] -/
def magLt (m : Nat) (e : Int) (m' : Nat) (e' : Int) : Bool := decide (e < e') || (decide (e = e') && decide (m < m'))

/-- Does `json.Marshal` write the number `m * 2^e` with an exponent: `abs < 1e-6 || abs >= 1e21`?
[part of `json.Marshal`, internal/tson/tson.go:211] -/
def jsonUsesExp (m : Nat) (e : Int) : Bool :=
  match F64.ofRatio false 1 1000000, F64.ofRatio false 1000000000000000000000 1 with
  | some (.fin _ m₁ e₁ _), some (.fin _ m₂ e₂ _) => magLt m e m₁ e₁ || !magLt m e m₂ e₂
  | _, _ => false

/-- Notation with exponent as cleaned up by `json.Marshal`: `e-07` becomes `e-7`.
[part of `json.Marshal`, internal/tson/tson.go:211] -/
def jsonExp (c : Nat) (k : Int) : Bytes :=
  let ds := natDigits c
  let x : Int := (ds.length : Int) + k - 1
  ds.take 1 ++ (if ds.length ≤ 1 then [] else 46 :: ds.drop 1) ++ 101 :: (if x < 0 then 45 else 43) ::
    natDigits x.natAbs

/-- A finite number as written by `json.Marshal`; the others are an error and not written at all
(internal/tson/tson.go:211). -/
def jsonNum : F64 → Bytes
  | .fin neg m e h =>
    let ck := shortest neg m e h
    let body := if m ≠ 0 ∧ jsonUsesExp m e = true then jsonExp ck.1 ck.2 else fmtPlain ck.1 ck.2
    if neg then 45 :: body else body
  | _ => []

/-- The members of an object, separated by commas. [part of `json.Marshal`, internal/tson/tson.go:211] -/
def joinMembers : List (Bytes × Bytes) → Bytes
  | [] => []
  | [(k, v)] => jsonStr k ++ 58 :: v
  | (k, v) :: p :: m => jsonStr k ++ 58 :: (v ++ 44 :: joinMembers (p :: m))

/-- The elements of an array, separated by commas. [part of `json.Marshal`, internal/tson/tson.go:211] -/
def joinElems : List Bytes → Bytes
  | [] => []
  | [v] => v
  | v :: w :: l => v ++ 44 :: joinElems (w :: l)

mutual
/-- The text of a value of type `any` (internal/tson/tson.go:364, 378, 488); the members of a map are sorted by key. -/
def anyText : Js → Bytes
  | .null => b!"null"
  | .bool b => if b then b!"true" else b!"false"
  | .num f => jsonNum f
  | .int n => itoa n
  | .str s => jsonStr s
  | .obj m => 123 :: (joinMembers (sortM (anyTextF m)) ++ [125])
  | .arr l => 91 :: (joinElems (anyTextL l) ++ [93])
/-- The texts of the members. [internal/tson/tson.go:364, 378, 488] -/
def anyTextF : List (Bytes × Js) → List (Bytes × Bytes)
  | [] => []
  | (k, v) :: m => (k, anyText v) :: anyTextF m
/-- The texts of the elements. [internal/tson/tson.go:364, 378, 488] -/
def anyTextL : List Js → List Bytes
  | [] => []
  | v :: l => anyText v :: anyTextL l
end

mutual
/-- No NaN and no infinity, on which `json.Marshal` fails (internal/tson/tson.go:364, 378, 488). -/
def Js.finite : Js → Bool
  | .num f => (match f with | .fin _ _ _ _ => true | _ => false)
  | .obj m => Js.finiteF m
  | .arr l => Js.finiteL l
  | _ => true
/-- All members are finite. [internal/tson/tson.go:364, 378, 488] -/
def Js.finiteF : List (Bytes × Js) → Bool
  | [] => true
  | (_, v) :: m => Js.finite v && Js.finiteF m
/-- All elements are finite. [internal/tson/tson.go:364, 378, 488] -/
def Js.finiteL : List Js → Bool
  | [] => true
  | v :: l => Js.finite v && Js.finiteL l
end

/-- `json.Marshal` on a value of type `any` (internal/tson/tson.go:364, 378, 488). -/
def marshalAny (j : Js) : Res Bytes := if j.finite then .ok (anyText j) else .err

/-- A primitive leaf value as a value of type `any` (internal/tson/tson.go:41-47). -/
def Prim.js : Prim → Js
  | .str s => .str s
  | .num f => .num f
  | .bool b => .bool b

mutual
/-- The text of a TSON document (internal/tson/tson.go:211); the fields of a leaf are written in the order of their
declaration (internal/tson/tson.go:44-47). -/
def tsonText : Tson → Bytes
  | .null => b!"null"
  | .leaf p ts => b!"{\"value\":" ++ anyText p.js ++ b!",\"timestamp\":" ++ itoa ts ++ b!"}"
  | .obj m => 123 :: (joinMembers (sortM (tsonTextF m)) ++ [125])
  | .arr l => 91 :: (joinElems (tsonTextL l) ++ [93])
/-- The texts of the members. [internal/tson/tson.go:211] -/
def tsonTextF : List (Bytes × Tson) → List (Bytes × Bytes)
  | [] => []
  | (k, v) :: m => (k, tsonText v) :: tsonTextF m
/-- The texts of the elements. [internal/tson/tson.go:211] -/
def tsonTextL : List Tson → List Bytes
  | [] => []
  | v :: l => tsonText v :: tsonTextL l
end

mutual
/-- No NaN and no infinity, on which `json.Marshal` fails (internal/tson/tson.go:211). -/
def Tson.finite : Tson → Bool
  | .leaf p _ => p.js.finite
  | .obj m => Tson.finiteF m
  | .arr l => Tson.finiteL l
  | .null => true
/-- All members are finite. [internal/tson/tson.go:211] -/
def Tson.finiteF : List (Bytes × Tson) → Bool
  | [] => true
  | (_, v) :: m => Tson.finite v && Tson.finiteF m
/-- All elements are finite. [internal/tson/tson.go:211] -/
def Tson.finiteL : List Tson → Bool
  | [] => true
  | v :: l => Tson.finite v && Tson.finiteL l
end

/-- `ToCompatibleTsonBytes` (internal/tson/tson.go:210-212). -/
def toCompatibleText (t : Tson) : Res Bytes := if t.finite then .ok (tsonText t) else .err

/-! ### Reading -/

/-- A JSON text as read by the scanner of `encoding/json`: strings are unquoted, numbers are kept as written
(sign, integer digits, fraction digits, exponent).
[texts read at internal/tson/tson.go:119, 250, 266, 385; internal/tsonpatch/tsonpatch.go:70] -/
inductive Jt where
  | null
  | bool (b : Bool)
  | num (neg : Bool) (int : Bytes) (frac : Option Bytes) (exp : Option (Bool × Bytes))
  | str (s : Bytes)
  | obj (m : List (Bytes × Jt))
  | arr (l : List Jt)
deriving Repr

instance : Inhabited Jt := ⟨.null⟩

/-- Value of a hexadecimal digit. [part of `json.Unmarshal`, internal/tson/tson.go:250] -/
def hexVal (c : UInt8) : Option Nat :=
  if 48 ≤ c ∧ c ≤ 57 then some (c.toNat - 48)
  else if 97 ≤ c ∧ c ≤ 102 then some (c.toNat - 87)
  else if 65 ≤ c ∧ c ≤ 70 then some (c.toNat - 55)
  else none

/-- Four hexadecimal digits and the rest. [part of `json.Unmarshal`, internal/tson/tson.go:250] -/
def hex4 : Bytes → Option (Nat × Bytes)
  | a :: b :: c :: d :: r =>
    match hexVal a, hexVal b, hexVal c, hexVal d with
    | some a, some b, some c, some d => some (a * 4096 + b * 256 + c * 16 + d, r)
    | _, _, _, _ => none
  | _ => none

/-- `utf8.AppendRune`: surrogates and numbers above U+10FFFF are replaced by U+FFFD.
[part of `json.Unmarshal`, internal/tson/tson.go:250] -/
def runeBytes (r : Nat) : Bytes :=
  if r < 0x80 then [UInt8.ofNat r]
  else if 0xD800 ≤ r ∧ r < 0xE000 ∨ 0x110000 ≤ r then [0xEF, 0xBF, 0xBD]
  else if r < 0x800 then [UInt8.ofNat (0xC0 + r / 64), UInt8.ofNat (0x80 + r % 64)]
  else if r < 0x10000 then
    [UInt8.ofNat (0xE0 + r / 4096), UInt8.ofNat (0x80 + r / 64 % 64), UInt8.ofNat (0x80 + r % 64)]
  else [UInt8.ofNat (0xF0 + r / 262144), UInt8.ofNat (0x80 + r / 4096 % 64), UInt8.ofNat (0x80 + r / 64 % 64),
    UInt8.ofNat (0x80 + r % 64)]

/-- The character of an escape `\u....` with number `u`, where `r` is the text after the four digits: a surrogate is
joined with a following escape if that is the second half of a pair, and replaced by U+FFFD otherwise.
[part of `json.Unmarshal`, internal/tson/tson.go:250] -/
def uEscape (u : Nat) (r : Bytes) : Bytes × Bytes :=
  if 0xD800 ≤ u ∧ u < 0xE000 then
    match r with
    | 92 :: 117 :: r' =>
      match hex4 r' with
      | some (v, r'') =>
        if u < 0xDC00 ∧ 0xDC00 ≤ v ∧ v < 0xE000 then (runeBytes (0x10000 + (u - 0xD800) * 1024 + (v - 0xDC00)), r'')
        else ([0xEF, 0xBF, 0xBD], r)
      | none => ([0xEF, 0xBF, 0xBD], r)
    | _ => ([0xEF, 0xBF, 0xBD], r)
  else (runeBytes u, r)

/-- The other escapes. [part of `json.Unmarshal`, internal/tson/tson.go:250] -/
def jsonUnescape (c : UInt8) : Option UInt8 :=
  if c = 34 ∨ c = 92 ∨ c = 47 then some c
  else if c = 98 then some 8
  else if c = 102 then some 12
  else if c = 110 then some 10
  else if c = 114 then some 13
  else if c = 116 then some 9
  else none

/-- Put bytes in front of a string read. [part of `json.Unmarshal`, internal/tson/tson.go:250] -/
def consStr (b : Bytes) : Option (Bytes × Bytes) → Option (Bytes × Bytes)
  | none => none
  | some (s, r) => some (b ++ s, r)

/-- A string after its opening quotation mark, and the rest of the text; the first argument bounds the recursion depth.
Control characters are refused, invalid UTF-8 is replaced by U+FFFD.
[part of `json.Unmarshal`, internal/tson/tson.go:250] -/
def readStr : Nat → Bytes → Option (Bytes × Bytes)
  | 0, _ => none
  | _ + 1, [] => none
  | n + 1, c :: r =>
    if c = 34 then some ([], r)
    else if c = 92 then
      match r with
      | [] => none
      | e :: r =>
        if e = 117 then
          match hex4 r with
          | none => none
          | some (u, r) => consStr (uEscape u r).1 (readStr n (uEscape u r).2)
        else
          match jsonUnescape e with
          | none => none
          | some b => consStr [b] (readStr n r)
    else if c < 32 then none
    else if c < 0x80 then consStr [c] (readStr n r)
    else
      match runeAt (c :: r) with
      | some (_, w) => consStr ((c :: r).take w) (readStr n ((c :: r).drop w))
      | none => consStr [0xEF, 0xBF, 0xBD] (readStr n r)

/-- The integer part of a number: `0` or digits without leading zero. [part of `json.Unmarshal`, internal/tson/tson.go:250] -/
def readInt : Bytes → Option (Bytes × Bytes)
  | 48 :: r => some ([48], r)
  | s => if (spanDigits s).1 = [] then none else some (spanDigits s)

/-- The fraction of a number: a point and at least one digit. [part of `json.Unmarshal`, internal/tson/tson.go:250] -/
def readFrac : Bytes → Option (Option Bytes × Bytes)
  | 46 :: r => if (spanDigits r).1 = [] then none else some (some (spanDigits r).1, (spanDigits r).2)
  | s => some (none, s)

/-- The sign of an exponent. [part of `json.Unmarshal`, internal/tson/tson.go:250] -/
def readSign : Bytes → Bool × Bytes
  | 45 :: r => (true, r)
  | 43 :: r => (false, r)
  | s => (false, s)

/-- The exponent of a number: `e` or `E`, a sign, and at least one digit. [part of `json.Unmarshal`, internal/tson/tson.go:250] -/
def readExp : Bytes → Option (Option (Bool × Bytes) × Bytes)
  | [] => some (none, [])
  | c :: r =>
    if c = 101 ∨ c = 69 then
      let s := readSign r
      if (spanDigits s.2).1 = [] then none else some (some (s.1, (spanDigits s.2).1), (spanDigits s.2).2)
    else some (none, c :: r)

/-- A number. [part of `json.Unmarshal`, internal/tson/tson.go:250] -/
def readNum (s : Bytes) : Option (Jt × Bytes) :=
  let neg := s.head? == some 45
  let s := if neg then s.tail else s
  match readInt s with
  | none => none
  | some (int, s) =>
    match readFrac s with
    | none => none
    | some (frac, s) =>
      match readExp s with
      | none => none
      | some (exp, s) => some (.num neg int frac exp, s)

/-- `true`, `false` or `null`. [part of `json.Unmarshal`, internal/tson/tson.go:250] -/
def readWord (s : Bytes) : Option (Jt × Bytes) :=
  if hasPrefix s b!"true" then some (.bool true, s.drop 4)
  else if hasPrefix s b!"false" then some (.bool false, s.drop 5)
  else if hasPrefix s b!"null" then some (.null, s.drop 4)
  else none

mutual
/-- A value; the first argument bounds the recursion depth. [part of `json.Unmarshal`, internal/tson/tson.go:250] -/
def readVal : Nat → Bytes → Option (Jt × Bytes)
  | 0, _ => none
  | _ + 1, [] => none
  | n + 1, c :: r =>
    if c = 123 then
      match skipWs r with
      | 125 :: r => some (.obj [], r)
      | r =>
        match readMembers n r with
        | none => none
        | some (m, r) => some (.obj m, r)
    else if c = 91 then
      match skipWs r with
      | 93 :: r => some (.arr [], r)
      | r =>
        match readElems n r with
        | none => none
        | some (l, r) => some (.arr l, r)
    else if c = 34 then
      match readStr (r.length + 1) r with
      | none => none
      | some (s, r) => some (.str s, r)
    else if c = 45 ∨ isDigit c = true then readNum (c :: r)
    else readWord (c :: r)
/-- At least one member, up to the closing brace. [part of `json.Unmarshal`, internal/tson/tson.go:250] -/
def readMembers : Nat → Bytes → Option (List (Bytes × Jt) × Bytes)
  | 0, _ => none
  | _ + 1, [] => none
  | n + 1, c :: r =>
    if c = 34 then
      match readStr (r.length + 1) r with
      | none => none
      | some (k, r) =>
        match skipWs r with
        | 58 :: r =>
          match readVal n (skipWs r) with
          | none => none
          | some (v, r) =>
            match skipWs r with
            | 44 :: r =>
              match readMembers n (skipWs r) with
              | none => none
              | some (m, r) => some ((k, v) :: m, r)
            | 125 :: r => some ([(k, v)], r)
            | _ => none
        | _ => none
    else none
/-- At least one element, up to the closing bracket. [part of `json.Unmarshal`, internal/tson/tson.go:250] -/
def readElems : Nat → Bytes → Option (List Jt × Bytes)
  | 0, _ => none
  | n + 1, s =>
    match readVal n s with
    | none => none
    | some (v, r) =>
      match skipWs r with
      | 44 :: r =>
        match readElems n (skipWs r) with
        | none => none
        | some (l, r) => some (v :: l, r)
      | 93 :: r => some ([v], r)
      | _ => none
end

mutual
/-- Nesting depth of a JSON text. [limit of `json.Unmarshal`, internal/tson/tson.go:250] -/
def Jt.depth : Jt → Nat
  | .obj m => 1 + Jt.depthF m
  | .arr l => 1 + Jt.depthL l
  | _ => 0
/-- Greatest depth of the members. [limit of `json.Unmarshal`, internal/tson/tson.go:250] -/
def Jt.depthF : List (Bytes × Jt) → Nat
  | [] => 0
  | (_, v) :: m => max (Jt.depth v) (Jt.depthF m)
/-- Greatest depth of the elements. [limit of `json.Unmarshal`, internal/tson/tson.go:250] -/
def Jt.depthL : List Jt → Nat
  | [] => 0
  | v :: l => max (Jt.depth v) (Jt.depthL l)
end

/-- The text as a whole: one value with white space around it, nested at most 10000 deep; `none` is a syntax error.
[`checkValid` of `json.Unmarshal`, internal/tson/tson.go:250] -/
def readText (s : Bytes) : Option Jt :=
  match readVal (2 * s.length + 1) (skipWs s) with
  | none => none
  | some (j, r) => if skipWs r = [] ∧ j.depth ≤ 10000 then some j else none

/-- The digits of an exponent as a number. [part of `strconv.ParseFloat`, internal/tson/tson.go:250] -/
def expVal : Option (Bool × Bytes) → Int
  | none => 0
  | some (neg, ds) => if neg then - (digitsVal 0 ds : Int) else digitsVal 0 ds

/-- `strconv.ParseFloat` on a JSON number; `none` if it overflows.  Simplification: `ParseFloat` cuts exponents off at
10000, visible only for texts with thousands of digits. [part of `json.Unmarshal`, internal/tson/tson.go:250] -/
def litFloat (neg : Bool) (int : Bytes) (frac : Option Bytes) (exp : Option (Bool × Bytes)) : Option F64 :=
  readDecimal neg (digitsVal 0 (int ++ frac.getD [])) (expVal exp - ((frac.getD []).length : Int))

/-- `strconv.ParseInt(·, 10, 64)` on a JSON number: no fraction, no exponent, in range.
[decoding of the field `Timestamp`, internal/tsonpatch/tsonpatch.go:70, 85] -/
def litInt (neg : Bool) (int : Bytes) (frac : Option Bytes) (exp : Option (Bool × Bytes)) : Option Int :=
  if frac = none ∧ exp = none then
    let v : Int := if neg then - (digitsVal 0 int : Int) else digitsVal 0 int
    if minInt64 ≤ v ∧ v ≤ maxInt64 then some v else none
  else none

mutual
/-- Decoding into a variable of type `any`: a number that overflows is an error.
[`json.Unmarshal`, internal/tson/tson.go:119, 250, 266, 385] -/
def Jt.toAny : Jt → Res Js
  | .null => .ok .null
  | .bool b => .ok (.bool b)
  | .num neg int frac exp =>
    match litFloat neg int frac exp with
    | some f => .ok (.num f)
    | none => .err
  | .str s => .ok (.str s)
  | .obj m => (Jt.toAnyF m).map fun l => .obj (fillMap l)
  | .arr l => (Jt.toAnyL l).map .arr
/-- The members. [`json.Unmarshal`, internal/tson/tson.go:119, 250, 266, 385] -/
def Jt.toAnyF : List (Bytes × Jt) → Res (List (Bytes × Js))
  | [] => .ok []
  | (k, v) :: m => (Jt.toAny v).bind fun j => (Jt.toAnyF m).map fun r => (k, j) :: r
/-- The elements. [`json.Unmarshal`, internal/tson/tson.go:119, 250, 266, 385] -/
def Jt.toAnyL : List Jt → Res (List Js)
  | [] => .ok []
  | v :: l => (Jt.toAny v).bind fun j => (Jt.toAnyL l).map fun r => j :: r
end

/-- `json.Unmarshal` of bytes into a variable of type `any` (internal/tson/tson.go:119, 122, 137, 140, 250, 266, 385). -/
def unmarshalText (s : Bytes) : Res Js :=
  match readText s with
  | some j => j.toAny
  | none => .err

/-- `FromCompatibleTsonBytes` (internal/tson/tson.go:216-255). -/
def fromCompatibleText (s : Bytes) : Res Tson := (unmarshalText s).bind convert

/-- `FromJsonBytes` (internal/tson/tson.go:383-390), with the text in the middle of `FromJson` (328-367) written and read
as bytes. -/
def fromJsonText (s : Bytes) : Res Tson :=
  (unmarshalText s).bind fun o =>
    match marshalAny (addTimestamp o) with
    | .ok b => fromCompatibleText b
    | _ => .err

/-- `ToCompatibleTson` (internal/tson/tson.go:259-271) through the bytes. -/
def toCompatibleAny (t : Tson) : Res Js := (toCompatibleText t).bind unmarshalText

/-- `ToJson` with a fresh variable (internal/tson/tson.go:275-324) through the bytes. -/
def toJsonAny (t : Tson) : Js :=
  match toCompatibleAny t with
  | .ok o => removeTimestamp o
  | _ => .null

/-- `ToJsonBytes` (internal/tson/tson.go:372-379). -/
def toJsonText (t : Tson) : Res Bytes := marshalAny (toJsonAny t)

/-- `Equal` (internal/tson/tson.go:111-126) through the bytes. -/
def equalText (a b : Tson) : Res Bool :=
  match toCompatibleAny a with
  | .ok o1 =>
    match toCompatibleAny b with
    | .ok o2 => .ok (jsEq o1 o2)
    | _ => .err
  | _ => .err

/-- `EqualWithoutTimestamp` (internal/tson/tson.go:129-145) through the bytes. -/
def equalWithoutTimestampText (a b : Tson) : Res Bool :=
  match (toJsonText a).bind unmarshalText with
  | .ok o1 =>
    match (toJsonText b).bind unmarshalText with
    | .ok o2 => .ok (jsEq o1 o2)
    | _ => .err
  | _ => .err

example : anyText (.obj [(b!"b", .arr [.null, .bool true, .int (-5)]), (b!"a<", .str b!"x\n\"")]) =
    b!"{\"a\\u003c\":\"x\\n\\\"\",\"b\":[null,true,-5]}" := by decide +kernel
example : (unmarshalText b!" { \"a\\u00e9\\ud83d\\ude00\" : [1.5e1, -0.5 ,true] } ").map (jsEq
    (.obj [(b!"aé😀", .arr [.num (F64.ofInt 15), .num ((F64.ofRatio true 1 2).getD .nan), .bool true])])) = .ok true := by
  decide +kernel
example : jsonNum (F64.ofInt 21000000) = b!"21000000" := by decide +kernel
example : jsonNum ((F64.ofRatio true 1 4000000).getD .nan) = b!"-2.5e-7" := by decide +kernel
example : jsonNum ((F64.ofRatio false (12 * 10 ^ 21) 1).getD .nan) = b!"1.2e+22" := by decide +kernel
example : readText b!"[1, 2,]" = none := by decide +kernel
example : readText b!"01" = none := by decide +kernel
example : readText b!"{\"a\":1} x" = none := by decide +kernel

end Verif
