import Verif.Json
import Verif.SpecCodec
/-
Specification vocabulary for the conversions between TSON and JSON and for the equality functions.
-/
namespace Verif

/-- Valid UTF-8 text. -/
inductive ValidUtf8 : Bytes → Prop
  | nil : ValidUtf8 []
  | ascii {c : UInt8} {s : Bytes} : c < 0x80 → ValidUtf8 s → ValidUtf8 (c :: s)
  | rune {r : Nat} {s : Bytes} : IsScalar r → ValidUtf8 s → ValidUtf8 (utf8Enc r ++ s)

/-- A primitive value that JSON can represent. -/
def CleanPrim : Prim → Prop
  | .str s => ValidUtf8 s
  | .num f => ∃ neg m e h, f = .fin neg m e h
  | .bool _ => True

mutual
/-- A document that `json.Marshal` writes without loss: texts are valid UTF-8 and numbers are finite. -/
def Writable : Tson → Prop
  | .null => True
  | .leaf p _ => CleanPrim p
  | .obj m => WritableF m
  | .arr l => WritableL l
/-- All keys and members can be written. -/
def WritableF : List (Bytes × Tson) → Prop
  | [] => True
  | (k, v) :: m => ValidUtf8 k ∧ Writable v ∧ WritableF m
/-- All elements can be written. -/
def WritableL : List Tson → Prop
  | [] => True
  | v :: l => Writable v ∧ WritableL l
end

mutual
/-- The document with every timestamp replaced by the result of the conversion to `float64` and back. -/
def roundTs : Tson → Tson
  | .null => .null
  | .leaf p ts => .leaf p (F64.ofInt ts).toInt64
  | .obj m => .obj (roundTsF m)
  | .arr l => .arr (roundTsL l)
/-- The members with rounded timestamps. -/
def roundTsF : List (Bytes × Tson) → List (Bytes × Tson)
  | [] => []
  | (k, v) :: m => (k, roundTs v) :: roundTsF m
/-- The elements with rounded timestamps. -/
def roundTsL : List Tson → List Tson
  | [] => []
  | v :: l => roundTs v :: roundTsL l
end

mutual
/-- A document that JSON can represent: texts are valid UTF-8, numbers are finite, and timestamps lie between -2^53 and
2^53. -/
def Clean : Tson → Prop
  | .null => True
  | .leaf p ts => CleanPrim p ∧ -9007199254740992 ≤ ts ∧ ts ≤ 9007199254740992
  | .obj m => CleanF m
  | .arr l => CleanL l
/-- All keys and members can be represented. -/
def CleanF : List (Bytes × Tson) → Prop
  | [] => True
  | (k, v) :: m => ValidUtf8 k ∧ Clean v ∧ CleanF m
/-- All elements can be represented. -/
def CleanL : List Tson → Prop
  | [] => True
  | v :: l => Clean v ∧ CleanL l
end

mutual
/-- Nesting depth of the JSON form of a document: a leaf is a JSON object. -/
def nesting : Tson → Nat
  | .null => 0
  | .leaf _ _ => 1
  | .obj m => 1 + nestingF m
  | .arr l => 1 + nestingL l
/-- Greatest depth of the members. -/
def nestingF : List (Bytes × Tson) → Nat
  | [] => 0
  | (_, v) :: m => max (nesting v) (nestingF m)
/-- Greatest depth of the elements. -/
def nestingL : List Tson → Nat
  | [] => 0
  | v :: l => max (nesting v) (nestingL l)
end

/-! ### Equality of documents -/

mutual
/-- Same structure, with leaves related by `R`: objects have the same number of members and every member of the first
has its partner in the second (keys are distinct in a Go map); the order of members does not matter. -/
def DocRel (R : Prim → Int → Prim → Int → Prop) : Tson → Tson → Prop
  | .null, .null => True
  | .leaf p t, .leaf q u => R p t q u
  | .obj m, .obj n => m.length = n.length ∧ DocRelF R m n
  | .arr l, .arr k => DocRelL R l k
  | _, _ => False
/-- Every member has its partner. -/
def DocRelF (R : Prim → Int → Prim → Int → Prop) : List (Bytes × Tson) → List (Bytes × Tson) → Prop
  | [], _ => True
  | (k, v) :: m, n => (∃ w, mget n k = some w ∧ DocRel R v w) ∧ DocRelF R m n
/-- The elements are related one by one. -/
def DocRelL (R : Prim → Int → Prim → Int → Prop) : List Tson → List Tson → Prop
  | [], [] => True
  | v :: l, w :: k => DocRel R v w ∧ DocRelL R l k
  | _, _ => False
end

/-- Equal as Go values: the same document up to the order of object members. -/
def SameDoc (a b : Tson) : Prop := DocRel (fun p t q u => p = q ∧ t = u) a b

/-- Equal primitive values: `==` of Go on numbers (so 0 and -0 are equal). -/
def GoEqPrim : Prim → Prim → Prop
  | .str a, .str b => a = b
  | .num f, .num g => F64.feq f g = true
  | .bool a, .bool b => a = b
  | _, _ => False

/-- The same structure, values and timestamps. -/
def SameTimed (a b : Tson) : Prop := DocRel (fun p t q u => GoEqPrim p q ∧ t = u) a b

/-- The same structure and values. -/
def SameUntimed (a b : Tson) : Prop := DocRel (fun p _ q _ => GoEqPrim p q) a b

/-! ### Plain JSON -/

mutual
/-- JSON without null, with valid UTF-8 and finite numbers, and distinct keys in every object. -/
def PlainJson : Js → Prop
  | .null => False
  | .bool _ => True
  | .num f => ∃ neg m e h, f = .fin neg m e h
  | .int _ => False
  | .str s => ValidUtf8 s
  | .obj m => (mkeys m).Nodup ∧ PlainJsonF m
  | .arr l => PlainJsonL l
/-- All keys and members are plain. -/
def PlainJsonF : List (Bytes × Js) → Prop
  | [] => True
  | (k, v) :: m => ValidUtf8 k ∧ PlainJson v ∧ PlainJsonF m
/-- All elements are plain. -/
def PlainJsonL : List Js → Prop
  | [] => True
  | v :: l => PlainJson v ∧ PlainJsonL l
end

mutual
/-- Equal as Go values: the same JSON up to the order of object members. -/
def SameJson : Js → Js → Prop
  | .null, .null => True
  | .bool a, .bool b => a = b
  | .num f, .num g => f = g
  | .int a, .int b => a = b
  | .str a, .str b => a = b
  | .obj m, .obj n => m.length = n.length ∧ SameJsonF m n
  | .arr l, .arr k => SameJsonL l k
  | _, _ => False
/-- Every member has its partner. -/
def SameJsonF : List (Bytes × Js) → List (Bytes × Js) → Prop
  | [], _ => True
  | (k, v) :: m, n => (∃ w, mget n k = some w ∧ SameJson v w) ∧ SameJsonF m n
/-- The elements are the same one by one. -/
def SameJsonL : List Js → List Js → Prop
  | [], [] => True
  | v :: l, w :: k => SameJson v w ∧ SameJsonL l k
  | _, _ => False
end

/-- A JSON object or array. -/
def Js.IsContainer : Js → Prop
  | .obj _ => True
  | .arr _ => True
  | _ => False

end Verif
