import Verif.PatchText
import Verif.SpecJson
/-
Specification vocabulary for patches as texts.
-/
namespace Verif

/-- Text that needs no escapes in a JSON string: valid UTF-8 without control characters, quotation marks and
backslashes. -/
def RawText (s : Bytes) : Prop := ValidUtf8 s ∧ ∀ c ∈ s, 32 ≤ c ∧ c ≠ 34 ∧ c ≠ 92

mutual
/-- A value as `json.Unmarshal` gives it: valid UTF-8, finite numbers, no integers, and distinct keys in every object. -/
def TextJson : Js → Prop
  | .null => True
  | .bool _ => True
  | .num f => ∃ neg m e h, f = .fin neg m e h
  | .int _ => False
  | .str s => ValidUtf8 s
  | .obj m => (mkeys m).Nodup ∧ TextJsonF m
  | .arr l => TextJsonL l
/-- All keys and members are such values. -/
def TextJsonF : List (Bytes × Js) → Prop
  | [] => True
  | (k, v) :: m => ValidUtf8 k ∧ TextJson v ∧ TextJsonF m
/-- All elements are such values. -/
def TextJsonL : List Js → Prop
  | [] => True
  | v :: l => TextJson v ∧ TextJsonL l
end

/-- The nesting depth of a value in JSON; a leaf of a TSON document is a JSON object. -/
def PVal.depth : PVal → Nat
  | .any j => j.depth
  | .doc t => nesting t

mutual
/-- The integers of a value fit into 64 bits. -/
def Ints64 : Js → Prop
  | .int n => n.natAbs < 2 ^ 64
  | .obj m => Ints64F m
  | .arr l => Ints64L l
  | _ => True
/-- The integers of the members fit. -/
def Ints64F : List (Bytes × Js) → Prop
  | [] => True
  | (_, v) :: m => Ints64 v ∧ Ints64F m
/-- The integers of the elements fit. -/
def Ints64L : List Js → Prop
  | [] => True
  | v :: l => Ints64 v ∧ Ints64L l
end

/-- The operation has Go types: integers of at most 64 bits, and timestamps of type `int64`. -/
def POp.Typed (o : POp) : Prop := (minInt64 ≤ o.ts ∧ o.ts ≤ maxInt64) ∧
  match o.value with
  | .any j => Ints64 j
  | .doc t => ∀ ts ∈ stamps t, minInt64 ≤ ts ∧ ts ≤ maxInt64

/-- The operation read back has the operation type, path and timestamp of the original one, and its value is what is
read from the JSON text of the original value. -/
def ReadsAs (o q : POp) : Prop := q.op = o.op ∧ q.path = o.path ∧ q.ts = o.ts ∧
  ∃ b j, o.value.text = .ok b ∧ unmarshalText b = .ok j ∧ q.value = .any j

/-- The same operation: the same operation type, path, timestamp and JSON value. -/
def SamePOp (o q : POp) : Prop := q.op = o.op ∧ q.path = o.path ∧ q.ts = o.ts ∧
  ∃ j k, o.value = .any j ∧ q.value = .any k ∧ SameJson j k

/-- Related one by one. -/
def OneByOne (R : POp → POp → Prop) : List POp → List POp → Prop
  | [], [] => True
  | o :: p, q :: r => R o q ∧ OneByOne R p r
  | _, _ => False

end Verif
