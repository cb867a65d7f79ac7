import Verif.SpecVssGen
import Verif.SpecDiffFull
import Verif.SpecJson
import Verif.VssPatch
/-
Specification vocabulary for the patches between data sets of a vehicle.
-/
namespace Verif

/-- A value that JSON keeps. -/
inductive CleanScalar : Js → Prop
  | bool (b : Bool) : CleanScalar (.bool b)
  | num (neg : Bool) (m : Nat) (e : Int) (h : F64.canon m e = true) : CleanScalar (.num (.fin neg m e h))
  | int (n : Int) : minInt64 ≤ n → n ≤ maxInt64 → CleanScalar (.int n)
  | str (s : Bytes) : ValidUtf8 s → CleanScalar (.str s)

/-- A reading: the value and the timestamp. -/
def readingJs (x : Js) (ts : Int) : Js := .obj [(b!"value", x), (b!"timestamp", .int ts)]

/-- Data of a vehicle that JSON keeps: maps and arrays down to readings. -/
inductive DataTree : Js → Prop
  | reading (x : Js) (ts : Int) : CleanScalar x → minInt64 ≤ ts → ts ≤ maxInt64 → DataTree (readingJs x ts)
  | map (m : List (Bytes × Js)) : (mkeys m).Nodup → (∀ k ∈ mkeys m, ValidUtf8 k ∧ k ≠ [] ∧ k ≠ b!"timestamp") →
      (∀ p ∈ m, DataTree p.2) → DataTree (.obj m)
  | array (l : List Js) : (l.length : Int) ≤ maxInt64 → (∀ v ∈ l, DataTree v) → DataTree (.arr l)

/-- A number of either type. -/
inductive NumberJs : Js → F64 → Prop
  | num (f : F64) : NumberJs (.num f) f
  | int (n : Int) : NumberJs (.int n) (.ofInt n)

/-- The value as a value of a document: integers become floating-point numbers. -/
inductive PrimOf : Js → Prim → Prop
  | bool (b : Bool) : PrimOf (.bool b) (.bool b)
  | num (x : Js) (f : F64) : NumberJs x f → PrimOf x (.num f)
  | str (s : Bytes) : PrimOf (.str s) (.str s)

/-- A timestamp after the way through JSON: rounded to a floating-point number. -/
def jsonStamp (ts : Int) : Int := (F64.ofInt ts).toInt64

/-- The document of a data set: the same keys and indices, and for each reading a leaf. -/
inductive DocOf : Js → Tson → Prop
  | reading (x : Js) (ts : Int) (p : Prim) : PrimOf x p → DocOf (readingJs x ts) (.leaf p (jsonStamp ts))
  | map (m : List (Bytes × Js)) (n : List (Bytes × Tson)) : b!"timestamp" ∉ mkeys m →
      (∀ k, (mget m k).isSome = (mget n k).isSome) →
      (∀ k v w, mget m k = some v → mget n k = some w → DocOf v w) → DocOf (.obj m) (.obj n)
  | array (l : List Js) (k : List Tson) : l.length = k.length →
      (∀ (i : Nat) v w, l[i]? = some v → k[i]? = some w → DocOf v w) → DocOf (.arr l) (.arr k)

/-- The readings of a data set with their places; elements of arrays by their index. -/
inductive ReadingAt : Js → List Bytes → Js → Int → Prop
  | here (x : Js) (ts : Int) : ReadingAt (readingJs x ts) [] x ts
  | member (m : List (Bytes × Js)) (k : Bytes) (c : Js) (ks : List Bytes) (x : Js) (ts : Int) : b!"timestamp" ∉ mkeys m →
      mget m k = some c → ReadingAt c ks x ts → ReadingAt (.obj m) (k :: ks) x ts
  | element (l : List Js) (i : Nat) (c : Js) (ks : List Bytes) (x : Js) (ts : Int) :
      l[i]? = some c → ReadingAt c ks x ts → ReadingAt (.arr l) (natDigits i :: ks) x ts

/-- Values of the same type; the two types of numbers are one in JSON. -/
inductive SameJsType : Js → Js → Prop
  | bool (b c : Bool) : SameJsType (.bool b) (.bool c)
  | num (x y : Js) (f g : F64) : NumberJs x f → NumberJs y g → SameJsType x y
  | str (s t : Bytes) : SameJsType (.str s) (.str t)

/-- Data sets with readings of the same types at the same places. -/
inductive SameData : Js → Js → Prop
  | reading (x y : Js) (t u : Int) : SameJsType x y → SameData (readingJs x t) (readingJs y u)
  | map (m n : List (Bytes × Js)) : b!"timestamp" ∉ mkeys m → (∀ k, (mget m k).isSome = (mget n k).isSome) →
      (∀ k v w, mget m k = some v → mget n k = some w → SameData v w) → SameData (.obj m) (.obj n)
  | array (l k : List Js) : l.length = k.length →
      (∀ (i : Nat) v w, l[i]? = some v → k[i]? = some w → SameData v w) → SameData (.arr l) (.arr k)

/-- The readings are the same for JSON. -/
def SameReading (x : Js) (t : Int) (y : Js) (u : Int) : Prop :=
  jsonStamp t = jsonStamp u ∧ ∃ p q, PrimOf x p ∧ PrimOf y q ∧ EqPrim p q

/-- A value as decoded JSON. -/
inductive Decoded : Js → Js → Prop
  | bool (b : Bool) : Decoded (.bool b) (.bool b)
  | num (x : Js) (f : F64) : NumberJs x f → Decoded x (.num f)
  | str (s : Bytes) : Decoded (.str s) (.str s)

/-- The item of the patch that writes a reading. -/
def ReplaceItem (ks : List Bytes) (y : Js) (u : Int) (i : Js) : Prop :=
  ∃ v, Decoded y v ∧ i = .obj [(b!"op", .str b!"replace"), (b!"path", .str (pointer ks)), (b!"value", v),
    (b!"timestamp", .num (.ofInt (jsonStamp u)))]

end Verif
