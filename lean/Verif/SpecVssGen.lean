import Verif.SpecVss
import Verif.VssGen
/-
Specification vocabulary for the generated vehicle data.
-/
namespace Verif

/-! ### Catalogues -/

/-- A signal of a catalogue: a map that has members, none of them a map. -/
def Signal (d : Js) (ks : List Bytes) (md : List (Bytes × Js)) : Prop :=
  JsAt d ks (.obj md) ∧ md ≠ [] ∧ ∀ p ∈ md, ¬ IsMap p.2

/-- A catalogue: nested maps down to the signals.  The keys have no dots and are not `timestamp`, and `children` is a map
that stands alone, but not at the top. -/
structure Catalogue (d : Js) : Prop where
  map : ∃ m, d = .obj m ∧ b!"children" ∉ mkeys m ∧ ∀ p ∈ m, IsMap p.2
  nodup : NodupKeys d
  keys : KeysAre (fun k => DotKey k ∧ k ≠ b!"timestamp") d
  alone : ChildrenAlone d
  children : ∀ ks m v, JsAt d ks (.obj m) → mget m b!"children" = some v → IsMap v
  pure : ∀ ks m, JsAt d ks (.obj m) → (∀ p ∈ m, IsMap p.2) ∨ ∀ p ∈ m, ¬ IsMap p.2

/-- The keys that make up the name of a node: those on the way, without `children`. -/
def nameKeys (ks : List Bytes) : List Bytes := ks.filter fun k => k ≠ b!"children"

/-- The data of a vehicle as a tree: maps down to the leaves, with keys that a name can spell. -/
structure VehicleMap (m : List (Bytes × Js)) : Prop where
  nodup : NodupKeys (.obj m)
  keys : KeysAre (fun k => DotKey k ∧ k ≠ b!"children") (.obj m)
  root : b!"timestamp" ∉ mkeys m

/-! ### Random values -/

/-- A number from 0 to 100, without 100. -/
def Below100 (f : F64) : Prop :=
  ∃ m e h, f = .fin false m e h ∧ if 0 ≤ e then m * 2 ^ e.toNat < 100 else m < 100 * 2 ^ (-e).toNat

/-- The draws are what `math/rand` can return. -/
structure Draw.Fair (d : Draw) (md : List (Bytes × Js)) : Prop where
  hundred : ∀ i, Below100 (d.hundred i)
  index : ∀ l, mget md b!"allowed" = some (.arr l) → l ≠ [] → d.index < l.length
  upTo200 : d.upTo200 ≤ 200
  upTo100 : ∀ i, d.upTo100 i ≤ 100
  string : ∀ i, d.string i < 20
  bound : ∀ i, d.bound i < 5

/-- The range of an integer type. -/
def intRange (dt : Bytes) : Option (Int × Int) :=
  if dt = b!"int8" then some (-128, 127)
  else if dt = b!"uint8" then some (0, 255)
  else if dt = b!"int16" then some (-32768, 32767)
  else if dt = b!"uint16" then some (0, 65535)
  else if dt = b!"int32" then some (-2147483648, 2147483647)
  else if dt = b!"uint32" then some (0, 4294967295)
  else none

/-- The value belongs to the datatype. -/
inductive OfType : Bytes → Js → Prop
  | bool (b : Bool) : OfType b!"boolean" (.bool b)
  | int (dt : Bytes) (lo hi n : Int) : intRange dt = some (lo, hi) → lo ≤ n → n ≤ hi → OfType dt (.int n)
  | float (dt : Bytes) (neg : Bool) (m : Nat) (e : Int) (h : F64.canon m e = true) : dt = b!"float" ∨ dt = b!"double" →
      OfType dt (.num (.fin neg m e h))
  | string (s : Bytes) : OfType b!"string" (.str s)

/-- A reading: a value with its timestamp. -/
def Measured (P : Js → Prop) (ts : Int) (v : Js) : Prop :=
  ∃ x, v = .obj [(b!"value", x), (b!"timestamp", .int ts)] ∧ P x

/-- What belongs at the place of a signal of a datatype: a reading, or an array of readings. -/
inductive SignalValue (ts : Int) : Bytes → Js → Prop
  | one (dt : Bytes) (v : Js) : Measured (OfType dt) ts v → SignalValue ts dt v
  | many (dt : Bytes) (l : List Js) : l ≠ [] → l.length ≤ 5 → (∀ v ∈ l, Measured (OfType dt) ts v) →
      SignalValue ts (dt ++ b!"[]") (.arr l)

/-- The datatypes the generator knows. -/
def knownTypes : List Bytes := [b!"boolean", b!"int8", b!"uint8", b!"int16", b!"uint16", b!"int32", b!"uint32", b!"float",
  b!"double", b!"string", b!"float[]", b!"string[]", b!"uint8[]"]

/-- The datatypes for which the list of allowed values is looked at. -/
def allowedTypes : List Bytes := [b!"int16", b!"uint16", b!"int32", b!"uint32", b!"double", b!"string"]

/-- The declaration of a signal can be met: the datatype is known, and allowed values belong to it. -/
def Declared (md : List (Bytes × Js)) (dt : Bytes) : Prop :=
  mget md b!"datatype" = some (.str dt) ∧ dt ∈ knownTypes ∧
    ∀ a, mget md b!"allowed" = some a → dt ∈ allowedTypes ∧ ∃ l, a = .arr l ∧ l ≠ [] ∧ ∀ v ∈ l, OfType dt v

/-- A value that is not nil, a map or an array. -/
inductive JsScalar : Js → Prop
  | bool (b : Bool) : JsScalar (.bool b)
  | num (f : F64) : JsScalar (.num f)
  | int (n : Int) : JsScalar (.int n)
  | str (s : Bytes) : JsScalar (.str s)

/-- Something is drawn for a signal with this declaration: the datatype is known, and allowed values are scalar. -/
def Drawable (md : List (Bytes × Js)) : Prop :=
  (∃ dt, mget md b!"datatype" = some (.str dt) ∧ dt ∈ knownTypes) ∧
    ∀ a, mget md b!"allowed" = some a → ∃ l, a = .arr l ∧ l ≠ [] ∧ ∀ v ∈ l, JsScalar v

/-- A leaf of vehicle data: a reading, or an array of readings. -/
inductive Datum : Js → Prop
  | one (v : Js) (ts : Int) : Measured JsScalar ts v → Datum v
  | many (l : List Js) : (∀ v ∈ l, ∃ ts, Measured JsScalar ts v) → Datum (.arr l)

/-- The data of a vehicle. -/
def VehicleData (m : List (Bytes × Js)) : Prop := VehicleMap m ∧ ∀ ks v, JsLeaf (.obj m) ks v → Datum v

/-! ### The next data set -/

/-- The draws are what `math/rand` can return. -/
structure NextDraw.Fair (d : NextDraw) : Prop where
  upTo200 : d.upTo200 ≤ 200
  hundred : Below100 d.hundred
  string : d.string < 20

/-- A value drawn anew. -/
inductive Redrawn : Js → Js → Prop
  | bool (b : Bool) : Redrawn (.bool b) (.bool !b)
  | int (n k : Int) : -100 ≤ k → k ≤ 100 → Redrawn (.int n) (.int k)
  | num (f g : F64) : Below100 g → Redrawn (.num f) (.num g)
  | str (s : Bytes) (i : Nat) : 1 ≤ i → i ≤ 20 → Redrawn (.str s) (.str (b!"TEST_STRING_VALUE_" ++ itoa i))

/-- What becomes of a leaf. -/
inductive Follows (ts : Int) : Fate → Js → Js → Prop
  | change (x y : Js) (t : Int) : Redrawn x y →
      Follows ts .change (.obj [(b!"value", x), (b!"timestamp", .int t)]) (.obj [(b!"value", y), (b!"timestamp", .int ts)])
  | touch (x : Js) (t : Int) :
      Follows ts .touch (.obj [(b!"value", x), (b!"timestamp", .int t)]) (.obj [(b!"value", x), (b!"timestamp", .int ts)])
  | keep (m : List (Bytes × Js)) : Follows ts .keep (.obj m) (.obj m)
  | array (f : Fate) (xs : List (Js × Int)) :
      Follows ts f (.arr (xs.map fun p => .obj [(b!"value", p.1), (b!"timestamp", .int p.2)]))
        (.arr (xs.map fun p => .obj [(b!"value", p.1), (b!"timestamp", .int ts)]))

end Verif
