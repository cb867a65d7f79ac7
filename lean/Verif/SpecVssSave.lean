import Verif.SpecCodec
import Verif.SpecVssPatch
import Verif.SpecPatchText
/-
Specification vocabulary for saved data sets and patches.
-/
namespace Verif

/-- A value whose text `Unmarshal` reads back. -/
inductive ReadableValue (P : Nat → Bool) : Js → Prop
  | bool (b : Bool) : ReadableValue P (.bool b)
  | num (f : F64) : PlainNumber f → ReadableValue P (.num f)
  | int (n : Int) : ReadableValue P (.int n)
  | str (s : Bytes) : PlainText P s → ReadableValue P (.str s)

/-- Data all of whose keys and values are readable. -/
inductive ReadableData (P : Nat → Bool) : Js → Prop
  | reading (x : Js) (ts : Int) : ReadableValue P x → ReadableData P (readingJs x ts)
  | map (m : List (Bytes × Js)) : b!"timestamp" ∉ mkeys m → (∀ k ∈ mkeys m, PlainText P k) →
      (∀ p ∈ m, ReadableData P p.2) → ReadableData P (.obj m)
  | array (l : List Js) : (∀ v ∈ l, ReadableData P v) → ReadableData P (.arr l)

/-- The document of a data set with exact timestamps, negative ones as -1. -/
inductive SavedAs : Js → Tson → Prop
  | reading (x : Js) (ts : Int) (p : Prim) : PrimOf x p → SavedAs (readingJs x ts) (.leaf p (if 0 ≤ ts then ts else -1))
  | map (m : List (Bytes × Js)) (n : List (Bytes × Tson)) : b!"timestamp" ∉ mkeys m → mkeys m = mkeys n →
      (∀ (i : Nat) v w, m[i]? = some v → n[i]? = some w → SavedAs v.2 w.2) → SavedAs (.obj m) (.obj n)
  | array (l : List Js) (k : List Tson) : l.length = k.length →
      (∀ (i : Nat) v w, l[i]? = some v → k[i]? = some w → SavedAs v w) → SavedAs (.arr l) (.arr k)

/-- A value whose Go syntax is also its JSON text. -/
inductive SharedSyntax (P : Nat → Bool) : Js → Prop
  | bool (b : Bool) : SharedSyntax P (.bool b)
  | num (neg : Bool) (m : Nat) (e : Int) (h : F64.canon m e = true) : SharedSyntax P (.num (.fin neg m e h))
  | str (s : Bytes) : PlainText P s → SharedSyntax P (.str s)

/-- The data of an item of a patch, and the operation it stands for. -/
def ItemOf (P : Nat → Bool) (i : Js) (o : POp) : Prop :=
  ∃ d v f, i = .obj d ∧ RawText o.op ∧ RawText o.path ∧ SharedSyntax P v ∧ o.value = .any v ∧ o.ts = f.toInt64 ∧
    mget d b!"op" = some (.str o.op) ∧ mget d b!"path" = some (.str o.path) ∧ mget d b!"value" = some v ∧
    mget d b!"timestamp" = some (.num f)

end Verif
