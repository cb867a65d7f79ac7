import Verif.SpecDoc
import Verif.Patch
/-
Small specifications used in the statements about generated patches.
-/
namespace Verif

/-- Equal leaf values: same type, and equal by Go's `==` (so NaN is not equal to itself, `-0 = 0`). -/
inductive EqPrim : Prim → Prim → Prop
  | str (s) : EqPrim (.str s) (.str s)
  | num (a b) : F64.feq a b = true → EqPrim (.num a) (.num b)
  | bool (b) : EqPrim (.bool b) (.bool b)

/-- Same structure and same leaf values; with `times`, also the same timestamps. -/
inductive EqDoc (times : Bool) : Tson → Tson → Prop
  | null : EqDoc times .null .null
  | leaf (p q t u) : EqPrim p q → (times = true → t = u) → EqDoc times (.leaf p t) (.leaf q u)
  | obj (m n : List (Bytes × Tson)) : (∀ k, (mget m k).isSome = (mget n k).isSome) →
      (∀ k v w, mget m k = some v → mget n k = some w → EqDoc times v w) → EqDoc times (.obj m) (.obj n)
  | arr (l k : List Tson) : l.length = k.length →
      (∀ (i : Nat) v w, l[i]? = some v → k[i]? = some w → EqDoc times v w) → EqDoc times (.arr l) (.arr k)

/-- The `any` value holding the value of a leaf. -/
inductive GoValue : GVal → Prim → Prop
  | str (s) : GoValue (.str s) (.str s)
  | num (f) : GoValue (.num f) (.num f)
  | bool (b) : GoValue (.bool b) (.bool b)

/-- What an operation at location `ks` may say about the change from `a` to `b`: it adds what `a` does not have
(or has as nil), removes what `b` does not have, or replaces something different. -/
inductive Describes (times : Bool) (a b : Tson) (ks : List Bytes) (o : Op) : Prop
  | add (p : Prim) : o.kind = .add → Reaches b ks (.leaf p o.ts) → GoValue o.value p →
      (∀ u, Reaches a ks u → u = .null) → Describes times a b ks o
  | remove (u : Tson) : o.kind = .remove → o.value = .nil → Reaches a ks u → (∀ w, ¬ Reaches b ks w) →
      Describes times a b ks o
  | replace (u : Tson) (p : Prim) : o.kind = .replace → Reaches a ks u → Reaches b ks (.leaf p o.ts) →
      GoValue o.value p → ¬ EqDoc times u (.leaf p o.ts) → Describes times a b ks o

/-- No object has an empty key, and the arrays have a length that fits into an `int`. -/
structure Named (t : Tson) : Prop where
  keys : ∀ ks m, Reaches t ks (.obj m) → ∀ k ∈ mkeys m, k ≠ []
  arrays : ∀ ks l, Reaches t ks (.arr l) → (l.length : Int) ≤ maxInt64

/-- Arrays at the same location have the same length. -/
def SameLengths (a b : Tson) : Prop :=
  ∀ ks l k, Reaches a ks (.arr l) → Reaches b ks (.arr k) → l.length = k.length

/-- Keys that a path can spell for `ApplyOperation`: not empty, without '/' and '.'. -/
def PlainKey (k : Bytes) : Prop := k ≠ [] ∧ bSlash ∉ k ∧ bDot ∉ k

/-- All keys of all objects are plain, and the arrays have a length that fits into an `int`. -/
structure PlainDoc (t : Tson) : Prop where
  keys : ∀ ks m, Reaches t ks (.obj m) → ∀ k ∈ mkeys m, PlainKey k
  arrays : ∀ ks l, Reaches t ks (.arr l) → (l.length : Int) ≤ maxInt64

/-- Same structure and same leaf values, where NaN is the same as NaN; with `times`, also the same timestamps. -/
inductive SameContent (times : Bool) : Tson → Tson → Prop
  | null : SameContent times .null .null
  | leaf (p q t u) : p = q ∨ EqPrim p q → (times = true → t = u) → SameContent times (.leaf p t) (.leaf q u)
  | obj (m n : List (Bytes × Tson)) : (∀ k, (mget m k).isSome = (mget n k).isSome) →
      (∀ k v w, mget m k = some v → mget n k = some w → SameContent times v w) → SameContent times (.obj m) (.obj n)
  | arr (l k : List Tson) : l.length = k.length →
      (∀ (i : Nat) v w, l[i]? = some v → k[i]? = some w → SameContent times v w) → SameContent times (.arr l) (.arr k)

/-- Arrays at the same location are equal (with `times`, including timestamps), or have the same length with only leaves
in the new one. -/
def FlatArrays (times : Bool) (a b : Tson) : Prop :=
  ∀ ks l k, Reaches a ks (.arr l) → Reaches b ks (.arr k) →
    EqDoc times (.arr l) (.arr k) ∨ l.length = k.length ∧ ∀ w ∈ k, ∃ p ts, w = .leaf p ts

end Verif
