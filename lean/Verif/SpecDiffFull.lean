import Verif.SpecArrays
/-
Specification vocabulary for the completeness of generated patches.
-/
namespace Verif

/-- Following keys through a document, elements of arrays by their index as `makePath` writes it. -/
inductive NodeAt : Tson → List Bytes → Tson → Prop
  | here (t) : NodeAt t [] t
  | member (m k ks c t) : mget m k = some c → NodeAt c ks t → NodeAt (.obj m) (k :: ks) t
  | element (l) (i : Nat) (ks c t) : l[i]? = some c → NodeAt c ks t → NodeAt (.arr l) (natDigits i :: ks) t

/-- Documents that differ in the values and timestamps of leaves only; the types of the values are the same. -/
inductive SameShape : Tson → Tson → Prop
  | null : SameShape .null .null
  | leaf (p q t u) : SameType p q → SameShape (.leaf p t) (.leaf q u)
  | obj (m n : List (Bytes × Tson)) : (∀ k, (mget m k).isSome = (mget n k).isSome) →
      (∀ k v w, mget m k = some v → mget n k = some w → SameShape v w) → SameShape (.obj m) (.obj n)
  | arr (l k : List Tson) : l.length = k.length →
      (∀ (i : Nat) v w, l[i]? = some v → k[i]? = some w → SameShape v w) → SameShape (.arr l) (.arr k)

/-- The leaves at one place differ: in the value or, with `times`, in the timestamp. -/
def LeafDiffers (times : Bool) (p : Prim) (t : Int) (q : Prim) (u : Int) : Prop := ¬ (EqPrim p q ∧ (times = true → t = u))

/-- The operation writes this leaf at this place. -/
def WritesLeaf (o : Op) (path : Bytes) (q : Prim) (u : Int) : Prop :=
  (o.kind = .add ∨ o.kind = .replace) ∧ o.path = path ∧ GoValue o.value q ∧ o.ts = u

end Verif
