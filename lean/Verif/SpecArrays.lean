import Verif.SpecDiff
/-
Specification vocabulary for the comparison of arrays of different lengths.
-/
namespace Verif

/-- Same structure, no nil anywhere, and the leaves related by `R`. -/
inductive LeafwiseMatch (R : Prim → Int → Prim → Int → Prop) : Tson → Tson → Prop
  | leaf (p q t u) : R p t q u → LeafwiseMatch R (.leaf p t) (.leaf q u)
  | obj (m n : List (Bytes × Tson)) : (∀ k, (mget m k).isSome = (mget n k).isSome) →
      (∀ k v w, mget m k = some v → mget n k = some w → LeafwiseMatch R v w) → LeafwiseMatch R (.obj m) (.obj n)
  | arr (l k : List Tson) : l.length = k.length →
      (∀ (i : Nat) v w, l[i]? = some v → k[i]? = some w → LeafwiseMatch R v w) → LeafwiseMatch R (.arr l) (.arr k)

/-- Values of the same type. -/
inductive SameType : Prim → Prim → Prop
  | str (s r) : SameType (.str s) (.str r)
  | num (a b) : SameType (.num a) (.num b)
  | bool (a b) : SameType (.bool a) (.bool b)

open Classical in
/-- How many elements of a list are equal to a document, including timestamps. -/
noncomputable def copies (v : Tson) (l : List Tson) : Nat := l.countP fun w => decide (EqDoc true v w)

/-- Element `i` of `l` is `v`, and the elements of `l` before it need all copies of `v` that `k` has. -/
def Unmatched (l k : List Tson) (i : Nat) (v : Tson) : Prop := l[i]? = some v ∧ copies v k ≤ copies v (l.take i)

/-- Operations removing the elements with the given indices from the array at the path. -/
def ElemRemovals (path : Bytes) (js : List Nat) (ops : List Op) : Prop :=
  ops = js.map fun i => ⟨.remove, path ++ pointer [natDigits i], .nil, 0⟩

/-- Operations writing the elements of `k` with the given indices to the array at the path. -/
structure ElemWrites (path : Bytes) (k : List Tson) (kind : Nat → OpKind) (js : List Nat) (ops : List Op) : Prop where
  length : ops.length = js.length
  each : ∀ (n i : Nat) (o : Op), js[n]? = some i → ops[n]? = some o → o.path = path ++ pointer [natDigits i] ∧
    o.kind = kind i ∧ ∃ p, k[i]? = some (.leaf p o.ts) ∧ GoValue o.value p

/-- Element `i` of `k` is a leaf, and not equal (including the timestamp) to an element of `l` with this index. -/
def Changed (l k : List Tson) (i : Nat) : Prop :=
  ∃ p ts, k[i]? = some (.leaf p ts) ∧ ∀ v, l[i]? = some v → ¬ EqDoc true v (.leaf p ts)

/-- The element is a leaf. -/
def IsLeaf (v : Tson) : Prop := ∃ p ts, v = .leaf p ts

end Verif
