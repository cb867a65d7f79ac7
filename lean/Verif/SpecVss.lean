import Verif.Vss
/-
Specification vocabulary for the generator of vehicle data.
-/
namespace Verif

/-- Following keys through nested maps. -/
inductive JsAt : Js → List Bytes → Js → Prop
  | here (v : Js) : JsAt v [] v
  | step (m : List (Bytes × Js)) (k : Bytes) (w : Js) (ks : List Bytes) (v : Js) :
      mget m k = some w → JsAt w ks v → JsAt (.obj m) (k :: ks) v

/-- The value is a map. -/
def IsMap (v : Js) : Prop := ∃ m, v = .obj m

/-- No key occurs twice in a map: the lists of members are maps. -/
def NodupKeys (d : Js) : Prop := ∀ ks m, JsAt d ks (.obj m) → (mkeys m).Nodup

/-- A key of the list on the way belongs to a map that has only maps as members. -/
def Survives (keys : List Bytes) (d : Js) (ks : List Bytes) : Prop :=
  ∀ pre k post m, ks = pre ++ k :: post → k ∈ keys → JsAt d pre (.obj m) → ∀ p ∈ m, IsMap p.2

/-- A leaf of vehicle data: not a map, or a map with a timestamp. -/
def IsVssLeaf (v : Js) : Prop := ∀ m, v = .obj m → b!"timestamp" ∈ mkeys m

/-- Following keys through maps without timestamp to a leaf. -/
inductive JsLeaf : Js → List Bytes → Js → Prop
  | here (v : Js) : IsVssLeaf v → JsLeaf v [] v
  | step (m : List (Bytes × Js)) (k : Bytes) (w : Js) (ks : List Bytes) (v : Js) :
      b!"timestamp" ∉ mkeys m → mget m k = some w → JsLeaf w ks v → JsLeaf (.obj m) (k :: ks) v

/-- The dotted name of a sequence of keys: the key `children` is left out, except in front. -/
def leafName : List Bytes → Bytes
  | [] => []
  | k :: ks => k ++ ((ks.filter fun k => k ≠ b!"children").map fun k => bDot :: k).flatten

/-- The keys of the data satisfy a condition. -/
def KeysAre (P : Bytes → Prop) (d : Js) : Prop := ∀ ks m, JsAt d ks (.obj m) → ∀ k ∈ mkeys m, P k

/-- A key that a dotted name can spell. -/
def DotKey (k : Bytes) : Prop := k ≠ [] ∧ bDot ∉ k

/-- A key that survives the way through the leaf nodes. -/
def BuildKey (k : Bytes) : Prop := DotKey k ∧ k ≠ b!"children" ∧ ¬ (k.head? = some 91 ∧ k.getLast? = some 93)

/-- The member `children` stands alone. -/
def ChildrenAlone (d : Js) : Prop := ∀ ks m, JsAt d ks (.obj m) → b!"children" ∈ mkeys m → m.length = 1

/-- No map inside the data is empty. -/
def NoEmptyMap (d : Js) : Prop := ∀ ks, JsAt d ks (.obj []) → ks = []

/-- Equal up to the order of the members of maps. -/
inductive SameTree : Js → Js → Prop
  | same (v : Js) : SameTree v v
  | obj (m n : List (Bytes × Js)) : (∀ k, (mget m k).isSome = (mget n k).isSome) →
      (∀ k v w, mget m k = some v → mget n k = some w → SameTree v w) → SameTree (.obj m) (.obj n)

end Verif
