import Verif.Tson
/-
Small specifications about documents and pointers, used in the statements about reading.
-/
namespace Verif

/-- The pointer `/k1/k2/...` spelling a sequence of keys, each key escaped by RFC 6901. -/
def pointer : List Bytes → Bytes
  | [] => []
  | k :: ks => bSlash :: (encode k ++ pointer ks)

/-- Following keys through a document: members of objects by name, elements of arrays by decimal
index. -/
inductive Reaches : Tson → List Bytes → Tson → Prop
  | here (t) : Reaches t [] t
  | member (m k ks c t) : mget m k = some c → Reaches c ks t → Reaches (.obj m) (k :: ks) t
  | element (l k ks) (i : Nat) (c t) : atoi k = some (i : Int) → l[i]? = some c → Reaches c ks t →
      Reaches (.arr l) (k :: ks) t

/-- `ts` is the timestamp of a leaf of the document. -/
inductive LeafTime (ts : Int) : Tson → Prop
  | leaf (p) : LeafTime ts (.leaf p ts)
  | obj (m k c) : (k, c) ∈ m → LeafTime ts c → LeafTime ts (.obj m)
  | arr (l c) : c ∈ l → LeafTime ts c → LeafTime ts (.arr l)

/-- The document contains a nil value. -/
inductive HasNull : Tson → Prop
  | null : HasNull .null
  | obj (m k c) : (k, c) ∈ m → HasNull c → HasNull (.obj m)
  | arr (l c) : c ∈ l → HasNull c → HasNull (.arr l)

/-- `r` is the newest timestamp in the document: no nil value occurs and no leaf is newer; a leaf has it, or the
document is a container without a leaf after time 0 and `r` is 0. -/
def NewestTime (t : Tson) (r : Int) : Prop :=
  ¬ HasNull t ∧ (∀ ts, LeafTime ts t → ts ≤ r) ∧
  ((LeafTime r t ∧ ((∃ p, t = .leaf p r) ∨ 0 ≤ r)) ∨ (r = 0 ∧ ∀ p ts, t ≠ .leaf p ts))

end Verif
