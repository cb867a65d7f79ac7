import Verif.ExpQuery
import Verif.SpecExp
import Verif.SpecCompact
/-
Statements about the preparation of the temporal experiments, used by C62-C66.
-/
namespace Verif

/-- A map that does not stand for a sensor: it lacks a timestamp or a value. -/
def Plain (m : List (Bytes × Js)) : Prop := mget m b!"timestamp" = none ∨ mget m b!"value" = none

instance (m : List (Bytes × Js)) : Decidable (Plain m) := inferInstanceAs (Decidable (_ ∨ _))

/-- Every map passed on the way to `ks` is plain. -/
def PlainWay (j : Js) (ks : List Bytes) : Prop :=
  ∀ ks₁ ks₂, ks = ks₁ ++ ks₂ → ks₂ ≠ [] → ∀ m, j.at? ks₁ = some (.obj m) → Plain m

/-- The value of a sensor, where nil stands for the empty string. -/
def nilAsEmpty : Js → Js
  | .null => .str []
  | v => v

/-- `v` lies in `j` at the keys and indices given. -/
inductive Js.Inside : Js → List Bytes → Js → Prop
  | here (j) : Js.Inside j [] j
  | member {m k c ks v} : (k, c) ∈ m → Js.Inside c ks v → Js.Inside (.obj m) (k :: ks) v
  | element {l i c ks v} : l[i]? = some c → Js.Inside c ks v → Js.Inside (.arr l) (natDigits i :: ks) v

/-- A value that is neither a map nor a slice. -/
def Js.IsAtom : Js → Prop
  | .obj _ | .arr _ => False
  | _ => True

/-- A member is a string, a number, a boolean or nil. -/
def Js.IsPrim : Js → Prop
  | .null | .bool _ | .num _ | .str _ => True
  | _ => False

instance (j : Js) : Decidable j.IsPrim := by cases j <;> simp only [Js.IsPrim] <;> infer_instance

/-- The value recorded for something in the document: an atom as it is, a map by those of its members that are
primitive, if there are any. -/
inductive Recorded : Js → Js → Prop
  | atom {w} : w.IsAtom → Recorded w w
  | map {n} : n.filter (fun e => decide e.2.IsPrim) ≠ [] → Recorded (.obj n) (.obj (n.filter fun e => decide e.2.IsPrim))

/-- An operation on the path whose value is a number above the threshold. -/
def Exceeds (path : Bytes) (threshold : F64) (o : Op) : Prop :=
  o.path = path ∧ ∃ f, o.value = .num f ∧ F64.flt threshold f = true

end Verif
