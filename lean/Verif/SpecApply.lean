import Verif.SpecDoc
import Verif.Logument
/-
Small specifications used in the statements about applying operations.

`applyDoc`, `docAfter` and `patchDoc` run the modelled Go code on a freshly allocated document and
look at the resulting heap; they contain no description of what an operation should do.
-/
namespace Verif

/-- The document returned by `ApplyOperation(t, op)` for a freshly allocated `t`. -/
def applyDoc (t : Tson) (op : Op) : Res Tson :=
  let r := Heap.store [] t
  match applyOperation r.1 r.2 op with
  | (h, .ok v) =>
    match h.view v with
    | some t' => .ok t'
    | none => .panic
  | (_, .err) => .err
  | (_, .panic) => .panic

/-- What the caller's document looks like after `ApplyOperation(t, op)`, whatever the outcome. -/
def docAfter (t : Tson) (op : Op) : Option Tson :=
  let r := Heap.store [] t
  (applyOperation r.1 r.2 op).1.view r.2

/-- The document returned by `ApplyPatch(t, ops)` for a freshly allocated `t`. -/
def patchDoc (t : Tson) (ops : List Op) : Res Tson :=
  let r := Heap.store [] t
  match applyPatch r.1 r.2 ops with
  | (h, .ok v) =>
    match h.view v with
    | some t' => .ok t'
    | none => .panic
  | (_, .err) => .err
  | (_, .panic) => .panic

/-- Applying operations one after another, each to the result of the previous one. -/
def replay (t : Tson) : List Op → Res Tson
  | [] => .ok t
  | op :: ops => (applyDoc t op).bind fun t' => replay t' ops

/-- The values an operation can write, and the leaf payload they become. -/
inductive Writes : GVal → Prim → Prop
  | str (s) : Writes (.str s) (.str s)
  | num (f) : Writes (.num f) (.num f)
  | int (n) : Writes (.int n) (.num (F64.ofInt n))
  | bool (b) : Writes (.bool b) (.bool b)

/-- Two locations part ways at an object that is reached through objects only. -/
inductive Apart : Tson → List Bytes → List Bytes → Prop
  | here (m k k' ps qs) : k ≠ k' → Apart (.obj m) (k :: ps) (k' :: qs)
  | down (m k c ps qs) : mget m k = some c → Apart c ps qs → Apart (.obj m) (k :: ps) (k :: qs)

/-- Two locations part ways at different, existing elements of an array that is reached through
objects only. -/
inductive ApartElem : Tson → List Bytes → List Bytes → Prop
  | here (m k l i j ps qs) (a : Int) (b : Nat) : mget m k = some (.arr l) → atoi i = some a →
      atoi j = some (b : Int) → a ≠ b → b < l.length → ApartElem (.obj m) (k :: i :: ps) (k :: j :: qs)
  | down (m k c ps qs) : mget m k = some c → ApartElem c ps qs → ApartElem (.obj m) (k :: ps) (k :: qs)

/-- The parent of the location is an object reached through objects only. -/
inductive InObject : Tson → List Bytes → Prop
  | here (m k) : InObject (.obj m) [k]
  | down (m k c ks) : mget m k = some c → InObject c ks → InObject (.obj m) (k :: ks)

/-- Following `ks` through objects only leads to `t'`. -/
inductive ThroughObjects : Tson → List Bytes → Tson → Prop
  | here (m k c) : mget m k = some c → ThroughObjects (.obj m) [k] c
  | down (m k c ks t') : mget m k = some c → ThroughObjects c ks t' → ThroughObjects (.obj m) (k :: ks) t'

end Verif
