import Verif.TJson
/-
Specifications for the TJSON store: what the versions of a path are, and which value a list of patches puts in force at a
time.
-/
namespace Verif

/-- The versions recorded for a split path, none if there is no such item. [exp/tjson.go:20-24] -/
def versionsAt (d : TDoc) (ks : List Bytes) : List TVersion :=
  match tItemAt d ks with
  | some it => it.versions
  | none => []

/-- The children of an item, and of the items below, are maps: no key occurs twice. [exp/tjson.go:20-24] -/
inductive TItem.Wf : TItem → Prop
  | mk {p : Bytes} {vs : List TVersion} {cs : List (Bytes × TItem)} :
    (mkeys cs).Nodup → (∀ e ∈ cs, TItem.Wf e.2) → TItem.Wf (.mk p vs cs)

/-- The items of a document are a map, and so are the children below. [exp/tjson.go:15-17] -/
def TDoc.Wf (d : TDoc) : Prop := (mkeys d).Nodup ∧ ∀ e ∈ d, e.2.Wf

/-- The period of a version, read back, contains the time. [exp/tjson.go:259-262] -/
def Covers (v : TVersion) (t : Int) : Prop := (parsePeriod v.period).1 ≤ t ∧ t ≤ (parsePeriod v.period).2

instance (v : TVersion) (t : Int) : Decidable (Covers v t) := inferInstanceAs (Decidable (_ ∧ _))

/-- The member of a JSON value at a split path. [`interface{}` values, exp/tjson.go:93-181] -/
def Js.at? : Js → List Bytes → Option Js
  | j, [] => some j
  | .obj m, k :: ks => (mget m k).bind fun c => c.at? ks
  | _, _ :: _ => none

/-- A patch that sets a value. [exp/tjson.go:300] -/
def TPatch.Sets (p : TPatch) : Prop := p.op = b!"add" ∨ p.op = b!"replace"

/-- A patch that removes a value. [exp/tjson.go:318] -/
def TPatch.Removes (p : TPatch) : Prop := p.op = b!"remove"

instance (p : TPatch) : Decidable p.Sets := inferInstanceAs (Decidable (_ ∨ _))
instance (p : TPatch) : Decidable p.Removes := inferInstanceAs (Decidable (_ = _))

/-- The patch concerns the path (given with dots). [exp/tjson.go:291-297] -/
def TPatch.On (p : TPatch) (q : Bytes) : Prop := tPath p.path = q ∧ (p.Sets ∨ p.Removes)

instance (p : TPatch) (q : Bytes) : Decidable (p.On q) := inferInstanceAs (Decidable (_ ∧ _))

/-- `p` is the latest patch for the path at the time: no other one is as late. [exp/tjson.go:281-283] -/
structure Governs (ps : List TPatch) (q : Bytes) (t : Int) (p : TPatch) : Prop where
  mem : p ∈ ps
  on : p.On q
  le : p.ts ≤ t
  latest : ∀ p' ∈ ps, p'.On q → p'.ts ≤ t → p' = p ∨ p'.ts < p.ts

/-- The value after the patches of a list up to a time, executed in list order. [exp/tjson.go:290-332] -/
def inForce (q : Bytes) (t : Int) : List TPatch → Option Js → Option Js
  | [], cur => cur
  | p :: l, cur =>
    inForce q t l
      (if p.ts ≤ t ∧ tPath p.path = q then (if p.Sets then some p.value else if p.Removes then none else cur) else cur)

/-- Two values that `FromTSONPatches` does not distinguish: identical, or equal for `reflect.DeepEqual`.
[exp/tjson.go:303] -/
def SameValue (a b : Js) : Prop := a = b ∨ jsEq a b = true

/-- The times a list of patches may have for the periods to be readable: not negative, and all patches for one path at
time 0 set equal values. [exp/tjson.go:265-274, 308, 322] -/
structure GoodTimes (ps : List TPatch) : Prop where
  nonneg : ∀ p ∈ ps, 0 ≤ p.ts
  int64 : ∀ p ∈ ps, p.ts ≤ maxInt64
  zero : ps.Pairwise fun a b => a.ts = 0 → b.ts = 0 → tPath a.path = tPath b.path →
    a.Sets ∧ b.Sets ∧ jsEq a.value b.value = true ∧ jsEq b.value a.value = true

end Verif
