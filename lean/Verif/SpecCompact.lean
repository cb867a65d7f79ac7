import Verif.Logument
/-
Small specifications used in the statements about `Track`, `TemporalTrack`, `Compact` and `History`.
-/
namespace Verif

/-- Two operation values that Go's `==` on `any` calls equal: same dynamic type and same value. -/
inductive SameGo : GVal → GVal → Prop
  | nil : SameGo .nil .nil
  | str (s) : SameGo (.str s) (.str s)
  | num (a b) : F64.feq a b = true → SameGo (.num a) (.num b)
  | int (n) : SameGo (.int n) (.int n)
  | bool (b) : SameGo (.bool b) (.bool b)
  | leafStr (s ts) : SameGo (.leaf (.str s) ts) (.leaf (.str s) ts)
  | leafNum (a b ts) : F64.feq a b = true → SameGo (.leaf (.num a) ts) (.leaf (.num b) ts)
  | leafBool (b ts) : SameGo (.leaf (.bool b) ts) (.leaf (.bool b) ts)
  | scalar (k i) : SameGo (.scalar k i) (.scalar k i)

/-- Comparing the two values panics in Go: the same uncomparable dynamic type (maps, slices). -/
def Uncomparable (a b : GVal) : Prop := ∃ k i j, a = .container k i ∧ b = .container k j

/-- Some comparison of two operations on the same path would panic. -/
def HasUncomparable (l : List Op) : Prop :=
  ∃ x ∈ l, ∃ y ∈ l, x.path = y.path ∧ Uncomparable x.value y.value

/-- The log as one list: every recorded operation with its version, in version order. -/
def records (g : Lgm) : List (Nat × Op) :=
  g.version.flatMap fun v => (match mget g.patches v with | some p => p | none => []).map fun o => (v, o)

/-- The entries of a version-to-patch map as one list. -/
def entries (r : List (Nat × List Op)) : List (Nat × Op) :=
  r.flatMap fun vp => vp.2.map fun o => (vp.1, o)

/-- A log entry together with the decision to keep it. -/
structure Entry where
  version : Nat
  op : Op
  kept : Bool

/-- The marked log without the marks. -/
def unmark (M : List Entry) : List (Nat × Op) := M.map fun e => (e.version, e.op)

/-- The kept part of a marked log. -/
def keptOf (M : List Entry) : List (Nat × Op) := unmark (M.filter fun e => e.kept)

/-- `y` is the last kept operation on `path`. -/
def LastKept (M : List Entry) (path : Bytes) (y : Op) : Prop :=
  ∃ a v c, M = a ++ ⟨v, y, true⟩ :: c ∧ y.path = path ∧ ∀ e ∈ c, e.kept = true → e.op.path ≠ path

/-- The operation changes the value: the last kept operation on the same path, if any, has another value. -/
def Changes (before : List Entry) (o : Op) : Prop :=
  ∀ y, LastKept before o.path y → ¬ SameGo y.value o.value

/-- Exactly the value changes among the operations inside the window are kept. -/
def WindowMarking (tsi tsj : Int) (M : List Entry) : Prop :=
  ∀ a e b, M = a ++ e :: b → (e.kept = true ↔ (tsi ≤ e.op.ts ∧ e.op.ts ≤ tsj) ∧ Changes a e.op)

/-- An operation is dropped exactly if its path matches and it does not change the value. -/
def CompactMarking (matching : Bytes → Prop) (M : List Entry) : Prop :=
  ∀ a e b, M = a ++ e :: b → (e.kept = true ↔ (matching e.op.path → Changes a e.op))

/-- The decoded path starts with the given text. -/
def Matches (pre : Bytes) (path : Bytes) : Prop := ∃ rest, decode path = pre ++ rest

/-- The part of the log in a range of versions. -/
def recordsIn (g : Lgm) (vi vj : Nat) : List (Nat × Op) :=
  (records g).filter fun r => decide (vi ≤ r.1 ∧ r.1 ≤ vj)

/-- A log without repeated values in the range: every operation changes the value. -/
def NoRepeats (l : List (Nat × Op)) : Prop :=
  CompactMarking (fun _ => True) (l.map fun r => ⟨r.1, r.2, true⟩)

/-- Recorded operations on one path have non-decreasing timestamps. -/
def TimeOrdered (l : List (Nat × Op)) : Prop :=
  l.Pairwise fun x y => x.2.path = y.2.path → x.2.ts ≤ y.2.ts

/-- The operations on one path, in order. -/
def opsOn (path : Bytes) (l : List (Nat × Op)) : List Op := (l.filter fun r => decide (r.2.path = path)).map Prod.snd

/-- The log entries of one version. -/
def recordsOf (g : Lgm) (v : Nat) : List (Nat × Op) := (records g).filter fun r => decide (r.1 = v)

/-! ### Replaying a compacted log -/

/-- Equal leaf payloads, where numbers are compared by Go's `==`. -/
def SamePrim (p q : Prim) : Prop :=
  p = q ∨ ∃ a b, p = .num a ∧ q = .num b ∧ F64.feq a b = true

/-- The same values at every path; only timestamps may differ. -/
inductive SameVals : Tson → Tson → Prop
  | null : SameVals .null .null
  | leaf (p q : Prim) (t u : Int) : SamePrim p q → SameVals (.leaf p t) (.leaf q u)
  | obj (m m' : List (Bytes × Tson)) : (∀ k, (mget m k).isSome = (mget m' k).isSome) →
      (∀ k c c', mget m k = some c → mget m' k = some c' → SameVals c c') → SameVals (.obj m) (.obj m')
  | arr (l l' : List Tson) : l.length = l'.length →
      (∀ (i : Nat) c c', l[i]? = some c → l'[i]? = some c' → SameVals c c') → SameVals (.arr l) (.arr l')

end Verif
