import Verif.SpecExpQuery
import Verif.SpecReplay
import Verif.ExpRun
import Verif.SpecJson
import Verif.JsonTrip
/-
Statements about the two stores that the temporal experiments compare, used by C67-C69.
-/
namespace Verif

/-- A document as decoded from JSON whose keys can be joined with dots: no key is empty or contains a dot or a slash, no
map has a key twice, and there is no NaN. -/
structure GoodDoc (d : Js) : Prop where
  keys : ∀ ks w, Js.Inside d ks w → ∀ k ∈ ks, k ≠ [] ∧ bDot ∉ k ∧ bSlash ∉ k
  unique : ∀ ks m, Js.Inside d ks (.obj m) → (mkeys m).Nodup
  numbers : ∀ ks f, Js.Inside d ks (.num f) → f ≠ .nan

/-- Readings: patches that set a value after the initial state. -/
def Readings (rs : List TPatch) : Prop := ∀ r ∈ rs, r.Sets ∧ 0 < r.ts ∧ r.ts ≤ maxInt64

/-- `u` is what the document looks like at time `t`: nil before the first operation; otherwise every operation up to `t`
that is the latest on its path has left its value (nothing after a remove), and all locations independent of these paths
are as in the document. -/
structure LooksAt (doc : Tson) (ops : List Op) (t : Int) (u : Tson) : Prop where
  before : (∀ p ∈ ops, t < p.ts) → u = .null
  written : ∀ p ∈ ops, p.ts ≤ t → (∀ p' ∈ ops, p'.path = p.path → p'.ts ≤ t → p' ≠ p → p'.ts < p.ts) →
    p.kind ≠ .remove → ∀ x, Writes p.value x → Reaches u (writeParts p.path) (.leaf x p.ts)
  removed : ∀ p ∈ ops, p.ts ≤ t → (∀ p' ∈ ops, p'.path = p.path → p'.ts ≤ t → p' ≠ p → p'.ts < p.ts) →
    p.kind = .remove → ∀ x, ¬ Reaches u (writeParts p.path) x
  others : (∃ p ∈ ops, p.ts ≤ t) → ∀ ks, (∀ p ∈ ops, p.ts ≤ t → Independent (writeParts p.path) ks) →
    ∀ x, Reaches u ks x ↔ Reaches doc ks x

/-- The operations change members of objects of the document. -/
def MembersOf (doc : Tson) (ops : List Op) : Prop :=
  ∀ p ∈ ops, ∀ ks k, writeParts p.path = ks ++ [k] → ∃ m, Reaches doc ks (.obj m)

/-- The keys of a vehicle document can be joined with dots and found again: not empty, without dots, slashes and
tildes. -/
def GoodKeys (d : Js) : Prop :=
  ∀ ks w, Js.Inside d ks w → ∀ k ∈ ks, k ≠ [] ∧ bDot ∉ k ∧ bSlash ∉ k ∧ bTilde ∉ k

/-- A sensor: a value inside maps whose keys are no numbers. -/
structure SensorAt (m : List (Bytes × Js)) (ks : List Bytes) (w : Js) : Prop where
  found : (Js.obj m).at? ks = some w
  atom : w.IsAtom
  names : ∀ k ∈ ks, atoi k = none

/-- Readings of the sensors of a document after the initial state, with strings, numbers and booleans as values. -/
def SensorReadings (m : List (Bytes × Js)) (rs : List TPatch) : Prop :=
  ∀ r ∈ rs, r.Sets ∧ 0 < r.ts ∧ r.ts ≤ maxInt64 ∧ r.value.IsPrim ∧ r.value ≠ .null ∧
    ∃ ks w, SensorAt m ks w ∧ r.path = joinWith bDot ks

/-- Like `SensorReadings`, but from time 0 on. -/
def ReadingsFrom0 (m : List (Bytes × Js)) (rs : List TPatch) : Prop :=
  ∀ r ∈ rs, r.Sets ∧ 0 ≤ r.ts ∧ r.ts ≤ maxInt64 ∧ r.value.IsPrim ∧ r.value ≠ .null ∧
    ∃ ks w, SensorAt m ks w ∧ r.path = joinWith bDot ks

/-- Both documents show the same value at the sensor. -/
def Agree (u : Tson) (j : Js) (ks : List Bytes) : Prop :=
  ∃ p ts v, Reaches u ks (.leaf p ts) ∧ j.at? ks = some v ∧ SameValue v (primJs p)

end Verif
