import Verif.SpecExpStore
/-
Statements about the tracks and events of the temporal experiments, used by C85.
-/
namespace Verif

/-- `L` are the readings on the path in the order of their times, which are all different. -/
structure ReadingsOn (rs : List TPatch) (q : Bytes) (L : List TPatch) : Prop where
  all : L.Perm (rs.filter fun r => decide (r.path = q))
  ascending : L.Pairwise fun a b => a.ts < b.ts

/-- The readings that change the value, beginning with the value given; without one, the first reading counts. -/
def changesFrom : Option Js → List TPatch → List TPatch
  | _, [] => []
  | none, r :: L => r :: changesFrom (some r.value) L
  | some v, r :: L => if jsEq v r.value then changesFrom (some v) L else r :: changesFrom (some r.value) L

/-- Every value differs from the one before. -/
def Changing : Js → List TPatch → Prop
  | _, [] => True
  | v, r :: L => jsEq v r.value = false ∧ Changing r.value L

/-- From when to when which value holds: each until just before the next, the last until `now`. -/
def periodsFrom (now s : Int) (v : Js) : List TPatch → List (Int × Int × Js)
  | [] => [(s, now, v)]
  | r :: L => (s, r.ts - 1, v) :: periodsFrom now r.ts r.value L

/-- The value after some readings: the last one, or the one at the beginning. -/
def valueAfter (v : Js) (l : List TPatch) : Js := ((l.getLast?).map TPatch.value).getD v

end Verif
