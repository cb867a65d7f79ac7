import Verif.Exp
import Verif.SpecTJson
/-
Statements about the documents of the simulated vehicle, used by C58-C61.  `Js.at?` (SpecTJson) reads a value at a list
of keys.
-/
namespace Verif

/-- Neither location lies inside the other. -/
def Incomparable (ps qs : List Bytes) : Prop := ¬ ps <+: qs ∧ ¬ qs <+: ps

/-- A value that is not a map. -/
def Js.IsScalar : Js → Prop
  | .obj _ => False
  | _ => True

/-- The value read for `p` last, or else `v₀`. -/
def lastReading (rs : List Reading) (p : Bytes) (v₀ : Js) : Js :=
  (((rs.filter fun r => decide (r.path = p)).getLast?).map Reading.value).getD v₀

/-- The time of the last reading of `p`, if there is one. -/
def lastTime (rs : List Reading) (p : Bytes) : Option Int :=
  ((rs.filter fun r => decide (r.path = p)).getLast?).map Reading.ts

/-- The value of a sensor in a document of either kind. -/
def valueAt (doc : List (Bytes × Js)) (p : Bytes) : Option Js := (Js.obj doc).at? (split bDot p ++ [b!"value"])

/-- The documents at the start of the simulation: they hold the values of the sensors, and no sensor lies inside
another. -/
structure Sim.Start (s : Sim) : Prop where
  json : ∀ p v, mget s.sensors p = some v → valueAt s.json p = some v
  tson : ∀ p v, mget s.sensors p = some v → valueAt s.tson p = some v
  apart : ∀ p ∈ mkeys s.sensors, ∀ q ∈ mkeys s.sensors, p ≠ q → Incomparable (split bDot p) (split bDot q)
  empty : s.jsonPatches = [] ∧ s.tsonPatches = [] ∧ s.setPatches = [] ∧ s.updates = 0 ∧ s.changes = 0 ∧ s.unchanged = 0

/-- Writing the patches into a document, one after the other: the value of the patch becomes the member at its path
(split at '.' and '/'). -/
def writePatches (doc : List (Bytes × Js)) (ps : List JPatch) : List (Bytes × Js) :=
  ps.foldl (fun d p => docUpdate (fun _ => p.value) d (split bSlash (dotsToSlashes p.path))) doc

end Verif
