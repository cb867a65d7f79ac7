import Verif.SpecVssGen
/-
Statements about paths with indices and about ranges of drawn numbers, used by C73 and C74.
-/
namespace Verif

/-- A step of a path: a member of a map, or an element of the array that a map has as its member `array`. -/
inductive VssStep
  | name (k : Bytes)
  | index (i : Int)
deriving DecidableEq, Repr

/-- The step that a part of a path stands for: `[7]` is an index, `[x]` is no step at all. -/
def vssStep (part : Bytes) : Option VssStep :=
  if part.head? = some 91 ∧ part.getLast? = some 93 then (atoi (part.drop 1).dropLast).map .index else some (.name part)

/-- What is found in a map by a step. -/
def VssStep.find (m : List (Bytes × Js)) : VssStep → Option Js
  | .name k => mget m k
  | .index i =>
    match mget m b!"array" with
    | some (.arr l) => if 0 ≤ i then l[i.toNat]? else none
    | _ => none

/-- What is found in a value by steps. -/
def findSteps : Js → List VssStep → Option Js
  | j, [] => some j
  | .obj m, s :: ss => (s.find m).bind fun j => findSteps j ss
  | _, _ :: _ => none

/-- Two steps lead to different places. -/
def VssStep.Apart : VssStep → VssStep → Prop
  | .name a, .name b => a ≠ b
  | .index i, .index j => i ≠ j
  | .name a, .index _ => a ≠ b!"array"
  | .index _, .name b => b ≠ b!"array"

/-- Two paths part somewhere. -/
inductive StepsApart : List VssStep → List VssStep → Prop
  | here (a b : VssStep) (as bs : List VssStep) : a.Apart b → StepsApart (a :: as) (b :: bs)
  | next (a : VssStep) (as bs : List VssStep) : StepsApart as bs → StepsApart (a :: as) (a :: bs)

/-- Steps meet a value that is not a map where a member is a step on the way. -/
inductive Obstructed : List (Bytes × Js) → List VssStep → Prop
  | here (m : List (Bytes × Js)) (k : Bytes) (v : Js) (s : VssStep) (ss : List VssStep) :
      mget m k = some v → v.isMap = false → Obstructed m (.name k :: s :: ss)
  | next (m n : List (Bytes × Js)) (s : VssStep) (ss : List VssStep) : s.find m = some (.obj n) → Obstructed n ss →
      Obstructed m (s :: ss)

/-- The range of the numbers drawn for an integer type. -/
def drawnRange (dt : Bytes) : Option (Int × Int) :=
  if dt = b!"int8" ∨ dt = b!"uint8" then some (0, 99)
  else if dt = b!"int16" ∨ dt = b!"int32" then some (-100, 100)
  else if dt = b!"uint16" ∨ dt = b!"uint32" then some (0, 100)
  else none

end Verif
