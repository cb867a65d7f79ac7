import Verif.Exp
import Verif.Logument
/-
Preparation and queries of the temporal experiments (exp/utils_temporal.go, exp/exp_temporal.go) and the scenarios of the
simulation (exp/scenario.go).

JSON texts read from files are `Js` values: after `json.Unmarshal` numbers are `Js.num`.  Maps are visited in the order
of their list.  Warnings printed are not modelled.
-/
namespace Verif

/-! ### From the JSON document to values and patches -/

mutual
/-- `transformJsonStructure` (exp/utils_temporal.go:393-440): a map with members `timestamp` and `value` becomes its
value, nil becomes the empty string. -/
def jsTransform : Js → Js
  | .obj m =>
    match mget m b!"timestamp", mget m b!"value" with
    | some _, some .null => .str []
    | some _, some v => v
    | _, _ => .obj (jsTransformF m)
  | .arr l => .arr (jsTransformL l)
  | j => j
/-- The fields of a map (exp/utils_temporal.go:422-425). -/
def jsTransformF : List (Bytes × Js) → List (Bytes × Js)
  | [] => []
  | (k, j) :: m => (k, jsTransform j) :: jsTransformF m
/-- The elements of a slice (exp/utils_temporal.go:430-433). -/
def jsTransformL : List Js → List Js
  | [] => []
  | j :: l => jsTransform j :: jsTransformL l
end

/-- `isPrimitive` (exp/utils_temporal.go:606-613). -/
def isPrimitive : Js → Bool
  | .null | .bool _ | .num _ | .str _ => true
  | _ => false

/-- `primitiveValues` (exp/utils_temporal.go:545-559). -/
def primitives (m : List (Bytes × Js)) : List (Bytes × Js) := m.filter fun e => isPrimitive e.2

/-- The path of a member (exp/utils_temporal.go:538-541). -/
def memberPath (path key : Bytes) : Bytes := if path = [] then key else path ++ bDot :: key

/-- The path of an element (exp/utils_temporal.go:577). -/
def elementPath (path : Bytes) (i : Nat) : Bytes := path ++ bDot :: natDigits i

mutual
/-- `generateInitialPatches` (exp/utils_temporal.go:533-603), as the patches appended. -/
def initialPatches (path : Bytes) : Js → List TPatch
  | .obj m => initialPatchesF path (primitives m) m
  | .arr l => initialPatchesL path 0 l
  | v => if path = [] then [] else [⟨b!"add", path, v, 0⟩]
/-- The loop over the fields (exp/utils_temporal.go:537-572); the patch for the map itself is made for each of them. -/
def initialPatchesF (path : Bytes) (prims : List (Bytes × Js)) : List (Bytes × Js) → List TPatch
  | [] => []
  | (k, v) :: m =>
    (if prims.isEmpty then [] else [⟨b!"add", path, .obj prims, 0⟩]) ++ initialPatches (memberPath path k) v ++
      initialPatchesF path prims m
/-- The loop over the elements (exp/utils_temporal.go:576-590). -/
def initialPatchesL (path : Bytes) (i : Nat) : List Js → List TPatch
  | [] => []
  | v :: l =>
    (if isPrimitive v then [⟨b!"add", elementPath path i, v, 0⟩] else initialPatches (elementPath path i) v) ++
      initialPatchesL path (i + 1) l
end

/-- `CreateInitialPatchesFromJSON` (exp/utils_temporal.go:501-530) without reading the file. -/
def createInitialPatches (doc : List (Bytes × Js)) : List TPatch := initialPatches [] (jsTransform (.obj doc))

/-! ### Queries on a logument -/

/-- `>` on `float64`: the numbers are compared as multiples of the smallest positive one. [exp/utils_temporal.go:472] -/
def F64.units : F64 → Int
  | .fin neg m e _ => if neg then - ((m * 2 ^ (e + 1074).toNat : Nat) : Int) else ((m * 2 ^ (e + 1074).toNat : Nat) : Int)
  | _ => 0

/-- `a < b` on `float64`. [exp/utils_temporal.go:472] -/
def F64.flt : F64 → F64 → Bool
  | .nan, _ => false
  | _, .nan => false
  | .inf a, .inf b => a && !b
  | .inf a, .fin .. => a
  | .fin .., .inf b => !b
  | a, b => decide (a.units < b.units)

/-- `a <= b` on `float64`. [exp/scenario.go:683, 703] -/
def F64.fle (a b : F64) : Bool := F64.flt a b || F64.feq a b

/-- `filterTrackByPath` (exp/utils_temporal.go:443-458). -/
def filterTrack (track : List (Nat × List Op)) (path : Bytes) : List (Nat × List Op) :=
  track.filterMap fun e =>
    let l := e.2.filter fun p => decide (p.path = path)
    if l = [] then none else some (e.1, l)

/-- The test of `findEventsInLogument` (exp/utils_temporal.go:471-472). -/
def isEvent (path : Bytes) (threshold : F64) (p : Op) : Bool :=
  decide (p.path = path) && match p.value with
    | .num f => F64.flt threshold f
    | _ => false

/-- `findEventsInLogument` (exp/utils_temporal.go:461-479); `order` is the order in which the map of changes is
visited. -/
def findEvents (order : List (Nat × List Op) → List (Nat × List Op)) (g : Lgm) (path : Bytes) (s e : Int)
    (threshold : F64) : Lgm × Res (List Int) :=
  match g.temporalTrack s e with
  | (g', .ok changes) =>
    (g', .ok (((order changes).flatMap Prod.snd |>.filter (isEvent path threshold)).map Op.ts))
  | (g', .err) => (g', .err)
  | (g', .panic) => (g', .panic)

/-- `getTimeRange` (exp/exp_temporal.go:193-212), and the same computation in `generateTimestamps`
(exp/exp_temporal.go:158-171); `now` is `time.Now().Unix()`. -/
def timeRange (now : Int) : List TPatch → Int × Int
  | [] => (now - 3600, now)
  | p :: ps =>
    (p :: ps).foldl (fun r q => (if q.ts < r.1 then q.ts else r.1, if r.2 < q.ts then q.ts else r.2)) (p.ts, p.ts)

/-! ### Scenarios -/

/-- `ScenarioState` (exp/scenario.go:644-650). -/
structure Scenario where
  current : Bytes
  previous : Bytes
  battery : F64
  lastSwitch : Int
  cooldown : Int
deriving Repr

/-- `NewScenarioState` (exp/scenario.go:653-661). -/
def newScenario (initial : Bytes) (battery : F64) : Scenario := ⟨initial, initial, battery, 0, 60000⟩

/-- The constants 10.0 and 99.95 (exp/scenario.go:683, 703). -/
def lowBattery : F64 := F64.ofInt 10

@[inherit_doc lowBattery]
def fullBattery : F64 := (F64.ofRatio false 9995 100).getD .nan

/-- The switch (exp/scenario.go:680-707). -/
def Scenario.next (s : Scenario) : Scenario :=
  if s.current = b!"urban_traffic" then
    if F64.fle s.battery lowBattery then { s with previous := s.current, current := b!"battery_charging" } else s
  else if s.current = b!"battery_charging" then
    if F64.fle fullBattery s.battery then { s with current := s.previous } else s
  else s

/-- `UpdateScenarioState` (exp/scenario.go:664-718) without the new settings of the sensors.  `level` is the value of the
battery sensor, if it exists and is a `float64`. -/
def Scenario.update (s : Scenario) (level : Option F64) (now : Int) : Scenario × Bool :=
  let s := { s with battery := level.getD s.battery }
  if now - s.lastSwitch < s.cooldown then (s, false)
  else
    let n := s.next
    if s.current = n.current then (n, false) else ({ n with lastSwitch := now }, true)

/-- `ScenarioTransition` (exp/exp_scenario.go:60-66). -/
structure Transition where
  time : Int
  source : Bytes
  target : Bytes
  battery : F64
  count : Nat
deriving DecidableEq, Repr

/-- One time step of the simulation (exp/exp_scenario.go:395-416). -/
def Scenario.tick (st : Scenario × List Transition) (x : Int × Option F64) : Scenario × List Transition :=
  match st.1.update x.2 x.1 with
  | (s, true) => (s, st.2 ++ [⟨x.1, s.previous, s.current, s.battery, st.2.length + 1⟩])
  | (s, false) => (s, st.2)

/-- The loop (exp/exp_scenario.go:391-416): the times and battery levels of the steps. -/
def Scenario.run (s : Scenario) (xs : List (Int × Option F64)) : Scenario × List Transition :=
  xs.foldl Scenario.tick (s, [])

end Verif
