import Verif.TJson
/-
The documents and patches of the simulated vehicle (exp/utils.go, exp/exp_scenario.go).

Values (`any`) are `Js`; an `int64` is `Js.int`.  Documents are trees of nested maps: `map[string]any` values are created
by the functions below (or read from a file) and referenced once, so that updating a map in place is rebuilding the tree.
Times spent, CSV rows, counters of the progress display and printed texts are not modelled.
-/
namespace Verif

/-- `m.(map[string]any)` where anything else is replaced by an empty map (exp/utils.go:46-52, 75-81). -/
def subMap : Option Js → List (Bytes × Js)
  | some (.obj n) => n
  | _ => []

/-- The loops of `updateJsonDoc` and `updateTsonDoc` (exp/utils.go:45-53, 74-82): everything on the way that is not a map
is replaced by an empty map; `leaf` makes the new last member out of the old one. -/
def docUpdate (leaf : Option Js → Js) (m : List (Bytes × Js)) : List Bytes → List (Bytes × Js)
  | [] => m
  | [k] => mset m k (leaf (mget m k))
  | k :: k' :: ks => mset m k (.obj (docUpdate leaf (subMap (mget m k)) (k' :: ks)))

/-- The last member in `updateJsonDoc` (exp/utils.go:57-65). -/
def jsonNode (v : Js) (ts : Int) : Option Js → Js
  | some (.obj n) => .obj (mset (mset n b!"value" v) b!"timestamp" (.int ts))
  | _ => .obj [(b!"value", v), (b!"timestamp", .int ts)]

/-- The last member in `updateTsonDoc` (exp/utils.go:86-90) and `addPathToTsonDoc` (exp/utils.go:211-215). -/
def tsonNode (v : Js) (ts : Int) : Js := .obj [(b!"value", v), (b!"_ts", .int ts)]

/-- `updateJsonDoc` (exp/utils.go:40-66). -/
def updateJsonDoc (doc : List (Bytes × Js)) (path : Bytes) (v : Js) (ts : Int) : List (Bytes × Js) :=
  docUpdate (jsonNode v ts) doc (split bDot path)

/-- `updateTsonDoc` (exp/utils.go:69-91). -/
def updateTsonDoc (doc : List (Bytes × Js)) (path : Bytes) (v : Js) (ts : Int) : List (Bytes × Js) :=
  docUpdate (fun _ => tsonNode v ts) doc (split bDot path)

/-- The loops of `addPathToJsonDoc` and `addPathToTsonDoc` (exp/utils.go:168-186, 195-215): a member on the way that is
no map panics (failed type assertion). -/
def docAdd (leaf : Js) (m : List (Bytes × Js)) : List Bytes → Res (List (Bytes × Js))
  | [] => .ok m
  | [k] => .ok (mset m k leaf)
  | k :: k' :: ks =>
    match mget m k with
    | none => (docAdd leaf [] (k' :: ks)).map fun n => mset m k (.obj n)
    | some (.obj n) => (docAdd leaf n (k' :: ks)).map fun n' => mset m k (.obj n')
    | some _ => .panic

/-- A sensor as far as the documents are concerned: path, value and timestamp (`SensorData`, exp/vss_config.go:29-38). -/
structure Sensor where
  path : Bytes
  value : Js
  ts : Int
deriving Repr, Inhabited

/-- `vehicleDataToJsonDoc` (exp/utils.go:119-138) for the sensors in the order the maps are iterated in. -/
def vehicleJson : List (Bytes × Js) → List Sensor → Res (List (Bytes × Js))
  | m, [] => .ok m
  | m, s :: ss => (docAdd (jsonNode s.value s.ts none) m (split bDot s.path)).bind fun m' => vehicleJson m' ss

/-- `vehicleDataToTsonDoc` (exp/utils.go:141-160), likewise. -/
def vehicleTson : List (Bytes × Js) → List Sensor → Res (List (Bytes × Js))
  | m, [] => .ok m
  | m, s :: ss => (docAdd (tsonNode s.value s.ts) m (split bDot s.path)).bind fun m' => vehicleTson m' ss

/-! ### The simulation -/

/-- `JsonPatch` (exp/exp_scenario.go:45-49). -/
structure JPatch where
  op : Bytes
  path : Bytes
  value : Js
deriving Repr, Inhabited

/-- One sensor that is due: its path, the value calculated for it and the time (exp/exp_scenario.go:448-456). -/
structure Reading where
  path : Bytes
  value : Js
  ts : Int
deriving Repr, Inhabited

/-- What the loop of `runRealisticExperiment` keeps (exp/exp_scenario.go:347-388): the values of the sensors, the two
documents, the three lists of patches and the three counters. -/
structure Sim where
  sensors : List (Bytes × Js)
  json : List (Bytes × Js)
  tson : List (Bytes × Js)
  jsonPatches : List JPatch := []
  tsonPatches : List TPatch := []
  setPatches : List TPatch := []
  updates : Nat := 0
  changes : Nat := 0
  unchanged : Nat := 0
deriving Inhabited

/-- The body of the loop over the sensors (exp/exp_scenario.go:450-523).  `eq` stands for `isEqual` (exp/utils.go:94-116);
no property of it is used. -/
def Sim.step (eq : Js → Js → Bool) (s : Sim) (r : Reading) : Sim :=
  let changed := !eq ((mget s.sensors r.path).getD .null) r.value
  { sensors := if changed then mset s.sensors r.path r.value else s.sensors
    json := updateJsonDoc s.json r.path r.value r.ts
    tson := if changed then updateTsonDoc s.tson r.path r.value r.ts else s.tson
    jsonPatches := s.jsonPatches ++ ⟨b!"replace", r.path ++ b!"/timestamp", .int r.ts⟩ ::
      if changed then [⟨b!"replace", r.path ++ b!"/value", r.value⟩] else []
    tsonPatches := if changed then s.tsonPatches ++ [⟨b!"replace", r.path, r.value, r.ts⟩] else s.tsonPatches
    setPatches := s.setPatches ++ [⟨b!"replace", r.path, r.value, r.ts⟩]
    updates := s.updates + 1
    changes := if changed then s.changes + 1 else s.changes
    unchanged := if changed then s.unchanged else s.unchanged + 1 }

/-- The loops over time and sensors (exp/exp_scenario.go:391-566): the readings in the order they are taken. -/
def Sim.run (eq : Js → Js → Bool) (s : Sim) (rs : List Reading) : Sim := rs.foldl (Sim.step eq) s

end Verif
