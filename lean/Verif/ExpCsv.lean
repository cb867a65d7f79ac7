import Verif.Csv
/-
The tables of results (exp/exp_scenario.go `RealworldScenario`, exp/sensor_data_save.go, exp/utils_temporal.go `SaveResults`).

Durations are given by the clock.  Errors of the file system and what is printed on the console are not modelled.
-/
namespace Verif

/-! ### The loop with its timing records -/

/-- What the clock shows: for the n-th update the time taken for JSON and for TSON (exp/exp_scenario.go:470-523), the start of
the experiment (exp/exp_scenario.go:360), and the time since the recorder was made at a time of the simulation
(exp/sensor_data_save.go:105-106). -/
structure Clocks where
  taken : Nat → Nat × Nat
  now : Int
  elapsed : Nat → Nat

/-- `TimingRecord` (exp/exp_scenario.go:94-101) with the current scenario (exp/exp_scenario.go:413, 554-556). -/
structure Timing where
  index : Nat
  time : Nat
  path : Bytes
  jsonNs : Nat
  tsonNs : Nat
  changed : Bool
  scenario : Bytes
deriving Repr, DecidableEq

/-- The record made for a sensor, if it is due (exp/exp_scenario.go:448-535). -/
def Trip.timing (k : Clocks) (scenario : Bytes) (c : Choices) (t : Nat) (path : Bytes) (r : Trip) : List Timing :=
  match sensorOf r.vehicle path with
  | none => []
  | some s =>
    match due t s.interval with
    | .ok true =>
      match s.read c t with
      | .ok (some x) =>
        [⟨r.sim.updates + 1, t, path, (k.taken (r.sim.updates + 1)).1, (k.taken (r.sim.updates + 1)).2, !isEqual s.value x.2,
          match r.state with | some st => st.current | none => scenario⟩]
      | _ => []
    | _ => []

/-- The loops over the sensors with the records (exp/exp_scenario.go:440-566). -/
def timedVisits (d : Draws) (k : Clocks) (scenario : Bytes) (t : Nat) : List Bytes → Trip × List Timing → Res (Option (Trip × List Timing))
  | [], r => .ok (some r)
  | p :: ps, r => (r.1.visit (d.read t p) t p).bind fun o =>
    match o with
    | none => .ok none
    | some r' => timedVisits d k scenario t ps (r', r.2 ++ r.1.timing k scenario (d.read t p) t p)

/-- The loop over time with the records (exp/exp_scenario.go:391-567). -/
def timedLoop (d : Draws) (k : Clocks) (scenario : Bytes) : List Nat → Trip × List Timing → Res (Option (Trip × List Timing))
  | [], r => .ok (some r)
  | t :: ts, r => (r.1.switch d t).bind fun r' =>
    (timedVisits d k scenario t (d.order t) (r'.note t, r.2)).bind fun o =>
      match o with
      | none => .ok none
      | some r'' => timedLoop d k scenario ts r''

/-- `runRealisticExperiment` with the timing records (exp/exp_scenario.go:314-629) for a duration in seconds. -/
def timedExperiment (secs : Nat) (d : Draws) (k : Clocks) (scenario : Bytes) : Res (Option (Trip × List Timing)) :=
  (Trip.start d scenario).bind fun r => timedLoop d k scenario (loopTimes (secs * 1000) simStep 0) (r, [])

/-! ### Percentages -/

/-- `(1 - a/b) * 100` (exp/exp_scenario.go:238, 540). -/
def reduction (a b : Nat) : F64 :=
  F64.mul (F64.sub (F64.ofInt 1) (F64.div (F64.ofInt a) (F64.ofInt b))) (F64.ofInt 100)

/-- The difference in a timing row (exp/exp_scenario.go:538-541). -/
def timingDiff (tson json : Nat) : F64 := if 0 < json then reduction tson json else F64.zero

/-- The differences in a row of the temporal results (exp/utils_temporal.go:324-332). -/
def diffPct (a b : Nat) : F64 :=
  if 0 < b then F64.mul (F64.div (F64.ofInt ((a : Int) - (b : Int))) (F64.ofInt b)) (F64.ofInt 100) else F64.zero

/-- The length of a text, 0 after an error, which is ignored (exp/exp_scenario.go:573-581). -/
def textSize (s : Res Bytes) : Nat :=
  match s with
  | .ok b => b.length
  | _ => 0

/-- The bandwidth: KB per second (exp/exp_scenario.go:584-586). -/
def bandwidth (size secs : Nat) : F64 := F64.div (F64.div (F64.ofInt size) (F64.ofInt secs)) (F64.ofInt 1024)

/-! ### The tables of a simulation -/

/-- The text of a number that is not negative. [`%d`, exp/exp_scenario.go:241-253] -/
def natText (n : Nat) : Bytes := itoa n

/-- The headers of results.csv (exp/exp_scenario.go:132-149). -/
def resultsHeader : List Bytes := [b!"Timestamp", b!"SimulationTimeMs", b!"TotalUpdates", b!"ValueChanges", b!"TimestampOnlyChanges",
  b!"JsonPatchCount", b!"TsonPatchCount", b!"SetTsonPatchCount", b!"JsonPatchSize", b!"TsonPatchSize", b!"SetTsonPatchSize",
  b!"JsonProcessingTimeNs", b!"TsonProcessingTimeNs", b!"JsonBandwidthUsage", b!"TsonBandwidthUsage", b!"PatchReduction"]

/-- The row of results.csv (exp/exp_scenario.go:238-257, 571-601).  Simplification: sums of durations do not overflow. -/
def resultsRow (secs : Nat) (k : Clocks) (r : Trip) (T : List Timing) : List Bytes :=
  let jsonSize := textSize (jsonSlice JPatch.json r.sim.jsonPatches)
  let tsonSize := textSize (jsonSlice TPatch.json r.sim.tsonPatches)
  [itoa k.now, natText (secs * 1000), natText r.sim.updates, natText r.sim.changes, natText r.sim.unchanged,
    natText r.sim.jsonPatches.length, natText r.sim.tsonPatches.length, natText r.sim.setPatches.length,
    natText jsonSize, natText tsonSize, natText (textSize (jsonSlice TPatch.json r.sim.setPatches)),
    natText (T.map Timing.jsonNs).sum, natText (T.map Timing.tsonNs).sum,
    fmtFixed 2 (bandwidth jsonSize secs), fmtFixed 2 (bandwidth tsonSize secs),
    fmtFixed 2 (reduction r.sim.tsonPatches.length r.sim.jsonPatches.length)]

/-- The rows of cumulative.csv (exp/exp_scenario.go:261-268): a missing entry panics. -/
def cumulativeRows : List Nat → List Nat → List Nat → Res (List (List Bytes))
  | [], _, _ => .ok []
  | t :: ts, j :: js, n :: ns => (cumulativeRows ts js ns).map fun l => [natText t, natText j, natText n] :: l
  | _ :: _, _, _ => .panic

/-- The headers of cumulative.csv (exp/exp_scenario.go:164-168). -/
def cumulativeHeader : List Bytes := [b!"TimeMs", b!"JsonPatchCount", b!"TsonPatchCount"]

/-- The headers of timing.csv (exp/exp_scenario.go:182-197). -/
def timingHeader (scenario : Bytes) : List Bytes :=
  [b!"UpdateIndex", b!"TimeMs", b!"SensorPath", b!"JsonProcessingTimeNs", b!"TsonProcessingTimeNs", b!"ValueChanged",
    b!"ProcessingTimeDiffPct"] ++ if scenario = b!"mixed_scenario" then [b!"CurrentScenario"] else []

/-- A row of timing.csv (exp/exp_scenario.go:538-558). -/
def timingRow (scenario : Bytes) (x : Timing) : List Bytes :=
  [natText x.index, natText x.time, x.path, natText x.jsonNs, natText x.tsonNs, if x.changed then b!"true" else b!"false",
    fmtFixed 2 (timingDiff x.tsonNs x.jsonNs)] ++ if scenario = b!"mixed_scenario" then [x.scenario] else []

/-- The headers of transitions.csv (exp/exp_scenario.go:281-287). -/
def transitionHeader : List Bytes := [b!"Timestamp", b!"FromScenario", b!"ToScenario", b!"BatteryLevel", b!"TransitionCount"]

/-- A row of transitions.csv (exp/exp_scenario.go:290-296). -/
def transitionRow (x : Transition) : List Bytes := [itoa x.time, x.source, x.target, fmtFixed 2 x.battery, natText x.count]

/-- The headers of a file of a sensor (exp/sensor_data_save.go:63). -/
def sensorHeader : List Bytes := [b!"TimestampMs", b!"SimulationTimeMs", b!"Value"]

/-- A row of a file of a sensor (exp/sensor_data_save.go:109-120). -/
def sensorRow (k : Clocks) (w : Row) : List Bytes := [natText (k.elapsed w.time), natText w.time, valueText w.value]

/-- `filepath.Base` (exp/sensor_data_save.go:49) of a path that does not end in a slash: what follows the last slash. -/
def baseName (s : Bytes) : Bytes := (split bSlash s).getLast?.getD []

/-- The name of the file of a sensor (exp/sensor_data_save.go:32, 49-50) in the directory of the scenario. -/
def sensorFile (path : Bytes) : Bytes := b!"sensor_data/" ++ baseName path ++ b!".csv"

/-- The tables of one scenario by file name (exp/exp_scenario.go:113-311; exp/sensor_data_save.go:30-130): results.csv, cumulative.csv,
timing.csv, those of the key sensors, and transitions.csv for a mixed scenario that switched.  A file is made anew by `os.Create`. -/
def scenarioTables (secs : Nat) (d : Draws) (k : Clocks) (scenario : Bytes) : Res (Option (List (Bytes × List (List Bytes)))) :=
  (timedExperiment secs d k scenario).bind fun o =>
    match o with
    | none => .ok none
    | some (r, T) =>
      (cumulativeRows r.times r.jsonVec r.tsonVec).map fun cum =>
        some ([(b!"results.csv", [resultsHeader, resultsRow secs k r T]),
          (b!"cumulative.csv", cumulativeHeader :: cum),
          (b!"timing.csv", timingHeader scenario :: T.map (timingRow scenario))] ++
          keyPaths.map (fun p => (sensorFile p, sensorHeader :: (r.rows.filter fun w => decide (w.path = p)).map (sensorRow k))) ++
          if scenario = b!"mixed_scenario" ∧ r.transitions ≠ [] then
            [(b!"transitions.csv", transitionHeader :: r.transitions.map transitionRow)] else [])

/-- The files of one scenario: each table is written on its file. [exp/exp_scenario.go:113-311; exp/sensor_data_save.go:30-145] -/
def scenarioFiles (secs : Nat) (d : Draws) (k : Clocks) (scenario : Bytes) : Res (Option Dir) :=
  (scenarioTables secs d k scenario).map fun o => o.map fun ts => ts.foldl (fun dir x => mset dir x.1 (csvText x.2)) []

/-! ### The tables of the temporal experiments -/

/-- `TemporalQueryResult` (exp/utils_temporal.go:30-42) as far as it is saved. -/
structure QueryResult where
  scenario : Bytes
  query : Bytes
  parameter : Bytes
  lgmNs : Nat
  tjsonNs : Nat
  lgmSize : Nat
  tjsonSize : Nat

/-- The header of `SaveResults` (exp/utils_temporal.go:307-317). -/
def queryHeader : List Bytes := [b!"Scenario", b!"QueryType", b!"Parameter", b!"LogumentTimeNs", b!"TJSONTimeNs", b!"TimeDiffPct",
  b!"LogumentResultSize", b!"TJSONResultSize", b!"SizeDiffPct"]

/-- A row of `SaveResults` (exp/utils_temporal.go:322-345). -/
def queryRow (x : QueryResult) : List Bytes :=
  [x.scenario, x.query, x.parameter, natText x.lgmNs, natText x.tjsonNs, fmtFixed 2 (diffPct x.lgmNs x.tjsonNs),
    natText x.lgmSize, natText x.tjsonSize, fmtFixed 2 (diffPct x.lgmSize x.tjsonSize)]

/-- The text saved by `SaveResults` (exp/utils_temporal.go:294-349). -/
def saveResults (rs : List QueryResult) : Bytes := csvText (queryHeader :: rs.map queryRow)

example : fmtFixed 2 (reduction 1 4) = b!"75.00" ∧ fmtFixed 2 (reduction 0 0) = b!"NaN" ∧ fmtFixed 2 (diffPct 1 3) = b!"-66.67" := by
  decide +kernel
example : sensorFile b!"Vehicle.Speed" = b!"sensor_data/Vehicle.Speed.csv" := by decide +kernel

end Verif
