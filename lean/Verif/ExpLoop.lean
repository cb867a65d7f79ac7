import Verif.ExpSched
import Verif.ExpValue
import Verif.ExpQuery
/-
The loop of the simulation (exp/exp_scenario.go) with the vehicle, the scenario, the documents and the records.
-/
namespace Verif

/-- What the runtime chooses during an experiment: the numbers drawn for the first values and at switches of the scenario, those
drawn for a reading, the clock when a sensor is created (exp/scenario.go:37), and the order in which maps are visited at a time
and for the documents. -/
structure Draws where
  first : F64 × F64 × F64
  switch : Nat → F64 × F64
  read : Nat → Bytes → Choices
  clock : Bytes → Int
  order : Nat → List Bytes
  jsonOrder : List Sensor → List Sensor
  tsonOrder : List Sensor → List Sensor

/-- A row of the sensor recorder (exp/sensor_data_save.go:116-120) without the time elapsed and before formatting. -/
structure Row where
  path : Bytes
  time : Nat
  value : Js

/-- What `runRealisticExperiment` keeps (exp/exp_scenario.go:329-389), without durations and the text of progress.
`state` is `nil` unless the scenario is mixed. -/
structure Trip where
  vehicle : List SensorData
  state : Option Scenario
  transitions : List Transition := []
  sim : Sim
  times : List Nat := []
  jsonVec : List Nat := []
  tsonVec : List Nat := []
  rows : List Row := []

/-- The values of the sensors. [exp/exp_scenario.go:459] -/
def vehicleValues (ss : List SensorData) : List (Bytes × Js) := ss.map fun s => (s.path, s.value)

/-- The sensor with a path. [exp/exp_scenario.go:448] -/
def sensorOf (ss : List SensorData) (path : Bytes) : Option SensorData := ss.find? fun s => decide (s.path = path)

/-- The body of the loop over the sensors for one sensor (exp/exp_scenario.go:448-564).  `ok none`: the calculation of the value
does not end. -/
def Trip.visit (c : Choices) (t : Nat) (path : Bytes) (r : Trip) : Res (Option Trip) :=
  match sensorOf r.vehicle path with
  | none => .ok (some r)
  | some s =>
    (due t s.interval).bind fun b =>
      if b then
        (s.read c t).map fun o => o.map fun x =>
          { r with
            vehicle := r.vehicle.map fun y => if y.path = path then x.1 else y
            sim := Sim.step isEqual { r.sim with sensors := vehicleValues r.vehicle } ⟨path, x.2, t⟩ }
      else .ok (some r)

/-- The loops over the sensors (exp/exp_scenario.go:440-566). -/
def Trip.visits (d : Draws) (t : Nat) : List Bytes → Trip → Res (Option Trip)
  | [], r => .ok (some r)
  | p :: ps, r => (r.visit (d.read t p) t p).bind fun o =>
    match o with
    | none => .ok none
    | some r' => Trip.visits d t ps r'

/-- The path of the battery level (exp/exp_scenario.go:339; exp/scenario.go:666). -/
def batteryPath : Bytes := b!"Vehicle.Powertrain.TractionBattery.StateOfCharge.Current"

/-- The battery level `UpdateScenarioState` sees (exp/scenario.go:666-670). -/
def batteryLevel (ss : List SensorData) : Option F64 :=
  match ss.find? fun s => decide (s.group = .medium ∧ s.path = batteryPath) with
  | some s => match s.value with
    | .num f => some f
    | _ => none
  | none => none

/-- The switch of the scenario at the beginning of a time step (exp/exp_scenario.go:396-413; exp/scenario.go:664-718). -/
def Trip.switch (d : Draws) (t : Nat) (r : Trip) : Res Trip :=
  match r.state with
  | none => .ok r
  | some st =>
    match st.update (batteryLevel r.vehicle) t with
    | (st', true) =>
      (mixedSettings (d.switch t).1 (d.switch t).2 st'.current r.vehicle).map fun ss =>
        { r with
          vehicle := ss
          state := some st'
          sim := { r.sim with sensors := vehicleValues ss }
          transitions := r.transitions ++ [⟨t, st'.previous, st'.current, st'.battery, r.transitions.length + 1⟩] }
    | (st', false) => .ok { r with state := some st' }

/-- `KeySensorPaths` (exp/sensor_data_save.go:12-18). -/
def keyPaths : List Bytes := [b!"Vehicle.CurrentLocation.Latitude", b!"Vehicle.CurrentLocation.Longitude", b!"Vehicle.Speed",
  b!"Vehicle.Powertrain.TractionBattery.StateOfCharge.Current", b!"Vehicle.Body.Lights.TurnSignal.Left.IsActive"]

/-- `RecordSensorData` (exp/sensor_data_save.go:71-130); a path is in one of the groups only. -/
def recordRows (t : Nat) (ss : List SensorData) : List Row :=
  keyPaths.filterMap fun p => (sensorOf ss p).map fun s => ⟨p, t, s.value⟩

/-- What is recorded before the sensors are read (exp/exp_scenario.go:415-437). -/
def Trip.note (t : Nat) (r : Trip) : Trip :=
  { r with
    times := if t % 10000 = 0 then r.times ++ [t] else r.times
    jsonVec := if t % 10000 = 0 then r.jsonVec ++ [r.sim.jsonPatches.length] else r.jsonVec
    tsonVec := if t % 10000 = 0 then r.tsonVec ++ [r.sim.tsonPatches.length] else r.tsonVec
    rows := r.rows ++ recordRows t r.vehicle }

/-- One time step (exp/exp_scenario.go:392-567). -/
def Trip.tick (d : Draws) (t : Nat) (r : Trip) : Res (Option Trip) :=
  (r.switch d t).bind fun r' => Trip.visits d t (d.order t) (r'.note t)

/-- The loop over time (exp/exp_scenario.go:391-567). -/
def Trip.loop (d : Draws) : List Nat → Trip → Res (Option Trip)
  | [], r => .ok (some r)
  | t :: ts, r => (r.tick d t).bind fun o =>
    match o with
    | none => .ok none
    | some r' => Trip.loop d ts r'

/-- The vehicle at the beginning (exp/exp_scenario.go:329, 336-344): in the mixed scenario the battery is set to 60. -/
def firstVehicle (d : Draws) (scenario : Bytes) : Res (List SensorData) :=
  (initialVehicle d.first.1 d.first.2.1 d.first.2.2 scenario).map fun ss =>
    if scenario = b!"mixed_scenario" then onSensor .medium batteryPath (fun s => s.setValue (.num (dec 60 1))) ss else ss

/-- The sensors as the documents see them (exp/utils.go:119-160). -/
def docSensors (d : Draws) (ss : List SensorData) : List Sensor := ss.map fun s => ⟨s.path, s.value, d.clock s.path⟩

/-- The state before the loop (exp/exp_scenario.go:329-389). -/
def Trip.start (d : Draws) (scenario : Bytes) : Res Trip :=
  (firstVehicle d scenario).bind fun ss =>
    (vehicleJson [] (d.jsonOrder (docSensors d ss))).bind fun j =>
      (vehicleTson [] (d.tsonOrder (docSensors d ss))).map fun t =>
        { vehicle := ss
          state := if scenario = b!"mixed_scenario" then some (newScenario b!"urban_traffic" (dec 60 1)) else none
          sim := { sensors := vehicleValues ss, json := j, tson := t } }

/-- `runRealisticExperiment` (exp/exp_scenario.go:314-629) for a duration in milliseconds. -/
def experiment (dur : Nat) (d : Draws) (scenario : Bytes) : Res (Option Trip) :=
  (Trip.start d scenario).bind fun r => r.loop d (loopTimes dur simStep 0)

end Verif
