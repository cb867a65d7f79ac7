import Verif.VssTable
import Verif.Exp
/-
The values of the simulated sensors: their comparison and calculation (exp/utils.go), their patterns (exp/scenario.go).

Random numbers and `math.Sin` are parameters.  Products of counters and intervals are assumed to fit an `int`.
-/
namespace Verif

/-- `isEqual` (exp/utils.go:94-116).  For maps and slices, which are never values of sensors, the model gives `false`. -/
def isEqual : Js → Js → Bool
  | .num a, .num b => (F64.abs (F64.sub a b)).flt (dec 5 1000)
  | .int a, .int b => a == b
  | .bool a, .bool b => a == b
  | .str a, .str b => a == b
  | .null, .null => true
  | _, _ => false

/-- `SensorData` (exp/vss_config.go:29-38) without the timestamp, with the group the sensor is in (exp/scenario.go:71-84). -/
structure SensorData where
  path : Bytes
  group : Group
  value : Js
  type : Bytes
  interval : Int
  pattern : Bytes
  params : List (Bytes × F64)
  counter : Int

/-- A parameter of the pattern; a missing one is 0. [`sensor.ChangeParams[…]`, exp/utils.go:267-268] -/
def SensorData.param (s : SensorData) (k : Bytes) : F64 := (mget s.params k).getD F64.zero

/-- What the runtime chooses for one reading: the numbers of `rand.Float64` in the order they are drawn, those of
`rand.Intn`, and the sine. [exp/utils.go:269, 299, 458, 470] -/
structure Choices where
  u : Nat → F64
  n : List Nat
  sin : F64 → F64

/-- The limits of exp/utils.go:282-286 (also 312-316, 338-342). -/
def clamp (v lo hi : F64) : F64 := if v.flt lo then lo else if hi.flt v then hi else v

/-- `rand.Float64()*2.0 - 1.0` (exp/utils.go:269, 308). -/
def spread (u : F64) : F64 := F64.sub (F64.mul u (dec 2 1)) (dec 1 1)

/-- `math.Pi` (exp/utils.go:299), here times two: the constant product is rounded once. -/
def twoPi : F64 := dec 6283185307179586476925286766559005768 1000000000000000000000000000000000000

/-- The argument of the sine (exp/utils.go:298-299). -/
def angle (s : SensorData) (t : Int) : F64 :=
  F64.mul twoPi (F64.div (F64.ofInt (t + (s.param b!"phase").toInt64)) (s.param b!"period"))

/-- `calculateNewNumberValue` (exp/utils.go:250-376): the value, and whether the counter is reset. -/
def newNumber (c : Choices) (s : SensorData) (t : Int) : Js × Bool :=
  match s.value with
  | .num cur =>
    if s.pattern = b!"constant" then (.num cur, false)
    else if s.pattern = b!"constant_with_noise" then
      (.num (F64.add (s.param b!"baseline") (F64.mul (spread (c.u 0)) (s.param b!"noise"))), false)
    else if s.pattern = b!"linear" then
      (.num (clamp (F64.add cur (F64.div (F64.mul (s.param b!"slope") (F64.ofInt s.interval)) (dec 1000 1))) (s.param b!"min") (s.param b!"max")), false)
    else if s.pattern = b!"sinusoidal" then
      (.num (F64.add (s.param b!"baseline") (F64.mul (s.param b!"amplitude") (c.sin (angle s t)))), false)
    else if s.pattern = b!"random_walk" then
      (.num (clamp (F64.add cur (F64.mul (spread (c.u 0)) (s.param b!"step_size"))) (s.param b!"min") (s.param b!"max")), false)
    else if s.pattern = b!"stepped" then
      if F64.fle (s.param b!"step_interval") (F64.ofInt (s.counter * s.interval)) then
        (.num (clamp (F64.add cur (F64.mul (if (c.u 0).flt (dec 5 10) then dec (-1) 1 else dec 1 1) (s.param b!"step_size")))
          (s.param b!"min") (s.param b!"max")), true)
      else (.num cur, false)
    else if s.pattern = b!"triggered" then
      if (c.u 0).flt (s.param b!"threshold") || F64.fle (s.param b!"reset_interval") (F64.ofInt (s.counter * s.interval)) then
        (.num (F64.add (s.param b!"min_value") (F64.mul (c.u 1) (F64.sub (s.param b!"max_value") (s.param b!"min_value")))), true)
      else (.num cur, false)
    else (.num cur, false)
  | _ => (.num (dec 0 1), false)

/-- `calculateNewBooleanValue` (exp/utils.go:379-418). -/
def newBool (c : Choices) (s : SensorData) : Js :=
  match s.value with
  | .bool cur =>
    if s.pattern = b!"toggle" then .bool (if (c.u 0).flt (s.param b!"toggle_probability") then !cur else cur)
    else if s.pattern = b!"triggered" then .bool (if (c.u 0).flt (s.param b!"threshold") then !cur else cur)
    else .bool cur
  | _ => .bool false

/-- `strings.Contains`. [exp/utils.go:451-459; exp/scenario.go:152] -/
def containsBytes (s sub : Bytes) : Bool :=
  match s with
  | [] => sub.isEmpty
  | _ :: r => sub.isPrefixOf s || containsBytes r sub

/-- The loop that looks for another value (exp/utils.go:469-474); `none`: none of the numbers drawn so far gives one. -/
def pickOther (pre cur : Bytes) : List Nat → Option Bytes
  | [] => none
  | i :: is => if pre ++ natDigits i ≠ cur then some (pre ++ natDigits i) else pickOther pre cur is

/-- `calculateNewStringValue` (exp/utils.go:421-485).  `ok none`: the loop is still looking for a value.  A `rand.Intn` of a
number that is not positive panics. -/
def newString (c : Choices) (s : SensorData) : Res (Option Js) :=
  match s.value with
  | .str cur =>
    if s.pattern = b!"random_selection" then
      let n := (s.param b!"num_choices").toInt64
      let p := if F64.feq (s.param b!"change_probability") (dec 0 1) then dec 5 100 else s.param b!"change_probability"
      if (c.u 0).flt p then
        let other (pre : Bytes) : Res (Option Js) := if n ≤ 0 then .panic else .ok ((pickOther pre cur c.n).map .str)
        let option (l : List Bytes) : Res (Option Js) := .ok (c.n.head?.map fun i => .str ((l[i]?).getD []))
        if containsBytes s.path b!"Transmission" then other b!"gear_"
        else if containsBytes s.path b!"HVAC" then other b!"setting_"
        else if containsBytes s.path b!"ChargingStatus" then option [b!"charging", b!"full", b!"error", b!"pending"]
        else if containsBytes s.path b!"ChargingMode" then option [b!"fast", b!"normal", b!"eco", b!"scheduled"]
        else other b!"value_"
      else .ok (some (.str cur))
    else .ok (some (.str cur))
  | _ => .ok (some (.str b!"unknown_value"))

/-- `calculateNewValue` (exp/utils.go:223-247): the counter is increased first. -/
def newValue (c : Choices) (s : SensorData) (t : Int) : Res (Option (SensorData × Js)) :=
  let s := { s with counter := s.counter + 1 }
  if s.type = b!"number" then
    let r := newNumber c s t
    .ok (some (if r.2 then { s with counter := 0 } else s, r.1))
  else if s.type = b!"boolean" then .ok (some (s, newBool c s))
  else if s.type = b!"string" then (newString c s).map fun o => o.map fun v => (s, v)
  else .ok (some (s, s.value))

/-- One reading of a sensor (exp/exp_scenario.go:454-463): the value is kept unless it is equal to the old one. -/
def SensorData.read (c : Choices) (s : SensorData) (t : Int) : Res (Option (SensorData × Js)) :=
  (newValue c s t).map fun o => o.map fun r => (if isEqual s.value r.2 then r.1 else { r.1 with value := r.2 }, r.2)

/-! ### Patterns -/

/-- `ChangePatterns[scenario]` (exp/scenario.go:28, 134). -/
def VssSensor.pattern? (v : VssSensor) (scenario : Bytes) : Option Bytes :=
  if scenario = b!"urban_traffic" then some v.urban
  else if scenario = b!"highway_cruising" then some v.highway
  else if scenario = b!"battery_charging" then some v.charging
  else none

/-- The slope of a linear pattern in `updateAllSensorPatterns` (exp/scenario.go:148-161). -/
def slopeFor (scenario path : Bytes) : F64 :=
  if scenario = b!"battery_charging" ∧ path = b!"Vehicle.Powertrain.TractionBattery.StateOfCharge.Current" then dec 1 10
  else if scenario = b!"battery_charging" ∧ path = b!"Vehicle.Powertrain.TractionBattery.Charging.TimeRemaining" then dec (-5) 10
  else if containsBytes path b!"Battery" = true ∧ (scenario = b!"urban_traffic" ∨ scenario = b!"highway_cruising") then
    if scenario = b!"urban_traffic" then dec (-1) 10 else dec (-2) 10
  else dec (-4) 100

/-- The parameters set by `updateAllSensorPatterns` (exp/scenario.go:137-186).  Unknown patterns are left without
parameters although the comment of the code says that they keep them. -/
def patternParams (scenario path pattern : Bytes) (v : VssSensor) (value : Js) : Res (List (Bytes × F64)) :=
  let width := F64.sub v.max v.min
  if pattern = b!"random_walk" then
    .ok [(b!"step_size", F64.mul width (dec 1 100)), (b!"min", v.min), (b!"max", v.max)]
  else if pattern = b!"linear" then
    .ok [(b!"slope", slopeFor scenario path), (b!"min", v.min), (b!"max", v.max)]
  else if pattern = b!"sinusoidal" then
    .ok [(b!"amplitude", F64.mul width (dec 1 10)), (b!"period", dec 5000 1), (b!"baseline", F64.mul (F64.add v.min v.max) (dec 5 10))]
  else if pattern = b!"constant_with_noise" then
    match value, v.value with
    | .num f, _ => .ok [(b!"baseline", f), (b!"noise", F64.mul width (dec 1 100))]
    | _, .num f => .ok [(b!"baseline", f), (b!"noise", F64.mul width (dec 1 100))]
    | _, _ => .panic
  else if pattern = b!"toggle" then .ok [(b!"toggle_probability", dec 5 100)]
  else .ok []

/-- `updateAllSensorPatterns` (exp/scenario.go:121-191) for one sensor. -/
def SensorData.updatePattern (table : List VssSensor) (scenario : Bytes) (s : SensorData) : Res SensorData :=
  match table.find? fun v => decide (v.path = s.path) with
  | none => .ok s
  | some v =>
    match v.pattern? scenario with
    | none => .ok s
    | some p => (patternParams scenario s.path p v s.value).map fun ps => { s with pattern := p, params := ps }

/-- `updateAllSensorPatterns` (exp/scenario.go:121-191) for the sensors of a vehicle. -/
def updatePatterns (table : List VssSensor) (scenario : Bytes) : List SensorData → Res (List SensorData)
  | [] => .ok []
  | s :: ss => (s.updatePattern table scenario).bind fun s' => (updatePatterns table scenario ss).map fun ss' => s' :: ss'

/-- What is done to the sensor found in a group under a path. [exp/scenario.go:202] -/
def onSensor (g : Group) (path : Bytes) (f : SensorData → SensorData) (ss : List SensorData) : List SensorData :=
  ss.map fun s => if s.group = g ∧ s.path = path then f s else s

/-- Parameters set if the sensor has the pattern. [exp/scenario.go:204-208] -/
def SensorData.ifPattern (p : Bytes) (ps : List (Bytes × F64)) (s : SensorData) : SensorData :=
  if s.pattern = p then { s with params := ps.foldl (fun m e => mset m e.1 e.2) s.params } else s

/-- A value set. [exp/scenario.go:203] -/
def SensorData.setValue (v : Js) (s : SensorData) : SensorData := { s with value := v }

/-- `applyUrbanTrafficSettings` (exp/scenario.go:198-268); `u` is the number drawn. -/
def urbanSettings (u : F64) (ss : List SensorData) : List SensorData :=
  ss |> onSensor .high b!"Vehicle.Speed" (fun s => (s.setValue (.num (F64.add (dec 40 1) (F64.mul u (dec 20 1))))).ifPattern b!"random_walk"
      [(b!"step_size", dec 2 1), (b!"min", dec 0 1), (b!"max", dec 70 1)])
    |> onSensor .high b!"Vehicle.CurrentLocation.Latitude" (fun s => s.ifPattern b!"random_walk" [(b!"step_size", dec 1 1)])
    |> onSensor .high b!"Vehicle.CurrentLocation.Longitude" (fun s => s.ifPattern b!"random_walk" [(b!"step_size", dec 1 1)])
    |> onSensor .high b!"Vehicle.Chassis.SteeringWheel.Angle" (fun s => s.ifPattern b!"sinusoidal"
      [(b!"amplitude", dec 15 1), (b!"period", dec 10000 1), (b!"baseline", dec 0 1)])
    |> onSensor .high b!"Vehicle.Acceleration.Longitudinal" (fun s => s.ifPattern b!"random_walk"
      [(b!"step_size", dec 5 10), (b!"min", dec (-3) 1), (b!"max", dec 2 1)])
    |> onSensor .actHigh b!"Vehicle.Chassis.Brake.PedalPosition" (fun s => s.ifPattern b!"random_walk" [(b!"step_size", dec 5 1)])
    |> onSensor .actHigh b!"Vehicle.Chassis.Accelerator.PedalPosition" (fun s => s.ifPattern b!"random_walk" [(b!"step_size", dec 3 1)])
    |> onSensor .actLow b!"Vehicle.Body.Lights.TurnSignal.Left.IsActive" (fun s => s.ifPattern b!"toggle" [(b!"toggle_probability", dec 2 100)])
    |> onSensor .actLow b!"Vehicle.Body.Lights.TurnSignal.Right.IsActive" (fun s => s.ifPattern b!"toggle" [(b!"toggle_probability", dec 2 100)])

/-- `applyHighwayCruisingSettings` (exp/scenario.go:271-342); `u` is the number drawn. -/
def highwaySettings (u : F64) (ss : List SensorData) : List SensorData :=
  ss |> onSensor .high b!"Vehicle.Speed" (fun s => (s.setValue (.num (F64.add (dec 90 1) (F64.mul u (dec 20 1))))).ifPattern b!"constant_with_noise"
      [(b!"baseline", dec 100 1), (b!"noise", dec 5 10)])
    |> onSensor .high b!"Vehicle.Chassis.SteeringWheel.Angle" (fun s => s.ifPattern b!"constant_with_noise" [(b!"baseline", dec 0 1), (b!"noise", dec 2 10)])
    |> onSensor .high b!"Vehicle.Acceleration.Longitudinal" (fun s => (s.setValue (.num (dec 0 1))).ifPattern b!"constant_with_noise"
      [(b!"baseline", dec 0 1), (b!"noise", dec 1 10)])
    |> onSensor .high b!"Vehicle.CurrentLocation.Latitude" (fun s => s.ifPattern b!"linear" [(b!"slope", dec 1 10)])
    |> onSensor .high b!"Vehicle.CurrentLocation.Longitude" (fun s => s.ifPattern b!"linear" [(b!"slope", dec 1 10)])
    |> onSensor .actHigh b!"Vehicle.Chassis.Brake.PedalPosition" (fun s => (s.setValue (.num (dec 0 1))).ifPattern b!"toggle" [(b!"toggle_probability", dec 1 100)])
    |> onSensor .actHigh b!"Vehicle.Chassis.Accelerator.PedalPosition" (fun s => (s.setValue (.num (dec 25 1))).ifPattern b!"constant_with_noise"
      [(b!"baseline", dec 25 1), (b!"noise", dec 5 10)])
    |> onSensor .actLow b!"Vehicle.Body.Lights.TurnSignal.Left.IsActive" (fun s => s.ifPattern b!"toggle" [(b!"toggle_probability", dec 5 1000)])
    |> onSensor .actLow b!"Vehicle.Body.Lights.TurnSignal.Right.IsActive" (fun s => s.ifPattern b!"toggle" [(b!"toggle_probability", dec 5 1000)])

/-- The test `!ok || currentVal <= 0` (exp/scenario.go:402). -/
def notPositive : Js → Bool
  | .num f => F64.fle f (dec 0 1)
  | _ => true

/-- `applyBatteryChargingSettings` (exp/scenario.go:345-409); `u`, `u'` are the numbers drawn. -/
def chargingSettings (u u' : F64) (ss : List SensorData) : List SensorData :=
  ss |> onSensor .high b!"Vehicle.Speed" (fun s => s.setValue (.num (dec 0 1)))
    |> onSensor .high b!"Vehicle.Chassis.SteeringWheel.Angle" (fun s => s.setValue (.num (dec 0 1)))
    |> onSensor .high b!"Vehicle.Acceleration.Longitudinal" (fun s => s.setValue (.num (dec 0 1)))
    |> onSensor .actHigh b!"Vehicle.Chassis.Brake.PedalPosition" (fun s => s.setValue (.num (dec 0 1)))
    |> onSensor .actHigh b!"Vehicle.Chassis.Accelerator.PedalPosition" (fun s => s.setValue (.num (dec 0 1)))
    |> onSensor .medium b!"Vehicle.Powertrain.TractionBattery.StateOfCharge.Current" (fun s => s.ifPattern b!"linear" [(b!"slope", dec 2 10)])
    |> onSensor .medium b!"Vehicle.Powertrain.TractionBattery.Temperature" (fun s => s.ifPattern b!"linear" [(b!"slope", dec 1 1000)])
    |> onSensor .medium b!"Vehicle.Powertrain.TractionBattery.Charging.IsCharging" (fun s => s.setValue (.bool true))
    |> onSensor .medium b!"Vehicle.Powertrain.TractionBattery.Charging.ChargingRate" (fun s =>
      (s.setValue (.num (F64.add (dec 11 1) (F64.mul u (dec 2 1))))).ifPattern b!"sinusoidal"
        [(b!"amplitude", dec 1 1), (b!"period", dec 15000 1), (b!"baseline", dec 115 10)])
    |> onSensor .medium b!"Vehicle.Powertrain.TractionBattery.Charging.TimeRemaining" (fun s =>
      (if notPositive s.value then s.setValue (.num (F64.add (dec 120 1) (F64.mul u' (dec 60 1)))) else s).ifPattern b!"linear" [(b!"slope", dec (-5) 100)])

/-- `applyScenarioSettingsForMixed` (exp/scenario.go:721-734) with the numbers drawn. -/
def mixedSettings (u u' : F64) (scenario : Bytes) (ss : List SensorData) : Res (List SensorData) :=
  (updatePatterns vssSensors scenario ss).map fun ss =>
    if scenario = b!"urban_traffic" then urbanSettings u ss
    else if scenario = b!"highway_cruising" then highwaySettings u ss
    else if scenario = b!"battery_charging" then chargingSettings u u' ss
    else ss

/-- `applyScenarioSettings` (exp/scenario.go:94-118) with the numbers drawn. -/
def scenarioSettings (u u' u'' : F64) (scenario : Bytes) (ss : List SensorData) : Res (List SensorData) :=
  (updatePatterns vssSensors (if scenario = b!"mixed_scenario" then b!"urban_traffic" else scenario) ss).map fun ss =>
    if scenario = b!"urban_traffic" then urbanSettings u ss
    else if scenario = b!"highway_cruising" then highwaySettings u ss
    else if scenario = b!"battery_charging" then
      chargingSettings u u' (onSensor .medium b!"Vehicle.Powertrain.TractionBattery.StateOfCharge.Current"
        (fun s => s.setValue (.num (F64.add (dec 20 1) (F64.mul u'' (dec 20 1))))) ss)
    else if scenario = b!"mixed_scenario" then urbanSettings u ss
    else ss

/-- The sensor made from an entry of the table (exp/scenario.go:25-68).  The parameters set here are replaced by
`updateAllSensorPatterns` for every scenario that has patterns (exp/scenario.go:138), and a sensor without such a pattern is
constant and has none (exp/scenario.go:27-30): they are not modelled. -/
def VssSensor.initial (scenario : Bytes) (v : VssSensor) : SensorData :=
  ⟨v.path, v.group, v.value, v.type, v.interval, (v.pattern? scenario).getD b!"constant", [], 0⟩

/-- `InitializeVehicleData` (exp/scenario.go:14-91). -/
def initialVehicle (u u' u'' : F64) (scenario : Bytes) : Res (List SensorData) :=
  scenarioSettings u u' u'' scenario (vssSensors.map (VssSensor.initial scenario))

end Verif
