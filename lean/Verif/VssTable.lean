import Verif.FloatArith
/-
The sensors of the vehicle simulation (exp/vss_config.go).  The table was written from the source by a script.
-/
namespace Verif

/-- The groups of sensors (exp/vss_config.go:4-11). -/
inductive Group where
  | high | medium | low | actHigh | actLow | attribute
deriving DecidableEq, Repr

/-- A decimal literal: the number nearest to `z / q`. [literals of exp/vss_config.go:59-445] -/
def dec (z : Int) (q : Nat) : F64 := F64.roundZ false z q

/-- `VSSSensor` (exp/vss_config.go:41-53) without description and unit; `ChangeParams` is never set.  The three patterns are
those of `urban_traffic`, `highway_cruising` and `battery_charging`; `Min` and `Max` are 0 where not given. -/
structure VssSensor where
  path : Bytes
  value : Js
  type : Bytes
  group : Group
  interval : Int
  min : F64
  max : F64
  urban : Bytes
  highway : Bytes
  charging : Bytes

/-- `VSSSensors` (exp/vss_config.go:59-445), a map: the order of the list means nothing. -/
def vssSensors : List VssSensor := [
  ⟨b!"Vehicle.CurrentLocation.Latitude", .num (dec 375503 10000), b!"number", .high, 50, dec (-90) 1, dec 90 1, b!"random_walk", b!"linear", b!"constant"⟩,
  ⟨b!"Vehicle.CurrentLocation.Longitude", .num (dec 1269971 10000), b!"number", .high, 50, dec (-180) 1, dec 180 1, b!"random_walk", b!"linear", b!"constant"⟩,
  ⟨b!"Vehicle.CurrentLocation.Altitude", .num (dec 10 1), b!"number", .high, 100, dec (-500) 1, dec 9000 1, b!"random_walk", b!"constant_with_noise", b!"constant"⟩,
  ⟨b!"Vehicle.Speed", .num (dec 0 1), b!"number", .high, 20, dec 0 1, dec 220 1, b!"random_walk", b!"constant_with_noise", b!"constant"⟩,
  ⟨b!"Vehicle.Acceleration.Longitudinal", .num (dec 0 1), b!"number", .high, 20, dec (-20) 1, dec 20 1, b!"sinusoidal", b!"constant_with_noise", b!"constant"⟩,
  ⟨b!"Vehicle.Acceleration.Lateral", .num (dec 0 1), b!"number", .high, 20, dec (-20) 1, dec 20 1, b!"sinusoidal", b!"constant_with_noise", b!"constant"⟩,
  ⟨b!"Vehicle.Chassis.SteeringWheel.Angle", .num (dec 0 1), b!"number", .high, 25, dec (-180) 1, dec 180 1, b!"random_walk", b!"constant_with_noise", b!"constant"⟩,
  ⟨b!"Vehicle.Powertrain.CombustionEngine.Speed", .num (dec 800 1), b!"number", .medium, 100, dec 0 1, dec 8000 1, b!"random_walk", b!"constant_with_noise", b!"constant"⟩,
  ⟨b!"Vehicle.Powertrain.TractionBattery.StateOfCharge.Current", .num (dec 80 1), b!"number", .medium, 200, dec 0 1, dec 100 1, b!"linear", b!"linear", b!"linear"⟩,
  ⟨b!"Vehicle.Powertrain.TractionBattery.Temperature", .num (dec 25 1), b!"number", .medium, 500, dec (-20) 1, dec 80 1, b!"constant_with_noise", b!"constant_with_noise", b!"linear"⟩,
  ⟨b!"Vehicle.Powertrain.FuelSystem.Level", .num (dec 80 1), b!"number", .low, 5000, dec 0 1, dec 100 1, b!"linear", b!"linear", b!"constant"⟩,
  ⟨b!"Vehicle.Chassis.Axle.Row1.Wheel.Left.Tire.Pressure", .num (dec 22 10), b!"number", .low, 10000, dec 0 1, dec 4 1, b!"constant_with_noise", b!"constant_with_noise", b!"constant"⟩,
  ⟨b!"Vehicle.Chassis.Axle.Row1.Wheel.Right.Tire.Pressure", .num (dec 22 10), b!"number", .low, 10000, dec 0 1, dec 4 1, b!"constant_with_noise", b!"constant_with_noise", b!"constant"⟩,
  ⟨b!"Vehicle.Chassis.Brake.PedalPosition", .num (dec 0 1), b!"number", .actHigh, 50, dec 0 1, dec 100 1, b!"random_walk", b!"toggle", b!"constant"⟩,
  ⟨b!"Vehicle.Chassis.Accelerator.PedalPosition", .num (dec 0 1), b!"number", .actHigh, 50, dec 0 1, dec 100 1, b!"random_walk", b!"constant_with_noise", b!"constant"⟩,
  ⟨b!"Vehicle.Body.Lights.Headlight.IsActive", .bool false, b!"boolean", .actLow, 5000, dec 0 1, dec 0 1, b!"toggle", b!"toggle", b!"constant"⟩,
  ⟨b!"Vehicle.Body.Lights.TurnSignal.Left.IsActive", .bool false, b!"boolean", .actLow, 1000, dec 0 1, dec 0 1, b!"toggle", b!"toggle", b!"constant"⟩,
  ⟨b!"Vehicle.Body.Lights.TurnSignal.Right.IsActive", .bool false, b!"boolean", .actLow, 1000, dec 0 1, dec 0 1, b!"toggle", b!"toggle", b!"constant"⟩,
  ⟨b!"Vehicle.VehicleIdentification.VIN", .str b!"1HGCM82633A123456", b!"string", .attribute, 86400000, dec 0 1, dec 0 1, b!"constant", b!"constant", b!"constant"⟩,
  ⟨b!"Vehicle.VehicleIdentification.Model", .str b!"Model X", b!"string", .attribute, 86400000, dec 0 1, dec 0 1, b!"constant", b!"constant", b!"constant"⟩,
  ⟨b!"Vehicle.Powertrain.TractionBattery.Charging.IsCharging", .bool false, b!"boolean", .medium, 1000, dec 0 1, dec 0 1, b!"constant", b!"constant", b!"constant"⟩,
  ⟨b!"Vehicle.Powertrain.TractionBattery.Charging.ChargingRate", .num (dec 0 1), b!"number", .medium, 500, dec 0 1, dec 350 1, b!"constant", b!"constant", b!"sinusoidal"⟩,
  ⟨b!"Vehicle.Powertrain.TractionBattery.Charging.TimeRemaining", .num (dec 120 1), b!"number", .medium, 1000, dec 0 1, dec 500 1, b!"constant", b!"constant", b!"linear"⟩]

end Verif
