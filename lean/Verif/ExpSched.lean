import Verif.VssTable
/-
When the simulation reads its sensors (exp/exp_scenario.go) and how often it expects to (exp/utils.go).
-/
namespace Verif

/-- What decides when a sensor is read: the path and `UpdateInterval` of `SensorData` (exp/vss_config.go:29-38) and the
group the sensor is in (exp/scenario.go:71-84). -/
structure Timed where
  path : Bytes
  group : Group
  interval : Int
deriving DecidableEq, Repr

/-- The sensor made from an entry of the table (exp/scenario.go:33-41, 71-84). -/
def VssSensor.timed (s : VssSensor) : Timed := ⟨s.path, s.group, s.interval⟩

/-- The times of the loop from `t` on (exp/exp_scenario.go:392).  Without a positive step the loop would not end; the step
is the constant 100 (exp/exp_scenario.go:20). -/
def loopTimes (dur step t : Nat) : List Nat :=
  if t < dur ∧ 0 < step then t :: loopTimes dur step (t + step) else []
termination_by dur - t

/-- `currentTimeMs%int64(sensor.UpdateInterval) == 0` (exp/exp_scenario.go:450); division by zero panics. -/
def due (t interval : Int) : Res Bool := if interval = 0 then .panic else .ok (decide (t.tmod interval = 0))

/-- The sensors read at one time (exp/exp_scenario.go:440-450), in the order they are visited in. -/
def readAt (t : Nat) : List Timed → Res (List (Nat × Bytes))
  | [] => .ok []
  | d :: ds => (due t d.interval).bind fun b => (readAt t ds).map fun l => if b then (t, d.path) :: l else l

/-- The readings of the loop (exp/exp_scenario.go:392-450); `order t` is the order the sensors are visited in at time `t`,
chosen by the runtime. -/
def readings (order : Nat → List Timed) : List Nat → Res (List (Nat × Bytes))
  | [] => .ok []
  | t :: ts => (readAt t (order t)).bind fun l => (readings order ts).map fun l' => l ++ l'

/-- The milliseconds of the simulation (exp/exp_scenario.go:19, 392) and of a step (exp/exp_scenario.go:20). -/
def simDuration : Nat := 300 * 1000

/-- The step of the simulation (exp/exp_scenario.go:20). -/
def simStep : Nat := 100

/-- `calculateExpectedUpdateCount` (exp/utils.go:16-37); the attributes are left out. -/
def expectedUpdates (durMs : Int) : List Timed → Res Int
  | [] => .ok 0
  | d :: ds =>
    if d.group = .attribute then expectedUpdates durMs ds
    else if d.interval = 0 then .panic
    else (expectedUpdates durMs ds).map fun n => durMs.tdiv d.interval + n

end Verif
