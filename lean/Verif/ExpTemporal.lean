import Verif.ExpTrack
import Verif.ExpValue
/-
The temporal experiments as a whole (exp/exp_temporal.go, exp/utils_temporal.go).

The contents of the files read are given: the initial document and the patches.  Directories, the results written, times
measured and sizes are not modelled.
-/
namespace Verif

/-- What the runtime chooses: the clock (exp/tjson.go:278; exp/exp_temporal.go:173, 195), the order after the unstable sort
of all patches (exp/utils_temporal.go:77-79), the choices in the TJSON store and in the queries, and the number drawn
(exp/exp_temporal.go:84). -/
structure TemporalDraws where
  now : Int
  unix : Int
  sort : List TPatch → List TPatch
  store : TOracle
  snap : Nat → Oracle
  track : Nat → TOracle
  order : List (Nat × List Op) → List (Nat × List Op)
  event : Nat → TOracle
  left : Int → Int

/-- The results of the three experiments; those of the tracks and of the events are missing after an error
(exp/exp_temporal.go:66-67, 95-96). -/
structure TemporalResults where
  snapshots : List (Int × Res (Option Tson) × Js)
  tracks : Option (List (List (Nat × List Op) × List TVersion))
  window : Int × Int
  events : Option (List (List Int × List Int))

/-- The paths whose tracks are taken (exp/exp_temporal.go:58-63). -/
def trackPaths : List Bytes := [b!"Vehicle.Speed", b!"Vehicle.CurrentLocation.Latitude", b!"Vehicle.CurrentLocation.Longitude",
  b!"Vehicle.Powertrain.TractionBattery.StateOfCharge.Current"]

/-- The thresholds of the search for events (exp/exp_temporal.go:88). -/
def eventThresholds : List F64 := [dec 10 1, dec 30 1, dec 50 1]

/-- The body of the loop of `RunTemporalQueryExperiments` (exp/exp_temporal.go:43-101) for an initial document and patches,
with `NewTemporalQueryExperiment` (exp/utils_temporal.go:45-101).  The logument is the same after the tracks as before:
`TemporalTrack` does not change it. -/
def temporalRun (h : Heap) (c : TemporalDraws) (doc : List (Bytes × Js)) (rs : List TPatch) : Res TemporalResults :=
  let d := fromPatches c.store c.now (c.sort (createInitialPatches doc ++ rs))
  (createLogument h doc rs).bind fun s =>
    (sampleTimes c.unix rs 61).bind fun ts =>
      let q := s.queries (ts.mapIdx fun i t => (c.snap i, t))
      let span := timeRange c.unix rs
      match q.2.getLast? with
      | some .panic => .panic
      | _ =>
        match trackRun q.1.lgm d span.1 span.2 (trackPaths.mapIdx fun i p => (c.track i, p)) with
        | .panic => .panic
        | tr =>
          if span.2 - span.1 < 10000 then .panic
          else
            let left := c.left (span.2 - 10000 - span.1 + 1) + span.1
            match eventRun q.1.lgm d left (left + 10000) (eventThresholds.mapIdx fun i x => ⟨c.order, c.event i, b!"Vehicle.Speed", x⟩) with
            | .panic => .panic
            | ev => .ok {
                snapshots := (ts.zip q.2).map fun x => (x.1, x.2, tSnapshot d x.1)
                tracks := match tr with | .ok l => some l | _ => none
                window := (left, left + 10000)
                events := match ev with | .ok l => some l | _ => none }

end Verif
