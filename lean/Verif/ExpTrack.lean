import Verif.FloatArith
import Verif.ExpRun
/-
The times at which the temporal experiments take snapshots (exp/exp_temporal.go).
-/
namespace Verif

/-- Sums and differences of `int64` wrap around (exp/exp_temporal.go:182, 186). -/
def wrap64 (n : Int) : Int := (n - minInt64) % 18446744073709551616 + minInt64

/-- One of the times (exp/exp_temporal.go:182-186). -/
def sampleTime (lo hi count : Int) (i : Nat) : Int :=
  wrap64 (lo + F64.toInt64 (F64.mul (F64.div (F64.ofInt i) (F64.ofInt (count - 1))) (F64.ofInt (wrap64 (hi - lo)))))

/-- `generateTimestamps` (exp/exp_temporal.go:157-190); `now` is `time.Now().Unix()`.  `make` panics for a negative
length. -/
def sampleTimes (now : Int) (ps : List TPatch) (count : Int) : Res (List Int) :=
  if count < 0 then .panic
  else .ok ((List.range count.toNat).map (sampleTime (timeRange now ps).1 (timeRange now ps).2 count))

/-- The tracks of `RunTemporalTrackExperiment` (exp/utils_temporal.go:161-217): for every path the track of the logument,
restricted to the path, and the track of the TJSON store.  A failing TJSON track ends the run.  Times measured, sizes and
files are not modelled. -/
def trackRun (g : Lgm) (d : TDoc) (s e : Int) : List (TOracle × Bytes) → Res (List (List (Nat × List Op) × List TVersion))
  | [] => .ok []
  | (o, p) :: ps =>
    match g.temporalTrack s e with
    | (g', .ok tr) =>
      match tTrack o d p s e with
      | .ok l => (trackRun g' d s e ps).map fun r => (filterTrack tr p, l) :: r
      | .err => .err
      | .panic => .panic
    | (_, .err) => .err
    | (_, .panic) => .panic

/-- The test passed to the TJSON store (exp/utils_temporal.go:258-263). -/
def exceeds (threshold : F64) : Js → Bool
  | .num f => F64.flt threshold f
  | _ => false

/-- A query of the search for events: the order in which the map of changes is visited, the choices of the runtime in the
TJSON store, path and threshold (exp/utils_temporal.go:225-228). -/
structure EventQuery where
  order : List (Nat × List Op) → List (Nat × List Op)
  o : TOracle
  path : Bytes
  threshold : F64

/-- The events of `RunEventSearchExperiment` (exp/utils_temporal.go:220-291), for the pairs of paths and thresholds in the
order of the two loops. -/
def eventRun (g : Lgm) (d : TDoc) (s e : Int) : List EventQuery → Res (List (List Int × List Int))
  | [] => .ok []
  | q :: qs =>
    match findEvents q.order g q.path s e q.threshold with
    | (g', .ok ev) =>
      match tFindEvents q.o d q.path s e (exceeds q.threshold) with
      | .ok l => (eventRun g' d s e qs).map fun r => (ev, l) :: r
      | .err => .err
      | .panic => .panic
    | (_, .err) => .err
    | (_, .panic) => .panic

end Verif
