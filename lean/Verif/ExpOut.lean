import Verif.ExpCsv
/-
The results of the temporal experiments as saved (exp/utils_temporal.go, exp/exp_temporal.go): a file for each result of the
logument and of the TJSON store, and a table for each of the three experiments.

Durations are given by the clock.  Errors of the file system, the memory used, and what is printed on the console are not modelled.
-/
namespace Verif

/-! ### The texts of the results -/

/-- The strings of the operation types (internal/tsonpatch/tsonpatch.go:35-45). -/
def OpKind.name : OpKind → Bytes
  | .add => b!"add"
  | .remove => b!"remove"
  | .replace => b!"replace"
  | .move => b!"move"
  | .copy => b!"copy"
  | .test => b!"test"
  | .other s => s

/-- The value of an operation with its contents (internal/tsonpatch/tsonpatch.go:84).  Simplification: maps, slices and values of other
types, which are never readings of sensors, have no contents. -/
def GVal.pval : GVal → PVal
  | .nil => .any .null
  | .str s => .any (.str s)
  | .num f => .any (.num f)
  | .int n => .any (.int n)
  | .bool b => .any (.bool b)
  | .leaf p ts => .doc (.leaf p ts)
  | .scalar _ _ => .any .null
  | .container _ _ => .any .null

/-- An operation as written. [internal/tsonpatch/tsonpatch.go:81-86] -/
def Op.written (p : Op) : POp := ⟨p.kind.name, p.path, p.value.pval, p.ts⟩

/-- The operations of each version. [part of `json.Marshal`, exp/utils_temporal.go:180] -/
def trackMembers : List (Nat × List Op) → Res (List (Bytes × Bytes))
  | [] => .ok []
  | (v, l) :: t => (patchJson (some (l.map Op.written))).bind fun b => (trackMembers t).map fun r => (natDigits v, b) :: r

/-- `json.Marshal` on a track of the logument (exp/utils_temporal.go:180): a map from versions to operations, whose keys are written as
strings and in the order of the strings. -/
def trackText (t : List (Nat × List Op)) : Res Bytes := (trackMembers t).map fun m => 123 :: (joinMembers (sortM m) ++ [125])

/-- `json.Marshal` on a track of the TJSON store (exp/utils_temporal.go:201; the maps are made at exp/tjson.go:217-220). -/
def versionsText (l : List TVersion) : Res Bytes :=
  jsonSlice (fun v => marshalAny (.obj [(b!"timestamp", .str v.period), (b!"data", v.data)])) l

/-- `json.Marshal` on times of events (exp/utils_temporal.go:242, 273). -/
def timesText (l : List Int) : Res Bytes := jsonSlice (fun t => .ok (itoa t)) l

/-- `json.Marshal` on a snapshot of the logument (exp/utils_temporal.go:121).  Simplification: there is no text unless the query gave a
document. -/
def snapshotText : Res (Option Tson) → Res Bytes
  | .ok (some u) => toCompatibleText u
  | _ => .err

/-! ### Queries -/

/-- A query of the experiments: its type, its parameter, the names of the files and the texts of the results
(exp/utils_temporal.go:30-42). -/
structure SavedQuery where
  kind : Bytes
  parameter : Bytes
  lgmName : Bytes
  tjsonName : Bytes
  lgm : Res Bytes
  tjson : Res Bytes

/-- The start and the end of a file name. [exp/utils_temporal.go:125, 146] -/
def jsonName (a b : Bytes) : Bytes := a ++ b ++ b!".json"

/-- The queries of `RunTemporalSnapshotExperiment` (exp/utils_temporal.go:104-158) with the times and results. -/
def snapshotQueries (S : List (Int × Res (Option Tson) × Js)) : List SavedQuery :=
  S.mapIdx fun i x =>
    let rest := natDigits i ++ 95 :: itoa x.1
    { kind := b!"TemporalSnapshot"
      parameter := itoa x.1
      lgmName := jsonName b!"snapshot_logument_" rest
      tjsonName := jsonName b!"snapshot_tjson_" rest
      lgm := snapshotText x.2.1
      tjson := marshalAny x.2.2 }

/-- `strings.ReplaceAll` of dots and slashes by underscores (exp/utils_temporal.go:165, 225). -/
def fileTag (path : Bytes) : Bytes := path.map fun c => if c = 46 ∨ c = 47 then 95 else c

/-- The span of time in a parameter: ` (a-b)`. [exp/utils_temporal.go:170, 228] -/
def spanText (a b : Int) : Bytes := b!" (" ++ itoa a ++ 45 :: itoa b ++ b!")"

/-- The queries of `RunTemporalTrackExperiment` (exp/utils_temporal.go:161-217) for paths and their results. -/
def trackQueries (a b : Int) (T : List (Bytes × List (Nat × List Op) × List TVersion)) : List SavedQuery :=
  T.mapIdx fun i x =>
    let rest := natDigits i ++ 95 :: (fileTag x.1 ++ 95 :: (itoa a ++ 95 :: itoa b))
    { kind := b!"TemporalTrack"
      parameter := x.1 ++ spanText a b
      lgmName := jsonName b!"track_logument_" rest
      tjsonName := jsonName b!"track_tjson_" rest
      lgm := trackText x.2.1
      tjson := versionsText x.2.2 }

/-- The queries of `RunEventSearchExperiment` (exp/utils_temporal.go:220-291) for one path, thresholds and their results. -/
def eventQueries (path : Bytes) (a b : Int) (E : List (F64 × List Int × List Int)) : List SavedQuery :=
  E.mapIdx fun j x =>
    let rest := natDigits j ++ 95 :: (fileTag path ++ 95 :: (fmtFixed 1 x.1 ++ 95 :: (itoa a ++ 95 :: itoa b)))
    { kind := b!"EventSearch"
      parameter := path ++ b!" > " ++ fmtFixed 1 x.1 ++ spanText a b
      lgmName := jsonName b!"event_logument_" rest
      tjsonName := jsonName b!"event_tjson_" rest
      lgm := timesText x.2.1
      tjson := timesText x.2.2 }

/-! ### Saving -/

/-- The output of the temporal experiments of a scenario: the files of the logument, those of the TJSON store, and the tables
(exp/utils_temporal.go:47-61, 296). -/
structure TemporalOutput where
  lgm : Dir
  tjson : Dir
  tables : Dir

/-- The files of a query: `saveResultToFile` for both results (exp/utils_temporal.go:124-131, 145-152, 482-498).  After an error
nothing is written, and the experiment goes on. -/
def TemporalOutput.query (out : TemporalOutput) (q : SavedQuery) : TemporalOutput :=
  { out with lgm := out.lgm.save q.lgmName q.lgm, tjson := out.tjson.save q.tjsonName q.tjson }

/-- The result of the n-th query as recorded (exp/utils_temporal.go:108-145): the durations are those of the clock, a text that cannot be
made counts as empty. -/
def SavedQuery.result (taken : Nat → Nat × Nat) (scenario : Bytes) (i : Nat) (q : SavedQuery) : QueryResult :=
  ⟨scenario, q.kind, q.parameter, (taken i).1, (taken i).2, textSize q.lgm, textSize q.tjson⟩

/-- One experiment: the files of its queries and its table (exp/utils_temporal.go:104-158, 294-349; exp/exp_temporal.go:50-56). -/
def TemporalOutput.experiment (out : TemporalOutput) (taken : Nat → Nat × Nat) (scenario table : Bytes) (qs : List SavedQuery) :
    TemporalOutput :=
  let out := qs.foldl TemporalOutput.query out
  { out with tables := mset out.tables table (saveResults (qs.mapIdx (SavedQuery.result taken scenario))) }

/-- What the clock shows for the queries of the three experiments (exp/utils_temporal.go:116-118, 134-139, 174-176, 193-198, 237-239,
256-270). -/
structure QueryClocks where
  snapshot : Nat → Nat × Nat
  track : Nat → Nat × Nat
  event : Nat → Nat × Nat

/-- The results of the three experiments as saved (exp/exp_temporal.go:49-99).  Simplification: the files of the queries before a failed
one are not modelled. -/
def TemporalOutput.results (out : TemporalOutput) (k : QueryClocks) (scenario : Bytes) (span : Int × Int) (res : TemporalResults) :
    TemporalOutput :=
  let out := out.experiment k.snapshot scenario b!"snapshot_results.csv" (snapshotQueries res.snapshots)
  let out := match res.tracks with
    | some T => out.experiment k.track scenario b!"track_results.csv" (trackQueries span.1 span.2 (trackPaths.zip T))
    | none => out
  match res.events with
  | some E => out.experiment k.event scenario b!"event_search_results.csv"
      (eventQueries b!"Vehicle.Speed" res.window.1 res.window.2 (eventThresholds.zip E))
  | none => out

/-- `RunTemporalQueryExperiments` for a scenario directory (exp/exp_temporal.go:26-104) with the files written. -/
def temporalSaved (h : Heap) (c : TemporalDraws) (k : QueryClocks) (scenario : Bytes) (ds : List (Bytes × Dir)) (out : TemporalOutput) :
    Res TemporalOutput :=
  match latestDir ds with
  | none => .ok out
  | some (_, dir) =>
    match dir.loadPatches with
    | .ok rs =>
      match dir.loadDoc with
      | .ok doc => (temporalRun h c doc rs).map fun res => out.results k scenario (timeRange c.unix rs) res
      | _ => .panic
    | _ => .ok out

example : trackText [(12, [⟨.replace, b!"V.S", .num (dec 5 1), 7⟩]), (3, [])] =
    .ok b!"{\"12\":[{\"op\":\"replace\",\"path\":\"V.S\",\"value\":5,\"timestamp\":7}],\"3\":[]}" := by decide +kernel
example : versionsText [⟨b!"0-5", .num (dec 5 10)⟩] = .ok b!"[{\"data\":0.5,\"timestamp\":\"0-5\"}]" := by decide +kernel
example : (eventQueries b!"Vehicle.Speed" 5 10005 [(dec 10 1, [7], [])]).map (fun q => (q.parameter, q.lgmName)) =
    [(b!"Vehicle.Speed > 10.0 (5-10005)", b!"event_logument_0_Vehicle_Speed_10.0_5_10005.json")] := by decide +kernel

end Verif
