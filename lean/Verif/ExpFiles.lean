import Verif.ExpTemporal
import Verif.ExpLoop
import Verif.PatchText
/-
The files between the simulation and the temporal experiments (exp/doc_data_save.go, exp/exp_scenario.go,
exp/exp_temporal.go): texts written by `json.MarshalIndent`, file names, and directories.

A directory is a list of files, a scenario directory a list of directories.  Errors of the file system are not modelled.
-/
namespace Verif

/-! ### Indented texts -/

/-- A new line and the indentation: `appendNewline` of `json.MarshalIndent` with no prefix and `iw` spaces (two at
exp/doc_data_save.go:94, four at internal/tson/serialization.go:21). -/
def newline (iw d : Nat) : Bytes := 10 :: List.replicate (iw * d) 32

/-- Where the scanner of `encoding/json` is: outside of strings, in a string, after a backslash in a string.
[part of `json.MarshalIndent`, exp/doc_data_save.go:94] -/
inductive Where where
  | out
  | str
  | esc
deriving Repr, DecidableEq

/-- `appendIndent` of `encoding/json` on a valid text; `d` is the depth, and `need` says that a brace or bracket was opened just
before.  Simplification: errors of the scanner are not modelled, since the text comes from `json.Marshal`.
[part of `json.MarshalIndent`, exp/doc_data_save.go:94, internal/tson/serialization.go:21] -/
def appendIndent (iw : Nat) : Where → Nat → Bool → Bytes → Bytes
  | _, _, _, [] => []
  | .str, d, need, c :: r => c :: appendIndent iw (if c = 34 then .out else if c = 92 then .esc else .str) d need r
  | .esc, d, need, c :: r => c :: appendIndent iw .str d need r
  | .out, d, need, c :: r =>
    if isWs c then appendIndent iw .out d need r
    else if c = 125 ∨ c = 93 then
      if need then c :: appendIndent iw .out d false r else newline iw (d - 1) ++ c :: appendIndent iw .out (d - 1) false r
    else
      let d' := if need then d + 1 else d
      (if need then newline iw d' else []) ++ c ::
        (if c = 123 ∨ c = 91 then appendIndent iw .out d' true r
        else if c = 44 then newline iw d' ++ appendIndent iw .out d' false r
        else if c = 58 then 32 :: appendIndent iw .out d' false r
        else if c = 34 then appendIndent iw .str d' false r
        else appendIndent iw .out d' false r)

/-- `json.MarshalIndent(data, "", "  ")` after the text of `json.Marshal` (exp/doc_data_save.go:94). -/
def indented (s : Res Bytes) : Res Bytes := s.map (appendIndent 2 .out 0 false)

/-! ### Patches -/

/-- The text of a TSON patch by its struct tags (`json.Marshal` at exp/doc_data_save.go:94, tags at
exp/exp_scenario.go:53-56). -/
def TPatch.json (p : TPatch) : Res Bytes :=
  (marshalAny p.value).map fun v => b!"{\"op\":" ++ jsonStr p.op ++ b!",\"path\":" ++ jsonStr p.path ++ b!",\"value\":" ++ v ++
    b!",\"timestamp\":" ++ itoa p.ts ++ b!"}"

/-- The text of a JSON patch by its struct tags (`json.Marshal` at exp/doc_data_save.go:94, tags at
exp/exp_scenario.go:46-48). -/
def JPatch.json (p : JPatch) : Res Bytes :=
  (marshalAny p.value).map fun v => b!"{\"op\":" ++ jsonStr p.op ++ b!",\"path\":" ++ jsonStr p.path ++ b!",\"value\":" ++ v ++ b!"}"

/-- The texts of the elements of a slice, in turn. [`json.Marshal` at exp/doc_data_save.go:94] -/
def jsonList {α : Type} (f : α → Res Bytes) : List α → Res (List Bytes)
  | [] => .ok []
  | p :: ps => (f p).bind fun b => (jsonList f ps).map fun l => b :: l

/-- `json.Marshal` on a slice that is not nil (exp/doc_data_save.go:94; the slices are made at exp/exp_scenario.go:365-366). -/
def jsonSlice {α : Type} (f : α → Res Bytes) (ps : List α) : Res Bytes := (jsonList f ps).map fun l => 91 :: (joinElems l ++ [93])

/-- `json.Unmarshal` into `[]TsonPatch` (exp/exp_temporal.go:138-139): the fields are those of `Operation`
(exp/exp_scenario.go:52-57; internal/tsonpatch/tsonpatch.go:81-86). -/
def readPatches (s : Bytes) : Res (List TPatch) :=
  (unmarshalPatch s).map fun p => (p.getD []).map fun o => ⟨o.op, o.path, (match o.value with | .any j => j | .doc _ => .null), o.ts⟩

/-! ### Directories -/

/-- A directory: names and contents of files. [exp/doc_data_save.go:100] -/
abbrev Dir := List (Bytes × Bytes)

/-- `saveJSONToFile` (exp/doc_data_save.go:90-106): if the text cannot be made, nothing is written; the callers go on after an
error (exp/exp_scenario.go:351-356, 609-622). -/
def Dir.save (dir : Dir) (name : Bytes) (s : Res Bytes) : Dir :=
  match indented s with
  | .ok b => mset dir name b
  | _ => dir

/-- The files of a simulated experiment in the order they are written: the documents at the beginning, those at the end, and the
patches (exp/exp_scenario.go:351-356, 609-622; names at exp/doc_data_save.go:36-75). -/
def Dir.saveRun (dir : Dir) (r₀ r : Trip) : Dir :=
  let dir := dir.save b!"initial_json.json" (marshalAny (.obj r₀.sim.json))
  let dir := dir.save b!"initial_tson.json" (marshalAny (.obj r₀.sim.tson))
  let dir := dir.save b!"final_json.json" (marshalAny (.obj r.sim.json))
  let dir := dir.save b!"final_tson.json" (marshalAny (.obj r.sim.tson))
  let dir := dir.save b!"all_json_patches.json" (jsonSlice JPatch.json r.sim.jsonPatches)
  dir.save b!"all_tson_patches.json" (jsonSlice TPatch.json r.sim.tsonPatches)

/-- The walk of `loadTSONPatches` through the files of a directory (exp/exp_temporal.go:113-147). -/
def loadFiles : List (Bytes × Bytes) → Res (List TPatch)
  | [] => .ok []
  | (name, s) :: fs =>
    if name = b!"all_tson_patches.json" then (readPatches s).bind fun p => (loadFiles fs).map fun ps => p ++ ps else loadFiles fs

/-- `loadTSONPatches` (exp/exp_temporal.go:108-154): the files are visited in the order of their names.  Simplification: the
directory has no directories in it. -/
def Dir.loadPatches (dir : Dir) : Res (List TPatch) := loadFiles (sortM dir)

/-- The document read from `initial_json.json` (exp/utils_temporal.go:64, 354-363, 503-512). -/
def Dir.loadDoc (dir : Dir) : Res (List (Bytes × Js)) :=
  match mget dir b!"initial_json.json" with
  | none => .err
  | some s =>
    match unmarshalText s with
    | .ok (.obj m) => .ok m
    | .ok .null => .ok []
    | _ => .err

/-- A time of the clock as written by `Format` (exp/doc_data_save.go:20). -/
structure Civil where
  year : Nat
  month : Nat
  day : Nat
  hour : Nat
  minute : Nat
  second : Nat
deriving Repr, DecidableEq

/-- A number with at least `w` digits. [part of `Format`, exp/doc_data_save.go:20] -/
def padded (w n : Nat) : Bytes := List.replicate (w - (natDigits n).length) 48 ++ natDigits n

/-- `Format("20060102_150405")` (exp/doc_data_save.go:20), for years that are not negative. -/
def Civil.name (c : Civil) : Bytes :=
  padded 4 c.year ++ (padded 2 c.month ++ (padded 2 c.day ++ 95 :: (padded 2 c.hour ++ (padded 2 c.minute ++ padded 2 c.second))))

/-- Does a name match the pattern: eight digits, an underscore, six digits (exp/exp_temporal.go:226)? -/
def isStamp (s : Bytes) : Bool :=
  decide (s.length = 15) && (s.take 8).all isDigit && (s[8]? == some 95) && (s.drop 9).all isDigit

/-- `findLatestTimestampDir` (exp/exp_temporal.go:215-242) on the directories of a scenario directory: the last of the sorted
names. -/
def latestDir (ds : List (Bytes × Dir)) : Option (Bytes × Dir) := (sortM (ds.filter fun d => isStamp d.1)).getLast?

/-- A simulated experiment that begins at a time of the clock: `NewDataStorage` (exp/doc_data_save.go:18-33) makes the directory,
and the files are written (exp/exp_scenario.go:318, 351-356, 609-622). -/
def saveExperiment (ds : List (Bytes × Dir)) (t : Civil) (r₀ r : Trip) : List (Bytes × Dir) :=
  mset ds t.name (Dir.saveRun ((mget ds t.name).getD []) r₀ r)

/-- `RunTemporalQueryExperiments` for a scenario directory (exp/exp_temporal.go:26-104): `.ok none` if the directory or the patches
cannot be read, which is only printed; without the document the experiments panic (exp/utils_temporal.go:67-70). -/
def temporalFiles (h : Heap) (c : TemporalDraws) (ds : List (Bytes × Dir)) : Res (Option TemporalResults) :=
  match latestDir ds with
  | none => .ok none
  | some (_, dir) =>
    match dir.loadPatches with
    | .ok rs =>
      match dir.loadDoc with
      | .ok doc => (temporalRun h c doc rs).map some
      | _ => .panic
    | _ => .ok none

example : indented (marshalAny (.obj [(b!"b", .arr [.null, .arr [], .int 5]), (b!"a", .str b!"{,:}\\\"")])) =
    .ok b!"{\n  \"a\": \"{,:}\\\\\\\"\",\n  \"b\": [\n    null,\n    [],\n    5\n  ]\n}" := by decide +kernel
example : Civil.name ⟨2025, 7, 3, 9, 0, 12⟩ = b!"20250703_090012" := by decide +kernel
example : isStamp b!"20250703_090012" = true ∧ isStamp b!"sensor_data" = false := by decide +kernel

end Verif
