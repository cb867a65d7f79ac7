import Verif.PropsExpSaved
import Verif.PropsExpRows
/-
The program as a whole: the simulated experiments of all scenarios and the temporal experiments (main.go; exp/exp_scenario.go
`RealworldScenario`; exp/exp_temporal.go `RunTemporalQueryExperiments`).
-/
namespace Verif

/-- What the surroundings decide for the experiment of one scenario: what is drawn and in which order maps are visited, what the
clock shows for durations, and the time at which it begins (exp/exp_scenario.go:314-629; exp/doc_data_save.go:20). -/
structure RunEnv where
  draws : Draws
  clocks : Clocks
  time : Civil

/-- The directory of a scenario: the directories of its runs, and its tables (exp/exp_scenario.go:117-118; exp/doc_data_save.go:23). -/
structure ScenarioDir where
  runs : List (Bytes × Dir) := []
  tables : Dir := []

/-- The state outside of the functions: the package variable `scenarios` (exp/exp_scenario.go:30-36), the directories of
`outputDir` (exp/exp_scenario.go:18) and those of `temporalOutputDir` (exp/exp_temporal.go:15).  A directory that does not exist
counts as empty. -/
structure World where
  names : List Bytes
  results : List (Bytes × ScenarioDir) := []
  temporal : List (Bytes × TemporalOutput) := []

/-- The scenarios at the start of the program (exp/exp_scenario.go:30-36). -/
def startNames : List Bytes := [b!"urban_traffic", b!"highway_cruising", b!"battery_charging"]

/-- The duration of a simulation in seconds, `simulationDurationSec` (exp/exp_scenario.go:19). -/
def simSeconds : Nat := 300

/-- The directory of a scenario. [exp/exp_scenario.go:117] -/
def World.dirOf (w : World) (scenario : Bytes) : ScenarioDir := (mget w.results scenario).getD {}

/-- The temporal results of a scenario. [exp/utils_temporal.go:47] -/
def World.outOf (w : World) (scenario : Bytes) : TemporalOutput := (mget w.temporal scenario).getD ⟨[], [], []⟩

/-- The body of the loop of `RealworldScenario` (exp/exp_scenario.go:113-308).  `ok none`: a calculation does not end.  Simplification:
files can always be made; the tables are as they are when the deferred calls have been made. -/
def World.runScenario (secs : Nat) (e : RunEnv) (w : World) (scenario : Bytes) : Res (Option World) :=
  (Trip.start e.draws scenario).bind fun r₀ =>
    (experiment (secs * 1000) e.draws scenario).bind fun o =>
      match o with
      | none => .ok none
      | some r => (scenarioFiles secs e.draws e.clocks scenario).map fun o => o.map fun files =>
        { w with
          results := mset w.results scenario
            ⟨saveExperiment (w.dirOf scenario).runs e.time r₀ r, files.foldl (fun dir x => mset dir x.1 x.2) (w.dirOf scenario).tables⟩ }

/-- The loop of `RealworldScenario` (exp/exp_scenario.go:113), from the i-th scenario on. -/
def World.runFrom (secs : Nat) (env : Nat → RunEnv) : Nat → List Bytes → World → Res (Option World)
  | _, [], w => .ok (some w)
  | i, s :: ss, w => (w.runScenario secs (env i) s).bind fun o =>
    match o with
    | none => .ok none
    | some w' => World.runFrom secs env (i + 1) ss w'

/-- `RealworldScenario` (exp/exp_scenario.go:108-311). -/
def World.realworld (secs : Nat) (env : Nat → RunEnv) (w : World) : Res (Option World) := w.runFrom secs env 0 w.names

/-- The loop of `RunTemporalQueryExperiments` (exp/exp_temporal.go:26-101), from the i-th scenario on: without a directory of a run
the function returns; without readable patches the next scenario follows. -/
def World.queryFrom (h : Heap) (env : Nat → TemporalDraws × QueryClocks) : Nat → List Bytes → World → Res World
  | _, [], w => .ok w
  | i, s :: ss, w =>
    match latestDir (w.dirOf s).runs with
    | none => .ok w
    | some _ => (temporalSaved h (env i).1 (env i).2 s (w.dirOf s).runs (w.outOf s)).bind fun out =>
      World.queryFrom h env (i + 1) ss { w with temporal := mset w.temporal s out }

/-- `RunTemporalQueryExperiments` (exp/exp_temporal.go:19-104): it sets the package variable. -/
def World.queries (h : Heap) (env : Nat → TemporalDraws × QueryClocks) (w : World) : Res World :=
  World.queryFrom h env 0 [b!"urban_traffic"] { w with names := [b!"urban_traffic"] }

/-- `main` and `ScenarioExperiment` (main.go:35-44).  The generator made from the seed 42 is not kept: all draws are those of the
global one, which the runtime seeds at random; so the seed does not occur here. -/
def mainProgram (env : Nat → RunEnv) (w : World) : Res (Option World) := w.realworld simSeconds env

/-- `main` with `TemporalQueryExperiment` in place of `ScenarioExperiment` (main.go:35-39, 46-48), as the comment suggests. -/
def mainQueries (h : Heap) (env : Nat → TemporalDraws × QueryClocks) (w : World) : Res World := w.queries h env

/-- A second start of the program on the same files: the package variable has its first value again (exp/exp_scenario.go:30-36). -/
def World.restart (w : World) : World := { w with names := startNames }

end Verif
