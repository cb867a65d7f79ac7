import Verif.ExpMain
/-
C99: the program as a whole.
-/
namespace Verif

/-! ### The simulated experiments -/

/-- What a scenario directory is after the experiment of the scenario: the latest directory of a run holds exactly the recorded patches and
the first document, the runs of other times are as before, the tables are those of this run, and files of other names are as before. -/
def ExperimentDone (secs : Nat) (e : RunEnv) (scenario : Bytes) (old new : ScenarioDir) : Prop :=
  ∃ (r₀ r : Trip) (doc m : List (Bytes × Js)) (dir files : Dir),
    Trip.start e.draws scenario = .ok r₀ ∧ experiment (secs * 1000) e.draws scenario = .ok (some r) ∧
    new.runs = saveExperiment old.runs e.time r₀ r ∧ latestDir new.runs = some (e.time.name, dir) ∧
    dir.loadPatches = .ok r.sim.tsonPatches ∧ dir.loadDoc = .ok doc ∧ Ready (NoSwitch (secs * 1000) scenario) r₀ r doc m ∧
    (∀ name, name ≠ e.time.name → mget new.runs name = mget old.runs name) ∧
    scenarioFiles secs e.draws e.clocks scenario = .ok (some files) ∧
    (∀ name text, mget files name = some text → mget new.tables name = some text) ∧
    ∀ name, mget files name = none → mget new.tables name = mget old.tables name

theorem run_scenario {secs : Nat} (hsecs : secs * 1000 ≤ 2 ^ 53) {e : RunEnv} (hd : e.draws.Good) (hclk : e.draws.Clock) (ht : e.time.Valid) {scenario : Bytes}
    (hs : scenario ∈ scenarioNames) {w : World} (hds : UpTo (w.dirOf scenario).runs e.time) :
    ∃ w', w.runScenario secs e scenario = .ok (some w') ∧ w'.names = w.names ∧ w'.temporal = w.temporal ∧
      (∀ s, s ≠ scenario → mget w'.results s = mget w.results s) ∧ ExperimentDone secs e scenario (w.dirOf scenario) (w'.dirOf scenario) := by
  obtain ⟨r₀, r, doc, m, dir, h1, h2, -, h3, h4, h5, h6⟩ := C87_handed_partial hsecs hd hclk hs ht hds
  obtain ⟨r', files, k1, k2, k3, -⟩ := C90_files (secs := secs) hd e.clocks hs
  have hn : (mkeys files).Nodup := by
    have := names_nodup.1
    rw [k3]
    split
    · exact this
    · rw [List.append_nil]; exact (List.nodup_append.1 this).1
  have he : w.runScenario secs e scenario = .ok (some { w with
      results := mset w.results scenario
        ⟨saveExperiment (w.dirOf scenario).runs e.time r₀ r, files.foldl (fun dir x => mset dir x.1 x.2) (w.dirOf scenario).tables⟩ }) := by
    unfold World.runScenario
    rw [h1]
    simp only [Res.bind]
    rw [h2]
    simp only []
    rw [k2]
    rfl
  refine ⟨_, he, rfl, rfl, fun s hne => mget_mset_ne _ _ hne, ?_⟩
  have hdir : ∀ x, World.dirOf { w with results := mset w.results scenario x } scenario = x := fun x => by
    unfold World.dirOf; rw [mget_mset_self]; rfl
  refine ⟨r₀, r, doc, m, dir, files, h1, h2, by rw [hdir], by rw [hdir]; exact h3, h4, h5, h6, fun name hne => ?_, k2, fun name text hf => ?_, fun name hf => ?_⟩
  · rw [hdir]; exact mget_mset_ne _ _ hne
  · rw [hdir]; exact mget_foldl_mset_mem hn hf _
  · rw [hdir]; exact mget_foldl_mset hf _

theorem run_from {secs : Nat} (hsecs : secs * 1000 ≤ 2 ^ 53) {env : Nat → RunEnv} (hd : ∀ i, (env i).draws.Good ∧ (env i).draws.Clock ∧ (env i).time.Valid) :
    ∀ (ss : List Bytes) (i : Nat) (w : World), ss.Nodup → (∀ s ∈ ss, s ∈ scenarioNames) →
      (∀ (j : Nat) s, ss[j]? = some s → UpTo (w.dirOf s).runs (env (i + j)).time) →
      ∃ w', w.runFrom secs env i ss = .ok (some w') ∧ w'.names = w.names ∧ w'.temporal = w.temporal ∧
        (∀ s, s ∉ ss → mget w'.results s = mget w.results s) ∧
        ∀ (j : Nat) s, ss[j]? = some s → ExperimentDone secs (env (i + j)) s (w.dirOf s) (w'.dirOf s)
  | [], i, w, _, _, _ => ⟨w, rfl, rfl, rfl, fun _ _ => rfl, fun j s h => by simp at h⟩
  | s :: ss, i, w, hn, hm, hu => by
    obtain ⟨g1, g2, g3⟩ := hd i
    obtain ⟨w1, a1, a2, a3, a4, a5⟩ := run_scenario hsecs g1 g2 g3 (hm s (by simp)) (hu 0 s rfl)
    rw [List.nodup_cons] at hn
    have hdir : ∀ s', s' ∈ ss → w1.dirOf s' = w.dirOf s' := fun s' h => by
      unfold World.dirOf; rw [a4 s' (fun e => hn.1 (e ▸ h))]
    obtain ⟨w', b1, b2, b3, b4, b5⟩ := run_from hsecs hd ss (i + 1) w1 hn.2 (fun s' h => hm s' (by simp [h])) (fun j s' h => by
      rw [hdir s' (List.mem_of_getElem? h)]
      have := hu (j + 1) s' (by simpa using h)
      rwa [show i + 1 + j = i + (j + 1) by omega])
    refine ⟨w', by rw [World.runFrom, a1]; exact b1, b2.trans a2, b3.trans a3, fun s' h => ?_, fun j s' h => ?_⟩
    · rw [List.mem_cons, not_or] at h
      rw [b4 s' h.2, a4 s' h.1]
    · cases j with
      | zero =>
        simp only [List.getElem?_cons_zero, Option.some.injEq] at h
        subst h
        have e : w'.dirOf s = w1.dirOf s := by unfold World.dirOf; rw [b4 s hn.1]
        rw [e]
        exact a5
      | succ j =>
        simp only [List.getElem?_cons_succ] at h
        have := b5 j s' h
        rw [hdir s' (List.mem_of_getElem? h), show i + 1 + j = i + (j + 1) by omega] at this
        exact this

/-- **C99, simulation.**  The program simulates each of its scenarios once, and the results of each are in its own directory: the latest run
there is the one made now and its tables are those of this run, whatever the other scenarios did.  Nothing else is changed. -/
theorem C99_runs {env : Nat → RunEnv} (hd : ∀ i, (env i).draws.Good ∧ (env i).draws.Clock ∧ (env i).time.Valid) {w : World} (hw : w.names = startNames)
    (hu : ∀ (j : Nat) s, startNames[j]? = some s → UpTo (w.dirOf s).runs (env j).time) :
    ∃ w', mainProgram env w = .ok (some w') ∧ w'.names = startNames ∧ w'.temporal = w.temporal ∧
      (∀ s, s ∉ startNames → mget w'.results s = mget w.results s) ∧
      ∀ (j : Nat) s, startNames[j]? = some s → ExperimentDone simSeconds (env j) s (w.dirOf s) (w'.dirOf s) := by
  obtain ⟨w', a1, a2, a3, a4, a5⟩ := run_from (secs := simSeconds) (by decide) hd startNames 0 w (by decide) (by decide) (fun j s h => by
    rw [Nat.zero_add]; exact hu j s h)
  refine ⟨w', by unfold mainProgram World.realworld; rw [hw]; exact a1, a2.trans hw, a3, a4, fun j s h => ?_⟩
  have := a5 j s h
  rwa [Nat.zero_add] at this

/-! ### The temporal experiments -/

/-- **C99, temporal experiments.**  The program and, after it, the temporal experiments: their results for traffic are those of the run made by the
program, and they are saved. -/
theorem C99_whole_partial (h : Heap) {env : Nat → RunEnv} (hd : ∀ i, (env i).draws.Good ∧ (env i).draws.Clock ∧ (env i).time.Valid) {w : World}
    (hw : w.names = startNames) (hu : ∀ (j : Nat) s, startNames[j]? = some s → UpTo (w.dirOf s).runs (env j).time)
    {q : Nat → TemporalDraws × QueryClocks} (hc : (q 0).1.Good) (hn : 300000 ≤ (q 0).1.now) (hn' : (q 0).1.now ≤ maxInt64) :
    ∃ (w' w'' : World) (r₀ r : Trip) (res : TemporalResults) (T : List (List (Nat × List Op) × List TVersion)) (E : List (List Int × List Int)) (hi : Int),
      mainProgram env w = .ok (some w') ∧ mainQueries h q w'.restart = .ok w'' ∧ w''.results = w'.results ∧
      Trip.start (env 0).draws b!"urban_traffic" = .ok r₀ ∧ experiment 300000 (env 0).draws b!"urban_traffic" = .ok (some r) ∧ hi < 300000 ∧
      DriveResult (NoSwitch 300000 b!"urban_traffic") r₀ r hi res T E ∧
      SavedResults (NoSwitch 300000 b!"urban_traffic") b!"urban_traffic" (q 0).2 r hi res T E (w''.outOf b!"urban_traffic") := by
  obtain ⟨w', a1, -, -, -, a5⟩ := C99_runs hd hw hu
  obtain ⟨r₀, r, doc, m, dir, files, b1, b2, b3, b4, -⟩ := a5 0 b!"urban_traffic" rfl
  obtain ⟨g1, g2, g3⟩ := hd 0
  obtain ⟨r₀', r', res, T, E, hi, out, c1, c2, -, c4, c5, c6, c7⟩ := C92_all_partial h (dur := 300000) (by decide) (by decide) g1 g2 (scenario := b!"urban_traffic") (by decide)
    hc hn hn' g3 (hu 0 b!"urban_traffic" rfl) (q 0).2 (w'.outOf b!"urban_traffic")
  obtain rfl : r₀ = r₀' := by rw [b1] at c1; cases c1; rfl
  obtain rfl : r = r' := by
    change experiment 300000 _ _ = _ at b2
    rw [b2] at c2; cases c2; rfl
  refine ⟨w', { w'.restart with names := [b!"urban_traffic"], temporal := mset w'.temporal b!"urban_traffic" out }, r₀, r, res, T, E, hi, a1, ?_, rfl, b1, c2, c5, c6, ?_⟩
  · show World.queryFrom h q 0 [b!"urban_traffic"] { w'.restart with names := [b!"urban_traffic"] } = _
    rw [World.queryFrom]
    have e : World.dirOf { w'.restart with names := [b!"urban_traffic"] } b!"urban_traffic" = w'.dirOf b!"urban_traffic" := rfl
    rw [e, b4, b3]
    dsimp only
    have e' : World.outOf { w'.restart with names := [b!"urban_traffic"] } b!"urban_traffic" = w'.outOf b!"urban_traffic" := rfl
    rw [e', c4]
    rfl
  · unfold World.outOf
    dsimp only
    rw [mget_mset_self]
    exact c7

/-- Whatever there is: the temporal experiments change the results of traffic only, and afterwards traffic is the only scenario. -/
theorem C99_only_traffic (h : Heap) (q : Nat → TemporalDraws × QueryClocks) {w w' : World} (hq : w.queries h q = .ok w') :
    w'.names = [b!"urban_traffic"] ∧ w'.results = w.results ∧ ∀ s, s ≠ b!"urban_traffic" → mget w'.temporal s = mget w.temporal s := by
  unfold World.queries at hq
  rw [World.queryFrom] at hq
  split at hq
  · cases hq; exact ⟨rfl, rfl, fun _ _ => rfl⟩
  · cases ht : temporalSaved h (q 0).1 (q 0).2 b!"urban_traffic" (World.dirOf { w with names := [b!"urban_traffic"] } b!"urban_traffic").runs
      (World.outOf { w with names := [b!"urban_traffic"] } b!"urban_traffic") with
    | err => rw [ht] at hq; cases hq
    | panic => rw [ht] at hq; cases hq
    | ok out =>
      rw [ht] at hq
      cases hq
      exact ⟨rfl, rfl, fun s hne => mget_mset_ne _ _ hne⟩

/-- C99: without a run of traffic, or without patches that can be read, the temporal experiments end quietly and have no results; with patches but without the
document they panic. -/
theorem C99_stops (h : Heap) (q : Nat → TemporalDraws × QueryClocks) (w : World) :
    (latestDir (w.dirOf b!"urban_traffic").runs = none → w.queries h q = .ok { w with names := [b!"urban_traffic"] }) ∧
    ∀ d, latestDir (w.dirOf b!"urban_traffic").runs = some d →
      ((∀ rs, d.2.loadPatches ≠ .ok rs) → ∃ w', w.queries h q = .ok w' ∧ w'.results = w.results ∧ w'.outOf b!"urban_traffic" = w.outOf b!"urban_traffic") ∧
      ∀ rs, d.2.loadPatches = .ok rs → (∀ doc, d.2.loadDoc ≠ .ok doc) → w.queries h q = .panic := by
  have e1 : World.dirOf { w with names := [b!"urban_traffic"] } b!"urban_traffic" = w.dirOf b!"urban_traffic" := rfl
  have e2 : World.outOf { w with names := [b!"urban_traffic"] } b!"urban_traffic" = w.outOf b!"urban_traffic" := rfl
  unfold World.queries
  rw [World.queryFrom, e1, e2]
  refine ⟨fun hn => by rw [hn], fun d hd => ⟨fun hp => ?_, fun rs hp hl => ?_⟩⟩
  · rw [hd]
    dsimp only
    have : temporalSaved h (q 0).1 (q 0).2 b!"urban_traffic" (w.dirOf b!"urban_traffic").runs (w.outOf b!"urban_traffic") = .ok (w.outOf b!"urban_traffic") := by
      unfold temporalSaved
      rw [hd]
      dsimp only
      cases hq : d.2.loadPatches with
      | ok rs => exact absurd hq (hp rs)
      | err => rfl
      | panic => rfl
    rw [this]
    refine ⟨_, rfl, rfl, ?_⟩
    show (mget (mset w.temporal b!"urban_traffic" _) b!"urban_traffic").getD _ = _
    rw [mget_mset_self]
    rfl
  · rw [hd]
    dsimp only
    have : temporalSaved h (q 0).1 (q 0).2 b!"urban_traffic" (w.dirOf b!"urban_traffic").runs (w.outOf b!"urban_traffic") = .panic := by
      unfold temporalSaved
      rw [hd]
      dsimp only
      rw [hp]
      dsimp only
      cases hq : d.2.loadDoc with
      | ok doc => exact absurd hq (hl doc)
      | err => rfl
      | panic => rfl
    rw [this]
    rfl

/-- A simulation of the scenarios of the list leaves the directories of the others. -/
theorem runFrom_apart {secs : Nat} {env : Nat → RunEnv} : ∀ {ss : List Bytes} {i : Nat} {w w' : World}, w.runFrom secs env i ss = .ok (some w') →
    ∀ s, s ∉ ss → mget w'.results s = mget w.results s
  | [], _, _, _, h, _, _ => by cases h; rfl
  | s :: ss, i, w, w', h, s', hs' => by
    rw [World.runFrom] at h
    rw [List.mem_cons, not_or] at hs'
    cases h1 : w.runScenario secs (env i) s with
    | err => rw [h1] at h; cases h
    | panic => rw [h1] at h; cases h
    | ok o =>
      rw [h1] at h
      cases o with
      | none => cases h
      | some w1 =>
        rw [runFrom_apart h s' hs'.2]
        unfold World.runScenario at h1
        cases e1 : Trip.start (env i).draws s with
        | err => rw [e1] at h1; cases h1
        | panic => rw [e1] at h1; cases h1
        | ok r₀ =>
          rw [e1] at h1
          simp only [Res.bind] at h1
          cases e2 : experiment (secs * 1000) (env i).draws s with
          | err => rw [e2] at h1; cases h1
          | panic => rw [e2] at h1; cases h1
          | ok o =>
            rw [e2] at h1
            cases o with
            | none => cases h1
            | some r =>
              simp only [] at h1
              cases e3 : scenarioFiles secs (env i).draws (env i).clocks s with
              | err => rw [e3] at h1; cases h1
              | panic => rw [e3] at h1; cases h1
              | ok f =>
                rw [e3] at h1
                cases f with
                | none => cases h1
                | some f =>
                  cases h1
                  exact mget_mset_ne _ _ hs'.1

/-- C99: the temporal experiments leave only traffic to be simulated: called after them, `RealworldScenario` changes the directory of no other scenario. -/
theorem C99_variable (h : Heap) (q : Nat → TemporalDraws × QueryClocks) {secs : Nat} {env : Nat → RunEnv} {w w' w'' : World} (hq : w.queries h q = .ok w')
    (hr : w'.realworld secs env = .ok (some w'')) : ∀ s, s ≠ b!"urban_traffic" → mget w''.results s = mget w.results s := by
  obtain ⟨a1, a2, -⟩ := C99_only_traffic h q hq
  intro s hs
  unfold World.realworld at hr
  rw [a1] at hr
  rw [runFrom_apart hr s (by simpa using hs), a2]

/-! ### What fails -/

/-- A run with all draws 0.5 at some time, and one in which the first draws are 0.25. -/
def halfEnv : Nat → RunEnv := fun _ => ⟨halfDraws, ⟨fun _ => (1500, 700), 1700000000, id⟩, someTime⟩

@[inherit_doc halfEnv]
def quarterEnv : Nat → RunEnv := fun _ => ⟨{ halfDraws with first := (dec 1 4, dec 1 4, dec 1 4) }, ⟨fun _ => (1500, 700), 1700000000, id⟩, someTime⟩

theorem halfEnv_good : ∀ i, (halfEnv i).draws.Good ∧ (halfEnv i).draws.Clock ∧ (halfEnv i).time.Valid :=
  fun _ => ⟨halfDraws_good, halfDraws_clock, someTime_valid⟩

theorem quarterEnv_good : ∀ i, (quarterEnv i).draws.Good ∧ (quarterEnv i).draws.Clock ∧ (quarterEnv i).time.Valid :=
  fun _ => ⟨⟨⟨exUnit, exUnit, exUnit⟩, halfDraws_good.switch, halfDraws_good.read, halfDraws_good.order, halfDraws_good.json, halfDraws_good.tson⟩, halfDraws_clock, someTime_valid⟩

theorem upTo_nil (t : Civil) : UpTo [] t := ⟨List.nodup_nil, fun d h => (by cases h), fun d h => (by cases h)⟩

/-- **C99, violated.**  The temporal experiments are not run for all scenarios: after the program and the temporal experiments there are data of three
scenarios, and results for traffic only. -/
theorem C99_scenarios_fails : ∃ w' w'', mainProgram halfEnv ⟨startNames, [], []⟩ = .ok (some w') ∧
    mainQueries [] (fun _ => (plainTemporal, ⟨fun i => (i, i), fun i => (i, i), fun i => (i, i)⟩)) w'.restart = .ok w'' ∧
    (∀ s ∈ startNames, ∃ d, latestDir (w''.dirOf s).runs = some d) ∧ mget w''.temporal b!"highway_cruising" = none ∧
    mget w''.temporal b!"battery_charging" = none := by
  have hu : ∀ (j : Nat) s, startNames[j]? = some s → UpTo (World.dirOf ⟨startNames, [], []⟩ s).runs (halfEnv j).time := fun _ _ _ => upTo_nil _
  obtain ⟨w', w'', r₀, r, res, T, E, hi, a1, a2, a3, -⟩ := C99_whole_partial [] halfEnv_good rfl hu (q := fun _ => (plainTemporal, ⟨fun i => (i, i), fun i => (i, i), fun i => (i, i)⟩))
    plainTemporal_good (by decide) (by decide)
  obtain ⟨w1, b1, -, b2, -, b3⟩ := C99_runs halfEnv_good (w := ⟨startNames, [], []⟩) rfl hu
  obtain rfl : w' = w1 := by rw [a1] at b1; cases b1; rfl
  obtain ⟨-, -, c⟩ := C99_only_traffic _ _ a2
  have ht : w'.restart.temporal = [] := b2
  refine ⟨w', w'', a1, a2, fun s hs => ?_, ?_, ?_⟩
  · obtain ⟨j, hj⟩ := List.getElem?_of_mem hs
    obtain ⟨_, _, _, _, dir, _, _, _, _, k, _⟩ := b3 j s hj
    have e : w''.dirOf s = w'.dirOf s := by unfold World.dirOf; rw [a3]
    rw [e]
    exact ⟨_, k⟩
  · rw [c _ (by decide), ht]; rfl
  · rw [c _ (by decide), ht]; rfl

/-- The speed at the beginning of a drive in traffic. -/
def firstSpeed (d : Draws) : Option F64 :=
  match firstVehicle d b!"urban_traffic" with
  | .ok ss =>
    match sensorOf ss b!"Vehicle.Speed" with
    | some s => match s.value with | .num x => some x | _ => none
    | none => none
  | _ => none

theorem speed_read {secs : Nat} {e : RunEnv} {old new : ScenarioDir} (h : ExperimentDone secs e b!"urban_traffic" old new) {x : F64} (hx : firstSpeed e.draws = some x) :
    ∃ d doc m, latestDir new.runs = some d ∧ d.2.loadDoc = .ok doc ∧ jsTransform (.obj doc) = .obj m ∧ (Js.obj m).at? (split bDot b!"Vehicle.Speed") = some (.num x) := by
  obtain ⟨r₀, r, doc, m, dir, files, h1, -, -, h4, -, h6, h7, -⟩ := h
  refine ⟨_, doc, m, h4, h6, h7.plain, ?_⟩
  unfold firstSpeed at hx
  unfold Trip.start at h1
  cases e1 : firstVehicle e.draws b!"urban_traffic" with
  | err => rw [e1] at hx; cases hx
  | panic => rw [e1] at hx; cases hx
  | ok ss =>
    rw [e1] at hx h1
    simp only [Res.bind] at h1
    have hv : r₀.vehicle = ss := by
      cases e2 : vehicleJson [] (e.draws.jsonOrder (docSensors e.draws ss)) with
      | err => rw [e2] at h1; cases h1
      | panic => rw [e2] at h1; cases h1
      | ok j =>
        rw [e2] at h1
        simp only [] at h1
        cases e3 : vehicleTson [] (e.draws.tsonOrder (docSensors e.draws ss)) with
        | err => rw [e3] at h1; cases h1
        | panic => rw [e3] at h1; cases h1
        | ok t => rw [e3] at h1; cases h1; rfl
    dsimp only at hx
    cases hs : sensorOf ss b!"Vehicle.Speed" with
    | none => rw [hs] at hx; cases hx
    | some s =>
      rw [hs] at hx
      dsimp only at hx
      obtain ⟨k1, k2⟩ := sensorOf_some hs
      have := (h7.sensors s (by rw [hv]; exact k1)).1.found
      rw [k2] at this
      rw [this]
      cases hval : s.value with
      | num y => rw [hval] at hx; cases hx; rfl
      | _ => rw [hval] at hx; cases hx

/-- **C99, violated.**  The seed does not fix the results: two runs of the program on the same files at the same times, with the same durations and the same
orders of all maps, whose results differ by what the global generator gives. -/
theorem C99_seed_fails : ∃ w₁ w₂, mainProgram halfEnv ⟨startNames, [], []⟩ = .ok (some w₁) ∧ mainProgram quarterEnv ⟨startNames, [], []⟩ = .ok (some w₂) ∧
    (∀ i, (halfEnv i).time = (quarterEnv i).time ∧ (halfEnv i).clocks = (quarterEnv i).clocks ∧ (halfEnv i).draws.clock = (quarterEnv i).draws.clock ∧
      (halfEnv i).draws.order = (quarterEnv i).draws.order ∧ (halfEnv i).draws.jsonOrder = (quarterEnv i).draws.jsonOrder ∧
      (halfEnv i).draws.tsonOrder = (quarterEnv i).draws.tsonOrder) ∧ w₁.dirOf b!"urban_traffic" ≠ w₂.dirOf b!"urban_traffic" := by
  obtain ⟨w₁, a1, -, -, -, a5⟩ := C99_runs halfEnv_good (w := ⟨startNames, [], []⟩) rfl (fun _ _ _ => upTo_nil _)
  obtain ⟨w₂, b1, -, -, -, b5⟩ := C99_runs quarterEnv_good (w := ⟨startNames, [], []⟩) rfl (fun _ _ _ => upTo_nil _)
  refine ⟨w₁, w₂, a1, b1, fun _ => ⟨rfl, rfl, rfl, rfl, rfl, rfl⟩, fun he => ?_⟩
  obtain ⟨d, doc, m, k1, k2, k3, k4⟩ := speed_read (a5 0 _ rfl) (x := dec 50 1) (by decide +kernel)
  obtain ⟨d', doc', m', l1, l2, l3, l4⟩ := speed_read (b5 0 _ rfl) (x := dec 45 1) (by decide +kernel)
  rw [he, l1] at k1
  cases k1
  rw [l2] at k2
  cases k2
  rw [l3] at k3
  cases k3
  rw [l4] at k4
  have : dec 45 1 ≠ dec 50 1 := by decide +kernel
  simp only [Option.some.injEq, Js.num.injEq] at k4
  exact this k4

/-- The hypotheses of `C99_runs` hold on an empty disk. -/
example : ∃ w' r, mainProgram halfEnv ⟨startNames, [], []⟩ = .ok (some w') ∧ experiment 300000 halfDraws b!"battery_charging" = .ok (some r) ∧
    ∃ dir, latestDir (w'.dirOf b!"battery_charging").runs = some (b!"20250703_090012", dir) ∧ dir.loadPatches = .ok r.sim.tsonPatches := by
  obtain ⟨w', a1, -, -, -, a5⟩ := C99_runs halfEnv_good (w := ⟨startNames, [], []⟩) rfl (fun _ _ _ => upTo_nil _)
  obtain ⟨r₀, r, doc, m, dir, files, -, b2, -, b4, b5, -⟩ := a5 2 _ rfl
  exact ⟨w', r, a1, b2, dir, b4, b5⟩

/-- C99, a new start: after the temporal experiments only a new process simulates all scenarios again, on the files that there are. -/
theorem C99_restart (h : Heap) (q : Nat → TemporalDraws × QueryClocks) {w w' : World} (hq : w.queries h q = .ok w') {env : Nat → RunEnv}
    (hd : ∀ i, (env i).draws.Good ∧ (env i).draws.Clock ∧ (env i).time.Valid)
    (hu : ∀ (j : Nat) s, startNames[j]? = some s → UpTo (w.dirOf s).runs (env j).time) :
    ∃ w'', mainProgram env w'.restart = .ok (some w'') ∧ w''.temporal = w'.temporal ∧
      ∀ (j : Nat) s, startNames[j]? = some s → ExperimentDone simSeconds (env j) s (w.dirOf s) (w''.dirOf s) := by
  obtain ⟨-, a2, -⟩ := C99_only_traffic h q hq
  have e : ∀ s, w'.restart.dirOf s = w.dirOf s := fun s => by
    show (mget w'.results s).getD {} = (mget w.results s).getD {}
    rw [a2]
  obtain ⟨w'', b1, -, b3, -, b5⟩ := C99_runs hd (w := w'.restart) rfl (fun j s hj => by rw [e]; exact hu j s hj)
  exact ⟨w'', b1, b3, fun j s hj => by rw [← e]; exact b5 j s hj⟩

/-- Without any files the temporal experiments do nothing. -/
example : ∃ w', World.queries [] (fun _ => (plainTemporal, ⟨fun i => (i, i), fun i => (i, i), fun i => (i, i)⟩)) ⟨startNames, [], []⟩ = .ok w' := ⟨_, rfl⟩

end Verif
