import Verif.PropsPercent
import Verif.PropsExpSwitch
/-
C90: the tables of results of a simulated experiment say what happened in it.
-/
namespace Verif

/-! ### The timing records -/

/-- The timing records of an experiment so far. -/
structure Timings (k : Clocks) (r : Trip) (T : List Timing) : Prop where
  count : T.length = r.sim.updates
  index : T.map Timing.index = List.range' 1 T.length
  taken : ∀ x ∈ T, (x.jsonNs, x.tsonNs) = k.taken x.index
  set : T.map (fun x => ((x.time : Int), x.path)) = r.sim.setPatches.map fun p => (p.ts, p.path)
  tson : (T.filter Timing.changed).map (fun x => ((x.time : Int), x.path)) = r.sim.tsonPatches.map fun p => (p.ts, p.path)

theorem Timings.same {k : Clocks} {r r' : Trip} {T : List Timing} (h : Timings k r T) (h1 : r'.sim.updates = r.sim.updates)
    (h2 : r'.sim.setPatches = r.sim.setPatches) (h3 : r'.sim.tsonPatches = r.sim.tsonPatches) : Timings k r' T :=
  ⟨by rw [h1]; exact h.count, h.index, h.taken, by rw [h2]; exact h.set, by rw [h3]; exact h.tson⟩

theorem timed_visit {k : Clocks} {sc : Bytes} {c : Choices} {t : Nat} {p : Bytes} {r r' : Trip} {T : List Timing}
    (hv : r.visit c t p = .ok (some r')) (h : Timings k r T) : Timings k r' (T ++ r.timing k sc c t p) := by
  unfold Trip.visit at hv
  unfold Trip.timing
  cases hs : sensorOf r.vehicle p with
  | none =>
    rw [hs] at hv
    cases hv
    simpa using h
  | some s =>
    rw [hs] at hv
    simp only at hv ⊢
    cases hd : due t s.interval with
    | err => rw [hd] at hv; cases hv
    | panic => rw [hd] at hv; cases hv
    | ok b =>
      rw [hd] at hv
      cases b with
      | false =>
        cases hv
        simpa using h
      | true =>
        simp only [Res.bind, if_true] at hv ⊢
        cases hr : s.read c t with
        | err => rw [hr] at hv; cases hv
        | panic => rw [hr] at hv; cases hv
        | ok o =>
          rw [hr] at hv
          cases o with
          | none => cases hv
          | some x =>
            simp only [Res.map, Option.map_some, Res.ok.injEq, Option.some.injEq] at hv
            subst hv
            have hm : (mget (vehicleValues r.vehicle) p).getD .null = s.value := by rw [mget_values, hs]; rfl
            refine ⟨?_, ?_, ?_, ?_, ?_⟩
            · simp only [Sim.step, List.length_append, List.length_cons, List.length_nil, h.count]
            · rw [List.map_append, h.index, List.length_append, List.length_cons, List.length_nil]
              simp only [List.map_cons, List.map_nil, ← h.count]
              rw [List.range'_concat]
              simp [Nat.add_comm]
            · intro y hy
              rcases List.mem_append.1 hy with hy | hy
              · exact h.taken y hy
              · rw [List.mem_singleton.1 hy]
            · rw [List.map_append, h.set]
              simp only [Sim.step, List.map_append, List.map_cons, List.map_nil]
            · rw [List.filter_append, List.map_append, h.tson]
              simp only [Sim.step, hm]
              cases isEqual s.value x.2 <;> simp

theorem timed_visits {k : Clocks} {sc : Bytes} {d : Draws} {t : Nat} : ∀ (ps : List Bytes) {r r' : Trip} {T : List Timing},
    Trip.visits d t ps r = .ok (some r') → Timings k r T → ∃ T', timedVisits d k sc t ps (r, T) = .ok (some (r', T')) ∧ Timings k r' T'
  | [], r, r', T, hv, h => by cases hv; exact ⟨T, rfl, h⟩
  | p :: ps, r, r', T, hv, h => by
    rw [Trip.visits] at hv
    rw [timedVisits]
    cases e : r.visit (d.read t p) t p with
    | err => rw [e] at hv; cases hv
    | panic => rw [e] at hv; cases hv
    | ok o =>
      rw [e] at hv
      cases o with
      | none => cases hv
      | some r1 => exact timed_visits ps (T := T ++ r.timing k sc (d.read t p) t p) hv (timed_visit e h)

theorem Trip.switch_sim {d : Draws} {t : Nat} {r r' : Trip} (h : r.switch d t = .ok r') :
    r'.sim.updates = r.sim.updates ∧ r'.sim.setPatches = r.sim.setPatches ∧ r'.sim.tsonPatches = r.sim.tsonPatches := by
  unfold Trip.switch at h
  cases hs : r.state with
  | none => rw [hs] at h; cases h; exact ⟨rfl, rfl, rfl⟩
  | some st =>
    rw [hs] at h
    simp only at h
    split at h
    · cases hm : mixedSettings (d.switch t).1 (d.switch t).2 _ r.vehicle with
      | err => rw [hm] at h; cases h
      | panic => rw [hm] at h; cases h
      | ok ss => rw [hm] at h; cases h; exact ⟨rfl, rfl, rfl⟩
    · cases h; exact ⟨rfl, rfl, rfl⟩

theorem timed_loop {k : Clocks} {sc : Bytes} {d : Draws} : ∀ (ts : List Nat) {r r' : Trip} {T : List Timing},
    Trip.loop d ts r = .ok (some r') → Timings k r T → ∃ T', timedLoop d k sc ts (r, T) = .ok (some (r', T')) ∧ Timings k r' T'
  | [], r, r', T, hv, h => by cases hv; exact ⟨T, rfl, h⟩
  | t :: ts, r, r', T, hv, h => by
    rw [Trip.loop, Trip.tick] at hv
    rw [timedLoop]
    cases e : r.switch d t with
    | err => rw [e] at hv; cases hv
    | panic => rw [e] at hv; cases hv
    | ok r1 =>
      rw [e] at hv
      simp only [Res.bind] at hv ⊢
      obtain ⟨s1, s2, s3⟩ := Trip.switch_sim e
      have h1 : Timings k (r1.note t) T := h.same s1 s2 s3
      cases e2 : Trip.visits d t (d.order t) (r1.note t) with
      | err => rw [e2] at hv; cases hv
      | panic => rw [e2] at hv; cases hv
      | ok o =>
        rw [e2] at hv
        cases o with
        | none => cases hv
        | some r2 =>
          obtain ⟨T2, e3, h3⟩ := timed_visits (sc := sc) (d.order t) e2 h1
          rw [e3]
          exact timed_loop ts hv h3

theorem timed_start {k : Clocks} {d : Draws} {sc : Bytes} {r : Trip} (h : Trip.start d sc = .ok r) : Timings k r [] := by
  unfold Trip.start at h
  cases e1 : firstVehicle d sc with
  | err => rw [e1] at h; cases h
  | panic => rw [e1] at h; cases h
  | ok ss =>
    rw [e1] at h
    simp only [Res.bind] at h
    cases e2 : vehicleJson [] (d.jsonOrder (docSensors d ss)) with
    | err => rw [e2] at h; cases h
    | panic => rw [e2] at h; cases h
    | ok j =>
      rw [e2] at h
      simp only at h
      cases e3 : vehicleTson [] (d.tsonOrder (docSensors d ss)) with
      | err => rw [e3] at h; cases h
      | panic => rw [e3] at h; cases h
      | ok t =>
        rw [e3] at h
        simp only [Res.map, Res.ok.injEq] at h
        subst h
        exact ⟨rfl, rfl, (fun x hx => by cases hx), rfl, rfl⟩

/-- The experiment with timing records is the one without them. -/
theorem timed_experiment {secs : Nat} {d : Draws} {k : Clocks} {sc : Bytes} {r : Trip} (h : experiment (secs * 1000) d sc = .ok (some r)) :
    ∃ T, timedExperiment secs d k sc = .ok (some (r, T)) ∧ Timings k r T := by
  unfold experiment at h
  unfold timedExperiment
  cases e : Trip.start d sc with
  | err => rw [e] at h; cases h
  | panic => rw [e] at h; cases h
  | ok r₀ =>
    rw [e] at h
    exact timed_loop _ h (timed_start e)

/-! ### The rows of the key sensors -/

theorem visit_rows {c : Choices} {t : Nat} {p : Bytes} {r r' : Trip} (h : r.visit c t p = .ok (some r')) : r'.rows = r.rows := by
  unfold Trip.visit at h
  cases hs : sensorOf r.vehicle p with
  | none => rw [hs] at h; cases h; rfl
  | some s =>
    rw [hs] at h
    simp only at h
    cases hd : due t s.interval with
    | err => rw [hd] at h; cases h
    | panic => rw [hd] at h; cases h
    | ok b =>
      rw [hd] at h
      cases b with
      | false => cases h; rfl
      | true =>
        simp only [Res.bind, if_true] at h
        cases hr : s.read c t with
        | err => rw [hr] at h; cases h
        | panic => rw [hr] at h; cases h
        | ok o =>
          rw [hr] at h
          cases o with
          | none => cases h
          | some x =>
            simp only [Res.map, Option.map_some, Res.ok.injEq, Option.some.injEq] at h
            rw [← h]

theorem visits_rows {d : Draws} {t : Nat} : ∀ (ps : List Bytes) {r r' : Trip}, Trip.visits d t ps r = .ok (some r') → r'.rows = r.rows
  | [], r, r', h => by cases h; rfl
  | p :: ps, r, r', h => by
    rw [Trip.visits] at h
    cases e : r.visit (d.read t p) t p with
    | err => rw [e] at h; cases h
    | panic => rw [e] at h; cases h
    | ok o =>
      rw [e] at h
      cases o with
      | none => cases h
      | some r1 => exact (visits_rows ps h).trans (visit_rows e)

theorem switch_rows {d : Draws} {t : Nat} {r r' : Trip} (h : r.switch d t = .ok r') : r'.rows = r.rows := by
  unfold Trip.switch at h
  cases hs : r.state with
  | none => rw [hs] at h; cases h; rfl
  | some st =>
    rw [hs] at h
    simp only at h
    split at h
    · cases hm : mixedSettings (d.switch t).1 (d.switch t).2 _ r.vehicle with
      | err => rw [hm] at h; cases h
      | panic => rw [hm] at h; cases h
      | ok ss => rw [hm] at h; cases h; rfl
    · cases h; rfl

theorem record_paths {t : Nat} {ss : List SensorData} (h : Listed ss) :
    (recordRows t ss).map (fun w => (w.time, w.path)) = keyPaths.map fun p => (t, p) := by
  have hkey : ∀ p ∈ keyPaths, ∃ x, sensorOf ss p = some x := by
    intro p hp
    have hmem : p ∈ vssSensors.map VssSensor.path := by
      have : ∀ p ∈ keyPaths, p ∈ vssSensors.map VssSensor.path := by decide +kernel
      exact this p hp
    rw [← h.paths] at hmem
    obtain ⟨x, hx, rfl⟩ := List.mem_map.1 hmem
    exact ⟨x, sensorOf_mem h.sound.paths hx⟩
  unfold recordRows
  generalize keyPaths = ks at hkey
  induction ks with
  | nil => rfl
  | cons p ks ih =>
    obtain ⟨x, hx⟩ := hkey p (by simp)
    rw [List.filterMap_cons, hx]
    simp only [Option.map_some, List.map_cons]
    rw [ih fun q hq => hkey q (by simp [hq])]

theorem loop_rows {d : Draws} (hd : ∀ t, (d.order t).Nodup) : ∀ (ts : List Nat) {r r' : Trip}, Going r → Trip.loop d ts r = .ok (some r') →
    r'.rows.map (fun w => (w.time, w.path)) = r.rows.map (fun w => (w.time, w.path)) ++ ts.flatMap fun t => keyPaths.map fun p => (t, p)
  | [], r, r', _, h => by cases h; simp
  | t :: ts, r, r', g, h => by
    obtain ⟨r1, e1, g1, -⟩ := switch_any (d := d) (t := t) g
    obtain ⟨r2, -, -, e2, g2, -⟩ := tick_any hd (t := t) g
    have e3 := e2
    rw [Trip.loop, e2] at h
    rw [Trip.tick, e1] at e3
    have hr : r2.rows = r.rows ++ recordRows t r1.vehicle := by
      have := visits_rows _ e3
      rw [this, ← switch_rows e1]
      rfl
    rw [loop_rows hd ts g2 h, hr, List.map_append, record_paths g1.listed, List.flatMap_cons, List.append_assoc]

/-- In every scenario there is one row for each key sensor at each step. -/
theorem any_rows {dur : Nat} {d : Draws} (hd : d.Good) {scenario : Bytes} (hs : scenario ∈ scenarioNames) {r : Trip}
    (h : experiment dur d scenario = .ok (some r)) :
    r.rows.map (fun w => (w.time, w.path)) = (loopTimes dur simStep 0).flatMap fun t => keyPaths.map fun p => (t, p) := by
  obtain ⟨r₀, e, hf, ht, hst, h1, h2, h3, h4, h5, h6, h7⟩ := start_eq hd hs
  have hg : Going r₀ := by
    refine ⟨hf.listed hs, ht, fun st hm => ?_⟩
    rw [h6] at hm
    split at hm
    · cases hm
      exact ⟨.inl rfl, rfl⟩
    · cases hm
  unfold experiment at h
  rw [e] at h
  rw [loop_rows (fun t => (hd.order t).nodup_iff.2 table_facts.1) _ hg h, show r₀.rows = [] by assumption]
  rfl

/-! ### The files -/

/-- A file of the directory, read as a table. -/
def TableIn (dir : Dir) (name : Bytes) (T : List (List Bytes)) : Prop := ∃ s, mget dir name = some s ∧ readTable s = some T

/-- The number below a name in the header. -/
def number (header row : List Bytes) (name : Bytes) : Option Int := (cell header row name).bind signedDigits

theorem fold_save : ∀ (ts : List (Bytes × List (List Bytes))) (dir : Dir), (mkeys dir ++ ts.map Prod.fst).Nodup →
    ts.foldl (fun dir x => mset dir x.1 (csvText x.2)) dir = dir ++ ts.map fun x => (x.1, csvText x.2)
  | [], dir, _ => by simp
  | (n, T) :: ts, dir, h => by
    have hn : n ∉ mkeys dir := by
      intro hm
      rw [List.nodup_append] at h
      exact h.2.2 n hm n (by simp) rfl
    have e : mset dir n (csvText T) = dir ++ [(n, csvText T)] := by
      clear h
      induction dir with
      | nil => rfl
      | cons y dir ih =>
        have h1 : y.1 ≠ n := fun e => hn (by simp [mkeys, e])
        obtain ⟨a, b⟩ := y
        rw [mset, if_neg h1, ih fun hm => hn (by simp only [mkeys, List.map_cons, List.mem_cons] at hm ⊢; exact .inr hm)]
        rfl
    rw [List.foldl_cons, e, fold_save ts, List.append_assoc]
    · rfl
    · simp only [mkeys, List.map_append, List.map_cons, List.map_nil, List.append_assoc, List.singleton_append] at h ⊢
      exact h

theorem mget_table : ∀ {ts : List (Bytes × List (List Bytes))} {n : Bytes} {T : List (List Bytes)}, (ts.map Prod.fst).Nodup → (n, T) ∈ ts →
    mget (ts.map fun x => (x.1, csvText x.2)) n = some (csvText T)
  | (m, U) :: ts, n, T, hn, h => by
    rw [List.map_cons, List.nodup_cons] at hn
    rcases List.mem_cons.1 h with h | h
    · cases h
      simp [mget]
    · have : m ≠ n := fun e => hn.1 (by rw [e]; exact List.mem_map.2 ⟨_, h, rfl⟩)
      rw [List.map_cons, mget, if_neg this]
      exact mget_table hn.2 h

theorem cumulative_map (f g : Nat → Nat) : ∀ ts : List Nat,
    cumulativeRows ts (ts.map f) (ts.map g) = .ok (ts.map fun t => [natText t, natText (f t), natText (g t)])
  | [] => rfl
  | t :: ts => by
    simp only [List.map_cons, cumulativeRows, cumulative_map f g ts, Res.map]

/-- The names of the tables of a scenario, without that of the switches. -/
def tableNames : List Bytes := [b!"results.csv", b!"cumulative.csv", b!"timing.csv", b!"sensor_data/Vehicle.CurrentLocation.Latitude.csv",
  b!"sensor_data/Vehicle.CurrentLocation.Longitude.csv", b!"sensor_data/Vehicle.Speed.csv",
  b!"sensor_data/Vehicle.Powertrain.TractionBattery.StateOfCharge.Current.csv",
  b!"sensor_data/Vehicle.Body.Lights.TurnSignal.Left.IsActive.csv"]

theorem names_nodup : (tableNames ++ [b!"transitions.csv"]).Nodup ∧ keyPaths.map sensorFile = tableNames.drop 3 := by decide +kernel

/-- What is known of the tables of a scenario. -/
structure Tables (secs : Nat) (d : Draws) (k : Clocks) (scenario : Bytes) (r : Trip) (T : List Timing) (dir : Dir) : Prop where
  files : scenarioFiles secs d k scenario = .ok (some dir)
  runs : experiment (secs * 1000) d scenario = .ok (some r)
  timed : timedExperiment secs d k scenario = .ok (some (r, T))
  timings : Timings k r T
  names : mkeys dir = tableNames ++ if scenario = b!"mixed_scenario" ∧ r.transitions ≠ [] then [b!"transitions.csv"] else []
  all : ∀ name s, mget dir name = some s → ∃ h rows, readTable s = some (h :: rows) ∧ h.Nodup ∧ ∀ row ∈ rows, row.length = h.length
  results : TableIn dir b!"results.csv" [resultsHeader, resultsRow secs k r T]
  cumulative : TableIn dir b!"cumulative.csv" (cumulativeHeader :: (List.range ((secs * 1000 + 9999) / 10000)).map fun i =>
    [natText (10000 * i),
      natText ((before (10000 * i) r.sim.setPatches).length + (before (10000 * i) r.sim.tsonPatches).length),
      natText (before (10000 * i) r.sim.tsonPatches).length])
  timing : TableIn dir b!"timing.csv" (timingHeader scenario :: T.map (timingRow scenario))
  sensors : ∀ p ∈ keyPaths, TableIn dir (b!"sensor_data/" ++ p ++ b!".csv")
    (sensorHeader :: (r.rows.filter fun w => decide (w.path = p)).map (sensorRow k))
  switches : scenario = b!"mixed_scenario" → r.transitions ≠ [] → TableIn dir b!"transitions.csv" (transitionHeader :: r.transitions.map transitionRow)

theorem tables {secs : Nat} {d : Draws} (hd : d.Good) (k : Clocks) {scenario : Bytes} (hs : scenario ∈ scenarioNames) :
    ∃ r T dir, Tables secs d k scenario r T dir := by
  obtain ⟨r, e, -, -, -, h1, h2, h3⟩ := any_outcome (dur := secs * 1000) hd hs
  obtain ⟨T, eT, hT⟩ := timed_experiment (k := k) e
  have hc : cumulativeRows r.times r.jsonVec r.tsonVec = .ok (r.times.map fun t => [natText t,
      natText ((before t r.sim.setPatches).length + (before t r.sim.tsonPatches).length), natText (before t r.sim.tsonPatches).length]) := by
    rw [h2, h3]
    exact cumulative_map (fun t => (before t r.sim.setPatches).length + (before t r.sim.tsonPatches).length)
      (fun t => (before t r.sim.tsonPatches).length) r.times
  rw [h1.trans (noted_times (secs * 1000)), List.map_map] at hc
  generalize hts : ([(b!"results.csv", [resultsHeader, resultsRow secs k r T]),
      (b!"cumulative.csv", cumulativeHeader :: (List.range ((secs * 1000 + 9999) / 10000)).map fun i => [natText (10000 * i),
        natText ((before (10000 * i) r.sim.setPatches).length + (before (10000 * i) r.sim.tsonPatches).length),
        natText (before (10000 * i) r.sim.tsonPatches).length]),
      (b!"timing.csv", timingHeader scenario :: T.map (timingRow scenario))] ++
      keyPaths.map (fun p => (sensorFile p, sensorHeader :: (r.rows.filter fun w => decide (w.path = p)).map (sensorRow k))) ++
      if scenario = b!"mixed_scenario" ∧ r.transitions ≠ [] then
        [(b!"transitions.csv", transitionHeader :: r.transitions.map transitionRow)] else []) = ts
  have hnames : ts.map Prod.fst = tableNames ++ if scenario = b!"mixed_scenario" ∧ r.transitions ≠ [] then [b!"transitions.csv"] else [] := by
    rw [← hts, List.map_append, List.map_append, List.map_map]
    have : keyPaths.map (Prod.fst ∘ fun p => (sensorFile p, sensorHeader :: (r.rows.filter fun w => decide (w.path = p)).map (sensorRow k))) =
        keyPaths.map sensorFile := rfl
    rw [this, names_nodup.2]
    split <;> rfl
  have hn : (ts.map Prod.fst).Nodup := by
    rw [hnames]
    split
    · exact names_nodup.1
    · rw [List.append_nil]
      exact (List.nodup_append.1 names_nodup.1).1
  have hfull : ∀ x ∈ ts, ∃ h rows, x.2 = h :: rows ∧ h ≠ [] ∧ h.Nodup ∧ ∀ row ∈ rows, row.length = h.length := by
    intro x hx
    rw [← hts] at hx
    simp only [List.mem_append, List.mem_cons, List.mem_map, List.not_mem_nil, or_false] at hx
    rcases hx with (hx | ⟨p, -, rfl⟩) | hx
    · rcases hx with rfl | rfl | rfl
      · exact ⟨_, _, rfl, by decide, by decide +kernel, fun row hr => by rw [List.mem_singleton.1 hr]; rfl⟩
      · refine ⟨_, _, rfl, by decide, by decide +kernel, fun row hr => ?_⟩
        obtain ⟨i, -, rfl⟩ := List.mem_map.1 hr
        rfl
      · refine ⟨_, _, rfl, by unfold timingHeader; simp, ?_, fun row hr => ?_⟩
        · unfold timingHeader
          split
          · decide +kernel
          · decide +kernel
        · obtain ⟨i, -, rfl⟩ := List.mem_map.1 hr
          unfold timingRow timingHeader
          by_cases hx : scenario = b!"mixed_scenario"
          · simp only [if_pos hx]; rfl
          · simp only [if_neg hx]; rfl
    · refine ⟨_, _, rfl, by decide, by decide +kernel, fun row hr => ?_⟩
      obtain ⟨i, -, rfl⟩ := List.mem_map.1 hr
      rfl
    · split at hx
      · rw [List.mem_singleton] at hx
        subst hx
        refine ⟨_, _, rfl, by decide, by decide +kernel, fun row hr => ?_⟩
        obtain ⟨i, -, rfl⟩ := List.mem_map.1 hr
        rfl
      · cases hx
  have hread : ∀ x ∈ ts, readTable (csvText x.2) = some x.2 := by
    intro x hx
    obtain ⟨h, rows, e, h1, -, h3⟩ := hfull x hx
    refine C89_table fun fs hfs => ?_
    rw [e] at hfs
    rcases List.mem_cons.1 hfs with rfl | hfs
    · exact h1
    · intro e0
      have := h3 fs hfs
      rw [e0] at this
      exact h1 (List.length_eq_zero_iff.1 this.symm)
  have hget : ∀ n U, (n, U) ∈ ts → TableIn (ts.map fun x => (x.1, csvText x.2)) n U := fun n U h =>
    ⟨_, mget_table hn h, hread _ h⟩
  refine ⟨r, T, ts.map fun x => (x.1, csvText x.2), ?_, e, eT, hT, ?_, ?_, ?_, ?_, ?_, ?_, ?_⟩
  · unfold scenarioFiles scenarioTables
    rw [eT]
    simp only [Res.bind]
    rw [h1.trans (noted_times (secs * 1000)), hc]
    simp only [Res.map, Option.map_some, Function.comp_def]
    rw [hts, fold_save ts [] (by simpa [mkeys] using hn), List.nil_append]
  · simp only [mkeys, List.map_map, Function.comp_def]
    exact hnames
  · intro name s h
    have := mget_mem h
    obtain ⟨x, hx, e⟩ := List.mem_map.1 this
    obtain ⟨hd', rows, e1, -, h2, h3⟩ := hfull x hx
    cases e
    exact ⟨hd', rows, by rw [hread x hx, e1], h2, h3⟩
  · exact hget _ _ (by rw [← hts]; simp)
  · exact hget _ _ (by rw [← hts]; simp)
  · exact hget _ _ (by rw [← hts]; simp)
  · intro p hp
    have he : ∀ p ∈ keyPaths, sensorFile p = b!"sensor_data/" ++ p ++ b!".csv" := by decide +kernel
    rw [← he p hp]
    refine hget _ _ ?_
    rw [← hts]
    exact List.mem_append_left _ (List.mem_append_right _ (List.mem_map.2 ⟨p, hp, rfl⟩))
  · intro h1 h2
    refine hget _ _ ?_
    rw [← hts, if_pos ⟨h1, h2⟩]
    simp

/-- **C90, files.**  Each experiment of a scenario writes its tables; each file is read back as a table whose columns have different
names and whose rows have a field for each column. -/
theorem C90_files {secs : Nat} {d : Draws} (hd : d.Good) (k : Clocks) {scenario : Bytes} (hs : scenario ∈ scenarioNames) :
    ∃ r dir, experiment (secs * 1000) d scenario = .ok (some r) ∧ scenarioFiles secs d k scenario = .ok (some dir) ∧
      mkeys dir = tableNames ++ (if scenario = b!"mixed_scenario" ∧ r.transitions ≠ [] then [b!"transitions.csv"] else []) ∧
      ∀ name s, mget dir name = some s → ∃ h rows, readTable s = some (h :: rows) ∧ h.Nodup ∧ ∀ row ∈ rows, row.length = h.length := by
  obtain ⟨r, T, dir, H⟩ := tables (secs := secs) hd k hs
  exact ⟨r, dir, H.runs, H.files, H.names, H.all⟩

theorem nat_reads (n : Nat) : signedDigits (natText n) = some (n : Int) := C89_int n

/-- **C90, results.**  The counts in `results.csv` are those of the updates and of the patches: each update is a value that changed
or only a new time, and the patches are counted by them. -/
theorem C90_results {secs : Nat} {d : Draws} (hd : d.Good) (k : Clocks) {scenario : Bytes} (hs : scenario ∈ scenarioNames) :
    ∃ r dir h row, experiment (secs * 1000) d scenario = .ok (some r) ∧ scenarioFiles secs d k scenario = .ok (some dir) ∧
      TableIn dir b!"results.csv" [h, row] ∧
      ∃ total changes same : Nat,
        total = (vssSensors.map fun v => (secs * 1000 + Nat.lcm 100 v.interval.natAbs - 1) / Nat.lcm 100 v.interval.natAbs).sum ∧
        changes + same = total ∧ r.sim.setPatches.length = total ∧ r.sim.tsonPatches.length = changes ∧
        r.sim.jsonPatches.length = total + changes ∧
        number h row b!"Timestamp" = some k.now ∧ number h row b!"SimulationTimeMs" = some ((1000 * secs : Nat) : Int) ∧
        number h row b!"TotalUpdates" = some (total : Int) ∧ number h row b!"ValueChanges" = some (changes : Int) ∧
        number h row b!"TimestampOnlyChanges" = some (same : Int) ∧ number h row b!"JsonPatchCount" = some ((total + changes : Nat) : Int) ∧
        number h row b!"TsonPatchCount" = some (changes : Int) ∧ number h row b!"SetTsonPatchCount" = some (total : Int) ∧
        number h row b!"JsonProcessingTimeNs" = some ((((List.range' 1 total).map fun i => (k.taken i).1).sum : Nat) : Int) ∧
        number h row b!"TsonProcessingTimeNs" = some ((((List.range' 1 total).map fun i => (k.taken i).2).sum : Nat) : Int) := by
  obtain ⟨r, T, dir, H⟩ := tables (secs := secs) hd k hs
  obtain ⟨r', e, -, -, c1, c2, c3, c4, c5⟩ := C81_updates (dur := secs * 1000) hd hs
  obtain rfl : r = r' := by have := H.runs; rw [e] at this; cases this; rfl
  have ht : ∀ f : Nat × Nat → Nat, (T.map fun x => f (x.jsonNs, x.tsonNs)) = (List.range' 1 r.sim.updates).map fun i => f (k.taken i) := by
    intro f
    rw [← H.timings.count, ← H.timings.index, List.map_map]
    exact List.map_congr_left fun x hx => by rw [Function.comp_apply, H.timings.taken x hx]
  refine ⟨r, dir, _, _, e, H.files, H.results, r.sim.updates, r.sim.changes, r.sim.unchanged, c1, c3, c2, c4, c5, ?_⟩
  have t1 := ht Prod.fst
  have t2 := ht Prod.snd
  have j1 : T.map Timing.jsonNs = (List.range' 1 r.sim.updates).map fun i => (k.taken i).1 := t1
  have j2 : T.map Timing.tsonNs = (List.range' 1 r.sim.updates).map fun i => (k.taken i).2 := t2
  refine ⟨C89_int _, ?_, nat_reads _, nat_reads _, nat_reads _, ?_, ?_, ?_, ?_, ?_⟩
  · rw [Nat.mul_comm]; exact nat_reads _
  · rw [← c5]; exact nat_reads _
  · rw [← c4]; exact nat_reads _
  · rw [← c2]; exact nat_reads _
  · rw [← j1]; exact nat_reads _
  · rw [← j2]; exact nat_reads _

theorem le_sum_of_mem : ∀ {l : List Nat} {x : Nat}, x ∈ l → x ≤ l.sum
  | y :: l, x, h => by
    rw [List.sum_cons]
    rcases List.mem_cons.1 h with rfl | h
    · omega
    · have := le_sum_of_mem h
      omega

/-- **C91, reduction of patches.**  The reduction in `results.csv` is the difference of the counts of patches in percent of those for
JSON.  Whatever the data is, it is from 50 to 100 percent: JSON has a patch for each update and another one for each change, while
TSON has one for each change only. -/
theorem C91_patches {secs : Nat} (h0 : 0 < secs) (h9 : secs ≤ 10 ^ 9) {d : Draws} (hd : d.Good) (k : Clocks) {scenario : Bytes}
    (hs : scenario ∈ scenarioNames) :
    ∃ r dir h row s v, experiment (secs * 1000) d scenario = .ok (some r) ∧ scenarioFiles secs d k scenario = .ok (some dir) ∧
      TableIn dir b!"results.csv" [h, row] ∧ cell h row b!"PatchReduction" = some s ∧
      ShowsPct s ((r.sim.jsonPatches.length : Int) - r.sim.tsonPatches.length) r.sim.jsonPatches.length
        (r.sim.tsonPatches.length + r.sim.jsonPatches.length) ∧
      readFixed 2 s = some v ∧ 5000 ≤ v ∧ v ≤ 10000 := by
  obtain ⟨r, T, dir, H⟩ := tables (secs := secs) hd k hs
  obtain ⟨r', e, -, -, c1, c2, c3, c4, c5⟩ := C81_updates (dur := secs * 1000) hd hs
  obtain rfl : r = r' := by have := H.runs; rw [e] at this; cases this; rfl
  have hsum : ∀ l : List VssSensor, (l.map fun v => (secs * 1000 + Nat.lcm 100 v.interval.natAbs - 1) / Nat.lcm 100 v.interval.natAbs).sum ≤
      l.length * (secs * 1000) := by
    intro l
    induction l with
    | nil => simp
    | cons v l ih =>
      rw [List.map_cons, List.sum_cons, List.length_cons, Nat.succ_mul]
      have : (secs * 1000 + Nat.lcm 100 v.interval.natAbs - 1) / Nat.lcm 100 v.interval.natAbs ≤ secs * 1000 := by
        generalize Nat.lcm 100 v.interval.natAbs = L
        rcases Nat.eq_zero_or_pos L with rfl | hL
        · simp
        · refine Nat.le_of_lt_succ ((Nat.div_lt_iff_lt_mul hL).2 ?_)
          have : secs * 1000 ≤ secs * 1000 * L := Nat.le_mul_of_pos_right _ hL
          rw [Nat.succ_mul]
          omega
      omega
  have hn : vssSensors.length ≤ 1000 := by decide +kernel
  have hup : r.sim.updates ≤ 10 ^ 15 := by
    rw [c1]
    refine Nat.le_trans (hsum _) (Nat.le_trans (Nat.mul_le_mul hn (Nat.mul_le_mul_right 1000 h9)) (by decide))
  have hpos : 0 < r.sim.updates := by
    rw [c1]
    have hv : ∃ v ∈ vssSensors, v.interval.natAbs = 100 := by decide +kernel
    obtain ⟨v, hv, e⟩ := hv
    have h1 := le_sum_of_mem (l := vssSensors.map fun v => (secs * 1000 + Nat.lcm 100 v.interval.natAbs - 1) / Nat.lcm 100 v.interval.natAbs)
      (List.mem_map.2 ⟨v, hv, rfl⟩)
    rw [e, show Nat.lcm 100 100 = 100 from rfl] at h1
    have : 0 < (secs * 1000 + 100 - 1) / 100 := by omega
    omega
  have ha : r.sim.tsonPatches.length < 2 ^ 53 := by omega
  have hb : r.sim.jsonPatches.length < 2 ^ 53 := by omega
  obtain ⟨v, e1, e2, -, e3, -⟩ := C91_range ha (by omega) hb
  exact ⟨r, dir, _, _, _, v, e, H.files, H.results, rfl, C91_reduction ha (by omega) hb, e1, e3 (by omega), e2⟩

/-- **C91, refuted for an experiment without time.**  The reduction is shown as `NaN`, since nothing is divided by nothing,
and the bandwidths as `+Inf`, since an empty list of patches has a text of two bytes. -/
theorem C91_nothing_fails {d : Draws} (hd : d.Good) (k : Clocks) {scenario : Bytes} (hs : scenario ∈ scenarioNames) :
    ∃ dir h row, scenarioFiles 0 d k scenario = .ok (some dir) ∧ TableIn dir b!"results.csv" [h, row] ∧
      cell h row b!"PatchReduction" = some b!"NaN" ∧ cell h row b!"JsonBandwidthUsage" = some b!"+Inf" ∧
      cell h row b!"TsonBandwidthUsage" = some b!"+Inf" := by
  obtain ⟨r, T, dir, H⟩ := tables (secs := 0) hd k hs
  obtain ⟨r', e, -, -, c1, c2, c3, c4, c5⟩ := C81_updates (dur := 0 * 1000) hd hs
  obtain rfl : r = r' := by have := H.runs; rw [e] at this; cases this; rfl
  have hz : (vssSensors.map fun v => (0 * 1000 + Nat.lcm 100 v.interval.natAbs - 1) / Nat.lcm 100 v.interval.natAbs).sum = 0 := by decide +kernel
  rw [hz] at c1
  refine ⟨dir, _, _, H.files, H.results, ?_⟩
  have e1 : r.sim.tsonPatches = [] := List.length_eq_zero_iff.1 (by omega)
  have e2 : r.sim.jsonPatches = [] := List.length_eq_zero_iff.1 (by omega)
  have a1 : textSize (jsonSlice JPatch.json r.sim.jsonPatches) = 2 := by rw [e2]; rfl
  have a2 : textSize (jsonSlice TPatch.json r.sim.tsonPatches) = 2 := by rw [e1]; rfl
  have b1 : cell resultsHeader (resultsRow 0 k r T) b!"PatchReduction" =
      some (fmtFixed 2 (reduction r.sim.tsonPatches.length r.sim.jsonPatches.length)) := rfl
  have b2 : cell resultsHeader (resultsRow 0 k r T) b!"JsonBandwidthUsage" =
      some (fmtFixed 2 (bandwidth (textSize (jsonSlice JPatch.json r.sim.jsonPatches)) 0)) := rfl
  have b3 : cell resultsHeader (resultsRow 0 k r T) b!"TsonBandwidthUsage" =
      some (fmtFixed 2 (bandwidth (textSize (jsonSlice TPatch.json r.sim.tsonPatches)) 0)) := rfl
  rw [b1, b2, b3, a1, a2, e1, e2, C91_bandwidth_fails.2]
  exact ⟨congrArg some C91_zero_fails.1, rfl, rfl⟩

/-- **C90, patches over time.**  Every 10 seconds `cumulative.csv` has a row with the numbers of patches made before that time. -/
theorem C90_cumulative {secs : Nat} {d : Draws} (hd : d.Good) (k : Clocks) {scenario : Bytes} (hs : scenario ∈ scenarioNames) :
    ∃ r dir, experiment (secs * 1000) d scenario = .ok (some r) ∧ scenarioFiles secs d k scenario = .ok (some dir) ∧
      TableIn dir b!"cumulative.csv" ([b!"TimeMs", b!"JsonPatchCount", b!"TsonPatchCount"] ::
        (List.range ((secs * 1000 + 9999) / 10000)).map fun i =>
          [itoa ((10000 * i : Nat) : Int),
            itoa (((r.sim.setPatches.filter fun q => decide (q.ts < ((10000 * i : Nat) : Int))).length +
              (r.sim.tsonPatches.filter fun q => decide (q.ts < ((10000 * i : Nat) : Int))).length : Nat) : Int),
            itoa ((r.sim.tsonPatches.filter fun q => decide (q.ts < ((10000 * i : Nat) : Int))).length : Int)]) := by
  obtain ⟨r, T, dir, H⟩ := tables (secs := secs) hd k hs
  exact ⟨r, dir, H.runs, H.files, H.cumulative⟩

/-! ### Each update -/

theorem timing_cells (scenario : Bytes) (x : Timing) :
    number (timingHeader scenario) (timingRow scenario x) b!"UpdateIndex" = some (x.index : Int) ∧
    number (timingHeader scenario) (timingRow scenario x) b!"TimeMs" = some (x.time : Int) ∧
    cell (timingHeader scenario) (timingRow scenario x) b!"SensorPath" = some x.path ∧
    number (timingHeader scenario) (timingRow scenario x) b!"JsonProcessingTimeNs" = some (x.jsonNs : Int) ∧
    number (timingHeader scenario) (timingRow scenario x) b!"TsonProcessingTimeNs" = some (x.tsonNs : Int) ∧
    cell (timingHeader scenario) (timingRow scenario x) b!"ValueChanged" = some (if x.changed then b!"true" else b!"false") ∧
    cell (timingHeader scenario) (timingRow scenario x) b!"ProcessingTimeDiffPct" = some (fmtFixed 2 (timingDiff x.tsonNs x.jsonNs)) ∧
    cell (timingHeader scenario) (timingRow scenario x) b!"CurrentScenario" =
      if scenario = b!"mixed_scenario" then some x.scenario else none := by
  unfold timingHeader timingRow
  by_cases hx : scenario = b!"mixed_scenario"
  · simp only [if_pos hx]
    exact ⟨nat_reads _, nat_reads _, rfl, nat_reads _, nat_reads _, rfl, rfl, rfl⟩
  · simp only [if_neg hx]
    exact ⟨nat_reads _, nat_reads _, rfl, nat_reads _, nat_reads _, rfl, rfl, rfl⟩

/-- **C90, updates.**  `timing.csv` has a row for each update, numbered from 1, with the time and the sensor of the patch made by it
and the durations taken; the rows of values that changed are those of the TSON patches, in the same order. -/
theorem C90_timing {secs : Nat} {d : Draws} (hd : d.Good) (k : Clocks) {scenario : Bytes} (hs : scenario ∈ scenarioNames) :
    ∃ r dir h rows, experiment (secs * 1000) d scenario = .ok (some r) ∧ scenarioFiles secs d k scenario = .ok (some dir) ∧
      TableIn dir b!"timing.csv" (h :: rows) ∧
      rows.map (fun w => number h w b!"UpdateIndex") = (List.range' 1 r.sim.updates).map (fun i : Nat => some (i : Int)) ∧
      rows.map (fun w => (number h w b!"TimeMs", cell h w b!"SensorPath")) = r.sim.setPatches.map (fun q => (some q.ts, some q.path)) ∧
      (rows.filter fun w => decide (cell h w b!"ValueChanged" = some b!"true")).map (fun w => (number h w b!"TimeMs", cell h w b!"SensorPath")) =
        r.sim.tsonPatches.map (fun q => (some q.ts, some q.path)) ∧
      rows.map (fun w => (number h w b!"JsonProcessingTimeNs", number h w b!"TsonProcessingTimeNs")) =
        (List.range' 1 r.sim.updates).map (fun i => (some ((k.taken i).1 : Int), some ((k.taken i).2 : Int))) := by
  obtain ⟨r, T, dir, H⟩ := tables (secs := secs) hd k hs
  refine ⟨r, dir, _, _, H.runs, H.files, H.timing, ?_, ?_, ?_, ?_⟩
  · rw [List.map_map, ← H.timings.count, ← H.timings.index, List.map_map]
    exact List.map_congr_left fun x _ => (timing_cells scenario x).1
  · have := congrArg (List.map fun x : Int × Bytes => (some x.1, some x.2)) H.timings.set
    rw [List.map_map, List.map_map] at this
    rw [List.map_map]
    refine Eq.trans (List.map_congr_left fun x _ => ?_) this
    rw [Function.comp_apply, (timing_cells scenario x).2.1, (timing_cells scenario x).2.2.1]
    rfl
  · have := congrArg (List.map fun x : Int × Bytes => (some x.1, some x.2)) H.timings.tson
    rw [List.map_map, List.map_map] at this
    rw [List.filter_map, List.map_map]
    have e : ((fun w => decide (cell (timingHeader scenario) w b!"ValueChanged" = some b!"true")) ∘ timingRow scenario) = Timing.changed := by
      funext x
      rw [Function.comp_apply, (timing_cells scenario x).2.2.2.2.2.1]
      cases x.changed <;> rfl
    rw [e]
    refine Eq.trans (List.map_congr_left fun x _ => ?_) this
    rw [Function.comp_apply, (timing_cells scenario x).2.1, (timing_cells scenario x).2.2.1]
    rfl
  · rw [List.map_map, ← H.timings.count, ← H.timings.index, List.map_map]
    refine List.map_congr_left fun x hx => ?_
    obtain ⟨-, -, -, h4, h5, -⟩ := timing_cells scenario x
    rw [Function.comp_apply, h4, h5, Function.comp_apply, ← H.timings.taken x hx]

/-- **C91, durations.**  The difference of the durations of an update is shown to the last digit, if JSON took a measurable time. -/
theorem C91_timing {secs : Nat} {d : Draws} (hd : d.Good) (k : Clocks) {scenario : Bytes} (hs : scenario ∈ scenarioNames) :
    ∃ r dir h rows, experiment (secs * 1000) d scenario = .ok (some r) ∧ scenarioFiles secs d k scenario = .ok (some dir) ∧
      TableIn dir b!"timing.csv" (h :: rows) ∧ rows.length = r.sim.updates ∧
      ∀ (i : Nat) (w : List Bytes), rows[i]? = some w → 0 < (k.taken (i + 1)).1 → (k.taken (i + 1)).1 < 2 ^ 53 → (k.taken (i + 1)).2 < 2 ^ 53 →
        ∃ s, cell h w b!"ProcessingTimeDiffPct" = some s ∧ ShowsPct s (((k.taken (i + 1)).1 : Int) - (k.taken (i + 1)).2) (k.taken (i + 1)).1
          ((k.taken (i + 1)).2 + (k.taken (i + 1)).1) := by
  obtain ⟨r, T, dir, H⟩ := tables (secs := secs) hd k hs
  refine ⟨r, dir, _, _, H.runs, H.files, H.timing, by rw [List.length_map]; exact H.timings.count, fun i w hw h1 h2 h3 => ?_⟩
  rw [List.getElem?_map] at hw
  obtain ⟨x, hx, rfl⟩ := Option.map_eq_some_iff.1 hw
  have hi : x.index = i + 1 := by
    have h := congrArg (fun l => l[i]?) H.timings.index
    simp only [List.getElem?_map, hx, Option.map_some] at h
    have hl : i < T.length := (List.getElem?_eq_some_iff.1 hx).1
    rw [List.getElem?_range' hl] at h
    have := Option.some.inj h
    omega
  have ht := H.timings.taken x (List.mem_of_getElem? hx)
  rw [hi] at ht
  refine ⟨_, (timing_cells scenario x).2.2.2.2.2.2.1, ?_⟩
  rw [← ht] at h1 h2 h3 ⊢
  simp only at h1 h2 h3 ⊢
  unfold timingDiff
  rw [if_pos h1]
  exact C91_reduction h3 h1 h2

/-! ### The key sensors -/

theorem loop_range (secs : Nat) : loopTimes (secs * 1000) simStep 0 = (List.range (secs * 10)).map fun i => 100 * i := by
  refine sorted_ext (sorted_loopTimes (by decide) (secs * 1000) 0 (by omega)) ?_ fun x => ?_
  · rw [List.pairwise_map]
    exact List.pairwise_lt_range.imp fun h => by omega
  · rw [mem_loopTimes (by decide) (secs * 1000) 0 (by omega), List.mem_map]
    simp only [List.mem_range, simStep]
    constructor
    · rintro ⟨h1, k, h2⟩
      exact ⟨k, by omega, by omega⟩
    · rintro ⟨k, h1, h2⟩
      exact ⟨by omega, k, by omega⟩

theorem rows_of {ts : List Nat} {rows : List Row} (h : rows.map (fun w => (w.time, w.path)) = ts.flatMap fun t => keyPaths.map fun p => (t, p))
    {p : Bytes} (hp : p ∈ keyPaths) : (rows.filter fun w => decide (w.path = p)).map Row.time = ts := by
  have h1 := congrArg (fun l => (l.filter fun x => decide (x.2 = p)).map Prod.fst) h
  simp only [List.filter_map, List.map_map] at h1
  refine Eq.trans h1 ?_
  clear h1 h
  induction ts with
  | nil => rfl
  | cons t ts ih =>
    rw [List.flatMap_cons, List.filter_append, List.map_append, ih, List.filter_map, List.map_map]
    have e : ∀ p ∈ keyPaths, keyPaths.filter (fun q => decide (q = p)) = [p] := by decide +kernel
    have e' : keyPaths.filter ((fun x : Nat × Bytes => decide (x.2 = p)) ∘ fun p => (t, p)) = [p] := e p hp
    rw [e']
    rfl

/-- **C90, key sensors.**  The file of each key sensor has a row for each 100 ms, from 0 on.  [The values are in `C90_values_partial`.] -/
theorem C90_sensors {secs : Nat} {d : Draws} (hd : d.Good) (k : Clocks) {scenario : Bytes} (hs : scenario ∈ scenarioNames) {p : Bytes}
    (hp : p ∈ keyPaths) :
    ∃ dir h rows, scenarioFiles secs d k scenario = .ok (some dir) ∧ TableIn dir (b!"sensor_data/" ++ p ++ b!".csv") (h :: rows) ∧
      rows.map (fun w => number h w b!"SimulationTimeMs") = (List.range (secs * 10)).map (fun i => some ((100 * i : Nat) : Int)) ∧
      rows.map (fun w => number h w b!"TimestampMs") = (List.range (secs * 10)).map (fun i => some (k.elapsed (100 * i) : Int)) := by
  obtain ⟨r, T, dir, H⟩ := tables (secs := secs) hd k hs
  have h1 := rows_of (any_rows hd hs H.runs) hp
  rw [loop_range] at h1
  refine ⟨dir, _, _, H.files, H.sensors p hp, ?_, ?_⟩
  · have := congrArg (List.map fun t : Nat => some (t : Int)) h1
    rw [List.map_map, List.map_map] at this
    rw [List.map_map]
    refine Eq.trans (List.map_congr_left fun w _ => ?_) this
    exact nat_reads w.time
  · have := congrArg (List.map fun t : Nat => some (k.elapsed t : Int)) h1
    rw [List.map_map, List.map_map] at this
    rw [List.map_map]
    refine Eq.trans (List.map_congr_left fun w _ => ?_) this
    exact nat_reads (k.elapsed w.time)

/-- **C90, values, partial.**  The values in the file of a key sensor are the texts of the values it had: at each row that of the last
TSON patch before the time of the row, and before the first one that of the vehicle at the beginning.  Once a mixed scenario has
switched this is not so (`C90_values_fails`); what holds then is `C90_values`. -/
theorem C90_values_partial {secs : Nat} {d : Draws} (hd : d.Good) (k : Clocks) {scenario : Bytes} (hs : scenario ∈ scenarioNames)
    (hm : scenario = b!"mixed_scenario" → secs ≤ 499) {p : Bytes} (hp : p ∈ keyPaths) :
    ∃ r ss s dir h rows, firstVehicle d scenario = .ok ss ∧ s ∈ ss ∧ s.path = p ∧ experiment (secs * 1000) d scenario = .ok (some r) ∧
      scenarioFiles secs d k scenario = .ok (some dir) ∧ TableIn dir (b!"sensor_data/" ++ p ++ b!".csv") (h :: rows) ∧
      rows.map (fun w => (number h w b!"SimulationTimeMs", cell h w b!"Value")) = (List.range (secs * 10)).map (fun i : Nat =>
        (some ((100 * i : Nat) : Int), some (valueText (((r.sim.tsonPatches.filter fun q => decide (q.ts < ((100 * i : Nat) : Int) ∧ q.path = p)).getLast?.map
          TPatch.value).getD s.value)))) := by
  obtain ⟨r, T, dir, H⟩ := tables (secs := secs) hd k hs
  obtain ⟨ss, r', e1, e2, e3, e4⟩ := C81_rows_partial (dur := secs * 1000) hd hs fun e => by have := hm e; omega
  obtain rfl : r = r' := by have := H.runs; rw [e2] at this; cases this; rfl
  have h1 := rows_of (any_rows hd hs H.runs) hp
  rw [loop_range] at h1
  obtain ⟨ss', e5, hf⟩ := first_vehicle hd hs
  obtain rfl : ss = ss' := by rw [e1] at e5; cases e5; rfl
  have hl := hf.listed hs
  have hmem : p ∈ vssSensors.map VssSensor.path := by
    have : ∀ p ∈ keyPaths, p ∈ vssSensors.map VssSensor.path := by decide +kernel
    exact this p hp
  rw [← hl.paths] at hmem
  obtain ⟨s, hs', rfl⟩ := List.mem_map.1 hmem
  refine ⟨r, ss, s, dir, _, _, e1, hs', rfl, e2, H.files, H.sensors _ hp, ?_⟩
  have := congrArg (List.map fun t : Nat => (some (t : Int), some (valueText (((r.sim.tsonPatches.filter fun q => decide (q.ts < (t : Int) ∧ q.path = s.path)).getLast?.map
          TPatch.value).getD s.value)))) h1
  rw [List.map_map, List.map_map] at this
  rw [List.map_map]
  refine Eq.trans (List.map_congr_left fun w hw => ?_) this
  rw [List.mem_filter, decide_eq_true_eq] at hw
  obtain ⟨s', hs2, hsp, hv⟩ := e4 w hw.1
  have hss : s' = s := by
    have a1 := sensorOf_mem hl.sound.paths hs2
    have a2 := sensorOf_mem hl.sound.paths hs'
    rw [hsp, hw.2, a2] at a1
    exact (Option.some.inj a1).symm
  subst hss
  have hfilt : r.sim.tsonPatches.filter (fun q => decide (q.ts < (w.time : Int) ∧ q.path = s'.path)) =
      (r.sim.tsonPatches.filter fun q => decide (q.ts < (w.time : Int))).filter fun q => decide (q.path = w.path) := by
    rw [List.filter_filter]
    refine List.filter_congr fun q _ => ?_
    rw [hw.2, Bool.decide_and, Bool.and_comm]
  simp only [Function.comp_apply]
  rw [hfilt, ← hv]
  exact Prod.ext (nat_reads w.time) rfl

/-- All tables for draws that are all 0.5 and a clock that always takes the same time. -/
example : ∃ r dir, experiment 300000 halfDraws b!"urban_traffic" = .ok (some r) ∧
    scenarioFiles 300 halfDraws ⟨fun _ => (1500, 700), 1700000000, id⟩ b!"urban_traffic" = .ok (some dir) ∧ mkeys dir = tableNames := by
  obtain ⟨r, dir, h1, h2, h3, -⟩ := C90_files (secs := 300) halfDraws_good ⟨fun _ => (1500, 700), 1700000000, id⟩ (scenario := b!"urban_traffic") (by decide)
  exact ⟨r, dir, h1, h2, by rw [h3, if_neg (fun h => absurd h.1 (by decide))]; rfl⟩
example : ∃ dir h row s v, scenarioFiles 300 halfDraws ⟨fun _ => (1500, 700), 1700000000, id⟩ b!"battery_charging" = .ok (some dir) ∧
    TableIn dir b!"results.csv" [h, row] ∧ cell h row b!"PatchReduction" = some s ∧ readFixed 2 s = some v ∧ 5000 ≤ v ∧ v ≤ 10000 := by
  obtain ⟨-, dir, h, row, s, v, -, h1, h2, h3, -, h4⟩ := C91_patches (secs := 300) (by decide) (by decide) halfDraws_good
    ⟨fun _ => (1500, 700), 1700000000, id⟩ (scenario := b!"battery_charging") (by decide)
  exact ⟨dir, h, row, s, v, h1, h2, h3, h4⟩
example : b!"Vehicle.Speed" ∈ keyPaths ∧ b!"mixed_scenario" ∈ scenarioNames := by decide

/-! ### Switches -/

/-- **C90, switches.**  A mixed scenario of 500 seconds has one switch, and it shows the battery at 10.00 percent: it is below 10 percent
only by what is rounded away. -/
theorem C90_switch {d : Draws} (hd : d.Good) (k : Clocks) :
    ∃ dir, scenarioFiles 500 d k b!"mixed_scenario" = .ok (some dir) ∧
      TableIn dir b!"transitions.csv" [[b!"Timestamp", b!"FromScenario", b!"ToScenario", b!"BatteryLevel", b!"TransitionCount"],
        [b!"499900", b!"urban_traffic", b!"battery_charging", b!"10.00", b!"1"]] := by
  obtain ⟨r, T, dir, H⟩ := tables (secs := 500) hd k (scenario := b!"mixed_scenario") (by decide)
  obtain ⟨-, r', -, e, ht, -⟩ := C81_switch hd
  obtain rfl : r = r' := by have := H.runs; rw [show 500 * 1000 = 500000 from rfl, e] at this; cases this; rfl
  refine ⟨dir, H.files, ?_⟩
  have h := H.switches rfl (by rw [ht]; simp)
  rw [ht] at h
  have e : transitionRow ⟨499900, b!"urban_traffic", b!"battery_charging", .fin false 5629499534210922 (-49) (by decide), 1⟩ =
      [b!"499900", b!"urban_traffic", b!"battery_charging", b!"10.00", b!"1"] := by decide +kernel
  rw [List.map_cons, List.map_nil, e] at h
  exact h

/-- **C90, refuted for the duration of the experiment.**  In 300 seconds a mixed scenario has no table of switches. -/
theorem C90_mixed_fails {d : Draws} (hd : d.Good) (k : Clocks) :
    ∃ dir, scenarioFiles 300 d k b!"mixed_scenario" = .ok (some dir) ∧ mget dir b!"transitions.csv" = none := by
  obtain ⟨r, T, dir, H⟩ := tables (secs := 300) hd k (scenario := b!"mixed_scenario") (by decide)
  obtain ⟨r', e, ht, -⟩ := C81_mixed_fails hd
  obtain rfl : r = r' := by have := H.runs; rw [show 300 * 1000 = simDuration from rfl, e] at this; cases this; rfl
  refine ⟨dir, H.files, ?_⟩
  have hn := H.names
  rw [if_neg (fun h => h.2 ht), List.append_nil] at hn
  cases hg : mget dir b!"transitions.csv" with
  | none => rfl
  | some s =>
    have : b!"transitions.csv" ∈ mkeys dir := mget_isSome.1 ⟨s, hg⟩
    rw [hn] at this
    exact absurd this (by decide +kernel)

end Verif
