import Verif.PropsCsvTight
import Verif.PropsExpTemporal
/-
C81, C90: the rows of the sensor recorder in any scenario, also when the mixed scenario switches.
-/
namespace Verif

/-- Where a row comes from. -/
theorem row_origin {d : Draws} (hd : ∀ t, (d.order t).Nodup) : ∀ (ts : List Nat) {r r' : Trip}, Going r → Trip.loop d ts r = .ok (some r') →
    ∀ w ∈ r'.rows, w ∈ r.rows ∨ ∃ a t b r₁ r₂, ts = a ++ t :: b ∧ Trip.loop d a r = .ok (some r₁) ∧ r₁.switch d t = .ok r₂ ∧ w ∈ recordRows t r₂.vehicle
  | [], r, r', _, h => by cases h; exact fun w hw => .inl hw
  | t :: ts, r, r', g, h => by
    intro w hw
    obtain ⟨r1, e1, g1, -⟩ := switch_any (d := d) (t := t) g
    obtain ⟨r2, -, -, e2, g2, -⟩ := tick_any hd (t := t) g
    have e3 := e2
    rw [Trip.loop, e2] at h
    rw [Trip.tick, e1] at e3
    have hr : r2.rows = r.rows ++ recordRows t r1.vehicle := by
      have := visits_rows _ e3
      rw [this, ← switch_rows e1]
      rfl
    rcases row_origin hd ts g2 h w hw with hw | ⟨a, t', b, r₁, r₂, k1, k2, k3, k4⟩
    · rw [hr] at hw
      rcases List.mem_append.1 hw with hw | hw
      · exact .inl hw
      · exact .inr ⟨[], t, ts, r, r1, rfl, rfl, e1, hw⟩
    · exact .inr ⟨t :: a, t', b, r₁, r₂, by rw [k1]; rfl, by rw [Trip.loop, e2]; exact k2, k3, k4⟩

theorem sorted_parts {a a' b b' : List Nat} {t : Nat} (h : (a ++ t :: b).Pairwise (· < ·)) (h' : (a' ++ t :: b').Pairwise (· < ·))
    (e : a ++ t :: b = a' ++ t :: b') : a = a' := by
  have f : ∀ {x y : List Nat}, (x ++ t :: y).Pairwise (· < ·) → (x ++ t :: y).filter (fun n => decide (n < t)) = x := by
    intro x y hp
    rw [List.pairwise_append] at hp
    obtain ⟨-, h2, h3⟩ := hp
    rw [List.filter_append, List.filter_eq_self.2 fun n hn => by simpa using h3 n hn t (by simp), List.filter_cons_of_neg (by simp),
      List.filter_eq_nil_iff.2 fun n hn => by have := (List.pairwise_cons.1 h2).1 n hn; simp; omega, List.append_nil]
  rw [← f h, ← f h', e]

/-- A switch that is not noted leaves the vehicle as it is. -/
theorem switch_quiet {d : Draws} {t : Nat} {r r' : Trip} (h : r.switch d t = .ok r') :
    r'.vehicle = r.vehicle ∧ r'.transitions = r.transitions ∨
    ∃ x : Transition, r'.transitions = r.transitions ++ [x] ∧ x.time = t ∧
      mixedSettings (d.switch t).1 (d.switch t).2 x.target r.vehicle = .ok r'.vehicle := by
  unfold Trip.switch at h
  cases hs : r.state with
  | none => rw [hs] at h; cases h; exact .inl ⟨rfl, rfl⟩
  | some st =>
    rw [hs] at h
    simp only at h
    split at h
    · cases hm : mixedSettings (d.switch t).1 (d.switch t).2 _ r.vehicle with
      | err => rw [hm] at h; cases h
      | panic => rw [hm] at h; cases h
      | ok ss => rw [hm] at h; cases h; exact .inr ⟨_, rfl, rfl, hm⟩
    · cases h; exact .inl ⟨rfl, rfl⟩

/-- C81: the rows of the sensor recorder in every scenario and for every duration.  At every step there is one for each of the five key
paths.  It has the value which the sensor has in the vehicle that a drive up to this time ends with, or, if the scenario switches at
this time, the value after the settings of the new scenario. -/
theorem C81_rows {dur : Nat} {d : Draws} (hd : d.Good) {scenario : Bytes} (hs : scenario ∈ scenarioNames) :
    ∃ r, experiment dur d scenario = .ok (some r) ∧
      r.rows.map (fun w => (w.time, w.path)) = (loopTimes dur 100 0).flatMap (fun t => keyPaths.map fun p => (t, p)) ∧
      ∀ w ∈ r.rows, ∃ r₁ r₂, experiment w.time d scenario = .ok (some r₁) ∧ r₁.switch d w.time = .ok r₂ ∧
        (r₂.vehicle = r₁.vehicle ∧ r₂.transitions = r₁.transitions ∨ ∃ x : Transition, r₂.transitions = r₁.transitions ++ [x] ∧ x.time = w.time ∧
          mixedSettings (d.switch w.time).1 (d.switch w.time).2 x.target r₁.vehicle = .ok r₂.vehicle) ∧
        ∃ s ∈ r₂.vehicle, s.path = w.path ∧ w.value = s.value := by
  obtain ⟨r, e, -⟩ := any_outcome (dur := dur) hd hs
  refine ⟨r, e, any_rows hd hs e, fun w hw => ?_⟩
  obtain ⟨r₀, e₀, hf, ht, hst, h1, h2, h3, h4, h5, h6, h7⟩ := start_eq hd hs
  have hg : Going r₀ := by
    refine ⟨hf.listed hs, ht, fun st hm => ?_⟩
    rw [h6] at hm
    split at hm
    · cases hm
      exact ⟨.inl rfl, rfl⟩
    · cases hm
  unfold experiment at e
  rw [e₀] at e
  rcases row_origin (fun t => (hd.order t).nodup_iff.2 table_facts.1) _ hg e w hw with k | ⟨a, t, b, r₁, r₂, k1, k2, k3, k4⟩
  · rw [show r₀.rows = [] by assumption] at k
    cases k
  · obtain ⟨p, -, hw'⟩ := List.mem_filterMap.1 k4
    obtain ⟨s, hso, rfl⟩ := Option.map_eq_some_iff.1 hw'
    have hmem : t ∈ loopTimes dur simStep 0 := by rw [k1]; simp
    obtain ⟨hlt, m, hm⟩ : t < dur ∧ ∃ m, t = 0 + simStep * m := by
      exact (mem_loopTimes (by decide) dur 0 (by omega) t).1 hmem
    have hsort := sorted_loopTimes (dur := dur) (step := simStep) (by decide) dur 0 (by omega)
    have hsp := loopTimes_split (dur := dur) (step := simStep) (by decide) t 0 m hm hlt
    obtain rfl : a = loopTimes t simStep 0 := sorted_parts (by rw [← k1]; exact hsort) (by rw [← hsp]; exact hsort) (by rw [← k1, hsp])
    refine ⟨r₁, r₂, ?_, k3, switch_quiet k3, s, (sensorOf_some hso).1, (sensorOf_some hso).2, rfl⟩
    unfold experiment
    rw [e₀]
    exact k2

/-- **C90, values, every scenario and duration.**  The rows of the file of a key sensor show the value it has at their time, after the
switch of this time if there is one: numbers to the nearest ten-thousandth, booleans as `true` and `false`. -/
theorem C90_values {secs : Nat} {d : Draws} (hd : d.Good) (k : Clocks) {scenario : Bytes} (hs : scenario ∈ scenarioNames) {p : Bytes}
    (hp : p ∈ keyPaths) :
    ∃ dir h rows, scenarioFiles secs d k scenario = .ok (some dir) ∧ TableIn dir (b!"sensor_data/" ++ p ++ b!".csv") (h :: rows) ∧
      rows.length = secs * 10 ∧
      ∀ i < secs * 10, ∃ w txt r₁ r₂ s, rows[i]? = some w ∧ number h w b!"SimulationTimeMs" = some ((100 * i : Nat) : Int) ∧
        cell h w b!"Value" = some txt ∧ experiment (100 * i) d scenario = .ok (some r₁) ∧ r₁.switch d (100 * i) = .ok r₂ ∧
        (r₂.vehicle = r₁.vehicle ∧ r₂.transitions = r₁.transitions ∨ ∃ x : Transition, r₂.transitions = r₁.transitions ++ [x] ∧ x.time = (100 * i : Nat) ∧
          mixedSettings (d.switch (100 * i)).1 (d.switch (100 * i)).2 x.target r₁.vehicle = .ok r₂.vehicle) ∧
        s ∈ r₂.vehicle ∧ s.path = p ∧ ShowsValue txt s.value := by
  obtain ⟨r, T, dir, H⟩ := tables (secs := secs) hd k hs
  obtain ⟨r', e, -, e2⟩ := C81_rows (dur := secs * 1000) hd hs
  obtain rfl : r = r' := by have := H.runs; rw [e] at this; cases this; rfl
  have h1 := rows_of (any_rows hd hs H.runs) hp
  rw [loop_range] at h1
  refine ⟨dir, _, _, H.files, H.sensors p hp, ?_, fun i hi => ?_⟩
  · have := congrArg List.length h1
    simpa using this
  · have hi' := congrArg (fun l => l[i]?) h1
    simp only [List.getElem?_map, List.getElem?_range hi, Option.map_some] at hi'
    obtain ⟨w, hw, ew⟩ := Option.map_eq_some_iff.1 hi'
    have hmem := List.mem_filter.1 (List.mem_of_getElem? hw)
    obtain ⟨r₁, r₂, k1, k2, k3, s, k4, k5, k6⟩ := e2 w hmem.1
    rw [ew] at k1 k2 k3
    refine ⟨_, _, r₁, r₂, s, by rw [List.getElem?_map, hw]; rfl, ?_, rfl, k1, k2, k3, k4, ?_, ?_⟩
    · rw [← ew]; exact nat_reads w.time
    · rw [k5]; simpa using hmem.2
    · rw [← k6]; exact shows_value _

theorem visits_transitions {d : Draws} {t : Nat} : ∀ (ps : List Bytes) {r r' : Trip}, Trip.visits d t ps r = .ok (some r') → r'.transitions = r.transitions
  | [], r, r', h => by cases h; rfl
  | p :: ps, r, r', h => by
    rw [Trip.visits] at h
    cases e : r.visit (d.read t p) t p with
    | err => rw [e] at h; cases h
    | panic => rw [e] at h; cases h
    | ok o =>
      rw [e] at h
      cases o with
      | none => cases h
      | some r1 => exact (visits_transitions ps h).trans (visit_state e).2

theorem note_transitions (t : Nat) (r : Trip) : (r.note t).transitions = r.transitions := rfl

theorem last_time : loopTimes 500000 simStep 0 = loopTimes 499900 simStep 0 ++ [499900] := by
  have h : (500000 : Nat) = 499900 + simStep := by decide
  rw [h]
  generalize hT : (499900 : Nat) = T
  exact loopTimes_snoc (by decide) T 0 (by omega) (by omega) ⟨4999, by unfold simStep; omega⟩

/-- One more time adds patches of this time. -/
theorem last_patches {d : Draws} (hd : d.Good) {scenario : Bytes} (hs : scenario ∈ scenarioNames) {T : Nat} (hT : T ≤ 2 ^ 52) {r₁ r : Trip}
    (e₁ : experiment T d scenario = .ok (some r₁)) (hl : Trip.loop d [T] r₁ = .ok (some r)) :
    (∀ q ∈ r₁.sim.tsonPatches, q.ts < T) ∧ ∃ ps, r.sim.tsonPatches = r₁.sim.tsonPatches ++ ps ∧ ∀ q ∈ ps, q.ts = T := by
  obtain ⟨r₀, r', E⟩ := ended (dur := T) (by omega) hd hs
  obtain rfl : r' = r₁ := by have := E.runs; rw [e₁] at this; cases this; rfl
  refine ⟨fun q hq => (E.readings q (E.kept.subset hq)).2.2.1, ?_⟩
  have ht := (experiment_inv (dur := T) (by omega) hd hs (P := fun _ => True) (fun _ _ _ => trivial) (fun _ _ _ _ => trivial) E.first.start e₁ trivial).1
  obtain ⟨r₂, e₂, -, h⟩ := loop_inv hd (P := fun s => ∃ ps, s.tsonPatches = r'.sim.tsonPatches ++ ps ∧ ∀ q ∈ ps, q.ts = T)
    (fun s m h => h) [T] r' (by intro t ht; rw [List.mem_singleton] at ht; omega) (by
      rintro s x g ⟨ps, h1, h2⟩
      obtain ⟨t, ht, hx⟩ := g.time
      rw [List.mem_singleton] at ht
      subst ht
      by_cases hc : isEqual ((mget s.sensors x.path).getD .null) x.value = true
      · exact ⟨ps, by simp [Sim.step, hc, h1], h2⟩
      · refine ⟨ps ++ [⟨b!"replace", x.path, x.value, x.ts⟩], by simp [Sim.step, hc, h1], fun q hq => ?_⟩
        rw [List.mem_append, List.mem_singleton] at hq
        rcases hq with hq | rfl
        · exact h2 q hq
        · exact hx) ht ⟨[], by simp, by simp⟩
  obtain rfl : r₂ = r := by rw [hl] at e₂; cases e₂; rfl
  exact h

theorem last_loop {d : Draws} {scenario : Bytes} {r₁ r : Trip} (e₁ : experiment 499900 d scenario = .ok (some r₁))
    (e : experiment 500000 d scenario = .ok (some r)) : Trip.loop d [499900] r₁ = .ok (some r) := by
  unfold experiment at e₁ e
  cases hs : Trip.start d scenario with
  | err => rw [hs] at e; cases e
  | panic => rw [hs] at e; cases e
  | ok r₀ =>
    rw [hs] at e₁ e
    have h2 := loop_append d (loopTimes 499900 simStep 0) [499900] r₀ r₁ e₁
    rw [← last_time] at h2
    exact h2.symm.trans e

/-- The switch at 499900 ms sets the speed to 0 before the row of this time is written. -/
theorem switch_row {d : Draws} (hd : d.Good) : ∃ r w, experiment 500000 d b!"mixed_scenario" = .ok (some r) ∧ w ∈ r.rows ∧ w.time = 499900 ∧
    w.path = speedPath ∧ w.value = .num (dec 0 1) := by
  have hmix : b!"mixed_scenario" ∈ scenarioNames := by decide
  obtain ⟨r, e, e1, e2⟩ := C81_rows (dur := 500000) hd hmix
  obtain ⟨r₁, r', s1, s2, s3, -⟩ := C81_switch hd
  obtain rfl : r = r' := by rw [e] at s2; cases s2; rfl
  have hmem : ((499900 : Nat), speedPath) ∈ r.rows.map (fun w => (w.time, w.path)) := by
    rw [e1]
    refine List.mem_flatMap.2 ⟨499900, (mem_loopTimes (by decide) 500000 0 (by omega) _).2 ⟨by decide, 4999, rfl⟩, List.mem_map.2 ⟨speedPath, by decide +kernel, rfl⟩⟩
  obtain ⟨w, hw, ew⟩ := List.mem_map.1 hmem
  simp only [Prod.mk.injEq] at ew
  refine ⟨r, w, e, hw, ew.1, ew.2, ?_⟩
  obtain ⟨r₁', r₂, k1, k2, k3, s, k4, k5, k6⟩ := e2 w hw
  rw [ew.1] at k1 k2 k3
  obtain rfl : r₁ = r₁' := by rw [s1] at k1; cases k1; rfl
  obtain ⟨r₀, r₁', o⟩ := outcome (dur := 499900) hd hmix fun _ => Nat.le_refl _
  obtain rfl : r₁ = r₁' := by have := o.runs; rw [s1] at this; cases this; rfl
  have hl := last_loop s1 e
  have htr : r.transitions = r₂.transitions := by
    rw [Trip.loop, Trip.tick, k2] at hl
    cases hv : Trip.visits d 499900 (d.order 499900) (r₂.note 499900) with
    | err => simp only [Res.bind, hv] at hl; cases hl
    | panic => simp only [Res.bind, hv] at hl; cases hl
    | ok x =>
      simp only [Res.bind, hv] at hl
      cases x with
      | none => cases hl
      | some y => cases hl; exact (visits_transitions _ hv).trans (note_transitions _ _)
  rw [k6]
  rcases k3 with ⟨-, k3⟩ | ⟨x, k3, -, k7⟩
  · rw [htr, k3, o.transitions] at s3
    cases s3
  · rw [htr, k3, o.transitions] at s3
    have hx : x.target = b!"battery_charging" := by cases s3; rfl
    rw [hx] at k7
    have hl₁ : Listed r₁.vehicle := by
      rw [o.vehicle]
      exact (o.first.listed hmix).of_erase (drive_erase d _ _)
    obtain ⟨s', q1, q2, q3, -⟩ := charging_speed hl₁ k7
    obtain ⟨ss, e3, hls⟩ := mixedSettings_ok (u := (d.switch 499900).1) (u' := (d.switch 499900).2) (.inr rfl) hl₁
    obtain rfl : r₂.vehicle = ss := by rw [k7] at e3; cases e3; rfl
    have a1 := sensorOf_mem hls.sound.paths q1
    have a2 := sensorOf_mem hls.sound.paths k4
    rw [q2] at a1
    rw [k5, ew.2, a1] at a2
    rw [← Option.some.inj a2, q3]

/-- **C90, refuted after a switch.**  That the rows show the value of the last patch before them, as they do up to the first switch
(`C90_values_partial`): with draws of 0.5 a mixed scenario of 500 seconds shows in its last row the speed 0, while the patches so far
leave it at 50. -/
theorem C90_values_fails (k : Clocks) : ∃ r ss s dir h rows w, firstVehicle halfDraws b!"mixed_scenario" = .ok ss ∧ s ∈ ss ∧
    s.path = b!"Vehicle.Speed" ∧ experiment 500000 halfDraws b!"mixed_scenario" = .ok (some r) ∧
    scenarioFiles 500 halfDraws k b!"mixed_scenario" = .ok (some dir) ∧ TableIn dir b!"sensor_data/Vehicle.Speed.csv" (h :: rows) ∧
    w ∈ rows ∧ number h w b!"SimulationTimeMs" = some 499900 ∧ cell h w b!"Value" = some b!"0.0000" ∧
    ((r.sim.tsonPatches.filter fun q => decide (q.ts < 499900 ∧ q.path = b!"Vehicle.Speed")).getLast?.map TPatch.value).getD s.value =
      .num (dec 50 1) := by
  have hmix : b!"mixed_scenario" ∈ scenarioNames := by decide
  obtain ⟨r, w, e, hw, w1, w2, w3⟩ := switch_row halfDraws_good
  obtain ⟨r', T, dir, H⟩ := tables (secs := 500) halfDraws_good k hmix
  obtain rfl : r = r' := by have := H.runs; rw [e] at this; cases this; rfl
  obtain ⟨r₀, r₁, o⟩ := outcome (dur := 499900) halfDraws_good hmix fun _ => Nat.le_refl _
  obtain ⟨ss, ef, x₀, hx₀, hi₀, hv₀⟩ := first_fifty
  have hpx : ∀ {x : SensorData}, isSpeed x = true → x.path = speedPath := by
    intro x q1
    unfold isSpeed at q1
    simp only [Bool.and_eq_true, decide_eq_true_eq] at q1
    exact q1.1.1.1.1.1
  refine ⟨r, ss, x₀, dir, _, _, _, ef, hx₀, hpx hi₀, e, H.files, H.sensors speedPath (by decide +kernel), List.mem_map.2 ⟨w, List.mem_filter.2 ⟨hw, by simpa using w2⟩, rfl⟩, ?_, ?_, ?_⟩
  · have h1 : number sensorHeader (sensorRow k w) b!"SimulationTimeMs" = some (w.time : Int) := nat_reads w.time
    rw [h1, w1]
    rfl
  · have h1 : cell sensorHeader (sensorRow k w) b!"Value" = some (valueText w.value) := rfl
    rw [h1, w3]
    decide +kernel
  · have hl := last_loop o.runs e
    obtain ⟨h1, ps, h2, h3⟩ := last_patches halfDraws_good hmix (by decide) o.runs hl
    have hv : r₀.vehicle = ss := by have := start_vehicle o.start; rw [ef] at this; cases this; rfl
    have h50 := fifty_drive (loopTimes 499900 simStep 0) r₀.vehicle o.first.sound (by rw [hv]; exact ⟨x₀, hx₀, hi₀, hv₀⟩)
    rw [← o.vehicle] at h50
    obtain ⟨x, hx, q1, q2⟩ := h50
    have hls : Listed r₁.vehicle := by
      rw [o.vehicle]
      exact (o.first.listed hmix).of_erase (drive_erase ..)
    have m1 : mget r₁.sim.sensors speedPath = some (.num (dec 50 1)) := by
      rw [show r₁.sim.sensors = vehicleValues r₁.vehicle from o.tied, mget_values, ← hpx q1, sensorOf_mem hls.sound.paths hx, ← q2]
      rfl
    have m0 : mget r₀.sim.sensors speedPath = some x₀.value := by
      rw [show r₀.sim.sensors = vehicleValues r₀.vehicle from o.tied₀, mget_values, ← hpx hi₀, sensorOf_mem o.first.sound.paths (by rw [hv]; exact hx₀)]
      rfl
    obtain ⟨qs, p1, -, -, p2, -⟩ := run_patches (driven halfDraws (loopTimes 499900 simStep 0) r₀.vehicle) r₀.sim
    rw [← o.sim, o.sim₀.empty.2.1, List.nil_append] at p1
    rw [← o.sim] at p2
    have hk := kept_fold (p := speedPath) (v₀ := x₀.value) qs [] r₀.sim.sensors (by rw [m0]; rfl)
    rw [← p2, m1, List.nil_append, ← p1] at hk
    have hfil : (r.sim.tsonPatches.filter fun q => decide (q.ts < 499900 ∧ q.path = b!"Vehicle.Speed")) =
        r₁.sim.tsonPatches.filter fun q => decide (q.path = speedPath) := by
      rw [h2, List.filter_append]
      have : (ps.filter fun q => decide (q.ts < 499900 ∧ q.path = b!"Vehicle.Speed")) = [] := by
        rw [List.filter_eq_nil_iff]
        intro q hq hc
        have := h3 q hq
        have hc := (of_decide_eq_true hc).1
        omega
      rw [this, List.append_nil]
      refine List.filter_congr fun q hq => ?_
      have := h1 q hq
      rw [decide_eq_decide]
      exact ⟨fun h => h.2, fun h => ⟨by omega, h⟩⟩
    rw [hfil]
    exact (Option.some.inj hk).symm

/-! ### Examples -/

example : ∃ r, experiment 3600000 exDraws b!"mixed_scenario" = .ok (some r) ∧ ∃ w ∈ r.rows, w.time = 3599900 ∧ w.path = speedPath := by
  obtain ⟨r, e, h, -⟩ := C81_rows (dur := 3600000) exDraws_good (scenario := b!"mixed_scenario") (by decide)
  refine ⟨r, e, ?_⟩
  have : ((3599900 : Nat), speedPath) ∈ r.rows.map (fun w => (w.time, w.path)) := by
    rw [h]
    exact List.mem_flatMap.2 ⟨3599900, (mem_loopTimes (by decide) 3600000 0 (by omega) _).2 ⟨by decide, 35999, rfl⟩, List.mem_map.2 ⟨speedPath, by decide +kernel, rfl⟩⟩
  obtain ⟨w, hw, ew⟩ := List.mem_map.1 this
  simp only [Prod.mk.injEq] at ew
  exact ⟨w, hw, ew⟩

example (k : Clocks) : ∃ dir h rows w, scenarioFiles 3600 exDraws k b!"mixed_scenario" = .ok (some dir) ∧
    TableIn dir (b!"sensor_data/" ++ speedPath ++ b!".csv") (h :: rows) ∧ rows[35999]? = some w ∧
    number h w b!"SimulationTimeMs" = some 3599900 := by
  obtain ⟨dir, h, rows, e1, e2, -, e3⟩ := C90_values (secs := 3600) exDraws_good k (scenario := b!"mixed_scenario") (by decide) (p := speedPath) (by decide +kernel)
  obtain ⟨w, -, -, -, -, h1, h2, -⟩ := e3 35999 (by decide)
  exact ⟨dir, h, rows, w, e1, e2, h1, h2⟩

end Verif
