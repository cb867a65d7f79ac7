import Verif.PropsExpCsv
/-
C90: the scenario named in each row of `timing.csv`, and what the texts in the files of the key sensors say.
-/
namespace Verif

/-- The scenario at a time, from the switches that were made: the target of the last one not after it. -/
def scenarioAt (l : List Transition) (t : Nat) : Bytes :=
  ((l.filter fun x => decide (x.time ≤ (t : Int))).getLast?.map Transition.target).getD b!"urban_traffic"

/-- What is known after the step at time `t`. -/
structure Labelled (t : Nat) (r : Trip) (T : List Timing) : Prop where
  state : ∃ st, r.state = some st ∧ st.current = scenarioAt r.transitions t
  past : ∀ x ∈ r.transitions, x.time ≤ (t : Int)
  rows : ∀ x ∈ T, x.time ≤ t ∧ x.scenario = scenarioAt r.transitions x.time

theorem scenarioAt_past {l : List Transition} {t t' : Nat} (h : ∀ x ∈ l, x.time ≤ (t : Int)) (ht : t ≤ t') :
    scenarioAt l t' = scenarioAt l t := by
  unfold scenarioAt
  rw [List.filter_eq_self.2 fun x hx => decide_eq_true (h x hx),
    List.filter_eq_self.2 fun x hx => decide_eq_true (by have := h x hx; omega)]

theorem scenarioAt_new {l : List Transition} {t : Nat} {x : Transition} (h : (t : Int) < x.time) :
    scenarioAt (l ++ [x]) t = scenarioAt l t := by
  unfold scenarioAt
  rw [List.filter_append]
  have : [x].filter (fun y => decide (y.time ≤ (t : Int))) = [] := by
    rw [List.filter_cons_of_neg (by simpa using h)]; rfl
  rw [this, List.append_nil]

theorem scenarioAt_last {l : List Transition} {t : Nat} {x : Transition} (h : x.time ≤ (t : Int)) :
    scenarioAt (l ++ [x]) t = x.target := by
  unfold scenarioAt
  rw [List.filter_append]
  have : [x].filter (fun y => decide (y.time ≤ (t : Int))) = [x] := by
    rw [List.filter_cons_of_pos (by simpa using h)]; rfl
  rw [this, List.getLast?_concat]
  rfl

theorem update_same {st st' : Scenario} {x : Option F64} {t : Int} (h : st.update x t = (st', false)) : st'.current = st.current := by
  unfold Scenario.update at h
  simp only at h
  split at h
  · cases h; rfl
  · split at h
    · rename_i he
      simp only [Prod.mk.injEq, and_true] at h
      rw [← h]
      exact he.symm
    · cases h

theorem labelled_switch {d : Draws} {t t' : Nat} {r r' : Trip} {T : List Timing} (h : Labelled t r T) (ht : t < t')
    (hs : r.switch d t' = .ok r') : Labelled t' r' T := by
  obtain ⟨st, e, hc⟩ := h.state
  unfold Trip.switch at hs
  rw [e] at hs
  simp only at hs
  cases hu : st.update (batteryLevel r.vehicle) t' with
  | mk st' b =>
    rw [hu] at hs
    cases b with
    | false =>
      simp only [Res.ok.injEq] at hs
      subst hs
      refine ⟨⟨st', rfl, ?_⟩, fun x hx => by have := h.past x hx; omega, fun x hx => ⟨by have := (h.rows x hx).1; omega, (h.rows x hx).2⟩⟩
      rw [update_same hu, hc]
      exact (scenarioAt_past h.past (by omega)).symm
    | true =>
      simp only at hs
      cases hm : mixedSettings (d.switch t').1 (d.switch t').2 st'.current r.vehicle with
      | err => rw [hm] at hs; cases hs
      | panic => rw [hm] at hs; cases hs
      | ok ss =>
        rw [hm] at hs
        simp only [Res.map, Res.ok.injEq] at hs
        subst hs
        refine ⟨⟨st', rfl, ?_⟩, fun x hx => ?_, fun x hx => ⟨by have := (h.rows x hx).1; omega, ?_⟩⟩
        · simp only
          rw [scenarioAt_last (by exact Int.le_refl _)]
        · rcases List.mem_append.1 hx with hx | hx
          · have := h.past x hx; omega
          · rw [List.mem_singleton.1 hx]; exact Int.le_refl _
        · have := (h.rows x hx).1
          rw [scenarioAt_new (by simp only; omega)]
          exact (h.rows x hx).2

theorem visit_state {c : Choices} {t : Nat} {p : Bytes} {r r' : Trip} (hv : r.visit c t p = .ok (some r')) :
    r'.state = r.state ∧ r'.transitions = r.transitions := by
  unfold Trip.visit at hv
  cases hs : sensorOf r.vehicle p with
  | none => rw [hs] at hv; cases hv; exact ⟨rfl, rfl⟩
  | some s =>
    rw [hs] at hv
    simp only at hv
    cases hd : due t s.interval with
    | err => rw [hd] at hv; cases hv
    | panic => rw [hd] at hv; cases hv
    | ok b =>
      rw [hd] at hv
      cases b with
      | false => cases hv; exact ⟨rfl, rfl⟩
      | true =>
        simp only [Res.bind, if_true] at hv
        cases hr : s.read c t with
        | err => rw [hr] at hv; cases hv
        | panic => rw [hr] at hv; cases hv
        | ok o =>
          rw [hr] at hv
          cases o with
          | none => cases hv
          | some x =>
            simp only [Res.map, Option.map_some, Res.ok.injEq, Option.some.injEq] at hv
            subst hv
            exact ⟨rfl, rfl⟩

theorem timing_labels {k : Clocks} {sc : Bytes} {c : Choices} {t : Nat} {p : Bytes} {r : Trip} {st : Scenario}
    (hs : r.state = some st) : ∀ x ∈ r.timing k sc c t p, x.time = t ∧ x.scenario = st.current := by
  intro x hx
  unfold Trip.timing at hx
  simp only [hs] at hx
  repeat' split at hx
  all_goals first
    | (cases hx; done)
    | (rw [List.mem_singleton] at hx; subst hx; exact ⟨rfl, rfl⟩)

theorem labelled_visits {k : Clocks} {sc : Bytes} {d : Draws} {t : Nat} : ∀ (ps : List Bytes) {r r' : Trip} {T T' : List Timing},
    timedVisits d k sc t ps (r, T) = .ok (some (r', T')) → Labelled t r T → Labelled t r' T'
  | [], r, r', T, T', hv, h => by cases hv; exact h
  | p :: ps, r, r', T, T', hv, h => by
    rw [timedVisits] at hv
    cases e : r.visit (d.read t p) t p with
    | err => rw [e] at hv; cases hv
    | panic => rw [e] at hv; cases hv
    | ok o =>
      rw [e] at hv
      cases o with
      | none => cases hv
      | some r1 =>
        simp only [Res.bind] at hv
        refine labelled_visits ps hv ?_
        obtain ⟨h1, h2⟩ := visit_state e
        obtain ⟨st, hst, hc⟩ := h.state
        refine ⟨⟨st, by rw [h1, hst], by rw [h2]; exact hc⟩, by rw [h2]; exact h.past, fun x hx => ?_⟩
        rw [h2]
        rcases List.mem_append.1 hx with hx | hx
        · exact h.rows x hx
        · obtain ⟨a, b⟩ := timing_labels hst x hx
          exact ⟨Nat.le_of_eq a, by rw [b, hc, a]⟩

theorem labelled_loop {k : Clocks} {sc : Bytes} {d : Draws} : ∀ (ts : List Nat) {t : Nat} {r r' : Trip} {T T' : List Timing},
    (∀ t' ∈ ts, t < t') → ts.Pairwise (· < ·) → timedLoop d k sc ts (r, T) = .ok (some (r', T')) → Labelled t r T →
    ∃ t', Labelled t' r' T'
  | [], t, r, r', T, T', _, _, hv, h => by cases hv; exact ⟨t, h⟩
  | t' :: ts, t, r, r', T, T', ht, hp, hv, h => by
    rw [timedLoop] at hv
    cases e : r.switch d t' with
    | err => rw [e] at hv; cases hv
    | panic => rw [e] at hv; cases hv
    | ok r1 =>
      rw [e] at hv
      simp only [Res.bind] at hv
      have h1 := labelled_switch h (ht t' (by simp)) e
      have h2 : Labelled t' (r1.note t') T := ⟨h1.state, h1.past, h1.rows⟩
      cases e2 : timedVisits d k sc t' (d.order t') (r1.note t', T) with
      | err => rw [e2] at hv; cases hv
      | panic => rw [e2] at hv; cases hv
      | ok o =>
        rw [e2] at hv
        cases o with
        | none => cases hv
        | some q =>
          obtain ⟨r2, T2⟩ := q
          rw [List.pairwise_cons] at hp
          exact labelled_loop ts hp.1 hp.2 hv (labelled_visits _ e2 h2)

theorem start_state {d : Draws} {scenario : Bytes} {r : Trip} (h : Trip.start d scenario = .ok r) :
    r.state = (if scenario = b!"mixed_scenario" then some (newScenario b!"urban_traffic" (dec 60 1)) else none) ∧ r.transitions = [] := by
  unfold Trip.start at h
  cases e1 : firstVehicle d scenario with
  | err => rw [e1] at h; cases h
  | panic => rw [e1] at h; cases h
  | ok ss =>
    rw [e1] at h
    simp only [Res.bind] at h
    cases e2 : vehicleJson [] (d.jsonOrder (docSensors d ss)) with
    | err => rw [e2] at h; cases h
    | panic => rw [e2] at h; cases h
    | ok j =>
      rw [e2] at h
      simp only at h
      cases e3 : vehicleTson [] (d.tsonOrder (docSensors d ss)) with
      | err => rw [e3] at h; cases h
      | panic => rw [e3] at h; cases h
      | ok t =>
        rw [e3] at h
        cases h
        exact ⟨rfl, rfl⟩

/-- The first step, at time 0, has no time before it: nothing is switched in it, as fewer than 60 seconds have passed. -/
theorem first_switch {d : Draws} {r r' : Trip} (hs : r.state = some (newScenario b!"urban_traffic" (dec 60 1))) (ht : r.transitions = [])
    (h : r.switch d 0 = .ok r') : Labelled 0 r' [] := by
  unfold Trip.switch at h
  rw [hs] at h
  simp only at h
  cases hu : (newScenario b!"urban_traffic" (dec 60 1)).update (batteryLevel r.vehicle) ((0 : Nat) : Int) with
  | mk st' b =>
    have hb : b = false := by
      unfold Scenario.update newScenario at hu
      simp at hu
      exact hu.2
    subst hb
    rw [hu] at h
    simp only [Res.ok.injEq] at h
    subst h
    refine ⟨⟨st', rfl, ?_⟩, ?_, fun x hx => by cases hx⟩
    · rw [update_same hu]
      simp only [ht]
      rfl
    · simp only [ht]
      intro x hx; cases hx

theorem labelled_experiment {secs : Nat} {d : Draws} {k : Clocks} {r : Trip} {T : List Timing}
    (h : timedExperiment secs d k b!"mixed_scenario" = .ok (some (r, T))) : ∀ x ∈ T, x.scenario = scenarioAt r.transitions x.time := by
  unfold timedExperiment at h
  cases e : Trip.start d b!"mixed_scenario" with
  | err => rw [e] at h; cases h
  | panic => rw [e] at h; cases h
  | ok r0 =>
    rw [e] at h
    simp only [Res.bind] at h
    obtain ⟨h1, h2⟩ := start_state e
    rw [if_pos rfl] at h1
    rw [loop_range] at h
    cases hn : secs * 10 with
    | zero =>
      rw [hn] at h
      cases h
      intro x hx; cases hx
    | succ n =>
      rw [hn, List.range_succ_eq_map, List.map_cons, timedLoop] at h
      cases e1 : r0.switch d (100 * 0) with
      | err => rw [e1] at h; cases h
      | panic => rw [e1] at h; cases h
      | ok r1 =>
        rw [e1] at h
        simp only [Res.bind] at h
        have g1 := first_switch h1 h2 e1
        have g2 : Labelled (100 * 0) (r1.note (100 * 0)) [] := ⟨g1.state, g1.past, g1.rows⟩
        cases e2 : timedVisits d k b!"mixed_scenario" (100 * 0) (d.order (100 * 0)) (r1.note (100 * 0), []) with
        | err => rw [e2] at h; cases h
        | panic => rw [e2] at h; cases h
        | ok o =>
          rw [e2] at h
          cases o with
          | none => cases h
          | some q =>
            obtain ⟨r2, T2⟩ := q
            simp only at h
            obtain ⟨t', g⟩ := labelled_loop _ (t := 100 * 0) (by
                intro t' ht'
                simp only [List.map_map, List.mem_map, Function.comp_apply] at ht'
                obtain ⟨i, -, rfl⟩ := ht'
                omega) (by
                rw [List.map_map, List.pairwise_map]
                exact List.pairwise_lt_range.imp fun h => by simp only [Function.comp_apply]; omega) h (labelled_visits _ e2 g2)
            exact fun x hx => (g.rows x hx).2

/-- **C90, scenarios.**  In the mixed scenario each row of `timing.csv` names the scenario that was in force at its time: the target
of the last switch up to then, and urban traffic before the first.  Other scenarios have no such column. -/
theorem C90_scenario {secs : Nat} {d : Draws} (hd : d.Good) (k : Clocks) {scenario : Bytes} (hs : scenario ∈ scenarioNames) :
    ∃ r dir h rows, experiment (secs * 1000) d scenario = .ok (some r) ∧ scenarioFiles secs d k scenario = .ok (some dir) ∧
      TableIn dir b!"timing.csv" (h :: rows) ∧ rows.length = r.sim.updates ∧
      (scenario ≠ b!"mixed_scenario" → b!"CurrentScenario" ∉ h) ∧
      (scenario = b!"mixed_scenario" → ∀ w ∈ rows, ∃ t : Nat, number h w b!"TimeMs" = some (t : Int) ∧
        cell h w b!"CurrentScenario" =
          some (((r.transitions.filter fun x => decide (x.time ≤ (t : Int))).getLast?.map Transition.target).getD b!"urban_traffic")) := by
  obtain ⟨r, T, dir, H⟩ := tables (secs := secs) hd k hs
  refine ⟨r, dir, _, _, H.runs, H.files, H.timing, by rw [List.length_map]; exact H.timings.count, fun hm => ?_, fun hm w hw => ?_⟩
  · unfold timingHeader
    rw [if_neg hm]
    decide +kernel
  · obtain ⟨x, hx, rfl⟩ := List.mem_map.1 hw
    obtain ⟨-, h2, -, -, -, -, -, h8⟩ := timing_cells scenario x
    refine ⟨x.time, h2, ?_⟩
    rw [h8, if_pos hm]
    have ht := H.timed
    rw [hm] at ht
    rw [labelled_experiment ht x hx]
    rfl

/-! ### The values -/

/-- A text shows a value: numbers to the nearest ten-thousandth, booleans and strings as they are. -/
def ShowsValue (s : Bytes) : Js → Prop
  | .num f => f.IsFin → ∃ v, readFixed 4 s = some v ∧ 2 * (v * 2 ^ 1074 - f.units * 10 ^ 4) ≤ 2 ^ 1074 ∧
      -(2 ^ 1074) ≤ 2 * (v * 2 ^ 1074 - f.units * 10 ^ 4)
  | .bool b => s = if b then b!"true" else b!"false"
  | .str t => s = t
  | .int n => signedDigits s = some n
  | _ => True

theorem shows_value (v : Js) : ShowsValue (valueText v) v := by
  cases v with
  | num f => exact fun hf => C89_fixed (by decide) hf
  | int n => exact C89_int n
  | null => trivial
  | bool b => rfl
  | str s => rfl
  | arr l => trivial
  | obj m => trivial

/-- **C90, values shown, partial.**  The rows of the file of a key sensor show the values it had: numbers to the nearest
ten-thousandth, booleans as `true` and `false`.  Once a mixed scenario has switched, `C90_values`. -/
theorem C90_shown_partial {secs : Nat} {d : Draws} (hd : d.Good) (k : Clocks) {scenario : Bytes} (hs : scenario ∈ scenarioNames)
    (hm : scenario = b!"mixed_scenario" → secs ≤ 499) {p : Bytes} (hp : p ∈ keyPaths) :
    ∃ r ss s dir h rows, firstVehicle d scenario = .ok ss ∧ s ∈ ss ∧ s.path = p ∧ experiment (secs * 1000) d scenario = .ok (some r) ∧
      scenarioFiles secs d k scenario = .ok (some dir) ∧ TableIn dir (b!"sensor_data/" ++ p ++ b!".csv") (h :: rows) ∧
      ∀ i < secs * 10, ∃ w txt, rows[i]? = some w ∧ number h w b!"SimulationTimeMs" = some ((100 * i : Nat) : Int) ∧
        cell h w b!"Value" = some txt ∧
        ShowsValue txt (((r.sim.tsonPatches.filter fun q => decide (q.ts < ((100 * i : Nat) : Int) ∧ q.path = p)).getLast?.map
          TPatch.value).getD s.value) := by
  obtain ⟨r, ss, s, dir, h, rows, e1, e2, e3, e4, e5, e6, e7⟩ := C90_values_partial hd k hs hm hp
  refine ⟨r, ss, s, dir, h, rows, e1, e2, e3, e4, e5, e6, fun i hi => ?_⟩
  have := congrArg (fun l => l[i]?) e7
  simp only [List.getElem?_map, List.getElem?_range hi, Option.map_some] at this
  obtain ⟨w, hw, e⟩ := Option.map_eq_some_iff.1 this
  simp only [Prod.mk.injEq] at e
  exact ⟨w, _, hw, e.1, e.2, shows_value _⟩

example : valueText (.num (dec (-37566) 1000)) = b!"-37.5660" ∧ readFixed 4 b!"-37.5660" = some (-375660) ∧
    valueText (.bool true) = b!"true" := by decide +kernel

/-- Switches at 499900 and 700000 ms: the scenario before, between and after. -/
example : scenarioAt [⟨499900, b!"urban_traffic", b!"battery_charging", dec 10 1, 1⟩, ⟨700000, b!"urban_traffic", b!"urban_traffic", dec 100 1, 2⟩] 400 = b!"urban_traffic" ∧
    scenarioAt [⟨499900, b!"urban_traffic", b!"battery_charging", dec 10 1, 1⟩, ⟨700000, b!"urban_traffic", b!"urban_traffic", dec 100 1, 2⟩] 499900 = b!"battery_charging" ∧
    scenarioAt [⟨499900, b!"urban_traffic", b!"battery_charging", dec 10 1, 1⟩, ⟨700000, b!"urban_traffic", b!"urban_traffic", dec 100 1, 2⟩] 700001 = b!"urban_traffic" := by
  decide +kernel

end Verif
