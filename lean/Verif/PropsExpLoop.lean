import Verif.ExpLoopMixed
import Verif.PropsExpEqual
import Verif.PropsExpPatches
/-
C81: the simulation as a whole.
-/
namespace Verif
open F64

/-! ### Readings -/

theorem taken_time {d : Draws} {t : Nat} {ss : List SensorData} {ps : List Bytes} {r : Reading} (h : r ∈ taken d t ss ps) :
    r.ts = t ∧ r.path ∈ ps ∧ ∃ s ∈ ss, s.path = r.path ∧ dueNow t s ∧ r.value = s.seen (d.read t r.path) t := by
  unfold taken at h
  obtain ⟨p, hp, h⟩ := List.mem_filterMap.1 h
  cases ho : sensorOf ss p with
  | none => rw [ho] at h; cases h
  | some s =>
    rw [ho] at h
    simp only [Option.bind_some] at h
    split at h
    · rename_i hdue
      simp only [Option.some.injEq] at h
      subst h
      exact ⟨rfl, hp, s, (sensorOf_some ho).1, (sensorOf_some ho).2, hdue, rfl⟩
    · cases h

theorem after_erase {s s' : SensorData} (h : After s s') : s'.erase = s.erase := by
  induction h with
  | start => rfl
  | read _ _ _ _ hr ih => exact (read_erase hr).1.trans ih

/-- Every reading is one of a sensor after readings before. -/
theorem driven_after {d : Draws} (hd : d.Good) {ss₀ : List SensorData} : ∀ (ts : List Nat) (ss : List SensorData), (∀ t ∈ ts, t < 2 ^ 53) → Sound ss →
    (∀ s ∈ ss, ∃ s₀ ∈ ss₀, After s₀ s) →
    (∀ s ∈ drive d ts ss, ∃ s₀ ∈ ss₀, After s₀ s) ∧
    ∀ r ∈ driven d ts ss, ∃ t ∈ ts, r.ts = (t : Int) ∧ ∃ s₀ ∈ ss₀, ∃ s, After s₀ s ∧ s.path = r.path ∧ s.read (d.read t r.path) t = .ok (some (s.next (d.read t r.path) t, r.value))
  | [], ss, _, _, ha => ⟨ha, fun _ h => by cases h⟩
  | t :: ts, ss, ht, hs, ha => by
    have ha' : ∀ s ∈ afterVisits d t (d.order t) ss, ∃ s₀ ∈ ss₀, After s₀ s := by
      intro s' hs'
      obtain ⟨s, hm, rfl⟩ := List.mem_map.1 hs'
      obtain ⟨s₀, h0, h1⟩ := ha s hm
      refine ⟨s₀, h0, ?_⟩
      split
      · exact .read h1 (hd.read t s.path) (by omega) (by have := ht t (by simp); omega) (steady_read (hs.steady s hm) _ _)
      · exact h1
    obtain ⟨i1, i2⟩ := driven_after hd ts _ (fun t' h' => ht t' (by simp [h'])) (hs.of_erase (afterVisits_erase ..)) ha'
    refine ⟨i1, fun r hr => ?_⟩
    rw [driven, List.mem_append] at hr
    rcases hr with hr | hr
    · obtain ⟨e1, -, s, hm, e2, -, e3⟩ := taken_time hr
      obtain ⟨s₀, h0, h1⟩ := ha s hm
      exact ⟨t, by simp, e1, s₀, h0, s, h1, e2, by rw [e3]; exact steady_read (hs.steady s hm) _ _⟩
    · obtain ⟨t', ht', k⟩ := i2 r hr
      exact ⟨t', by simp [ht'], k⟩

/-- The sensors of the table in the order of the paths. -/
def timedOrder (d : Draws) (t : Nat) : List Timed := (d.order t).filterMap fun p => simSensors.find? fun x => decide (x.path = p)

theorem timedOrder_perm {d : Draws} (hd : d.Good) (t : Nat) : (timedOrder d t).Perm simSensors := by
  unfold timedOrder
  refine ((hd.order t).filterMap _).trans ?_
  have : ((vssSensors.map VssSensor.path).filterMap fun p => simSensors.find? fun x => decide (x.path = p)) = simSensors := by decide +kernel
  rw [this]

theorem taken_times {d : Draws} {t : Nat} {ss : List SensorData}
    (ht : ss.map (fun s => (s.path, s.group, s.interval)) = vssSensors.map fun v => (v.path, v.group, v.interval)) (ps : List Bytes) :
    (taken d t ss ps).map (fun r => (t, r.path)) =
      ((ps.filterMap fun p => simSensors.find? fun x => decide (x.path = p)).filter fun x => decide (x.interval.natAbs ∣ t)).map fun x => (t, x.path) := by
  have key : ∀ p, ((sensorOf ss p).map fun s => (s.path, s.group, s.interval)) =
      (simSensors.find? fun x => decide (x.path = p)).map fun x => (x.path, x.group, x.interval) := by
    intro p
    have h1 : ((sensorOf ss p).map fun s => (s.path, s.group, s.interval)) =
        (ss.map fun s => (s.path, s.group, s.interval)).find? fun x => decide (x.1 = p) := by
      rw [List.find?_map]; rfl
    have h2 : ((simSensors.find? fun x => decide (x.path = p)).map fun x => (x.path, x.group, x.interval)) =
        (vssSensors.map fun v => (v.path, v.group, v.interval)).find? fun x => decide (x.1 = p) := by
      unfold simSensors
      rw [List.find?_map, List.find?_map, Option.map_map]; rfl
    rw [h1, h2, ht]
  unfold taken
  induction ps with
  | nil => rfl
  | cons p ps ih =>
    rw [List.filterMap_cons, List.filterMap_cons]
    have hk := key p
    cases ho : sensorOf ss p with
    | none =>
      rw [ho] at hk
      cases hf : simSensors.find? fun x => decide (x.path = p) with
      | none => exact ih
      | some x => rw [hf] at hk; cases hk
    | some s =>
      rw [ho] at hk
      cases hf : simSensors.find? fun x => decide (x.path = p) with
      | none => rw [hf] at hk; cases hk
      | some x =>
        rw [hf] at hk
        simp only [Option.map_some, Option.some.injEq, Prod.mk.injEq] at hk
        have hp := (sensorOf_some ho).2
        have hdd : dueNow t s ↔ x.interval.natAbs ∣ t := by
          unfold dueNow
          rw [hk.2.2, Int.natAbs_dvd_natAbs.symm, Int.natAbs_natCast]
        simp only [Option.bind_some]
        by_cases hdue : dueNow t s
        · rw [if_pos hdue, List.filter_cons_of_pos (by simpa using hdd.1 hdue)]
          simp only [List.map_cons]
          rw [ih, ← hk.1, hp]
        · rw [if_neg hdue, List.filter_cons_of_neg (by simpa using fun k => hdue (hdd.2 k))]
          exact ih

theorem driven_times {d : Draws} : ∀ (ts : List Nat) (ss : List SensorData),
    ss.map (fun s => (s.path, s.group, s.interval)) = vssSensors.map (fun v => (v.path, v.group, v.interval)) →
    (driven d ts ss).map (fun r => (r.ts, r.path)) =
      (ts.flatMap fun t => ((timedOrder d t).filter fun x => decide (x.interval.natAbs ∣ t)).map fun x => (t, x.path)).map fun x => ((x.1 : Int), x.2)
  | [], _, _ => rfl
  | t :: ts, ss, ht => by
    have ht' : (afterVisits d t (d.order t) ss).map (fun s => (s.path, s.group, s.interval)) = vssSensors.map (fun v => (v.path, v.group, v.interval)) := by
      rw [← ht]
      have := congrArg (List.map fun s : SensorData => (s.path, s.group, s.interval)) (afterVisits_erase d t (d.order t) ss)
      simpa [Function.comp_def, SensorData.erase] using this
    rw [driven, List.map_append, driven_times ts _ ht', List.flatMap_cons, List.map_append]
    congr 1
    unfold timedOrder
    rw [← taken_times ht, List.map_map]
    refine List.map_congr_left fun r hr => ?_
    simp [(taken_time hr).1]

/-! ### The whole experiment -/

/-- What is known about an experiment without a switch of the scenario. -/
structure Outcome (dur : Nat) (d : Draws) (scenario : Bytes) (r₀ r : Trip) : Prop where
  start : Trip.start d scenario = .ok r₀
  runs : experiment dur d scenario = .ok (some r)
  first : FirstVehicle scenario r₀.vehicle
  sim₀ : r₀.sim.Start
  tied₀ : Tied r₀
  stamps : ∀ s ∈ r₀.vehicle, (Js.obj r₀.sim.json).at? (split bDot s.path ++ [b!"timestamp"]) = some (.int (d.clock s.path))
  tied : Tied r
  vehicle : r.vehicle = drive d (loopTimes dur simStep 0) r₀.vehicle
  sim : r.sim = r₀.sim.run isEqual (driven d (loopTimes dur simStep 0) r₀.vehicle)
  transitions : r.transitions = []
  times : r.times = (noted d (loopTimes dur simStep 0) r₀.sim r₀.vehicle).map (·.1)
  json : r.jsonVec = (noted d (loopTimes dur simStep 0) r₀.sim r₀.vehicle).map (·.2.1)
  tson : r.tsonVec = (noted d (loopTimes dur simStep 0) r₀.sim r₀.vehicle).map (·.2.2)
  rows : r.rows = rowsOf d (loopTimes dur simStep 0) r₀.vehicle
  state : r.state = states d (loopTimes dur simStep 0) r₀.state r₀.vehicle
  state₀ : r₀.state = if scenario = b!"mixed_scenario" then some (newScenario b!"urban_traffic" (dec 60 1)) else none

theorem outcome {dur : Nat} {d : Draws} (hd : d.Good) {scenario : Bytes} (hs : scenario ∈ scenarioNames)
    (hm : scenario = b!"mixed_scenario" → dur ≤ 499900) : ∃ r₀ r, Outcome dur d scenario r₀ r := by
  obtain ⟨r₀, e, hf, ht, hst, h1, h2, h3, h4, h5, h6, h7⟩ := start_eq hd hs
  have hn : ∀ t, (d.order t).Nodup := fun t => (hd.order t).nodup_iff.2 table_facts.1
  have hc : Calm d (loopTimes dur simStep 0) r₀.state r₀.vehicle := by
    rw [h6]
    split
    · rename_i hmx
      subst hmx
      have hdur := hm rfl
      exact (calm_mixed hd hdur dur 0 (by omega) _ _ rfl hf.sound rfl (first_level hf)).1
    · cases loopTimes dur simStep 0 <;> exact trivial
  obtain ⟨r, e', q1, q2, q3, q4, q5, q6, q7, q8, q9⟩ := loop_eq d hn _ r₀ hf.sound ht hc
  refine ⟨r₀, r, e, ?_, hf, hst, ht, h7, q1, q2, q3, q4.trans h1, ?_, ?_, ?_, ?_, q9, h6⟩
  · unfold experiment
    rw [e]
    exact e'
  · rw [q5, h2]; rfl
  · rw [q6, h3]; rfl
  · rw [q7, h4]; rfl
  · rw [q8, h5]; rfl

theorem Outcome.keys {dur : Nat} {d : Draws} {scenario : Bytes} {r₀ r : Trip} (o : Outcome dur d scenario r₀ r) :
    mkeys r₀.sim.sensors = vssSensors.map VssSensor.path := by
  have : r₀.sim.sensors = vehicleValues r₀.vehicle := o.tied₀
  rw [this]
  have := congrArg (List.map fun x : Bytes × Group × Int => x.1) o.first.table
  simpa [mkeys, vehicleValues, Function.comp_def] using this

theorem Outcome.known {dur : Nat} {d : Draws} {scenario : Bytes} {r₀ r : Trip} (hd : d.Good) (o : Outcome dur d scenario r₀ r) :
    ∀ x ∈ driven d (loopTimes dur simStep 0) r₀.vehicle, x.path ∈ mkeys r₀.sim.sensors := by
  rw [o.keys]
  generalize loopTimes dur simStep 0 = ts
  have : ∀ (ts : List Nat) (ss : List SensorData), ∀ x ∈ driven d ts ss, x.path ∈ vssSensors.map VssSensor.path := by
    intro ts
    induction ts with
    | nil => intro ss x hx; cases hx
    | cons t ts ih =>
      intro ss x hx
      rw [driven, List.mem_append] at hx
      rcases hx with hx | hx
      · exact (hd.order t).mem_iff.1 (taken_time hx).2.1
      · exact ih _ x hx
  exact this ts _

/-! ### How often -/

/-- C81: an experiment takes a reading of a sensor exactly at the times before the end that are multiples of 100 ms and of the
interval of the sensor, in the order of time; its counts and the numbers of its patches follow. -/
theorem calm_updates {dur : Nat} {d : Draws} (hd : d.Good) {scenario : Bytes} (hs : scenario ∈ scenarioNames)
    (hm : scenario = b!"mixed_scenario" → dur ≤ 499900) :
    ∃ r, experiment dur d scenario = .ok (some r) ∧
      r.sim.setPatches.Pairwise (fun a b => a.ts ≤ b.ts) ∧
      (∀ (t : Nat) (p : Bytes), (∃ q ∈ r.sim.setPatches, q.ts = t ∧ q.path = p) ↔
        t < dur ∧ 100 ∣ t ∧ ∃ v ∈ vssSensors, v.path = p ∧ v.interval ∣ (t : Int)) ∧
      r.sim.updates = (vssSensors.map fun v => (dur + Nat.lcm 100 v.interval.natAbs - 1) / Nat.lcm 100 v.interval.natAbs).sum ∧
      r.sim.setPatches.length = r.sim.updates ∧ r.sim.changes + r.sim.unchanged = r.sim.updates ∧
      r.sim.tsonPatches.length = r.sim.changes ∧ r.sim.jsonPatches.length = r.sim.updates + r.sim.changes := by
  obtain ⟨r₀, r, o⟩ := outcome (dur := dur) hd hs hm
  refine ⟨r, o.runs, ?_⟩
  have hi : ∀ x ∈ simSensors, x.interval ≠ 0 := by decide +kernel
  obtain ⟨rs, h1, h2, h3⟩ := C80_times (dur := dur) (step := simStep) (by decide) hi (timedOrder d) (timedOrder_perm hd)
  obtain ⟨rs', h1', h4⟩ := C80_count (dur := dur) (step := simStep) (by decide) hi (timedOrder d) (timedOrder_perm hd)
  obtain rfl : rs = rs' := by rw [h1] at h1'; cases h1'; rfl
  rw [readings_ok _ _ fun t _ x hx => hi x ((timedOrder_perm hd t).mem_iff.1 hx), Res.ok.injEq] at h1
  obtain ⟨c1, c2, c3, c4, c5⟩ := C61_counts isEqual r₀.sim o.sim₀ (driven d (loopTimes dur simStep 0) r₀.vehicle)
  obtain ⟨c6, -⟩ := C61_patches isEqual r₀.sim o.sim₀ (driven d (loopTimes dur simStep 0) r₀.vehicle)
  have ht := driven_times (d := d) (loopTimes dur simStep 0) r₀.vehicle o.first.table
  rw [h1] at ht
  rw [← o.sim] at c1 c2 c3 c4 c5 c6
  have hset : r.sim.setPatches.map (fun q => (q.ts, q.path)) = rs.map fun x => ((x.1 : Int), x.2) := by
    rw [← ht, c6, List.map_map]; rfl
  refine ⟨?_, ?_, ?_, c3, c2.symm, c4, c5⟩
  · have h5 : (r.sim.setPatches.map (fun q => (q.ts, q.path))).Pairwise (fun a b => a.1 ≤ b.1) := by
      rw [hset, List.pairwise_map]
      exact h2.imp fun h => Int.ofNat_le.2 h
    exact (List.pairwise_map (R := fun a b : Int × Bytes => a.1 ≤ b.1)).1 h5
  · intro t p
    have h5 : (∃ q ∈ r.sim.setPatches, q.ts = t ∧ q.path = p) ↔ ((t : Int), p) ∈ r.sim.setPatches.map (fun q => (q.ts, q.path)) := by
      rw [List.mem_map]
      simp only [Prod.mk.injEq]
    rw [h5, hset]
    have h6 : ((t : Int), p) ∈ rs.map (fun x => ((x.1 : Int), x.2)) ↔ (t, p) ∈ rs := by
      rw [List.mem_map]
      constructor
      · rintro ⟨⟨a, b⟩, hx, e⟩
        simp only [Prod.mk.injEq] at e
        obtain ⟨e1, rfl⟩ := e
        obtain rfl : a = t := by omega
        exact hx
      · exact fun h => ⟨_, h, rfl⟩
    rw [h6, h3 t p]
    unfold simSensors simStep
    simp only [List.mem_map]
    constructor
    · rintro ⟨a, b, x, ⟨v, hv, rfl⟩, e⟩; exact ⟨a, b, v, hv, e⟩
    · rintro ⟨a, b, v, hv, e⟩; exact ⟨a, b, _, ⟨v, hv, rfl⟩, e⟩
  · rw [c1, ← List.length_map (f := fun r : Reading => (r.ts, r.path)), ht, List.length_map, h4]
    unfold simSensors
    rw [List.map_map]
    rfl

/-! ### The documents -/

/-- C81: after the experiment the TSON document holds the value kept for every sensor, and the JSON document the value read
last, which is the same or close to it. -/
theorem C81_documents_partial {dur : Nat} {d : Draws} (hd : d.Good) {scenario : Bytes} (hs : scenario ∈ scenarioNames)
    (hm : scenario = b!"mixed_scenario" → dur ≤ 499900) :
    ∃ r, experiment dur d scenario = .ok (some r) ∧ r.vehicle.map SensorData.path = vssSensors.map VssSensor.path ∧
      ∀ s ∈ r.vehicle, valueAt r.sim.tson s.path = some s.value ∧ ∃ j, valueAt r.sim.json s.path = some j ∧ CloseValues s.value j ∧
        (0 < dur → ∃ q, (r.sim.setPatches.filter fun q => decide (q.path = s.path)).getLast? = some q ∧ q.value = j) := by
  obtain ⟨r₀, r, o⟩ := outcome (dur := dur) hd hs hm
  obtain ⟨r', e', -, hup, -⟩ := calm_updates (dur := dur) hd hs hm
  obtain rfl : r = r' := by have := o.runs; rw [e'] at this; cases this; rfl
  have hp : r.vehicle.map SensorData.path = vssSensors.map VssSensor.path := by
    have h1 := congrArg (List.map SensorData.path) (drive_erase d (loopTimes dur simStep 0) r₀.vehicle)
    rw [← o.vehicle] at h1
    have h2 := congrArg (List.map fun x : Bytes × Group × Int => x.1) o.first.table
    simp only [List.map_map] at h1 h2
    exact h1.trans h2
  refine ⟨r, o.runs, hp, fun s hsm => ?_⟩
  have hpm : s.path ∈ vssSensors.map VssSensor.path := by rw [← hp]; exact List.mem_map_of_mem hsm
  have hk : s.path ∈ mkeys r₀.sim.sensors := by rw [o.keys]; exact hpm
  obtain ⟨v₀, hv₀⟩ := mget_isSome.2 hk
  obtain ⟨c, j, h1, h2, h3, h4, h5⟩ := C60_documents isEqual r₀.sim o.sim₀ _ (o.known hd) s.path v₀ hv₀
  rw [← o.sim] at h1 h2 h3
  have ht : r.sim.sensors = vehicleValues r.vehicle := o.tied
  rw [ht, mget_values, sensorOf_mem (by rw [hp]; exact table_facts.1) hsm, Option.map_some, Option.some.injEq] at h1
  subst h1
  refine ⟨h2, j, h3, h5.elim .inl C82_kinds, fun h0 => ?_⟩
  obtain ⟨c6, -⟩ := C61_patches isEqual r₀.sim o.sim₀ (driven d (loopTimes dur simStep 0) r₀.vehicle)
  rw [← o.sim] at c6
  obtain ⟨v, hv, hve⟩ := List.mem_map.1 hpm
  obtain ⟨q, hq, -, hqp⟩ := (hup 0 s.path).2 ⟨h0, by simp, v, hv, hve, by simp⟩
  have hne : (r.sim.setPatches.filter fun q => decide (q.path = s.path)) ≠ [] :=
    List.ne_nil_of_mem (List.mem_filter.2 ⟨hq, by simpa using hqp⟩)
  have hf : (r.sim.setPatches.filter fun q => decide (q.path = s.path)) =
      ((driven d (loopTimes dur simStep 0) r₀.vehicle).filter fun x => decide (x.path = s.path)).map fun x => (⟨b!"replace", x.path, x.value, x.ts⟩ : TPatch) := by
    rw [c6, List.filter_map]; rfl
  rw [hf] at hne ⊢
  rw [h4]
  unfold lastReading
  cases hx : ((driven d (loopTimes dur simStep 0) r₀.vehicle).filter fun x => decide (x.path = s.path)).getLast? with
  | none => rw [List.getLast?_eq_none_iff] at hx; rw [hx] at hne; exact absurd rfl hne
  | some x => exact ⟨⟨b!"replace", x.path, x.value, x.ts⟩, by rw [List.getLast?_map, hx]; rfl, rfl⟩

/-- C81: every value recorded and every value kept for a number lies within the limits of the table. -/
theorem C81_range_partial {dur : Nat} (hdur : dur ≤ 2 ^ 53) {d : Draws} (hd : d.Good) {scenario : Bytes} (hs : scenario ∈ scenarioNames)
    (hm : scenario = b!"mixed_scenario" → dur ≤ 499900) :
    ∃ r, experiment dur d scenario = .ok (some r) ∧ ∀ v ∈ vssSensors, v.type = b!"number" →
      (∀ q ∈ r.sim.setPatches, q.path = v.path → InRange v.min v.max q.value) ∧
      (∀ q ∈ r.sim.tsonPatches, q.path = v.path → InRange v.min v.max q.value) ∧
      (∀ s ∈ r.vehicle, s.path = v.path → InRange v.min v.max s.value) := by
  obtain ⟨r₀, r, o⟩ := outcome (dur := dur) hd hs hm
  refine ⟨r, o.runs, fun v hv hvt => ?_⟩
  have hts : ∀ t ∈ loopTimes dur simStep 0, t < 2 ^ 53 := by
    intro t ht
    have := ((mem_loopTimes (by decide) dur 0 (by omega) t).1 ht).1
    omega
  obtain ⟨a1, a2⟩ := driven_after hd (ss₀ := r₀.vehicle) (loopTimes dur simStep 0) r₀.vehicle hts o.first.sound fun s hs => ⟨s, hs, .start⟩
  have hsafe : ∀ s ∈ r₀.vehicle, v.path = s.path → v.min.IsFin ∧ v.max.IsFin ∧ safe v.min v.max s = true ∧ s.type = b!"number" := by
    intro s hsm e
    have hvs := vehicle_safe scenario hs
    unfold vehicleSafe at hvs
    have hw : s.wipe ∈ (sampleVehicle scenario).map SensorData.wipe := by rw [← o.first.wipe]; exact List.mem_map_of_mem hsm
    obtain ⟨s0, hs0, hsw⟩ := List.mem_map.1 hw
    unfold sampleVehicle at hs0
    split at hvs
    · rename_i ss0 h0
      rw [h0] at hs0
      have h1 := List.all_eq_true.1 (List.all_eq_true.1 hvs s0 hs0) v hv
      have he := erase_of_wipe hsw
      simp only [(erase_fields he).1, e, ne_eq, not_true_eq_false, decide_false, Bool.false_or, hvt, Bool.and_eq_true, decide_eq_true_eq, finite_iff] at h1
      exact ⟨h1.2.1.1, h1.2.1.2, by rw [← safe_erase he]; exact h1.2.2, by rw [← (erase_fields he).2.2.1]; exact h1.1⟩
    · cases hvs
  have hkept : ∀ s ∈ r.vehicle, s.path = v.path → InRange v.min v.max s.value := by
    intro s hsm e
    rw [o.vehicle] at hsm
    obtain ⟨s₀, h0, ha⟩ := a1 s hsm
    have hep : s₀.path = s.path := (erase_fields (after_erase ha)).1.symm
    obtain ⟨f1, f2, f3, f4⟩ := hsafe s₀ h0 (by rw [hep, e])
    exact (after_safe f1 f2 f3 f4 (o.first.fits s₀ h0 v hv (by rw [hep, e]) hvt) ha).2
  have hset : ∀ q ∈ r.sim.setPatches, q.path = v.path → InRange v.min v.max q.value := by
    intro q hq e
    obtain ⟨c6, -⟩ := C61_patches isEqual r₀.sim o.sim₀ (driven d (loopTimes dur simStep 0) r₀.vehicle)
    rw [← o.sim] at c6
    rw [c6] at hq
    obtain ⟨x, hx, rfl⟩ := List.mem_map.1 hq
    dsimp only at e ⊢
    obtain ⟨t, ht, -, s₀, h0, s, ha, hp, hr⟩ := a2 x hx
    have he := after_erase ha
    have hep : s₀.path = v.path := by rw [← e, ← hp]; exact (erase_fields he).1.symm
    obtain ⟨f1, f2, f3, f4⟩ := hsafe s₀ h0 hep.symm
    obtain ⟨-, hv'⟩ := after_safe f1 f2 f3 f4 (o.first.fits s₀ h0 v hv hep.symm hvt) ha
    rw [read_number ((erase_fields he).2.2.1.trans f4) hr]
    refine newNumber_safe (hd.read t x.path) f1 f2 ?_ (by omega) (by have := hts t ht; omega) hv'
    rw [← f3]
    exact safe_erase he
  refine ⟨hset, fun q hq e => ?_, hkept⟩
  have := (C61_patches isEqual r₀.sim o.sim₀ (driven d (loopTimes dur simStep 0) r₀.vehicle)).2
  rw [← o.sim] at this
  exact hset q (this.subset hq) e

/-! ### The records -/

theorem driven_time {d : Draws} : ∀ {ts : List Nat} {ss : List SensorData} {r : Reading}, r ∈ driven d ts ss → ∃ t ∈ ts, r.ts = (t : Int)
  | [], _, _, h => by cases h
  | t :: ts, ss, r, h => by
    rw [driven, List.mem_append] at h
    rcases h with h | h
    · exact ⟨t, by simp, (taken_time h).1⟩
    · obtain ⟨t', h1, h2⟩ := driven_time h
      exact ⟨t', by simp [h1], h2⟩

/-- The patches of some readings. -/
theorem run_patches : ∀ (rs : List Reading) (s : Sim), ∃ ps,
    (s.run isEqual rs).tsonPatches = s.tsonPatches ++ ps ∧ (∀ p ∈ ps, ∃ r ∈ rs, p.ts = r.ts ∧ p.path = r.path) ∧
    (s.run isEqual rs).setPatches = s.setPatches ++ rs.map (fun r => ⟨b!"replace", r.path, r.value, r.ts⟩) ∧
    (s.run isEqual rs).sensors = ps.foldl (fun d p => mset d p.path p.value) s.sensors ∧
    (s.run isEqual rs).jsonPatches.length = s.jsonPatches.length + rs.length + ps.length
  | [], s => ⟨[], by simp [Sim.run], by simp, by simp [Sim.run], rfl, by simp [Sim.run]⟩
  | r :: rs, s => by
    obtain ⟨ps, h1, h2, h3, h4, h5⟩ := run_patches rs (s.step isEqual r)
    rw [run_cons]
    by_cases hch : isEqual ((mget s.sensors r.path).getD .null) r.value = true
    · refine ⟨ps, ?_, fun p hp => ?_, ?_, ?_, ?_⟩
      · rw [h1]; simp [Sim.step, hch]
      · obtain ⟨r', h, e⟩ := h2 p hp
        exact ⟨r', by simp [h], e⟩
      · rw [h3]; simp [Sim.step]
      · rw [h4]; simp [Sim.step, hch]
      · rw [h5]; simp [Sim.step, hch]; omega
    · refine ⟨⟨b!"replace", r.path, r.value, r.ts⟩ :: ps, ?_, fun p hp => ?_, ?_, ?_, ?_⟩
      · rw [h1]; simp [Sim.step, hch]
      · rcases List.mem_cons.1 hp with rfl | hp
        · exact ⟨r, by simp, rfl, rfl⟩
        · obtain ⟨r', h, e⟩ := h2 p hp
          exact ⟨r', by simp [h], e⟩
      · rw [h3]; simp [Sim.step]
      · rw [h4]; simp [Sim.step, hch]
      · rw [h5]; simp [Sim.step, hch]; omega

/-- The patches with a time before `t`. -/
def before (t : Nat) (ps : List TPatch) : List TPatch := ps.filter fun p => decide (p.ts < (t : Int))

theorem before_append {t : Nat} {a b : List TPatch} (ha : ∀ p ∈ a, p.ts < (t : Int)) (hb : ∀ p ∈ b, (t : Int) ≤ p.ts) : before t (a ++ b) = a := by
  unfold before
  rw [List.filter_append, List.filter_eq_self.2 (by simpa using ha), List.filter_eq_nil_iff.2, List.append_nil]
  intro p hp
  have := hb p hp
  simp only [decide_eq_true_eq]
  omega

/-- The state of the patches between two times. -/
structure Between (ts : List Nat) (s : Sim) : Prop where
  tson : ∀ p ∈ s.tsonPatches, ∀ t ∈ ts, p.ts < (t : Int)
  set : ∀ p ∈ s.setPatches, ∀ t ∈ ts, p.ts < (t : Int)
  json : s.jsonPatches.length = s.setPatches.length + s.tsonPatches.length

theorem Between.next {d : Draws} {t : Nat} {ts : List Nat} {ss : List SensorData} {s : Sim} (h : Between (t :: ts) s) (hs : (t :: ts).Pairwise (· < ·)) :
    Between ts (s.run isEqual (taken d t ss (d.order t))) := by
  obtain ⟨ps, h1, h2, h3, -, h5⟩ := run_patches (taken d t ss (d.order t)) s
  rw [List.pairwise_cons] at hs
  refine ⟨?_, ?_, ?_⟩
  · intro p hp t' ht'
    rw [h1, List.mem_append] at hp
    rcases hp with hp | hp
    · exact h.tson p hp t' (by simp [ht'])
    · obtain ⟨r, hr, e, -⟩ := h2 p hp
      rw [e, (taken_time hr).1]
      have := hs.1 t' ht'
      omega
  · intro p hp t' ht'
    rw [h3, List.mem_append] at hp
    rcases hp with hp | hp
    · exact h.set p hp t' (by simp [ht'])
    · obtain ⟨r, hr, rfl⟩ := List.mem_map.1 hp
      dsimp only
      rw [(taken_time hr).1]
      have := hs.1 t' ht'
      omega
  · rw [h1, h3, h5, h.json]
    simp only [List.length_append, List.length_map]
    omega

/-- What the patches before the first of the times are. -/
theorem Between.before {d : Draws} {t : Nat} {ts : List Nat} {ss : List SensorData} {s : Sim} (h : Between (t :: ts) s) (hs : (t :: ts).Pairwise (· < ·)) :
    before t (s.run isEqual (driven d (t :: ts) ss)).tsonPatches = s.tsonPatches ∧ before t (s.run isEqual (driven d (t :: ts) ss)).setPatches = s.setPatches := by
  obtain ⟨ps, h1, h2, h3, -, h5⟩ := run_patches (driven d (t :: ts) ss) s
  rw [List.pairwise_cons] at hs
  have hle : ∀ r ∈ driven d (t :: ts) ss, (t : Int) ≤ r.ts := by
    intro r hr
    obtain ⟨t', ht', e⟩ := driven_time hr
    rw [e]
    rcases List.mem_cons.1 ht' with rfl | ht'
    · omega
    · have := hs.1 t' ht'; omega
  rw [h1, h3]
  refine ⟨before_append (fun p hp => h.tson p hp t (by simp)) fun p hp => ?_, before_append (fun p hp => h.set p hp t (by simp)) fun p hp => ?_⟩
  · obtain ⟨r, hr, e, -⟩ := h2 p hp
    rw [e]; exact hle r hr
  · obtain ⟨r, hr, rfl⟩ := List.mem_map.1 hp
    exact hle r hr

theorem noted_eq (d : Draws) : ∀ (ts : List Nat) (s : Sim) (ss : List SensorData), ts.Pairwise (· < ·) → Between ts s →
    noted d ts s ss = (ts.filter fun t => decide (t % 10000 = 0)).map fun t =>
      (t, (before t (s.run isEqual (driven d ts ss)).setPatches).length + (before t (s.run isEqual (driven d ts ss)).tsonPatches).length,
        (before t (s.run isEqual (driven d ts ss)).tsonPatches).length)
  | [], _, _, _, _ => rfl
  | t :: ts, s, ss, hp, hb => by
    obtain ⟨b1, b2⟩ := hb.before (d := d) (ss := ss) hp
    rw [noted, noted_eq d ts _ _ (List.pairwise_cons.1 hp).2 (hb.next hp), ← run_append]
    have e : taken d t ss (d.order t) ++ driven d ts (afterVisits d t (d.order t) ss) = driven d (t :: ts) ss := rfl
    rw [e]
    by_cases h : t % 10000 = 0
    · rw [if_pos h, List.filter_cons_of_pos (by simpa using h), List.map_cons, b1, b2, hb.json]
      rfl
    · rw [if_neg h, List.filter_cons_of_neg (by simpa using h)]
      rfl

theorem sorted_ext : ∀ {a b : List Nat}, a.Pairwise (· < ·) → b.Pairwise (· < ·) → (∀ x, x ∈ a ↔ x ∈ b) → a = b
  | [], [], _, _, _ => rfl
  | [], y :: _, _, _, h => absurd ((h y).2 (by simp)) List.not_mem_nil
  | x :: _, [], _, _, h => absurd ((h x).1 (by simp)) List.not_mem_nil
  | x :: a, y :: b, ha, hb, h => by
    rw [List.pairwise_cons] at ha hb
    have h1 := (h x).1 (by simp)
    have h2 := (h y).2 (by simp)
    have e : x = y := by
      rcases List.mem_cons.1 h1 with e | h1
      · exact e
      · rcases List.mem_cons.1 h2 with e | h2
        · exact e.symm
        · have := ha.1 y h2
          have := hb.1 x h1
          omega
    subst e
    rw [sorted_ext ha.2 hb.2 fun z => ?_]
    have hz := h z
    rw [List.mem_cons, List.mem_cons] at hz
    constructor
    · intro k
      rcases hz.1 (.inr k) with rfl | k'
      · exact absurd (ha.1 _ k) (Nat.lt_irrefl _)
      · exact k'
    · intro k
      rcases hz.2 (.inr k) with rfl | k'
      · exact absurd (hb.1 _ k) (Nat.lt_irrefl _)
      · exact k'

theorem noted_times (dur : Nat) : (loopTimes dur simStep 0).filter (fun t => decide (t % 10000 = 0)) =
    (List.range ((dur + 9999) / 10000)).map fun k => 10000 * k := by
  refine sorted_ext ((sorted_loopTimes (by decide) dur 0 (by omega)).filter _) ?_ fun x => ?_
  · rw [List.pairwise_map]
    exact List.pairwise_lt_range.imp fun h => by omega
  · rw [List.mem_filter, mem_loopTimes (by decide) dur 0 (by omega), List.mem_map]
    simp only [List.mem_range, decide_eq_true_eq, simStep]
    constructor
    · rintro ⟨⟨h1, k, h2⟩, h3⟩
      exact ⟨x / 10000, by omega, by omega⟩
    · rintro ⟨k, h1, rfl⟩
      exact ⟨⟨by omega, 100 * k, by omega⟩, by omega⟩

/-- C81: the numbers of patches are noted every 10 seconds; those noted for a time are the numbers of patches with a time before
it. -/
theorem calm_vectors {dur : Nat} {d : Draws} (hd : d.Good) {scenario : Bytes} (hs : scenario ∈ scenarioNames)
    (hm : scenario = b!"mixed_scenario" → dur ≤ 499900) :
    ∃ r, experiment dur d scenario = .ok (some r) ∧
      r.times = (List.range ((dur + 9999) / 10000)).map (fun k => 10000 * k) ∧
      r.tsonVec = r.times.map (fun t : Nat => (r.sim.tsonPatches.filter fun p => decide (p.ts < (t : Int))).length) ∧
      r.jsonVec = r.times.map (fun t : Nat => (r.sim.setPatches.filter fun p => decide (p.ts < (t : Int))).length +
        (r.sim.tsonPatches.filter fun p => decide (p.ts < (t : Int))).length) := by
  obtain ⟨r₀, r, o⟩ := outcome (dur := dur) hd hs hm
  refine ⟨r, o.runs, ?_⟩
  have hb : Between (loopTimes dur simStep 0) r₀.sim := by
    obtain ⟨e1, e2, e3, -⟩ := o.sim₀.empty
    refine ⟨?_, ?_, ?_⟩
    · rw [e2]; intro p hp; cases hp
    · rw [e3]; intro p hp; cases hp
    · rw [e1, e2, e3]; rfl
  have hn := noted_eq d (loopTimes dur simStep 0) r₀.sim r₀.vehicle (sorted_loopTimes (by decide) dur 0 (by omega)) hb
  have ht : r.times = (List.range ((dur + 9999) / 10000)).map (fun k => 10000 * k) := by
    rw [o.times, hn, List.map_map, noted_times]
    exact List.map_id _
  refine ⟨ht, ?_, ?_⟩
  · rw [o.tson, hn, List.map_map, ← o.sim, noted_times, ht]
    rfl
  · rw [o.json, hn, List.map_map, ← o.sim, noted_times, ht]
    rfl

/-- The value a sensor keeps after the patches of its changes. -/
def keptAfter (ps : List TPatch) (p : Bytes) (v₀ : Js) : Js :=
  (((ps.filter fun q => decide (q.path = p)).getLast?).map TPatch.value).getD v₀

theorem keptAfter_snoc (ps : List TPatch) (q : TPatch) (p : Bytes) (v₀ : Js) :
    keptAfter (ps ++ [q]) p v₀ = if q.path = p then q.value else keptAfter ps p v₀ := by
  unfold keptAfter
  rw [List.filter_append]
  by_cases h : q.path = p
  · simp [h]
  · simp [h]

theorem kept_fold {p : Bytes} {v₀ : Js} : ∀ (ps qs : List TPatch) (m : List (Bytes × Js)), mget m p = some (keptAfter qs p v₀) →
    mget (ps.foldl (fun d p => mset d p.path p.value) m) p = some (keptAfter (qs ++ ps) p v₀)
  | [], qs, m, h => by rw [List.append_nil]; exact h
  | q :: ps, qs, m, h => by
    have := kept_fold (p := p) (v₀ := v₀) ps (qs ++ [q]) (mset m q.path q.value) (by
      rw [keptAfter_snoc]
      by_cases e : q.path = p
      · rw [if_pos e, ← e, mget_mset_self]
      · rw [if_neg e, mget_mset_ne _ _ (fun k => e k.symm), h])
    rw [List.append_assoc] at this
    exact this

/-- The readings of a time change the values kept in the same way as the sensors. -/
theorem taken_tied (d : Draws) {t : Nat} (hn : (d.order t).Nodup) {s : Sim} {ss : List SensorData} (hs : Sound ss) (ht : s.sensors = vehicleValues ss) :
    (s.run isEqual (taken d t ss (d.order t))).sensors = vehicleValues (afterVisits d t (d.order t) ss) := by
  obtain ⟨r', -, h1, h2, h3, -⟩ := visits_eq d t (d.order t) { vehicle := ss, state := none, sim := s } hn hs ht
  have h1' : r'.sim.sensors = vehicleValues r'.vehicle := h1
  rw [h2, h3] at h1'
  exact h1'

/-- The rows of the times: the values kept are those of the changes before. -/
theorem rowsOf_eq (d : Draws) (hn : ∀ t, (d.order t).Nodup) (ss₀ : List SensorData) :
    ∀ (ts : List Nat) (s : Sim) (ss : List SensorData), ts.Pairwise (· < ·) → Between ts s → Sound ss →
      s.sensors = vehicleValues ss → ss.map SensorData.path = ss₀.map SensorData.path →
      (∀ p v₀, mget (vehicleValues ss₀) p = some v₀ → mget s.sensors p = some (keptAfter s.tsonPatches p v₀)) →
      rowsOf d ts ss = ts.flatMap fun t => keyPaths.filterMap fun p => (sensorOf ss₀ p).map fun x =>
        (⟨p, t, keptAfter (before t (s.run isEqual (driven d ts ss)).tsonPatches) p x.value⟩ : Row)
  | [], _, _, _, _, _, _, _, _ => rfl
  | t :: ts, s, ss, hp, hb, hso, hti, hpa, hke => by
    obtain ⟨b1, -⟩ := hb.before (d := d) (ss := ss) hp
    have e : taken d t ss (d.order t) ++ driven d ts (afterVisits d t (d.order t) ss) = driven d (t :: ts) ss := rfl
    obtain ⟨ps, h1, -, -, h4, -⟩ := run_patches (taken d t ss (d.order t)) s
    have hpa' : (afterVisits d t (d.order t) ss).map SensorData.path = ss₀.map SensorData.path := by
      rw [← hpa]
      have := congrArg (List.map SensorData.path) (afterVisits_erase d t (d.order t) ss)
      simpa [Function.comp_def, SensorData.erase] using this
    have ih := rowsOf_eq d hn ss₀ ts (s.run isEqual (taken d t ss (d.order t))) (afterVisits d t (d.order t) ss) (List.pairwise_cons.1 hp).2 (hb.next hp)
      (hso.of_erase (afterVisits_erase ..)) (taken_tied d (hn t) hso hti) hpa' (fun p v₀ hv => by
        rw [h4, h1]
        exact kept_fold _ _ _ (hke p v₀ hv))
    rw [← run_append, e] at ih
    rw [rowsOf, ih, List.flatMap_cons, b1]
    congr 1
    unfold recordRows
    refine filterMap_same fun p _ => ?_
    have hso' : (sensorOf ss p).map SensorData.path = (sensorOf ss₀ p).map SensorData.path := by
      have f : ∀ l : List SensorData, (sensorOf l p).map SensorData.path = (l.map SensorData.path).find? fun q => decide (q = p) := by
        intro l; rw [List.find?_map]; rfl
      rw [f, f, hpa]
    cases h0 : sensorOf ss₀ p with
    | none =>
      rw [h0] at hso'
      cases hx : sensorOf ss p with
      | none => rfl
      | some x => rw [hx] at hso'; cases hso'
    | some x₀ =>
      rw [h0] at hso'
      cases hx : sensorOf ss p with
      | none => rw [hx] at hso'; cases hso'
      | some x =>
        have hk := hke p x₀.value (by rw [mget_values, h0]; rfl)
        rw [hti, mget_values, hx, Option.map_some, Option.some.injEq] at hk
        simp only [Option.map_some, hk]

/-- C81: the rows of the sensor recorder. At every step there is one for each of the five key paths, with the value the sensor
had before the readings of that time: that of the last change before, or else the first value. -/
theorem C81_rows_partial {dur : Nat} {d : Draws} (hd : d.Good) {scenario : Bytes} (hs : scenario ∈ scenarioNames)
    (hm : scenario = b!"mixed_scenario" → dur ≤ 499900) :
    ∃ ss r, firstVehicle d scenario = .ok ss ∧ experiment dur d scenario = .ok (some r) ∧
      r.rows.map (fun w => (w.time, w.path)) = (loopTimes dur 100 0).flatMap (fun t => keyPaths.map fun p => (t, p)) ∧
      ∀ w ∈ r.rows, ∃ s ∈ ss, s.path = w.path ∧
        w.value = (((r.sim.tsonPatches.filter fun q => decide (q.ts < (w.time : Int))).filter fun q => decide (q.path = w.path)).getLast?.map
          TPatch.value).getD s.value := by
  obtain ⟨r₀, r, o⟩ := outcome (dur := dur) hd hs hm
  have hv : firstVehicle d scenario = .ok r₀.vehicle := by
    obtain ⟨ss, e, -⟩ := first_vehicle hd hs
    have h := o.start
    unfold Trip.start at h
    rw [e] at h ⊢
    simp only [Res.bind] at h
    cases hj : vehicleJson [] (d.jsonOrder (docSensors d ss)) with
    | err => rw [hj] at h; cases h
    | panic => rw [hj] at h; cases h
    | ok j =>
      rw [hj] at h
      simp only at h
      cases ht : vehicleTson [] (d.tsonOrder (docSensors d ss)) with
      | err => rw [ht] at h; cases h
      | panic => rw [ht] at h; cases h
      | ok t =>
        rw [ht] at h
        simp only [Res.map, Res.ok.injEq] at h
        rw [← h]
  refine ⟨r₀.vehicle, r, hv, o.runs, ?_⟩
  have hb : Between (loopTimes dur simStep 0) r₀.sim := by
    obtain ⟨e1, e2, e3, -⟩ := o.sim₀.empty
    refine ⟨?_, ?_, ?_⟩
    · rw [e2]; intro p hp; cases hp
    · rw [e3]; intro p hp; cases hp
    · rw [e1, e2, e3]; rfl
  have hti : r₀.sim.sensors = vehicleValues r₀.vehicle := o.tied₀
  have hpath : r₀.vehicle.map SensorData.path = vssSensors.map VssSensor.path := by
    have := congrArg (List.map fun x : Bytes × Group × Int => x.1) o.first.table
    simpa [Function.comp_def] using this
  have hr := rowsOf_eq d (fun t => (hd.order t).nodup_iff.2 table_facts.1) r₀.vehicle (loopTimes dur simStep 0) r₀.sim r₀.vehicle
    (sorted_loopTimes (by decide) dur 0 (by omega)) hb o.first.sound hti rfl (fun p v₀ h => by
      rw [o.sim₀.empty.2.1, hti]; exact h)
  rw [← o.sim, ← o.rows] at hr
  have hkey : ∀ p ∈ keyPaths, ∃ x, sensorOf r₀.vehicle p = some x := by
    intro p hp
    have hmem : p ∈ vssSensors.map VssSensor.path := by
      have : ∀ p ∈ keyPaths, p ∈ vssSensors.map VssSensor.path := by decide +kernel
      exact this p hp
    rw [← hpath] at hmem
    obtain ⟨x, hx, rfl⟩ := List.mem_map.1 hmem
    exact ⟨x, sensorOf_mem o.first.sound.paths hx⟩
  constructor
  · rw [hr, List.map_flatMap]
    unfold simStep
    congr 1
    funext t
    generalize keyPaths = ks at hkey
    induction ks with
    | nil => rfl
    | cons p ks ih =>
      obtain ⟨x, hx⟩ := hkey p (by simp)
      rw [List.filterMap_cons, hx]
      simp only [Option.map_some, List.map_cons]
      rw [ih fun q hq => hkey q (by simp [hq])]
  · intro w hw
    rw [hr, List.mem_flatMap] at hw
    obtain ⟨t, -, hw⟩ := hw
    obtain ⟨p, -, hw⟩ := List.mem_filterMap.1 hw
    obtain ⟨x, hx, rfl⟩ := Option.map_eq_some_iff.1 hw
    exact ⟨x, (sensorOf_some hx).1, (sensorOf_some hx).2, rfl⟩

/-! ### Violations -/

/-- C81: the mixed scenario never switches in the time the experiment takes (300 seconds), whatever numbers are drawn: the
battery is set to 60 and loses 0.02 every 200 ms, so it is at 29.9999999999957 in the end, while the limit is 10. -/
theorem C81_mixed_fails {d : Draws} (hd : d.Good) :
    ∃ r, experiment simDuration d b!"mixed_scenario" = .ok (some r) ∧ r.transitions = [] ∧
      ∃ s ∈ r.vehicle, s.path = batteryPath ∧ s.value = .num (.fin false 8444249301318461 (-48) (by decide)) := by
  obtain ⟨r₀, r, o⟩ := outcome (dur := simDuration) hd (scenario := b!"mixed_scenario") (by decide) fun _ => by decide
  refine ⟨r, o.runs, o.transitions, ?_⟩
  have hl : Level r.vehicle (battIter ((simDuration + 199) / 200)) := by
    rw [o.vehicle]
    exact level_drive hd (by decide) simDuration 0 (by omega) _ o.first.sound rfl (by decide) (first_level o.first)
  obtain ⟨h, e⟩ := iter_mid 100 (by omega)
  rw [show (simDuration + 199) / 200 = 1400 + 100 from rfl, e] at hl
  obtain ⟨s, hs, h1, h2⟩ := hl
  exact ⟨s, hs, (isBattery_iff.1 h1).1, h2⟩

/-- C81: the first JSON document has the time of the clock (`time.Now().UnixNano()`) for every sensor, while the last one has a
time of the simulation: less than its duration.  The time goes backwards if the clock shows more than that. -/
theorem C81_clock_fails {dur : Nat} (h0 : 0 < dur) {d : Draws} (hd : d.Good) {scenario : Bytes} (hs : scenario ∈ scenarioNames)
    (hm : scenario = b!"mixed_scenario" → dur ≤ 499900) :
    ∃ r₀ r, Trip.start d scenario = .ok r₀ ∧ experiment dur d scenario = .ok (some r) ∧ ∀ v ∈ vssSensors,
      (Js.obj r₀.sim.json).at? (split bDot v.path ++ [b!"timestamp"]) = some (.int (d.clock v.path)) ∧
      ∃ t : Nat, t < dur ∧ (Js.obj r.sim.json).at? (split bDot v.path ++ [b!"timestamp"]) = some (.int t) := by
  obtain ⟨r₀, r, o⟩ := outcome (dur := dur) hd hs hm
  refine ⟨r₀, r, o.start, o.runs, fun v hv => ?_⟩
  have hpath : r₀.vehicle.map SensorData.path = vssSensors.map VssSensor.path := by
    have := congrArg (List.map fun x : Bytes × Group × Int => x.1) o.first.table
    simpa [Function.comp_def] using this
  have hmem : v.path ∈ vssSensors.map VssSensor.path := List.mem_map_of_mem hv
  constructor
  · rw [← hpath] at hmem
    obtain ⟨x, hx, e⟩ := List.mem_map.1 hmem
    rw [← e]
    exact o.stamps x hx
  · obtain ⟨r', e', -, hup, -⟩ := calm_updates (dur := dur) hd hs hm
    obtain rfl : r = r' := by have := o.runs; rw [e'] at this; cases this; rfl
    obtain ⟨c6, -⟩ := C61_patches isEqual r₀.sim o.sim₀ (driven d (loopTimes dur simStep 0) r₀.vehicle)
    rw [← o.sim] at c6
    obtain ⟨q, hq, -, hqp⟩ := (hup 0 v.path).2 ⟨h0, by simp, v, hv, rfl, by simp⟩
    rw [c6] at hq
    obtain ⟨x, hx, rfl⟩ := List.mem_map.1 hq
    have hne : ((driven d (loopTimes dur simStep 0) r₀.vehicle).filter fun y => decide (y.path = v.path)) ≠ [] :=
      List.ne_nil_of_mem (List.mem_filter.2 ⟨hx, by simpa using hqp⟩)
    have hl := List.getLast?_eq_some_getLast hne
    have hlm := (List.mem_filter.1 (List.getLast_mem hne)).1
    obtain ⟨t, ht, e⟩ := driven_time hlm
    refine ⟨t, ((mem_loopTimes (by decide) dur 0 (by omega) t).1 ht).1, ?_⟩
    have hlast : lastTime (driven d (loopTimes dur simStep 0) r₀.vehicle) v.path = some (t : Int) := by
      unfold lastTime
      rw [hl, Option.map_some, e]
    have := ((C60_json_patches_partial isEqual r₀.sim o.sim₀ (by
      rw [o.keys]
      intro p hp
      obtain ⟨w, hw, rfl⟩ := List.mem_map.1 hp
      exact table_facts.2.2.2.2 w hw) _ (o.known hd) v.path).2 t (by rw [o.keys]; exact hmem) hlast).2
    rw [← o.sim] at this
    exact this

/-! ### Examples -/

/-- Draws that are all 0.25, and maps visited in the order of the table. -/
def exDraws : Draws where
  first := (dec 1 4, dec 1 4, dec 1 4)
  switch := fun _ => (dec 1 4, dec 1 4)
  read := fun _ _ => exChoices
  clock := fun _ => 1700000000000000000
  order := fun _ => vssSensors.map VssSensor.path
  jsonOrder := id
  tsonOrder := List.reverse

theorem exDraws_good : exDraws.Good where
  first := ⟨exUnit, exUnit, exUnit⟩
  switch := fun _ => ⟨exUnit, exUnit⟩
  read := fun _ _ => exGood
  order := fun _ => List.Perm.refl _
  json := fun _ => List.Perm.refl _
  tson := fun l => l.reverse_perm

example : ∃ r, experiment 300000 exDraws b!"urban_traffic" = .ok (some r) ∧ r.sim.updates = 34082 := by
  obtain ⟨r, e, -, -, h, -⟩ := calm_updates (dur := 300000) exDraws_good (scenario := b!"urban_traffic") (by decide) (fun h => by cases h)
  exact ⟨r, e, h.trans (by decide +kernel)⟩

example : ∃ r, experiment 250 exDraws b!"battery_charging" = .ok (some r) ∧
    ∀ q ∈ r.sim.tsonPatches, q.path = b!"Vehicle.Speed" → InRange (dec 0 1) (dec 220 1) q.value := by
  obtain ⟨r, e, h⟩ := C81_range_partial (dur := 250) (by decide) exDraws_good (scenario := b!"battery_charging") (by decide) (fun h => by cases h)
  have hv : ∃ v ∈ vssSensors, v.path = b!"Vehicle.Speed" ∧ v.type = b!"number" ∧ v.min = dec 0 1 ∧ v.max = dec 220 1 := by decide +kernel
  obtain ⟨v, hm, e1, e2, e3, e4⟩ := hv
  refine ⟨r, e, fun q hq hp => ?_⟩
  rw [← e3, ← e4]
  exact (h v hm e2).2.1 q hq (hp.trans e1.symm)

example : ∃ r, experiment 300000 exDraws b!"highway_cruising" = .ok (some r) ∧ r.times.length = 30 ∧ r.jsonVec.length = 30 := by
  obtain ⟨r, e, h1, -, h3⟩ := calm_vectors (dur := 300000) exDraws_good (scenario := b!"highway_cruising") (by decide) (fun h => by cases h)
  have : r.times.length = 30 := by rw [h1]; simp
  exact ⟨r, e, this, by rw [h3, List.length_map, this]⟩

example : ∃ r, experiment 12345 exDraws b!"mixed_scenario" = .ok (some r) ∧
    ∀ s ∈ r.vehicle, s.path = b!"Vehicle.Speed" → valueAt r.sim.tson b!"Vehicle.Speed" = some s.value := by
  obtain ⟨r, e, -, h⟩ := C81_documents_partial (dur := 12345) exDraws_good (scenario := b!"mixed_scenario") (by decide) fun _ => by decide
  exact ⟨r, e, fun s hs hp => by rw [← hp]; exact (h s hs).1⟩

example : ∃ r, experiment 250 exDraws b!"highway_cruising" = .ok (some r) ∧ r.rows.length = 15 := by
  obtain ⟨-, r, -, e, h, -⟩ := C81_rows_partial (dur := 250) exDraws_good (scenario := b!"highway_cruising") (by decide) (fun h => by cases h)
  refine ⟨r, e, ?_⟩
  have h1 := congrArg List.length h
  rw [List.length_map] at h1
  rw [h1]
  have : loopTimes 250 100 0 = [0, 100, 200] := by
    rw [loopTimes, if_pos ⟨by decide, by decide⟩, loopTimes, if_pos ⟨by decide, by decide⟩, loopTimes, if_pos ⟨by decide, by decide⟩, loopTimes, if_neg (by decide)]
  rw [this]
  rfl

example : ∃ r₀ r, Trip.start exDraws b!"urban_traffic" = .ok r₀ ∧ experiment 300000 exDraws b!"urban_traffic" = .ok (some r) ∧
    (Js.obj r₀.sim.json).at? [b!"Vehicle", b!"Speed", b!"timestamp"] = some (.int 1700000000000000000) ∧
    ∃ t : Nat, t < 300000 ∧ (Js.obj r.sim.json).at? [b!"Vehicle", b!"Speed", b!"timestamp"] = some (.int t) := by
  obtain ⟨r₀, r, e₀, e, h⟩ := C81_clock_fails (dur := 300000) (by decide) exDraws_good (scenario := b!"urban_traffic") (by decide) (fun h => by cases h)
  have hv : ∃ v ∈ vssSensors, v.path = b!"Vehicle.Speed" := by decide +kernel
  obtain ⟨v, hm, e1⟩ := hv
  have hp : split bDot v.path ++ [b!"timestamp"] = [b!"Vehicle", b!"Speed", b!"timestamp"] := by rw [e1]; decide
  have := h v hm
  rw [hp] at this
  exact ⟨r₀, r, e₀, e, this⟩

example : ∃ r, experiment simDuration exDraws b!"mixed_scenario" = .ok (some r) ∧ r.transitions = [] := by
  obtain ⟨r, e, h, -⟩ := C81_mixed_fails exDraws_good
  exact ⟨r, e, h⟩

end Verif
