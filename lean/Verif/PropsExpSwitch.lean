import Verif.ExpLoopSwitch
/-
C81: experiments of any duration, and what a switch of the mixed scenario does.
-/
namespace Verif
open F64

/-! ### How often -/

/-- C81: an experiment of any duration ends, in any scenario and whatever is drawn.  It takes a reading of a sensor exactly at
the times before the end that are multiples of 100 ms and of the interval of the sensor, in the order of time; its counts and the
numbers of its patches follow. -/
theorem C81_updates {dur : Nat} {d : Draws} (hd : d.Good) {scenario : Bytes} (hs : scenario ∈ scenarioNames) :
    ∃ r, experiment dur d scenario = .ok (some r) ∧
      r.sim.setPatches.Pairwise (fun a b => a.ts ≤ b.ts) ∧
      (∀ (t : Nat) (p : Bytes), (∃ q ∈ r.sim.setPatches, q.ts = t ∧ q.path = p) ↔
        t < dur ∧ 100 ∣ t ∧ ∃ v ∈ vssSensors, v.path = p ∧ v.interval ∣ (t : Int)) ∧
      r.sim.updates = (vssSensors.map fun v => (dur + Nat.lcm 100 v.interval.natAbs - 1) / Nat.lcm 100 v.interval.natAbs).sum ∧
      r.sim.setPatches.length = r.sim.updates ∧ r.sim.changes + r.sim.unchanged = r.sim.updates ∧
      r.sim.tsonPatches.length = r.sim.changes ∧ r.sim.jsonPatches.length = r.sim.updates + r.sim.changes := by
  obtain ⟨r, e, -, hc, ht, -⟩ := any_outcome (dur := dur) hd hs
  refine ⟨r, e, ?_⟩
  have hi : ∀ x ∈ simSensors, x.interval ≠ 0 := by decide +kernel
  obtain ⟨rs, h1, h2, h3⟩ := C80_times (dur := dur) (step := simStep) (by decide) hi (timedOrder d) (timedOrder_perm hd)
  obtain ⟨rs', h1', h4⟩ := C80_count (dur := dur) (step := simStep) (by decide) hi (timedOrder d) (timedOrder_perm hd)
  obtain rfl : rs = rs' := by rw [h1] at h1'; cases h1'; rfl
  rw [readings_ok _ _ fun t _ x hx => hi x ((timedOrder_perm hd t).mem_iff.1 hx), Res.ok.injEq] at h1
  rw [h1] at ht
  refine ⟨?_, ?_, ?_, hc.set, hc.sum, hc.tson, hc.json⟩
  · have h5 : (r.sim.setPatches.map (fun q => (q.ts, q.path))).Pairwise (fun a b => a.1 ≤ b.1) := by
      rw [ht, List.pairwise_map]
      exact h2.imp fun h => Int.ofNat_le.2 h
    exact (List.pairwise_map (R := fun a b : Int × Bytes => a.1 ≤ b.1)).1 h5
  · intro t p
    have h5 : (∃ q ∈ r.sim.setPatches, q.ts = t ∧ q.path = p) ↔ ((t : Int), p) ∈ r.sim.setPatches.map (fun q => (q.ts, q.path)) := by
      rw [List.mem_map]
      simp only [Prod.mk.injEq]
    rw [h5, ht]
    have h6 : ((t : Int), p) ∈ rs.map (fun x => ((x.1 : Int), x.2)) ↔ (t, p) ∈ rs := by
      rw [List.mem_map]
      constructor
      · rintro ⟨⟨a, b⟩, hx, e⟩
        simp only [Prod.mk.injEq] at e
        obtain ⟨e1, rfl⟩ := e
        obtain rfl : a = t := by omega
        exact hx
      · exact fun h => ⟨_, h, rfl⟩
    rw [h6, h3 t p]
    unfold simSensors simStep
    simp only [List.mem_map]
    constructor
    · rintro ⟨a, b, x, ⟨v, hv, rfl⟩, e⟩; exact ⟨a, b, v, hv, e⟩
    · rintro ⟨a, b, v, hv, e⟩; exact ⟨a, b, _, ⟨v, hv, rfl⟩, e⟩
  · have := congrArg List.length ht
    rw [List.length_map, List.length_map, h4] at this
    rw [← hc.set, this]
    unfold simSensors
    rw [List.map_map]
    rfl

/-- C81: the numbers of patches are noted every 10 seconds; those noted for a time are the numbers of patches with a time before
it. -/
theorem C81_vectors {dur : Nat} {d : Draws} (hd : d.Good) {scenario : Bytes} (hs : scenario ∈ scenarioNames) :
    ∃ r, experiment dur d scenario = .ok (some r) ∧
      r.times = (List.range ((dur + 9999) / 10000)).map (fun k => 10000 * k) ∧
      r.tsonVec = r.times.map (fun t : Nat => (r.sim.tsonPatches.filter fun p => decide (p.ts < (t : Int))).length) ∧
      r.jsonVec = r.times.map (fun t : Nat => (r.sim.setPatches.filter fun p => decide (p.ts < (t : Int))).length +
        (r.sim.tsonPatches.filter fun p => decide (p.ts < (t : Int))).length) := by
  obtain ⟨r, e, -, -, -, h1, h2, h3⟩ := any_outcome (dur := dur) hd hs
  exact ⟨r, e, h1.trans (noted_times dur), h3, h2⟩

/-! ### The first switch -/

theorem loop_append (d : Draws) : ∀ (a b : List Nat) (r r' : Trip), Trip.loop d a r = .ok (some r') → Trip.loop d (a ++ b) r = Trip.loop d b r'
  | [], b, r, r', h => by cases h; rfl
  | t :: a, b, r, r', h => by
    rw [List.cons_append, Trip.loop]
    rw [Trip.loop] at h
    cases e : r.tick d t with
    | err => rw [e] at h; cases h
    | panic => rw [e] at h; cases h
    | ok o =>
      rw [e] at h
      cases o with
      | none => cases h
      | some r1 => exact loop_append d a b r1 r' h

theorem loopTimes_snoc {step : Nat} (hs : 0 < step) {dur : Nat} : ∀ (n t : Nat), dur - t ≤ n → t ≤ dur → step ∣ dur - t →
    loopTimes (dur + step) step t = loopTimes dur step t ++ [dur] := by
  intro n
  induction n with
  | zero =>
    intro t hn hle _
    obtain rfl : t = dur := by omega
    rw [loopTimes, if_pos ⟨by omega, hs⟩, loopTimes, if_neg (by omega), loopTimes, if_neg (by omega)]
    rfl
  | succ n ih =>
    intro t hn hle hd
    by_cases h : t = dur
    · subst h
      rw [loopTimes, if_pos ⟨by omega, hs⟩, loopTimes, if_neg (by omega), loopTimes, if_neg (by omega)]
      rfl
    · have hge : step ≤ dur - t := Nat.le_of_dvd (by omega) hd
      rw [loopTimes, if_pos ⟨by omega, hs⟩, ih (t + step) (by omega) (by omega) (by
        rw [← Nat.sub_sub]; exact Nat.dvd_sub hd (Nat.dvd_refl _))]
      conv => rhs; rw [loopTimes, if_pos ⟨by omega, hs⟩]
      rfl

/-- Readings that are equal to the values kept, or of other sensors, leave the value in the TSON document. -/
theorem tson_still {p : Bytes} : ∀ (rs : List Reading) (s : Sim) {v : Js}, mget s.sensors p = some v →
    (∀ r ∈ rs, r.path = p → isEqual v r.value = true) → (∀ r ∈ rs, r.path ≠ p → Incomparable (split bDot r.path) (split bDot p)) →
    mget (s.run isEqual rs).sensors p = some v ∧ valueAt (s.run isEqual rs).tson p = valueAt s.tson p
  | [], _, _, h, _, _ => ⟨h, rfl⟩
  | r :: rs, s, v, h, h1, h2 => by
    rw [run_cons]
    have key : mget (s.step isEqual r).sensors p = some v ∧ valueAt (s.step isEqual r).tson p = valueAt s.tson p := by
      unfold Sim.step
      dsimp only
      by_cases e : r.path = p
      · rw [e, h, Option.getD_some, h1 r (by simp) e]
        exact ⟨h, rfl⟩
      · split
        · exact ⟨by rw [mget_mset_ne _ _ (fun k => e k.symm)]; exact h, (valueAt_update (h2 r (by simp) e) _ _).2⟩
        · exact ⟨h, rfl⟩
    obtain ⟨k1, k2⟩ := tson_still rs (s.step isEqual r) key.1 (fun x hx => h1 x (by simp [hx])) fun x hx => h2 x (by simp [hx])
    exact ⟨k1, k2.trans key.2⟩

/-- The path of the speed. -/
def speedPath : Bytes := b!"Vehicle.Speed"

/-- The settings for charging stop the vehicle; afterwards its speed is constant. -/
theorem charging_speed {u u' : F64} {ss ss' : List SensorData} (h : Listed ss) (e : mixedSettings u u' b!"battery_charging" ss = .ok ss') :
    ∃ s ∈ ss', s.path = speedPath ∧ s.value = .num (dec 0 1) ∧ s.type = b!"number" ∧ s.pattern = b!"constant" ∧ s.interval = 20 := by
  obtain ⟨ss1, e1, h1, h2, h3⟩ := updatePatterns_ok (scenario := b!"battery_charging") (by simp) (ss := ss) fun s hs => h.entry hs
  have hl : Listed ss1 := ⟨h2.trans h.table, h1⟩
  unfold mixedSettings at e
  rw [e1] at e
  simp only [Res.map, Res.ok.injEq] at e
  rw [if_neg (by decide), if_neg (by decide), if_pos trivial] at e
  have hv : ∃ v ∈ vssSensors, v.path = speedPath ∧ v.group = .high ∧ v.interval = 20 ∧ v.type = b!"number" ∧ v.charging = b!"constant" := by decide +kernel
  obtain ⟨v, hv, v1, v2, v3, v4, v5⟩ := hv
  have hm : (v.path, v.group, v.interval, v.type) ∈ ss1.map fun s => (s.path, s.group, s.interval, s.type) := by
    rw [hl.table]
    exact List.mem_map_of_mem (f := fun v : VssSensor => (v.path, v.group, v.interval, v.type)) hv
  obtain ⟨s, hs, es⟩ := List.mem_map.1 hm
  simp only [Prod.mk.injEq] at es
  obtain ⟨es1, es2, es3, es4⟩ := es
  have hpat : s.pattern = b!"constant" := by
    obtain ⟨s0, -, q1, -, w, hw, q2, q3⟩ := h3 s hs
    have f1 := find_entry hv
    have f2 := find_entry hw
    rw [q2, ← q1, es1] at f2
    rw [f1] at f2
    cases f2
    rw [← v5]
    unfold VssSensor.pattern? at q3
    rw [if_neg (by decide), if_neg (by decide), if_pos rfl] at q3
    exact (Option.some.inj q3).symm
  have hk : ∀ (g : Group) (p : Bytes) (f : SensorData → SensorData) (l : List SensorData) (x : SensorData), x ∈ l → ¬ (x.group = g ∧ x.path = p) → x ∈ onSensor g p f l := by
    intro g p f l x hx hn
    exact List.mem_map.2 ⟨x, hx, by rw [if_neg hn]⟩
  refine ⟨s.setValue (.num (dec 0 1)), ?_, es1.trans v1, rfl, es4.trans v4, hpat, es3.trans v3⟩
  rw [← e]
  have hg : (s.setValue (.num (dec 0 1))).group = .high := es2.trans v2
  have hp : (s.setValue (.num (dec 0 1))).path = speedPath := es1.trans v1
  unfold chargingSettings
  iterate 5 refine hk _ _ _ _ _ ?_ (by rw [hg]; rintro ⟨k, -⟩; cases k)
  iterate 2 refine hk _ _ _ _ _ ?_ (by rw [hg]; rintro ⟨k, -⟩; cases k)
  iterate 2 refine hk _ _ _ _ _ ?_ (by rw [hp]; rintro ⟨-, k⟩; exact absurd k (by decide))
  exact List.mem_map.2 ⟨s, hs, by rw [if_pos ⟨es2.trans v2, es1.trans v1⟩]⟩

theorem constant_read {s : SensorData} (hv : s.value = .num (dec 0 1)) (ht : s.type = b!"number") (hp : s.pattern = b!"constant") (c : Choices) (t : Nat) :
    s.seen c t = .num (dec 0 1) := by
  unfold SensorData.seen SensorData.read newValue
  dsimp only
  rw [if_pos ht]
  unfold newNumber
  simp only [hv, hp, if_true, Res.map, Option.map_some]

theorem table_apart {p q : Bytes} (hp : p ∈ vssSensors.map VssSensor.path) (hq : q ∈ vssSensors.map VssSensor.path) (hne : p ≠ q) :
    Incomparable (split bDot p) (split bDot q) := by
  have h := table_facts.2.2.2.1
  have hs := List.pairwise_iff_getElem.1 h
  obtain ⟨i, hi, rfl⟩ := List.getElem_of_mem hp
  obtain ⟨j, hj, rfl⟩ := List.getElem_of_mem hq
  rcases Nat.lt_trichotomy i j with k | k | k
  · exact hs i j hi hj k
  · subst k; exact absurd rfl hne
  · exact (hs j i hj hi k).symm

/-- The step in which the scenario becomes charging. -/
theorem charging_tick {d : Draws} (hd : ∀ t, (d.order t).Nodup) {T : Nat} {r₁ : Trip} {b x : F64} {k : Nat} (hl : Listed r₁.vehicle) (hlev : batteryLevel r₁.vehicle = some b)
    (hst : r₁.state = some ⟨b!"urban_traffic", b!"urban_traffic", x, 0, k⟩) (hb : fle b lowBattery = true) (hT : k ≤ T) (htr : r₁.transitions = []) :
    ∃ ss r, mixedSettings (d.switch T).1 (d.switch T).2 b!"battery_charging" r₁.vehicle = .ok ss ∧ Listed ss ∧ r₁.tick d T = .ok (some r) ∧
      r.vehicle = afterVisits d T (d.order T) ss ∧ r.sim = ({ r₁.sim with sensors := vehicleValues ss }).run isEqual (taken d T ss (d.order T)) ∧
      r.transitions = [⟨T, b!"urban_traffic", b!"battery_charging", b, 1⟩] := by
  obtain ⟨ss, es, hls⟩ := mixedSettings_ok (u := (d.switch T).1) (u' := (d.switch T).2) (scenario := b!"battery_charging") (.inr rfl) hl
  have hupd : Scenario.update ⟨b!"urban_traffic", b!"urban_traffic", x, 0, k⟩ (some b) (T : Int) = (⟨b!"battery_charging", b!"urban_traffic", b, T, k⟩, true) := by
    unfold Scenario.update Scenario.next
    simp only [Option.getD_some, if_true, hb]
    rw [if_neg (by omega), if_neg (by decide)]
  have hsw : ∃ r2, r₁.switch d T = .ok r2 ∧ r2.vehicle = ss ∧ r2.sim = { r₁.sim with sensors := vehicleValues ss } ∧
      r2.transitions = [⟨T, b!"urban_traffic", b!"battery_charging", b, 1⟩] := by
    unfold Trip.switch
    rw [hst]
    dsimp only
    rw [hlev, hupd]
    dsimp only
    rw [es, htr]
    exact ⟨_, rfl, rfl, rfl, rfl⟩
  obtain ⟨r2, hsw, k1, k2, k3⟩ := hsw
  have kt : Tied (r2.note T) := by
    show r2.sim.sensors = vehicleValues r2.vehicle
    rw [k2, k1]
  have ks : Sound (r2.note T).vehicle := by
    show Sound r2.vehicle
    rw [k1]; exact hls.sound
  obtain ⟨r, e, -, v2, q2, -, q3, -⟩ := visits_eq d T (d.order T) (r2.note T) (hd _) ks kt
  have v2' : r.vehicle = afterVisits d T (d.order T) r2.vehicle := v2
  have q2' : r.sim = r2.sim.run isEqual (taken d T r2.vehicle (d.order T)) := q2
  have q3' : r.transitions = r2.transitions := q3
  refine ⟨ss, r, es, hls, ?_, by rw [v2', k1], by rw [q2', k1, k2], by rw [q3', k3]⟩
  unfold Trip.tick
  rw [hsw]
  exact e

/-- The JSON document after readings has the last value read. -/
theorem json_last {p : Bytes} : ∀ (rs : List Reading) (s : Sim) {v : Js}, (∀ r ∈ rs, r.path = p → r.value = v) → (∃ r ∈ rs, r.path = p) →
    (∀ r ∈ rs, r.path ≠ p → Incomparable (split bDot r.path) (split bDot p)) → valueAt (s.run isEqual rs).json p = some v := by
  intro rs
  induction rs with
  | nil => rintro s v - ⟨_, h, -⟩ -; cases h
  | cons r rs ih =>
    intro s v h1 h2 h3
    rw [run_cons]
    by_cases h : ∃ x ∈ rs, x.path = p
    · exact ih _ (fun x hx => h1 x (by simp [hx])) h fun x hx => h3 x (by simp [hx])
    · obtain ⟨x, hx, e⟩ := h2
      have e' : r.path = p := by
        rcases List.mem_cons.1 hx with rfl | hx
        · exact e
        · exact absurd ⟨x, hx, e⟩ h
      have key : valueAt (s.step isEqual r).json p = some v := by
        rw [← e', ← h1 r (by simp) e']
        exact (C58_json_written s.json r.path r.value r.ts).1
      have frame : ∀ (l : List Reading) (s' : Sim), (∀ y ∈ l, Incomparable (split bDot y.path) (split bDot p)) → valueAt (s'.run isEqual l).json p = valueAt s'.json p := by
        intro l
        induction l with
        | nil => intro s' _; rfl
        | cons y l ih' =>
          intro s' hy
          rw [run_cons, ih' _ fun z hz => hy z (by simp [hz])]
          exact (valueAt_update (hy y (by simp)) _ _).1
      rw [frame rs _ fun y hy => h3 y (by simp [hy]) fun k => h ⟨y, hy, k⟩]
      exact key

/-- The step at the time of the first switch. -/
theorem switch_at {d : Draws} (hd : d.Good) {T : Nat} (hT : T = 499900) :
    ∃ r₁ r, experiment T d b!"mixed_scenario" = .ok (some r₁) ∧ experiment (T + simStep) d b!"mixed_scenario" = .ok (some r) ∧
      r.transitions = [⟨T, b!"urban_traffic", b!"battery_charging", .fin false 5629499534210922 (-49) (by decide), 1⟩] ∧
      (∃ s₁ ∈ r₁.vehicle, s₁.path = speedPath ∧ valueAt r₁.sim.tson speedPath = some s₁.value ∧ valueAt r.sim.tson speedPath = some s₁.value) ∧
      (∃ s ∈ r.vehicle, s.path = speedPath ∧ s.value = .num (dec 0 1)) ∧ valueAt r.sim.json speedPath = some (.num (dec 0 1)) := by
  have hmix : b!"mixed_scenario" ∈ scenarioNames := by decide
  obtain ⟨r₀, r₁, o⟩ := outcome (dur := T) hd (scenario := b!"mixed_scenario") hmix fun _ => Nat.le_of_eq hT
  obtain ⟨r₁', e₁, hpaths, hdoc⟩ := C81_documents_partial (dur := T) hd (scenario := b!"mixed_scenario") hmix fun _ => Nat.le_of_eq hT
  obtain rfl : r₁ = r₁' := by have := o.runs; rw [e₁] at this; cases this; rfl
  have hn : ∀ t, (d.order t).Nodup := fun t => (hd.order t).nodup_iff.2 table_facts.1
  have hl₁ : Listed r₁.vehicle := by
    rw [o.vehicle]
    exact (o.first.listed hmix).of_erase (drive_erase d _ _)
  have hlev : batteryLevel r₁.vehicle = some (battIter 2500) := by
    refine level_battery hl₁.sound.paths ?_
    rw [o.vehicle, show 2500 = (T + 199) / 200 by omega]
    exact level_drive hd (by omega) T 0 (by omega) _ o.first.sound rfl (by omega) (first_level o.first)
  obtain ⟨x, hst⟩ : ∃ x, r₁.state = some { newScenario b!"urban_traffic" (dec 60 1) with battery := x } := by
    rw [o.state, o.state₀, if_pos rfl]
    exact (calm_mixed hd (Nat.le_of_eq hT) T 0 (by omega) _ _ rfl o.first.sound rfl (first_level o.first)).2
  obtain ⟨ss, r, es, hls, ht, hv, hsim, htr⟩ := charging_tick hn hl₁ hlev hst iter_2500.2 (T := T) (k := 60000) (by omega) o.transitions
  obtain ⟨s, hsm, s1, s2, s3, s4, s5⟩ := charging_speed hl₁ es
  have hread := fun c t => constant_read s2 s3 s4 c t
  have hso : sensorOf ss speedPath = some s := by rw [← s1]; exact sensorOf_mem hls.sound.paths hsm
  have hdue : dueNow T s := by unfold dueNow; rw [s5]; exact ⟨24995, by omega⟩
  have hpm : speedPath ∈ vssSensors.map VssSensor.path := by decide +kernel
  have hin : ∀ r ∈ taken d T ss (d.order T), r.path ≠ speedPath → Incomparable (split bDot r.path) (split bDot speedPath) := by
    intro x hx hne
    have hm : x.path ∈ vssSensors.map VssSensor.path := (hd.order _).mem_iff.1 (taken_time hx).2.1
    exact table_apart hm hpm hne
  have hval : ∀ r ∈ taken d T ss (d.order T), r.path = speedPath → r.value = .num (dec 0 1) := by
    intro x hx e
    obtain ⟨-, -, y, hy, e1, -, e2⟩ := taken_time hx
    have : y = s := by
      have := sensorOf_mem hls.sound.paths hy
      rw [e1, e, hso] at this
      exact (Option.some.inj this).symm
    rw [e2, this]
    exact hread _ _
  have heq : isEqual (.num (dec 0 1)) (.num (dec 0 1)) = true := by decide +kernel
  refine ⟨r₁, r, o.runs, ?_, ?_, ?_, ?_, ?_⟩
  · have h1 := o.runs
    unfold experiment at h1 ⊢
    rw [o.start] at h1 ⊢
    have h2 := loop_append d (loopTimes T simStep 0) [T] r₀ r₁ h1
    rw [← loopTimes_snoc (by decide) T 0 (by omega) (by omega) ⟨4999, by unfold simStep; omega⟩] at h2
    refine h2.trans ?_
    rw [Trip.loop, ht]
    rfl
  · rw [htr, iter_2500.1]
  · have hp1 : speedPath ∈ r₁.vehicle.map SensorData.path := by rw [hpaths]; exact hpm
    obtain ⟨x₁, hx₁, ex⟩ := List.mem_map.1 hp1
    have h1 := (hdoc x₁ hx₁).1
    rw [ex] at h1
    refine ⟨x₁, hx₁, ex, h1, ?_⟩
    rw [hsim, (tson_still _ _ (v := .num (dec 0 1)) (by rw [mget_values, hso, Option.map_some, s2]) (fun x hx e => by rw [hval x hx e]; exact heq) hin).2]
    exact h1
  · refine ⟨s.next (d.read T s.path) T, ?_, by rw [next_path, s1], ?_⟩
    · rw [hv]
      refine List.mem_map.2 ⟨s, hsm, ?_⟩
      rw [if_pos ⟨by rw [s1]; exact (hd.order _).mem_iff.2 hpm, hdue⟩]
    · rw [next_value (hls.steady s hsm), hread, s2, heq]
      rfl
  · rw [hsim]
    refine json_last _ _ hval ?_ hin
    refine ⟨⟨speedPath, s.seen (d.read T speedPath) T, (T : Nat)⟩, ?_, rfl⟩
    refine List.mem_filterMap.2 ⟨speedPath, (hd.order _).mem_iff.2 hpm, ?_⟩
    rw [hso, Option.bind_some, if_pos hdue]

/-- C81: the first switch.  In the mixed scenario the battery is low for the first time after 2500 readings; at 499900 ms the
scenario becomes `battery_charging`.  The settings for charging set the speed to 0 in the vehicle, not in the documents, and from
then on the speed is constant.  So no patch is ever written for the change: the TSON document keeps the speed the vehicle had
before, while the JSON document and the vehicle have 0. -/
theorem C81_switch {d : Draws} (hd : d.Good) :
    ∃ r₁ r, experiment 499900 d b!"mixed_scenario" = .ok (some r₁) ∧ experiment 500000 d b!"mixed_scenario" = .ok (some r) ∧
      r.transitions = [⟨499900, b!"urban_traffic", b!"battery_charging", .fin false 5629499534210922 (-49) (by decide), 1⟩] ∧
      (∃ s₁ ∈ r₁.vehicle, s₁.path = speedPath ∧ valueAt r₁.sim.tson speedPath = some s₁.value ∧ valueAt r.sim.tson speedPath = some s₁.value) ∧
      (∃ s ∈ r.vehicle, s.path = speedPath ∧ s.value = .num (dec 0 1)) ∧ valueAt r.sim.json speedPath = some (.num (dec 0 1)) :=
  switch_at hd rfl

/-! ### A vehicle at a constant speed -/

/-- Draws that are all 0.5: what is drawn between -1 and 1 is 0. -/
def halfDraws : Draws where
  first := (dec 5 10, dec 5 10, dec 5 10)
  switch := fun _ => (dec 5 10, dec 5 10)
  read := fun _ _ => ⟨fun _ => dec 5 10, [], fun _ => dec 0 1⟩
  clock := fun _ => 1700000000000000000
  order := fun _ => vssSensors.map VssSensor.path
  jsonOrder := id
  tsonOrder := id

theorem half_unit : IsUnit (dec 5 10) := ⟨by decide +kernel, by decide +kernel⟩

theorem half_sin : fle (dec (-1) 1) (dec 0 1) = true ∧ fle (dec 0 1) (dec 1 1) = true := by decide +kernel

theorem halfDraws_good : halfDraws.Good where
  first := ⟨half_unit, half_unit, half_unit⟩
  switch := fun _ => ⟨half_unit, half_unit⟩
  read := fun _ _ => ⟨fun _ => half_unit, fun _ _ => half_sin⟩
  order := fun _ => List.Perm.refl _
  json := fun _ => List.Perm.refl _
  tson := fun _ => List.Perm.refl _

/-- The speed with its settings for traffic. -/
def isSpeed (s : SensorData) : Bool :=
  decide (s.path = speedPath) && decide (s.type = b!"number") && decide (s.pattern = b!"random_walk") &&
    decide (s.param b!"step_size" = dec 2 1) && decide (s.param b!"min" = dec 0 1) && decide (s.param b!"max" = dec 70 1)

/-- The speed is 50. -/
def AtFifty (ss : List SensorData) : Prop := ∃ s ∈ ss, isSpeed s = true ∧ s.value = .num (dec 50 1)

theorem first_fifty : ∃ ss, firstVehicle halfDraws b!"mixed_scenario" = .ok ss ∧ AtFifty ss := by
  have h : (match firstVehicle halfDraws b!"mixed_scenario" with
      | .ok ss => ss.any fun s => isSpeed s && match s.value with | .num f => decide (f = dec 50 1) | _ => false
      | _ => false) = true := by decide +kernel
  split at h
  · rename_i ss e
    obtain ⟨s, hs, h⟩ := List.any_eq_true.1 h
    rw [Bool.and_eq_true] at h
    obtain ⟨h1, h2⟩ := h
    split at h2
    · rename_i f hf
      rw [decide_eq_true_eq] at h2
      exact ⟨ss, e, s, hs, h1, by rw [hf, h2]⟩
    · cases h2
  · cases h

theorem isSpeed_erase {s s' : SensorData} (h : s'.erase = s.erase) : isSpeed s' = isSpeed s := by
  obtain ⟨e1, -, e2, -, e3, e4⟩ := erase_fields h
  unfold isSpeed SensorData.param
  rw [e1, e2, e3, e4]

theorem fifty_seen {s : SensorData} (h : isSpeed s = true) (hv : s.value = .num (dec 50 1)) (t t' : Nat) (p : Bytes) :
    s.seen (halfDraws.read t' p) t = .num (dec 50 1) := by
  unfold isSpeed at h
  simp only [Bool.and_eq_true, decide_eq_true_eq] at h
  obtain ⟨⟨⟨⟨⟨-, h2⟩, h3⟩, h4⟩, h5⟩, h6⟩ := h
  unfold SensorData.seen SensorData.read newValue
  dsimp only
  rw [if_pos h2]
  unfold newNumber SensorData.param
  unfold SensorData.param at h4 h5 h6
  simp only [hv, h3, Res.map, Option.map_some, h4, h5, h6]
  rw [if_neg (by decide), if_neg (by decide), if_neg (by decide), if_neg (by decide), if_pos trivial]
  have : clamp (add (dec 50 1) (mul (spread ((halfDraws.read t' p).u 0)) (dec 2 1))) (dec 0 1) (dec 70 1) = dec 50 1 := by
    show clamp (add (dec 50 1) (mul (spread (dec 5 10)) (dec 2 1))) (dec 0 1) (dec 70 1) = dec 50 1
    decide +kernel
  rw [this]

theorem fifty_drive : ∀ (ts : List Nat) (ss : List SensorData), Sound ss → AtFifty ss → AtFifty (drive halfDraws ts ss)
  | [], _, _, h => h
  | t :: ts, ss, hs, ⟨s, hm, h1, h2⟩ => by
    rw [drive]
    refine fifty_drive ts _ (hs.of_erase (afterVisits_erase ..)) ?_
    by_cases hd : s.path ∈ halfDraws.order t ∧ dueNow t s
    · refine ⟨s.next (halfDraws.read t s.path) t, List.mem_map.2 ⟨s, hm, by rw [if_pos hd]⟩, ?_, ?_⟩
      · rw [isSpeed_erase (next_erase ..)]; exact h1
      · have heq : isEqual (.num (dec 50 1)) (.num (dec 50 1)) = true := by decide +kernel
        rw [next_value (hs.steady s hm), fifty_seen h1 h2, h2, heq]
        rfl
    · exact ⟨s, List.mem_map.2 ⟨s, hm, by rw [if_neg hd]⟩, h1, h2⟩

/-- C81: the documents of the mixed scenario do not agree once it has switched: with draws of 0.5 the vehicle drives at 50 and
stops at 499900 ms, which the TSON document never shows.  (In all scenarios without a switch they agree up to 0.005:
`C81_documents_partial`.) -/
theorem C81_documents_fails : ∃ r, experiment 500000 halfDraws b!"mixed_scenario" = .ok (some r) ∧
    valueAt r.sim.tson speedPath = some (.num (dec 50 1)) ∧ valueAt r.sim.json speedPath = some (.num (dec 0 1)) ∧
    ∃ s ∈ r.vehicle, s.path = speedPath ∧ s.value = .num (dec 0 1) := by
  obtain ⟨r₁, r, e1, e, -, ⟨s₁, hs, hp, -, h1⟩, h2, h3⟩ := C81_switch halfDraws_good
  refine ⟨r, e, ?_, h3, h2⟩
  have hmix : b!"mixed_scenario" ∈ scenarioNames := by decide
  obtain ⟨r₀, r₁', o⟩ := outcome (dur := 499900) halfDraws_good (scenario := b!"mixed_scenario") hmix fun _ => by decide
  obtain rfl : r₁ = r₁' := by have := o.runs; rw [e1] at this; cases this; rfl
  obtain ⟨ss, ef, hf⟩ := first_fifty
  have hv : r₀.vehicle = ss := by
    have h := o.start
    unfold Trip.start at h
    rw [ef] at h
    simp only [Res.bind] at h
    cases hj : vehicleJson [] (halfDraws.jsonOrder (docSensors halfDraws ss)) with
    | err => rw [hj] at h; cases h
    | panic => rw [hj] at h; cases h
    | ok j =>
      rw [hj] at h
      simp only at h
      cases ht : vehicleTson [] (halfDraws.tsonOrder (docSensors halfDraws ss)) with
      | err => rw [ht] at h; cases h
      | panic => rw [ht] at h; cases h
      | ok t => rw [ht] at h; cases h; rfl
  have := fifty_drive (loopTimes 499900 simStep 0) r₀.vehicle o.first.sound (by rw [hv]; exact hf)
  rw [← o.vehicle] at this
  obtain ⟨x, hx, q1, q2⟩ := this
  have hl : Listed r₁.vehicle := by
    rw [o.vehicle]
    exact (o.first.listed hmix).of_erase (drive_erase ..)
  have hpx : x.path = speedPath := by
    unfold isSpeed at q1
    simp only [Bool.and_eq_true, decide_eq_true_eq] at q1
    exact q1.1.1.1.1.1
  have : x = s₁ := by
    have k1 := sensorOf_mem hl.sound.paths hx
    have k2 := sensorOf_mem hl.sound.paths hs
    rw [hpx] at k1
    rw [hp, k1] at k2
    exact Option.some.inj k2
  rw [h1, ← this, q2]

/-! ### Examples -/

example : ∃ r, experiment 3600000 exDraws b!"mixed_scenario" = .ok (some r) ∧ r.sim.updates = 408962 ∧ r.times.length = 360 := by
  obtain ⟨r, e, -, -, h, -⟩ := C81_updates (dur := 3600000) exDraws_good (scenario := b!"mixed_scenario") (by decide)
  obtain ⟨r', e', h', -⟩ := C81_vectors (dur := 3600000) exDraws_good (scenario := b!"mixed_scenario") (by decide)
  obtain rfl : r = r' := by rw [e] at e'; cases e'; rfl
  exact ⟨r, e, h.trans (by decide +kernel), by rw [h']; simp⟩

example : ∃ r, experiment 500000 exDraws b!"mixed_scenario" = .ok (some r) ∧ r.transitions.length = 1 := by
  obtain ⟨-, r, -, e, h, -⟩ := C81_switch exDraws_good
  exact ⟨r, e, by rw [h]; rfl⟩

end Verif
