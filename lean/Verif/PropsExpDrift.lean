import Verif.ExpLoopDrift
/-
C81, C83: numbers stay within the limits of the table, also after switches of the mixed scenario.
-/
namespace Verif
open F64

/-! ### The clock -/

/-- Every switch comes at least a minute after the one before. -/
structure Clock (j : Nat) (st : Scenario) : Prop where
  cooldown : st.cooldown = 60000
  previous : st.previous = b!"urban_traffic"
  last : st.current = b!"urban_traffic" ∧ 120000 * (j : Int) ≤ st.lastSwitch ∨ st.current = b!"battery_charging" ∧ 120000 * (j : Int) + 60000 ≤ st.lastSwitch

theorem clock_update {j : Nat} {st : Scenario} (h : Clock j st) (o : Option F64) (t : Nat) :
    ((st.update o t).2 = false → Clock j (st.update o t).1) ∧
    ((st.update o t).2 = true → ∃ k, Clock k (st.update o t).1 ∧ 120000 * k ≤ t ∧
      ((st.update o t).1.current = b!"urban_traffic" ∧ k = j + 1 ∨ (st.update o t).1.current = b!"battery_charging" ∧ k = j)) := by
  obtain ⟨cur, prev, bat, last, cd⟩ := st
  obtain ⟨h1, h2, h3⟩ := h
  dsimp only at h1 h2 h3
  subst h1 h2
  have hne : b!"battery_charging" ≠ b!"urban_traffic" := by decide
  unfold Scenario.update
  dsimp only
  split
  · exact ⟨fun _ => ⟨rfl, rfl, h3⟩, fun k => by cases k⟩
  rename_i hc
  unfold Scenario.next
  rcases h3 with ⟨rfl, h4⟩ | ⟨rfl, h4⟩
  · dsimp only
    rw [if_pos rfl]
    split
    · dsimp only
      exact ⟨fun k => (by cases k), fun _ => ⟨j, ⟨rfl, rfl, .inr ⟨rfl, (by show 120000 * (j : Int) + 60000 ≤ (t : Int); omega)⟩⟩, by omega, .inr ⟨rfl, rfl⟩⟩⟩
    · rw [if_pos rfl]
      exact ⟨fun _ => ⟨rfl, rfl, .inl ⟨rfl, h4⟩⟩, fun k => by cases k⟩
  · dsimp only
    rw [if_neg hne, if_pos rfl]
    split
    · dsimp only
      exact ⟨fun k => (by cases k), fun _ => ⟨j + 1, ⟨rfl, rfl, .inl ⟨rfl, by dsimp only; omega⟩⟩, by omega, .inl ⟨rfl, rfl⟩⟩⟩
    · rw [if_pos rfl]
      exact ⟨fun _ => ⟨rfl, rfl, .inr ⟨rfl, h4⟩⟩, fun k => by cases k⟩

/-! ### The loop -/

/-- What holds between two time steps of the mixed scenario. -/
structure Drifting (r : Trip) (j : Nat) : Prop where
  tamed : Tamed r
  held : ∀ s ∈ r.vehicle, Held true j s
  clock : ∃ st, r.state = some st ∧ Clock j st
  bound : j ≤ maxReturns

theorem Drifting.inTable {r : Trip} {j : Nat} (h : Drifting r j) : ∀ s ∈ r.vehicle, HeldIn true j s := fun s hs => ⟨h.tamed.going.listed.entry hs, h.held s hs⟩

theorem switch_held {d : Draws} (hd : d.Good) {t : Nat} (ht : t < 5160000) {r : Trip} {j : Nat} (h : Drifting r j) :
    ∃ r' k, r.switch d t = .ok r' ∧ Drifting r' k ∧ r'.sim = { r.sim with sensors := r'.sim.sensors } := by
  obtain ⟨r', e, g, q⟩ := switch_tame hd (t := t) h.tamed
  have e' := e
  unfold Trip.switch at e
  obtain ⟨st, hs, hcl⟩ := h.clock
  rw [hs] at e
  dsimp only at e
  obtain ⟨c1, c2⟩ := clock_update hcl (batteryLevel r.vehicle) t
  cases hu : st.update (batteryLevel r.vehicle) t with
  | mk st' b =>
    rw [hu] at c1 c2 e
    cases b with
    | false =>
      cases e
      exact ⟨_, j, e', ⟨g, h.held, ⟨st', rfl, c1 rfl⟩, h.bound⟩, q⟩
    | true =>
      dsimp only at e
      obtain ⟨k, k1, k2, k3⟩ := c2 rfl
      have hb : maxReturns = 42 := rfl
      have hk : k ≤ maxReturns := by omega
      cases hx : mixedSettings (d.switch t).1 (d.switch t).2 st'.current r.vehicle with
      | err => rw [hx] at e; cases e
      | panic => rw [hx] at e; cases e
      | ok ss =>
        rw [hx] at e
        cases e
        refine ⟨_, k, e', ⟨g, fun s hsm => ?_, ⟨st', rfl, k1⟩, hk⟩, q⟩
        refine (mixed_held (hd.switch t).1 (hd.switch t).2 (j := j) ?_ h.inTable hx s hsm).2
        rcases k3 with ⟨a, b⟩ | ⟨a, b⟩
        · exact .inl ⟨a, b, by omega⟩
        · exact .inr ⟨a, b, h.bound⟩

/-- The readings recorded lie within the limits of the table. -/
def WithinTable (s : Sim) : Prop := ∀ q ∈ s.setPatches, ∀ v ∈ vssSensors, v.path = q.path → v.type = b!"number" → InRange v.min v.max q.value

theorem loop_held {d : Draws} (hd : d.Good) : ∀ (ts : List Nat) (r : Trip) (j : Nat), (∀ t ∈ ts, t < 5160000) → Drifting r j → WithinTable r.sim →
    ∃ r' k, Trip.loop d ts r = .ok (some r') ∧ Drifting r' k ∧ WithinTable r'.sim
  | [], r, j, _, h, hp => ⟨r, j, rfl, h, hp⟩
  | t :: ts, r, j, ht, h, hp => by
    obtain ⟨r1, k, e1, g1, q1⟩ := switch_held hd (ht t (by simp)) h
    have hlt : t < 2 ^ 53 := by have := ht t (by simp); omega
    have gt : Tied (r1.note t) := g1.tamed.going.tied
    obtain ⟨r2, e2, t2, v2, s2, w2, -⟩ := visits_eq d t (d.order t) (r1.note t) ((hd.order t).nodup_iff.2 table_facts.1) g1.tamed.going.listed.sound gt
    have hs2 : r2.sim = r1.sim.run isEqual (taken d t r1.vehicle (d.order t)) := s2
    have hv2 : r2.vehicle = afterVisits d t (d.order t) r1.vehicle := v2
    have hdr : Drifting r2 k := by
      refine ⟨⟨⟨?_, t2, ?_⟩, ?_⟩, ?_, ?_, g1.bound⟩
      · rw [hv2]
        exact g1.tamed.going.listed.of_erase (afterVisits_erase ..)
      · rw [w2]
        exact g1.tamed.going.modes
      · rw [hv2]
        intro s hs
        unfold afterVisits at hs
        obtain ⟨s0, h0, rfl⟩ := List.mem_map.1 hs
        split
        · exact (tame_read (hd.read t s0.path) (g1.tamed.going.listed.steady s0 h0) (g1.tamed.tame s0 h0) hlt).1
        · exact g1.tamed.tame s0 h0
      · rw [hv2]
        intro s hs
        unfold afterVisits at hs
        obtain ⟨s0, h0, rfl⟩ := List.mem_map.1 hs
        split
        · exact (held_read (hd.read t s0.path) (g1.tamed.going.listed.steady s0 h0) g1.bound (g1.inTable s0 h0) hlt).1.2
        · exact g1.held s0 h0
      · rw [w2]
        exact g1.clock
    have hp2 : WithinTable r2.sim := by
      rw [hs2]
      obtain ⟨ps, -, -, p3, -⟩ := run_patches (taken d t r1.vehicle (d.order t)) r1.sim
      intro q hq v hv e hvt
      rw [p3, List.mem_append] at hq
      rcases hq with hq | hq
      · rw [q1] at hq
        exact hp q hq v hv e hvt
      · obtain ⟨x, hx, rfl⟩ := List.mem_map.1 hq
        obtain ⟨-, -, s, hs, x2, -, x3⟩ := taken_time hx
        dsimp only at e ⊢
        rw [x3]
        exact (held_read (hd.read t x.path) (g1.tamed.going.listed.steady s hs) g1.bound (g1.inTable s hs) hlt).2 v hv (e.trans x2.symm) hvt
    obtain ⟨r', k', e', k1, k2⟩ := loop_held hd ts r2 k (fun t' h' => ht t' (by simp [h'])) hdr hp2
    refine ⟨r', k', ?_, k1, k2⟩
    rw [Trip.loop, Trip.tick, e1]
    show Res.bind (Trip.visits d t (d.order t) (r1.note t)) _ = _
    rw [e2]
    exact e'

/-! ### The beginning -/

def fitsB (lo hi : F64) : Js → Bool
  | .num f => fle lo f && fle f hi
  | _ => false

theorem sample_drift : ((sampleVehicle b!"mixed_scenario").all fun s => vssSensors.all fun v => decide (v.path ≠ s.path) || decide (v.type ≠ b!"number") ||
    decide (v.urban ≠ noisePattern) || (decide (v.path ∉ drawnPaths) && safe (driftLo v 0) (driftHi v 0) s && fitsB (driftLo v 0) (driftHi v 0) s.value)) = true := by
  decide +kernel

theorem start_held {d : Draws} (hd : d.Good) : ∃ r₀, Trip.start d b!"mixed_scenario" = .ok r₀ ∧ Drifting r₀ 0 ∧ WithinTable r₀.sim := by
  have hs : b!"mixed_scenario" ∈ scenarioNames := by decide
  obtain ⟨r₀, e₀, ht⟩ := start_tame hd hs
  obtain ⟨r₀', o⟩ := outcome_zero hd hs
  obtain rfl : r₀ = r₀' := by have := o.start; rw [e₀] at this; cases this; rfl
  refine ⟨r₀, e₀, ⟨ht, fun s hsm v hv e k => ?_, ⟨_, by rw [o.state₀, if_pos rfl], rfl, rfl, .inl ⟨rfl, by decide⟩⟩, by decide⟩, ?_⟩
  · have hvs := vehicle_safe _ hs
    unfold vehicleSafe at hvs
    have hw : s.wipe ∈ (sampleVehicle b!"mixed_scenario").map SensorData.wipe := by rw [← o.first.wipe]; exact List.mem_map_of_mem hsm
    obtain ⟨s0, hs0, hsw⟩ := List.mem_map.1 hw
    have he := erase_of_wipe hsw
    have hd1 := List.all_eq_true.1 (List.all_eq_true.1 sample_drift s0 hs0) v hv
    have hep : s0.path = s.path := (erase_fields he).1
    rw [decide_eq_false (fun q => q (e.trans hep.symm)), Bool.false_or, decide_eq_false (fun q => q k), Bool.false_or] at hd1
    refine ⟨fun hn => ⟨?_, o.first.fits s hsm v hv e k⟩, fun hn => ?_⟩
    · unfold sampleVehicle at hs0
      split at hvs
      · rename_i ss0 h0
        rw [h0] at hs0
        have h1 := List.all_eq_true.1 (List.all_eq_true.1 hvs s0 hs0) v hv
        rw [decide_eq_false (fun q => q (e.trans hep.symm)), Bool.false_or, Bool.and_eq_true, decide_eq_false (p := v.type ≠ _) (fun q => q k), Bool.false_or, Bool.and_eq_true] at h1
        rw [← safe_erase he]
        exact h1.2.2
      · cases hvs
    · rw [decide_eq_false (fun q => q hn), Bool.false_or] at hd1
      simp only [Bool.and_eq_true, decide_eq_true_eq] at hd1
      have hval := (wipe_fields hsw).2.2.1 (by rw [hep, ← e]; exact hd1.1.1)
      refine ⟨?_, .inl (by rw [← safe_erase he]; exact hd1.1.2)⟩
      rw [← hval]
      have h3 := hd1.2
      unfold fitsB at h3
      split at h3
      · rename_i f hf
        rw [hf]
        exact ⟨f, rfl, by simpa using h3⟩
      · cases h3
  · intro q hq
    rw [o.sim₀.empty.2.2.1] at hq
    cases hq

/-! ### The property -/

/-- C81, C83: every number recorded and every number kept lies within the limits of the table, also after the switches of the
mixed scenario; there for up to 86 minutes.  Beyond that it does not hold for the mixed scenario: `C83_range_fails`
(`PropsExpCycle`). -/
theorem C81_range_long_partial {dur : Nat} (hdur : dur ≤ 2 ^ 53) {d : Draws} (hd : d.Good) {scenario : Bytes} (hs : scenario ∈ scenarioNames)
    (hm : scenario = b!"mixed_scenario" → dur ≤ 5160000) :
    ∃ r, experiment dur d scenario = .ok (some r) ∧ ∀ v ∈ vssSensors, v.type = b!"number" →
      (∀ q ∈ r.sim.setPatches, q.path = v.path → InRange v.min v.max q.value) ∧
      (∀ q ∈ r.sim.tsonPatches, q.path = v.path → InRange v.min v.max q.value) ∧
      (∀ s ∈ r.vehicle, s.path = v.path → InRange v.min v.max s.value) := by
  by_cases hmm : scenario = b!"mixed_scenario"
  · subst hmm
    obtain ⟨r₀, r, en⟩ := ended hdur hd hs
    refine ⟨r, en.runs, fun v hv hvt => ?_⟩
    obtain ⟨r₀', e₀, hdr, hw⟩ := start_held hd
    have hdur' := hm rfl
    obtain ⟨r', k, e1, k1, k2⟩ := loop_held hd (loopTimes dur simStep 0) r₀' 0 (fun t h => by have := ((mem_loopTimes (by decide) dur 0 (by omega) t).1 h).1; omega) hdr hw
    have hr := en.runs
    unfold experiment at hr
    rw [e₀] at hr
    obtain rfl : r' = r := by
      change Trip.loop d _ r₀' = _ at hr
      rw [e1] at hr
      cases hr
      rfl
    refine ⟨fun q hq e => k2 q hq v hv e.symm hvt, fun q hq e => k2 q (en.kept.subset hq) v hv e.symm hvt, fun s hsm e => ?_⟩
    obtain ⟨a, b⟩ := k1.held s hsm v hv e.symm hvt
    by_cases hn : v.urban = noisePattern
    · obtain ⟨-, -, g1, g2, -⟩ := (drift_table v hv hvt hn).2.2 k k1.bound
      exact (b hn).1.mono g1 g2
    · exact (a hn).2
  · exact C81_range_partial hdur hd hs fun k => absurd k hmm

/-- A tire whose pressure has reached the limit of the table. -/
def fullTire : SensorData :=
  ⟨b!"Vehicle.Chassis.Axle.Row1.Wheel.Left.Tire.Pressure", .low, .num (dec 4 1), b!"number", 10000, b!"constant", [], 0⟩

/-- C83: a return to traffic makes the noise start from the value of the sensor, not from that of the table: a pressure within its
limits leaves them with the next reading.  Each return adds at most 0.041; that a run gets there is
`C83_range_fails` (`PropsExpCycle`). -/
theorem C83_drift_fails : ∃ v ∈ vssSensors, v.path = fullTire.path ∧ v.group = fullTire.group ∧ v.interval = fullTire.interval ∧ v.type = fullTire.type ∧
    v.charging = fullTire.pattern ∧ InRange v.min v.max fullTire.value ∧
    ∃ s, fullTire.updatePattern vssSensors b!"urban_traffic" = .ok s ∧ ∃ c : Choices, c.Good ∧
      ∃ x, (s.read c 0).map (Option.map Prod.snd) = .ok (some (.num x)) ∧ flt v.max x = true := by
  have hv : ∃ v ∈ vssSensors, v.path = fullTire.path ∧ v.group = fullTire.group ∧ v.interval = fullTire.interval ∧ v.type = fullTire.type ∧
      v.charging = fullTire.pattern ∧ v.min = dec 0 1 ∧ v.max = dec 4 1 := by decide +kernel
  obtain ⟨v, hm, e1, e2, e3, e4, e5, e6, e7⟩ := hv
  have hc : Choices.Good ⟨fun _ => dec 75 100, [], fun _ => dec 0 1⟩ :=
    ⟨fun _ => ⟨by dsimp only; decide +kernel, by dsimp only; decide +kernel⟩, fun _ _ => by dsimp only; decide +kernel⟩
  have hk : (fullTire.updatePattern vssSensors b!"urban_traffic").map (fun s => match s.read ⟨fun _ => dec 75 100, [], fun _ => dec 0 1⟩ 0 with
      | .ok (some (_, .num x)) => flt (dec 4 1) x
      | _ => false) = .ok true := by decide +kernel
  refine ⟨v, hm, e1, e2, e3, e4, e5, ⟨dec 4 1, rfl, by rw [e6]; decide +kernel, by rw [e7]; decide +kernel⟩, ?_⟩
  cases hs : fullTire.updatePattern vssSensors b!"urban_traffic" with
  | err => rw [hs] at hk; cases hk
  | panic => rw [hs] at hk; cases hk
  | ok s =>
    rw [hs] at hk
    simp only [Res.map, Res.ok.injEq] at hk
    refine ⟨s, rfl, _, hc, ?_⟩
    split at hk
    · rename_i x hx
      exact ⟨x, by rw [hx]; rfl, by rw [e7]; exact hk⟩
    · cases hk

/-! ### Examples -/

/-- An hour of the mixed scenario, well after its first switch. -/
example : ∃ r, experiment 3600000 exDraws b!"mixed_scenario" = .ok (some r) ∧
    ∀ s ∈ r.vehicle, s.path = tempPath → InRange (dec (-20) 1) (dec 80 1) s.value := by
  obtain ⟨r, e, h⟩ := C81_range_long_partial (dur := 3600000) (by decide) exDraws_good (scenario := b!"mixed_scenario") (by decide) (fun _ => by decide)
  have hv : ∃ v ∈ vssSensors, v.path = tempPath ∧ v.type = b!"number" ∧ v.min = dec (-20) 1 ∧ v.max = dec 80 1 := by decide +kernel
  obtain ⟨v, hm, e1, e2, e3, e4⟩ := hv
  exact ⟨r, e, fun s hs hp => by rw [← e3, ← e4]; exact (h v hm e2).2.2 s hs (hp.trans e1.symm)⟩

end Verif
