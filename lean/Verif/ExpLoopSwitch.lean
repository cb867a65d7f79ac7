import Verif.PropsExpLoop
/-
Experiments of any duration: switches of the mixed scenario included.
-/
namespace Verif
open F64

/-! ### The vehicle after a switch -/

/-- What settings leave as it is. -/
def SensorData.kept (s : SensorData) : Bytes × Group × Bytes × Int × Bytes := (s.path, s.group, s.type, s.interval, s.pattern)

theorem setValue_kept (s : SensorData) (v : Js) : (s.setValue v).kept = s.kept := rfl

theorem ifPattern_kept (s : SensorData) (p : Bytes) (ps : List (Bytes × F64)) : (s.ifPattern p ps).kept = s.kept := by
  unfold SensorData.ifPattern
  split <;> rfl

theorem onSensor_kept {g : Group} {p : Bytes} {f : SensorData → SensorData} (hf : ∀ s, (f s).kept = s.kept) {ss : List SensorData}
    {ss' : List (Bytes × Group × Bytes × Int × Bytes)} (h : ss.map SensorData.kept = ss') : (onSensor g p f ss).map SensorData.kept = ss' := by
  rw [← h]
  unfold onSensor
  rw [List.map_map]
  refine List.map_congr_left fun s _ => ?_
  simp only [Function.comp_apply]
  split
  · exact hf s
  · rfl

theorem urban_kept (u : F64) (ss : List SensorData) : (urbanSettings u ss).map SensorData.kept = ss.map SensorData.kept := by
  unfold urbanSettings
  iterate 8 refine onSensor_kept (fun _ => ifPattern_kept _ _ _) ?_
  exact onSensor_kept (fun _ => (ifPattern_kept _ _ _).trans (setValue_kept _ _)) rfl

theorem charging_kept (u u' : F64) (ss : List SensorData) : (chargingSettings u u' ss).map SensorData.kept = ss.map SensorData.kept := by
  unfold chargingSettings
  refine onSensor_kept (fun s => (ifPattern_kept _ _ _).trans ?_) ?_
  · split
    · exact setValue_kept _ _
    · rfl
  refine onSensor_kept (fun _ => (ifPattern_kept _ _ _).trans (setValue_kept _ _)) ?_
  refine onSensor_kept (fun _ => setValue_kept _ _) ?_
  iterate 2 refine onSensor_kept (fun _ => ifPattern_kept _ _ _) ?_
  iterate 5 refine onSensor_kept (fun _ => setValue_kept _ _) ?_
  rfl

/-- A vehicle made from the table whose readings end. -/
structure Listed (ss : List SensorData) : Prop where
  table : ss.map (fun s => (s.path, s.group, s.interval, s.type)) = vssSensors.map fun v => (v.path, v.group, v.interval, v.type)
  steady : ∀ s ∈ ss, Steady s

theorem Listed.paths {ss : List SensorData} (h : Listed ss) : ss.map SensorData.path = vssSensors.map VssSensor.path := by
  have := congrArg (List.map fun x : Bytes × Group × Int × Bytes => x.1) h.table
  simpa [Function.comp_def] using this

theorem Listed.places {ss : List SensorData} (h : Listed ss) :
    ss.map (fun s => (s.path, s.group, s.interval)) = vssSensors.map fun v => (v.path, v.group, v.interval) := by
  have := congrArg (List.map fun x : Bytes × Group × Int × Bytes => (x.1, x.2.1, x.2.2.1)) h.table
  simpa [Function.comp_def] using this

theorem Listed.entry {ss : List SensorData} (h : Listed ss) {s : SensorData} (hs : s ∈ ss) :
    ∃ v ∈ vssSensors, v.path = s.path ∧ v.group = s.group ∧ v.interval = s.interval ∧ v.type = s.type := by
  have : (s.path, s.group, s.interval, s.type) ∈ vssSensors.map fun v => (v.path, v.group, v.interval, v.type) := by
    rw [← h.table]
    exact List.mem_map_of_mem (f := fun s : SensorData => (s.path, s.group, s.interval, s.type)) hs
  obtain ⟨v, hv, e⟩ := List.mem_map.1 this
  simp only [Prod.mk.injEq] at e
  exact ⟨v, hv, e⟩

theorem Listed.sound {ss : List SensorData} (h : Listed ss) : Sound ss where
  paths := by rw [h.paths]; exact table_facts.1
  steady := h.steady
  interval := fun s hs => by
    obtain ⟨v, hv, -, -, e, -⟩ := h.entry hs
    rw [← e]
    exact (table_facts.2.1 v hv).1

theorem Listed.of_erase {ss ss' : List SensorData} (h : Listed ss) (e : ss'.map SensorData.erase = ss.map SensorData.erase) : Listed ss' where
  table := by
    rw [← h.table]
    have := congrArg (List.map fun s : SensorData => (s.path, s.group, s.interval, s.type)) e
    simpa [Function.comp_def, SensorData.erase] using this
  steady := (h.sound.of_erase e).steady

/-- The patterns of the table: noise only for numbers, and no random strings. -/
theorem table_patterns : ∀ v ∈ vssSensors, ∀ p ∈ [v.urban, v.highway, v.charging],
    (p = b!"constant_with_noise" → ∃ f ∈ [numOf v.value], v.value = .num f) ∧ (v.type = b!"string" → p ≠ b!"random_selection") := by
  have h : (vssSensors.all fun v => [v.urban, v.highway, v.charging].all fun p =>
      (decide (p ≠ b!"constant_with_noise") || match v.value with | .num _ => true | _ => false) && (decide (v.type ≠ b!"string") || decide (p ≠ b!"random_selection"))) = true := by
    decide +kernel
  intro v hv p hp
  have h1 := List.all_eq_true.1 (List.all_eq_true.1 h v hv) p hp
  simp only [Bool.and_eq_true, Bool.or_eq_true, decide_eq_true_eq] at h1
  refine ⟨fun e => ?_, fun e => h1.2.resolve_left (fun k => k e)⟩
  have h2 := h1.1.resolve_left (fun k => k e)
  split at h2
  · rename_i f hf
    rw [hf]
    exact ⟨f, by simp [numOf], rfl⟩
  · cases h2

theorem find_entry {v : VssSensor} (hv : v ∈ vssSensors) : (vssSensors.find? fun w => decide (w.path = v.path)) = some v := by
  have hn := table_facts.1
  revert hv hn
  generalize vssSensors = l
  intro hv hn
  induction l with
  | nil => cases hv
  | cons x l ih =>
    rw [List.map_cons, List.nodup_cons] at hn
    rcases List.mem_cons.1 hv with rfl | hm
    · simp
    · rw [List.find?_cons_of_neg, ih hm hn.2]
      have : x.path ≠ v.path := fun e => hn.1 (e ▸ List.mem_map_of_mem hm)
      simpa using this

theorem patternParams_ok {scenario path p : Bytes} {v : VssSensor} {w : Js} (h : p = b!"constant_with_noise" → ∃ f, v.value = .num f) :
    ∃ ps, patternParams scenario path p v w = .ok ps := by
  unfold patternParams
  dsimp only
  by_cases h4 : p = b!"constant_with_noise"
  · subst h4
    obtain ⟨f, hf⟩ := h rfl
    rw [if_neg (by decide), if_neg (by decide), if_neg (by decide), if_pos rfl, hf]
    cases w <;> exact ⟨_, rfl⟩
  · rw [if_neg h4]
    split
    · exact ⟨_, rfl⟩
    split
    · exact ⟨_, rfl⟩
    split
    · exact ⟨_, rfl⟩
    split <;> exact ⟨_, rfl⟩

/-- The patterns of a sensor of the table are set. -/
theorem updatePattern_ok {scenario : Bytes} (hsc : scenario ∈ [b!"urban_traffic", b!"highway_cruising", b!"battery_charging"]) {s : SensorData} {v : VssSensor}
    (hv : v ∈ vssSensors) (e : v.path = s.path) (et : v.type = s.type) :
    ∃ s', s.updatePattern vssSensors scenario = .ok s' ∧ Steady s' ∧ s'.path = s.path ∧ s'.group = s.group ∧ s'.interval = s.interval ∧ s'.type = s.type ∧
      s'.value = s.value ∧ v.pattern? scenario = some s'.pattern := by
  have hp : ∃ p ∈ [v.urban, v.highway, v.charging], v.pattern? scenario = some p := by
    simp only [List.mem_cons, List.not_mem_nil, or_false] at hsc
    rcases hsc with rfl | rfl | rfl
    · exact ⟨v.urban, by simp, by unfold VssSensor.pattern?; rw [if_pos rfl]⟩
    · exact ⟨v.highway, by simp, by unfold VssSensor.pattern?; rw [if_neg (by decide), if_pos rfl]⟩
    · exact ⟨v.charging, by simp, by unfold VssSensor.pattern?; rw [if_neg (by decide), if_neg (by decide), if_pos rfl]⟩
  obtain ⟨p, hpm, hp⟩ := hp
  obtain ⟨h1, h2⟩ := table_patterns v hv p hpm
  obtain ⟨ps, hps⟩ := patternParams_ok (scenario := scenario) (path := s.path) (w := s.value) (fun k => by obtain ⟨f, -, hf⟩ := h1 k; exact ⟨f, hf⟩)
  refine ⟨{ s with pattern := p, params := ps }, ?_, ?_, rfl, rfl, rfl, rfl, rfl, hp⟩
  · unfold SensorData.updatePattern
    rw [← e, find_entry hv]
    dsimp only
    rw [hp]
    dsimp only
    rw [e, hps]
    rfl
  · by_cases hst : s.type = b!"string"
    · exact .inr (h2 (et.trans hst))
    · exact .inl hst

theorem updatePatterns_ok {scenario : Bytes} (hsc : scenario ∈ [b!"urban_traffic", b!"highway_cruising", b!"battery_charging"]) :
    ∀ {ss : List SensorData}, (∀ s ∈ ss, ∃ v ∈ vssSensors, v.path = s.path ∧ v.group = s.group ∧ v.interval = s.interval ∧ v.type = s.type) →
    ∃ ss', updatePatterns vssSensors scenario ss = .ok ss' ∧ (∀ s ∈ ss', Steady s) ∧
      ss'.map (fun s => (s.path, s.group, s.interval, s.type)) = ss.map (fun s => (s.path, s.group, s.interval, s.type)) ∧
      ∀ s' ∈ ss', ∃ s ∈ ss, s'.path = s.path ∧ s'.value = s.value ∧ ∃ v ∈ vssSensors, v.path = s.path ∧ v.pattern? scenario = some s'.pattern
  | [], _ => ⟨[], rfl, by simp, rfl, by simp⟩
  | s :: ss, h => by
    obtain ⟨v, hv, e1, -, -, e2⟩ := h s (by simp)
    obtain ⟨s', h1, h2, h3, h4, h5, h6, h7, h8⟩ := updatePattern_ok hsc hv e1 e2
    obtain ⟨ss', k1, k2, k3, k4⟩ := updatePatterns_ok hsc (ss := ss) fun x hx => h x (by simp [hx])
    refine ⟨s' :: ss', by rw [updatePatterns, h1, k1]; rfl, ?_, ?_, ?_⟩
    · intro x hx
      rcases List.mem_cons.1 hx with rfl | hx
      · exact h2
      · exact k2 x hx
    · rw [List.map_cons, List.map_cons, k3, h3, h4, h5, h6]
    · intro x hx
      rcases List.mem_cons.1 hx with rfl | hx
      · exact ⟨s, by simp, h3, h7, v, hv, e1, h8⟩
      · obtain ⟨y, hy, k⟩ := k4 x hx
        exact ⟨y, by simp [hy], k⟩

theorem Listed.of_kept {ss ss' : List SensorData} (h : Listed ss) (e : ss'.map SensorData.kept = ss.map SensorData.kept) : Listed ss' where
  table := by
    rw [← h.table]
    have := congrArg (List.map fun x : Bytes × Group × Bytes × Int × Bytes => (x.1, x.2.1, x.2.2.2.1, x.2.2.1)) e
    simpa [Function.comp_def, SensorData.kept] using this
  steady := fun s' hs' => by
    have : s'.kept ∈ ss.map SensorData.kept := by rw [← e]; exact List.mem_map_of_mem hs'
    obtain ⟨s, hs, k⟩ := List.mem_map.1 this
    simp only [SensorData.kept, Prod.mk.injEq] at k
    have := h.steady s hs
    unfold Steady at this ⊢
    rw [← k.2.2.1, ← k.2.2.2.2]
    exact this

/-- The settings of a switch can be applied. -/
theorem mixedSettings_ok {u u' : F64} {scenario : Bytes} (hsc : scenario = b!"urban_traffic" ∨ scenario = b!"battery_charging") {ss : List SensorData} (h : Listed ss) :
    ∃ ss', mixedSettings u u' scenario ss = .ok ss' ∧ Listed ss' := by
  obtain ⟨ss1, e1, h1, h2, -⟩ := updatePatterns_ok (scenario := scenario) (by rcases hsc with rfl | rfl <;> simp) (ss := ss) fun s hs => h.entry hs
  have hl : Listed ss1 := ⟨h2.trans h.table, h1⟩
  unfold mixedSettings
  rw [e1]
  refine ⟨_, rfl, ?_⟩
  rcases hsc with rfl | rfl
  · dsimp only
    rw [if_pos rfl]
    exact hl.of_kept (urban_kept _ _)
  · dsimp only
    rw [if_neg (by decide), if_neg (by decide), if_pos rfl]
    exact hl.of_kept (charging_kept _ _ _)

/-! ### The loop -/

/-- The mixed scenario is in traffic or charging. -/
def Modes (st : Scenario) : Prop := (st.current = b!"urban_traffic" ∨ st.current = b!"battery_charging") ∧ st.previous = b!"urban_traffic"

theorem modes_next {st : Scenario} (h : Modes st) : Modes st.next := by
  obtain ⟨h1, h2⟩ := h
  have hne : b!"battery_charging" ≠ b!"urban_traffic" := by decide
  unfold Scenario.next
  rcases h1 with h1 | h1
  · rw [if_pos h1]
    split
    · exact ⟨.inr rfl, h1⟩
    · exact ⟨.inl h1, h2⟩
  · rw [if_neg (fun k => hne (h1.symm.trans k)), if_pos h1]
    split
    · exact ⟨.inl h2, h2⟩
    · exact ⟨.inr h1, h2⟩

theorem modes_update {st : Scenario} (h : Modes st) (o : Option F64) (t : Int) : Modes (st.update o t).1 := by
  unfold Scenario.update
  dsimp only
  have h' : Modes { st with battery := o.getD st.battery } := h
  split
  · exact h'
  · split
    · exact modes_next h'
    · exact modes_next h'

/-- What holds between two time steps. -/
structure Going (r : Trip) : Prop where
  listed : Listed r.vehicle
  tied : Tied r
  modes : ∀ st, r.state = some st → Modes st

theorem switch_any {d : Draws} {t : Nat} {r : Trip} (h : Going r) :
    ∃ r', r.switch d t = .ok r' ∧ Going r' ∧ r'.sim = { r.sim with sensors := r'.sim.sensors } ∧ r'.times = r.times ∧ r'.jsonVec = r.jsonVec ∧ r'.tsonVec = r.tsonVec := by
  unfold Trip.switch
  cases hs : r.state with
  | none => exact ⟨r, rfl, h, rfl, rfl, rfl, rfl⟩
  | some st =>
    dsimp only
    have hm := modes_update (h.modes st hs) (batteryLevel r.vehicle) t
    cases hu : st.update (batteryLevel r.vehicle) t with
    | mk st' b =>
      rw [hu] at hm
      cases b with
      | false => exact ⟨_, rfl, ⟨h.listed, h.tied, fun x hx => by cases hx; exact hm⟩, rfl, rfl, rfl, rfl⟩
      | true =>
        obtain ⟨ss, e, hl⟩ := mixedSettings_ok (u := (d.switch t).1) (u' := (d.switch t).2) hm.1 h.listed
        dsimp only
        rw [e]
        exact ⟨_, rfl, ⟨hl, rfl, fun x hx => by cases hx; exact hm⟩, rfl, rfl, rfl, rfl⟩

/-- The counters agree with the patches. -/
structure Counts (s : Sim) : Prop where
  set : s.setPatches.length = s.updates
  sum : s.changes + s.unchanged = s.updates
  tson : s.tsonPatches.length = s.changes
  json : s.jsonPatches.length = s.updates + s.changes

theorem Counts.run {s : Sim} (h : Counts s) : ∀ rs : List Reading, Counts (s.run isEqual rs) := by
  intro rs
  induction rs generalizing s with
  | nil => exact h
  | cons r rs ih =>
    rw [run_cons]
    refine ih ⟨?_, ?_, ?_, ?_⟩
    · have := h.set; simp [Sim.step, this]
    · have := h.sum; simp only [Sim.step]; split <;> omega
    · have := h.tson; simp only [Sim.step]; split <;> simp [this]
    · have := h.json; simp only [Sim.step]; split <;> simp <;> omega

/-- One time step, whether there is a switch or not. -/
theorem tick_any {d : Draws} (hd : ∀ t, (d.order t).Nodup) {t : Nat} {r : Trip} (h : Going r) :
    ∃ r' ss ps, r.tick d t = .ok (some r') ∧ Going r' ∧ Listed ss ∧ (Counts r.sim → Counts r'.sim) ∧
      r'.sim.setPatches = r.sim.setPatches ++ (taken d t ss (d.order t)).map (fun x => ⟨b!"replace", x.path, x.value, x.ts⟩) ∧
      r'.sim.tsonPatches = r.sim.tsonPatches ++ ps ∧ (∀ p ∈ ps, p.ts = t) ∧
      r'.times = r.times ++ (if t % 10000 = 0 then [t] else []) ∧
      r'.jsonVec = r.jsonVec ++ (if t % 10000 = 0 then [r.sim.jsonPatches.length] else []) ∧
      r'.tsonVec = r.tsonVec ++ (if t % 10000 = 0 then [r.sim.tsonPatches.length] else []) := by
  obtain ⟨r1, e1, g1, q1, q2, q3, q4⟩ := switch_any (d := d) (t := t) h
  have gt : Tied (r1.note t) := g1.tied
  obtain ⟨r2, e2, t2, v2, s2, w2, -, k3, k4, k5, -⟩ := visits_eq d t (d.order t) (r1.note t) (hd t) g1.listed.sound gt
  obtain ⟨ps, h1, h2, h3, -⟩ := run_patches (taken d t r1.vehicle (d.order t)) r1.sim
  have hs2 : r2.sim = r1.sim.run isEqual (taken d t r1.vehicle (d.order t)) := s2
  refine ⟨r2, r1.vehicle, ps, by unfold Trip.tick; rw [e1]; exact e2, ⟨?_, t2, ?_⟩, g1.listed, ?_, ?_, ?_, ?_, ?_, ?_, ?_⟩
  · rw [v2]
    exact g1.listed.of_erase (afterVisits_erase ..)
  · rw [w2]
    exact g1.modes
  · intro hc
    rw [hs2]
    refine Counts.run ?_ _
    rw [q1]
    exact ⟨hc.set, hc.sum, hc.tson, hc.json⟩
  · rw [hs2, h3, q1]
  · rw [hs2, h1, q1]
  · intro p hp
    obtain ⟨x, hx, e, -⟩ := h2 p hp
    rw [e, (taken_time hx).1]
  · rw [k3]
    unfold Trip.note
    dsimp only
    split
    · rw [q2]
    · rw [q2, List.append_nil]
  · rw [k4]
    unfold Trip.note
    dsimp only
    split
    · rw [q3, q1]
    · rw [q3, List.append_nil]
  · rw [k5]
    unfold Trip.note
    dsimp only
    split
    · rw [q4, q1]
    · rw [q4, List.append_nil]

theorem loop_any {d : Draws} (hd : ∀ t, (d.order t).Nodup) : ∀ (ts : List Nat) (r : Trip), ts.Pairwise (· < ·) → Going r → Counts r.sim → Between ts r.sim →
    ∃ r' A B, Trip.loop d ts r = .ok (some r') ∧ Going r' ∧ Counts r'.sim ∧
      r'.sim.setPatches = r.sim.setPatches ++ A ∧ r'.sim.tsonPatches = r.sim.tsonPatches ++ B ∧
      A.map (fun q => (q.ts, q.path)) =
        (ts.flatMap fun t => ((timedOrder d t).filter fun x => decide (x.interval.natAbs ∣ t)).map fun x => (t, x.path)).map (fun x => ((x.1 : Int), x.2)) ∧
      (∀ p ∈ B, ∃ t ∈ ts, p.ts = (t : Int)) ∧
      r'.times = r.times ++ ts.filter (fun t => decide (t % 10000 = 0)) ∧
      r'.jsonVec = r.jsonVec ++ (ts.filter fun t => decide (t % 10000 = 0)).map (fun t => (before t r'.sim.setPatches).length + (before t r'.sim.tsonPatches).length) ∧
      r'.tsonVec = r.tsonVec ++ (ts.filter fun t => decide (t % 10000 = 0)).map (fun t => (before t r'.sim.tsonPatches).length) := by
  intro ts
  induction ts with
  | nil =>
    intro r _ hg hc _
    exact ⟨r, [], [], rfl, hg, hc, by simp, by simp, rfl, by simp, by simp, by simp, by simp⟩
  | cons t ts ih =>
    intro r hp hg hc hb
    obtain ⟨r1, ss, ps, e1, g1, hl, c1, p1, p2, p3, p4, p5, p6⟩ := tick_any hd (t := t) hg
    have hp' := List.pairwise_cons.1 hp
    have hb1 : Between ts r1.sim := by
      refine ⟨?_, ?_, ?_⟩
      · intro p hpm t' ht'
        rw [p2, List.mem_append] at hpm
        rcases hpm with hpm | hpm
        · exact hb.tson p hpm t' (by simp [ht'])
        · rw [p3 p hpm]
          have := hp'.1 t' ht'
          omega
      · intro p hpm t' ht'
        rw [p1, List.mem_append] at hpm
        rcases hpm with hpm | hpm
        · exact hb.set p hpm t' (by simp [ht'])
        · obtain ⟨x, hx, rfl⟩ := List.mem_map.1 hpm
          dsimp only
          rw [(taken_time hx).1]
          have := hp'.1 t' ht'
          omega
      · have := c1 hc
        rw [this.json, this.set, this.tson]
    obtain ⟨r', A, B, e2, g2, c2, a1, a2, a3, a4, a5, a6, a7⟩ := ih r1 hp'.2 g1 (c1 hc) hb1
    have hA : ∀ p ∈ A, ∃ t' ∈ ts, p.ts = (t' : Int) := by
      intro p hpm
      have : (p.ts, p.path) ∈ A.map (fun q => (q.ts, q.path)) := List.mem_map_of_mem (f := fun q : TPatch => (q.ts, q.path)) hpm
      rw [a3] at this
      obtain ⟨⟨a, b⟩, hx, e⟩ := List.mem_map.1 this
      obtain ⟨t', ht', hx⟩ := List.mem_flatMap.1 hx
      obtain ⟨y, -, e'⟩ := List.mem_map.1 hx
      simp only [Prod.mk.injEq] at e e'
      exact ⟨t', ht', by rw [← e.1, ← e'.1]⟩
    have hlow : ∀ p : TPatch, (∃ t' ∈ ts, p.ts = (t' : Int)) → (t : Int) ≤ p.ts := by
      rintro p ⟨t', ht', e⟩
      have := hp'.1 t' ht'
      omega
    have b1 : before t r'.sim.tsonPatches = r.sim.tsonPatches := by
      rw [a2, p2, List.append_assoc]
      refine before_append (fun p hpm => hb.tson p hpm t (by simp)) fun p hpm => ?_
      rcases List.mem_append.1 hpm with hpm | hpm
      · rw [p3 p hpm]; omega
      · exact hlow p (a4 p hpm)
    have b2 : before t r'.sim.setPatches = r.sim.setPatches := by
      rw [a1, p1, List.append_assoc]
      refine before_append (fun p hpm => hb.set p hpm t (by simp)) fun p hpm => ?_
      rcases List.mem_append.1 hpm with hpm | hpm
      · obtain ⟨x, hx, rfl⟩ := List.mem_map.1 hpm
        dsimp only
        rw [(taken_time hx).1]; omega
      · exact hlow p (hA p hpm)
    refine ⟨r', _, _, ?_, g2, c2, by rw [a1, p1, List.append_assoc], by rw [a2, p2, List.append_assoc], ?_, ?_, ?_, ?_, ?_⟩
    · rw [Trip.loop, e1]
      exact e2
    · rw [List.map_append, a3, List.flatMap_cons, List.map_append]
      congr 1
      unfold timedOrder
      rw [← taken_times hl.places, List.map_map, List.map_map]
      refine List.map_congr_left fun x hx => ?_
      simp [(taken_time hx).1]
    · intro p hpm
      rcases List.mem_append.1 hpm with hpm | hpm
      · exact ⟨t, by simp, p3 p hpm⟩
      · obtain ⟨t', ht', e⟩ := a4 p hpm
        exact ⟨t', by simp [ht'], e⟩
    · rw [a5, p4, List.append_assoc]
      by_cases h : t % 10000 = 0
      · rw [if_pos h, List.filter_cons_of_pos (by simpa using h)]; rfl
      · rw [if_neg h, List.filter_cons_of_neg (by simpa using h)]; rfl
    · rw [a6, p5, List.append_assoc]
      by_cases h : t % 10000 = 0
      · rw [if_pos h, List.filter_cons_of_pos (by simpa using h), List.map_cons, b1, b2, hb.json]; rfl
      · rw [if_neg h, List.filter_cons_of_neg (by simpa using h)]; rfl
    · rw [a7, p6, List.append_assoc]
      by_cases h : t % 10000 = 0
      · rw [if_pos h, List.filter_cons_of_pos (by simpa using h), List.map_cons, b1]; rfl
      · rw [if_neg h, List.filter_cons_of_neg (by simpa using h)]; rfl

theorem sample_types : ∀ scenario ∈ scenarioNames,
    (sampleVehicle scenario).map (fun s => (s.path, s.group, s.interval, s.type)) = vssSensors.map fun v => (v.path, v.group, v.interval, v.type) := by
  decide +kernel

theorem FirstVehicle.listed {scenario : Bytes} (hs : scenario ∈ scenarioNames) {ss : List SensorData} (h : FirstVehicle scenario ss) : Listed ss where
  table := by
    rw [← sample_types scenario hs]
    have := congrArg (List.map fun s : SensorData => (s.path, s.group, s.interval, s.type)) h.wipe
    simpa [Function.comp_def, SensorData.wipe] using this
  steady := h.sound.steady

/-- The end of an experiment of any duration. -/
theorem any_outcome {dur : Nat} {d : Draws} (hd : d.Good) {scenario : Bytes} (hs : scenario ∈ scenarioNames) :
    ∃ r, experiment dur d scenario = .ok (some r) ∧ Going r ∧ Counts r.sim ∧
      r.sim.setPatches.map (fun q => (q.ts, q.path)) =
        ((loopTimes dur simStep 0).flatMap fun t => ((timedOrder d t).filter fun x => decide (x.interval.natAbs ∣ t)).map fun x => (t, x.path)).map (fun x => ((x.1 : Int), x.2)) ∧
      r.times = (loopTimes dur simStep 0).filter (fun t => decide (t % 10000 = 0)) ∧
      r.jsonVec = r.times.map (fun t => (before t r.sim.setPatches).length + (before t r.sim.tsonPatches).length) ∧
      r.tsonVec = r.times.map (fun t => (before t r.sim.tsonPatches).length) := by
  obtain ⟨r₀, e, hf, ht, hst, h1, h2, h3, h4, h5, h6, h7⟩ := start_eq hd hs
  have hn : ∀ t, (d.order t).Nodup := fun t => (hd.order t).nodup_iff.2 table_facts.1
  obtain ⟨z1, z2, z3, z4, z5, z6⟩ := hst.empty
  have hg : Going r₀ := by
    refine ⟨hf.listed hs, ht, fun st hm => ?_⟩
    rw [h6] at hm
    split at hm
    · cases hm
      exact ⟨.inl rfl, rfl⟩
    · cases hm
  obtain ⟨r, A, B, e', g, c, a1, a2, a3, -, a5, a6, a7⟩ := loop_any hn (loopTimes dur simStep 0) r₀ (sorted_loopTimes (by decide) dur 0 (by omega)) hg
    (by refine ⟨?_, ?_, ?_, ?_⟩ <;> simp [z1, z2, z3, z4, z5, z6])
    (by refine ⟨?_, ?_, ?_⟩ <;> simp [z1, z2, z3])
  have ht : r.times = (loopTimes dur simStep 0).filter (fun t => decide (t % 10000 = 0)) := by rw [a5, h2]; rfl
  refine ⟨r, by unfold experiment; rw [e]; exact e', g, c, ?_, ht, ?_, ?_⟩
  · rw [a1, z3, List.nil_append, a3]
  · rw [a6, h3, List.nil_append, ht]
  · rw [a7, h4, List.nil_append, ht]

end Verif
