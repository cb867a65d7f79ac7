import Verif.ExpLoopLemmas
/-
The vehicle and the documents at the beginning of an experiment.
-/
namespace Verif
open F64

/-- What the runtime may choose. -/
structure Draws.Good (d : Draws) : Prop where
  first : IsUnit d.first.1 ∧ IsUnit d.first.2.1 ∧ IsUnit d.first.2.2
  switch : ∀ t, IsUnit (d.switch t).1 ∧ IsUnit (d.switch t).2
  read : ∀ t p, (d.read t p).Good
  order : ∀ t, (d.order t).Perm (vssSensors.map VssSensor.path)
  json : ∀ l, (d.jsonOrder l).Perm l
  tson : ∀ l, (d.tsonOrder l).Perm l

/-! ### The start -/

/-- The vehicle for some numbers drawn, with everything checked that does not depend on them. -/
def sampleVehicle (scenario : Bytes) : List SensorData :=
  match initialVehicle (dec 0 1) (dec 0 1) (dec 0 1) scenario with
  | .ok ss => ss
  | _ => []

def vehicleSound (scenario : Bytes) : Bool :=
  (match initialVehicle (dec 0 1) (dec 0 1) (dec 0 1) scenario with | .ok _ => true | _ => false) &&
  decide ((sampleVehicle scenario).map (fun s => (s.path, s.group, s.interval)) = vssSensors.map fun v => (v.path, v.group, v.interval)) &&
  (sampleVehicle scenario).all fun s => (decide (s.type ≠ b!"string") || decide (s.pattern ≠ b!"random_selection")) &&
    match s.value with | .obj _ => false | _ => true

set_option maxRecDepth 100000 in
theorem vehicle_sound : ∀ scenario ∈ scenarioNames, vehicleSound scenario = true := by decide +kernel

theorem table_battery : (batteryPath, Group.medium, (200 : Int)) ∈ vssSensors.map fun v => (v.path, v.group, v.interval) := by decide +kernel

theorem table_facts : (vssSensors.map VssSensor.path).Nodup ∧ (∀ v ∈ vssSensors, v.interval ≠ 0 ∧ 0 ≤ v.interval) ∧
    (∀ v ∈ vssSensors, v.path ∈ drawnPaths → v.type = b!"number") ∧
    (vssSensors.map VssSensor.path).Pairwise (fun a b => Incomparable (split bDot a) (split bDot b)) ∧
    (∀ v ∈ vssSensors, bSlash ∉ v.path) := by
  refine ⟨by decide +kernel, by decide +kernel, by decide +kernel, ?_, by decide +kernel⟩
  unfold Incomparable
  decide +kernel

/-- What holds for the vehicle at the beginning. -/
structure FirstVehicle (scenario : Bytes) (ss : List SensorData) : Prop where
  wipe : ss.map SensorData.wipe = (sampleVehicle scenario).map SensorData.wipe
  table : ss.map (fun s => (s.path, s.group, s.interval)) = vssSensors.map fun v => (v.path, v.group, v.interval)
  sound : Sound ss
  fits : ∀ s ∈ ss, Fits s
  scalar : ∀ s ∈ ss, s.value.IsScalar
  battery : scenario = b!"mixed_scenario" → ∃ s ∈ ss, s.path = batteryPath ∧ s.group = .medium ∧ s.value = .num (dec 60 1)

theorem first_vehicle {d : Draws} (hd : d.Good) {scenario : Bytes} (hs : scenario ∈ scenarioNames) :
    ∃ ss, firstVehicle d scenario = .ok ss ∧ FirstVehicle scenario ss := by
  have hv := vehicle_sound scenario hs
  unfold vehicleSound at hv
  simp only [Bool.and_eq_true, decide_eq_true_eq] at hv
  obtain ⟨⟨h1, h2⟩, h3⟩ := hv
  split at h1
  · rename_i ss0 h0
    have hsam : sampleVehicle scenario = ss0 := by unfold sampleVehicle; rw [h0]
    rw [hsam] at h2 h3
    obtain ⟨ss1, e1, w1⟩ := vehicle_wipe _ _ _ d.first.1 d.first.2.1 d.first.2.2 h0
    have f1 := vehicle_fits hd.first.1 hd.first.2.1 hd.first.2.2 e1
    have hfv : firstVehicle d scenario = .ok (if scenario = b!"mixed_scenario" then onSensor .medium batteryPath (fun s => s.setValue (.num (dec 60 1))) ss1 else ss1) := by
      unfold firstVehicle
      rw [e1]
      rfl
    refine ⟨_, hfv, ?_⟩
    generalize hss : (if scenario = b!"mixed_scenario" then onSensor .medium batteryPath (fun s => s.setValue (.num (dec 60 1))) ss1 else ss1) = ss
    have hw : ss.map SensorData.wipe = ss0.map SensorData.wipe := by
      subst hss
      rw [w1]
      split
      · refine (onSensor_wipe (f' := fun s => s) (fun s s' hp _ h => ?_) (rfl : ss1.map SensorData.wipe = ss1.map SensorData.wipe)).trans ?_
        · exact (drawn_wipe _ (.null) hp (by decide) h).2.1
        · unfold onSensor
          simp
      · rfl
    have hfit : ∀ s ∈ ss, Fits s := by
      subst hss
      split
      · refine onSensor_fits (fun s hp _ => ?_) f1
        exact setValue_fits hp (self_between (by decide +kernel)) (by decide +kernel)
      · exact f1
    have key : ∀ s ∈ ss, ∃ s0 ∈ ss0, s0.wipe = s.wipe := by
      intro s hm
      have : s.wipe ∈ ss0.map SensorData.wipe := by rw [← hw]; exact List.mem_map_of_mem hm
      exact List.mem_map.1 this
    have htab : ss.map (fun s => (s.path, s.group, s.interval)) = vssSensors.map fun v => (v.path, v.group, v.interval) := by
      rw [← h2]
      have := congrArg (List.map fun s : SensorData => (s.path, s.group, s.interval)) hw
      simpa [Function.comp_def, SensorData.wipe] using this
    have hpath : ss.map SensorData.path = vssSensors.map VssSensor.path := by
      have := congrArg (List.map fun x : Bytes × Group × Int => x.1) htab
      simpa [Function.comp_def] using this
    refine ⟨by rw [hsam]; exact hw, htab, ⟨by rw [hpath]; exact table_facts.1, ?_, ?_⟩, hfit, ?_, ?_⟩
    · intro s hm
      obtain ⟨s0, hm0, e⟩ := key s hm
      have := List.all_eq_true.1 h3 s0 hm0
      rw [Bool.and_eq_true, Bool.or_eq_true, decide_eq_true_eq, decide_eq_true_eq] at this
      exact steady_erase (erase_of_wipe e) this.1
    · intro s hm
      have : (s.path, s.group, s.interval) ∈ vssSensors.map fun v => (v.path, v.group, v.interval) := by
        rw [← htab]; exact List.mem_map_of_mem (f := fun s : SensorData => (s.path, s.group, s.interval)) hm
      obtain ⟨v, hvm, e⟩ := List.mem_map.1 this
      simp only [Prod.mk.injEq] at e
      rw [← e.2.2]
      exact (table_facts.2.1 v hvm).1
    · intro s hm
      have hp : s.path ∈ vssSensors.map VssSensor.path := by rw [← hpath]; exact List.mem_map_of_mem hm
      obtain ⟨v, hvm, e⟩ := List.mem_map.1 hp
      by_cases hdr : s.path ∈ drawnPaths
      · obtain ⟨f, hf, -⟩ := hfit s hm v hvm e (table_facts.2.2.1 v hvm (e ▸ hdr))
        rw [hf]; exact trivial
      · obtain ⟨s0, hm0, e0⟩ := key s hm
        have := List.all_eq_true.1 h3 s0 hm0
        rw [Bool.and_eq_true] at this
        obtain ⟨w1', -, w3, -⟩ := wipe_fields e0
        rw [← w3 (w1' ▸ hdr)]
        have h4 := this.2
        cases hval : s0.value <;> rw [hval] at h4 <;> first | exact trivial | cases h4
    · intro hmix
      subst hmix
      rw [if_pos rfl] at hss
      have hb := table_battery
      rw [← htab] at hb
      obtain ⟨s, hsm, e⟩ := List.mem_map.1 hb
      simp only [Prod.mk.injEq] at e
      refine ⟨s, hsm, e.1, e.2.1, ?_⟩
      rw [← hss] at hsm
      obtain ⟨s1, -, rfl⟩ := List.mem_map.1 hsm
      split
      · rfl
      · rename_i hn
        rw [if_neg hn] at e
        exact absurd ⟨e.2.1, e.1⟩ hn
  · cases h1

/-- The experiment begins with documents that hold the values of the vehicle. -/
theorem start_eq {d : Draws} (hd : d.Good) {scenario : Bytes} (hs : scenario ∈ scenarioNames) :
    ∃ r, Trip.start d scenario = .ok r ∧ FirstVehicle scenario r.vehicle ∧ Tied r ∧ r.sim.Start ∧ r.transitions = [] ∧ r.times = [] ∧ r.jsonVec = [] ∧
      r.tsonVec = [] ∧ r.rows = [] ∧ r.state = (if scenario = b!"mixed_scenario" then some (newScenario b!"urban_traffic" (dec 60 1)) else none) ∧
      ∀ s ∈ r.vehicle, (Js.obj r.sim.json).at? (split bDot s.path ++ [b!"timestamp"]) = some (.int (d.clock s.path)) := by
  obtain ⟨ss, e, hf⟩ := first_vehicle hd hs
  have hpath : ss.map SensorData.path = vssSensors.map VssSensor.path := by
    have := congrArg (List.map fun x : Bytes × Group × Int => x.1) hf.table
    simpa [Function.comp_def] using this
  have hdp : (docSensors d ss).map Sensor.path = vssSensors.map VssSensor.path := by
    rw [← hpath]; unfold docSensors; simp [Function.comp_def]
  have hinc : ∀ l : List Sensor, l.Perm (docSensors d ss) → l.Pairwise (fun a b => Incomparable (split bDot a.path) (split bDot b.path)) := by
    intro l hl
    have h1 : (docSensors d ss).Pairwise (fun a b => Incomparable (split bDot a.path) (split bDot b.path)) := by
      have := table_facts.2.2.2.1
      rw [← hdp] at this
      exact (List.pairwise_map (R := fun a b => Incomparable (split bDot a) (split bDot b))).1 this
    exact (hl.pairwise_iff (fun h => h.symm)).2 h1
  have hsc : ∀ l : List Sensor, l.Perm (docSensors d ss) → ∀ s ∈ l, s.value.IsScalar := by
    intro l hl s hm
    obtain ⟨x, hx, rfl⟩ := List.mem_map.1 (hl.mem_iff.1 hm)
    exact hf.scalar x hx
  obtain ⟨⟨mj, hj, hjv⟩, -⟩ := C59_built_partial _ (hinc _ (hd.json (docSensors d ss)))
  obtain ⟨-, ⟨mt, ht, htv⟩⟩ := C59_built_partial _ (hinc _ (hd.tson (docSensors d ss)))
  refine ⟨⟨ss, if scenario = b!"mixed_scenario" then some (newScenario b!"urban_traffic" (dec 60 1)) else none, [],
    { sensors := vehicleValues ss, json := mj, tson := mt }, [], [], [], []⟩, ?_, hf, rfl, ⟨?_, ?_, ?_, ⟨rfl, rfl, rfl, rfl, rfl, rfl⟩⟩, rfl, rfl, rfl, rfl, rfl, rfl, ?_⟩
  · unfold Trip.start
    rw [e]
    simp only [Res.bind, hj, ht, Res.map]
  · intro p v hp
    simp only [mget_values] at hp
    obtain ⟨s, ho, rfl⟩ := Option.map_eq_some_iff.1 hp
    obtain ⟨hm, rfl⟩ := sensorOf_some ho
    have hm' : (⟨s.path, s.value, d.clock s.path⟩ : Sensor) ∈ d.jsonOrder (docSensors d ss) :=
      (hd.json _).mem_iff.2 (List.mem_map_of_mem (f := fun s : SensorData => (⟨s.path, s.value, d.clock s.path⟩ : Sensor)) hm)
    exact (hjv _ _ (hf.scalar s hm)).2 ⟨_, hm', _, rfl, by rw [at?_cons]; exact at?_nil _⟩
  · intro p v hp
    simp only [mget_values] at hp
    obtain ⟨s, ho, rfl⟩ := Option.map_eq_some_iff.1 hp
    obtain ⟨hm, rfl⟩ := sensorOf_some ho
    have hm' : (⟨s.path, s.value, d.clock s.path⟩ : Sensor) ∈ d.tsonOrder (docSensors d ss) :=
      (hd.tson _).mem_iff.2 (List.mem_map_of_mem (f := fun s : SensorData => (⟨s.path, s.value, d.clock s.path⟩ : Sensor)) hm)
    exact (htv _ _ (hf.scalar s hm)).2 ⟨_, hm', _, rfl, by rw [at?_cons]; exact at?_nil _⟩
  · intro p hp q hq hne
    simp only [vehicleValues, mkeys, List.map_map, List.mem_map, Function.comp_apply] at hp hq
    obtain ⟨a, ha, rfl⟩ := hp
    obtain ⟨b, hb, rfl⟩ := hq
    exact apart (docSensors d ss) (hinc _ (List.Perm.refl _)) ⟨a.path, a.value, d.clock a.path⟩ (List.mem_map_of_mem (f := fun s : SensorData => (⟨s.path, s.value, d.clock s.path⟩ : Sensor)) ha)
      ⟨b.path, b.value, d.clock b.path⟩ (List.mem_map_of_mem (f := fun s : SensorData => (⟨s.path, s.value, d.clock s.path⟩ : Sensor)) hb) hne
  · intro s hm
    have hm' : (⟨s.path, s.value, d.clock s.path⟩ : Sensor) ∈ d.jsonOrder (docSensors d ss) :=
      (hd.json _).mem_iff.2 (List.mem_map_of_mem (f := fun s : SensorData => (⟨s.path, s.value, d.clock s.path⟩ : Sensor)) hm)
    refine (hjv _ (.int (d.clock s.path)) trivial).2 ⟨_, hm', [b!"timestamp"], rfl, ?_⟩
    rw [at?_cons]
    exact at?_nil _

end Verif
