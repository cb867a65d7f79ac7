import Verif.ExpLoopTame
/-
C86: the temporal experiments on the data of a simulated experiment.
-/
namespace Verif
open F64

/-- The patches of a path. -/
def patchesOn (rs : List TPatch) (p : Bytes) : List TPatch := rs.filter fun r => decide (r.path = p)

/-- What the temporal experiments rely on: the document `doc` as read is plain, namely `m` when the nodes are replaced with their
values, it holds the first value of every sensor, and the recorded patches are readings of these sensors.  If `Q` holds, every
patch of a sensor changes its value. -/
structure Ready (Q : Prop) (r₀ r : Trip) (doc m : List (Bytes × Js)) : Prop where
  plain : jsTransform (.obj doc) = .obj m
  keys : GoodKeys (.obj m)
  values : PlainJson (.obj m)
  shallow : (Js.obj m).depth ≤ 1000
  readings : ReadingsFrom0 m r.sim.tsonPatches
  sensors : ∀ s ∈ r₀.vehicle, SensorAt m (split bDot s.path) s.value ∧ 2 ≤ (split bDot s.path).length ∧
    ReadingsOn r.sim.tsonPatches s.path (patchesOn r.sim.tsonPatches s.path) ∧
    (Q → Changing s.value (patchesOn r.sim.tsonPatches s.path))

theorem Ready.depth {Q : Prop} {r₀ r : Trip} {doc m : List (Bytes × Js)} (h : Ready Q r₀ r doc m) : (Js.obj m).depth < 10000 := by
  have := h.shallow
  omega

theorem Ready.imp {Q Q' : Prop} (hQ : Q' → Q) {r₀ r : Trip} {doc m : List (Bytes × Js)} (h : Ready Q r₀ r doc m) : Ready Q' r₀ r doc m :=
  ⟨h.plain, h.keys, h.values, h.shallow, h.readings, fun s hs => by
    obtain ⟨a, b, c, e⟩ := h.sensors s hs
    exact ⟨a, b, c, fun k => e (hQ k)⟩⟩

/-- What the simulated experiment hands over to the temporal experiments. -/
structure Handed (Q : Prop) (r₀ r : Trip) (doc m : List (Bytes × Js)) : Prop extends Ready Q r₀ r doc m where
  file : decAny (.obj r₀.sim.json) = .obj doc

/-- The scenario does not switch: it is not the mixed one, or it ends before the first switch. -/
def NoSwitch (dur : Nat) (scenario : Bytes) : Prop := scenario = b!"mixed_scenario" → dur ≤ 499900

/-- The document of the start. -/
theorem start_json {d : Draws} {scenario : Bytes} {r₀ : Trip} (h : Trip.start d scenario = .ok r₀) :
    vehicleJson [] (d.jsonOrder (docSensors d r₀.vehicle)) = .ok r₀.sim.json := by
  unfold Trip.start at h
  cases h1 : firstVehicle d scenario with
  | ok ss =>
    rw [h1] at h
    simp only [Res.bind] at h
    cases h2 : vehicleJson [] (d.jsonOrder (docSensors d ss)) with
    | ok j =>
      rw [h2] at h
      simp only at h
      cases h3 : vehicleTson [] (d.tsonOrder (docSensors d ss)) with
      | ok t =>
        rw [h3] at h
        simp only [Res.map, Res.ok.injEq] at h
        subst h
        exact h2
      | _ => rw [h3] at h; cases h
    | _ => rw [h2] at h; cases h
  | _ => rw [h1] at h; cases h

/-- The data of a simulated experiment, with the document as it is in memory. -/
theorem handed {P : Int → Prop} {dur : Nat} (hdur : dur ≤ 2 ^ 53) {d : Draws} (hP : ∀ p, P (d.clock p)) (hd : d.Good) {scenario : Bytes}
    (hs : scenario ∈ scenarioNames) :
    ∃ r₀ r m, Ended dur d scenario r₀ r ∧ r₀.vehicle.map SensorData.path = vssSensors.map VssSensor.path ∧
      Stamped P 8 (.obj r₀.sim.json) (.obj m) ∧ ReadingsFrom0 m r.sim.tsonPatches ∧
      ∀ s ∈ r₀.vehicle, SensorAt m (split bDot s.path) s.value ∧ 2 ≤ (split bDot s.path).length ∧
        ReadingsOn r.sim.tsonPatches s.path (patchesOn r.sim.tsonPatches s.path) ∧
        (NoSwitch dur scenario → Changing s.value (patchesOn r.sim.tsonPatches s.path)) := by
  obtain ⟨r₀, r, oe⟩ := ended hdur hd hs
  have o := oe.first
  have hpath : r₀.vehicle.map SensorData.path = vssSensors.map VssSensor.path := by
    have h2 := congrArg (List.map fun x : Bytes × Group × Int => x.1) o.first.table
    simpa [Function.comp_def] using h2
  have hdp : (docSensors d r₀.vehicle).map Sensor.path = vssSensors.map VssSensor.path := by
    rw [← hpath]; unfold docSensors; simp [Function.comp_def]
  have hinc : (d.jsonOrder (docSensors d r₀.vehicle)).Pairwise (fun a b => Incomparable (split bDot a.path) (split bDot b.path)) := by
    have h1 : (docSensors d r₀.vehicle).Pairwise (fun a b => Incomparable (split bDot a.path) (split bDot b.path)) := by
      have := table_facts.2.2.2.1
      rw [← hdp] at this
      exact (List.pairwise_map (R := fun a b => Incomparable (split bDot a) (split bDot b))).1 this
    exact ((hd.json _).pairwise_iff (fun h => h.symm)).2 h1
  obtain ⟨j, m, e1, e2, e3⟩ := vehicle_doc (P := P) (N := 8) (by decide) (d.jsonOrder (docSensors d r₀.vehicle)) [] [] [] hinc (fun s hsm => by
    obtain ⟨x, hx, rfl⟩ := List.mem_map.1 ((hd.json _).mem_iff.1 hsm)
    obtain ⟨v, hv, e'⟩ := o.mem_table hx
    dsimp only
    rw [← e']
    exact ⟨hP _, o.plain₀ hs hx, (table_names v hv).2.1, table_nameKey hv⟩) (.nil 7) (holds_nil _)
  rw [start_json o.start, Res.ok.injEq] at e1
  subst e1
  have hsen : ∀ s ∈ r₀.vehicle, SensorAt m (split bDot s.path) s.value ∧ 2 ≤ (split bDot s.path).length := by
    intro s hsm
    obtain ⟨v, hv, e'⟩ := o.mem_table hsm
    have hm' : (⟨s.path, s.value, d.clock s.path⟩ : Sensor) ∈ d.jsonOrder (docSensors d r₀.vehicle) :=
      (hd.json _).mem_iff.2 (List.mem_map_of_mem (f := fun s : SensorData => (⟨s.path, s.value, d.clock s.path⟩ : Sensor)) hsm)
    refine ⟨⟨?_, (o.plain₀ hs hsm).2, ?_⟩, by rw [← e']; exact (table_names v hv).1⟩
    · exact (e3 _ _ (o.first.scalar s hsm)).2 ⟨_, hm', [], by simp, at?_nil _⟩
    · rw [← e']
      exact fun k hk => ((table_names v hv).2.2.2 k hk).2.2.2.2.2.2.2
  have hasc : r.sim.tsonPatches.Pairwise fun a b => a.path = b.path → a.ts < b.ts := List.Pairwise.sublist oe.kept oe.ascending
  refine ⟨r₀, r, m, oe, hpath, e2, ?_, ?_⟩
  · intro q hq
    obtain ⟨g0, g1, g2, g3, v, hv, g4, -⟩ := oe.readings q (oe.kept.subset hq)
    obtain ⟨s, hsm, g5⟩ : ∃ s ∈ r₀.vehicle, s.path = q.path := by
      have : q.path ∈ r₀.vehicle.map SensorData.path := by rw [hpath, ← g4]; exact List.mem_map_of_mem hv
      obtain ⟨s, h1, h2⟩ := List.mem_map.1 this
      exact ⟨s, h1, h2⟩
    refine ⟨.inr g0, g1, ?_, g3.dec.2.2.1, g3.dec.2.1, split bDot s.path, s.value, (hsen s hsm).1, ?_⟩
    · have : (2 : Nat) ^ 53 = 9007199254740992 := by decide
      have : maxInt64 = 9223372036854775807 := rfl
      omega
    · rw [joinWith_split]; exact g5.symm
  · intro s hsm
    refine ⟨(hsen s hsm).1, (hsen s hsm).2, ⟨List.Perm.refl _, ?_⟩, ?_⟩
    · refine (List.Pairwise.filter _ hasc).imp_of_mem fun ha hb h => h ?_
      have ha' := (List.mem_filter.1 ha).2
      have hb' := (List.mem_filter.1 hb).2
      simp only [decide_eq_true_eq] at ha' hb'
      rw [ha', hb']
    · intro hm
      obtain ⟨r₀', r', o'⟩ := outcome (dur := dur) hd hs hm
      obtain rfl : r₀ = r₀' := by have := o'.start; rw [o.start] at this; cases this; rfl
      obtain rfl : r = r' := by have := o'.runs; rw [oe.runs] at this; cases this; rfl
      have hv : mget r₀.sim.sensors s.path = some s.value := by
        rw [show r₀.sim.sensors = vehicleValues r₀.vehicle from o.tied₀, mget_values, sensorOf_mem (by rw [hpath]; exact table_facts.1) hsm]
        rfl
      obtain ⟨ps, h1, h2⟩ := run_changing s.path (driven d (loopTimes dur simStep 0) r₀.vehicle) r₀.sim s.value hv (o.plain₀ hs hsm)
        fun x hx _ => (o'.readings hdur hd hs hm x hx).2.2.1
      rw [← o'.sim] at h1
      have h0 : r₀.sim.tsonPatches = [] := o.sim₀.empty.2.1
      rw [h0, List.nil_append] at h1
      unfold patchesOn
      rw [h1]
      exact h2

/-- **C86.**  The data of a simulated experiment of any scenario and any duration are what the temporal experiments rely on: the
document read back is plain and holds the first value of every sensor, and the recorded patches are readings of these sensors, those of
a sensor at ascending times and, unless the mixed scenario switches, each with another value than the one before. -/
theorem C86_handed_partial {dur : Nat} (hdur : dur ≤ 2 ^ 53) {d : Draws} (hd : d.Good) {scenario : Bytes} (hs : scenario ∈ scenarioNames) :
    ∃ r₀ r doc m, Trip.start d scenario = .ok r₀ ∧ experiment dur d scenario = .ok (some r) ∧
      r₀.vehicle.map SensorData.path = vssSensors.map VssSensor.path ∧ Handed (NoSwitch dur scenario) r₀ r doc m := by
  obtain ⟨r₀, r, m, o, hpath, e2, h1, h2⟩ := handed (P := fun _ => True) hdur (fun _ => trivial) hd hs
  obtain ⟨f1, f2⟩ := e2.transform
  obtain ⟨f3, f4⟩ := f2 _ _ rfl rfl
  exact ⟨r₀, r, decAnyF r₀.sim.json, m, o.first.start, o.runs, hpath,
    ⟨⟨by rw [← f1, f3], e2.inside, e2.plain.1, by have := e2.plain.2; omega, h1, h2⟩, f3⟩⟩

/-- **C81, every duration and scenario, also after the switches of the mixed scenario.**  An experiment ends; every reading it took is of
a sensor of the table, at a time of the experiment, and is a text, a truth value or a finite number, and the numbers of number sensors
are at most 2^60; the readings are in the order of time, those of a sensor at increasing times; the patches are some of the readings, in
their order; and the values the vehicle is left with are of the same kind. -/
theorem C81_finite {dur : Nat} (hdur : dur ≤ 2 ^ 53) {d : Draws} (hd : d.Good) {scenario : Bytes} (hs : scenario ∈ scenarioNames) :
    ∃ r, experiment dur d scenario = .ok (some r) ∧
      (∀ q ∈ r.sim.setPatches, q.op = b!"replace" ∧ 0 ≤ q.ts ∧ q.ts < dur ∧ PlainScalar q.value ∧
        ∃ v ∈ vssSensors, v.path = q.path ∧
          (v.type = b!"number" → InRange (.ofInt (-1152921504606846976)) (.ofInt 1152921504606846976) q.value)) ∧
      r.sim.setPatches.Pairwise (fun a b => a.ts ≤ b.ts) ∧ r.sim.setPatches.Pairwise (fun a b => a.path = b.path → a.ts < b.ts) ∧
      r.sim.tsonPatches.Sublist r.sim.setPatches ∧
      ∀ s ∈ r.vehicle, PlainScalar s.value ∧
        (s.type = b!"number" → InRange (.ofInt (-1152921504606846976)) (.ofInt 1152921504606846976) s.value) := by
  obtain ⟨r₀, r, o⟩ := ended hdur hd hs
  have e1 : F64.ofInt (-1152921504606846976) = tameLo := by decide +kernel
  have e2 : F64.ofInt 1152921504606846976 = tameHi := by decide +kernel
  rw [e1, e2]
  refine ⟨r, o.runs, o.readings, o.ordered, o.ascending, o.kept, fun s hsm => ⟨?_, (o.tame s hsm).num⟩⟩
  by_cases h : s.type = b!"number"
  · exact inRange_plain tameLo_fin tameHi_fin ((o.tame s hsm).num h)
  · exact (o.tame s hsm).other h

/-- A day of the mixed scenario, which switches about every eight minutes. -/
example : ∃ r, experiment 86400000 halfDraws b!"mixed_scenario" = .ok (some r) ∧
    (∀ q ∈ r.sim.setPatches, PlainScalar q.value) ∧ r.sim.tsonPatches.Sublist r.sim.setPatches := by
  obtain ⟨r, h1, h2, -, -, h3, -⟩ := C81_finite (dur := 86400000) (by decide) halfDraws_good (scenario := b!"mixed_scenario") (by decide)
  exact ⟨r, h1, fun q hq => (h2 q hq).2.2.2.1, h3⟩

end Verif
