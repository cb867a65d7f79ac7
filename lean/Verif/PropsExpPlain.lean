import Verif.PropsExpDoc
/-
C86: the values of a simulated experiment are plain.
-/
namespace Verif
open F64

/-! ### Values -/

/-- A string of ASCII characters, a finite number or a boolean. -/
def plainValue : Js → Bool
  | .bool _ => true
  | .num f => finite f
  | .str s => s.all fun c => decide (c < 0x80)
  | _ => false

theorem plainValue_scalar {v : Js} (h : plainValue v = true) : PlainScalar v := by
  cases v with
  | bool b => exact ⟨trivial, trivial⟩
  | num f => exact ⟨(finite_iff (f := f)).1 h, trivial⟩
  | str s => exact ⟨valid_ascii fun c hc => by simpa using List.all_eq_true.1 h c hc, trivial⟩
  | _ => cases h

set_option maxRecDepth 100000 in
theorem sample_plain : ∀ scenario ∈ scenarioNames, (sampleVehicle scenario).all (fun s => decide (s.type = b!"number") || plainValue s.value) = true := by
  decide +kernel

theorem table_names : ∀ v ∈ vssSensors, 2 ≤ (split bDot v.path).length ∧ (split bDot v.path).length ≤ 8 ∧
    (v.type = b!"number" ∨ v.type = b!"boolean" ∨ v.type = b!"string") ∧
    ∀ k ∈ split bDot v.path, k ≠ b!"timestamp" ∧ k ≠ b!"value" ∧ (∀ c ∈ k, c < 0x80) ∧ k ≠ [] ∧ bDot ∉ k ∧ bSlash ∉ k ∧ bTilde ∉ k ∧ atoi k = none := by
  decide +kernel

theorem table_nameKey {v : VssSensor} (hv : v ∈ vssSensors) : ∀ k ∈ split bDot v.path, NameKey k := fun k hk => by
  obtain ⟨a, b, c, d, e, f, g, -⟩ := (table_names v hv).2.2.2 k hk
  exact ⟨a, b, valid_ascii c, d, e, f, g⟩

theorem between_finite {lo hi f : F64} (hlo : lo.IsFin) (hhi : hi.IsFin) (h1 : fle lo f = true) (h2 : fle f hi = true) : f.IsFin := by
  obtain ⟨_, _, _, _, rfl⟩ := hlo
  obtain ⟨_, _, _, _, rfl⟩ := hhi
  cases f with
  | nan => simp [fle, flt, feq] at h1
  | inf s => cases s <;> simp [fle, flt, feq] at h1 h2
  | fin s m e h => exact ⟨s, m, e, h, rfl⟩

theorem inRange_plain {lo hi : F64} (hlo : lo.IsFin) (hhi : hi.IsFin) {v : Js} (h : InRange lo hi v) : PlainScalar v := by
  obtain ⟨f, rfl, h1, h2⟩ := h
  exact ⟨between_finite hlo hhi h1 h2, trivial⟩

theorem newBool_bool (c : Choices) (s : SensorData) : ∃ b, newBool c s = .bool b := by
  unfold newBool
  split
  · split
    · exact ⟨_, rfl⟩
    · split
      · exact ⟨_, rfl⟩
      · exact ⟨_, rfl⟩
  · exact ⟨_, rfl⟩

/-- Readings of sensors that are not numbers are plain. -/
theorem read_plain {s s' : SensorData} {c : Choices} {t : Int} {v : Js} (ht : s.type ≠ b!"number") (hst : Steady s) (hv : PlainScalar s.value)
    (h : s.read c t = .ok (some (s', v))) : PlainScalar v ∧ PlainScalar s'.value := by
  have key : PlainScalar v ∧ (s'.value = s.value ∨ s'.value = v) := by
    unfold SensorData.read newValue at h
    dsimp only at h
    rw [if_neg ht] at h
    split at h
    · simp only [Res.map, Option.map_some, Res.ok.injEq, Option.some.injEq, Prod.mk.injEq] at h
      obtain ⟨h1, h2⟩ := h
      obtain ⟨b, hb⟩ := newBool_bool c { s with counter := s.counter + 1 }
      rw [hb] at h1 h2
      subst h2
      refine ⟨⟨trivial, trivial⟩, ?_⟩
      rw [← h1]
      split
      · exact .inl rfl
      · exact .inr rfl
    · split at h
      · rename_i hs
        have hp : s.pattern ≠ b!"random_selection" := hst.elim (fun h => absurd hs h) id
        unfold newString at h
        dsimp only at h
        have : ∃ w, PlainScalar w ∧ (if isEqual s.value w then ({ s with counter := s.counter + 1 } : SensorData) else { s with counter := s.counter + 1, value := w }, w) = (s', v) := by
          split at h
          · rename_i cur hcur
            rw [if_neg hp] at h
            simp only [Res.map, Option.map_some, Res.ok.injEq, Option.some.injEq] at h
            exact ⟨_, hcur ▸ hv, h⟩
          · simp only [Res.map, Option.map_some, Res.ok.injEq, Option.some.injEq] at h
            exact ⟨_, plainValue_scalar (by decide), h⟩
        obtain ⟨w, hw, e⟩ := this
        simp only [Prod.mk.injEq] at e
        obtain ⟨e1, rfl⟩ := e
        refine ⟨hw, ?_⟩
        rw [← e1]
        split
        · exact .inl rfl
        · exact .inr rfl
      · simp only [Res.map, Option.map_some, Res.ok.injEq, Option.some.injEq, Prod.mk.injEq] at h
        obtain ⟨h1, rfl⟩ := h
        refine ⟨hv, ?_⟩
        rw [← h1]
        split
        · exact .inl rfl
        · exact .inr rfl
  refine ⟨key.1, ?_⟩
  rcases key.2 with e | e
  · rw [e]; exact hv
  · rw [e]; exact key.1

theorem after_plain {s s' : SensorData} (ht : s.type ≠ b!"number") (hst : Steady s) (hv : PlainScalar s.value) (h : After s s') : PlainScalar s'.value := by
  induction h with
  | start => exact hv
  | read ha _ _ _ hr ih =>
    have he := after_erase ha
    exact (read_plain (by rw [(erase_fields he).2.2.1]; exact ht) (steady_erase he.symm hst) ih hr).2

/-! ### What is kept of an experiment -/

theorem Outcome.mem_table {dur : Nat} {d : Draws} {scenario : Bytes} {r₀ r : Trip} (o : Outcome dur d scenario r₀ r) {s : SensorData}
    (hs : s ∈ r₀.vehicle) : ∃ v ∈ vssSensors, v.path = s.path := by
  have h2 := congrArg (List.map fun x : Bytes × Group × Int => x.1) o.first.table
  simp only [List.map_map] at h2
  have : s.path ∈ vssSensors.map VssSensor.path := by
    have h3 : s.path ∈ r₀.vehicle.map SensorData.path := List.mem_map_of_mem hs
    rwa [show r₀.vehicle.map SensorData.path = vssSensors.map VssSensor.path from h2] at h3
  obtain ⟨v, hv, e⟩ := List.mem_map.1 this
  exact ⟨v, hv, e⟩

theorem Outcome.table_type {dur : Nat} {d : Draws} {scenario : Bytes} (hs : scenario ∈ scenarioNames) {r₀ r : Trip} (o : Outcome dur d scenario r₀ r)
    {s : SensorData} (hsm : s ∈ r₀.vehicle) {v : VssSensor} (hv : v ∈ vssSensors) (e : v.path = s.path) :
    s.type = v.type ∧ (v.type = b!"number" → v.min.IsFin ∧ v.max.IsFin) := by
  have hvs := vehicle_safe scenario hs
  unfold vehicleSafe at hvs
  have hw : s.wipe ∈ (sampleVehicle scenario).map SensorData.wipe := by rw [← o.first.wipe]; exact List.mem_map_of_mem hsm
  obtain ⟨s0, hs0, hsw⟩ := List.mem_map.1 hw
  unfold sampleVehicle at hs0
  split at hvs
  · rename_i ss0 h0
    rw [h0] at hs0
    have h1 := List.all_eq_true.1 (List.all_eq_true.1 hvs s0 hs0) v hv
    have he := erase_of_wipe hsw
    simp only [(erase_fields he).1, e, ne_eq, not_true_eq_false, decide_false, Bool.false_or, Bool.and_eq_true, Bool.or_eq_true, decide_eq_true_eq, finite_iff] at h1
    refine ⟨by rw [← (erase_fields he).2.2.1]; exact h1.1, fun hn => ?_⟩
    rcases h1.2 with h | h
    · exact absurd hn h
    · exact h.1
  · cases hvs

theorem Outcome.plain₀ {dur : Nat} {d : Draws} {scenario : Bytes} (hs : scenario ∈ scenarioNames) {r₀ r : Trip} (o : Outcome dur d scenario r₀ r)
    {s : SensorData} (hsm : s ∈ r₀.vehicle) : PlainScalar s.value := by
  obtain ⟨v, hv, e⟩ := o.mem_table hsm
  obtain ⟨t1, t2⟩ := o.table_type hs hsm hv e
  by_cases hn : v.type = b!"number"
  · exact inRange_plain (t2 hn).1 (t2 hn).2 (o.first.fits s hsm v hv e hn)
  · have hdr : s.path ∉ drawnPaths := fun h => hn (table_facts.2.2.1 v hv (e ▸ h))
    have hw : s.wipe ∈ (sampleVehicle scenario).map SensorData.wipe := by rw [← o.first.wipe]; exact List.mem_map_of_mem hsm
    obtain ⟨s0, hs0, hsw⟩ := List.mem_map.1 hw
    obtain ⟨w1, -, w3, w4, -⟩ := wipe_fields hsw
    have h1 := List.all_eq_true.1 (sample_plain scenario hs) s0 hs0
    rw [w4, t1, decide_eq_false hn, Bool.false_or, w3 (w1 ▸ hdr)] at h1
    exact plainValue_scalar h1

theorem loopTimes_sorted {dur step : Nat} (hs : 0 < step) : ∀ (n t : Nat), dur - t ≤ n → (loopTimes dur step t).Pairwise (· < ·) := by
  intro n
  induction n with
  | zero =>
    intro t ht
    rw [loopTimes, if_neg (by omega)]
    exact .nil
  | succ n ih =>
    intro t ht
    rw [loopTimes]
    split
    · refine List.pairwise_cons.2 ⟨fun x hx => ?_, ih _ (by omega)⟩
      obtain ⟨-, k, rfl⟩ := (mem_loopTimes hs n (t + step) (by omega) x).1 hx
      have := Nat.zero_le (step * k)
      omega
    · exact .nil

/-- The readings of a sensor are taken at ascending times. -/
theorem driven_ascending {d : Draws} (hd : d.Good) : ∀ (ts : List Nat) (ss : List SensorData), ts.Pairwise (· < ·) →
    (driven d ts ss).Pairwise fun a b => a.path = b.path → a.ts < b.ts
  | [], _, _ => .nil
  | t :: ts, ss, h => by
    obtain ⟨h1, h2⟩ := List.pairwise_cons.1 h
    rw [driven, List.pairwise_append]
    refine ⟨?_, driven_ascending hd ts _ h2, fun a ha b hb _ => ?_⟩
    · have hn : (d.order t).Nodup := (hd.order t).nodup_iff.2 table_facts.1
      unfold taken
      refine List.Pairwise.filterMap _ (fun p q hpq x hx y hy e => ?_) hn
      have hp : ∀ p x, ((sensorOf ss p).bind fun s => if dueNow t s then some ⟨p, s.seen (d.read t p) t, t⟩ else none) = some x → Reading.path x = p := by
        intro p x h
        cases ho : sensorOf ss p with
        | none => rw [ho] at h; cases h
        | some s =>
          rw [ho] at h
          simp only [Option.bind_some] at h
          split at h
          · simp only [Option.some.injEq] at h; subst h; rfl
          · cases h
      exact absurd ((hp p x hx).symm.trans (e.trans (hp q y hy))) hpq
    · obtain ⟨t', ht', e⟩ := driven_time hb
      rw [(taken_time ha).1, e]
      exact Int.ofNat_lt.2 (h1 t' ht')

/-- The comparison of the simulation tells apart whatever differs. -/
theorem isEqual_of_jsEq {a b : Js} (ha : PlainScalar a) (hb : PlainScalar b) (h : jsEq a b = true) : isEqual a b = true := by
  rcases plainScalar_cases ha with ⟨x, rfl⟩ | ⟨f, rfl, hf⟩ | ⟨s, rfl, -⟩ <;> rcases plainScalar_cases hb with ⟨y, rfl⟩ | ⟨g, rfl, hg⟩ | ⟨u, rfl, -⟩ <;>
    simp only [jsEq, Bool.false_eq_true] at h
  · exact h
  · have hf' : f.IsFin := hf
    have hg' : g.IsFin := hg
    rw [feq_iff hf'.ne_nan hg'.ne_nan, hf'.key_eq, hg'.key_eq] at h
    exact C82_near hf' hg' (by rw [h, Int.sub_self]; decide +kernel)
  · exact h

/-- The recorded patches of a sensor change its value every time. -/
theorem run_changing (p : Bytes) : ∀ (rs : List Reading) (s : Sim) (v : Js), mget s.sensors p = some v → PlainScalar v →
    (∀ r ∈ rs, r.path = p → PlainScalar r.value) →
    ∃ ps, (s.run isEqual rs).tsonPatches = s.tsonPatches ++ ps ∧ Changing v (ps.filter fun q => decide (q.path = p))
  | [], s, v, _, _, _ => ⟨[], by simp [Sim.run], trivial⟩
  | r :: rs, s, v, hv, hpv, hr => by
    rw [run_cons]
    by_cases hch : isEqual ((mget s.sensors r.path).getD .null) r.value = true
    · obtain ⟨ps, h1, h2⟩ := run_changing p rs (s.step isEqual r) v (by simp [Sim.step, hch, hv]) hpv fun x hx => hr x (by simp [hx])
      exact ⟨ps, by rw [h1]; simp [Sim.step, hch], h2⟩
    · by_cases hp : r.path = p
      · have hrp := hr r (by simp) hp
        obtain ⟨ps, h1, h2⟩ := run_changing p rs (s.step isEqual r) r.value (by simp only [Sim.step, hch]; simp [hp, mget_mset_self]) hrp
          fun x hx => hr x (by simp [hx])
        refine ⟨⟨b!"replace", r.path, r.value, r.ts⟩ :: ps, by rw [h1]; simp [Sim.step, hch], ?_⟩
        rw [List.filter_cons_of_pos (by simpa using hp)]
        refine ⟨?_, h2⟩
        rw [hp, hv] at hch
        cases hj : jsEq v r.value with
        | false => rfl
        | true => exact absurd (isEqual_of_jsEq hpv hrp hj) hch
      · obtain ⟨ps, h1, h2⟩ := run_changing p rs (s.step isEqual r) v (by simp only [Sim.step, hch]; simp [mget_mset_ne _ _ (fun e => hp e.symm), hv]) hpv fun x hx => hr x (by simp [hx])
        refine ⟨⟨b!"replace", r.path, r.value, r.ts⟩ :: ps, by rw [h1]; simp [Sim.step, hch], ?_⟩
        rw [List.filter_cons_of_neg (by simpa using hp)]
        exact h2

theorem Outcome.readings {dur : Nat} (hdur : dur ≤ 2 ^ 53) {d : Draws} (hd : d.Good) {scenario : Bytes} (hs : scenario ∈ scenarioNames)
    (hm : scenario = b!"mixed_scenario" → dur ≤ 499900) {r₀ r : Trip} (o : Outcome dur d scenario r₀ r) :
    ∀ x ∈ driven d (loopTimes dur simStep 0) r₀.vehicle, 0 ≤ x.ts ∧ x.ts < dur ∧ PlainScalar x.value ∧ ∃ s ∈ r₀.vehicle, s.path = x.path := by
  have hts : ∀ t ∈ loopTimes dur simStep 0, t < dur := fun t ht => ((mem_loopTimes (by decide) dur 0 (by omega) t).1 ht).1
  obtain ⟨-, a2⟩ := driven_after hd (ss₀ := r₀.vehicle) (loopTimes dur simStep 0) r₀.vehicle (fun t ht => by have := hts t ht; omega) o.first.sound
    fun s hs => ⟨s, hs, .start⟩
  intro x hx
  obtain ⟨t, ht, e, s₀, h0, s, ha, hp, hr⟩ := a2 x hx
  have := hts t ht
  have he := after_erase ha
  have hep : s₀.path = x.path := by rw [← hp]; exact (erase_fields he).1.symm
  refine ⟨by omega, by omega, ?_, s₀, h0, hep⟩
  obtain ⟨v, hv, e'⟩ := o.mem_table h0
  obtain ⟨t1, t2⟩ := o.table_type hs h0 hv e'
  by_cases hn : v.type = b!"number"
  · obtain ⟨r', er, hran⟩ := C81_range_partial hdur hd hs hm
    obtain rfl : r = r' := by have := o.runs; rw [er] at this; cases this; rfl
    obtain ⟨c6, -⟩ := C61_patches isEqual r₀.sim o.sim₀ (driven d (loopTimes dur simStep 0) r₀.vehicle)
    rw [← o.sim] at c6
    exact inRange_plain (t2 hn).1 (t2 hn).2 ((hran v hv hn).1 ⟨b!"replace", x.path, x.value, x.ts⟩ (by rw [c6]; exact List.mem_map_of_mem hx)
      (by rw [e']; exact hep.symm))
  · exact (read_plain (by rw [(erase_fields he).2.2.1, t1]; exact hn) (steady_erase he.symm (o.first.sound.steady s₀ h0))
      (after_plain (by rw [t1]; exact hn) (o.first.sound.steady s₀ h0) (o.plain₀ hs h0) ha) hr).1

end Verif
