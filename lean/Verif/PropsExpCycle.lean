import Verif.ExpCycle
/-
C81, C83: the mixed scenario goes on switching, and the noise around the last value leads out of the limits of the table.
-/
namespace Verif
open F64

/-! ### The level of the battery -/

/-- The number of readings of the battery before a time. -/
def readsBefore (t : Nat) : Nat := (t + 199) / 200

/-- The level at which the mode ends. -/
def LevelDone (urban : Bool) (x : F64) : Prop := if urban = true then x.units ≤ 10 * oneUnits else fullBattery.units ≤ x.units

/-- The level at which the mode ends is reached with the reading number `c` at the latest. -/
def LevelBy (urban : Bool) (c t : Nat) (x : F64) : Prop :=
  LevelDone urban x ∨ ∃ j : Nat, readsBefore t + j ≤ c ∧
    if urban = true then 1000 * x.units ≤ 10000 * oneUnits + 19 * (oneUnits * j) else 1000 * fullBattery.units ≤ 1000 * x.units + 39 * (oneUnits * j)

/-- The change with a reading. -/
def levelStep (urban : Bool) : F64 := F64.div (mul (slopeIn urban) (F64.ofInt 200)) (dec 1000 1)

theorem step_charge {urban : Bool} {x : F64} (hx : Charge x) : Charge (nextLevel x (levelStep urban)) := by
  cases urban
  · exact (charge_level hx).1
  · exact (drain_level hx).1

theorem levelBy_next {urban : Bool} {c t : Nat} {x : F64} (hx : Charge x) (ht : 100 ∣ t) (h : LevelBy urban c t x) :
    LevelBy urban c (t + 100) (if 200 ∣ t then nextLevel x (levelStep urban) else x) := by
  have hb := oneUnits_big
  by_cases h2 : 200 ∣ t
  · rw [if_pos h2]
    have hr : readsBefore (t + 100) = readsBefore t + 1 := by unfold readsBefore; omega
    cases urban
    · obtain ⟨-, k1, k2⟩ := charge_level hx
      change fullBattery.units ≤ x.units → fullBattery.units ≤ (nextLevel x (levelStep false)).units at k1
      change x.units < fullBattery.units → 1000 * x.units + 39 * oneUnits ≤ 1000 * (nextLevel x (levelStep false)).units at k2
      unfold LevelBy LevelDone at *
      simp only [Bool.false_eq_true, if_false] at *
      by_cases hd : fullBattery.units ≤ x.units
      · exact .inl (k1 hd)
      · obtain ⟨j, j1, j2⟩ := h.resolve_left hd
        cases j with
        | zero => omega
        | succ i =>
          refine .inr ⟨i, by omega, ?_⟩
          rw [Int.natCast_add, Int.mul_add] at j2
          have := k2 (by omega)
          omega
    · obtain ⟨-, k1, k2⟩ := drain_level hx
      change x.units ≤ 10 * oneUnits → (nextLevel x (levelStep true)).units ≤ 10 * oneUnits at k1
      change 10 * oneUnits < x.units → 1000 * (nextLevel x (levelStep true)).units + 19 * oneUnits ≤ 1000 * x.units at k2
      unfold LevelBy LevelDone at *
      simp only [if_true] at *
      by_cases hd : x.units ≤ 10 * oneUnits
      · exact .inl (k1 hd)
      · obtain ⟨j, j1, j2⟩ := h.resolve_left hd
        cases j with
        | zero => omega
        | succ i =>
          refine .inr ⟨i, by omega, ?_⟩
          rw [Int.natCast_add, Int.mul_add] at j2
          have := k2 (by omega)
          omega
  · rw [if_neg h2]
    have hr : readsBefore (t + 100) = readsBefore t := by unfold readsBefore; omega
    unfold LevelBy at *
    rw [hr]
    exact h

theorem levelBy_done {urban : Bool} {c t : Nat} {x : F64} (h : LevelBy urban c t x) (ht : 200 * c ≤ t) : LevelDone urban x := by
  rcases h with h | ⟨j, j1, j2⟩
  · exact h
  · have : j = 0 := by unfold readsBefore at j1; omega
    subst this
    unfold LevelDone
    split at j2
    · rename_i hu
      rw [if_pos hu]
      simp at j2
      omega
    · rename_i hu
      rw [if_neg hu]
      simp at j2
      omega

theorem levelBy_first {urban : Bool} {x : F64} (hx : Charge x) {c t : Nat} (h : readsBefore t + 5000 ≤ c) : LevelBy urban c t x := by
  have hb := oneUnits_big
  have hl := hx.low
  have hh := hx.high
  have hf := full_units
  refine .inr ⟨5000, h, ?_⟩
  split
  · show _ ≤ 10000 * oneUnits + 19 * (oneUnits * 5000); omega
  · show _ ≤ 1000 * x.units + 39 * (oneUnits * 5000); omega

/-! ### The modes -/

/-- What holds between two time steps of the mixed scenario: the mode, the time it was entered at, and when it ends. -/
structure Cycle (urban : Bool) (c L t : Nat) (r : Trip) : Prop where
  going : Going r
  state : ∃ b, r.state = some ⟨modeName urban, b!"urban_traffic", b, (L : Int), 60000⟩
  level : ∃ s x, sensorOf r.vehicle batteryPath = some s ∧ Batt (slopeIn urban) x s ∧ Charge x ∧ LevelBy urban c t x

theorem low_units : lowBattery.units = 10 * oneUnits := by decide +kernel

theorem update_mode {urban : Bool} {b x : F64} (hx : Charge x) {L t : Nat} :
    (L + 60000 ≤ t ∧ LevelDone urban x → Scenario.update ⟨modeName urban, b!"urban_traffic", b, (L : Int), 60000⟩ (some x) t =
      (⟨modeName (!urban), b!"urban_traffic", x, (t : Int), 60000⟩, true)) ∧
    (¬(L + 60000 ≤ t ∧ LevelDone urban x) → Scenario.update ⟨modeName urban, b!"urban_traffic", b, (L : Int), 60000⟩ (some x) t =
      (⟨modeName urban, b!"urban_traffic", x, (L : Int), 60000⟩, false)) := by
  have fl : lowBattery.IsFin := by rw [← finite_iff]; decide +kernel
  have ff : fullBattery.IsFin := by rw [← finite_iff]; decide +kernel
  have ne : b!"battery_charging" ≠ b!"urban_traffic" := by decide
  have hl := fle_units hx.fin fl
  have hf := fle_units ff hx.fin
  rw [low_units] at hl
  constructor
  · rintro ⟨h1, h2⟩
    unfold Scenario.update
    simp only [Option.getD_some]
    rw [if_neg (by omega)]
    unfold Scenario.next LevelDone at *
    cases urban
    · simp only [modeName, Bool.false_eq_true, if_false, Bool.not_false, if_true] at h2 ⊢
      rw [if_neg ne, hf.2 h2, if_pos rfl, if_neg ne]
    · simp only [modeName, if_true, Bool.not_true, Bool.false_eq_true, if_false] at h2 ⊢
      rw [hl.2 h2, if_pos rfl, if_neg (Ne.symm ne)]
  · intro h
    unfold Scenario.update
    simp only [Option.getD_some]
    by_cases h1 : L + 60000 ≤ t
    · rw [if_neg (by omega)]
      have h2 : ¬LevelDone urban x := fun k => h ⟨h1, k⟩
      unfold Scenario.next LevelDone at *
      cases urban
      · simp only [modeName, Bool.false_eq_true, if_false] at h2 ⊢
        simp [ne, Bool.eq_false_iff.2 (fun k => h2 (hf.1 k))]
      · simp only [modeName, if_true] at h2 ⊢
        rw [if_neg (fun k => h2 (hl.1 k)), if_pos rfl]
    · rw [if_pos (by omega)]

theorem table_path {d : Draws} (hd : d.Good) {p : Bytes} (h : p ∈ vssSensors.map VssSensor.path) (t : Nat) : p ∈ d.order t := (hd.order t).mem_iff.2 h

theorem afterVisits_one {d : Draws} (hd : d.Good) {ss : List SensorData} {p : Bytes} (hp : p ∈ vssSensors.map VssSensor.path) {s : SensorData} {t : Nat}
    (hs : sensorOf ss p = some s) : sensorOf (afterVisits d t (d.order t) ss) p = some (if dueNow t s then s.next (d.read t p) t else s) := by
  have e := (sensorOf_some hs).2
  unfold afterVisits
  rw [sensorOf_map (fun x _ => by split <;> simp [next_path]), hs, Option.map_some, e]
  have := table_path hd hp t
  simp [this]

theorem visits_going {d : Draws} (hd : d.Good) {t : Nat} {r : Trip} (h : Going r) :
    ∃ r', Trip.visits d t (d.order t) (r.note t) = .ok (some r') ∧ Going r' ∧ r'.vehicle = afterVisits d t (d.order t) r.vehicle ∧ r'.state = r.state ∧
      r'.transitions = r.transitions ∧ r'.sim = r.sim.run isEqual (taken d t r.vehicle (d.order t)) := by
  have gt : Tied (r.note t) := h.tied
  obtain ⟨r2, e2, t2, v2, s2, w2, w3, -⟩ := visits_eq d t (d.order t) (r.note t) ((hd.order t).nodup_iff.2 table_facts.1) h.listed.sound gt
  have hv2 : r2.vehicle = afterVisits d t (d.order t) r.vehicle := v2
  have hw : r2.state = r.state := w2
  refine ⟨r2, e2, ⟨?_, t2, ?_⟩, hv2, hw, w3, s2⟩
  · rw [hv2]
    exact h.listed.of_erase (afterVisits_erase ..)
  · rw [hw]
    exact h.modes

theorem cycle_visits {d : Draws} (hd : d.Good) {urban : Bool} {c L t : Nat} (ht : 100 ∣ t) {r : Trip} (h : Cycle urban c L t r) :
    ∃ r', Trip.visits d t (d.order t) (r.note t) = .ok (some r') ∧ Cycle urban c L (t + 100) r' ∧
      r'.vehicle = afterVisits d t (d.order t) r.vehicle ∧ r'.transitions = r.transitions := by
  obtain ⟨r', e, g, v, w, tr, -⟩ := visits_going hd h.going (t := t)
  refine ⟨r', e, ⟨g, by rw [w]; exact h.state, ?_⟩, v, tr⟩
  obtain ⟨s, x, h1, h2, h3, h4⟩ := h.level
  have h5 := levelBy_next h3 ht h4
  rw [v]
  refine ⟨_, _, afterVisits_one hd (by decide +kernel) h1, ?_, ?_, h5⟩
  · by_cases hd2 : 200 ∣ t
    · rw [if_pos hd2, if_pos (show dueNow t s by unfold dueNow; rw [h2.interval]; exact Int.natCast_dvd_natCast.2 hd2)]
      exact h2.next _ _
    · rw [if_neg hd2, if_neg (show ¬dueNow t s by unfold dueNow; rw [h2.interval]; exact fun k => hd2 (Int.natCast_dvd_natCast.1 k))]
      exact h2
  · split
    · exact step_charge h3
    · exact h3

/-- One time step: the mode stays, unless a minute has passed and the level is reached. -/
theorem cycle_tick {d : Draws} (hd : d.Good) {urban : Bool} {c L t : Nat} (ht : 100 ∣ t) {r : Trip} (h : Cycle urban c L t r) :
    ∃ r', r.tick d t = .ok (some r') ∧
      (Cycle urban c L (t + 100) r' ∧ r'.vehicle = afterVisits d t (d.order t) r.vehicle ∧ r'.transitions = r.transitions ∧ (t < L + 60000 ∨ t < 200 * c) ∨
      L + 60000 ≤ t ∧ Cycle (!urban) (readsBefore t + 5000) t (t + 100) r' ∧ r'.transitions.length = r.transitions.length + 1 ∧
        ∃ ss, mixedSettings (d.switch t).1 (d.switch t).2 (modeName (!urban)) r.vehicle = .ok ss ∧ Listed ss ∧ r'.vehicle = afterVisits d t (d.order t) ss) := by
  obtain ⟨b, hb⟩ := h.state
  obtain ⟨s, x, h1, h2, h3, h4⟩ := h.level
  have hl := level_of h1 h2
  obtain ⟨u1, u2⟩ := update_mode (urban := urban) (b := b) h3 (L := L) (t := t)
  by_cases hc : L + 60000 ≤ t ∧ LevelDone urban x
  · obtain ⟨ss, e, hls⟩ := mixedSettings_ok (u := (d.switch t).1) (u' := (d.switch t).2) (scenario := modeName (!urban)) (by cases urban; exact .inl rfl; exact .inr rfl) h.going.listed
    have hsw : r.switch d t = .ok { r with
        vehicle := ss
        state := some ⟨modeName (!urban), b!"urban_traffic", x, (t : Int), 60000⟩
        sim := { r.sim with sensors := vehicleValues ss }
        transitions := r.transitions ++ [⟨t, b!"urban_traffic", modeName (!urban), x, r.transitions.length + 1⟩] } := by
      unfold Trip.switch
      rw [hb]
      dsimp only
      rw [hl, u1 hc]
      dsimp only
      rw [e]
      rfl
    obtain ⟨s', b1, b2⟩ := h2.mixed h1 e
    obtain ⟨r', v1, v2, v3, v4⟩ := cycle_visits hd ht (urban := !urban) (c := readsBefore t + 5000) (L := t) (t := t) (r := { r with
        vehicle := ss
        state := some ⟨modeName (!urban), b!"urban_traffic", x, (t : Int), 60000⟩
        sim := { r.sim with sensors := vehicleValues ss }
        transitions := r.transitions ++ [⟨t, b!"urban_traffic", modeName (!urban), x, r.transitions.length + 1⟩] })
      ⟨⟨hls, rfl, fun st hst => by cases hst; exact ⟨by cases urban; exact .inl rfl; exact .inr rfl, rfl⟩⟩, ⟨_, rfl⟩, s', x, b1, b2, h3, levelBy_first h3 (Nat.le_refl _)⟩
    refine ⟨r', ?_, .inr ⟨hc.1, v2, ?_, ss, e, hls, v3⟩⟩
    · unfold Trip.tick
      rw [hsw]
      exact v1
    · rw [v4, List.length_append]; rfl
  · have hsw : r.switch d t = .ok { r with state := some ⟨modeName urban, b!"urban_traffic", x, (L : Int), 60000⟩ } := by
      unfold Trip.switch
      rw [hb]
      dsimp only
      rw [hl, u2 hc]
    obtain ⟨r', v1, v2, v3, v4⟩ := cycle_visits hd ht (urban := urban) (c := c) (L := L) (t := t)
      (r := { r with state := some ⟨modeName urban, b!"urban_traffic", x, (L : Int), 60000⟩ })
      ⟨⟨h.going.listed, h.going.tied, fun st hst => by cases hst; exact ⟨by cases urban; exact .inr rfl; exact .inl rfl, rfl⟩⟩, ⟨_, rfl⟩, s, x, h1, h2, h3, h4⟩
    refine ⟨r', ?_, .inl ⟨v2, v3, v4, ?_⟩⟩
    · unfold Trip.tick
      rw [hsw]
      exact v1
    · by_cases h6 : t < L + 60000
      · exact .inl h6
      · by_cases h7 : t < 200 * c
        · exact .inr h7
        · exact absurd ⟨by omega, levelBy_done h4 (by omega)⟩ hc

/-! ### The whole run -/

/-- What is known of the vehicle: `K n urban L t ss` after `n` returns to traffic, in a mode entered at `L`, before time `t`. -/
structure Accompanies (d : Draws) (K : Nat → Bool → Nat → Nat → List SensorData → Prop) : Prop where
  stay : ∀ {n b L t ss}, 100 ∣ t → L ≤ t → K n b L t ss → K n b L (t + 100) (afterVisits d t (d.order t) ss)
  charge : ∀ {n L t ss ss'}, L + 60000 ≤ t → K n true L t ss → mixedSettings (d.switch t).1 (d.switch t).2 (modeName false) ss = .ok ss' → K n false t t ss'
  drive : ∀ {n L t ss ss'}, K n false L t ss → mixedSettings (d.switch t).1 (d.switch t).2 (modeName true) ss = .ok ss' → K (n + 1) true t t ss'

theorem experiment_tick {d : Draws} {sc : Bytes} {t : Nat} {r r' : Trip} (ht : 100 ∣ t) (h : experiment t d sc = .ok (some r)) (hr : r.tick d t = .ok (some r')) :
    experiment (t + 100) d sc = .ok (some r') := by
  unfold experiment at *
  cases hs : Trip.start d sc with
  | err => rw [hs] at h; cases h
  | panic => rw [hs] at h; cases h
  | ok r₀ =>
    rw [hs] at h
    change Trip.loop d (loopTimes t simStep 0) r₀ = _ at h
    show Trip.loop d (loopTimes (t + simStep) simStep 0) r₀ = _
    rw [loopTimes_snoc (step := simStep) (by decide) t 0 (by omega) (by omega) ht, loop_append d _ _ _ _ h, Trip.loop, hr]
    rfl

/-- The mode ends. -/
theorem phase {d : Draws} (hd : d.Good) {K : Nat → Bool → Nat → Nat → List SensorData → Prop} (hK : Accompanies d K) {urban : Bool} {c L n : Nat} :
    ∀ (fuel t : Nat) (r : Trip), L + 60000 + 200 * c < t + 100 * fuel → 100 ∣ t → L ≤ t → t ≤ max (L + 60000) (200 * c) + 100 →
      experiment t d b!"mixed_scenario" = .ok (some r) → Cycle urban c L t r → K n urban L t r.vehicle →
      ∃ t' r', 100 ∣ t' ∧ t' ≤ max (L + 60000) (200 * c) + 200 ∧ experiment (t' + 100) d b!"mixed_scenario" = .ok (some r') ∧
        Cycle (!urban) (readsBefore t' + 5000) t' (t' + 100) r' ∧ K (if urban then n else n + 1) (!urban) t' (t' + 100) r'.vehicle ∧
        r'.transitions.length = r.transitions.length + 1 := by
  intro fuel
  induction fuel with
  | zero =>
    intro t r h0 ht hL hb he hc hk
    obtain ⟨r1, e1, h1 | ⟨h1, h2, h3, ss, h4, -, h5⟩⟩ := cycle_tick hd ht hc
    · omega
    · refine ⟨t, r1, ht, by omega, experiment_tick ht he e1, h2, ?_, h3⟩
      rw [h5]
      cases urban
      · exact hK.stay ht (Nat.le_refl _) (hK.drive hk h4)
      · exact hK.stay ht (Nat.le_refl _) (hK.charge h1 hk h4)
  | succ fuel ih =>
    intro t r h0 ht hL hb he hc hk
    obtain ⟨r1, e1, ⟨h1, h2, h3, h4⟩ | ⟨h1, h2, h3, ss, h4, -, h5⟩⟩ := cycle_tick hd ht hc
    · obtain ⟨t', r', k1, k2, k3, k4, k5, k6⟩ := ih (t + 100) r1 (by omega) (by omega) (by omega) (by omega) (experiment_tick ht he e1) h1
        (by rw [h2]; exact hK.stay ht hL hk)
      exact ⟨t', r', k1, k2, k3, k4, k5, by rw [k6, h3]⟩
    · refine ⟨t, r1, ht, by omega, experiment_tick ht he e1, h2, ?_, h3⟩
      rw [h5]
      cases urban
      · exact hK.stay ht (Nat.le_refl _) (hK.drive hk h4)
      · exact hK.stay ht (Nat.le_refl _) (hK.charge h1 hk h4)

theorem cycle_start {d : Draws} (hd : d.Good) : ∃ r₀, experiment 0 d b!"mixed_scenario" = .ok (some r₀) ∧ Cycle true 5000 0 0 r₀ ∧ r₀.transitions = [] ∧
    FirstVehicle b!"mixed_scenario" r₀.vehicle := by
  have hs : b!"mixed_scenario" ∈ scenarioNames := by decide
  obtain ⟨r₀, e₀, ht⟩ := start_tame hd hs
  obtain ⟨r₀', o⟩ := outcome_zero hd hs
  obtain rfl : r₀ = r₀' := by have := o.start; rw [e₀] at this; cases this; rfl
  have he : experiment 0 d b!"mixed_scenario" = .ok (some r₀) := o.runs
  refine ⟨r₀, he, ⟨ht.going, ⟨_, by rw [o.state₀, if_pos rfl]; rfl⟩, ?_⟩, ?_, o.first⟩
  · obtain ⟨s, h1, h2, h3, h4⟩ := o.first.battery rfl
    have hw : s.wipe ∈ (sampleVehicle b!"mixed_scenario").map SensorData.wipe := by rw [← o.first.wipe]; exact List.mem_map_of_mem h1
    obtain ⟨s0, hs0, hsw⟩ := List.mem_map.1 hw
    obtain ⟨e1, -, -, e2, e3, e4, e5⟩ := wipe_fields hsw
    have chk : ((sampleVehicle b!"mixed_scenario").all fun s => decide (s.path ≠ batteryPath) || (decide (s.type = b!"number") && decide (s.interval = 200) &&
        decide (s.pattern = b!"linear") && decide (s.params = [(b!"slope", dec (-1) 10), (b!"min", dec 0 1), (b!"max", dec 100 1)]))) = true := by decide +kernel
    have hc := List.all_eq_true.1 chk s0 hs0
    rw [decide_eq_false (fun q => q (e1.trans h2)), Bool.false_or] at hc
    simp only [Bool.and_eq_true, decide_eq_true_eq] at hc
    obtain ⟨⟨⟨c1, c2⟩, c3⟩, c4⟩ := hc
    rw [e2] at c1
    rw [e3] at c2
    rw [e4] at c3
    rw [e5] at c4
    have hp : ∀ k, s.param k = (mget [(b!"slope", dec (-1) 10), (b!"min", dec 0 1), (b!"max", dec 100 1)] k).getD F64.zero := fun k => by
      unfold SensorData.param; rw [c4]
    have hx : Charge (dec 60 1) := ⟨dec_fin (by decide +kernel), by decide +kernel, by decide +kernel⟩
    refine ⟨s, dec 60 1, ?_, ⟨h2, h3, c1, c2, c3, by rw [hp]; rfl, by rw [hp]; rfl, by rw [hp]; rfl, h4⟩, hx, levelBy_first hx (by decide)⟩
    rw [← h2]
    exact sensorOf_mem o.first.sound.paths h1
  · have := o.start
    unfold Trip.start at this
    cases h1 : firstVehicle d b!"mixed_scenario" with
    | err => rw [h1] at this; cases this
    | panic => rw [h1] at this; cases this
    | ok ss =>
      rw [h1] at this
      simp only [Res.bind] at this
      cases h2 : vehicleJson [] (d.jsonOrder (docSensors d ss)) with
      | err => rw [h2] at this; cases this
      | panic => rw [h2] at this; cases this
      | ok j =>
        rw [h2] at this
        simp only [] at this
        cases h3 : vehicleTson [] (d.tsonOrder (docSensors d ss)) with
        | err => rw [h3] at this; cases this
        | panic => rw [h3] at this; cases this
        | ok q =>
          rw [h3] at this
          cases this
          rfl

theorem reads_bound (t : Nat) : 200 * (readsBefore t + 5000) ≤ t + 1000199 := by
  unfold readsBefore
  omega

theorem cycles {d : Draws} (hd : d.Good) {K : Nat → Bool → Nat → Nat → List SensorData → Prop} (hK : Accompanies d K)
    (h0 : ∀ ss, FirstVehicle b!"mixed_scenario" ss → K 0 true 0 0 ss) (n : Nat) :
    ∃ L t c r, L ≤ t ∧ t ≤ L + 100 ∧ 100 ∣ t ∧ t ≤ 2001000 * n ∧ 200 * c ≤ t + 1000200 ∧ experiment t d b!"mixed_scenario" = .ok (some r) ∧ Cycle true c L t r ∧ K n true L t r.vehicle ∧
      r.transitions.length = 2 * n := by
  induction n with
  | zero =>
    obtain ⟨r₀, e, hc, h1, h2⟩ := cycle_start hd
    exact ⟨0, 0, 5000, r₀, Nat.le_refl _, by decide, ⟨0, rfl⟩, Nat.le_refl _, by decide, e, hc, h0 _ h2, by rw [h1]; rfl⟩
  | succ n ih =>
    obtain ⟨L, t, c, r, a1, a1', a2, a3, a4, a5, a6, a7, a8⟩ := ih
    obtain ⟨t1, r1, b1, b2, b3, b4, b5, b6⟩ := phase hd hK (L + 60000 + 200 * c + 1) t r (by omega) a2 a1 (by omega) a5 a6 a7
    have w1 := reads_bound t1
    generalize readsBefore t1 + 5000 = c1 at b4 w1
    obtain ⟨t2, r2, d1, d2, d3, d4, d5, d6⟩ := phase hd hK (t1 + 60000 + 200 * c1 + 1) (t1 + 100) r1 (by omega) (by omega) (by omega) (by omega) b3 b4 b5
    have w2 := reads_bound t2
    generalize readsBefore t2 + 5000 = c2 at d4 w2
    exact ⟨t2, t2 + 100, c2, r2, by omega, by omega, by omega, by omega, by omega, d3, d4, d5, by omega⟩

/-! ### The scenario goes on switching -/

theorem loopTimes_cut {step dur : Nat} (hs : 0 < step) : ∀ (n s : Nat), s + step * n ≤ dur →
    loopTimes dur step s = loopTimes (s + step * n) step s ++ loopTimes dur step (s + step * n)
  | 0, s, _ => by
    rw [Nat.mul_zero, Nat.add_zero, show loopTimes s step s = [] by rw [loopTimes, if_neg (by omega)]]
    rfl
  | n + 1, s, h => by
    have e : s + step * (n + 1) = s + step + step * n := by rw [Nat.mul_add, Nat.mul_one]; omega
    rw [e] at h ⊢
    rw [loopTimes, if_pos ⟨by omega, hs⟩, loopTimes_cut hs n (s + step) h]
    conv => rhs; rw [loopTimes, if_pos ⟨by omega, hs⟩]
    rfl

theorem switch_grows {d : Draws} {t : Nat} {r r' : Trip} (h : r.switch d t = .ok r') : r.transitions.length ≤ r'.transitions.length := by
  unfold Trip.switch at h
  split at h
  · cases h; exact Nat.le_refl _
  · rename_i st hst
    cases hu : st.update (batteryLevel r.vehicle) t with
    | mk st' b =>
      rw [hu] at h
      cases b with
      | false => cases h; exact Nat.le_refl _
      | true =>
        dsimp only at h
        cases hm : mixedSettings (d.switch t).1 (d.switch t).2 st'.current r.vehicle with
        | err => rw [hm] at h; cases h
        | panic => rw [hm] at h; cases h
        | ok ss =>
          rw [hm] at h
          cases h
          dsimp only
          rw [List.length_append]
          omega

theorem loop_grows {d : Draws} (hd : d.Good) : ∀ (ts : List Nat) {r : Trip}, Going r →
    ∃ r', Trip.loop d ts r = .ok (some r') ∧ r.transitions.length ≤ r'.transitions.length
  | [], r, _ => ⟨r, rfl, Nat.le_refl _⟩
  | t :: ts, r, h => by
    obtain ⟨r1, e1, g1, -⟩ := switch_any (d := d) (t := t) h
    obtain ⟨r2, e2, g2, -, -, w, -⟩ := visits_going hd g1 (t := t)
    obtain ⟨r', e', k⟩ := loop_grows hd ts g2
    refine ⟨r', ?_, ?_⟩
    · rw [Trip.loop, Trip.tick, e1]
      show Res.bind (Trip.visits d t (d.order t) (r1.note t)) _ = _
      rw [e2]
      exact e'
    · have := switch_grows e1
      rw [w] at k
      omega

/-- **C81, switches.**  The mixed scenario goes on switching, whatever is drawn: with every 2001 seconds the battery is emptied and charged at least
once more. -/
theorem C81_switches {d : Draws} (hd : d.Good) {n dur : Nat} (hdur : 2001000 * n ≤ dur) :
    ∃ r, experiment dur d b!"mixed_scenario" = .ok (some r) ∧ 2 * n ≤ r.transitions.length := by
  obtain ⟨L, t, c, r, -, -, ⟨m, rfl⟩, a3, -, a5, a6, -, a8⟩ := cycles hd (K := fun _ _ _ _ _ => True) ⟨fun _ _ _ => trivial, fun _ _ _ => trivial, fun _ _ => trivial⟩
    (fun _ _ => trivial) n
  obtain ⟨r', e, k⟩ := loop_grows hd (loopTimes dur simStep (100 * m)) a6.going
  refine ⟨r', ?_, by omega⟩
  unfold experiment at a5 ⊢
  cases hs : Trip.start d b!"mixed_scenario" with
  | err => rw [hs] at a5; cases a5
  | panic => rw [hs] at a5; cases a5
  | ok r₀ =>
    rw [hs] at a5
    change Trip.loop d (loopTimes (100 * m) simStep 0) r₀ = _ at a5
    show Trip.loop d (loopTimes dur simStep 0) r₀ = _
    have := loopTimes_cut (step := simStep) (dur := dur) (by decide) m 0 (by show 0 + 100 * m ≤ dur; omega)
    rw [Nat.zero_add, show simStep * m = 100 * m from rfl] at this
    rw [this, loop_append d _ _ _ _ a5]
    exact e

example : ∃ r, experiment 20010000 exDraws b!"mixed_scenario" = .ok (some r) ∧ 20 ≤ r.transitions.length :=
  C81_switches exDraws_good (n := 10) (by decide)

/-! ### A tire -/

/-- The path of the tire. -/
def tirePath : Bytes := b!"Vehicle.Chassis.Axle.Row1.Wheel.Left.Tire.Pressure"

/-- The noise of the tire, and what it adds if 0.75 is drawn. -/
def tireNoise : F64 := mul (F64.sub (dec 4 1) (dec 0 1)) (dec 1 100)

@[inherit_doc tireNoise]
def tireStep : F64 := mul (spread (dec 75 100)) tireNoise

theorem tire_sum {b : F64} (hb : b.IsFin) (h0 : 0 ≤ b.units) (h1 : b.units ≤ 5 * oneUnits) : (add b tireStep).IsFin ∧
    1000 * b.units + 19 * oneUnits ≤ 1000 * (add b tireStep).units ∧ 1000 * (add b tireStep).units ≤ 1000 * b.units + 21 * oneUnits ∧
    isEqual (.num b) (.num (add b tireStep)) = false := by
  have he : tireStep.IsFin := by rw [← finite_iff]; decide +kernel
  have c : 19999 * oneUnits ≤ 1000000 * tireStep.units ∧ 1000000 * tireStep.units ≤ 20001 * oneUnits := by decide +kernel
  have hbig := oneUnits_big
  have herr := sum_error_wide hb he (by omega)
  have f0 : (dec 0 1).IsFin := dec_fin (by decide +kernel)
  have f1 : (dec 100 1).IsFin := dec_fin (by decide +kernel)
  have c0 : (dec 0 1).units = 0 := by decide +kernel
  have c1 : (dec 100 1).units = 100 * oneUnits := by decide +kernel
  have hf : (add b tireStep).IsFin := fin_between f0 f1 (add_ne_nan hb he.ne_nan) (by rw [f0.key_eq, c0]; omega) (by rw [f1.key_eq, c1]; omega)
  rw [hf.key_eq] at herr
  refine ⟨hf, by omega, by omega, ?_⟩
  cases hq : isEqual (.num b) (.num (add b tireStep)) with
  | false => rfl
  | true =>
    obtain ⟨-, -, h3⟩ := C82_close hq
    have := close_small
    omega

theorem tire_entry : ∃ v ∈ vssSensors, v.path = tirePath ∧ v.urban = b!"constant_with_noise" ∧ v.charging = b!"constant" ∧ v.min = dec 0 1 ∧ v.max = dec 4 1 ∧ v.type = b!"number" := by
  decide +kernel

/-- What is known of the tire after up to a hundred returns: the noise is around a value that grew with each of them. -/
def TireAt (n : Nat) (urban : Bool) (L t : Nat) (ss : List SensorData) : Prop :=
  n ≤ 100 → ∃ s b, sensorOf ss tirePath = some s ∧ s.type = b!"number" ∧ s.interval = 10000 ∧ b.IsFin ∧
    2199 * oneUnits + 19 * (oneUnits * n) ≤ 1000 * b.units ∧ 1000 * b.units ≤ 2201 * oneUnits + 21 * (oneUnits * n) ∧
    if urban = true then s.pattern = b!"constant_with_noise" ∧ s.param b!"baseline" = b ∧ s.param b!"noise" = tireNoise ∧
      (s.value = .num (add b tireStep) ∨ s.value = .num b ∧ ∀ t', L ≤ t' → t' < t → ¬10000 ∣ t')
    else s.pattern = b!"constant" ∧ s.value = .num (add b tireStep)

theorem noise_param (f g : F64) : (mget [(b!"baseline", f), (b!"noise", g)] b!"noise").getD F64.zero = g := rfl

theorem tire_bound {n : Nat} (hn : n ≤ 100) {b : F64} (h1 : 2199 * oneUnits + 19 * (oneUnits * n) ≤ 1000 * b.units)
    (h2 : 1000 * b.units ≤ 2201 * oneUnits + 21 * (oneUnits * n)) : 0 ≤ b.units ∧ b.units ≤ 5 * oneUnits := by
  have hb := oneUnits_big
  have k1 : oneUnits * (n : Int) ≤ oneUnits * 100 := Int.mul_le_mul_of_nonneg_left (by omega) (by omega)
  have k2 : 0 ≤ oneUnits * (n : Int) := Int.mul_nonneg (by omega) (by omega)
  omega

theorem tire_follows {d : Draws} (hd : d.Good) (hu : ∀ t, (d.read t tirePath).u 0 = dec 75 100) : Accompanies d TireAt where
  stay := by
    intro n urban L t ss ht hL h hn
    obtain ⟨s, b, h1, h2, h3, h4, h5, h6, h7⟩ := h hn
    obtain ⟨b0, b5⟩ := tire_bound hn h5 h6
    obtain ⟨k1, k2, k3, k4⟩ := tire_sum h4 b0 b5
    refine ⟨_, b, afterVisits_one hd (by decide +kernel) h1, ?_, ?_, h4, h5, h6, ?_⟩
    · split
      · rw [next_number h2]; exact h2
      · exact h2
    · split
      · rw [next_number h2]; exact h3
      · exact h3
    · cases urban
      · simp only [Bool.false_eq_true, if_false] at h7 ⊢
        obtain ⟨p1, p2⟩ := h7
        split
        · rw [next_number h2]
          have hv : (newNumber (d.read t tirePath) { s with counter := s.counter + 1 } t).1 = .num (add b tireStep) := by
            unfold newNumber
            dsimp only
            rw [p2]
            dsimp only
            rw [if_pos p1]
          refine ⟨p1, ?_⟩
          show (if isEqual s.value _ = true then s.value else _) = _
          rw [hv, p2, ite_self]
        · exact ⟨p1, p2⟩
      · simp only [if_true] at h7 ⊢
        obtain ⟨p1, p2, p3, p4⟩ := h7
        by_cases hdue : 10000 ∣ t
        · rw [if_pos (show dueNow t s by unfold dueNow; rw [h3]; exact Int.natCast_dvd_natCast.2 hdue), next_number h2]
          have hv : (newNumber (d.read t tirePath) { s with counter := s.counter + 1 } t).1 = .num (add b tireStep) := by
            have hnum : ∃ cur, s.value = .num cur := by rcases p4 with p4 | ⟨p4, -⟩ <;> exact ⟨_, p4⟩
            obtain ⟨cur, hcur⟩ := hnum
            unfold newNumber
            dsimp only
            rw [hcur]
            dsimp only
            rw [p1, if_neg (by decide), if_pos rfl, hu]
            show Js.num (add (s.param b!"baseline") (mul (spread (dec 75 100)) (s.param b!"noise"))) = _
            rw [p2, p3]
            rfl
          refine ⟨p1, p2, p3, .inl ?_⟩
          show (if isEqual s.value _ = true then s.value else _) = _
          rw [hv]
          rcases p4 with p4 | ⟨p4, -⟩
          · rw [p4, ite_self]
          · rw [p4, k4]
            rfl
        · rw [if_neg (show ¬dueNow t s by unfold dueNow; rw [h3]; exact fun k => hdue (Int.natCast_dvd_natCast.1 k))]
          refine ⟨p1, p2, p3, p4.imp id fun ⟨q1, q2⟩ => ⟨q1, fun t' c1 c2 c3 => ?_⟩⟩
          by_cases hlt : t' < t
          · exact q2 t' c1 hlt c3
          · have : t' = t := by omega
            exact hdue (this ▸ c3)
  charge := by
    intro n L t ss ss' hL h hm hn
    obtain ⟨s, b, h1, h2, h3, h4, h5, h6, h7⟩ := h hn
    simp only [if_true] at h7
    obtain ⟨p1, p2, p3, p4⟩ := h7
    have hv : s.value = .num (add b tireStep) := by
      rcases p4 with p4 | ⟨-, p5⟩
      · exact p4
      · exact absurd ⟨(L + 9999) / 10000, rfl⟩ (p5 (10000 * ((L + 9999) / 10000)) (by omega) (by omega))
    obtain ⟨ss1, s1, q1, q2, q3⟩ := mixed_one hm h1
    obtain ⟨v, hvm, e1, e2, e3, e4, e5, -⟩ := tire_entry
    have hf := find_entry hvm
    have hp := (sensorOf_some h1).2
    rw [e1, ← hp] at hf
    unfold SensorData.updatePattern at q1
    rw [hf] at q1
    have hpat : v.pattern? (modeName false) = some b!"constant" := congrArg some e3
    simp only [hpat] at q1
    cases q1
    rw [if_neg (by decide)] at q3
    have hs' : sensorOf ss' tirePath = sensorOf ss1 tirePath := by
      rw [q3, charging_apart (by decide), onSensor_apart (by decide)]
      intro s; exact ifPattern_path ..
    refine ⟨_, b, hs'.trans q2, h2, h3, h4, h5, h6, ?_⟩
    rw [if_neg (by decide)]
    exact ⟨rfl, hv⟩
  drive := by
    intro n L t ss ss' h hm hn
    obtain ⟨s, b, h1, h2, h3, h4, h5, h6, h7⟩ := h (by omega)
    simp only [Bool.false_eq_true, if_false] at h7
    obtain ⟨p1, p2⟩ := h7
    obtain ⟨b0, b5⟩ := tire_bound (by omega) h5 h6
    obtain ⟨k1, k2, k3, k4⟩ := tire_sum h4 b0 b5
    obtain ⟨ss1, s1, q1, q2, q3⟩ := mixed_one hm h1
    obtain ⟨v, hvm, e1, e2, e3, e4, e5, -⟩ := tire_entry
    have hf := find_entry hvm
    have hp := (sensorOf_some h1).2
    rw [e1, ← hp] at hf
    unfold SensorData.updatePattern at q1
    rw [hf] at q1
    have hpat : v.pattern? (modeName true) = some b!"constant_with_noise" := congrArg some e2
    simp only [hpat] at q1
    unfold patternParams at q1
    dsimp only at q1
    rw [if_neg (by decide), if_neg (by decide), if_neg (by decide), if_pos rfl, p2, e4, e5] at q1
    cases q1
    rw [if_pos rfl] at q3
    refine ⟨_, add b tireStep, (show sensorOf ss' tirePath = sensorOf ss1 tirePath by rw [q3, urban_apart (by decide)]).trans q2, h2, h3, k1, ?_, ?_, ?_⟩
    · rw [Int.natCast_add, Int.mul_add]; omega
    · rw [Int.natCast_add, Int.mul_add]; omega
    · rw [if_pos rfl]
      exact ⟨rfl, rfl, noise_param _ _, .inr ⟨rfl, fun t' c1 c2 => by omega⟩⟩

theorem tire_first {ss : List SensorData} (h : FirstVehicle b!"mixed_scenario" ss) : TireAt 0 true 0 0 ss := by
  intro _
  obtain ⟨v, hv, e1, -⟩ := tire_entry
  have hp : tirePath ∈ ss.map SensorData.path := by
    have := congrArg (List.map fun x => x.1) h.table
    rw [List.map_map, List.map_map] at this
    rw [show ss.map SensorData.path = vssSensors.map VssSensor.path from this, ← e1]
    exact List.mem_map_of_mem hv
  obtain ⟨s, h1, h2⟩ := List.mem_map.1 hp
  have hw : s.wipe ∈ (sampleVehicle b!"mixed_scenario").map SensorData.wipe := by rw [← h.wipe]; exact List.mem_map_of_mem h1
  obtain ⟨s0, hs0, hsw⟩ := List.mem_map.1 hw
  obtain ⟨k1, -, k2, k3, k4, k5, k6⟩ := wipe_fields hsw
  have chk : ((sampleVehicle b!"mixed_scenario").all fun s => decide (s.path ≠ tirePath) || (decide (s.type = b!"number") && decide (s.interval = 10000) &&
      decide (s.pattern = b!"constant_with_noise") && decide (s.params = [(b!"baseline", dec 22 10), (b!"noise", tireNoise)]) &&
      (match s.value with | .num x => decide (x = dec 22 10) | _ => false))) = true := by decide +kernel
  have hc := List.all_eq_true.1 chk s0 hs0
  rw [decide_eq_false (fun q => q (k1.trans h2)), Bool.false_or] at hc
  simp only [Bool.and_eq_true, decide_eq_true_eq] at hc
  obtain ⟨⟨⟨⟨c1, c2⟩, c3⟩, c4⟩, c5⟩ := hc
  rw [k3] at c1
  rw [k4] at c2
  rw [k5] at c3
  rw [k6] at c4
  have hval : s.value = .num (dec 22 10) := by
    rw [← k2 (by rw [k1, h2]; decide)]
    split at c5
    · rename_i x hx
      rw [hx, of_decide_eq_true c5]
    · cases c5
  have hq : ∀ k, s.param k = (mget [(b!"baseline", dec 22 10), (b!"noise", tireNoise)] k).getD F64.zero := fun k => by unfold SensorData.param; rw [c4]
  refine ⟨s, dec 22 10, by rw [← h2]; exact sensorOf_mem h.sound.paths h1, c1, c2, dec_fin (by decide +kernel), by decide +kernel, by decide +kernel, ?_⟩
  rw [if_pos rfl]
  exact ⟨c3, by rw [hq]; rfl, by rw [hq]; exact noise_param _ _, .inr ⟨hval, fun t' c1 c2 => by omega⟩⟩

/-- If the tire draws 0.75 with each reading, its pressure has left the limits of the table at some time
of the first 56 hours of the mixed scenario. -/
theorem tire_leaves {d : Draws} (hd : d.Good) (hu : ∀ t, (d.read t tirePath).u 0 = dec 75 100) :
    ∃ dur r, dur ≤ 200100000 ∧ experiment dur d b!"mixed_scenario" = .ok (some r) ∧
      ∃ s ∈ r.vehicle, s.path = tirePath ∧ ∃ x, s.value = .num x ∧ flt (dec 4 1) x = true := by
  obtain ⟨L, t, c, r, -, -, -, a3, -, a5, -, a7, -⟩ := cycles hd (tire_follows hd hu) (fun _ h => tire_first h) 100
  refine ⟨t, r, by omega, a5, ?_⟩
  obtain ⟨s, b, h1, -, -, h4, h5, h6, h7⟩ := a7 (Nat.le_refl _)
  obtain ⟨b0, b5⟩ := tire_bound (Nat.le_refl _) h5 h6
  obtain ⟨k1, k2, k3, -⟩ := tire_sum h4 b0 b5
  have hb := oneUnits_big
  have f4 : (dec 4 1).IsFin := dec_fin (by decide +kernel)
  have c4 : (dec 4 1).units = 4 * oneUnits := by decide +kernel
  simp only [if_true] at h7
  obtain ⟨hm, hp⟩ := sensorOf_some h1
  rcases h7.2.2.2 with h | ⟨h, -⟩
  · exact ⟨s, hm, hp, _, h, (flt_iff f4.ne_nan k1.ne_nan).2 (by rw [f4.key_eq, k1.key_eq, c4]; omega)⟩
  · exact ⟨s, hm, hp, _, h, (flt_iff f4.ne_nan h4.ne_nan).2 (by rw [f4.key_eq, h4.key_eq, c4]; omega)⟩

/-- Draws like those of `exDraws`, with readings that draw 0.75. -/
def highDraws : Draws := { exDraws with read := fun _ _ => ⟨fun _ => dec 75 100, [], fun _ => dec 0 1⟩ }

theorem highUnit : IsUnit (dec 75 100) := ⟨by decide +kernel, by decide +kernel⟩

theorem highSine : fle (dec (-1) 1) (dec 0 1) = true ∧ fle (dec 0 1) (dec 1 1) = true := by decide +kernel

theorem highDraws_good : highDraws.Good where
  first := exDraws_good.first
  switch := exDraws_good.switch
  read := fun _ _ => ⟨fun _ => highUnit, fun _ _ => highSine⟩
  order := exDraws_good.order
  json := exDraws_good.json
  tson := exDraws_good.tson

/-- **C83, violated.**  A run of the mixed scenario gets there: with each return to traffic the noise of the tire is around a pressure that is
higher by 0.02, and after a hundred returns the vehicle has a pressure above the limit of the table. -/
theorem C83_range_fails : ¬∀ (dur : Nat) (d : Draws), dur ≤ 2 ^ 53 → d.Good → ∀ r, experiment dur d b!"mixed_scenario" = .ok (some r) →
    ∀ v ∈ vssSensors, v.type = b!"number" → ∀ s ∈ r.vehicle, s.path = v.path → InRange v.min v.max s.value := by
  intro h
  obtain ⟨dur, r, h1, h2, s, h3, h4, x, h5, h6⟩ := tire_leaves highDraws_good (fun _ => rfl)
  obtain ⟨v, hv, e1, -, -, -, e5, e6⟩ := tire_entry
  have hr := h dur highDraws (by omega) highDraws_good r h2 v hv e6 s h3 (h4.trans e1.symm)
  rw [h5, e5] at hr
  obtain ⟨f, hf, -, hle⟩ := hr
  cases hf
  have hn := flt_ne_nan h6
  have := (flt_iff hn.1 hn.2).1 h6
  have := (fle_iff hn.2 hn.1).1 hle
  omega

end Verif
