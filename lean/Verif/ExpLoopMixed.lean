import Verif.ExpLoopStart
import Verif.FloatStep
import Verif.PropsExpEqual
/-
The mixed scenario: the battery level decides about the switches.
-/
namespace Verif
open F64

/-- The battery level after a reading in traffic. -/
def battNext (x : F64) : F64 :=
  let y := clamp (add x (F64.div (mul (dec (-1) 10) (F64.ofInt 200)) (dec 1000 1))) (dec 0 1) (dec 100 1)
  if isEqual (.num x) (.num y) then x else y

/-- The battery level after `n` readings in traffic. -/
def battIter : Nat → F64
  | 0 => dec 60 1
  | n + 1 => battNext (battIter n)

/-- What is subtracted for a reading. -/
def battDelta : F64 := .fin true 5764607523034235 (-58) (by decide)

theorem battDelta_eq : F64.div (mul (dec (-1) 10) (F64.ofInt 200)) (dec 1000 1) = battDelta := by decide +kernel

theorem sub_near {X Y Z D : Nat} (h : Y ≤ X) (h1 : 2 * D < 2 * Y + Z) : 2 * (X - Y + D) < 2 * X + Z := by omega

theorem sub_near' {X Y Z D : Nat} (h : Y ≤ X) (h1 : 2 * Y < 2 * D + Z) : 2 * X < 2 * (X - Y + D) + Z := by omega

/-- A reading that stays in the binade: the mantissa decreases by `c`. -/
theorem battNext_below {m c P M : Nat} {e : Int} {k : Nat} (hM : m ≤ M) (h : canon m e = true) (h' : canon (m - c) e = true) (hk : e = -58 + k) (hc : c ≤ m)
    (hP : 2 ^ (e + 1074).toNat = P)
    (c1 : closeUnits ≤ c * P) (c2 : (M : Int) * P ≤ (dec 100 1).units)
    (d1 : 2 * 5764607523034235 < 2 * (c * 2 ^ k) + 2 ^ k) (d2 : 2 * (c * 2 ^ k) < 2 * 5764607523034235 + 2 ^ k)
    (hm : 2 ^ 52 * 2 ^ k + 5764607523034235 ≤ m * 2 ^ k) : battNext (.fin false m e h) = .fin false (m - c) e h' := by
  have hck : c * 2 ^ k ≤ m * 2 ^ k := Nat.mul_le_mul_right _ hc
  have ha : add (.fin false m e h) battDelta = .fin false (m - c) e h' := by
    unfold battDelta
    clear c1 c2 hP
    refine add_near h (by decide) h' hk hm ?_ ?_
    · rw [Nat.sub_mul]
      exact sub_near hck d1
    · rw [Nat.sub_mul]
      exact sub_near' hck d2
  have hcP : c * P ≤ m * P := Nat.mul_le_mul_right _ hc
  have hu : (F64.fin false m e h).units = ((m * P : Nat) : Int) := by
    rw [units_eq]; unfold ulps; rw [hP]; rfl
  have hu' : (F64.fin false (m - c) e h').units = ((m * P : Nat) : Int) - ((c * P : Nat) : Int) := by
    rw [units_eq]; unfold ulps; rw [hP, Nat.sub_mul]
    generalize m * P = X at *
    generalize c * P = Y at *
    simp only [Bool.false_eq_true, if_false]
    omega
  have hlo : flt (F64.fin false (m - c) e h') (dec 0 1) = false := by
    rw [Bool.eq_false_iff]
    intro hf
    rw [flt_iff (by intro k; cases k) (by decide +kernel)] at hf
    have h0 : (dec 0 1).key = 0 := by decide +kernel
    rw [h0] at hf
    have hf' : (F64.fin false (m - c) e h').units < 0 := hf
    rw [hu'] at hf'
    generalize m * P = X at *
    generalize c * P = Y at *
    omega
  have hhi : flt (dec 100 1) (F64.fin false (m - c) e h') = false := by
    rw [Bool.eq_false_iff]
    intro hf
    rw [flt_iff (by decide +kernel) (by intro k; cases k)] at hf
    have h0 : (dec 100 1).key = (dec 100 1).units := by decide +kernel
    rw [h0] at hf
    have hf' : (dec 100 1).units < (F64.fin false (m - c) e h').units := hf
    rw [hu'] at hf'
    have h5 : m * P ≤ M * P := Nat.mul_le_mul_right _ hM
    have h6 : ((M * P : Nat) : Int) = (M : Int) * P := Int.natCast_mul _ _
    rw [← h6] at c2
    generalize m * P = X at *
    generalize c * P = Y at *
    generalize M * P = Z at *
    generalize (dec 100 1).units = W at *
    omega
  have heq : isEqual (.num (.fin false m e h)) (.num (.fin false (m - c) e h')) = false := by
    rw [Bool.eq_false_iff]
    intro hf
    obtain ⟨-, -, h5⟩ := C82_close hf
    rw [hu, hu'] at h5
    have h6 : ((c * P : Nat) : Int) = (c : Int) * P := Int.natCast_mul _ _
    rw [← h6] at c1
    generalize m * P = X at *
    generalize c * P = Y at *
    generalize closeUnits = W at *
    omega
  unfold battNext
  dsimp only
  have hcl : clamp (.fin false (m - c) e h') (dec 0 1) (dec 100 1) = .fin false (m - c) e h' := by
    unfold clamp
    rw [hlo, hhi]
    rfl
  rw [battDelta_eq, ha, hcl, heq]
  rfl

theorem battNext_step {m c P : Nat} {e : Int} {k : Nat} (h : canon m e = true) (h' : canon (m - c) e = true) (hk : e = -58 + k) (hc : c ≤ m)
    (hP : 2 ^ (e + 1074).toNat = P)
    (c1 : closeUnits ≤ c * P) (c2 : (2 : Int) ^ 53 * P ≤ (dec 100 1).units)
    (d1 : 2 * 5764607523034235 < 2 * (c * 2 ^ k) + 2 ^ k) (d2 : 2 * (c * 2 ^ k) < 2 * 5764607523034235 + 2 ^ k)
    (hm : 2 ^ 52 * 2 ^ k + 5764607523034235 ≤ m * 2 ^ k) : battNext (.fin false m e h) = .fin false (m - c) e h' :=
  battNext_below (M := 2 ^ 53) (Nat.le_of_lt (canon_iff.1 h).1) h h' hk hc hP c1 c2 d1 d2 hm

theorem canon_normal {m : Nat} {e : Int} (h1 : 2 ^ 52 ≤ m) (h2 : m < 2 ^ 53) (h3 : -1074 ≤ e) (h4 : e ≤ 971) : canon m e = true :=
  canon_iff.2 ⟨h2, h3, h4, .inl h1⟩

theorem iter_high : ∀ n, n ≤ 1399 → ∃ h, battIter n = .fin false (8444249301319680 - n * 2814749767107) (-47) h := by
  intro n
  induction n with
  | zero => intro _; exact ⟨by decide, by decide +kernel⟩
  | succ n ih =>
    intro hn
    obtain ⟨h, e⟩ := ih (by omega)
    have e2 : 8444249301319680 - (n + 1) * 2814749767107 = 8444249301319680 - n * 2814749767107 - 2814749767107 := by omega
    rw [e2]
    refine ⟨canon_normal (by omega) (by omega) (by decide) (by decide), ?_⟩
    rw [battIter, e]
    exact battNext_step (P := 2 ^ 1027) (k := 11) h _ rfl (by omega) rfl (by decide +kernel) (by decide +kernel) (by decide) (by decide) (by omega)

theorem iter_1400 : battIter 1400 = .fin false 9007199254739761 (-48) (by decide) := by
  obtain ⟨h, e⟩ := iter_high 1399 (by omega)
  rw [battIter, e]
  clear e
  revert h
  decide +kernel

theorem iter_mid : ∀ n, n ≤ 799 → ∃ h, battIter (1400 + n) = .fin false (9007199254739761 - n * 5629499534213) (-48) h := by
  intro n
  induction n with
  | zero => intro _; exact ⟨by decide, iter_1400⟩
  | succ n ih =>
    intro hn
    obtain ⟨h, e⟩ := ih (by omega)
    have e2 : 9007199254739761 - (n + 1) * 5629499534213 = 9007199254739761 - n * 5629499534213 - 5629499534213 := by omega
    rw [e2]
    refine ⟨canon_normal (by omega) (by omega) (by decide) (by decide), ?_⟩
    rw [← Nat.add_assoc, battIter, e]
    exact battNext_step (P := 2 ^ 1026) (k := 10) h _ rfl (by omega) rfl (by decide +kernel) (by decide +kernel) (by decide) (by decide) (by omega)

theorem iter_2200 : battIter 2200 = .fin false 9007199254738722 (-49) (by decide) := by
  obtain ⟨h, e⟩ := iter_mid 799 (by omega)
  rw [show 2200 = 1400 + 799 + 1 from rfl, battIter, e]
  clear e
  revert h
  decide +kernel

theorem iter_low : ∀ n, n ≤ 300 → ∃ h, battIter (2200 + n) = .fin false (9007199254738722 - n * 11258999068426) (-49) h := by
  intro n
  induction n with
  | zero => intro _; exact ⟨by decide, iter_2200⟩
  | succ n ih =>
    intro hn
    obtain ⟨h, e⟩ := ih (by omega)
    have e2 : 9007199254738722 - (n + 1) * 11258999068426 = 9007199254738722 - n * 11258999068426 - 11258999068426 := by omega
    rw [e2]
    refine ⟨canon_normal (by omega) (by omega) (by decide) (by decide), ?_⟩
    rw [← Nat.add_assoc, battIter, e]
    exact battNext_step (P := 2 ^ 1025) (k := 9) h _ rfl (by omega) rfl (by decide +kernel) (by decide +kernel) (by decide) (by decide) (by omega)

theorem above_low {m m₀ : Nat} {e : Int} {h : canon m e = true} {h₀ : canon m₀ e = true} (hm : m₀ ≤ m) (hl : fle (.fin false m₀ e h₀) lowBattery = false) :
    fle (.fin false m e h) lowBattery = false := by
  rw [Bool.eq_false_iff] at hl ⊢
  intro hf
  refine hl ?_
  have hn : lowBattery ≠ .nan := by decide +kernel
  rw [fle_iff (by intro k; cases k) hn] at hf ⊢
  refine Int.le_trans ?_ hf
  show (F64.fin false m₀ e h₀).units ≤ (F64.fin false m e h).units
  rw [units_eq, units_eq]
  unfold ulps
  have := Nat.mul_le_mul_right (2 ^ (e + 1074).toNat) hm
  generalize m₀ * 2 ^ (e + 1074).toNat = X at *
  generalize m * 2 ^ (e + 1074).toNat = Y at *
  simp only [Bool.false_eq_true, if_false]
  omega

/-- The battery is above the limit after fewer than 2500 readings. -/
theorem iter_above : ∀ n, n ≤ 2499 → fle (battIter n) lowBattery = false := by
  intro n hn
  by_cases h1 : n ≤ 1399
  · obtain ⟨h, e⟩ := iter_high n h1
    rw [e]
    exact above_low (m₀ := 8444249301319680 - 1399 * 2814749767107) (h₀ := by decide) (by omega) (by decide +kernel)
  · by_cases h2 : n ≤ 2199
    · obtain ⟨h, e⟩ := iter_mid (n - 1400) (by omega)
      rw [show 1400 + (n - 1400) = n by omega] at e
      rw [e]
      exact above_low (m₀ := 9007199254739761 - 799 * 5629499534213) (h₀ := by decide) (by omega) (by decide +kernel)
    · obtain ⟨h, e⟩ := iter_low (n - 2200) (by omega)
      rw [show 2200 + (n - 2200) = n by omega] at e
      rw [e]
      exact above_low (m₀ := 9007199254738722 - 299 * 11258999068426) (h₀ := by decide) (by omega) (by decide +kernel)

/-- After 2500 readings it is not. -/
theorem iter_2500 : battIter 2500 = .fin false 5629499534210922 (-49) (by decide) ∧ fle (battIter 2500) lowBattery = true := by
  obtain ⟨h, e⟩ := iter_low 300 (by omega)
  have e' : battIter 2500 = .fin false 5629499534210922 (-49) (by decide) := e
  refine ⟨e', ?_⟩
  rw [e']
  decide +kernel

/-- The settings of the battery sensor in traffic. -/
def isBattery (s : SensorData) : Bool :=
  decide (s.path = batteryPath) && decide (s.group = .medium) && decide (s.type = b!"number") && decide (s.pattern = b!"linear") &&
    decide (s.interval = 200) && decide (s.param b!"slope" = dec (-1) 10) && decide (s.param b!"min" = dec 0 1) && decide (s.param b!"max" = dec 100 1)

set_option maxRecDepth 100000 in
theorem sample_battery : ((sampleVehicle b!"mixed_scenario").all fun s => decide (s.path ≠ batteryPath) || isBattery s) = true := by decide +kernel

theorem isBattery_erase {s s' : SensorData} (h : s.erase = s'.erase) : isBattery s = isBattery s' := by
  obtain ⟨h1, h2, h3, h4, h5, h6⟩ := erase_fields h
  unfold isBattery SensorData.param
  rw [h1, h2, h3, h4, h5, h6]

/-- The vehicle has a battery of this level. -/
def Level (ss : List SensorData) (x : F64) : Prop := ∃ s ∈ ss, isBattery s = true ∧ s.value = .num x

theorem isBattery_iff {s : SensorData} : isBattery s = true ↔ s.path = batteryPath ∧ s.group = .medium ∧ s.type = b!"number" ∧
    s.pattern = b!"linear" ∧ s.interval = 200 ∧ s.param b!"slope" = dec (-1) 10 ∧ s.param b!"min" = dec 0 1 ∧ s.param b!"max" = dec 100 1 := by
  unfold isBattery
  simp only [Bool.and_eq_true, decide_eq_true_eq, and_assoc]

theorem first_level {ss : List SensorData} (h : FirstVehicle b!"mixed_scenario" ss) : Level ss (dec 60 1) := by
  obtain ⟨s, hm, e1, -, e3⟩ := h.battery rfl
  refine ⟨s, hm, ?_, e3⟩
  have hw : s.wipe ∈ (sampleVehicle b!"mixed_scenario").map SensorData.wipe := by rw [← h.wipe]; exact List.mem_map_of_mem hm
  obtain ⟨s0, h0, e0⟩ := List.mem_map.1 hw
  have h2 := List.all_eq_true.1 sample_battery s0 h0
  rw [Bool.or_eq_true, decide_eq_true_eq] at h2
  rcases h2 with h2 | h2
  · exact absurd ((wipe_fields e0).1.trans e1) h2
  · rw [← isBattery_erase (erase_of_wipe e0)]; exact h2

theorem level_battery {ss : List SensorData} (hn : (ss.map SensorData.path).Nodup) {x : F64} (h : Level ss x) : batteryLevel ss = some x := by
  obtain ⟨s, hm, hb, hv⟩ := h
  obtain ⟨e1, e2, -⟩ := isBattery_iff.1 hb
  unfold batteryLevel
  have : (ss.find? fun s => decide (s.group = .medium ∧ s.path = batteryPath)) = some s := by
    induction ss with
    | nil => cases hm
    | cons y ss ih =>
      rw [List.map_cons, List.nodup_cons] at hn
      rcases List.mem_cons.1 hm with rfl | hm'
      · rw [List.find?_cons_of_pos (by simp [e1, e2])]
      · rw [List.find?_cons_of_neg, ih hn.2 hm']
        have : y.path ≠ batteryPath := fun e => hn.1 (by rw [e, ← e1]; exact List.mem_map_of_mem hm')
        simp [this]
  rw [this]
  simp only [hv]

theorem newNumber_linear {s : SensorData} (c : Choices) (t : Int) {x : F64} (hv : s.value = .num x) (hp : s.pattern = b!"linear") :
    (newNumber c s t).1 =
      .num (clamp (add x (F64.div (mul (s.param b!"slope") (F64.ofInt s.interval)) (dec 1000 1))) (s.param b!"min") (s.param b!"max")) := by
  unfold newNumber
  rw [hv]
  dsimp only
  rw [if_neg (by rw [hp]; decide), if_neg (by rw [hp]; decide), if_pos hp]

theorem level_visits {d : Draws} (hd : d.Good) {t : Nat} {ss : List SensorData} (hs : Sound ss) {x : F64} (h : Level ss x) :
    Level (afterVisits d t (d.order t) ss) (if 200 ∣ t then battNext x else x) := by
  obtain ⟨s, hm, hb, hv⟩ := h
  obtain ⟨e1, -, e3, e4, e5, e6, e7, e8⟩ := isBattery_iff.1 hb
  have hmem : s.path ∈ d.order t := by
    rw [(hd.order t).mem_iff, e1]
    decide +kernel
  have hdue : dueNow t s ↔ 200 ∣ t := by
    unfold dueNow
    rw [e5]
    omega
  have hm' := List.mem_map_of_mem (f := fun s => if s.path ∈ d.order t ∧ dueNow t s then s.next (d.read t s.path) t else s) hm
  by_cases ht : 200 ∣ t
  · rw [if_pos ⟨hmem, hdue.2 ht⟩] at hm'
    rw [if_pos ht]
    refine ⟨_, hm', ?_, ?_⟩
    · rw [isBattery_erase (next_erase _ _ _)]; exact hb
    · rw [next_value (hs.steady s hm)]
      have hr := read_number e3 (steady_read (hs.steady s hm) (d.read t s.path) t)
      have hnn : (newNumber (d.read t s.path) { s with counter := s.counter + 1 } t).1 =
          .num (clamp (add x (F64.div (mul (dec (-1) 10) (F64.ofInt 200)) (dec 1000 1))) (dec 0 1) (dec 100 1)) := by
        refine (newNumber_linear (s := { s with counter := s.counter + 1 }) _ _ hv e4).trans ?_
        have p6 : SensorData.param { s with counter := s.counter + 1 } b!"slope" = dec (-1) 10 := e6
        have p7 : SensorData.param { s with counter := s.counter + 1 } b!"min" = dec 0 1 := e7
        have p8 : SensorData.param { s with counter := s.counter + 1 } b!"max" = dec 100 1 := e8
        rw [p6, p7, p8]
        dsimp only
        rw [e5]
      rw [hr, hnn, hv]
      unfold battNext
      dsimp only
      split <;> rfl
  · rw [if_neg fun k => ht (hdue.1 k.2)] at hm'
    rw [if_neg ht]
    exact ⟨s, hm', hb, hv⟩

/-- The battery level when the times are over. -/
theorem level_drive {d : Draws} (hd : d.Good) {dur : Nat} (hdur : dur % 100 = 0) : ∀ (n t : Nat), dur - t ≤ n → ∀ ss : List SensorData,
    Sound ss → t % 100 = 0 → t ≤ dur → Level ss (battIter ((t + 199) / 200)) →
    Level (drive d (loopTimes dur simStep t) ss) (battIter ((dur + 199) / 200)) := by
  intro n
  induction n with
  | zero =>
    intro t ht ss _ _ hle hl
    rw [loopTimes, if_neg (by omega)]
    obtain rfl : t = dur := by omega
    exact hl
  | succ n ih =>
    intro t ht ss hs hm hle hl
    rw [loopTimes]
    by_cases h : t < dur
    · rw [if_pos ⟨h, by decide⟩, drive]
      refine ih (t + simStep) (by unfold simStep; omega) _ (hs.of_erase (afterVisits_erase ..)) (by unfold simStep; omega) (by unfold simStep; omega) ?_
      have := level_visits hd (t := t) hs hl
      unfold simStep
      by_cases h2 : 200 ∣ t
      · rw [if_pos h2] at this
        rw [show (t + 100 + 199) / 200 = (t + 199) / 200 + 1 by omega]
        exact this
      · rw [if_neg h2] at this
        rw [show (t + 100 + 199) / 200 = (t + 199) / 200 by omega]
        exact this
    · rw [if_neg (by omega)]
      obtain rfl : t = dur := by omega
      exact hl

/-- In traffic with the battery full enough. -/
theorem update_urban {st : Scenario} {x : F64} (t : Int) (hc : st.current = b!"urban_traffic") (hx : fle x lowBattery = false) :
    (st.update (some x) t).2 = false ∧ (st.update (some x) t).1 = { st with battery := x } := by
  unfold Scenario.update Scenario.next
  simp only [Option.getD_some]
  split
  · exact ⟨rfl, rfl⟩
  · simp only [hc, if_true, hx, Bool.false_eq_true, if_false]
    exact ⟨trivial, trivial⟩

/-- No switch while the battery is full enough. -/
theorem calm_mixed {d : Draws} (hd : d.Good) {dur : Nat} (hdur : dur ≤ 499900) : ∀ (n t : Nat), dur - t ≤ n → ∀ (st : Scenario) (ss : List SensorData),
    st.current = b!"urban_traffic" → Sound ss → t % 100 = 0 → Level ss (battIter ((t + 199) / 200)) →
    Calm d (loopTimes dur simStep t) (some st) ss ∧
      ∃ x, states d (loopTimes dur simStep t) (some st) ss = some { st with battery := x } := by
  intro n
  induction n with
  | zero =>
    intro t ht st ss _ _ _ _
    rw [loopTimes, if_neg (by omega)]
    exact ⟨trivial, st.battery, rfl⟩
  | succ n ih =>
    intro t ht st ss hc hs hm hl
    rw [loopTimes]
    by_cases h : t < dur
    · rw [if_pos ⟨h, by decide⟩]
      obtain ⟨u1, u2⟩ := update_urban (t : Int) hc (iter_above ((t + 199) / 200) (by omega))
      have hl' : Level (afterVisits d t (d.order t) ss) (battIter ((t + simStep + 199) / 200)) := by
        have := level_visits hd (t := t) hs hl
        unfold simStep
        by_cases h2 : 200 ∣ t
        · rw [if_pos h2] at this
          rw [show (t + 100 + 199) / 200 = (t + 199) / 200 + 1 by omega]
          exact this
        · rw [if_neg h2] at this
          rw [show (t + 100 + 199) / 200 = (t + 199) / 200 by omega]
          exact this
      rw [Calm, states, Option.map_some, level_battery hs.paths hl, u1, u2]
      obtain ⟨i1, x, i2⟩ := ih (t + simStep) (by unfold simStep; omega) { st with battery := battIter ((t + 199) / 200) } (afterVisits d t (d.order t) ss) hc
        (hs.of_erase (afterVisits_erase ..)) (by unfold simStep; omega) hl'
      exact ⟨⟨rfl, i1⟩, x, i2⟩
    · rw [if_neg (by omega)]
      exact ⟨trivial, st.battery, rfl⟩

end Verif
