import Verif.PropsExpDrift
import Verif.PropsExpSwitch
/-
The battery of the mixed scenario: it is emptied in traffic and charged afterwards, again and again.
-/
namespace Verif
open F64

/-! ### Numbers -/

/-- The number 1. -/
def oneUnits : Int := 2 ^ 1074

theorem oneUnits_big : (2 : Int) ^ 60 ≤ oneUnits := by decide +kernel

theorem sum_error_wide {x e : F64} (hx : x.IsFin) (he : e.IsFin) (h1 : ((x.units + e.units).natAbs : Int) ≤ 200 * oneUnits) :
    2 ^ 53 * ((add x e).key - (x.units + e.units)).natAbs ≤ (x.units + e.units).natAbs + 2 ^ 52 := by
  rw [add_fin hx he, roundZ_key _ _ (Nat.two_pow_pos _)]
  have h2 : (x.units + e.units).natAbs ≤ 200 * 2 ^ 1074 := by
    have : oneUnits = ((2 ^ 1074 : Nat) : Int) := by decide +kernel
    rw [this] at h1
    generalize (2 : Nat) ^ 1074 = P at *
    omega
  clear h1
  generalize x.units + e.units = z at *
  obtain ⟨e1, e2⟩ := rounded_error z.natAbs (q := 2 ^ 1074) (Nat.two_pow_pos _)
  generalize rounded z.natAbs (2 ^ 1074) = R at *
  have hP : 0 < (2 : Nat) ^ 1074 := Nat.two_pow_pos _
  have hbig : 201 * (2 : Nat) ^ 1074 ≤ 2 ^ 2098 := by decide +kernel
  have e1' : 2 ^ 53 * R ≤ 2 ^ 53 * z.natAbs + z.natAbs + 2 ^ 52 := by
    refine Nat.le_of_mul_le_mul_right ?_ hP
    rw [Nat.add_mul, Nat.add_mul, Nat.mul_assoc, Nat.mul_assoc]
    exact e1
  have e2' : 2 ^ 53 * z.natAbs ≤ 2 ^ 53 * R + z.natAbs + 2 ^ 52 := by
    refine Nat.le_of_mul_le_mul_right ?_ hP
    rw [Nat.add_mul, Nat.add_mul, Nat.mul_assoc, Nat.mul_assoc]
    exact e2
  generalize (2 : Nat) ^ 1074 = P at *
  generalize (2 : Nat) ^ 2098 = Q at *
  have hR : R ≤ Q := by omega
  rw [Nat.min_eq_left hR]
  split <;> omega

theorem clamp_units {y lo hi : F64} (hy : y ≠ .nan) (hlo : lo.IsFin) (hhi : hi.IsFin) (h : lo.units ≤ hi.units) :
    (clamp y lo hi).IsFin ∧ (clamp y lo hi).units = max lo.units (min y.key hi.units) := by
  unfold clamp
  split
  · rename_i k
    rw [flt_iff hy hlo.ne_nan, hlo.key_eq] at k
    exact ⟨hlo, by omega⟩
  · rename_i k
    rw [flt_iff hy hlo.ne_nan, hlo.key_eq] at k
    split
    · rename_i k'
      rw [flt_iff hhi.ne_nan hy, hhi.key_eq] at k'
      exact ⟨hhi, by omega⟩
    · rename_i k'
      rw [flt_iff hhi.ne_nan hy, hhi.key_eq] at k'
      have hf := fin_between hlo hhi hy (by rw [hlo.key_eq]; omega) (by rw [hhi.key_eq]; omega)
      exact ⟨hf, by rw [hf.key_eq] at k k' ⊢; omega⟩

/-- What a reading takes from the battery, and what it adds when charging. -/
def drainStep : F64 := F64.div (mul (dec (-1) 10) (F64.ofInt 200)) (dec 1000 1)

@[inherit_doc drainStep]
def chargeStep : F64 := F64.div (mul (dec 2 10) (F64.ofInt 200)) (dec 1000 1)

/-- The level after a reading. -/
def nextLevel (x e : F64) : F64 :=
  if isEqual (.num x) (.num (clamp (add x e) (dec 0 1) (dec 100 1))) then x else clamp (add x e) (dec 0 1) (dec 100 1)

theorem close_small : 1000 * closeUnits ≤ 6 * oneUnits := by decide +kernel

/-- A level of a battery. -/
structure Charge (x : F64) : Prop where
  fin : x.IsFin
  low : 0 ≤ x.units
  high : x.units ≤ 100 * oneUnits

theorem nextLevel_units {x e : F64} (hx : Charge x) (he : e.IsFin) (hs : -oneUnits ≤ e.units ∧ e.units ≤ oneUnits) :
    Charge (nextLevel x e) ∧ ∃ K : Int, 2 ^ 53 * (K - (x.units + e.units)).natAbs ≤ (x.units + e.units).natAbs + 2 ^ 52 ∧
      ((nextLevel x e).units = max 0 (min K (100 * oneUnits)) ∨
        (nextLevel x e).units = x.units ∧ 1000 * (x.units - max 0 (min K (100 * oneUnits))).natAbs < 6 * oneUnits) := by
  have hb := oneUnits_big
  have hlow := hx.low
  have hhigh := hx.high
  have c0 : (dec 0 1).units = 0 := by decide +kernel
  have c1 : (dec 100 1).units = 100 * oneUnits := by decide +kernel
  have f0 : (dec 0 1).IsFin := dec_fin (by decide +kernel)
  have f1 : (dec 100 1).IsFin := dec_fin (by decide +kernel)
  have hn := add_ne_nan hx.fin he.ne_nan
  obtain ⟨k1, k2⟩ := clamp_units hn f0 f1 (by rw [c0, c1]; omega)
  rw [c0, c1] at k2
  have herr := sum_error_wide hx.fin he (by omega)
  unfold nextLevel
  split
  · rename_i h
    obtain ⟨-, -, h3⟩ := C82_close h
    rw [k2] at h3
    have hcs := close_small
    exact ⟨hx, _, herr, .inr ⟨rfl, by omega⟩⟩
  · exact ⟨⟨k1, by omega, by omega⟩, _, herr, .inl k2⟩

theorem drain_level {x : F64} (hx : Charge x) : Charge (nextLevel x drainStep) ∧
    (x.units ≤ 10 * oneUnits → (nextLevel x drainStep).units ≤ 10 * oneUnits) ∧
    (10 * oneUnits < x.units → 1000 * (nextLevel x drainStep).units + 19 * oneUnits ≤ 1000 * x.units) := by
  have he : drainStep.IsFin := by rw [← finite_iff]; decide +kernel
  have c : -(20001 * oneUnits) ≤ 1000000 * drainStep.units ∧ 1000000 * drainStep.units ≤ -(19999 * oneUnits) := by decide +kernel
  have hb := oneUnits_big
  obtain ⟨h1, K, hK, h2⟩ := nextLevel_units hx he (by omega)
  have hlow := hx.low
  have hhigh := hx.high
  refine ⟨h1, ?_, ?_⟩
  · intro h
    rcases h2 with h2 | ⟨h2, -⟩ <;> rw [h2] <;> omega
  · intro h
    rcases h2 with h2 | ⟨h2, h3⟩ <;> rw [h2] <;> omega

theorem full_units : 99949 * oneUnits ≤ 1000 * fullBattery.units ∧ 1000 * fullBattery.units ≤ 99951 * oneUnits := by decide +kernel

theorem charge_level {x : F64} (hx : Charge x) : Charge (nextLevel x chargeStep) ∧
    (fullBattery.units ≤ x.units → fullBattery.units ≤ (nextLevel x chargeStep).units) ∧
    (x.units < fullBattery.units → 1000 * x.units + 39 * oneUnits ≤ 1000 * (nextLevel x chargeStep).units) := by
  have he : chargeStep.IsFin := by rw [← finite_iff]; decide +kernel
  have c : 39999 * oneUnits ≤ 1000000 * chargeStep.units ∧ 1000000 * chargeStep.units ≤ 40001 * oneUnits := by decide +kernel
  have hb := oneUnits_big
  obtain ⟨h1, K, hK, h2⟩ := nextLevel_units hx he (by omega)
  have hlow := hx.low
  have hhigh := hx.high
  have hf := full_units
  refine ⟨h1, ?_, ?_⟩
  · intro h
    rcases h2 with h2 | ⟨h2, -⟩ <;> rw [h2] <;> omega
  · intro h
    rcases h2 with h2 | ⟨h2, h3⟩ <;> rw [h2] <;> omega

/-! ### Sensors -/

/-- The battery with a slope and a level. -/
structure Batt (slope x : F64) (s : SensorData) : Prop where
  path : s.path = batteryPath
  group : s.group = .medium
  type : s.type = b!"number"
  interval : s.interval = 200
  pattern : s.pattern = b!"linear"
  slope : s.param b!"slope" = slope
  min : s.param b!"min" = dec 0 1
  max : s.param b!"max" = dec 100 1
  value : s.value = .num x

theorem next_number {s : SensorData} (h : s.type = b!"number") (c : Choices) (t : Nat) :
    s.next c t = { s with
      counter := if (newNumber c { s with counter := s.counter + 1 } t).2 then 0 else s.counter + 1
      value := if isEqual s.value (newNumber c { s with counter := s.counter + 1 } t).1 then s.value else (newNumber c { s with counter := s.counter + 1 } t).1 } := by
  unfold SensorData.next SensorData.read newValue
  dsimp only
  rw [if_pos h]
  simp only [Res.map, Option.map]
  split <;> split <;> simp_all

theorem Batt.next {slope x : F64} {s : SensorData} (h : Batt slope x s) (c : Choices) (t : Nat) :
    Batt slope (nextLevel x (F64.div (mul slope (F64.ofInt 200)) (dec 1000 1))) (s.next c t) := by
  rw [next_number h.type]
  have hv : (newNumber c { s with counter := s.counter + 1 } t).1 =
      .num (clamp (add x (F64.div (mul slope (F64.ofInt 200)) (dec 1000 1))) (dec 0 1) (dec 100 1)) := by
    unfold newNumber
    dsimp only
    rw [h.value]
    dsimp only
    rw [h.pattern, if_neg (by decide), if_neg (by decide), if_pos rfl]
    show Js.num (clamp (add x (F64.div (mul (s.param b!"slope") (F64.ofInt s.interval)) (dec 1000 1))) (s.param b!"min") (s.param b!"max")) = _
    rw [h.slope, h.min, h.max, h.interval]
  refine ⟨h.path, h.group, h.type, h.interval, h.pattern, h.slope, h.min, h.max, ?_⟩
  show (if isEqual s.value _ = true then s.value else _) = _
  rw [hv, h.value]
  unfold nextLevel
  split <;> rfl

theorem updatePatterns_one {table : List VssSensor} {sc p : Bytes} : ∀ {ss ss1 : List SensorData} {s : SensorData},
    updatePatterns table sc ss = .ok ss1 → sensorOf ss p = some s → ∃ s1, s.updatePattern table sc = .ok s1 ∧ sensorOf ss1 p = some s1
  | [], _, _, _, h => by cases h
  | a :: ss, ss1, s, h, hs => by
    rw [updatePatterns] at h
    cases ha : a.updatePattern table sc with
    | err => rw [ha] at h; cases h
    | panic => rw [ha] at h; cases h
    | ok a1 =>
      rw [ha] at h
      have hp : a1.path = a.path := by
        unfold SensorData.updatePattern at ha
        split at ha
        · cases ha; rfl
        · split at ha
          · cases ha; rfl
          · rename_i _ v _ _ q _
            cases hq : patternParams sc a.path q v a.value with
            | err => rw [hq] at ha; cases ha
            | panic => rw [hq] at ha; cases ha
            | ok ps => rw [hq] at ha; cases ha; rfl
      simp only [Res.bind] at h
      cases hr : updatePatterns table sc ss with
      | err => rw [hr] at h; cases h
      | panic => rw [hr] at h; cases h
      | ok ss' =>
        rw [hr] at h
        cases h
        unfold sensorOf at hs ⊢
        rw [List.find?_cons] at hs
        rw [List.find?_cons, hp]
        by_cases e : a.path = p
        · simp only [e, decide_true] at hs ⊢
          cases hs
          exact ⟨a1, ha, rfl⟩
        · simp only [e, decide_false] at hs ⊢
          exact updatePatterns_one hr hs

theorem onSensor_apart {g : Group} {q p : Bytes} {f : SensorData → SensorData} {ss : List SensorData} (h : q ≠ p) (hf : ∀ s, (f s).path = s.path) :
    sensorOf (onSensor g q f ss) p = sensorOf ss p := by
  unfold onSensor
  rw [sensorOf_map (fun s _ => by split <;> simp [hf])]
  cases hs : sensorOf ss p with
  | none => rfl
  | some s =>
    have hp := (sensorOf_some hs).2
    rw [Option.map_some, if_neg]
    rintro ⟨-, e⟩
    exact h (e.symm.trans hp)

theorem onSensor_at {g : Group} {p : Bytes} {f : SensorData → SensorData} {ss : List SensorData} (hf : ∀ s, (f s).path = s.path) {s : SensorData}
    (hs : sensorOf ss p = some s) (hg : s.group = g) : sensorOf (onSensor g p f ss) p = some (f s) := by
  unfold onSensor
  rw [sensorOf_map (fun s _ => by split <;> simp [hf]), hs, Option.map_some, if_pos ⟨hg, (sensorOf_some hs).2⟩]

theorem ifPattern_path (s : SensorData) (p : Bytes) (ps : List (Bytes × F64)) : (s.ifPattern p ps).path = s.path := by
  unfold SensorData.ifPattern
  split <;> rfl

/-- Paths of which the settings for traffic do nothing. -/
theorem urban_apart {p : Bytes} (h : p ∉ [b!"Vehicle.Speed", b!"Vehicle.CurrentLocation.Latitude", b!"Vehicle.CurrentLocation.Longitude",
      b!"Vehicle.Chassis.SteeringWheel.Angle", b!"Vehicle.Acceleration.Longitudinal", b!"Vehicle.Chassis.Brake.PedalPosition",
      b!"Vehicle.Chassis.Accelerator.PedalPosition", b!"Vehicle.Body.Lights.TurnSignal.Left.IsActive", b!"Vehicle.Body.Lights.TurnSignal.Right.IsActive"])
    (u : F64) (ss : List SensorData) : sensorOf (urbanSettings u ss) p = sensorOf ss p := by
  simp only [List.mem_cons, List.not_mem_nil, or_false, not_or] at h
  obtain ⟨h1, h2, h3, h4, h5, h6, h7, h8, h9⟩ := h
  unfold urbanSettings
  rw [onSensor_apart (Ne.symm h9), onSensor_apart (Ne.symm h8), onSensor_apart (Ne.symm h7), onSensor_apart (Ne.symm h6), onSensor_apart (Ne.symm h5),
    onSensor_apart (Ne.symm h4), onSensor_apart (Ne.symm h3), onSensor_apart (Ne.symm h2), onSensor_apart (Ne.symm h1)]
  all_goals intro s; simp only [ifPattern_path]; try rfl

/-- The settings for charging on the battery and on sensors they do not name. -/
theorem charging_apart {p : Bytes} (h : p ∉ [b!"Vehicle.Speed", b!"Vehicle.Chassis.SteeringWheel.Angle", b!"Vehicle.Acceleration.Longitudinal",
      b!"Vehicle.Chassis.Brake.PedalPosition", b!"Vehicle.Chassis.Accelerator.PedalPosition",
      b!"Vehicle.Powertrain.TractionBattery.Temperature", b!"Vehicle.Powertrain.TractionBattery.Charging.IsCharging",
      b!"Vehicle.Powertrain.TractionBattery.Charging.ChargingRate", b!"Vehicle.Powertrain.TractionBattery.Charging.TimeRemaining"])
    (u u' : F64) (ss : List SensorData) : sensorOf (chargingSettings u u' ss) p =
      sensorOf (onSensor .medium batteryPath (fun s => s.ifPattern b!"linear" [(b!"slope", dec 2 10)]) ss) p := by
  simp only [List.mem_cons, List.not_mem_nil, or_false, not_or] at h
  obtain ⟨h1, h2, h3, h4, h5, h6, h7, h8, h9⟩ := h
  unfold chargingSettings
  have end4 : ∀ {g₁ g₂ g₃ g₄ : Group} {f₁ f₂ f₃ f₄ : SensorData → SensorData} {l : List SensorData}, (∀ s, (f₁ s).path = s.path) → (∀ s, (f₂ s).path = s.path) →
      (∀ s, (f₃ s).path = s.path) → (∀ s, (f₄ s).path = s.path) →
      sensorOf (onSensor g₁ b!"Vehicle.Powertrain.TractionBattery.Charging.TimeRemaining" f₁
        (onSensor g₂ b!"Vehicle.Powertrain.TractionBattery.Charging.ChargingRate" f₂
        (onSensor g₃ b!"Vehicle.Powertrain.TractionBattery.Charging.IsCharging" f₃
        (onSensor g₄ b!"Vehicle.Powertrain.TractionBattery.Temperature" f₄ l)))) p = sensorOf l p := by
    intro _ _ _ _ _ _ _ _ l a b c e
    rw [onSensor_apart (Ne.symm h9) a, onSensor_apart (Ne.symm h8) b, onSensor_apart (Ne.symm h7) c, onSensor_apart (Ne.symm h6) e]
  have front : sensorOf (onSensor .actHigh b!"Vehicle.Chassis.Accelerator.PedalPosition" (fun s => s.setValue (.num (dec 0 1)))
      (onSensor .actHigh b!"Vehicle.Chassis.Brake.PedalPosition" (fun s => s.setValue (.num (dec 0 1)))
      (onSensor .high b!"Vehicle.Acceleration.Longitudinal" (fun s => s.setValue (.num (dec 0 1)))
      (onSensor .high b!"Vehicle.Chassis.SteeringWheel.Angle" (fun s => s.setValue (.num (dec 0 1)))
      (onSensor .high b!"Vehicle.Speed" (fun s => s.setValue (.num (dec 0 1))) ss))))) p = sensorOf ss p := by
    rw [onSensor_apart (Ne.symm h5), onSensor_apart (Ne.symm h4), onSensor_apart (Ne.symm h3), onSensor_apart (Ne.symm h2), onSensor_apart (Ne.symm h1)]
    all_goals intro s; rfl
  refine (end4 ?_ ?_ ?_ ?_).trans ?_
  · intro s
    rw [ifPattern_path]
    split <;> rfl
  · intro s
    rw [ifPattern_path]
    rfl
  · exact fun s => rfl
  · exact fun s => ifPattern_path ..
  have mid : ∀ l : List SensorData, sensorOf (onSensor .medium batteryPath (fun s => s.ifPattern b!"linear" [(b!"slope", dec 2 10)]) l) p =
      (sensorOf l p).map fun s => if s.group = .medium ∧ s.path = batteryPath then s.ifPattern b!"linear" [(b!"slope", dec 2 10)] else s := by
    intro l
    unfold onSensor
    exact sensorOf_map (fun s _ => by split <;> simp [ifPattern_path]) p
  refine (mid _).trans (.trans ?_ (mid ss).symm)
  rw [front]

/-- The slope of the battery. -/
def slopeIn (urban : Bool) : F64 := if urban then dec (-1) 10 else dec 2 10

/-- The name of the mode. -/
def modeName (urban : Bool) : Bytes := if urban then b!"urban_traffic" else b!"battery_charging"

theorem batt_entry : ∃ v ∈ vssSensors, v.path = batteryPath ∧ v.urban = b!"linear" ∧ v.charging = b!"linear" ∧ v.min = dec 0 1 ∧ v.max = dec 100 1 := by
  decide +kernel

theorem mixed_one {u u' : F64} {urban : Bool} {ss ss' : List SensorData} (h : mixedSettings u u' (modeName urban) ss = .ok ss') {p : Bytes} {s : SensorData}
    (hs : sensorOf ss p = some s) : ∃ ss1 s1, s.updatePattern vssSensors (modeName urban) = .ok s1 ∧ sensorOf ss1 p = some s1 ∧
      ss' = if urban then urbanSettings u ss1 else chargingSettings u u' ss1 := by
  unfold mixedSettings at h
  cases h1 : updatePatterns vssSensors (modeName urban) ss with
  | err => rw [h1] at h; cases h
  | panic => rw [h1] at h; cases h
  | ok ss1 =>
    obtain ⟨s1, k1, k2⟩ := updatePatterns_one h1 hs
    rw [h1] at h
    cases h
    refine ⟨ss1, s1, k1, k2, ?_⟩
    cases urban <;> rfl

theorem Batt.mixed {urban urban' : Bool} {x : F64} {s : SensorData} (h : Batt (slopeIn urban) x s) {u u' : F64} {ss ss' : List SensorData}
    (hss : sensorOf ss batteryPath = some s) (hm : mixedSettings u u' (modeName urban') ss = .ok ss') :
    ∃ s', sensorOf ss' batteryPath = some s' ∧ Batt (slopeIn urban') x s' := by
  obtain ⟨ss1, s1, h1, h2, h3⟩ := mixed_one hm hss
  obtain ⟨v, hv, e1, e2, e3, e4, e5⟩ := batt_entry
  have hf := find_entry hv
  rw [e1, ← h.path] at hf
  unfold SensorData.updatePattern at h1
  rw [hf] at h1
  cases urban' with
  | true =>
    have hp : v.pattern? (modeName true) = some b!"linear" := congrArg some e2
    simp only [hp] at h1
    unfold patternParams at h1
    dsimp only at h1
    rw [if_neg (by decide), if_pos rfl, h.path, e4, e5, show slopeFor (modeName true) batteryPath = dec (-1) 10 by decide +kernel] at h1
    cases h1
    rw [if_pos rfl] at h3
    refine ⟨_, (show sensorOf ss' batteryPath = sensorOf ss1 batteryPath by rw [h3, urban_apart (by decide)]).trans h2, rfl, h.group, h.type, h.interval, rfl, rfl, rfl, rfl, h.value⟩
  | false =>
    have hp : v.pattern? (modeName false) = some b!"linear" := congrArg some e3
    simp only [hp] at h1
    unfold patternParams at h1
    dsimp only at h1
    rw [if_neg (by decide), if_pos rfl, e4, e5] at h1
    cases h1
    rw [if_neg (by decide)] at h3
    refine ⟨_, by rw [h3, charging_apart (by decide)]; exact onSensor_at (fun s => ifPattern_path ..) h2 h.group, ?_⟩
    refine ⟨(ifPattern_path ..).trans h.path, ?_, ?_, ?_, ?_, slope_self rfl, ?_, ?_, ?_⟩
    · unfold SensorData.ifPattern; rw [if_pos rfl]; exact h.group
    · unfold SensorData.ifPattern; rw [if_pos rfl]; exact h.type
    · unfold SensorData.ifPattern; rw [if_pos rfl]; exact h.interval
    · unfold SensorData.ifPattern; rw [if_pos rfl]
    · rw [slope_param rfl (by decide)]; rfl
    · rw [slope_param rfl (by decide)]; rfl
    · rw [ifPattern_value]; exact h.value

theorem level_of {ss : List SensorData} {slope x : F64} {s : SensorData} (hs : sensorOf ss batteryPath = some s) (h : Batt slope x s) : batteryLevel ss = some x := by
  have : (ss.find? fun s => decide (s.group = .medium ∧ s.path = batteryPath)) = some s := by
    unfold sensorOf at hs
    induction ss with
    | nil => cases hs
    | cons a ss ih =>
      rw [List.find?_cons] at hs ⊢
      by_cases e : a.path = batteryPath
      · simp only [e, decide_true] at hs
        cases hs
        simp [h.group, h.path]
      · simp only [e, decide_false] at hs
        simp only [e, and_false, decide_false]
        exact ih hs
  unfold batteryLevel
  rw [this]
  dsimp only
  rw [h.value]

end Verif
