import Verif.PropsExpDirs
import Verif.FloatError
/-
C86 and C87 for every scenario: the battery changes with every reading of the first ten seconds.
-/
namespace Verif
open F64

/-! ### One reading of a sensor that changes linearly -/

theorem add_error {x e : F64} (hx : x.IsFin) (he : e.IsFin) (h0 : 0 ≤ x.units + e.units) (h1 : x.units + e.units ≤ 100 * 2 ^ 1074) :
    2 ^ 53 * (add x e).key ≤ 2 ^ 53 * (x.units + e.units) + (x.units + e.units) + 2 ^ 52 ∧
    2 ^ 53 * (x.units + e.units) ≤ 2 ^ 53 * (add x e).key + (x.units + e.units) + 2 ^ 52 := by
  rw [add_fin hx he, roundZ_key _ _ (Nat.two_pow_pos _), if_neg (by omega)]
  obtain ⟨z, hz⟩ := Int.eq_ofNat_of_zero_le h0
  rw [hz] at h1 ⊢
  rw [Int.natAbs_natCast]
  obtain ⟨e1, e2⟩ := rounded_error z (q := 2 ^ 1074) (Nat.two_pow_pos _)
  generalize rounded z (2 ^ 1074) = R at *
  have hP : 0 < (2 : Nat) ^ 1074 := Nat.two_pow_pos _
  have hbig : 101 * (2 : Nat) ^ 1074 ≤ 2 ^ 2098 := by decide +kernel
  have e1' : 2 ^ 53 * R ≤ 2 ^ 53 * z + z + 2 ^ 52 := by
    refine Nat.le_of_mul_le_mul_right ?_ hP
    rw [Nat.add_mul, Nat.add_mul, Nat.mul_assoc, Nat.mul_assoc]
    exact e1
  have e2' : 2 ^ 53 * z ≤ 2 ^ 53 * R + z + 2 ^ 52 := by
    refine Nat.le_of_mul_le_mul_right ?_ hP
    rw [Nat.add_mul, Nat.add_mul, Nat.mul_assoc, Nat.mul_assoc]
    exact e2
  have hz' : z ≤ 100 * 2 ^ 1074 := by
    have : ((z : Nat) : Int) ≤ ((100 * 2 ^ 1074 : Nat) : Int) := by rw [Int.natCast_mul, Int.natCast_pow]; exact h1
    exact Int.ofNat_le.1 this
  have hp : 2 ^ 53 ≤ (2 : Nat) ^ 1074 := by decide +kernel
  rw [Nat.min_eq_left (by
    generalize (2 : Nat) ^ 2098 = K at *
    generalize (2 : Nat) ^ 1074 = P at *
    omega)]
  constructor <;> omega

/-- The value of a reading, 200 ms after the last one. -/
def linStep (slope x : F64) : F64 := clamp (add x (F64.div (mul slope (F64.ofInt 200)) (dec 1000 1))) (dec 0 1) (dec 100 1)

/-- A step of the size of the readings of the battery. -/
def StepOk (slope : F64) : Prop := (F64.div (mul slope (F64.ofInt 200)) (dec 1000 1)).IsFin ∧
  (19 * 2 ^ 1074 ≤ 1000 * ((F64.div (mul slope (F64.ofInt 200)) (dec 1000 1)).units.natAbs : Int) ∧
   1000 * ((F64.div (mul slope (F64.ofInt 200)) (dec 1000 1)).units.natAbs : Int) ≤ 50 * 2 ^ 1074)

theorem stepOk {slope : F64} (h : slope = dec (-1) 10 ∨ slope = dec (-2) 10 ∨ slope = dec 2 10) : StepOk slope := by
  rcases h with rfl | rfl | rfl
  all_goals refine ⟨?_, by decide +kernel, by decide +kernel⟩
  · exact ⟨true, 5764607523034235, -58, by decide, by decide +kernel⟩
  · exact ⟨true, 5764607523034235, -57, by decide, by decide +kernel⟩
  · exact ⟨false, 5764607523034235, -57, by decide, by decide +kernel⟩

/-- A level away from the limits changes with every reading, by less than a tenth. -/
theorem linStep_moves {slope x : F64} (hs : StepOk slope) (hx : x.IsFin) (h1 : 2 ^ 1074 ≤ x.units) (h2 : x.units ≤ 99 * 2 ^ 1074) :
    (linStep slope x).IsFin ∧ isEqual (.num x) (.num (linStep slope x)) = false ∧
    10 * x.units - 2 ^ 1074 ≤ 10 * (linStep slope x).units ∧ 10 * (linStep slope x).units ≤ 10 * x.units + 2 ^ 1074 := by
  obtain ⟨hf, s1, s2⟩ := hs
  unfold linStep
  generalize F64.div (mul slope (F64.ofInt 200)) (dec 1000 1) = e at *
  have hp : 2 ^ 1000 ≤ (2 : Int) ^ 1074 := by decide +kernel
  have hb : (2 : Int) ^ 60 ≤ 2 ^ 1000 := by decide +kernel
  have hb' : (2 : Int) ^ 60 = 1152921504606846976 := by decide
  obtain ⟨a1, a2⟩ := add_error hx hf (by generalize (2 : Int) ^ 1074 = P at *; omega) (by generalize (2 : Int) ^ 1074 = P at *; omega)
  have hn := add_ne_nan hx hf.ne_nan
  have z0 : (dec 0 1).IsFin ∧ (dec 0 1).units = 0 := ⟨dec_fin (by decide +kernel), by decide +kernel⟩
  have z1 : (dec 100 1).IsFin ∧ (dec 100 1).units = 100 * 2 ^ 1074 := ⟨dec_fin (by decide +kernel), by decide +kernel⟩
  have k0 : 0 ≤ (add x e).key := by
    generalize (2 : Int) ^ 1074 = P at *
    omega
  have k1 : (add x e).key ≤ 100 * 2 ^ 1074 := by
    generalize (2 : Int) ^ 1074 = P at *
    omega
  have hfin : (add x e).IsFin := fin_between z0.1 z1.1 hn (by rw [z0.1.key_eq, z0.2]; exact k0) (by rw [z1.1.key_eq, z1.2]; exact k1)
  have hc : clamp (add x e) (dec 0 1) (dec 100 1) = add x e := by
    unfold clamp
    rw [if_neg (by rw [flt_iff hn z0.1.ne_nan, z0.1.key_eq, z0.2]; omega), if_neg (by rw [flt_iff z1.1.ne_nan hn, z1.1.key_eq, z1.2]; omega)]
  rw [hc]
  rw [hfin.key_eq] at a1 a2
  refine ⟨hfin, ?_, ?_, ?_⟩
  · rw [Bool.eq_false_iff]
    intro k
    obtain ⟨-, -, h⟩ := C82_close k
    have hcl : 1000 * closeUnits ≤ 6 * 2 ^ 1074 := by decide +kernel
    generalize closeUnits = W at *
    generalize (2 : Int) ^ 1074 = P at *
    omega
  · generalize (2 : Int) ^ 1074 = P at *
    omega
  · generalize (2 : Int) ^ 1074 = P at *
    omega

/-! ### The battery in every scenario -/

/-- The slope of the battery. -/
def battSlope (scenario : Bytes) : F64 :=
  if scenario = b!"highway_cruising" then dec (-2) 10 else if scenario = b!"battery_charging" then dec 2 10 else dec (-1) 10

theorem battSlope_ok (scenario : Bytes) : StepOk (battSlope scenario) := by
  unfold battSlope
  refine stepOk ?_
  split
  · exact .inr (.inl rfl)
  · split
    · exact .inr (.inr rfl)
    · exact .inl rfl

/-- The settings of the battery sensor. -/
def isCell (slope : F64) (s : SensorData) : Bool :=
  decide (s.path = batteryPath) && decide (s.type = b!"number") && decide (s.pattern = b!"linear") &&
    decide (s.interval = 200) && decide (s.param b!"slope" = slope) && decide (s.param b!"min" = dec 0 1) && decide (s.param b!"max" = dec 100 1)

theorem isCell_iff {slope : F64} {s : SensorData} : isCell slope s = true ↔ s.path = batteryPath ∧ s.type = b!"number" ∧
    s.pattern = b!"linear" ∧ s.interval = 200 ∧ s.param b!"slope" = slope ∧ s.param b!"min" = dec 0 1 ∧ s.param b!"max" = dec 100 1 := by
  unfold isCell
  simp only [Bool.and_eq_true, decide_eq_true_eq, and_assoc]

theorem isCell_erase {slope : F64} {s s' : SensorData} (h : s.erase = s'.erase) : isCell slope s = isCell slope s' := by
  obtain ⟨h1, h2, h3, h4, h5, h6⟩ := erase_fields h
  unfold isCell SensorData.param
  rw [h1, h3, h4, h5, h6]

set_option maxRecDepth 100000 in
theorem sample_cell : (scenarioNames.all fun n => (sampleVehicle n).all fun s => decide (s.path ≠ batteryPath) || isCell (battSlope n) s) = true := by
  decide +kernel

/-- After `n` readings the level is between 20 and 80, give or take a tenth for every reading. -/
def CellIn (slope : F64) (n : Nat) (ss : List SensorData) : Prop :=
  ∃ s ∈ ss, isCell slope s = true ∧ ∃ x, s.value = .num x ∧ x.IsFin ∧ (200 - n) * 2 ^ 1074 ≤ 10 * x.units ∧ 10 * x.units ≤ (800 + n) * 2 ^ 1074

theorem inRange_units {v : Js} (h : InRange (dec 20 1) (dec 80 1) v) : ∃ x, v = .num x ∧ x.IsFin ∧ 20 * 2 ^ 1074 ≤ x.units ∧ x.units ≤ 80 * 2 ^ 1074 := by
  obtain ⟨x, e, h1, h2⟩ := h
  have z0 : (dec 20 1).IsFin ∧ (dec 20 1).units = 20 * 2 ^ 1074 := ⟨dec_fin (by decide +kernel), by decide +kernel⟩
  have z1 : (dec 80 1).IsFin ∧ (dec 80 1).units = 80 * 2 ^ 1074 := ⟨dec_fin (by decide +kernel), by decide +kernel⟩
  have hn := (fle_ne_nan h1).2
  rw [fle_iff z0.1.ne_nan hn] at h1
  rw [fle_iff hn z1.1.ne_nan] at h2
  have hf := fin_between z0.1 z1.1 hn h1 h2
  rw [z0.1.key_eq, hf.key_eq, z0.2] at h1
  rw [z1.1.key_eq, hf.key_eq, z1.2] at h2
  exact ⟨x, e, hf, h1, h2⟩

/-- The sensor of a path has a value with a property. -/
def ValueIs (p : Bytes) (P : Js → Prop) (ss : List SensorData) : Prop := ∀ s ∈ ss, s.path = p → P s.value

theorem onSensor_valueIs {p : Bytes} {P : Js → Prop} {g : Group} {q : Bytes} {f : SensorData → SensorData} {ss : List SensorData}
    (hf : ∀ s, s.path = q → (f s).path = s.path ∧ (q = p → P s.value → P (f s).value)) (h : ValueIs p P ss) : ValueIs p P (onSensor g q f ss) := by
  intro s hs hp
  obtain ⟨s0, h0, rfl⟩ := List.mem_map.1 hs
  split at hp
  · rename_i hq
    rw [if_pos hq]
    have h1 := hf s0 hq.2
    rw [h1.1] at hp
    exact h1.2 (hq.2.symm.trans hp) (h s0 h0 hp)
  · rename_i hq
    rw [if_neg hq]
    exact h s0 h0 hp

theorem ifPattern_keeps {P : Js → Prop} (p : Bytes) (ps : List (Bytes × F64)) (s : SensorData) {q : Bytes} :
    (s.ifPattern p ps).path = s.path ∧ (q = batteryPath → P s.value → P (s.ifPattern p ps).value) := by
  obtain ⟨h1, h2⟩ := ifPattern_same p ps s
  exact ⟨h1, fun _ h => by rw [h2]; exact h⟩

theorem urban_valueIs {P : Js → Prop} (u : F64) {ss : List SensorData} (h : ValueIs batteryPath P ss) : ValueIs batteryPath P (urbanSettings u ss) := by
  unfold urbanSettings
  iterate 9 refine onSensor_valueIs (fun s _ => ⟨(ifPattern_same _ _ _).1, fun k => absurd k (by decide)⟩) ?_
  exact h

theorem highway_valueIs {P : Js → Prop} (u : F64) {ss : List SensorData} (h : ValueIs batteryPath P ss) : ValueIs batteryPath P (highwaySettings u ss) := by
  unfold highwaySettings
  iterate 9 refine onSensor_valueIs (fun s _ => ⟨(ifPattern_same _ _ _).1, fun k => absurd k (by decide)⟩) ?_
  exact h

theorem charging_valueIs {P : Js → Prop} (u u' : F64) {ss : List SensorData} (h : ValueIs batteryPath P ss) :
    ValueIs batteryPath P (chargingSettings u u' ss) := by
  unfold chargingSettings
  refine onSensor_valueIs (fun s _ => ⟨(ifPattern_same _ _ _).1.trans (by split <;> rfl), fun k => absurd k (by decide)⟩) ?_
  iterate 1 refine onSensor_valueIs (fun s _ => ⟨(ifPattern_same _ _ _).1, fun k => absurd k (by decide)⟩) ?_
  iterate 1 refine onSensor_valueIs (fun s _ => ⟨rfl, fun k => absurd k (by decide)⟩) ?_
  iterate 1 refine onSensor_valueIs (fun s _ => ⟨(ifPattern_same _ _ _).1, fun k => absurd k (by decide)⟩) ?_
  iterate 1 refine onSensor_valueIs (fun s _ => ifPattern_keeps _ _ s) ?_
  iterate 5 refine onSensor_valueIs (fun s _ => ⟨rfl, fun k => absurd k (by decide)⟩) ?_
  exact h

theorem charged_between {u : F64} (hu : IsUnit u) : InRange (dec 20 1) (dec 80 1) (.num (add (dec 20 1) (mul u (dec 20 1)))) := by
  obtain ⟨u0, u1⟩ := hu.units
  have h20 : (dec 20 1).IsFin := dec_fin (by decide +kernel)
  have h80 : (dec 80 1).IsFin := dec_fin (by decide +kernel)
  have h0 : (dec 0 1).IsFin ∧ (dec 0 1).units = 0 := ⟨dec_fin (by decide +kernel), by decide +kernel⟩
  have hu20 : (0 : Int) ≤ (dec 20 1).units := by decide +kernel
  have hP : (0 : Int) ≤ 2 ^ 1074 := Int.pow_nonneg (by decide)
  have hm1 : 0 ≤ (mul u (dec 20 1)).key := by
    have := mul_mono h0.1 h20 hu.fin h20 (by rw [h0.2]; exact Int.le_refl _) (by rw [h0.2]; exact u0) hu20 (Int.le_refl _)
    have e0 : (mul (dec 0 1) (dec 20 1)).key = 0 := by decide +kernel
    rw [e0] at this
    exact this
  obtain ⟨-, hm2⟩ := mul_unit hu.fin h20 (by generalize (2 : Int) ^ 1074 = P at *; omega) u1 hu20
  have hmf : (mul u (dec 20 1)).IsFin := fin_between h0.1 h20 (mul_ne_nan hu.fin h20) (by rw [h0.1.key_eq, h0.2]; exact hm1) hm2
  rw [hmf.key_eq] at hm1 hm2
  rw [h20.key_eq] at hm2
  have hn := add_ne_nan h20 hmf.ne_nan
  have a1 := add_mono h20 h0.1 h20 hmf (Int.le_refl _) (by rw [h0.2]; exact hm1)
  have a2 := add_mono h20 hmf h20 h20 (Int.le_refl _) hm2
  have b1 : (add (dec 20 1) (dec 0 1)).key = (dec 20 1).key := by decide +kernel
  have b2 : (add (dec 20 1) (dec 20 1)).key ≤ (dec 80 1).key := by decide +kernel
  exact ⟨_, rfl, (fle_iff h20.ne_nan hn).2 (by rw [← b1]; exact a1), (fle_iff hn h80.ne_nan).2 (Int.le_trans a2 b2)⟩

theorem patterns_valueIs {p : Bytes} {P : Js → Prop} {scenario : Bytes} : ∀ {ss ss' : List SensorData}, updatePatterns vssSensors scenario ss = .ok ss' →
    ValueIs p P ss → ValueIs p P ss'
  | [], ss', e, h => by cases e; exact h
  | s :: ss, ss', e, h => by
    rw [updatePatterns] at e
    cases e1 : s.updatePattern vssSensors scenario with
    | ok s1 =>
      rw [e1] at e
      simp only [Res.bind] at e
      cases e2 : updatePatterns vssSensors scenario ss with
      | ok ss1 =>
        rw [e2] at e
        simp only [Res.map, Res.ok.injEq] at e
        subst e
        have h1 : s1.path = s.path ∧ s1.value = s.value := by
          unfold SensorData.updatePattern at e1
          split at e1
          · cases e1; exact ⟨rfl, rfl⟩
          · split at e1
            · cases e1; exact ⟨rfl, rfl⟩
            · cases e3 : patternParams scenario s.path _ _ s.value with
              | ok ps => rw [e3] at e1; simp only [Res.map, Res.ok.injEq] at e1; subst e1; exact ⟨rfl, rfl⟩
              | _ => rw [e3] at e1; cases e1
        intro x hx hp
        rcases List.mem_cons.1 hx with rfl | hx
        · rw [h1.2]; exact h s (by simp) (h1.1 ▸ hp)
        · exact patterns_valueIs e2 (fun y hy => h y (by simp [hy])) x hx hp
      | _ => rw [e2] at e; cases e
    | _ => rw [e1] at e; cases e

/-- The battery at the beginning. -/
theorem first_between {d : Draws} (hd : d.Good) {scenario : Bytes} {ss : List SensorData} (e : firstVehicle d scenario = .ok ss) :
    ValueIs batteryPath (InRange (dec 20 1) (dec 80 1)) ss := by
  unfold firstVehicle initialVehicle scenarioSettings at e
  cases e1 : updatePatterns vssSensors (if scenario = b!"mixed_scenario" then b!"urban_traffic" else scenario)
    (vssSensors.map (VssSensor.initial scenario)) with
  | ok l =>
    rw [e1] at e
    simp only [Res.map, Res.ok.injEq] at e
    have hl : ValueIs batteryPath (InRange (dec 20 1) (dec 80 1)) l := by
      refine patterns_valueIs e1 ?_
      intro s hs hp
      obtain ⟨v, hv, rfl⟩ := List.mem_map.1 hs
      have := table_battery80 v hv hp
      rw [this]
      exact ⟨_, rfl, by decide +kernel, by decide +kernel⟩
    generalize hss : (if scenario = b!"urban_traffic" then _ else _ : List SensorData) = ss0 at e
    have h0 : ValueIs batteryPath (InRange (dec 20 1) (dec 80 1)) ss0 := by
      subst hss
      split
      · exact urban_valueIs _ hl
      split
      · exact highway_valueIs _ hl
      split
      · exact charging_valueIs _ _ (onSensor_valueIs (fun s _ => ⟨rfl, fun _ _ => charged_between hd.first.2.2⟩) hl)
      split
      · exact urban_valueIs _ hl
      · exact hl
    subst e
    split
    · exact onSensor_valueIs (fun s _ => ⟨rfl, fun _ _ => ⟨_, rfl, by decide +kernel, by decide +kernel⟩⟩) h0
    · exact h0
  | _ => rw [e1] at e; cases e

theorem first_cell {d : Draws} (hd : d.Good) {scenario : Bytes} (hs : scenario ∈ scenarioNames) {ss : List SensorData}
    (e : firstVehicle d scenario = .ok ss) (h : FirstVehicle scenario ss) : CellIn (battSlope scenario) 0 ss := by
  have hb := table_battery
  rw [← h.table] at hb
  obtain ⟨s, hm, e'⟩ := List.mem_map.1 hb
  simp only [Prod.mk.injEq] at e'
  obtain ⟨x, x1, x2, x3, x4⟩ := inRange_units (first_between hd e s hm e'.1)
  have hw : s.wipe ∈ (sampleVehicle scenario).map SensorData.wipe := by rw [← h.wipe]; exact List.mem_map_of_mem hm
  obtain ⟨s0, h0, e0⟩ := List.mem_map.1 hw
  have h2 := List.all_eq_true.1 (List.all_eq_true.1 sample_cell scenario hs) s0 h0
  rw [Bool.or_eq_true, decide_eq_true_eq] at h2
  refine ⟨s, hm, ?_, x, x1, x2, ?_, ?_⟩
  · rcases h2 with h2 | h2
    · exact absurd ((wipe_fields e0).1.trans e'.1) h2
    · rw [← isCell_erase (erase_of_wipe e0)]; exact h2
  · generalize (2 : Int) ^ 1074 = P at *; omega
  · generalize (2 : Int) ^ 1074 = P at *; omega

theorem cell_read {slope : F64} {s : SensorData} (hs : Steady s) (hb : isCell slope s = true) {x : F64} (hv : s.value = .num x) (c : Choices) (t : Nat) :
    s.seen c t = .num (linStep slope x) := by
  obtain ⟨-, e3, e4, e5, e6, e7, e8⟩ := isCell_iff.1 hb
  rw [read_number e3 (steady_read hs c t)]
  refine (newNumber_linear (s := { s with counter := s.counter + 1 }) _ _ hv e4).trans ?_
  have p6 : SensorData.param { s with counter := s.counter + 1 } b!"slope" = slope := e6
  have p7 : SensorData.param { s with counter := s.counter + 1 } b!"min" = dec 0 1 := e7
  have p8 : SensorData.param { s with counter := s.counter + 1 } b!"max" = dec 100 1 := e8
  rw [p6, p7, p8]
  dsimp only
  rw [e5]
  rfl

theorem cell_inside {n : Nat} (hn : n ≤ 190) {x : F64} (h1 : (200 - (n : Int)) * 2 ^ 1074 ≤ 10 * x.units) (h2 : 10 * x.units ≤ (800 + (n : Int)) * 2 ^ 1074) :
    2 ^ 1074 ≤ x.units ∧ x.units ≤ 99 * 2 ^ 1074 := by
  have hP : (0 : Int) ≤ 2 ^ 1074 := Int.pow_nonneg (by decide)
  have a1 : 10 * (2 : Int) ^ 1074 ≤ (200 - (n : Int)) * 2 ^ 1074 := Int.mul_le_mul_of_nonneg_right (by omega) hP
  have a2 : (800 + (n : Int)) * (2 : Int) ^ 1074 ≤ 990 * 2 ^ 1074 := Int.mul_le_mul_of_nonneg_right (by omega) hP
  generalize (200 - (n : Int)) * 2 ^ 1074 = A at *
  generalize (800 + (n : Int)) * 2 ^ 1074 = B at *
  generalize (2 : Int) ^ 1074 = P at *
  omega

theorem cell_visits {d : Draws} (hd : d.Good) {slope : F64} (hsl : StepOk slope) {t n : Nat} (hn : n ≤ 190) {ss : List SensorData} (hs : Sound ss)
    (h : CellIn slope n ss) : CellIn slope (if 200 ∣ t then n + 1 else n) (afterVisits d t (d.order t) ss) := by
  obtain ⟨s, hm, hb, x, hv, x1, x2, x3⟩ := h
  obtain ⟨e1, -, -, e5, -⟩ := isCell_iff.1 hb
  have hmem : s.path ∈ d.order t := by
    rw [(hd.order t).mem_iff, e1]
    decide +kernel
  have hdue : dueNow t s ↔ 200 ∣ t := by
    unfold dueNow
    rw [e5]
    omega
  have hm' := List.mem_map_of_mem (f := fun s => if s.path ∈ d.order t ∧ dueNow t s then s.next (d.read t s.path) t else s) hm
  by_cases ht : 200 ∣ t
  · rw [if_pos ⟨hmem, hdue.2 ht⟩] at hm'
    rw [if_pos ht]
    obtain ⟨y1, y2⟩ := cell_inside hn x2 x3
    obtain ⟨z1, z2, z3, z4⟩ := linStep_moves hsl x1 y1 y2
    refine ⟨_, hm', ?_, linStep slope x, ?_, z1, ?_, ?_⟩
    · rw [isCell_erase (next_erase _ _ _)]; exact hb
    · rw [next_value (hs.steady s hm), cell_read (hs.steady s hm) hb hv, hv, z2]; rfl
    · have : (200 - ((n + 1 : Nat) : Int)) * (2 : Int) ^ 1074 = (200 - (n : Int)) * 2 ^ 1074 - 2 ^ 1074 := by
        rw [show (200 - ((n + 1 : Nat) : Int)) = (200 - (n : Int)) - 1 by omega, Int.sub_mul _ 1, Int.one_mul]
      rw [this]
      generalize (200 - (n : Int)) * 2 ^ 1074 = A at *
      generalize (2 : Int) ^ 1074 = P at *
      omega
    · have : (800 + ((n + 1 : Nat) : Int)) * (2 : Int) ^ 1074 = (800 + (n : Int)) * 2 ^ 1074 + 2 ^ 1074 := by
        rw [show (800 + ((n + 1 : Nat) : Int)) = (800 + (n : Int)) + 1 by omega, Int.add_mul _ 1, Int.one_mul]
      rw [this]
      generalize (800 + (n : Int)) * 2 ^ 1074 = A at *
      generalize (2 : Int) ^ 1074 = P at *
      omega
  · rw [if_neg fun k => ht (hdue.1 k.2)] at hm'
    rw [if_neg ht]
    exact ⟨s, hm', hb, x, hv, x1, x2, x3⟩

/-- The battery level when the times are over. -/
theorem cell_drive {d : Draws} (hd : d.Good) {slope : F64} (hsl : StepOk slope) {dur : Nat} (hdur : dur % 100 = 0) (hdur' : dur ≤ 38000) :
    ∀ (n t : Nat), dur - t ≤ n → ∀ ss : List SensorData, Sound ss → t % 100 = 0 → t ≤ dur → CellIn slope ((t + 199) / 200) ss →
    CellIn slope ((dur + 199) / 200) (drive d (loopTimes dur simStep t) ss) := by
  intro n
  induction n with
  | zero =>
    intro t ht ss _ _ hle hl
    rw [loopTimes, if_neg (by omega)]
    obtain rfl : t = dur := by omega
    exact hl
  | succ n ih =>
    intro t ht ss hs hm hle hl
    rw [loopTimes]
    by_cases h : t < dur
    · rw [if_pos ⟨h, by decide⟩, drive]
      refine ih (t + simStep) (by unfold simStep; omega) _ (hs.of_erase (afterVisits_erase ..)) (by unfold simStep; omega) (by unfold simStep; omega) ?_
      have := cell_visits hd hsl (t := t) (by omega) hs hl
      unfold simStep
      by_cases h2 : 200 ∣ t
      · rw [if_pos h2] at this
        rw [show (t + 100 + 199) / 200 = (t + 199) / 200 + 1 by omega]
        exact this
      · rw [if_neg h2] at this
        rw [show (t + 100 + 199) / 200 = (t + 199) / 200 by omega]
        exact this
    · rw [if_neg (by omega)]
      obtain rfl : t = dur := by omega
      exact hl

/-- In every scenario, the battery has a recorded patch every 200 ms for the first 38 s. -/
theorem cell_patches {dur : Nat} {d : Draws} (hd : d.Good) {scenario : Bytes} (hs : scenario ∈ scenarioNames)
    {r₀ r : Trip} (o : Outcome dur d scenario r₀ r) {k : Nat} (hk : k ≤ 190)
    (hlt : 200 * k < dur) : ∃ q ∈ r.sim.tsonPatches, q.path = batteryPath ∧ q.ts = (200 * k : Nat) := by
  obtain ⟨r₀', r₁, o₁⟩ := outcome (dur := 200 * k) hd hs (fun _ => by omega)
  obtain rfl : r₀ = r₀' := by have := o.start; rw [o₁.start] at this; cases this; rfl
  have hL : CellIn (battSlope scenario) k r₁.vehicle := by
    have := cell_drive hd (battSlope_ok scenario) (dur := 200 * k) (by omega) (by omega) (200 * k) 0 (by omega) r₀.vehicle o.first.sound (by omega) (by omega)
      (first_cell hd hs (start_vehicle o.start) o.first)
    rw [← o₁.vehicle, show (200 * k + 199) / 200 = k by omega] at this
    exact this
  have hsnd : Sound r₁.vehicle := by
    rw [o₁.vehicle]
    exact o.first.sound.of_erase (drive_erase ..)
  obtain ⟨s, hm, hb, x, hv, x1, x2, x3⟩ := hL
  obtain ⟨e1, -, -, e5, -⟩ := isCell_iff.1 hb
  obtain ⟨y1, y2⟩ := cell_inside hk x2 x3
  obtain ⟨-, z2, -, -⟩ := linStep_moves (battSlope_ok scenario) x1 y1 y2
  have hmem : batteryPath ∈ d.order (200 * k) := by
    rw [(hd.order _).mem_iff]
    decide +kernel
  have hdue : dueNow (200 * k) s := by
    unfold dueNow
    rw [e5]
    omega
  have hso : sensorOf r₁.vehicle batteryPath = some s := by rw [← e1]; exact sensorOf_mem hsnd.paths hm
  have hx : (⟨batteryPath, .num (linStep (battSlope scenario) x), (200 * k : Nat)⟩ : Reading) ∈ taken d (200 * k) r₁.vehicle (d.order (200 * k)) := by
    unfold taken
    refine List.mem_filterMap.2 ⟨batteryPath, hmem, ?_⟩
    rw [hso, Option.bind_some, if_pos hdue, cell_read (hsnd.steady s hm) hb hv]
  have hget : mget r₁.sim.sensors batteryPath = some (.num x) := by
    rw [show r₁.sim.sensors = vehicleValues r₁.vehicle from o₁.tied, mget_values, hso, Option.map_some, hv]
  have hrec := run_records _ r₁.sim (taken_apart hd (200 * k) r₁.vehicle) hx hget z2
  refine ⟨⟨b!"replace", batteryPath, .num (linStep (battSlope scenario) x), (200 * k : Nat)⟩, ?_, rfl, rfl⟩
  rw [o.sim, loopTimes_split (by decide) (200 * k) 0 (2 * k) (by unfold simStep; omega) hlt, driven_append, run_append, ← o₁.sim, ← o₁.vehicle, driven,
    run_append]
  exact run_grows _ _ hrec

/-- A longer drive has the recorded patches of a shorter one, and then more. -/
theorem experiment_grows {dur : Nat} (hdur : dur ≤ 2 ^ 53) {d : Draws} (hd : d.Good) {scenario : Bytes} (hs : scenario ∈ scenarioNames) {n m : Nat}
    (hn : n = 100 * m) (hlt : n < dur) {r₁ r : Trip} (e₁ : experiment n d scenario = .ok (some r₁)) (e : experiment dur d scenario = .ok (some r)) :
    r₁.sim.tsonPatches <+: r.sim.tsonPatches := by
  obtain ⟨r₀, e₀, -⟩ := start_tame hd hs
  obtain ⟨ht, -⟩ := experiment_inv (dur := n) (by omega) hd hs (P := fun _ => True) (fun _ _ _ => trivial) (fun _ _ _ _ => trivial) e₀ e₁ trivial
  obtain ⟨r', k1, -, k2⟩ := loop_inv hd (P := fun s => r₁.sim.tsonPatches <+: s.tsonPatches) (fun _ _ k => k) (n :: loopTimes dur simStep (n + simStep)) r₁
    (fun t h => by
      rcases List.mem_cons.1 h with rfl | h
      · omega
      · have := ((mem_loopTimes (by decide) dur (n + simStep) (by omega) t).1 h).1
        omega)
    (fun s x _ k => by
      refine k.trans ?_
      by_cases hc : isEqual ((mget s.sensors x.path).getD .null) x.value = true
      · have : (s.step isEqual x).tsonPatches = s.tsonPatches := by simp [Sim.step, hc]
        rw [this]
        exact List.prefix_refl _
      · have : (s.step isEqual x).tsonPatches = s.tsonPatches ++ [⟨b!"replace", x.path, x.value, x.ts⟩] := by simp [Sim.step, hc]
        rw [this]
        exact List.prefix_append _ _) ht (List.prefix_refl _)
  unfold experiment at e₁ e
  rw [e₀] at e₁ e
  change Trip.loop d _ r₀ = _ at e₁ e
  rw [loopTimes_split (by decide) n 0 m (by unfold simStep; omega) hlt, loop_append d _ _ _ _ e₁, k1] at e
  cases e
  exact k2

/-- A drive of any duration records the battery every 200 ms of the first 38 s. -/
theorem Ended.cell {dur : Nat} (hdur : dur ≤ 2 ^ 53) {d : Draws} (hd : d.Good) {scenario : Bytes} (hs : scenario ∈ scenarioNames)
    {r₀ r : Trip} (o : Ended dur d scenario r₀ r) {k : Nat} (hk : k ≤ 190)
    (hlt : 200 * k < dur) : ∃ q ∈ r.sim.tsonPatches, q.path = batteryPath ∧ q.ts = (200 * k : Nat) := by
  by_cases h : dur ≤ 499900
  · obtain ⟨r₀', r', o'⟩ := outcome (dur := dur) hd hs (fun _ => h)
    obtain rfl : r = r' := by have := o'.runs; rw [o.runs] at this; cases this; rfl
    exact cell_patches hd hs o' hk hlt
  · obtain ⟨r₀', r', o'⟩ := outcome (dur := 499900) hd hs (fun _ => Nat.le_refl _)
    obtain ⟨q, h1, h2⟩ := cell_patches hd hs o' hk (by omega)
    exact ⟨q, (experiment_grows (m := 4999) hdur hd hs rfl (by omega) o'.runs o.runs).subset h1, h2⟩

/-- The recorded patches of a drive are from time 0 to the end. -/
theorem drive_times {dur : Nat} (hdur : 0 < dur) (hdur' : dur ≤ 2 ^ 53) {d : Draws} (hd : d.Good) {scenario : Bytes} (hs : scenario ∈ scenarioNames)
    {r₀ r : Trip} (o : Ended dur d scenario r₀ r) :
    ∃ hi : Int, TimesOf r.sim.tsonPatches 0 hi ∧ (10000 < dur → 10000 ≤ hi) ∧ hi < dur := by
  obtain ⟨q0, hq0, -, e0⟩ := o.cell hdur' hd hs (k := 0) (by omega) (by omega)
  obtain ⟨lo, hi, hT⟩ := exists_range (rs := r.sim.tsonPatches) (by intro k; rw [k] at hq0; cases hq0)
  have b0 := hT.all q0 hq0
  have hin : ∀ p ∈ r.sim.tsonPatches, 0 ≤ p.ts ∧ p.ts < dur := fun p hp => by
    obtain ⟨-, k1, k2, -⟩ := o.readings p (o.kept.subset hp)
    exact ⟨k1, k2⟩
  have hlo : lo = 0 := by
    obtain ⟨p, hp, e⟩ := hT.first
    have := hin p hp
    omega
  subst hlo
  obtain ⟨p, hp, e⟩ := hT.last
  have := hin p hp
  refine ⟨hi, hT, fun k => ?_, by omega⟩
  obtain ⟨q1, hq1, -, e1⟩ := o.cell hdur' hd hs (k := 50) (by omega) (by omega)
  have b1 := hT.all q1 hq1
  omega

/-! ### C86 and C87 for every scenario -/

/-- **C86, simulation and experiments, every scenario.**  The data of a simulated drive of more than 10 s: the temporal experiments
on them end without panic and without error, whatever is drawn, and find what was recorded.  The patches found are
the recorded ones in which the value differs from the one before; these are all of them, except perhaps in the mixed scenario after
its first switch (`NoSwitch`). -/
theorem C86_all_partial (h : Heap) {dur : Nat} (hdur : 10000 < dur) (hdur' : dur ≤ 2 ^ 53) {d : Draws} (hd : d.Good) {scenario : Bytes}
    (hs : scenario ∈ scenarioNames) {c : TemporalDraws}
    (hc : c.Good) (hn : dur ≤ c.now) (hn' : c.now ≤ maxInt64) :
    ∃ (r₀ r : Trip) (doc : List (Bytes × Js)) (res : TemporalResults) (T : List (List (Nat × List Op) × List TVersion))
      (E : List (List Int × List Int)) (hi : Int),
      Trip.start d scenario = .ok r₀ ∧ experiment dur d scenario = .ok (some r) ∧ decAny (.obj r₀.sim.json) = .obj doc ∧
      temporalRun h c doc r.sim.tsonPatches = .ok res ∧ hi < dur ∧ DriveResult (NoSwitch dur scenario) r₀ r hi res T E := by
  obtain ⟨r₀, r, doc, m, h1, h2, hpath, H⟩ := C86_handed_partial hdur' hd hs
  obtain ⟨r₀', r', o⟩ := ended hdur' hd hs
  obtain rfl : r₀ = r₀' := by have := o.first.start; rw [h1] at this; cases this; rfl
  obtain rfl : r = r' := by have := o.runs; rw [h2] at this; cases this; rfl
  obtain ⟨hi, hT, k1, k2⟩ := drive_times (by omega) hdur' hd hs o
  obtain ⟨res, T, E, g1, g2⟩ := ready_run h hc H.toReady hpath hT (k1 hdur) (by omega) (by omega) hn'
  exact ⟨r₀, r, doc, res, T, E, hi, h1, h2, H.file, g1, k2, g2⟩

/-- **C86, refuted for every scenario: readings after time 0 only.**  A patch of the battery is recorded at time 0, which is also the
time of its initial patch. -/
theorem C86_zero_all_fails {dur : Nat} (hdur : 0 < dur) (hdur' : dur ≤ 2 ^ 53) {d : Draws} (hd : d.Good) {scenario : Bytes}
    (hs : scenario ∈ scenarioNames) :
    ∃ r, experiment dur d scenario = .ok (some r) ∧ ∃ q ∈ r.sim.tsonPatches, q.path = batteryPath ∧ q.ts = 0 := by
  obtain ⟨r₀, r, o⟩ := ended hdur' hd hs
  obtain ⟨q, h1, h2, h3⟩ := o.cell hdur' hd hs (k := 0) (by omega) (by omega)
  exact ⟨r, o.runs, q, h1, h2, h3⟩

/-- **C86, refuted for short drives, every scenario.**  The temporal experiments panic on the data of a drive of at most 10 s. -/
theorem C86_short_all_fails (h : Heap) {dur : Nat} (hdur : 0 < dur) (hdur' : dur ≤ 10000) {d : Draws} (hd : d.Good) {scenario : Bytes}
    (hs : scenario ∈ scenarioNames) (c : TemporalDraws) :
    ∃ r₀ r doc, Trip.start d scenario = .ok r₀ ∧ experiment dur d scenario = .ok (some r) ∧
      decAny (.obj r₀.sim.json) = .obj doc ∧ temporalRun h c doc r.sim.tsonPatches = .panic := by
  have hp : dur ≤ 2 ^ 53 := by have : (2 : Nat) ^ 53 = 9007199254740992 := by decide
                               omega
  obtain ⟨r₀, r, doc, m, h1, h2, hpath, H⟩ := C86_handed_partial hp hd hs
  obtain ⟨r₀', r', o⟩ := ended hp hd hs
  obtain rfl : r₀ = r₀' := by have := o.first.start; rw [h1] at this; cases this; rfl
  obtain rfl : r = r' := by have := o.runs; rw [h2] at this; cases this; rfl
  obtain ⟨hi, hT, -, hhi⟩ := drive_times hdur hp hd hs o
  refine ⟨r₀, r, doc, h1, h2, H.file, ?_⟩
  unfold temporalRun
  have hsm : sampleTimes c.unix r.sim.tsonPatches 61 = .ok ((List.range 61).map (sampleTime 0 hi 61)) := sampleTimes_eq hT c.unix 61
  rw [createLogument, H.plain, fromJson_plain H.values trivial H.depth, Res.bind, hsm, Res.bind]
  dsimp only
  split
  · rfl
  · rw [hT.range]
    dsimp only
    split
    · rfl
    · rw [if_pos (by omega)]

/-- **C87, simulation, files and experiments, every scenario.**  A drive of more than 10 s is simulated and its files are written;
then the temporal experiments on the scenario directory end without panic and without error, and find what was recorded. -/
theorem C87_all_partial (h : Heap) {dur : Nat} (hdur : 10000 < dur) (hdur' : dur ≤ 2 ^ 53) {d : Draws} (hd : d.Good) (hclk : d.Clock)
    {scenario : Bytes} (hs : scenario ∈ scenarioNames)
    {c : TemporalDraws} (hc : c.Good) (hn : dur ≤ c.now) (hn' : c.now ≤ maxInt64) {ds : List (Bytes × Dir)} {t : Civil} (ht : t.Valid)
    (hds : UpTo ds t) :
    ∃ (r₀ r : Trip) (res : TemporalResults) (T : List (List (Nat × List Op) × List TVersion)) (E : List (List Int × List Int)) (hi : Int),
      Trip.start d scenario = .ok r₀ ∧ experiment dur d scenario = .ok (some r) ∧
      temporalFiles h c (saveExperiment ds t r₀ r) = .ok (some res) ∧ hi < dur ∧ DriveResult (NoSwitch dur scenario) r₀ r hi res T E := by
  obtain ⟨r₀, r, doc, m, dir, h1, h2, hpath, h3, h4, h5, H⟩ := C87_handed_partial hdur' hd hclk hs ht hds
  obtain ⟨r₀', r', o⟩ := ended hdur' hd hs
  obtain rfl : r₀ = r₀' := by have := o.first.start; rw [h1] at this; cases this; rfl
  obtain rfl : r = r' := by have := o.runs; rw [h2] at this; cases this; rfl
  obtain ⟨hi, hT, k1, k2⟩ := drive_times (by omega) hdur' hd hs o
  obtain ⟨res, T, E, g1, g2⟩ := ready_run h hc H hpath hT (k1 hdur) (by omega) (by omega) hn'
  refine ⟨r₀, r, res, T, E, hi, h1, h2, ?_, k2, g2⟩
  unfold temporalFiles
  rw [h3]
  dsimp only
  rw [h4]
  dsimp only
  rw [h5]
  dsimp only
  rw [g1]
  rfl

/-! ### The hypotheses hold -/

/-- An hour of the mixed scenario. -/
example : ∃ r₀ r res, Trip.start halfDraws b!"mixed_scenario" = .ok r₀ ∧ experiment 3600000 halfDraws b!"mixed_scenario" = .ok (some r) ∧
    temporalFiles [] plainTemporal (saveExperiment [(b!"20250702_235959", []), (b!"notes", [(b!"a", b!"b")])] someTime r₀ r) = .ok (some res) ∧
    res.snapshots.length = 61 := by
  obtain ⟨r₀, r, res, T, E, hi, h1, h2, h3, -, h4⟩ := C87_all_partial [] (dur := 3600000) (by decide) (by decide) halfDraws_good halfDraws_clock
    (scenario := b!"mixed_scenario") (by decide) plainTemporal_good (by decide) (by decide) someTime_valid upTo_some
  exact ⟨r₀, r, res, h1, h2, h3, h4.snapshots.1⟩

/-- An hour of charging, without files between. -/
example : ∃ r₀ r doc res, Trip.start halfDraws b!"battery_charging" = .ok r₀ ∧ experiment 3600000 halfDraws b!"battery_charging" = .ok (some r) ∧
    decAny (.obj r₀.sim.json) = .obj doc ∧ temporalRun [] plainTemporal doc r.sim.tsonPatches = .ok res ∧ res.snapshots.length = 61 := by
  obtain ⟨r₀, r, doc, res, T, E, hi, h1, h2, h3, h4, -, h5⟩ :=
    C86_all_partial [] (dur := 3600000) (by decide) (by decide) halfDraws_good (scenario := b!"battery_charging") (by decide)
      plainTemporal_good (by decide) (by decide)
  exact ⟨r₀, r, doc, res, h1, h2, h3, h4, h5.snapshots.1⟩

end Verif
