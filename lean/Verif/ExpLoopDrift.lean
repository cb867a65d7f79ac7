import Verif.PropsExpWhole
import Verif.PropsExpAll
import Verif.PropsExpEqual
/-
The numbers of the sensors after switches of the mixed scenario: where they can drift, and how far.
-/
namespace Verif
open F64

/-! ### Table -/

def noisePattern : Bytes := b!"constant_with_noise"
def tempPath : Bytes := b!"Vehicle.Powertrain.TractionBattery.Temperature"

/-- Where a sensor with noise can be after `j` returns to traffic: the temperature within 1 more, the pressures within 0.041 more each time. -/
def driftLo (v : VssSensor) (j : Nat) : F64 := if v.path = tempPath then dec (24 - j) 1 else dec (2159 - 41 * j) 1000
@[inherit_doc driftLo]
def driftHi (v : VssSensor) (j : Nat) : F64 := if v.path = tempPath then dec (26 + j) 1 else dec (2241 + 41 * j) 1000

/-- The noise of a sensor. -/
def noiseOf (v : VssSensor) : F64 := F64.mul (F64.sub v.max v.min) (dec 1 100)

/-- The number of returns considered. -/
def maxReturns : Nat := 42

theorem drift_table : ∀ v ∈ vssSensors, v.type = b!"number" → v.urban = noisePattern → finite (noiseOf v) = true ∧ fle (dec 0 1) (noiseOf v) = true ∧
    ∀ j ≤ maxReturns, finite (driftLo v j) = true ∧ finite (driftHi v j) = true ∧ fle v.min (driftLo v j) = true ∧ fle (driftHi v j) v.max = true ∧
      (j < maxReturns → fle (driftLo v (j + 1)) (driftLo v j) = true ∧ fle (driftHi v j) (driftHi v (j + 1)) = true ∧
        fle (driftLo v (j + 1)) (F64.sub (driftLo v j) (noiseOf v)) = true ∧ fle (add (driftHi v j) (noiseOf v)) (driftHi v (j + 1)) = true) := by
  have h : (vssSensors.all fun v => decide (v.type ≠ b!"number") || decide (v.urban ≠ noisePattern) || (finite (noiseOf v) && fle (dec 0 1) (noiseOf v) &&
      (List.range (maxReturns + 1)).all fun j => finite (driftLo v j) && finite (driftHi v j) && fle v.min (driftLo v j) && fle (driftHi v j) v.max &&
        (decide (¬ j < maxReturns) || (fle (driftLo v (j + 1)) (driftLo v j) && fle (driftHi v j) (driftHi v (j + 1)) &&
          fle (driftLo v (j + 1)) (F64.sub (driftLo v j) (noiseOf v)) && fle (add (driftHi v j) (noiseOf v)) (driftHi v (j + 1)))))) = true := by
    decide +kernel
  intro v hv ht hu
  have h1 := List.all_eq_true.1 h v hv
  rw [decide_eq_false (fun k => k ht), Bool.false_or, decide_eq_false (fun k => k hu), Bool.false_or, Bool.and_eq_true, Bool.and_eq_true] at h1
  refine ⟨h1.1.1, h1.1.2, fun j hj => ?_⟩
  have h2 := List.all_eq_true.1 h1.2 j (List.mem_range.2 (by omega))
  simp only [Bool.and_eq_true, Bool.or_eq_true, decide_eq_true_eq] at h2
  refine ⟨h2.1.1.1.1, h2.1.1.1.2, h2.1.1.2, h2.1.2, fun hl => ?_⟩
  have := h2.2.resolve_left (fun k => k hl)
  exact ⟨this.1.1.1, this.1.1.2, this.1.2, this.2⟩

/-- The patterns of the table for the two modes, within the limits of the table. -/
theorem modes_table : ∀ v ∈ vssSensors, v.type = b!"number" → finite v.min = true ∧ finite v.max = true ∧
    (v.urban ≠ noisePattern → ∀ sc ∈ [b!"urban_traffic", b!"battery_charging"], ∀ p, v.pattern? sc = some p →
      p ≠ noisePattern ∧ ∀ ps, patternParams sc v.path p v .null = .ok ps → safe v.min v.max (bare v.interval p ps) = true) ∧
    (v.urban = noisePattern → v.charging = b!"constant" ∨ v.charging = b!"linear" ∧ v.path = tempPath ∧ v.min = dec (-20) 1 ∧ v.max = dec 80 1 ∧
      v.interval = 500) := by
  have h : (vssSensors.all fun v => decide (v.type ≠ b!"number") || (finite v.min && finite v.max && (decide (v.urban = noisePattern) ||
      [b!"urban_traffic", b!"battery_charging"].all fun sc =>
      match v.pattern? sc with
      | none => true
      | some p => decide (p ≠ noisePattern) && match patternParams sc v.path p v .null with
          | .ok ps => safe v.min v.max (bare v.interval p ps)
          | _ => true) &&
      (decide (v.urban ≠ noisePattern) || decide (v.charging = b!"constant") ||
        decide (v.charging = b!"linear" ∧ v.path = tempPath ∧ v.min = dec (-20) 1 ∧ v.max = dec 80 1 ∧ v.interval = 500)))) = true := by
    decide +kernel
  intro v hv ht
  have h1 := List.all_eq_true.1 h v hv
  rw [decide_eq_false (fun k => k ht), Bool.false_or] at h1
  simp only [Bool.and_eq_true, Bool.or_eq_true, decide_eq_true_eq] at h1
  refine ⟨h1.1.1.1, h1.1.1.2, fun hu sc hsc p hp => ?_, fun hu => ?_⟩
  · have h2 := List.all_eq_true.1 (h1.1.2.resolve_left hu) sc hsc
    rw [hp] at h2
    simp only [Bool.and_eq_true, decide_eq_true_eq] at h2
    refine ⟨h2.1, fun ps hps => ?_⟩
    have := h2.2
    rw [hps] at this
    exact this
  · rcases h1.2 with (k | k) | k
    · exact absurd hu k
    · exact .inl k
    · exact .inr k

/-! ### What holds of a sensor between two readings -/

/-- The temperature while charging. -/
structure Warm (b : Bool) (s : SensorData) : Prop where
  path : s.path = tempPath
  pattern : s.pattern = b!"linear"
  min : s.param b!"min" = dec (-20) 1
  max : s.param b!"max" = dec 80 1
  interval : s.interval = 500
  slope : b = true → s.param b!"slope" = dec 1 1000

/-- After `j` returns to traffic. -/
def Held (b : Bool) (j : Nat) (s : SensorData) : Prop :=
  ∀ v ∈ vssSensors, v.path = s.path → v.type = b!"number" →
    (v.urban ≠ noisePattern → safe v.min v.max s = true ∧ InRange v.min v.max s.value) ∧
    (v.urban = noisePattern → InRange (driftLo v j) (driftHi v j) s.value ∧ (safe (driftLo v j) (driftHi v j) s = true ∨ Warm b s))

def HeldIn (b : Bool) (j : Nat) (s : SensorData) : Prop := InTable s ∧ Held b j s

theorem onSensor_held {b : Bool} {j : Nat} {g : Group} {p : Bytes} {f : SensorData → SensorData} (hk : ∀ s, (f s).kept = s.kept)
    (hu : (vssSensors.all fun v => decide (v.path ≠ p) || decide (v.urban ≠ noisePattern)) = true)
    (hf : ∀ s v, v ∈ vssSensors → v.path = p → v.type = b!"number" → InTable s → safe v.min v.max s = true → InRange v.min v.max s.value →
      safe v.min v.max (f s) = true ∧ InRange v.min v.max (f s).value)
    {ss : List SensorData} (h : ∀ s ∈ ss, HeldIn b j s) : ∀ s ∈ onSensor g p f ss, HeldIn b j s := by
  intro s hs
  obtain ⟨s0, h0, rfl⟩ := List.mem_map.1 hs
  split
  · rename_i hp
    have hkk := hk s0
    simp only [SensorData.kept, Prod.mk.injEq] at hkk
    refine ⟨?_, fun v hv e ht => ?_⟩
    · obtain ⟨v, hv, e⟩ := (h _ h0).1
      exact ⟨v, hv, by rw [hkk.1, hkk.2.1, hkk.2.2.1, hkk.2.2.2.1]; exact e⟩
    · rw [hkk.1] at e
      obtain ⟨a, -⟩ := (h _ h0).2 v hv e ht
      have hn := List.all_eq_true.1 hu v hv
      rw [decide_eq_false (fun k => k (e.trans hp.2)), Bool.false_or, decide_eq_true_eq] at hn
      exact ⟨fun k => hf s0 v hv (e.trans hp.2) ht (h _ h0).1 (a k).1 (a k).2, fun k => absurd k hn⟩
  · exact h _ h0

theorem at_table {p : Bytes} {P : VssSensor → Bool} (h : (vssSensors.all fun v => decide (v.path ≠ p) || P v) = true) {v : VssSensor} (hv : v ∈ vssSensors) (e : v.path = p) :
    P v = true := by
  have := List.all_eq_true.1 h v hv
  rwa [decide_eq_false (fun k => k e), Bool.false_or] at this

theorem ifPattern_value (s : SensorData) (p : Bytes) (ps : List (Bytes × F64)) : (s.ifPattern p ps).value = s.value := (ifPattern_fields p ps s).2

/-! ### Settings -/

theorem urban_held {j : Nat} {u : F64} (hu : IsUnit u) {ss : List SensorData} (h : ∀ s ∈ ss, HeldIn true j s) : ∀ s ∈ urbanSettings u ss, HeldIn true j s := by
  unfold urbanSettings
  iterate 2 refine onSensor_held (fun _ => ifPattern_kept _ _ _) (by decide +kernel) (fun _ _ _ _ _ _ k1 k2 => ⟨safe_toggle k1, by rw [ifPattern_value]; exact k2⟩) ?_
  iterate 2 refine onSensor_held (fun _ => ifPattern_kept _ _ _) (by decide +kernel) (fun _ _ _ _ _ _ k1 k2 => ⟨safe_step (by decide +kernel) k1, by rw [ifPattern_value]; exact k2⟩) ?_
  refine onSensor_held (fun _ => ifPattern_kept _ _ _) (by decide +kernel) (fun _ v hv e _ _ k1 k2 => ⟨safe_walk (by decide +kernel)
    (at_table (P := fun v => fle v.min (dec (-3) 1)) (by decide +kernel) hv e) (by decide +kernel) (at_table (P := fun v => fle (dec 2 1) v.max) (by decide +kernel) hv e) k1,
    by rw [ifPattern_value]; exact k2⟩) ?_
  refine onSensor_held (fun _ => ifPattern_kept _ _ _) (by decide +kernel) (fun _ v hv e _ _ k1 k2 => ⟨safe_sine (by decide +kernel) (by decide +kernel) (by decide +kernel)
    (by decide +kernel) (at_table (P := fun v => fle v.min (F64.sub (dec 0 1) (dec 15 1))) (by decide +kernel) hv e)
    (at_table (P := fun v => fle (add (dec 0 1) (dec 15 1)) v.max) (by decide +kernel) hv e) (by decide +kernel) k1, by rw [ifPattern_value]; exact k2⟩) ?_
  iterate 2 refine onSensor_held (fun _ => ifPattern_kept _ _ _) (by decide +kernel) (fun _ _ _ _ _ _ k1 k2 => ⟨safe_step (by decide +kernel) k1, by rw [ifPattern_value]; exact k2⟩) ?_
  refine onSensor_held (fun _ => (ifPattern_kept _ _ _).trans (setValue_kept _ _)) (by decide +kernel) (fun s v hv e _ _ k1 _ => ⟨safe_walk (by decide +kernel)
    (at_table (P := fun v => fle v.min (dec 0 1)) (by decide +kernel) hv e) (by decide +kernel) (at_table (P := fun v => fle (dec 70 1) v.max) (by decide +kernel) hv e)
    ((setValue_safe _ _ s _).trans k1), ?_⟩) h
  rw [ifPattern_value]
  exact (drawn_between hu (dec_fin (by decide +kernel)) (dec_fin (by decide +kernel)) (by decide +kernel)).mono
    (at_table (P := fun v => fle v.min (F64.sub (dec 40 1) (dec 20 1))) (by decide +kernel) hv e) (at_table (P := fun v => fle (add (dec 40 1) (dec 20 1)) v.max) (by decide +kernel) hv e)

theorem slope_param {s : SensorData} {x : F64} (hp : s.pattern = b!"linear") {k : Bytes} (hk : k ≠ b!"slope") : (s.ifPattern b!"linear" [(b!"slope", x)]).param k = s.param k := by
  unfold SensorData.ifPattern SensorData.param
  rw [if_pos hp]
  dsimp only [List.foldl]
  rw [mget_mset, if_neg hk]

theorem slope_self {s : SensorData} {x : F64} (hp : s.pattern = b!"linear") : (s.ifPattern b!"linear" [(b!"slope", x)]).param b!"slope" = x := by
  unfold SensorData.ifPattern SensorData.param
  rw [if_pos hp]
  dsimp only [List.foldl]
  rw [mget_mset, if_pos rfl]
  rfl

/-- The slope set for the temperature. -/
theorem warm_held {j : Nat} {g : Group} {ss : List SensorData} (hg : (vssSensors.all fun v => decide (v.path ≠ tempPath) || decide (v.group = g)) = true)
    (h : ∀ s ∈ ss, HeldIn false j s) : ∀ s ∈ onSensor g tempPath (fun s => s.ifPattern b!"linear" [(b!"slope", dec 1 1000)]) ss, HeldIn true j s := by
  intro s hs
  obtain ⟨s0, h0, rfl⟩ := List.mem_map.1 hs
  obtain ⟨hi, hh⟩ := h _ h0
  split
  · rename_i hp
    have hkk := ifPattern_kept s0 b!"linear" [(b!"slope", dec 1 1000)]
    simp only [SensorData.kept, Prod.mk.injEq] at hkk
    have hi' := hi
    obtain ⟨v, hv, e⟩ := hi
    refine ⟨⟨v, hv, by rw [hkk.1, hkk.2.1, hkk.2.2.1, hkk.2.2.2.1]; exact e⟩, fun w hw ew ht => ?_⟩
    rw [hkk.1] at ew
    obtain ⟨a, b⟩ := hh w hw ew ht
    rw [ifPattern_value]
    refine ⟨fun k => ⟨safe_slope (hi'.slope (by simp)) (a k).1, (a k).2⟩, fun k => ⟨(b k).1, ?_⟩⟩
    rcases (b k).2 with q | q
    · exact .inl (safe_slope (hi'.slope (by simp)) q)
    · refine .inr ⟨hkk.1.trans q.path, hkk.2.2.2.2.trans q.pattern, ?_, ?_, hkk.2.2.2.1.trans q.interval, fun _ => ?_⟩
      · exact (slope_param q.pattern (by decide)).trans q.min
      · exact (slope_param q.pattern (by decide)).trans q.max
      · exact slope_self q.pattern
  · rename_i hp
    refine ⟨hi, fun w hw ew ht => ?_⟩
    obtain ⟨a, b⟩ := hh w hw ew ht
    refine ⟨a, fun k => ⟨(b k).1, ?_⟩⟩
    rcases (b k).2 with q | q
    · exact .inl q
    · obtain ⟨v, hv, e⟩ := hi
      have : v.group = g := of_decide_eq_true (at_table hg hv (e.1.trans q.path))
      exact absurd ⟨e.2.1.symm.trans this, q.path⟩ hp

theorem charging_held {j : Nat} {u u' : F64} (hu : IsUnit u) (hu' : IsUnit u') {ss : List SensorData} (h : ∀ s ∈ ss, HeldIn false j s) :
    ∀ s ∈ chargingSettings u u' ss, HeldIn true j s := by
  unfold chargingSettings
  refine onSensor_held (fun s => (ifPattern_kept _ _ _).trans ?_) (by decide +kernel) (fun s v hv e _ hi k1 k2 => ?_) ?_
  · split
    · exact setValue_kept _ _
    · rfl
  · split
    · refine ⟨safe_slope (hi.slope (by simp)) ((setValue_safe _ _ s _).trans k1), ?_⟩
      rw [ifPattern_value]
      exact (drawn_between hu' (dec_fin (by decide +kernel)) (dec_fin (by decide +kernel)) (by decide +kernel)).mono
        (at_table (P := fun v => fle v.min (F64.sub (dec 120 1) (dec 60 1))) (by decide +kernel) hv e)
        (at_table (P := fun v => fle (add (dec 120 1) (dec 60 1)) v.max) (by decide +kernel) hv e)
    · exact ⟨safe_slope (hi.slope (by simp)) k1, by rw [ifPattern_value]; exact k2⟩
  refine onSensor_held (fun _ => (ifPattern_kept _ _ _).trans (setValue_kept _ _)) (by decide +kernel) (fun s v hv e _ _ k1 _ => ⟨safe_sine (by decide +kernel) (by decide +kernel)
    (by decide +kernel) (by decide +kernel) (at_table (P := fun v => fle v.min (F64.sub (dec 115 10) (dec 1 1))) (by decide +kernel) hv e)
    (at_table (P := fun v => fle (add (dec 115 10) (dec 1 1)) v.max) (by decide +kernel) hv e) (by decide +kernel) ((setValue_safe _ _ s _).trans k1), ?_⟩) ?_
  · rw [ifPattern_value]
    exact (drawn_between hu (dec_fin (by decide +kernel)) (dec_fin (by decide +kernel)) (by decide +kernel)).mono
      (at_table (P := fun v => fle v.min (F64.sub (dec 11 1) (dec 2 1))) (by decide +kernel) hv e)
      (at_table (P := fun v => fle (add (dec 11 1) (dec 2 1)) v.max) (by decide +kernel) hv e)
  refine onSensor_held (fun _ => setValue_kept _ _) (by decide +kernel) (fun s v hv e ht _ _ _ => absurd ht (charging_path_type v hv e)) ?_
  refine warm_held (by decide +kernel) ?_
  refine onSensor_held (fun _ => ifPattern_kept _ _ _) (by decide +kernel) (fun _ v hv e _ hi k1 k2 => ⟨safe_slope (hi.slope (by simp)) k1, by rw [ifPattern_value]; exact k2⟩) ?_
  iterate 5 refine onSensor_held (fun _ => setValue_kept _ _) (by decide +kernel) (fun s v hv e _ _ k1 _ => ⟨(setValue_safe _ _ s _).trans k1, dec 0 1, rfl,
    at_table (P := fun v => fle v.min (dec 0 1)) (by decide +kernel) hv e, at_table (P := fun v => fle (dec 0 1) v.max) (by decide +kernel) hv e⟩) ?_
  exact h

/-! ### A switch -/

theorem fle_add {a b c d lo : F64} (ha : a.IsFin) (hb : b.IsFin) (hc : c.IsFin) (hd : d.IsFin) (h1 : fle a c = true) (h2 : fle b d = true) (h : fle lo (add a b) = true) :
    fle lo (add c d) = true :=
  fle_trans h ((fle_iff (add_ne_nan ha hb.ne_nan) (add_ne_nan hc hd.ne_nan)).2 (add_mono ha hb hc hd ((fle_units ha hc).1 h1) ((fle_units hb hd).1 h2)))

theorem add_fle {a b c d hi : F64} (ha : a.IsFin) (hb : b.IsFin) (hc : c.IsFin) (hd : d.IsFin) (h1 : fle a c = true) (h2 : fle b d = true) (h : fle (add c d) hi = true) :
    fle (add a b) hi = true :=
  fle_trans ((fle_iff (add_ne_nan ha hb.ne_nan) (add_ne_nan hc hd.ne_nan)).2 (add_mono ha hb hc hd ((fle_units ha hc).1 h1) ((fle_units hb hd).1 h2))) h

theorem fle_self {a : F64} (h : a.IsFin) : fle a a = true := (fle_units h h).2 (Int.le_refl _)

/-- The switch to a mode, before its settings. -/
theorem updatePattern_held {sc : Bytes} {b : Bool} {j k : Nat} (hsc : sc = b!"urban_traffic" ∧ b = true ∧ k = j + 1 ∧ j < maxReturns ∨ sc = b!"battery_charging" ∧ b = false ∧ k = j ∧ j ≤ maxReturns)
    {s s' : SensorData} (h : HeldIn true j s) (e : s.updatePattern vssSensors sc = .ok s') : HeldIn b k s' := by
  obtain ⟨⟨v, hv, e1, e2, e3, e4⟩, h⟩ := h
  have hm : sc ∈ [b!"urban_traffic", b!"battery_charging"] := by rcases hsc with ⟨q, -⟩ | ⟨q, -⟩ <;> simp [q]
  obtain ⟨p, hp⟩ : ∃ p, v.pattern? sc = some p := by
    obtain ⟨_, _, _, _, _, _, _, _, q⟩ := updatePattern_ok (scenario := sc) (by
      simp only [List.mem_cons, List.not_mem_nil, or_false] at hm ⊢
      rcases hm with q | q
      · exact .inl q
      · exact .inr (.inr q)) hv e1 e4
    exact ⟨_, q⟩
  unfold SensorData.updatePattern at e
  rw [← e1, find_entry hv] at e
  dsimp only at e
  rw [hp] at e
  dsimp only at e
  cases hps : patternParams sc v.path p v s.value with
  | err => rw [hps] at e; cases e
  | panic => rw [hps] at e; cases e
  | ok ps =>
    rw [hps] at e
    simp only [Res.map, Res.ok.injEq] at e
    subst e
    refine ⟨⟨v, hv, rfl, e2, e3, e4⟩, fun w hw ew hwt => ?_⟩
    obtain rfl : w = v := by
      have h1 := find_entry hw
      rw [ew, find_entry hv] at h1
      exact (Option.some.inj h1).symm
    obtain ⟨a, c⟩ := h w hw e1 hwt
    obtain ⟨-, -, m1, m2⟩ := modes_table w hw hwt
    refine ⟨fun hn => ⟨?_, (a hn).2⟩, fun hn => ?_⟩
    · obtain ⟨q1, q2⟩ := m1 hn sc hm p hp
      rw [patternParams_value q1] at hps
      rw [safe_bare]
      have := q2 ps hps
      rw [e3] at this
      exact this
    · obtain ⟨d1, d2, d3⟩ := drift_table w hw hwt hn
      rcases hsc with ⟨rfl, rfl, rfl, hj⟩ | ⟨rfl, rfl, rfl, hj⟩
      · obtain ⟨f1, f2, -, -, g⟩ := d3 j (by omega)
        obtain ⟨g1, g2, g3, g4⟩ := g hj
        refine ⟨(c hn).1.mono g1 g2, .inl ?_⟩
        have hpn : p = noisePattern := by
          unfold VssSensor.pattern? at hp
          rw [if_pos rfl] at hp
          rw [← hn, Option.some.inj hp]
        subst hpn
        have hr := (c hn).1
        obtain ⟨f, hf, r⟩ := hr
        unfold patternParams at hps
        dsimp only at hps
        rw [if_neg (by decide), if_neg (by decide), if_neg (by decide), if_pos (show noisePattern = b!"constant_with_noise" from rfl), hf] at hps
        simp only [Res.ok.injEq] at hps
        subst hps
        have ff : f.IsFin := InRange.fin (finite_iff.1 f1) (finite_iff.1 f2) ⟨f, rfl, r⟩
        have fn : (noiseOf w).IsFin := finite_iff.1 d1
        unfold safe
        dsimp only
        rw [if_pos (show noisePattern = b!"constant_with_noise" from rfl)]
        have m1 : ∀ x y : F64, mget [(b!"baseline", x), (b!"noise", y)] b!"baseline" = some x := fun x y => by simp [mget]
        have m2 : ∀ x y : F64, mget [(b!"baseline", x), (b!"noise", y)] b!"noise" = some y := fun x y => by simp (config := {decide := true}) [mget]
        simp only [SensorData.param, m1, m2, Option.getD_some, Bool.and_eq_true]
        exact ⟨⟨⟨⟨finite_iff.2 ff, d1⟩, d2⟩, fle_add (finite_iff.1 f1) (neg_fin fn) ff (neg_fin fn) r.1 (fle_self (neg_fin fn)) g3⟩,
          add_fle ff fn (finite_iff.1 f2) fn r.2 (fle_self fn) g4⟩
      · refine ⟨(c hn).1, ?_⟩
        have hpc : p = w.charging := by
          unfold VssSensor.pattern? at hp
          rw [if_neg (by decide), if_neg (by decide), if_pos rfl] at hp
          exact (Option.some.inj hp).symm
        rcases m2 hn with q | ⟨q1, q2, q3, q4, q5⟩
        · rw [q] at hpc
          subst hpc
          left
          unfold safe
          dsimp only
          simp (config := {decide := true}) only [if_false]
        · rw [q1] at hpc
          subst hpc
          unfold patternParams at hps
          dsimp only at hps
          rw [if_neg (by decide), if_pos rfl] at hps
          simp only [Res.ok.injEq] at hps
          subst hps
          refine .inr ⟨q2, rfl, ?_, ?_, e3.symm.trans q5, fun k => by cases k⟩
          · rw [← q3]
            unfold SensorData.param
            simp (config := {decide := true}) [mget]
          · rw [← q4]
            unfold SensorData.param
            simp (config := {decide := true}) [mget]

theorem updatePatterns_held {sc : Bytes} {b : Bool} {j k : Nat} (hsc : sc = b!"urban_traffic" ∧ b = true ∧ k = j + 1 ∧ j < maxReturns ∨ sc = b!"battery_charging" ∧ b = false ∧ k = j ∧ j ≤ maxReturns) :
    ∀ {ss ss' : List SensorData}, (∀ s ∈ ss, HeldIn true j s) → updatePatterns vssSensors sc ss = .ok ss' → ∀ s ∈ ss', HeldIn b k s
  | [], ss', _, e => by cases e; simp
  | s :: ss, ss', h, e => by
    rw [updatePatterns] at e
    cases h1 : s.updatePattern vssSensors sc with
    | err => rw [h1] at e; cases e
    | panic => rw [h1] at e; cases e
    | ok s1 =>
      rw [h1] at e
      cases h2 : updatePatterns vssSensors sc ss with
      | err => rw [h2] at e; cases e
      | panic => rw [h2] at e; cases e
      | ok ss1 =>
        rw [h2] at e
        simp only [Res.bind, Res.map, Res.ok.injEq] at e
        subst e
        intro x hx
        rcases List.mem_cons.1 hx with rfl | hx
        · exact updatePattern_held hsc (h s (by simp)) h1
        · exact updatePatterns_held hsc (fun y hy => h y (by simp [hy])) h2 x hx

theorem mixed_held {u u' : F64} (hu : IsUnit u) (hu' : IsUnit u') {sc : Bytes} {j k : Nat}
    (hsc : sc = b!"urban_traffic" ∧ k = j + 1 ∧ j < maxReturns ∨ sc = b!"battery_charging" ∧ k = j ∧ j ≤ maxReturns) {ss ss' : List SensorData}
    (h : ∀ s ∈ ss, HeldIn true j s) (e : mixedSettings u u' sc ss = .ok ss') : ∀ s ∈ ss', HeldIn true k s := by
  unfold mixedSettings at e
  cases h1 : updatePatterns vssSensors sc ss with
  | err => rw [h1] at e; cases e
  | panic => rw [h1] at e; cases e
  | ok ss1 =>
    rw [h1] at e
    simp only [Res.map, Res.ok.injEq] at e
    subst e
    rcases hsc with ⟨rfl, q⟩ | ⟨rfl, q⟩
    · rw [if_pos rfl]
      exact urban_held hu (updatePatterns_held (.inl ⟨rfl, rfl, q⟩) h h1)
    · rw [if_neg (by decide), if_neg (by decide), if_pos rfl]
      exact charging_held hu hu' (updatePatterns_held (.inr ⟨rfl, rfl, q⟩) h h1)

/-! ### Readings -/

/-- The error of a sum of either sign. -/
theorem sum_error {x e : F64} (hx : x.IsFin) (he : e.IsFin) (h1 : (x.units + e.units).natAbs ≤ 100 * 2 ^ 1074) :
    2 ^ 53 * ((add x e).key - (x.units + e.units)).natAbs ≤ (x.units + e.units).natAbs + 2 ^ 52 := by
  rw [add_fin hx he, roundZ_key _ _ (Nat.two_pow_pos _)]
  generalize x.units + e.units = z at *
  obtain ⟨e1, e2⟩ := rounded_error z.natAbs (q := 2 ^ 1074) (Nat.two_pow_pos _)
  generalize rounded z.natAbs (2 ^ 1074) = R at *
  have hP : 0 < (2 : Nat) ^ 1074 := Nat.two_pow_pos _
  have hbig : 101 * (2 : Nat) ^ 1074 ≤ 2 ^ 2098 := by decide +kernel
  have e1' : 2 ^ 53 * R ≤ 2 ^ 53 * z.natAbs + z.natAbs + 2 ^ 52 := by
    refine Nat.le_of_mul_le_mul_right ?_ hP
    rw [Nat.add_mul, Nat.add_mul, Nat.mul_assoc, Nat.mul_assoc]
    exact e1
  have e2' : 2 ^ 53 * z.natAbs ≤ 2 ^ 53 * R + z.natAbs + 2 ^ 52 := by
    refine Nat.le_of_mul_le_mul_right ?_ hP
    rw [Nat.add_mul, Nat.add_mul, Nat.mul_assoc, Nat.mul_assoc]
    exact e2
  generalize (2 : Nat) ^ 1074 = P at *
  generalize (2 : Nat) ^ 2098 = Q at *
  have hR : R ≤ Q := by omega
  rw [Nat.min_eq_left hR]
  split <;> omega

/-- The temperature grows by 0.0005 with every reading. -/
def warmDelta : F64 := F64.div (mul (dec 1 1000) (F64.ofInt 500)) (dec 1000 1)

theorem warm_equal {f : F64} (hf : f.IsFin) (h1 : fle (dec (-18) 1) f = true) (h2 : fle f (dec 68 1) = true) :
    isEqual (.num f) (.num (clamp (add f warmDelta) (dec (-20) 1) (dec 80 1))) = true ∧
    fle (dec (-20) 1) (clamp (add f warmDelta) (dec (-20) 1) (dec 80 1)) = true ∧ fle (clamp (add f warmDelta) (dec (-20) 1) (dec 80 1)) (dec 80 1) = true := by
  have fe : warmDelta.IsFin := by
    rw [← finite_iff]
    decide +kernel
  have f1 : (dec (-18) 1).IsFin := dec_fin (by decide +kernel)
  have f2 : (dec 68 1).IsFin := dec_fin (by decide +kernel)
  have g1 : (dec (-20) 1).IsFin := dec_fin (by decide +kernel)
  have g2 : (dec 80 1).IsFin := dec_fin (by decide +kernel)
  have lo : fle (dec (-20) 1) (add f warmDelta) = true := fle_add f1 fe hf fe h1 (fle_self fe) (by decide +kernel)
  have hi : fle (add f warmDelta) (dec 80 1) = true := add_fle hf fe f2 fe h2 (fle_self fe) (by decide +kernel)
  have hn := add_ne_nan hf fe.ne_nan
  have k1 := (fle_iff g1.ne_nan hn).1 lo
  have k2 := (fle_iff hn g2.ne_nan).1 hi
  have fs : (add f warmDelta).IsFin := fin_between g1 g2 hn k1 k2
  have hc : clamp (add f warmDelta) (dec (-20) 1) (dec 80 1) = add f warmDelta := by
    unfold clamp
    rw [if_neg, if_neg]
    · rw [flt_iff g2.ne_nan hn]; omega
    · rw [flt_iff hn g1.ne_nan]; omega
  rw [hc]
  refine ⟨C82_near hf fs ?_, lo, hi⟩
  have u1 := (fle_units f1 hf).1 h1
  have u2 := (fle_units hf f2).1 h2
  have c1 : (dec (-18) 1).units = -(18 * 2 ^ 1074) := by decide +kernel
  have c2 : (dec 68 1).units = 68 * 2 ^ 1074 := by decide +kernel
  have c3 : 0 ≤ warmDelta.units ∧ warmDelta.units ≤ 576460752303424 * 2 ^ 1014 := by decide +kernel
  have c4 : (2 : Int) ^ 1074 = 2 ^ 60 * 2 ^ 1014 := by decide +kernel
  have c5 : (0 : Int) < 2 ^ 1014 := Int.pow_pos (by decide)
  have c6 : (2 : Int) ^ 53 ≤ 2 ^ 1014 := by decide +kernel
  have c7 : (100 * 2 ^ 1074 : Nat) = (100 * (2 : Int) ^ 1074).toNat := by decide +kernel
  rw [c1] at u1
  rw [c2] at u2
  have := sum_error hf fe (by rw [c7]; rw [c4] at *; generalize (2 : Int) ^ 1014 = P at *; omega)
  rw [fs.key_eq] at this
  rw [c4] at *
  generalize (2 : Int) ^ 1014 = P at *
  generalize (add f warmDelta).units = G at *
  generalize f.units = F at *
  generalize warmDelta.units = E at *
  omega

theorem entry_unique {v w : VssSensor} (hv : v ∈ vssSensors) (hw : w ∈ vssSensors) (e : v.path = w.path) : v = w := by
  have h1 := find_entry hw
  rw [← e, find_entry hv] at h1
  exact Option.some.inj h1

theorem held_read {c : Choices} (hc : c.Good) {s : SensorData} (hst : Steady s) {j : Nat} (hj : j ≤ maxReturns) (h : HeldIn true j s) {t : Nat} (ht : t < 2 ^ 53) :
    HeldIn true j (s.next c t) ∧ ∀ v ∈ vssSensors, v.path = s.path → v.type = b!"number" → InRange v.min v.max (s.seen c t) := by
  have hr := steady_read hst c t
  obtain ⟨he, hw⟩ := read_erase hr
  obtain ⟨q1, q2, q3, q4, q5, q6⟩ := erase_fields he
  obtain ⟨hi, h⟩ := h
  have hcls : ∀ v ∈ vssSensors, v.path = s.path → v.type = b!"number" → s.type = b!"number" := by
    intro v hv e k
    obtain ⟨w, hw, e1, -, -, e2⟩ := hi
    rw [← e2, entry_unique hw hv (e1.trans e.symm)]
    exact k
  have hsafe : ∀ lo hi : F64, lo.IsFin → hi.IsFin → s.type = b!"number" → safe lo hi s = true → InRange lo hi s.value → InRange lo hi (s.seen c t) ∧ safe lo hi (s.next c t) = true ∧
      InRange lo hi (s.next c t).value := by
    intro lo hi a b k k1 k2
    have hin : InRange lo hi (s.seen c t) := by
      rw [read_number k hr]
      exact newNumber_safe hc a b (s := { s with counter := s.counter + 1 }) k1 (by omega) (by omega) k2
    refine ⟨hin, by rw [safe_erase he]; exact k1, ?_⟩
    rcases hw with hw | ⟨hw, -⟩
    · rw [hw]; exact hin
    · rw [hw]; exact k2
  have hwarm : ∀ v ∈ vssSensors, v.path = s.path → v.type = b!"number" → v.urban = noisePattern → Warm true s → InRange v.min v.max (s.seen c t) ∧ Warm true (s.next c t) ∧
      (s.next c t).value = s.value := by
    intro v hv e k hn w
    obtain ⟨-, -, d3⟩ := drift_table v hv k hn
    obtain ⟨f1, f2, -, -, -⟩ := d3 j hj
    have hr' := ((h v hv e k).2 hn).1
    obtain ⟨f, hf, r⟩ := hr'
    have ff : f.IsFin := InRange.fin (finite_iff.1 f1) (finite_iff.1 f2) ⟨f, rfl, r⟩
    have hp : v.path = tempPath := e.trans w.path
    have hl : fle (dec (-18) 1) (driftLo v j) = true ∧ fle (driftHi v j) (dec 68 1) = true := by
      have key : ∀ j ≤ maxReturns, fle (dec (-18) 1) (dec (24 - j) 1) = true ∧ fle (dec (26 + j) 1) (dec 68 1) = true := by decide +kernel
      unfold driftLo driftHi
      rw [if_pos hp, if_pos hp]
      exact key j hj
    obtain ⟨k1, k2, k3⟩ := warm_equal ff (fle_trans hl.1 r.1) (fle_trans r.2 hl.2)
    have hst' : isEqual (.num f) (.num (clamp (add f (F64.div (mul (s.param b!"slope") (F64.ofInt s.interval)) (dec 1000 1))) (s.param b!"min") (s.param b!"max"))) = true := by
      rw [w.slope rfl, w.interval, w.min, w.max]
      exact k1
    have hty := hcls v hv e k
    obtain ⟨s1, -⟩ := C83_stuck hty w.pattern hf hst' _ (.read .start hc (by omega) (by omega) hr)
    have hvm : v.min = dec (-20) 1 ∧ v.max = dec 80 1 := by
      have := at_table (P := fun v => decide (v.min = dec (-20) 1 ∧ v.max = dec 80 1)) (p := tempPath) (by decide +kernel) hv hp
      exact of_decide_eq_true this
    refine ⟨?_, ⟨q1.trans w.path, q5.trans w.pattern, ?_, ?_, q4.trans w.interval, fun _ => ?_⟩, s1.trans hf.symm⟩
    · rw [read_number hty hr, hvm.1, hvm.2]
      refine ⟨clamp (add f warmDelta) (dec (-20) 1) (dec 80 1), ?_, k2, k3⟩
      have e1 : ({ s with counter := s.counter + 1 } : SensorData).param b!"slope" = dec 1 1000 := w.slope rfl
      have e2 : ({ s with counter := s.counter + 1 } : SensorData).param b!"min" = dec (-20) 1 := w.min
      have e3 : ({ s with counter := s.counter + 1 } : SensorData).param b!"max" = dec 80 1 := w.max
      rw [newNumber_linear (s := { s with counter := s.counter + 1 }) c t hf w.pattern, e1, e2, e3]
      show Js.num (clamp (add f (F64.div (mul (dec 1 1000) (F64.ofInt s.interval)) (dec 1000 1))) (dec (-20) 1) (dec 80 1)) = _
      rw [w.interval]
      rfl
    · unfold SensorData.param; rw [q6]; exact w.min
    · unfold SensorData.param; rw [q6]; exact w.max
    · unfold SensorData.param; rw [q6]; exact w.slope rfl
  refine ⟨⟨?_, fun v hv e k => ?_⟩, fun v hv e k => ?_⟩
  · obtain ⟨v, hv, e⟩ := hi
    exact ⟨v, hv, by rw [q1, q2, q3, q4]; exact e⟩
  · rw [q1] at e
    obtain ⟨m1, m2, -, -⟩ := modes_table v hv k
    obtain ⟨a, b⟩ := h v hv e k
    refine ⟨fun hn => ?_, fun hn => ?_⟩
    · exact (hsafe _ _ (finite_iff.1 m1) (finite_iff.1 m2) (hcls v hv e k) (a hn).1 (a hn).2).2
    · obtain ⟨-, -, d3⟩ := drift_table v hv k hn
      obtain ⟨f1, f2, -, -, -⟩ := d3 j hj
      rcases (b hn).2 with w | w
      · obtain ⟨-, x1, x2⟩ := hsafe _ _ (finite_iff.1 f1) (finite_iff.1 f2) (hcls v hv e k) w (b hn).1
        exact ⟨x2, .inl x1⟩
      · obtain ⟨-, x1, x2⟩ := hwarm v hv e k hn w
        exact ⟨x2 ▸ (b hn).1, .inr x1⟩
  · obtain ⟨m1, m2, -, -⟩ := modes_table v hv k
    obtain ⟨a, b⟩ := h v hv e k
    by_cases hn : v.urban = noisePattern
    · obtain ⟨-, -, d3⟩ := drift_table v hv k hn
      obtain ⟨f1, f2, g1, g2, -⟩ := d3 j hj
      rcases (b hn).2 with w | w
      · exact (hsafe _ _ (finite_iff.1 f1) (finite_iff.1 f2) (hcls v hv e k) w (b hn).1).1.mono g1 g2
      · exact (hwarm v hv e k hn w).1
    · exact (hsafe _ _ (finite_iff.1 m1) (finite_iff.1 m2) (hcls v hv e k) (a hn).1 (a hn).2).1

end Verif
