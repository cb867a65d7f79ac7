import Verif.PropsExpSwitch
import Verif.PropsExpPlain
/-
Readings stay finite, whatever switches the mixed scenario makes.
-/
namespace Verif
open F64

/-! ### A bound that noise does not pass -/

/-- 2^60: adding at most 64 to it rounds back to it. -/
def tameHi : F64 := dec 1152921504606846976 1
def tameLo : F64 := dec (-1152921504606846976) 1

theorem tameHi_fin : tameHi.IsFin := dec_fin (by decide +kernel)
theorem tameLo_fin : tameLo.IsFin := dec_fin (by decide +kernel)

/-- What holds of the sensors between two readings. -/
structure Tame (s : SensorData) : Prop where
  safe : s.type = b!"number" → Verif.safe tameLo tameHi s = true
  num : s.type = b!"number" → InRange tameLo tameHi s.value
  other : s.type ≠ b!"number" → PlainScalar s.value

theorem fle_units {a b : F64} (ha : a.IsFin) (hb : b.IsFin) : fle a b = true ↔ a.units ≤ b.units := by
  rw [fle_iff ha.ne_nan hb.ne_nan, ha.key_eq, hb.key_eq]

/-- Noise of at most 64 around a value within the bound stays within the bound. -/
theorem noise_tame {f n : F64} (hn : n.IsFin) (h1 : fle n (dec 64 1) = true) (hf : InRange tameLo tameHi (.num f)) :
    f.IsFin ∧ fle tameLo (F64.sub f n) = true ∧ fle (add f n) tameHi = true := by
  have hff := InRange.fin tameLo_fin tameHi_fin hf
  obtain ⟨g, hg, a, b⟩ := hf
  cases hg
  have f64 : (dec 64 1).IsFin := dec_fin (by decide +kernel)
  have hu := (fle_units hn f64).1 h1
  have ha := (fle_units tameLo_fin hff).1 a
  have hb := (fle_units hff tameHi_fin).1 b
  refine ⟨hff, ?_, ?_⟩
  · have hm := add_mono tameLo_fin (neg_fin f64) hff (neg_fin hn) ha (by rw [neg_units f64, neg_units hn]; omega)
    have e : add tameLo (neg (dec 64 1)) = tameLo := by decide +kernel
    rw [e] at hm
    exact (fle_iff tameLo_fin.ne_nan (add_ne_nan hff (neg_fin hn).ne_nan)).2 hm
  · have hm := add_mono hff hn tameHi_fin f64 hb hu
    have e : add tameHi (dec 64 1) = tameHi := by decide +kernel
    rw [e] at hm
    exact (fle_iff (add_ne_nan hff hn.ne_nan) tameHi_fin.ne_nan).2 hm

/-! ### Settings -/

theorem setValue_safe (lo hi : F64) (s : SensorData) (v : Js) : safe lo hi (s.setValue v) = safe lo hi s := rfl

theorem safe_step {lo hi x : F64} {s : SensorData} (hx : finite x = true) (h : safe lo hi s = true) : safe lo hi (s.ifPattern b!"random_walk" [(b!"step_size", x)]) = true := by
  unfold SensorData.ifPattern
  split
  · rename_i hp
    unfold safe at h ⊢
    dsimp only [List.foldl, SensorData.param] at h ⊢
    rw [hp] at h ⊢
    simp only [mget_mset] at h ⊢
    simp (config := {decide := true}) only [if_true, if_false, Bool.and_eq_true, Option.getD_some] at h ⊢
    exact ⟨h.1, hx⟩
  · exact h

theorem safe_walk {lo hi x a b : F64} {s : SensorData} (hx : finite x = true) (h1 : fle lo a = true) (h2 : fle a b = true) (h3 : fle b hi = true) (h : safe lo hi s = true) :
    safe lo hi (s.ifPattern b!"random_walk" [(b!"step_size", x), (b!"min", a), (b!"max", b)]) = true := by
  unfold SensorData.ifPattern
  split
  · rename_i hp
    unfold safe at h ⊢
    dsimp only [List.foldl, SensorData.param] at h ⊢
    rw [hp] at h ⊢
    simp only [mget_mset] at h ⊢
    simp (config := {decide := true}) only [if_true, if_false, Bool.and_eq_true, Option.getD_some] at h ⊢
    exact ⟨⟨⟨h1, h2⟩, h3⟩, hx⟩
  · exact h

theorem safe_sine {lo hi a p b : F64} {s : SensorData} (ha : finite a = true) (hp : finite p = true) (hb : finite b = true) (h0 : fle (dec 0 1) a = true)
    (h1 : fle lo (F64.sub b a) = true) (h2 : fle (add b a) hi = true) (h3 : fle (dec 1 1) p = true) (h : safe lo hi s = true) :
    safe lo hi (s.ifPattern b!"sinusoidal" [(b!"amplitude", a), (b!"period", p), (b!"baseline", b)]) = true := by
  unfold SensorData.ifPattern
  split
  · rename_i hpt
    unfold safe at h ⊢
    dsimp only [List.foldl, SensorData.param] at h ⊢
    rw [hpt] at h ⊢
    simp only [mget_mset] at h ⊢
    simp (config := {decide := true}) only [if_true, if_false, Bool.and_eq_true, Option.getD_some] at h ⊢
    exact ⟨⟨⟨⟨⟨⟨⟨hb, ha⟩, h0⟩, h1⟩, h2⟩, h.1.1.2⟩, hp⟩, h3⟩
  · exact h

theorem safe_toggle {lo hi x : F64} {s : SensorData} (h : safe lo hi s = true) : safe lo hi (s.ifPattern b!"toggle" [(b!"toggle_probability", x)]) = true := by
  unfold SensorData.ifPattern
  split
  · rename_i hp
    unfold safe at h ⊢
    dsimp only [List.foldl] at h ⊢
    rw [hp] at h ⊢
    simp (config := {decide := true}) only [if_false] at h ⊢
  · exact h

theorem safe_slope {lo hi x : F64} {s : SensorData} (hx : F64.div (mul x (F64.ofInt s.interval)) (dec 1000 1) ≠ .nan) (h : safe lo hi s = true) :
    safe lo hi (s.ifPattern b!"linear" [(b!"slope", x)]) = true := by
  unfold SensorData.ifPattern
  split
  · rename_i hp
    unfold safe at h ⊢
    dsimp only [List.foldl, SensorData.param] at h ⊢
    rw [hp] at h ⊢
    simp only [mget_mset] at h ⊢
    simp (config := {decide := true}) only [if_true, if_false, Bool.and_eq_true, Option.getD_some, decide_eq_true_eq] at h ⊢
    exact ⟨h.1, hx⟩
  · exact h

theorem ifPattern_fields (p : Bytes) (ps : List (Bytes × F64)) (s : SensorData) : (s.ifPattern p ps).type = s.type ∧ (s.ifPattern p ps).value = s.value := by
  unfold SensorData.ifPattern
  split <;> exact ⟨rfl, rfl⟩

theorem tame_ifPattern {p : Bytes} {ps : List (Bytes × F64)} {s : SensorData} (h : Tame s)
    (hk : safe tameLo tameHi s = true → safe tameLo tameHi (s.ifPattern p ps) = true) : Tame (s.ifPattern p ps) := by
  obtain ⟨e1, e2⟩ := ifPattern_fields p ps s
  exact ⟨fun k => hk (h.safe (e1 ▸ k)), fun k => e2 ▸ h.num (e1 ▸ k), fun k => e2 ▸ h.other (e1 ▸ k)⟩

theorem tame_set {s : SensorData} (h : Tame s) {f : F64} (hf : InRange tameLo tameHi (.num f)) : Tame (s.setValue (.num f)) :=
  ⟨h.safe, fun _ => hf, fun _ => inRange_plain tameLo_fin tameHi_fin hf⟩

/-- The sensor is the one of the table. -/
def InTable (s : SensorData) : Prop := ∃ v ∈ vssSensors, v.path = s.path ∧ v.group = s.group ∧ v.interval = s.interval ∧ v.type = s.type

def TameIn (s : SensorData) : Prop := InTable s ∧ Tame s

theorem onSensor_tame {g : Group} {p : Bytes} {f : SensorData → SensorData} (hk : ∀ s, (f s).kept = s.kept) (hf : ∀ s, InTable s → s.path = p → Tame s → Tame (f s))
    {ss : List SensorData} (h : ∀ s ∈ ss, TameIn s) : ∀ s ∈ onSensor g p f ss, TameIn s := by
  intro s hs
  obtain ⟨s0, h0, rfl⟩ := List.mem_map.1 hs
  split
  · rename_i hp
    refine ⟨?_, hf _ (h _ h0).1 hp.2 (h _ h0).2⟩
    have := hk s0
    simp only [SensorData.kept, Prod.mk.injEq] at this
    obtain ⟨v, hv, e⟩ := (h _ h0).1
    exact ⟨v, hv, by rw [this.1, this.2.1, this.2.2.1, this.2.2.2.1]; exact e⟩
  · exact h _ h0

theorem drawn_tame {u b n : F64} (hu : IsUnit u) (hb : b.IsFin) (hn : n.IsFin) (h0 : fle (dec 0 1) n = true)
    (h1 : fle tameLo (F64.sub b n) = true) (h2 : fle (add b n) tameHi = true) : InRange tameLo tameHi (.num (add b (mul u n))) :=
  (drawn_between hu hb hn h0).mono h1 h2

theorem const_tame {f : F64} (h1 : fle tameLo f = true) (h2 : fle f tameHi = true) : InRange tameLo tameHi (.num f) := ⟨f, rfl, h1, h2⟩

theorem urban_tame {u : F64} (hu : IsUnit u) {ss : List SensorData} (h : ∀ s ∈ ss, TameIn s) : ∀ s ∈ urbanSettings u ss, TameIn s := by
  unfold urbanSettings
  iterate 2 refine onSensor_tame (fun _ => ifPattern_kept _ _ _) (fun _ _ _ hs => tame_ifPattern hs safe_toggle) ?_
  iterate 2 refine onSensor_tame (fun _ => ifPattern_kept _ _ _) (fun _ _ _ hs => tame_ifPattern hs (safe_step (by decide +kernel))) ?_
  refine onSensor_tame (fun _ => ifPattern_kept _ _ _) (fun _ _ _ hs => tame_ifPattern hs (safe_walk (by decide +kernel) (by decide +kernel) (by decide +kernel) (by decide +kernel))) ?_
  refine onSensor_tame (fun _ => ifPattern_kept _ _ _) (fun _ _ _ hs => tame_ifPattern hs (safe_sine (by decide +kernel) (by decide +kernel) (by decide +kernel)
    (by decide +kernel) (by decide +kernel) (by decide +kernel) (by decide +kernel))) ?_
  iterate 2 refine onSensor_tame (fun _ => ifPattern_kept _ _ _) (fun _ _ _ hs => tame_ifPattern hs (safe_step (by decide +kernel))) ?_
  refine onSensor_tame (fun _ => (ifPattern_kept _ _ _).trans (setValue_kept _ _)) (fun _ _ _ hs => tame_ifPattern (tame_set hs ?_)
    (safe_walk (by decide +kernel) (by decide +kernel) (by decide +kernel) (by decide +kernel))) h
  exact drawn_tame hu (dec_fin (by decide +kernel)) (dec_fin (by decide +kernel)) (by decide +kernel) (by decide +kernel) (by decide +kernel)

/-- The slopes of charging are fine for every interval of the table. -/
theorem slopes_ok : ∀ v ∈ vssSensors, ∀ x ∈ [dec 2 10, dec 1 1000, dec (-5) 100], F64.div (mul x (F64.ofInt v.interval)) (dec 1000 1) ≠ .nan := by
  have h : (vssSensors.all fun v => [dec 2 10, dec 1 1000, dec (-5) 100].all fun x => decide (F64.div (mul x (F64.ofInt v.interval)) (dec 1000 1) ≠ .nan)) = true := by
    decide +kernel
  intro v hv x hx
  exact of_decide_eq_true (List.all_eq_true.1 (List.all_eq_true.1 h v hv) x hx)

theorem InTable.slope {s : SensorData} (h : InTable s) {x : F64} (hx : x ∈ [dec 2 10, dec 1 1000, dec (-5) 100]) :
    F64.div (mul x (F64.ofInt s.interval)) (dec 1000 1) ≠ .nan := by
  obtain ⟨v, hv, -, -, e, -⟩ := h
  rw [← e]
  exact slopes_ok v hv x hx

theorem charging_path_type : ∀ v ∈ vssSensors, v.path = b!"Vehicle.Powertrain.TractionBattery.Charging.IsCharging" → v.type ≠ b!"number" := by
  have h : (vssSensors.all fun v => decide (v.path ≠ b!"Vehicle.Powertrain.TractionBattery.Charging.IsCharging") || decide (v.type ≠ b!"number")) = true := by decide +kernel
  intro v hv e
  have := List.all_eq_true.1 h v hv
  simpa [e] using this

theorem charging_tame {u u' : F64} (hu : IsUnit u) (hu' : IsUnit u') {ss : List SensorData} (h : ∀ s ∈ ss, TameIn s) : ∀ s ∈ chargingSettings u u' ss, TameIn s := by
  unfold chargingSettings
  refine onSensor_tame (fun s => (ifPattern_kept _ _ _).trans ?_) (fun s hi _ hs => ?_) ?_
  · split
    · exact setValue_kept _ _
    · rfl
  · split
    · exact tame_ifPattern (tame_set hs (drawn_tame hu' (dec_fin (by decide +kernel)) (dec_fin (by decide +kernel)) (by decide +kernel) (by decide +kernel) (by decide +kernel)))
        (safe_slope (hi.slope (by simp)))
    · exact tame_ifPattern hs (safe_slope (hi.slope (by simp)))
  refine onSensor_tame (fun _ => (ifPattern_kept _ _ _).trans (setValue_kept _ _)) (fun _ _ _ hs => tame_ifPattern (tame_set hs ?_)
    (safe_sine (by decide +kernel) (by decide +kernel) (by decide +kernel) (by decide +kernel) (by decide +kernel) (by decide +kernel) (by decide +kernel))) ?_
  · exact drawn_tame hu (dec_fin (by decide +kernel)) (dec_fin (by decide +kernel)) (by decide +kernel) (by decide +kernel) (by decide +kernel)
  refine onSensor_tame (fun _ => setValue_kept _ _) (fun s hi hp hs => ?_) ?_
  · obtain ⟨v, hv, e, -, -, et⟩ := hi
    have hn : s.type ≠ b!"number" := et ▸ charging_path_type v hv (e.trans hp)
    exact ⟨fun k => absurd k hn, fun k => absurd k hn, fun _ => ⟨trivial, trivial⟩⟩
  iterate 2 refine onSensor_tame (fun _ => ifPattern_kept _ _ _) (fun _ hi _ hs => tame_ifPattern hs (safe_slope (hi.slope (by simp)))) ?_
  iterate 5 refine onSensor_tame (fun _ => setValue_kept _ _) (fun _ _ _ hs => tame_set hs (const_tame (by decide +kernel) (by decide +kernel))) ?_
  exact h

/-- A sensor with nothing but a pattern and its parameters. -/
def bare (interval : Int) (p : Bytes) (ps : List (Bytes × F64)) : SensorData := ⟨[], .high, .null, [], interval, p, ps, 0⟩

/-- The patterns of the table for the two modes: noise is small, everything else is safe. -/
theorem table_tame : ∀ v ∈ vssSensors, v.type = b!"number" → ∀ sc ∈ [b!"urban_traffic", b!"battery_charging"], ∀ p, v.pattern? sc = some p →
    (p = b!"constant_with_noise" → finite (F64.mul (F64.sub v.max v.min) (dec 1 100)) = true ∧ fle (dec 0 1) (F64.mul (F64.sub v.max v.min) (dec 1 100)) = true ∧
      fle (F64.mul (F64.sub v.max v.min) (dec 1 100)) (dec 64 1) = true) ∧
    (p ≠ b!"constant_with_noise" → ∀ ps, patternParams sc v.path p v .null = .ok ps → safe tameLo tameHi (bare v.interval p ps) = true) := by
  have h : (vssSensors.all fun v => decide (v.type ≠ b!"number") || [b!"urban_traffic", b!"battery_charging"].all fun sc =>
      match v.pattern? sc with
      | none => true
      | some p => if p = b!"constant_with_noise" then
          finite (F64.mul (F64.sub v.max v.min) (dec 1 100)) && fle (dec 0 1) (F64.mul (F64.sub v.max v.min) (dec 1 100)) &&
            fle (F64.mul (F64.sub v.max v.min) (dec 1 100)) (dec 64 1)
        else match patternParams sc v.path p v .null with
          | .ok ps => safe tameLo tameHi (bare v.interval p ps)
          | _ => true) = true := by
    decide +kernel
  intro v hv ht sc hsc p hp
  have h1 := List.all_eq_true.1 h v hv
  rw [decide_eq_false (fun k => k ht), Bool.false_or] at h1
  have h2 := List.all_eq_true.1 h1 sc hsc
  rw [hp] at h2
  dsimp only at h2
  refine ⟨fun e => ?_, fun e ps hps => ?_⟩
  · rw [if_pos e] at h2
    simp only [Bool.and_eq_true] at h2
    exact ⟨h2.1.1, h2.1.2, h2.2⟩
  · rw [if_neg e, hps] at h2
    exact h2

theorem patternParams_value {sc path p : Bytes} {v : VssSensor} {w : Js} (h : p ≠ b!"constant_with_noise") : patternParams sc path p v w = patternParams sc path p v .null := by
  unfold patternParams
  dsimp only
  rw [if_neg h]
  rw [if_neg h]

theorem safe_bare {lo hi : F64} (s : SensorData) : safe lo hi s = safe lo hi (bare s.interval s.pattern s.params) := rfl

theorem updatePattern_tame {sc : Bytes} (hsc : sc ∈ [b!"urban_traffic", b!"battery_charging"]) {s s' : SensorData} (hi : InTable s) (h : Tame s)
    (e : s.updatePattern vssSensors sc = .ok s') : TameIn s' := by
  obtain ⟨v, hv, e1, e2, e3, e4⟩ := hi
  obtain ⟨p, hp⟩ : ∃ p, v.pattern? sc = some p := by
    obtain ⟨_, _, _, _, _, _, _, _, k⟩ := updatePattern_ok (scenario := sc) (by
      simp only [List.mem_cons, List.not_mem_nil, or_false] at hsc ⊢
      rcases hsc with k | k
      · exact .inl k
      · exact .inr (.inr k)) hv e1 e4
    exact ⟨_, k⟩
  unfold SensorData.updatePattern at e
  rw [← e1, find_entry hv] at e
  dsimp only at e
  rw [hp] at e
  dsimp only at e
  cases hps : patternParams sc v.path p v s.value with
  | err => rw [hps] at e; cases e
  | panic => rw [hps] at e; cases e
  | ok ps =>
    rw [hps] at e
    simp only [Res.map, Res.ok.injEq] at e
    subst e
    refine ⟨⟨v, hv, rfl, e2, e3, e4⟩, fun ht => ?_, fun ht => h.num ht, fun ht => h.other ht⟩
    have ht' : s.type = b!"number" := ht
    obtain ⟨k1, k2⟩ := table_tame v hv (e4.trans ht') sc hsc p hp
    by_cases hn : p = b!"constant_with_noise"
    · obtain ⟨a, b, c⟩ := k1 hn
      obtain ⟨f, hf, r⟩ := h.num ht'
      subst hn
      unfold patternParams at hps
      dsimp only at hps
      rw [if_neg (by decide), if_neg (by decide), if_neg (by decide), if_pos rfl, hf] at hps
      simp only [Res.ok.injEq] at hps
      subst hps
      obtain ⟨q1, q2, q3⟩ := noise_tame (finite_iff.1 a) c ⟨f, rfl, r⟩
      unfold safe
      dsimp only
      rw [if_pos rfl]
      have m1 : ∀ x y : F64, mget [(b!"baseline", x), (b!"noise", y)] b!"baseline" = some x := fun x y => by simp [mget]
      have m2 : ∀ x y : F64, mget [(b!"baseline", x), (b!"noise", y)] b!"noise" = some y := fun x y => by simp (config := {decide := true}) [mget]
      simp only [SensorData.param, m1, m2, Option.getD_some, Bool.and_eq_true]
      exact ⟨⟨⟨⟨finite_iff.2 q1, a⟩, b⟩, q2⟩, q3⟩
    · rw [patternParams_value hn] at hps
      rw [safe_bare]
      have := k2 hn ps hps
      rw [e3] at this
      exact this

theorem updatePatterns_tame {sc : Bytes} (hsc : sc ∈ [b!"urban_traffic", b!"battery_charging"]) : ∀ {ss ss' : List SensorData}, (∀ s ∈ ss, TameIn s) →
    updatePatterns vssSensors sc ss = .ok ss' → ∀ s ∈ ss', TameIn s
  | [], ss', _, e => by cases e; simp
  | s :: ss, ss', h, e => by
    rw [updatePatterns] at e
    cases h1 : s.updatePattern vssSensors sc with
    | err => rw [h1] at e; cases e
    | panic => rw [h1] at e; cases e
    | ok s1 =>
      rw [h1] at e
      cases h2 : updatePatterns vssSensors sc ss with
      | err => rw [h2] at e; cases e
      | panic => rw [h2] at e; cases e
      | ok ss1 =>
        rw [h2] at e
        simp only [Res.bind, Res.map, Res.ok.injEq] at e
        subst e
        intro x hx
        rcases List.mem_cons.1 hx with rfl | hx
        · exact updatePattern_tame hsc (h s (by simp)).1 (h s (by simp)).2 h1
        · exact updatePatterns_tame hsc (fun y hy => h y (by simp [hy])) h2 x hx

theorem mixed_tame {u u' : F64} (hu : IsUnit u) (hu' : IsUnit u') {sc : Bytes} (hsc : sc = b!"urban_traffic" ∨ sc = b!"battery_charging") {ss ss' : List SensorData}
    (h : ∀ s ∈ ss, TameIn s) (e : mixedSettings u u' sc ss = .ok ss') : ∀ s ∈ ss', TameIn s := by
  unfold mixedSettings at e
  cases h1 : updatePatterns vssSensors sc ss with
  | err => rw [h1] at e; cases e
  | panic => rw [h1] at e; cases e
  | ok ss1 =>
    have ht := updatePatterns_tame (by simpa using hsc) h h1
    rw [h1] at e
    simp only [Res.map, Res.ok.injEq] at e
    subst e
    rcases hsc with rfl | rfl
    · rw [if_pos rfl]
      exact urban_tame hu ht
    · rw [if_neg (by decide), if_neg (by decide), if_pos rfl]
      exact charging_tame hu hu' ht

/-! ### Readings -/

theorem tame_read {c : Choices} (hc : c.Good) {s : SensorData} (hst : Steady s) (h : Tame s) {t : Nat} (ht : t < 2 ^ 53) :
    Tame (s.next c t) ∧ PlainScalar (s.seen c t) ∧ (s.type = b!"number" → InRange tameLo tameHi (s.seen c t)) := by
  have hr := steady_read hst c t
  obtain ⟨he, hw⟩ := read_erase hr
  have hty := (erase_fields he).2.2.1
  by_cases hn : s.type = b!"number"
  · have hv := read_number hn hr
    have hin : InRange tameLo tameHi (s.seen c t) := by
      rw [hv]
      exact newNumber_safe hc tameLo_fin tameHi_fin (s := { s with counter := s.counter + 1 }) (h.safe hn) (by omega) (by omega) (h.num hn)
    refine ⟨⟨fun _ => ?_, fun _ => ?_, fun k => absurd (hty.trans hn) k⟩, inRange_plain tameLo_fin tameHi_fin hin, fun _ => hin⟩
    · rw [safe_erase he]; exact h.safe hn
    · rcases hw with hw | ⟨hw, -⟩
      · rw [hw]; exact hin
      · rw [hw]; exact h.num hn
  · obtain ⟨k1, k2⟩ := read_plain hn hst (h.other hn) hr
    exact ⟨⟨fun k => absurd (hty.symm.trans k) hn, fun k => absurd (hty.symm.trans k) hn, fun _ => k2⟩, k1, fun k => absurd k hn⟩

/-! ### The loop -/

/-- What holds between two time steps, for the values as well. -/
structure Tamed (r : Trip) : Prop where
  going : Going r
  tame : ∀ s ∈ r.vehicle, Tame s

/-- A reading at one of the times. -/
structure GoodReading (ts : List Nat) (x : Reading) : Prop where
  value : PlainScalar x.value
  sensor : ∃ v ∈ vssSensors, v.path = x.path ∧ (v.type = b!"number" → InRange tameLo tameHi x.value)
  time : ∃ t ∈ ts, x.ts = (t : Int)

theorem GoodReading.mono {ts ts' : List Nat} (h : ∀ t ∈ ts, t ∈ ts') {x : Reading} (g : GoodReading ts x) : GoodReading ts' x :=
  ⟨g.value, g.sensor, by obtain ⟨t, ht, e⟩ := g.time; exact ⟨t, h t ht, e⟩⟩

theorem Tamed.inTable {r : Trip} (h : Tamed r) : ∀ s ∈ r.vehicle, TameIn s := fun s hs => ⟨h.going.listed.entry hs, h.tame s hs⟩

theorem switch_tame {d : Draws} (hd : d.Good) {t : Nat} {r : Trip} (h : Tamed r) :
    ∃ r', r.switch d t = .ok r' ∧ Tamed r' ∧ r'.sim = { r.sim with sensors := r'.sim.sensors } := by
  obtain ⟨r', e, g, q, -⟩ := switch_any (d := d) (t := t) h.going
  refine ⟨r', e, ⟨g, ?_⟩, q⟩
  unfold Trip.switch at e
  cases hs : r.state with
  | none =>
    rw [hs] at e
    cases e
    exact h.tame
  | some st =>
    rw [hs] at e
    dsimp only at e
    have hm := modes_update (h.going.modes st hs) (batteryLevel r.vehicle) t
    cases hu : st.update (batteryLevel r.vehicle) t with
    | mk st' b =>
      rw [hu] at hm e
      cases b with
      | false =>
        cases e
        exact h.tame
      | true =>
        dsimp only at e
        cases hx : mixedSettings (d.switch t).1 (d.switch t).2 st'.current r.vehicle with
        | err => rw [hx] at e; cases e
        | panic => rw [hx] at e; cases e
        | ok ss =>
          rw [hx] at e
          cases e
          exact fun s hsm => (mixed_tame (hd.switch t).1 (hd.switch t).2 hm.1 h.inTable hx s hsm).2

theorem taken_good {d : Draws} (hd : d.Good) {t : Nat} (ht : t < 2 ^ 53) {ss : List SensorData} (hl : Listed ss) (h : ∀ s ∈ ss, Tame s) {ps : List Bytes} :
    ∀ x ∈ taken d t ss ps, GoodReading [t] x := by
  intro x hx
  obtain ⟨e1, -, s, hs, e2, -, e3⟩ := taken_time hx
  obtain ⟨-, k1, k2⟩ := tame_read (hd.read t x.path) (hl.steady s hs) (h s hs) ht
  obtain ⟨v, hv, w1, -, -, w2⟩ := hl.entry hs
  exact ⟨e3 ▸ k1, ⟨v, hv, w1.trans e2, fun k => e3 ▸ k2 (w2 ▸ k)⟩, t, by simp, e1⟩

theorem run_inv_of {P : Sim → Prop} {Q : Reading → Prop} (h2 : ∀ s x, Q x → P s → P (s.step isEqual x)) : ∀ (rs : List Reading) (s : Sim), (∀ x ∈ rs, Q x) →
    P s → P (s.run isEqual rs)
  | [], _, _, h => h
  | x :: rs, s, hq, h => by
    rw [run_cons]
    exact run_inv_of h2 rs _ (fun y hy => hq y (by simp [hy])) (h2 s x (hq x (by simp)) h)

/-- Whatever holds of the simulation at the beginning, of any readings of the vehicle and whatever values the sensors are set to, holds at the end. -/
theorem loop_inv {d : Draws} (hd : d.Good) {P : Sim → Prop} (h1 : ∀ (s : Sim) m, P s → P { s with sensors := m }) :
    ∀ (ts : List Nat) (r : Trip), (∀ t ∈ ts, t < 2 ^ 53) → (∀ s x, GoodReading ts x → P s → P (s.step isEqual x)) → Tamed r → P r.sim →
    ∃ r', Trip.loop d ts r = .ok (some r') ∧ Tamed r' ∧ P r'.sim
  | [], r, _, _, h, hp => ⟨r, rfl, h, hp⟩
  | t :: ts, r, ht, h2, h, hp => by
    obtain ⟨r1, e1, g1, q1⟩ := switch_tame hd (t := t) h
    have gt : Tied (r1.note t) := g1.going.tied
    obtain ⟨r2, e2, t2, v2, s2, w2, -⟩ := visits_eq d t (d.order t) (r1.note t) ((hd.order t).nodup_iff.2 table_facts.1) g1.going.listed.sound gt
    have hs2 : r2.sim = r1.sim.run isEqual (taken d t r1.vehicle (d.order t)) := s2
    have hv2 : r2.vehicle = afterVisits d t (d.order t) r1.vehicle := v2
    have htm : Tamed r2 := by
      refine ⟨⟨?_, t2, ?_⟩, ?_⟩
      · rw [hv2]
        exact g1.going.listed.of_erase (afterVisits_erase ..)
      · rw [w2]
        exact g1.going.modes
      · rw [hv2]
        intro s hs
        unfold afterVisits at hs
        obtain ⟨s0, h0, rfl⟩ := List.mem_map.1 hs
        split
        · exact (tame_read (hd.read t s0.path) (g1.going.listed.steady s0 h0) (g1.tame s0 h0) (ht t (by simp))).1
        · exact g1.tame s0 h0
    have hp2 : P r2.sim := by
      rw [hs2]
      refine run_inv_of (Q := GoodReading [t]) (fun s x hx => h2 s x (hx.mono (by simp))) _ _ (taken_good hd (ht t (by simp)) g1.going.listed g1.tame) ?_
      rw [q1]
      exact h1 _ _ hp
    obtain ⟨r', e', k1, k2⟩ := loop_inv hd h1 ts r2 (fun t' h' => ht t' (by simp [h'])) (fun s x hx => h2 s x (hx.mono (by simp +contextual))) htm hp2
    refine ⟨r', ?_, k1, k2⟩
    rw [Trip.loop, Trip.tick, e1]
    show Res.bind (Trip.visits d t (d.order t) (r1.note t)) _ = _
    rw [e2]
    exact e'

theorem safe_widen {lo hi lo' hi' : F64} (h1 : fle lo' lo = true) (h2 : fle hi hi' = true) {s : SensorData} (h : safe lo hi s = true) : safe lo' hi' s = true := by
  unfold safe at h ⊢
  split
  · rename_i p
    rw [if_pos p] at h
    simp only [Bool.and_eq_true] at h ⊢
    exact ⟨⟨h.1.1, fle_trans h1 h.1.2⟩, fle_trans h.2 h2⟩
  rename_i p
  rw [if_neg p] at h
  split
  · rename_i p
    rw [if_pos p] at h
    simp only [Bool.and_eq_true] at h ⊢
    exact ⟨⟨⟨fle_trans h1 h.1.1.1, h.1.1.2⟩, fle_trans h.1.2 h2⟩, h.2⟩
  rename_i p
  rw [if_neg p] at h
  split
  · rename_i p
    rw [if_pos p] at h
    simp only [Bool.and_eq_true] at h ⊢
    obtain ⟨⟨⟨⟨⟨a, b⟩, c⟩, e⟩, f⟩, g⟩ := h
    exact ⟨⟨⟨⟨⟨a, fle_trans h1 b⟩, fle_trans c h2⟩, e⟩, f⟩, g⟩
  rename_i p
  rw [if_neg p] at h
  split
  · rename_i p
    rw [if_pos p] at h
    simp only [Bool.and_eq_true] at h ⊢
    exact ⟨⟨⟨fle_trans h1 h.1.1.1, h.1.1.2⟩, fle_trans h.1.2 h2⟩, h.2⟩
  rename_i p
  rw [if_neg p] at h
  exact h

/-- The vehicle at the beginning is tame. -/
theorem start_tame {d : Draws} (hd : d.Good) {scenario : Bytes} (hs : scenario ∈ scenarioNames) :
    ∃ r₀, Trip.start d scenario = .ok r₀ ∧ Tamed r₀ := by
  obtain ⟨r₀, r, o⟩ := outcome (dur := 0) hd hs (by omega)
  obtain ⟨r', -, g, -⟩ := any_outcome (dur := 0) hd hs
  refine ⟨r₀, o.start, ⟨⟨o.first.listed hs, o.tied₀, fun st hm => ?_⟩, fun s hsm => ?_⟩⟩
  · rw [o.state₀] at hm
    split at hm
    · cases hm
      exact ⟨.inl rfl, rfl⟩
    · cases hm
  · obtain ⟨v, hv, e⟩ := o.mem_table hsm
    obtain ⟨t1, t2⟩ := o.table_type hs hsm hv e
    have key : ∀ v ∈ vssSensors, v.type = b!"number" → fle tameLo v.min = true ∧ fle v.max tameHi = true := by
      have h : (vssSensors.all fun v => decide (v.type ≠ b!"number") || fle tameLo v.min && fle v.max tameHi) = true := by decide +kernel
      intro v hv ht
      have := List.all_eq_true.1 h v hv
      simpa [ht] using this
    refine ⟨fun k => ?_, fun k => ?_, fun k => o.plain₀ hs hsm⟩
    · have hvs := vehicle_safe scenario hs
      unfold vehicleSafe at hvs
      have hw : s.wipe ∈ (sampleVehicle scenario).map SensorData.wipe := by rw [← o.first.wipe]; exact List.mem_map_of_mem hsm
      obtain ⟨s0, hs0, hsw⟩ := List.mem_map.1 hw
      unfold sampleVehicle at hs0
      split at hvs
      · rename_i ss0 h0
        rw [h0] at hs0
        have h1 := List.all_eq_true.1 (List.all_eq_true.1 hvs s0 hs0) v hv
        have he := erase_of_wipe hsw
        rw [decide_eq_false (fun q => q (e.trans (erase_fields he).1.symm)), Bool.false_or, Bool.and_eq_true, Bool.or_eq_true, Bool.and_eq_true] at h1
        have h2 := h1.2.resolve_left (by rw [decide_eq_true_eq]; exact fun q => q (t1 ▸ k))
        rw [safe_erase he] at h2
        exact safe_widen (key v hv (t1 ▸ k)).1 (key v hv (t1 ▸ k)).2 h2.2
      · cases hvs
    · exact (o.first.fits s hsm v hv e (t1 ▸ k)).mono (key v hv (t1 ▸ k)).1 (key v hv (t1 ▸ k)).2

/-! ### Every scenario and every duration -/

/-- What an experiment records. -/
structure TripLog (dur : Nat) (s : Sim) : Prop where
  readings : ∀ q ∈ s.setPatches, q.op = b!"replace" ∧ 0 ≤ q.ts ∧ q.ts < dur ∧ PlainScalar q.value ∧
    ∃ v ∈ vssSensors, v.path = q.path ∧ (v.type = b!"number" → InRange tameLo tameHi q.value)
  kept : s.tsonPatches.Sublist s.setPatches

theorem TripLog.step {dur : Nat} {s : Sim} (h : TripLog dur s) {x : Reading} (hx : GoodReading (loopTimes dur simStep 0) x) : TripLog dur (s.step isEqual x) := by
  obtain ⟨t, ht, e⟩ := hx.time
  have hlt := ((mem_loopTimes (by decide) dur 0 (by omega) t).1 ht).1
  have hset : (s.step isEqual x).setPatches = s.setPatches ++ [⟨b!"replace", x.path, x.value, x.ts⟩] := by simp [Sim.step]
  refine ⟨fun q hq => ?_, ?_⟩
  · rw [hset, List.mem_append, List.mem_singleton] at hq
    rcases hq with hq | rfl
    · exact h.readings q hq
    · exact ⟨rfl, by dsimp only; omega, by dsimp only; omega, hx.value, hx.sensor⟩
  · rw [hset]
    by_cases hc : isEqual ((mget s.sensors x.path).getD .null) x.value = true
    · have : (s.step isEqual x).tsonPatches = s.tsonPatches := by simp [Sim.step, hc]
      rw [this]
      exact h.kept.trans (List.sublist_append_left _ _)
    · have : (s.step isEqual x).tsonPatches = s.tsonPatches ++ [⟨b!"replace", x.path, x.value, x.ts⟩] := by simp [Sim.step, hc]
      rw [this]
      exact h.kept.append (List.Sublist.refl _)

/-- An experiment and its end. -/
structure Ended (dur : Nat) (d : Draws) (scenario : Bytes) (r₀ r : Trip) : Prop extends TripLog dur r.sim where
  first : Outcome 0 d scenario r₀ r₀
  runs : experiment dur d scenario = .ok (some r)
  tame : ∀ s ∈ r.vehicle, Tame s
  table : Listed r.vehicle
  ordered : r.sim.setPatches.Pairwise fun a b => a.ts ≤ b.ts
  ascending : r.sim.setPatches.Pairwise fun a b => a.path = b.path → a.ts < b.ts

theorem outcome_zero {d : Draws} (hd : d.Good) {scenario : Bytes} (hs : scenario ∈ scenarioNames) : ∃ r₀, Outcome 0 d scenario r₀ r₀ := by
  obtain ⟨r₀, r, o⟩ := outcome (dur := 0) hd hs (by omega)
  have := o.runs
  unfold experiment at this
  rw [o.start] at this
  have e : r₀ = r := by
    have h0 : loopTimes 0 simStep 0 = [] := by decide +kernel
    rw [h0] at this
    cases this
    rfl
  subst e
  exact ⟨r₀, o⟩

/-- An invariant of the simulation in an experiment. -/
theorem experiment_inv {dur : Nat} (hdur : dur ≤ 2 ^ 53) {d : Draws} (hd : d.Good) {scenario : Bytes} (hs : scenario ∈ scenarioNames) {P : Sim → Prop}
    (h1 : ∀ (s : Sim) m, P s → P { s with sensors := m }) (h2 : ∀ s x, GoodReading (loopTimes dur simStep 0) x → P s → P (s.step isEqual x))
    {r₀ r : Trip} (e₀ : Trip.start d scenario = .ok r₀) (e : experiment dur d scenario = .ok (some r)) (h0 : P r₀.sim) : Tamed r ∧ P r.sim := by
  obtain ⟨r₀', e', ht⟩ := start_tame hd hs
  obtain rfl : r₀' = r₀ := by rw [e₀] at e'; cases e'; rfl
  obtain ⟨r', e1, k1, k2⟩ := loop_inv hd h1 (loopTimes dur simStep 0) r₀' (fun t h => by have := ((mem_loopTimes (by decide) dur 0 (by omega) t).1 h).1; omega) h2 ht h0
  unfold experiment at e
  rw [e₀] at e
  have : r' = r := by
    change Trip.loop d _ r₀' = _ at e
    rw [e1] at e
    cases e
    rfl
  subst this
  exact ⟨k1, k2⟩

theorem ended {dur : Nat} (hdur : dur ≤ 2 ^ 53) {d : Draws} (hd : d.Good) {scenario : Bytes} (hs : scenario ∈ scenarioNames) : ∃ r₀ r, Ended dur d scenario r₀ r := by
  obtain ⟨r₀, o⟩ := outcome_zero hd hs
  obtain ⟨r, e, -, -, ht, -⟩ := any_outcome (dur := dur) hd hs
  obtain ⟨z1, z2, z3, -⟩ := o.sim₀.empty
  obtain ⟨k1, k2⟩ := experiment_inv hdur hd hs (P := TripLog dur) (fun s m h => ⟨h.readings, h.kept⟩) (fun s x hx h => h.step hx) o.start e
    ⟨by rw [z3]; simp, by rw [z2, z3]; exact List.Sublist.refl _⟩
  have hp : (r.sim.setPatches.map (fun q => (q.ts, q.path))).Pairwise fun a b => a.1 ≤ b.1 ∧ (a.2 = b.2 → a.1 < b.1) := by
    rw [ht, List.pairwise_map]
    refine List.pairwise_flatMap.2 ⟨fun t _ => ?_, ?_⟩
    · rw [List.pairwise_map]
      have hn : ((timedOrder d t).map Timed.path).Nodup := by
        rw [((timedOrder_perm hd t).map _).nodup_iff]
        decide +kernel
      refine List.Pairwise.filter _ ?_
      refine ((List.pairwise_map (f := Timed.path) (R := (· ≠ ·))).1 hn).imp fun h => ⟨Int.le_refl _, fun k => absurd k h⟩
    · refine (loopTimes_sorted (by decide) dur 0 (by omega)).imp fun {a b} h => ?_
      intro x hx y hy
      obtain ⟨_, -, rfl⟩ := List.mem_map.1 hx
      obtain ⟨_, -, rfl⟩ := List.mem_map.1 hy
      dsimp only
      omega
  rw [List.pairwise_map] at hp
  exact ⟨r₀, r, k2, o, e, k1.tame, k1.going.listed, hp.imp fun h => h.1, hp.imp fun h => h.2⟩

end Verif
