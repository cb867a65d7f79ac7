import Verif.PropsExpEqual
/-
C83: the values of the simulated sensors.
-/
namespace Verif
open F64

/-- A number drawn by `rand.Float64`: at least 0 and less than 1. -/
def IsUnit (u : F64) : Prop := fle (dec 0 1) u = true ∧ flt u (dec 1 1) = true

/-- The runtime draws numbers from 0 to 1, and the sine of a finite number lies between -1 and 1. -/
structure Choices.Good (c : Choices) : Prop where
  unit : ∀ k, IsUnit (c.u k)
  sine : ∀ x : F64, x.IsFin → fle (dec (-1) 1) (c.sin x) = true ∧ fle (c.sin x) (dec 1 1) = true

/-- The value is a number from `lo` to `hi`. -/
def InRange (lo hi : F64) (v : Js) : Prop := ∃ f, v = .num f ∧ fle lo f = true ∧ fle f hi = true

/-- `s'` is the sensor after some readings of `s`. -/
inductive After (s : SensorData) : SensorData → Prop
  | start : After s s
  | read {s' s'' : SensorData} {c : Choices} {t : Int} {v : Js} : After s s' → c.Good → 0 ≤ t → t < 2 ^ 53 →
      s'.read c t = .ok (some (s'', v)) → After s s''

/-! ### Numbers -/

theorem dec_fin {z : Int} {q : Nat} (h : (match dec z q with | .fin .. => true | _ => false) = true) : (dec z q).IsFin := by
  cases hd : dec z q with
  | nan => rw [hd] at h; cases h
  | inf s => rw [hd] at h; cases h
  | fin s m e hc => exact ⟨_, _, _, _, rfl⟩

theorem zero_fin : (dec 0 1).IsFin := dec_fin (by decide +kernel)
theorem one_fin : (dec 1 1).IsFin := dec_fin (by decide +kernel)
theorem minus_fin : (dec (-1) 1).IsFin := dec_fin (by decide +kernel)
theorem two_fin : (dec 2 1).IsFin := dec_fin (by decide +kernel)
theorem zero_units : (dec 0 1).units = 0 := by decide +kernel
theorem one_units : (dec 1 1).units = 2 ^ 1074 := by decide +kernel
theorem minus_units : (dec (-1) 1).units = -(2 ^ 1074) := by decide +kernel

theorem IsUnit.fin {u : F64} (h : IsUnit u) : u.IsFin := by
  have hn := (fle_ne_nan h.1).2
  refine fin_between zero_fin one_fin hn ((fle_iff zero_fin.ne_nan hn).1 h.1) ?_
  have := (flt_iff hn one_fin.ne_nan).1 h.2
  omega

theorem IsUnit.units {u : F64} (h : IsUnit u) : 0 ≤ u.units ∧ u.units ≤ 2 ^ 1074 := by
  have hn := h.fin.ne_nan
  have h1 := (fle_iff zero_fin.ne_nan hn).1 h.1
  have h2 := (flt_iff hn one_fin.ne_nan).1 h.2
  rw [zero_fin.key_eq, h.fin.key_eq, zero_units] at h1
  rw [one_fin.key_eq, h.fin.key_eq, one_units] at h2
  generalize (2 : Int) ^ 1074 = P at *
  omega

/-- Numbers from -1 to 1. -/
theorem unit_of_fle {x : F64} (h1 : fle (dec (-1) 1) x = true) (h2 : fle x (dec 1 1) = true) :
    x.IsFin ∧ -(2 ^ 1074) ≤ x.units ∧ x.units ≤ 2 ^ 1074 := by
  have hn := (fle_ne_nan h1).2
  rw [fle_iff minus_fin.ne_nan hn] at h1
  rw [fle_iff hn one_fin.ne_nan] at h2
  have hf := fin_between minus_fin one_fin hn h1 h2
  rw [minus_fin.key_eq, hf.key_eq, minus_units] at h1
  rw [one_fin.key_eq, hf.key_eq, one_units] at h2
  exact ⟨hf, h1, h2⟩

theorem spread_unit {u : F64} (h : IsUnit u) : (spread u).IsFin ∧ -(2 ^ 1074) ≤ (spread u).units ∧ (spread u).units ≤ 2 ^ 1074 := by
  have hu := h.fin
  obtain ⟨u0, u1⟩ := h.units
  have hm : mul u (dec 2 1) ≠ .nan := mul_ne_nan hu two_fin
  have t0 : 0 ≤ (dec 2 1).units := by decide +kernel
  have b1 : (mul (dec 0 1) (dec 2 1)).key ≤ (mul u (dec 2 1)).key :=
    mul_mono zero_fin two_fin hu two_fin (by rw [zero_units]; exact Int.le_refl _) (by rw [zero_units]; exact u0) t0 (Int.le_refl _)
  have b2 : (mul u (dec 2 1)).key ≤ (mul (dec 1 1) (dec 2 1)).key :=
    mul_mono hu two_fin one_fin two_fin u0 (by rw [one_units]; exact u1) t0 (Int.le_refl _)
  have e1 : mul (dec 0 1) (dec 2 1) = dec 0 1 := by decide +kernel
  have e2 : mul (dec 1 1) (dec 2 1) = dec 2 1 := by decide +kernel
  rw [e1] at b1
  rw [e2] at b2
  have hf := fin_between zero_fin two_fin hm b1 b2
  have n1 := neg_fin one_fin
  rw [zero_fin.key_eq, hf.key_eq] at b1
  rw [two_fin.key_eq, hf.key_eq] at b2
  have c1 := add_mono zero_fin n1 hf n1 b1 (Int.le_refl _)
  have c2 := add_mono hf n1 two_fin n1 b2 (Int.le_refl _)
  have e3 : add (dec 0 1) (neg (dec 1 1)) = dec (-1) 1 := by decide +kernel
  have e4 : add (dec 2 1) (neg (dec 1 1)) = dec 1 1 := by decide +kernel
  rw [e3] at c1
  rw [e4] at c2
  have hn : spread u ≠ .nan := add_ne_nan hf n1.ne_nan
  exact unit_of_fle ((fle_iff minus_fin.ne_nan hn).2 c1) ((fle_iff hn one_fin.ne_nan).2 c2)

/-- A number moved by at most `n`. -/
theorem shift_between {b n x : F64} (hb : b.IsFin) (hn : n.IsFin) (h0 : fle (dec 0 1) n = true) (hx : x.IsFin)
    (h1 : -(2 ^ 1074) ≤ x.units) (h2 : x.units ≤ 2 ^ 1074) :
    fle (F64.sub b n) (add b (mul x n)) = true ∧ fle (add b (mul x n)) (add b n) = true := by
  rw [fle_iff zero_fin.ne_nan hn.ne_nan, zero_fin.key_eq, zero_units, hn.key_eq] at h0
  obtain ⟨m1, m2⟩ := mul_unit hx hn h1 h2 h0
  have hf := fin_between (neg_fin hn) hn (mul_ne_nan hx hn) m1 m2
  rw [hf.key_eq, (neg_fin hn).key_eq] at m1
  rw [hf.key_eq, hn.key_eq] at m2
  have a1 := add_mono hb (neg_fin hn) hb hf (Int.le_refl _) m1
  have a2 := add_mono hb hf hb hn (Int.le_refl _) m2
  have nn := add_ne_nan hb hf.ne_nan
  exact ⟨(fle_iff (add_ne_nan hb (neg_fin hn).ne_nan) nn).2 a1, (fle_iff nn (add_ne_nan hb hn.ne_nan)).2 a2⟩

theorem not_flt {a b : F64} (ha : a ≠ .nan) (hb : b ≠ .nan) (h : ¬ flt a b = true) : fle b a = true := by
  rw [flt_iff ha hb] at h
  rw [fle_iff hb ha]
  omega

theorem clamp_between {v lo hi : F64} (hv : v ≠ .nan) (h : fle lo hi = true) :
    fle lo (clamp v lo hi) = true ∧ fle (clamp v lo hi) hi = true := by
  obtain ⟨h1, h2⟩ := fle_ne_nan h
  unfold clamp
  split
  · exact ⟨(fle_iff h1 h1).2 (Int.le_refl _), h⟩
  · split
    · exact ⟨h, (fle_iff h2 h2).2 (Int.le_refl _)⟩
    · rename_i a b
      exact ⟨not_flt hv h1 a, not_flt h2 hv b⟩

/-! ### Patterns -/

theorem param_irrel (s : SensorData) (n : Int) (k : Bytes) : ({ s with counter := n } : SensorData).param k = s.param k := rfl

/-- A constant value stays. -/
theorem C83_constant (c : Choices) (s : SensorData) (t : Int) {f : F64} (hv : s.value = .num f) (hp : s.pattern = b!"constant") :
    (newNumber c s t).1 = .num f := by simp [newNumber, hv, hp]

/-- A value with noise lies between the baseline minus and plus the noise. -/
theorem C83_noise {c : Choices} (hc : c.Good) (s : SensorData) (t : Int) {f : F64} (hv : s.value = .num f)
    (hp : s.pattern = b!"constant_with_noise") (hb : (s.param b!"baseline").IsFin) (hn : (s.param b!"noise").IsFin)
    (h0 : fle (dec 0 1) (s.param b!"noise") = true) :
    InRange (F64.sub (s.param b!"baseline") (s.param b!"noise")) (add (s.param b!"baseline") (s.param b!"noise")) (newNumber c s t).1 := by
  obtain ⟨a1, a2, a3⟩ := spread_unit (hc.unit 0)
  refine ⟨_, by simp [newNumber, hv, hp] <;> rfl, shift_between hb hn h0 a1 a2 a3⟩

theorem mul_comm' (a b : F64) (ha : a.IsFin) (hb : b.IsFin) : mul a b = mul b a := by
  rw [mul_fin ha hb, mul_fin hb ha, Int.mul_comm]
  congr 1
  cases a.signBit <;> cases b.signBit <;> rfl

/-- The value of a sine lies between the baseline minus and plus the amplitude. -/
theorem C83_sine {c : Choices} (hc : c.Good) (s : SensorData) (t : Int) {f : F64} (hv : s.value = .num f)
    (hp : s.pattern = b!"sinusoidal") (hb : (s.param b!"baseline").IsFin) (hn : (s.param b!"amplitude").IsFin)
    (h0 : fle (dec 0 1) (s.param b!"amplitude") = true) (ha : (angle s t).IsFin) :
    InRange (F64.sub (s.param b!"baseline") (s.param b!"amplitude")) (add (s.param b!"baseline") (s.param b!"amplitude")) (newNumber c s t).1 := by
  obtain ⟨a1, a2⟩ := hc.sine _ ha
  obtain ⟨b1, b2, b3⟩ := unit_of_fle a1 a2
  refine ⟨_, by simp [newNumber, hv, hp] <;> rfl, ?_⟩
  rw [mul_comm' _ _ hn b1]
  exact shift_between hb hn h0 b1 b2 b3

/-- A linear value stays within its limits. -/
theorem C83_linear (c : Choices) (s : SensorData) (t : Int) {f : F64} (hv : s.value = .num f) (hf : f.IsFin)
    (hp : s.pattern = b!"linear") (hl : fle (s.param b!"min") (s.param b!"max") = true)
    (hs : F64.div (mul (s.param b!"slope") (F64.ofInt s.interval)) (dec 1000 1) ≠ .nan) :
    InRange (s.param b!"min") (s.param b!"max") (newNumber c s t).1 :=
  ⟨_, by simp [newNumber, hv, hp] <;> rfl, clamp_between (add_ne_nan hf hs) hl⟩

/-- A random walk stays within its limits. -/
theorem C83_walk {c : Choices} (hc : c.Good) (s : SensorData) (t : Int) {f : F64} (hv : s.value = .num f) (hf : f.IsFin)
    (hp : s.pattern = b!"random_walk") (hl : fle (s.param b!"min") (s.param b!"max") = true) (hs : (s.param b!"step_size").IsFin) :
    InRange (s.param b!"min") (s.param b!"max") (newNumber c s t).1 :=
  ⟨_, by simp [newNumber, hv, hp] <;> rfl, clamp_between (add_ne_nan hf (mul_ne_nan (spread_unit (hc.unit 0)).1 hs)) hl⟩

/-- A stepped value stays within its limits or does not change. -/
theorem C83_stepped (c : Choices) (s : SensorData) (t : Int) {f : F64} (hv : s.value = .num f) (hf : f.IsFin)
    (hp : s.pattern = b!"stepped") (hl : fle (s.param b!"min") (s.param b!"max") = true) (hs : (s.param b!"step_size").IsFin) :
    InRange (s.param b!"min") (s.param b!"max") (newNumber c s t).1 ∨ (newNumber c s t).1 = .num f := by
  by_cases h : F64.fle (s.param b!"step_interval") (F64.ofInt (s.counter * s.interval)) = true
  · left
    refine ⟨_, by simp [newNumber, hv, hp, h] <;> rfl, clamp_between (add_ne_nan hf (mul_ne_nan ?_ hs)) hl⟩
    split
    · exact minus_fin
    · exact one_fin
  · right
    simp [newNumber, hv, hp, h]

/-- A switch changes only if the number drawn is below the probability. -/
theorem C83_toggle (c : Choices) (s : SensorData) {b : Bool} (hv : s.value = .bool b) (hp : s.pattern = b!"toggle") :
    newBool c s = .bool (if flt (c.u 0) (s.param b!"toggle_probability") then !b else b) := by
  simp [newBool, hv, hp]

/-- Readings have the kind the type of the sensor names, whatever the value of the sensor is. -/
theorem C83_kind {c : Choices} {s s' : SensorData} {t : Int} {v : Js} (h : s.read c t = .ok (some (s', v))) :
    (s.type = b!"number" → ∃ f, v = .num f) ∧ (s.type = b!"boolean" → ∃ b, v = .bool b) ∧ (s.type = b!"string" → ∃ b, v = .str b) := by
  have hnum : ∀ (s : SensorData), ∃ f, (newNumber c s t).1 = .num f := by
    intro s
    unfold newNumber
    split
    · repeat' split
      all_goals exact ⟨_, rfl⟩
    · exact ⟨_, rfl⟩
  have hbool : ∀ (s : SensorData), ∃ f, newBool c s = .bool f := by
    intro s
    unfold newBool
    split
    · repeat' split
      all_goals exact ⟨_, rfl⟩
    · exact ⟨_, rfl⟩
  have hstr : ∀ (s : SensorData) w, newString c s = .ok (some w) → ∃ f, w = .str f := by
    intro s w hw
    unfold newString at hw
    split at hw
    · split at hw
      · dsimp only at hw
        repeat' split at hw
        all_goals first
          | (cases hw; done)
          | (simp only [Res.ok.injEq, Option.map_eq_some_iff] at hw; obtain ⟨_, -, rfl⟩ := hw; exact ⟨_, rfl⟩)
          | (simp only [Res.ok.injEq, Option.some.injEq] at hw; exact ⟨_, hw.symm⟩)
      · simp only [Res.ok.injEq, Option.some.injEq] at hw; exact ⟨_, hw.symm⟩
    · simp only [Res.ok.injEq, Option.some.injEq] at hw; exact ⟨_, hw.symm⟩
  have hne : b!"number" ≠ b!"boolean" ∧ b!"number" ≠ b!"string" ∧ b!"boolean" ≠ b!"string" := by decide
  unfold SensorData.read newValue at h
  dsimp only at h
  refine ⟨fun ht => ?_, fun ht => ?_, fun ht => ?_⟩
  · rw [if_pos ht] at h
    simp only [Res.map, Option.map_some, Res.ok.injEq, Option.some.injEq, Prod.mk.injEq] at h
    obtain ⟨-, rfl⟩ := h
    exact hnum _
  · rw [if_neg (by rw [ht]; exact fun h => hne.1 h.symm), if_pos ht] at h
    simp only [Res.map, Option.map_some, Res.ok.injEq, Option.some.injEq, Prod.mk.injEq] at h
    obtain ⟨-, rfl⟩ := h
    exact hbool _
  · rw [if_neg (by rw [ht]; exact fun h => hne.2.1 h.symm), if_neg (by rw [ht]; exact fun h => hne.2.2 h.symm), if_pos ht] at h
    cases hn : newString c { s with counter := s.counter + 1 } with
    | ok o =>
      rw [hn] at h
      cases o with
      | none => simp [Res.map] at h
      | some w =>
        simp only [Res.map, Option.map_some, Res.ok.injEq, Option.some.injEq, Prod.mk.injEq] at h
        obtain ⟨-, rfl⟩ := h
        exact hstr _ _ hn
    | err => rw [hn] at h; cases h
    | panic => rw [hn] at h; cases h

/-! ### The vehicle of the experiment -/

theorem ofInt_roundZ (n : Int) : F64.ofInt n = roundZ false n 1 := by
  unfold F64.ofInt roundZ
  by_cases h : n = 0
  · subst h; rfl
  · rw [if_neg h]

theorem big_fin : (dec (2 ^ 53) 1).IsFin := dec_fin (by decide +kernel)

theorem ofInt_bound {t : Int} (h0 : 0 ≤ t) (h1 : t < 2 ^ 53) :
    (F64.ofInt t).IsFin ∧ 0 ≤ (F64.ofInt t).units ∧ (F64.ofInt t).units ≤ (dec (2 ^ 53) 1).units := by
  rw [ofInt_roundZ]
  have a1 : (dec 0 1).key ≤ (roundZ false t 1).key := roundZ_mono (by decide) (by decide) (by omega) _ _
  have a2 : (roundZ false t 1).key ≤ (dec (2 ^ 53) 1).key := roundZ_mono (by decide) (by decide) (by omega) _ _
  have hf := fin_between zero_fin big_fin (roundZ_ne_nan _ _ _) a1 a2
  rw [zero_fin.key_eq, zero_units, hf.key_eq] at a1
  rw [hf.key_eq, big_fin.key_eq] at a2
  exact ⟨hf, a1, a2⟩

theorem div_fin {a b : F64} (ha : a.IsFin) (hb : b.IsFin) (h : b.units ≠ 0) :
    F64.div a b = roundZ (a.signBit != b.signBit) (a.units * b.units.sign) b.units.natAbs := by
  obtain ⟨s1, m1, e1, c1, rfl⟩ := ha
  obtain ⟨s2, m2, e2, c2, rfl⟩ := hb
  rw [F64.div]
  exact if_neg h

/-- The argument of the sine is finite. -/
theorem angle_fin {s : SensorData} {t : Int} (h0 : 0 ≤ t) (h1 : t < 2 ^ 53) (hp : (s.param b!"phase").toInt64 = 0)
    (hq : (s.param b!"period").IsFin) (hq1 : fle (dec 1 1) (s.param b!"period") = true) : (angle s t).IsFin := by
  unfold angle
  rw [hp, Int.add_zero]
  obtain ⟨tf, t0, t1⟩ := ofInt_bound h0 h1
  rw [fle_iff one_fin.ne_nan hq.ne_nan, one_fin.key_eq, one_units, hq.key_eq] at hq1
  have hP : (0 : Int) < 2 ^ 1074 := Int.pow_pos (by decide)
  have hd : F64.div (F64.ofInt t) (s.param b!"period") =
      roundZ ((F64.ofInt t).signBit != (s.param b!"period").signBit) (F64.ofInt t).units (s.param b!"period").units.natAbs := by
    rw [div_fin tf hq (by generalize (2 : Int) ^ 1074 = P at *; omega), Int.sign_eq_one_of_pos (by generalize (2 : Int) ^ 1074 = P at *; omega), Int.mul_one]
  have hqp : 0 < (s.param b!"period").units.natAbs := by generalize (2 : Int) ^ 1074 = P at *; omega
  have hqa : ((s.param b!"period").units.natAbs : Int) = (s.param b!"period").units := by generalize (2 : Int) ^ 1074 = P at *; omega
  have n : F64.div (F64.ofInt t) (s.param b!"period") ≠ .nan := by rw [hd]; exact roundZ_ne_nan _ _ _
  have b0 : (dec 0 1).units ≤ (F64.div (F64.ofInt t) (s.param b!"period")).key := by
    rw [hd]
    refine le_roundZ hqp zero_fin ?_ _
    rw [zero_units, Int.zero_mul]
    exact Int.mul_nonneg t0 (Int.le_of_lt hP)
  have b1 : (F64.div (F64.ofInt t) (s.param b!"period")).key ≤ (dec (2 ^ 53) 1).units := by
    rw [hd]
    refine roundZ_le hqp big_fin ?_ _
    rw [hqa]
    exact Int.mul_le_mul t1 hq1 (Int.le_of_lt hP) (Int.le_trans t0 t1)
  have df := fin_between zero_fin big_fin n (by rw [zero_fin.key_eq]; exact b0) (by rw [big_fin.key_eq]; exact b1)
  rw [df.key_eq] at b0 b1
  rw [zero_units] at b0
  have pf : twoPi.IsFin := dec_fin (by decide +kernel)
  have pu : (0 : Int) ≤ twoPi.units := by decide +kernel
  have bu : (0 : Int) ≤ (dec (2 ^ 53) 1).units := Int.le_trans b0 b1
  obtain ⟨c1, c2⟩ := mul_bound pf df pf big_fin (by omega) (Int.le_refl _) (by omega) b1
  refine fin_between (a := mul (neg twoPi) (dec (2 ^ 53) 1)) (b := mul twoPi (dec (2 ^ 53) 1)) ?_ ?_ (mul_ne_nan pf df) c1 c2
  · have : mul (neg twoPi) (dec (2 ^ 53) 1) = .fin true 7074237752028440 3 (by decide) := by decide +kernel
    exact ⟨_, _, _, _, this⟩
  · have : mul twoPi (dec (2 ^ 53) 1) = .fin false 7074237752028440 3 (by decide) := by decide +kernel
    exact ⟨_, _, _, _, this⟩

/-- A finite number. -/
def finite : F64 → Bool
  | .fin .. => true
  | _ => false

theorem finite_iff {f : F64} : finite f = true ↔ f.IsFin := by
  cases f with
  | fin s m e h => exact ⟨fun _ => ⟨s, m, e, h, rfl⟩, fun _ => rfl⟩
  | nan => exact ⟨fun h => (by cases h), fun ⟨_, _, _, _, h⟩ => (by cases h)⟩
  | inf s => exact ⟨fun h => (by cases h), fun ⟨_, _, _, _, h⟩ => (by cases h)⟩

/-- The pattern and its parameters keep the values between `lo` and `hi`. -/
def safe (lo hi : F64) (s : SensorData) : Bool :=
  if s.pattern = b!"constant_with_noise" then
    finite (s.param b!"baseline") && finite (s.param b!"noise") && fle (dec 0 1) (s.param b!"noise") &&
      fle lo (F64.sub (s.param b!"baseline") (s.param b!"noise")) && fle (add (s.param b!"baseline") (s.param b!"noise")) hi
  else if s.pattern = b!"linear" then
    fle lo (s.param b!"min") && fle (s.param b!"min") (s.param b!"max") && fle (s.param b!"max") hi &&
      decide (F64.div (mul (s.param b!"slope") (F64.ofInt s.interval)) (dec 1000 1) ≠ .nan)
  else if s.pattern = b!"sinusoidal" then
    finite (s.param b!"baseline") && finite (s.param b!"amplitude") && fle (dec 0 1) (s.param b!"amplitude") &&
      fle lo (F64.sub (s.param b!"baseline") (s.param b!"amplitude")) && fle (add (s.param b!"baseline") (s.param b!"amplitude")) hi &&
      decide ((s.param b!"phase").toInt64 = 0) && finite (s.param b!"period") && fle (dec 1 1) (s.param b!"period")
  else if s.pattern = b!"random_walk" then
    fle lo (s.param b!"min") && fle (s.param b!"min") (s.param b!"max") && fle (s.param b!"max") hi && finite (s.param b!"step_size")
  else decide (s.pattern ≠ b!"stepped") && decide (s.pattern ≠ b!"triggered")

theorem InRange.mono {lo hi lo' hi' : F64} {v : Js} (h : InRange lo' hi' v) (h1 : fle lo lo' = true) (h2 : fle hi' hi = true) : InRange lo hi v := by
  obtain ⟨f, rfl, a, b⟩ := h
  exact ⟨f, rfl, fle_trans h1 a, fle_trans b h2⟩

theorem InRange.fin {lo hi : F64} (hlo : lo.IsFin) (hhi : hi.IsFin) {f : F64} (h : InRange lo hi (.num f)) : f.IsFin := by
  obtain ⟨g, hg, a, b⟩ := h
  cases hg
  have n := (fle_ne_nan a).2
  exact fin_between hlo hhi n ((fle_iff hlo.ne_nan n).1 a) ((fle_iff n hhi.ne_nan).1 b)

theorem newNumber_safe {c : Choices} (hc : c.Good) {lo hi : F64} (hlo : lo.IsFin) (hhi : hi.IsFin) {s : SensorData} (hs : safe lo hi s = true)
    {t : Int} (h0 : 0 ≤ t) (h1 : t < 2 ^ 53) (hv : InRange lo hi s.value) : InRange lo hi (newNumber c s t).1 := by
  obtain ⟨f, hf, r⟩ := hv
  have hff : f.IsFin := InRange.fin hlo hhi ⟨f, rfl, r⟩
  unfold safe at hs
  by_cases p1 : s.pattern = b!"constant_with_noise"
  · rw [if_pos p1] at hs
    simp only [Bool.and_eq_true, finite_iff] at hs
    obtain ⟨⟨⟨⟨a, b⟩, d⟩, e⟩, g⟩ := hs
    exact (C83_noise hc s t hf p1 a b d).mono e g
  rw [if_neg p1] at hs
  by_cases p2 : s.pattern = b!"linear"
  · rw [if_pos p2] at hs
    simp only [Bool.and_eq_true, decide_eq_true_eq] at hs
    obtain ⟨⟨⟨a, b⟩, d⟩, e⟩ := hs
    exact (C83_linear c s t hf hff p2 b e).mono a d
  rw [if_neg p2] at hs
  by_cases p3 : s.pattern = b!"sinusoidal"
  · rw [if_pos p3] at hs
    simp only [Bool.and_eq_true, finite_iff, decide_eq_true_eq] at hs
    obtain ⟨⟨⟨⟨⟨⟨⟨a, b⟩, d⟩, e⟩, g⟩, i⟩, j⟩, k⟩ := hs
    exact (C83_sine hc s t hf p3 a b d (angle_fin h0 h1 i j k)).mono e g
  rw [if_neg p3] at hs
  by_cases p4 : s.pattern = b!"random_walk"
  · rw [if_pos p4] at hs
    simp only [Bool.and_eq_true, finite_iff] at hs
    obtain ⟨⟨⟨a, b⟩, d⟩, e⟩ := hs
    exact (C83_walk hc s t hf hff p4 b e).mono a d
  rw [if_neg p4] at hs
  simp only [Bool.and_eq_true, decide_eq_true_eq] at hs
  refine ⟨f, ?_, r⟩
  simp [newNumber, hf, p1, p2, p3, p4, hs.1, hs.2]

/-- Everything but the value and the counter. -/
def SensorData.erase (s : SensorData) : SensorData := { s with value := .null, counter := 0 }

theorem erase_fields {s s' : SensorData} (h : s.erase = s'.erase) : s.path = s'.path ∧ s.group = s'.group ∧ s.type = s'.type ∧
    s.interval = s'.interval ∧ s.pattern = s'.pattern ∧ s.params = s'.params := by
  simp only [SensorData.erase, SensorData.mk.injEq] at h
  exact ⟨h.1, h.2.1, h.2.2.2.1, h.2.2.2.2.1, h.2.2.2.2.2.1, h.2.2.2.2.2.2.1⟩

theorem safe_erase {lo hi : F64} {s s' : SensorData} (h : s.erase = s'.erase) : safe lo hi s = safe lo hi s' := by
  obtain ⟨-, -, -, h1, h2, h3⟩ := erase_fields h
  unfold safe SensorData.param
  rw [h1, h2, h3]

theorem read_erase {c : Choices} {s s' : SensorData} {t : Int} {v : Js} (h : s.read c t = .ok (some (s', v))) :
    s'.erase = s.erase ∧ (s'.value = v ∨ s'.value = s.value ∧ isEqual s.value v = true) := by
  have key : ∀ r : SensorData × Js, newValue c s t = .ok (some r) → r.1.erase = s.erase ∧ r.1.value = s.value := by
    intro r hr
    unfold newValue at hr
    dsimp only at hr
    split at hr
    · simp only [Res.ok.injEq, Option.some.injEq] at hr
      subst hr
      dsimp only
      split <;> exact ⟨rfl, rfl⟩
    · split at hr
      · simp only [Res.ok.injEq, Option.some.injEq] at hr
        subst hr
        exact ⟨rfl, rfl⟩
      · split at hr
        · cases hn : newString c { s with counter := s.counter + 1 } with
          | ok o =>
            rw [hn] at hr
            cases o with
            | none => simp [Res.map] at hr
            | some w =>
              simp only [Res.map, Option.map_some, Res.ok.injEq, Option.some.injEq] at hr
              subst hr
              exact ⟨rfl, rfl⟩
          | err => rw [hn] at hr; cases hr
          | panic => rw [hn] at hr; cases hr
        · simp only [Res.ok.injEq, Option.some.injEq] at hr
          subst hr
          exact ⟨rfl, rfl⟩
  unfold SensorData.read at h
  cases hn : newValue c s t with
  | err => rw [hn] at h; cases h
  | panic => rw [hn] at h; cases h
  | ok o =>
    cases o with
    | none => rw [hn] at h; simp [Res.map] at h
    | some r =>
      obtain ⟨k1, k2⟩ := key r hn
      rw [hn] at h
      simp only [Res.map, Option.map_some, Res.ok.injEq, Option.some.injEq, Prod.mk.injEq] at h
      obtain ⟨h1, rfl⟩ := h
      by_cases he : isEqual s.value r.2 = true
      · rw [if_pos he] at h1
        subst h1
        exact ⟨k1, .inr ⟨k2, he⟩⟩
      · rw [if_neg he] at h1
        subst h1
        exact ⟨k1, .inl rfl⟩

theorem read_number {c : Choices} {s s' : SensorData} {t : Int} {v : Js} (ht : s.type = b!"number") (h : s.read c t = .ok (some (s', v))) :
    v = (newNumber c { s with counter := s.counter + 1 } t).1 := by
  unfold SensorData.read newValue at h
  dsimp only at h
  rw [if_pos ht] at h
  simp only [Res.map, Option.map_some, Res.ok.injEq, Option.some.injEq, Prod.mk.injEq] at h
  exact h.2.symm

theorem after_safe {lo hi : F64} (hlo : lo.IsFin) (hhi : hi.IsFin) {s : SensorData} (hs : safe lo hi s = true) (ht : s.type = b!"number")
    (hv : InRange lo hi s.value) {s' : SensorData} (h : After s s') : s'.erase = s.erase ∧ InRange lo hi s'.value := by
  induction h with
  | start => exact ⟨rfl, hv⟩
  | read ha hc h0 h1 hr ih =>
    obtain ⟨e, r⟩ := ih
    obtain ⟨e', w⟩ := read_erase hr
    refine ⟨e'.trans e, ?_⟩
    rcases w with w | ⟨w, -⟩
    · rw [w, read_number ((erase_fields e).2.2.1.trans ht) hr]
      exact newNumber_safe hc hlo hhi (by rw [← hs]; exact safe_erase e) h0 h1 r
    · rw [w]; exact r

/-! #### All but some values do not depend on the numbers drawn -/

/-- The sensors whose first values are drawn. -/
def drawnPaths : List Bytes := [b!"Vehicle.Speed", b!"Vehicle.Powertrain.TractionBattery.StateOfCharge.Current",
  b!"Vehicle.Powertrain.TractionBattery.Charging.ChargingRate", b!"Vehicle.Powertrain.TractionBattery.Charging.TimeRemaining"]

/-- Everything but the counter and the drawn values. -/
def SensorData.wipe (s : SensorData) : SensorData := { s with value := if s.path ∈ drawnPaths then .null else s.value, counter := 0 }

theorem wipe_fields {s s' : SensorData} (h : s.wipe = s'.wipe) : s.path = s'.path ∧ s.group = s'.group ∧
    (s.path ∉ drawnPaths → s.value = s'.value) ∧ s.type = s'.type ∧ s.interval = s'.interval ∧ s.pattern = s'.pattern ∧ s.params = s'.params := by
  simp only [SensorData.wipe, SensorData.mk.injEq] at h
  refine ⟨h.1, h.2.1, fun hp => ?_, h.2.2.2.1, h.2.2.2.2.1, h.2.2.2.2.2.1, h.2.2.2.2.2.2.1⟩
  have := h.2.2.1
  rwa [if_neg hp, if_neg (h.1 ▸ hp)] at this

theorem erase_of_wipe {s s' : SensorData} (h : s.wipe = s'.wipe) : s.erase = s'.erase := by
  obtain ⟨e1, e2, -, e3, e4, e5, e6⟩ := wipe_fields h
  simp only [SensorData.erase, e1, e2, e3, e4, e5, e6]

theorem onSensor_wipe {g : Group} {p : Bytes} {f f' : SensorData → SensorData}
    (hf : ∀ s s', s.path = p → s'.path = p → s.wipe = s'.wipe → (f s).wipe = (f' s').wipe)
    {ss ss' : List SensorData} (h : ss.map SensorData.wipe = ss'.map SensorData.wipe) :
    (onSensor g p f ss).map SensorData.wipe = (onSensor g p f' ss').map SensorData.wipe := by
  induction ss generalizing ss' with
  | nil =>
    cases ss' with
    | nil => rfl
    | cons => simp at h
  | cons s ss ih =>
    cases ss' with
    | nil => simp at h
    | cons s' ss' =>
      simp only [List.map_cons, List.cons.injEq] at h
      have := ih h.2
      simp only [onSensor, List.map_cons, List.cons.injEq] at *
      refine ⟨?_, this⟩
      obtain ⟨e1, e2, -⟩ := wipe_fields h.1
      rw [e1, e2]
      split
      · rename_i hp
        exact hf _ _ (e1.trans hp.2) hp.2 h.1
      · exact h.1

theorem setValue_wipe (v : Js) {s s' : SensorData} (h : s.wipe = s'.wipe) : (s.setValue v).wipe = (s'.setValue v).wipe := by
  obtain ⟨e1, e2, -, e3, e4, e5, e6⟩ := wipe_fields h
  cases s; cases s'
  cases e1; cases e2; cases e3; cases e4; cases e5; cases e6
  rfl

/-- Draws of a value. -/
theorem drawn_wipe (v w : Js) {s s' : SensorData} {p : Bytes} (hp : s.path = p) (hm : p ∈ drawnPaths) (h : s.wipe = s'.wipe) :
    (s.setValue v).wipe = (s'.setValue w).wipe ∧ (s.setValue v).wipe = s'.wipe ∧ s.wipe = (s'.setValue w).wipe := by
  obtain ⟨e1, e2, -, e3, e4, e5, e6⟩ := wipe_fields h
  have h1 : s'.path ∈ drawnPaths := by rw [← e1, hp]; exact hm
  simp only [SensorData.wipe, SensorData.setValue, e1, e2, e3, e4, e5, e6, h1, if_true, and_self]

theorem ifPattern_wipe (p : Bytes) (ps : List (Bytes × F64)) {s s' : SensorData} (h : s.wipe = s'.wipe) :
    (s.ifPattern p ps).wipe = (s'.ifPattern p ps).wipe := by
  obtain ⟨e1, e2, ev, e3, e4, e5, e6⟩ := wipe_fields h
  unfold SensorData.ifPattern
  rw [e5]
  split
  · simp only [SensorData.wipe, SensorData.mk.injEq] at h ⊢
    exact ⟨h.1, h.2.1, h.2.2.1, h.2.2.2.1, h.2.2.2.2.1, trivial, by rw [e6], trivial⟩
  · exact h

theorem urban_wipe (u w : F64) {ss ss' : List SensorData} (h : ss.map SensorData.wipe = ss'.map SensorData.wipe) :
    (urbanSettings u ss).map SensorData.wipe = (urbanSettings w ss').map SensorData.wipe := by
  unfold urbanSettings
  iterate 8 refine onSensor_wipe (fun _ _ _ _ h => ifPattern_wipe _ _ h) ?_
  exact onSensor_wipe (fun _ _ hp _ h => ifPattern_wipe _ _ (drawn_wipe _ _ hp (by decide) h).1) h

theorem highway_wipe (u w : F64) {ss ss' : List SensorData} (h : ss.map SensorData.wipe = ss'.map SensorData.wipe) :
    (highwaySettings u ss).map SensorData.wipe = (highwaySettings w ss').map SensorData.wipe := by
  unfold highwaySettings
  iterate 2 refine onSensor_wipe (fun _ _ _ _ h => ifPattern_wipe _ _ h) ?_
  iterate 2 refine onSensor_wipe (fun _ _ _ _ h => ifPattern_wipe _ _ (setValue_wipe _ h)) ?_
  iterate 2 refine onSensor_wipe (fun _ _ _ _ h => ifPattern_wipe _ _ h) ?_
  refine onSensor_wipe (fun _ _ _ _ h => ifPattern_wipe _ _ (setValue_wipe _ h)) ?_
  refine onSensor_wipe (fun _ _ _ _ h => ifPattern_wipe _ _ h) ?_
  exact onSensor_wipe (fun _ _ hp _ h => ifPattern_wipe _ _ (drawn_wipe _ _ hp (by decide) h).1) h

theorem charging_wipe (u u' w w' : F64) {ss ss' : List SensorData} (h : ss.map SensorData.wipe = ss'.map SensorData.wipe) :
    (chargingSettings u u' ss).map SensorData.wipe = (chargingSettings w w' ss').map SensorData.wipe := by
  unfold chargingSettings
  refine onSensor_wipe (fun s s' hp _ h => ifPattern_wipe _ _ ?_) ?_
  · have hm : b!"Vehicle.Powertrain.TractionBattery.Charging.TimeRemaining" ∈ drawnPaths := by decide
    split <;> split
    · exact (drawn_wipe _ _ hp hm h).1
    · exact (drawn_wipe _ (.null) hp hm h).2.1
    · exact (drawn_wipe (.null) _ hp hm h).2.2
    · exact h
  refine onSensor_wipe (fun _ _ hp _ h => ifPattern_wipe _ _ (drawn_wipe _ _ hp (by decide) h).1) ?_
  refine onSensor_wipe (fun _ _ _ _ h => setValue_wipe _ h) ?_
  iterate 2 refine onSensor_wipe (fun _ _ _ _ h => ifPattern_wipe _ _ h) ?_
  iterate 5 refine onSensor_wipe (fun _ _ _ _ h => setValue_wipe _ h) ?_
  exact h

/-- The names of the scenarios (exp/exp_scenario.go). -/
def scenarioNames : List Bytes := [b!"urban_traffic", b!"highway_cruising", b!"battery_charging", b!"mixed_scenario"]

theorem vehicle_wipe (u u' u'' w w' w'' : F64) {scenario : Bytes} {ss : List SensorData}
    (h : initialVehicle u u' u'' scenario = .ok ss) :
    ∃ ss0, initialVehicle w w' w'' scenario = .ok ss0 ∧ ss.map SensorData.wipe = ss0.map SensorData.wipe := by
  unfold initialVehicle scenarioSettings at *
  cases hp : updatePatterns vssSensors (if scenario = b!"mixed_scenario" then b!"urban_traffic" else scenario) (vssSensors.map (VssSensor.initial scenario)) with
  | err => rw [hp] at h; cases h
  | panic => rw [hp] at h; cases h
  | ok l =>
    rw [hp] at h
    simp only [Res.map, Res.ok.injEq] at *
    refine ⟨_, rfl, ?_⟩
    subst h
    by_cases h1 : scenario = b!"urban_traffic"
    · rw [if_pos h1, if_pos h1]; exact urban_wipe _ _ rfl
    rw [if_neg h1, if_neg h1]
    by_cases h2 : scenario = b!"highway_cruising"
    · rw [if_pos h2, if_pos h2]; exact highway_wipe _ _ rfl
    rw [if_neg h2, if_neg h2]
    by_cases h3 : scenario = b!"battery_charging"
    · rw [if_pos h3, if_pos h3]
      exact charging_wipe _ _ _ _ (onSensor_wipe (fun _ _ hp _ h => (drawn_wipe _ _ hp (by decide) h).1) rfl)
    rw [if_neg h3, if_neg h3]
    by_cases h4 : scenario = b!"mixed_scenario"
    · rw [if_pos h4, if_pos h4]; exact urban_wipe _ _ rfl
    rw [if_neg h4, if_neg h4]

/-- Every sensor of the vehicle has an entry in the table with its type, and its pattern keeps to the limits. -/
def vehicleSafe (scenario : Bytes) : Bool :=
  match initialVehicle (dec 0 1) (dec 0 1) (dec 0 1) scenario with
  | .ok ss => ss.all fun s => vssSensors.all fun v => decide (v.path ≠ s.path) ||
      decide (s.type = v.type) && (decide (v.type ≠ b!"number") || finite v.min && finite v.max && safe v.min v.max s)
  | _ => false

set_option maxRecDepth 100000 in
theorem vehicle_safe : ∀ scenario ∈ scenarioNames, vehicleSafe scenario = true := by decide +kernel

/-! #### The first values -/

/-- The value lies within the limits of the table. -/
def Fits (s : SensorData) : Prop := ∀ v ∈ vssSensors, v.path = s.path → v.type = b!"number" → InRange v.min v.max s.value

theorem onSensor_fits {g : Group} {p : Bytes} {f : SensorData → SensorData} (hf : ∀ s, s.path = p → Fits s → Fits (f s))
    {ss : List SensorData} (h : ∀ s ∈ ss, Fits s) : ∀ s ∈ onSensor g p f ss, Fits s := by
  intro s hs
  obtain ⟨s0, h0, rfl⟩ := List.mem_map.1 hs
  split
  · rename_i hp; exact hf _ hp.2 (h _ h0)
  · exact h _ h0

theorem ifPattern_fits {s : SensorData} (p : Bytes) (ps : List (Bytes × F64)) (h : Fits s) : Fits (s.ifPattern p ps) := by
  unfold SensorData.ifPattern
  split
  · exact h
  · exact h

theorem setValue_fits {s : SensorData} {p : Bytes} (hp : s.path = p) {lo hi : F64} {w : Js} (hw : InRange lo hi w)
    (ht : (vssSensors.all fun v => decide (v.path ≠ p) || decide (v.type ≠ b!"number") || fle v.min lo && fle hi v.max) = true) :
    Fits (s.setValue w) := by
  intro v hv e t
  have := List.all_eq_true.1 ht v hv
  have e' : v.path = p := e.trans hp
  simp only [e', t, ne_eq, not_true_eq_false, decide_false, Bool.false_or, Bool.and_eq_true] at this
  exact hw.mono this.1 this.2

theorem drawn_between {u : F64} (hu : IsUnit u) {b n : F64} (hb : b.IsFin) (hn : n.IsFin) (h0 : fle (dec 0 1) n = true) :
    InRange (F64.sub b n) (add b n) (.num (add b (mul u n))) := by
  obtain ⟨u0, u1⟩ := hu.units
  have hP : (0 : Int) ≤ 2 ^ 1074 := Int.pow_nonneg (by decide)
  refine ⟨_, rfl, shift_between hb hn h0 hu.fin ?_ u1⟩
  generalize (2 : Int) ^ 1074 = P at *
  omega

theorem self_between {f : F64} (h : f ≠ .nan) : InRange f f (.num f) := ⟨f, rfl, (fle_iff h h).2 (Int.le_refl _), (fle_iff h h).2 (Int.le_refl _)⟩

theorem urban_fits {u : F64} (hu : IsUnit u) {ss : List SensorData} (h : ∀ s ∈ ss, Fits s) : ∀ s ∈ urbanSettings u ss, Fits s := by
  unfold urbanSettings
  iterate 8 refine onSensor_fits (fun _ _ hs => ifPattern_fits _ _ hs) ?_
  refine onSensor_fits (fun _ hp _ => ifPattern_fits _ _ ?_) h
  exact setValue_fits hp (drawn_between hu (dec_fin (by decide +kernel)) (dec_fin (by decide +kernel)) (by decide +kernel)) (by decide +kernel)

theorem highway_fits {u : F64} (hu : IsUnit u) {ss : List SensorData} (h : ∀ s ∈ ss, Fits s) : ∀ s ∈ highwaySettings u ss, Fits s := by
  unfold highwaySettings
  iterate 2 refine onSensor_fits (fun _ _ hs => ifPattern_fits _ _ hs) ?_
  refine onSensor_fits (fun _ hp _ => ifPattern_fits _ _ (setValue_fits hp (self_between (by decide +kernel)) (by decide +kernel))) ?_
  refine onSensor_fits (fun _ hp _ => ifPattern_fits _ _ (setValue_fits hp (self_between (by decide +kernel)) (by decide +kernel))) ?_
  iterate 2 refine onSensor_fits (fun _ _ hs => ifPattern_fits _ _ hs) ?_
  refine onSensor_fits (fun _ hp _ => ifPattern_fits _ _ (setValue_fits hp (self_between (by decide +kernel)) (by decide +kernel))) ?_
  refine onSensor_fits (fun _ _ hs => ifPattern_fits _ _ hs) ?_
  refine onSensor_fits (fun _ hp _ => ifPattern_fits _ _ ?_) h
  exact setValue_fits hp (drawn_between hu (dec_fin (by decide +kernel)) (dec_fin (by decide +kernel)) (by decide +kernel)) (by decide +kernel)

theorem boolean_fits {s : SensorData} {p : Bytes} (hp : s.path = p) {w : Js}
    (ht : (vssSensors.all fun v => decide (v.path ≠ p) || decide (v.type ≠ b!"number")) = true) : Fits (s.setValue w) := by
  intro v hv e t
  have := List.all_eq_true.1 ht v hv
  have e' : v.path = p := e.trans hp
  simp [e', t] at this

theorem charging_fits {u u' : F64} (hu : IsUnit u) (hu' : IsUnit u') {ss : List SensorData} (h : ∀ s ∈ ss, Fits s) :
    ∀ s ∈ chargingSettings u u' ss, Fits s := by
  unfold chargingSettings
  refine onSensor_fits (fun s hp hs => ifPattern_fits _ _ ?_) ?_
  · split
    · exact setValue_fits hp (drawn_between hu' (dec_fin (by decide +kernel)) (dec_fin (by decide +kernel)) (by decide +kernel)) (by decide +kernel)
    · exact hs
  refine onSensor_fits (fun _ hp _ => ifPattern_fits _ _ ?_) ?_
  · exact setValue_fits hp (drawn_between hu (dec_fin (by decide +kernel)) (dec_fin (by decide +kernel)) (by decide +kernel)) (by decide +kernel)
  refine onSensor_fits (fun _ hp _ => boolean_fits hp (by decide +kernel)) ?_
  iterate 2 refine onSensor_fits (fun _ _ hs => ifPattern_fits _ _ hs) ?_
  refine onSensor_fits (fun _ hp _ => setValue_fits hp (self_between (by decide +kernel)) (by decide +kernel)) ?_
  refine onSensor_fits (fun _ hp _ => setValue_fits hp (self_between (by decide +kernel)) (by decide +kernel)) ?_
  refine onSensor_fits (fun _ hp _ => setValue_fits hp (self_between (by decide +kernel)) (by decide +kernel)) ?_
  refine onSensor_fits (fun _ hp _ => setValue_fits hp (self_between (by decide +kernel)) (by decide +kernel)) ?_
  exact onSensor_fits (fun _ hp _ => setValue_fits hp (self_between (by decide +kernel)) (by decide +kernel)) h

theorem updatePattern_fields {table : List VssSensor} {scenario : Bytes} {s s' : SensorData} (h : s.updatePattern table scenario = .ok s') :
    s'.path = s.path ∧ s'.value = s.value ∧ s'.type = s.type := by
  unfold SensorData.updatePattern at h
  split at h
  · cases h; exact ⟨rfl, rfl, rfl⟩
  · split at h
    · cases h; exact ⟨rfl, rfl, rfl⟩
    · rename_i v _ _ p _
      cases hp : patternParams scenario s.path p v s.value with
      | err => rw [hp] at h; cases h
      | panic => rw [hp] at h; cases h
      | ok ps =>
        rw [hp] at h
        simp only [Res.map, Res.ok.injEq] at h
        subst h
        exact ⟨rfl, rfl, rfl⟩

theorem updatePatterns_fits {table : List VssSensor} {scenario : Bytes} {ss : List SensorData} (h : ∀ s ∈ ss, Fits s) :
    ∀ {ss'}, updatePatterns table scenario ss = .ok ss' → ∀ s ∈ ss', Fits s := by
  induction ss with
  | nil =>
    intro ss' e
    cases e
    simp
  | cons s ss ih =>
    intro ss' e
    rw [updatePatterns] at e
    cases h1 : s.updatePattern table scenario with
    | err => rw [h1] at e; cases e
    | panic => rw [h1] at e; cases e
    | ok s1 =>
      rw [h1] at e
      cases h2 : updatePatterns table scenario ss with
      | err => rw [h2] at e; cases e
      | panic => rw [h2] at e; cases e
      | ok ss1 =>
        rw [h2] at e
        simp only [Res.bind, Res.map, Res.ok.injEq] at e
        subst e
        intro x hx
        rcases List.mem_cons.1 hx with rfl | hx
        · obtain ⟨a, b, -⟩ := updatePattern_fields h1
          have := h s (List.mem_cons_self ..)
          unfold Fits at *
          rw [a, b]
          exact this
        · exact ih (fun y hy => h y (List.mem_cons_of_mem _ hy)) h2 x hx

theorem initial_fits (scenario : Bytes) : ∀ s ∈ vssSensors.map (VssSensor.initial scenario), Fits s := by
  intro s hs v hv e t
  obtain ⟨v', hv', rfl⟩ := List.mem_map.1 hs
  have key : (vssSensors.all fun v' => vssSensors.all fun v => decide (v.path ≠ v'.path) || decide (v.type ≠ b!"number") ||
      match v'.value with | .num f => fle v.min f && fle f v.max | _ => false) = true := by decide +kernel
  have k := List.all_eq_true.1 (List.all_eq_true.1 key v' hv') v hv
  have e' : v.path = v'.path := e
  simp only [e', t, ne_eq, not_true_eq_false, decide_false, Bool.false_or] at k
  change InRange v.min v.max v'.value
  split at k
  · rename_i f hf
    rw [Bool.and_eq_true] at k
    exact ⟨f, hf, k.1, k.2⟩
  · cases k

theorem vehicle_fits {u u' u'' : F64} (hu : IsUnit u) (hu' : IsUnit u') (hu'' : IsUnit u'') {scenario : Bytes} {ss : List SensorData}
    (h : initialVehicle u u' u'' scenario = .ok ss) : ∀ s ∈ ss, Fits s := by
  unfold initialVehicle scenarioSettings at h
  cases hp : updatePatterns vssSensors (if scenario = b!"mixed_scenario" then b!"urban_traffic" else scenario) (vssSensors.map (VssSensor.initial scenario)) with
  | err => rw [hp] at h; cases h
  | panic => rw [hp] at h; cases h
  | ok l =>
    rw [hp] at h
    simp only [Res.map, Res.ok.injEq] at h
    have hl := updatePatterns_fits (initial_fits scenario) hp
    subst h
    split
    · exact urban_fits hu hl
    split
    · exact highway_fits hu hl
    split
    · refine charging_fits hu hu' (onSensor_fits (fun _ hp _ => ?_) hl)
      exact setValue_fits hp (drawn_between hu'' (dec_fin (by decide +kernel)) (dec_fin (by decide +kernel)) (by decide +kernel)) (by decide +kernel)
    split
    · exact urban_fits hu hl
    · exact hl

/-- The vehicle can be made in every scenario, and every number of it and every reading stays within the limits of the table,
whatever numbers are drawn. -/
theorem C83_range_partial {scenario : Bytes} (hs : scenario ∈ scenarioNames) {u u' u'' : F64} (hu : IsUnit u) (hu' : IsUnit u') (hu'' : IsUnit u'') :
    ∃ ss, initialVehicle u u' u'' scenario = .ok ss ∧
      ∀ s ∈ ss, ∀ v ∈ vssSensors, v.path = s.path → v.type = b!"number" → ∀ s', After s s' → InRange v.min v.max s'.value ∧
        ∀ c : Choices, c.Good → ∀ t : Int, 0 ≤ t → t < 2 ^ 53 → ∃ x, (s'.read c t).map (Option.map Prod.snd) = .ok (some x) ∧ InRange v.min v.max x := by
  have hv := vehicle_safe scenario hs
  unfold vehicleSafe at hv
  split at hv
  · rename_i ss0 h0
    obtain ⟨ss, h1, he⟩ := vehicle_wipe _ _ _ u u' u'' h0
    refine ⟨ss, h1, ?_⟩
    intro s hsm v hvm e t s' ha
    have hm : s.wipe ∈ ss0.map SensorData.wipe := by rw [he]; exact List.mem_map_of_mem hsm
    obtain ⟨s0, hs0, hsw⟩ := List.mem_map.1 hm
    have hse := erase_of_wipe hsw
    have k := List.all_eq_true.1 (List.all_eq_true.1 hv s0 hs0) v hvm
    obtain ⟨f1, -, f3, -⟩ := erase_fields hse
    have e' : v.path = s0.path := e.trans f1.symm
    simp only [e', t, ne_eq, not_true_eq_false, decide_false, Bool.false_or, Bool.and_eq_true, decide_eq_true_eq, finite_iff] at k
    obtain ⟨kt, ⟨hlo, hhi⟩, ks⟩ := k
    rw [safe_erase hse] at ks
    have ht : s.type = b!"number" := f3.symm.trans kt
    have hf := vehicle_fits hu hu' hu'' h1 s hsm v hvm e t
    obtain ⟨a1, a2⟩ := after_safe hlo hhi ks ht hf ha
    refine ⟨a2, fun c hc n n0 n1 => ⟨(newNumber c { s' with counter := s'.counter + 1 } n).1, ?_, ?_⟩⟩
    · unfold SensorData.read newValue
      dsimp only
      rw [if_pos ((erase_fields a1).2.2.1.trans ht)]
      rfl
    · exact newNumber_safe hc hlo hhi (by rw [← ks]; exact safe_erase a1) n0 n1 a2
  · cases hv

/-! #### Values that never change -/

/-- A linear value that moves by less than the tolerance of `isEqual` never changes: every reading starts from the same value. -/
theorem C83_stuck {s : SensorData} (ht : s.type = b!"number") (hp : s.pattern = b!"linear") {f : F64} (hv : s.value = .num f)
    (he : isEqual (.num f) (.num (clamp (add f (F64.div (mul (s.param b!"slope") (F64.ofInt s.interval)) (dec 1000 1))) (s.param b!"min") (s.param b!"max"))) = true) :
    ∀ s', After s s' → s'.value = .num f ∧ s'.erase = s.erase := by
  intro s' ha
  induction ha with
  | start => exact ⟨hv, rfl⟩
  | read ha hc h0 h1 hr ih =>
    obtain ⟨i1, i2⟩ := ih
    obtain ⟨e1, e2⟩ := read_erase hr
    refine ⟨?_, e1.trans i2⟩
    obtain ⟨-, -, f3, f4, f5, f6⟩ := erase_fields i2
    have hn := read_number (f3.trans ht) hr
    rename_i sa sb c t v
    have hw : v = .num (clamp (add f (F64.div (mul (s.param b!"slope") (F64.ofInt s.interval)) (dec 1000 1))) (s.param b!"min") (s.param b!"max")) := by
      rw [hn]
      simp [newNumber, i1, f5, hp, SensorData.param, f4, f6]
    unfold SensorData.read newValue at hr
    dsimp only at hr
    rw [if_pos (f3.trans ht)] at hr
    simp only [Res.map, Option.map_some, Res.ok.injEq, Option.some.injEq, Prod.mk.injEq] at hr
    obtain ⟨r1, r2⟩ := hr
    rw [r2, i1, hw, if_pos he] at r1
    subst r1
    split <;> first | rfl | exact i1

/-- The sensor of the vehicle for some numbers drawn. -/
def sampleSensor (scenario path : Bytes) : Option SensorData :=
  match initialVehicle (dec 0 1) (dec 0 1) (dec 0 1) scenario with
  | .ok ss => ss.find? fun s => decide (s.path = path)
  | _ => none

/-- The test of some properties of that sensor, apart from its value. -/
theorem sample_transfer {scenario path : Bytes} (hp : path ∉ drawnPaths) (P : SensorData → Bool) {f : F64}
    (h : (match sampleSensor scenario path with
      | some s => P s.erase && match s.value with | .num g => decide (g = f) | _ => false
      | none => false) = true) (u u' u'' : F64) :
    ∃ ss, initialVehicle u u' u'' scenario = .ok ss ∧ ∃ s ∈ ss, s.path = path ∧ P s.erase = true ∧ s.value = .num f := by
  split at h
  · rename_i s0 hs0
    rw [Bool.and_eq_true] at h
    obtain ⟨h1, h2⟩ := h
    unfold sampleSensor at hs0
    split at hs0
    · rename_i ss0 hi
      obtain ⟨ss, g1, g2⟩ := vehicle_wipe _ _ _ u u' u'' hi
      have hm : s0.wipe ∈ ss.map SensorData.wipe := by rw [← g2]; exact List.mem_map_of_mem (List.mem_of_find?_eq_some hs0)
      obtain ⟨s, hs, he⟩ := List.mem_map.1 hm
      have e0 : s0.path = path := by simpa using List.find?_some hs0
      obtain ⟨w1, -, w3, -⟩ := wipe_fields he
      refine ⟨ss, g1, s, hs, w1.trans e0, by rw [erase_of_wipe he]; exact h1, ?_⟩
      rw [w3 (by rw [w1, e0]; exact hp)]
      split at h2
      · rename_i g hg
        rw [hg, of_decide_eq_true h2]
      · cases h2
    · cases hs0
  · cases h

/-- A linear sensor that does not move from the value. -/
def stuckAt (slope f : F64) (s : SensorData) : Bool :=
  decide (s.type = b!"number") && decide (s.pattern = b!"linear") && decide (s.param b!"slope" = slope) &&
    isEqual (.num f) (.num (clamp (add f (F64.div (mul (s.param b!"slope") (F64.ofInt s.interval)) (dec 1000 1))) (s.param b!"min") (s.param b!"max")))

/-- On the highway the longitude is to grow by 0.1 every second, but every reading is taken for the value before and the
value never changes. -/
theorem C83_longitude_fails (u u' u'' : F64) : ∃ ss, initialVehicle u u' u'' b!"highway_cruising" = .ok ss ∧
    ∃ s ∈ ss, s.path = b!"Vehicle.CurrentLocation.Longitude" ∧ s.pattern = b!"linear" ∧ s.param b!"slope" = dec 1 10 ∧
      s.value = .num (dec 1269971 10000) ∧ ∀ s', After s s' → s'.value = s.value := by
  obtain ⟨ss, h1, s, h2, h3, h4, h5⟩ := sample_transfer (scenario := b!"highway_cruising") (path := b!"Vehicle.CurrentLocation.Longitude")
    (by decide) (stuckAt (dec 1 10) (dec 1269971 10000)) (f := dec 1269971 10000) (by decide +kernel) u u' u''
  simp only [stuckAt, Bool.and_eq_true, decide_eq_true_eq] at h4
  obtain ⟨⟨⟨a, b⟩, c⟩, d⟩ := h4
  exact ⟨ss, h1, s, h2, h3, b, c, h5, fun s' ha => by rw [h5]; exact (C83_stuck (s := s) a b h5 d s' ha).1⟩

/-- While charging the temperature of the battery is to grow by 0.001 every second, but it never changes. -/
theorem C83_temperature_fails (u u' u'' : F64) : ∃ ss, initialVehicle u u' u'' b!"battery_charging" = .ok ss ∧
    ∃ s ∈ ss, s.path = b!"Vehicle.Powertrain.TractionBattery.Temperature" ∧ s.pattern = b!"linear" ∧ s.param b!"slope" = dec 1 1000 ∧
      s.value = .num (dec 25 1) ∧ ∀ s', After s s' → s'.value = s.value := by
  obtain ⟨ss, h1, s, h2, h3, h4, h5⟩ := sample_transfer (scenario := b!"battery_charging") (path := b!"Vehicle.Powertrain.TractionBattery.Temperature")
    (by decide) (stuckAt (dec 1 1000) (dec 25 1)) (f := dec 25 1) (by decide +kernel) u u' u''
  simp only [stuckAt, Bool.and_eq_true, decide_eq_true_eq] at h4
  obtain ⟨⟨⟨a, b⟩, c⟩, d⟩ := h4
  exact ⟨ss, h1, s, h2, h3, b, c, h5, fun s' ha => by rw [h5]; exact (C83_stuck (s := s) a b h5 d s' ha).1⟩

/-- The same pattern moves other values: the latitude does change. -/
example : ∃ c : Choices, ((⟨b!"Vehicle.CurrentLocation.Latitude", .high, .num (dec 375503 10000), b!"number", 50, b!"linear",
    [(b!"slope", dec 1 10), (b!"min", dec (-90) 1), (b!"max", dec 90 1)], 0⟩ : SensorData).read c 0).map (Option.map fun r => match r.1.value with | .num f => f | _ => .nan) = .ok (some (dec 375553 10000)) :=
  ⟨⟨fun _ => dec 0 1, [], fun _ => dec 0 1⟩, by decide +kernel⟩

theorem unknown_number {c : Choices} {s : SensorData} {t : Int} {f : F64} (hv : s.value = .num f) (hp : s.pattern = b!"toggle") :
    newNumber c s t = (.num f, false) := by simp [newNumber, hv, hp]

/-- A number with the pattern of booleans never changes. -/
theorem C83_toggled_number {s : SensorData} (ht : s.type = b!"number") (hp : s.pattern = b!"toggle") {f : F64} (hv : s.value = .num f) :
    ∀ s', After s s' → s'.value = .num f ∧ s'.erase = s.erase := by
  intro s' ha
  induction ha with
  | start => exact ⟨hv, rfl⟩
  | read ha hc h0 h1 hr ih =>
    obtain ⟨i1, i2⟩ := ih
    obtain ⟨e1, e2⟩ := read_erase hr
    refine ⟨?_, e1.trans i2⟩
    obtain ⟨-, -, f3, -, f5, -⟩ := erase_fields i2
    have hn := read_number (f3.trans ht) hr
    rename_i sa sb c t v
    rw [unknown_number (s := { sa with counter := sa.counter + 1 }) i1 (f5.trans hp)] at hn
    rcases e2 with e2 | ⟨e2, -⟩
    · rw [e2, hn]
    · rw [e2, i1]

/-- On the highway the brake is to be used with a probability of 0.01 at every reading, but the value never changes. -/
theorem C83_brake_fails (u u' u'' : F64) : ∃ ss, initialVehicle u u' u'' b!"highway_cruising" = .ok ss ∧
    ∃ s ∈ ss, s.path = b!"Vehicle.Chassis.Brake.PedalPosition" ∧ s.pattern = b!"toggle" ∧ s.param b!"toggle_probability" = dec 1 100 ∧
      s.value = .num (dec 0 1) ∧ ∀ s', After s s' → s'.value = s.value := by
  obtain ⟨ss, h1, s, h2, h3, h4, h5⟩ := sample_transfer (scenario := b!"highway_cruising") (path := b!"Vehicle.Chassis.Brake.PedalPosition")
    (by decide) (fun s => decide (s.type = b!"number") && decide (s.pattern = b!"toggle") && decide (s.param b!"toggle_probability" = dec 1 100))
    (f := dec 0 1) (by decide +kernel) u u' u''
  simp only [Bool.and_eq_true, decide_eq_true_eq] at h4
  obtain ⟨⟨a, b⟩, c⟩ := h4
  exact ⟨ss, h1, s, h2, h3, b, c, h5, fun s' ha => by rw [h5]; exact (C83_toggled_number (s := s) a b h5 s' ha).1⟩

/-! #### Strings -/

/-- A string sensor with random values but without their number: the reading panics. -/
theorem C83_choices_fails : ∃ (c : Choices) (s : SensorData), s.type = b!"string" ∧ s.pattern = b!"random_selection" ∧ (∃ x, s.value = .str x) ∧
    ∀ t, s.read c t = .panic := by
  refine ⟨⟨fun _ => dec 0 1, [0], fun _ => dec 0 1⟩, ⟨b!"Vehicle.Mode", .low, .str b!"value_0", b!"string", 1000, b!"random_selection", [], 0⟩,
    rfl, rfl, ⟨_, rfl⟩, fun t => ?_⟩
  have hs : (match newString ⟨fun _ => dec 0 1, [0], fun _ => dec 0 1⟩ ⟨b!"Vehicle.Mode", .low, .str b!"value_0", b!"string", 1000, b!"random_selection", [], 0 + 1⟩ with
    | .panic => true | _ => false) = true := by decide +kernel
  unfold SensorData.read newValue
  dsimp only
  rw [if_neg (by decide), if_neg (by decide), if_pos rfl]
  split at hs
  · rename_i h; rw [h]; rfl
  · cases hs

theorem pickOther_same {pre : Bytes} : ∀ {l : List Nat}, (∀ i ∈ l, i = 0) → pickOther pre (pre ++ natDigits 0) l = none
  | [], _ => rfl
  | i :: is, h => by
    have : i = 0 := h i (List.mem_cons_self ..)
    subst this
    rw [pickOther, if_neg (by simp)]
    exact pickOther_same fun j hj => h j (List.mem_cons_of_mem _ hj)

/-- A string sensor with one value only, the value it has: whatever is drawn, no other value is found and the loop does not end. -/
theorem C83_loop_fails : ∃ s : SensorData, s.type = b!"string" ∧ s.pattern = b!"random_selection" ∧ s.param b!"num_choices" = dec 1 1 ∧
    ∀ c : Choices, (c.u 0).flt (dec 5 100) = true → (∀ i ∈ c.n, i < 1) → ∀ t, s.read c t = .ok none := by
  refine ⟨⟨b!"Vehicle.Mode", .low, .str b!"value_0", b!"string", 1000, b!"random_selection", [(b!"num_choices", dec 1 1)], 0⟩,
    rfl, rfl, rfl, fun c hu hn t => ?_⟩
  have hp : pickOther b!"value_" b!"value_0" c.n = none := pickOther_same (pre := b!"value_") fun i hi => by have := hn i hi; omega
  have h0 : containsBytes b!"Vehicle.Mode" b!"Transmission" = false ∧ containsBytes b!"Vehicle.Mode" b!"HVAC" = false ∧
    containsBytes b!"Vehicle.Mode" b!"ChargingStatus" = false ∧ containsBytes b!"Vehicle.Mode" b!"ChargingMode" = false := by decide +kernel
  have hz : F64.feq (dec 0 1) (dec 0 1) = true := by decide +kernel
  have hm : mget [(b!"num_choices", dec 1 1)] b!"change_probability" = none := by decide +kernel
  have hn1 : ¬ (dec 1 1).toInt64 ≤ 0 := by decide +kernel
  have hs : newString c ⟨b!"Vehicle.Mode", .low, .str b!"value_0", b!"string", 1000, b!"random_selection", [(b!"num_choices", dec 1 1)], 0 + 1⟩ = .ok none := by
    unfold newString
    dsimp only
    rw [if_pos rfl]
    have e : SensorData.param ⟨b!"Vehicle.Mode", .low, .str b!"value_0", b!"string", 1000, b!"random_selection", [(b!"num_choices", dec 1 1)], 0 + 1⟩ b!"change_probability" = dec 0 1 := by decide +kernel
    have e' : SensorData.param ⟨b!"Vehicle.Mode", .low, .str b!"value_0", b!"string", 1000, b!"random_selection", [(b!"num_choices", dec 1 1)], 0 + 1⟩ b!"num_choices" = dec 1 1 := by decide +kernel
    rw [e, e', if_pos hz, if_pos hu, h0.1, h0.2.1, h0.2.2.1, h0.2.2.2]
    simp only [Bool.false_eq_true, if_false]
    rw [if_neg hn1, hp]
    rfl
  unfold SensorData.read newValue
  dsimp only
  rw [if_neg (by decide), if_neg (by decide), if_pos rfl, hs]
  rfl

/-! ### Examples -/

/-- A quarter is drawn every time, and the sine is a half everywhere. -/
def exChoices : Choices := ⟨fun _ => dec 1 4, [2, 3], fun _ => dec 1 2⟩

theorem exUnit : IsUnit (dec 1 4) := ⟨by decide +kernel, by decide +kernel⟩

theorem exGood : exChoices.Good := by
  have h : fle (dec (-1) 1) (dec 1 2) = true ∧ fle (dec 1 2) (dec 1 1) = true := by decide +kernel
  exact ⟨fun _ => exUnit, fun _ _ => h⟩

def exNoise : SensorData := ⟨b!"a", .high, .num (dec 7 1), b!"number", 20, b!"constant_with_noise", [(b!"baseline", dec 100 1), (b!"noise", dec 5 10)], 0⟩
def exSine : SensorData := ⟨b!"a", .high, .num (dec 7 1), b!"number", 20, b!"sinusoidal",
  [(b!"amplitude", dec 15 1), (b!"period", dec 5000 1), (b!"baseline", dec 3 1)], 0⟩
def exWalk : SensorData := ⟨b!"a", .high, .num (dec 7 1), b!"number", 20, b!"random_walk",
  [(b!"step_size", dec 2 1), (b!"min", dec 0 1), (b!"max", dec 70 1)], 0⟩
def exStep : SensorData := ⟨b!"a", .high, .num (dec 7 1), b!"number", 20, b!"stepped",
  [(b!"step_size", dec 2 1), (b!"step_interval", dec 100 1), (b!"min", dec 0 1), (b!"max", dec 70 1)], 5⟩
def exBool : SensorData := ⟨b!"a", .high, .bool false, b!"boolean", 20, b!"toggle", [(b!"toggle_probability", dec 1 2)], 0⟩

/-- The number of a value. -/
def numOf : Js → F64
  | .num f => f
  | _ => .nan

example : InRange (dec 995 10) (dec 1005 10) (newNumber exChoices exNoise 0).1 :=
  (C83_noise exGood exNoise 0 rfl rfl (finite_iff.1 (by decide +kernel)) (finite_iff.1 (by decide +kernel)) (by decide +kernel)).mono (by decide +kernel) (by decide +kernel)
example : numOf (newNumber exChoices exNoise 0).1 = dec 9975 100 := by decide +kernel
example : InRange (dec (-12) 1) (dec 18 1) (newNumber exChoices exSine 1234).1 :=
  (C83_sine exGood exSine 1234 rfl rfl (finite_iff.1 (by decide +kernel)) (finite_iff.1 (by decide +kernel)) (by decide +kernel)
    (angle_fin (by decide) (by decide) (by decide +kernel) (finite_iff.1 (by decide +kernel)) (by decide +kernel))).mono (by decide +kernel) (by decide +kernel)
example : numOf (newNumber exChoices exSine 1234).1 = dec 105 10 := by decide +kernel
example : InRange (dec 0 1) (dec 70 1) (newNumber exChoices exWalk 0).1 :=
  C83_walk exGood exWalk 0 rfl (finite_iff.1 (by decide +kernel)) rfl (by decide +kernel) (finite_iff.1 (by decide +kernel))
example : numOf (newNumber exChoices exWalk 0).1 = dec 6 1 := by decide +kernel
example : InRange (dec 0 1) (dec 70 1) (newNumber exChoices exStep 0).1 ∨ (newNumber exChoices exStep 0).1 = .num (dec 7 1) :=
  C83_stepped exChoices exStep 0 rfl (finite_iff.1 (by decide +kernel)) rfl (by decide +kernel) (finite_iff.1 (by decide +kernel))
example : numOf (newNumber exChoices exStep 0).1 = dec 5 1 ∧ (newNumber exChoices exStep 0).2 = true := by decide +kernel
example : newBool exChoices exBool = .bool true := by rw [C83_toggle exChoices exBool rfl rfl, if_pos (by decide +kernel)]; rfl
example : ∃ ss, initialVehicle (dec 1 4) (dec 1 4) (dec 1 4) b!"mixed_scenario" = .ok ss ∧
    ∀ s ∈ ss, ∀ v ∈ vssSensors, v.path = s.path → v.type = b!"number" → InRange v.min v.max s.value := by
  obtain ⟨ss, h, k⟩ := C83_range_partial (scenario := b!"mixed_scenario") (by decide) exUnit exUnit exUnit
  exact ⟨ss, h, fun s hs v hv e t => (k s hs v hv e t s .start).1⟩
/-- The vehicle has all sensors of the table; the speed drawn is 45. -/
example : (match initialVehicle (dec 1 4) (dec 1 4) (dec 1 4) b!"urban_traffic" with
    | .ok ss => decide (ss.map (·.path) = vssSensors.map (·.path)) &&
      (ss.find? fun s => decide (s.path = b!"Vehicle.Speed")).any fun s => decide (numOf s.value = dec 45 1)
    | _ => false) = true := by decide +kernel
/-- A string is changed. -/
example : (match (⟨b!"Vehicle.Transmission.Mode", .low, .str b!"gear_2", b!"string", 1000, b!"random_selection", [(b!"num_choices", dec 5 1),
    (b!"change_probability", dec 1 2)], 0⟩ : SensorData).read exChoices 0 with
    | .ok (some (_, .str x)) => decide (x = b!"gear_3")
    | _ => false) = true := by decide +kernel

end Verif
