import Verif.ExpValue
import Verif.FloatBound
import Verif.PropsExp
/-
C82: what the simulation takes for equal values.
-/
namespace Verif
open F64

/-- The number nearest to 0.005, in units of the smallest positive number: about 0.0050000000000000001. -/
def closeUnits : Int := 5764607523034235 * 2 ^ 1014

/-- `c` and `j` are the same, or finite numbers that differ by less than 0.0050000000000000002. -/
def CloseValues (c j : Js) : Prop :=
  c = j ∨ ∃ a b, c = .num a ∧ j = .num b ∧ a.IsFin ∧ b.IsFin ∧ ((a.units - b.units).natAbs : Int) < closeUnits

theorem tolerance_eq : dec 5 1000 = .fin false 5764607523034235 (-60) (by decide) := by decide +kernel

theorem tolerance_fin : (dec 5 1000).IsFin := ⟨_, _, _, _, tolerance_eq⟩

theorem tolerance_units : (dec 5 1000).units = closeUnits := by rw [tolerance_eq]; decide +kernel

theorem abs_ne_nan {f : F64} (h : F64.abs f ≠ .nan) : f ≠ .nan := by rintro rfl; exact h rfl

theorem abs_key {f : F64} (h : f ≠ .nan) : (F64.abs f).key = (f.key.natAbs : Int) := by
  cases f with
  | nan => exact absurd rfl h
  | inf s =>
    simp only [F64.abs, key]
    have := Nat.two_pow_pos 2098
    generalize (2 : Nat) ^ 2098 = K at *
    cases s <;> simp
  | fin s m e hc =>
    simp only [F64.abs, key, units_eq]
    cases s <;> simp

theorem abs_not_nan {f : F64} (h : f ≠ .nan) : F64.abs f ≠ .nan := by
  cases f with
  | nan => exact absurd rfl h
  | _ => intro h; cases h

theorem sub_fin_of {a b : F64} (h : flt (F64.abs (F64.sub a b)) (dec 5 1000) = true) : a.IsFin ∧ b.IsFin := by
  cases a with
  | nan => simp [F64.sub, F64.add, F64.abs, flt] at h
  | inf s =>
    cases b with
    | nan => simp [F64.sub, F64.add, F64.neg, F64.abs, flt] at h
    | inf t =>
      simp only [F64.sub, F64.neg, F64.add] at h
      split at h
      · rw [tolerance_eq] at h; simp [F64.abs, flt] at h
      · simp [F64.abs, flt] at h
    | fin t m e hc => rw [tolerance_eq] at h; simp [F64.sub, F64.add, F64.neg, F64.abs, flt] at h
  | fin s m e hc =>
    cases b with
    | nan => simp [F64.sub, F64.add, F64.neg, F64.abs, flt] at h
    | inf t => rw [tolerance_eq] at h; simp [F64.sub, F64.add, F64.neg, F64.abs, flt] at h
    | fin t m' e' hc' => exact ⟨⟨s, m, e, hc, rfl⟩, ⟨t, m', e', hc', rfl⟩⟩

theorem sub_key {a b : F64} (ha : a.IsFin) (hb : b.IsFin) :
    F64.sub a b = roundZ (a.signBit && (F64.neg b).signBit) (a.units - b.units) (2 ^ 1074) := by
  rw [F64.sub, add_fin ha (neg_fin hb), neg_units hb]
  rfl

theorem fin_units_neg {f g : F64} (h : f.IsFin) (hg : g = F64.neg f) : g.IsFin ∧ g.units = -f.units := by
  subst hg
  exact ⟨neg_fin h, neg_units h⟩

/-- Numbers taken for equal are finite and differ by less than the number nearest to 0.005. -/
theorem C82_close {a b : F64} (h : isEqual (.num a) (.num b) = true) :
    a.IsFin ∧ b.IsFin ∧ ((a.units - b.units).natAbs : Int) < closeUnits := by
  have h' : flt (F64.abs (F64.sub a b)) (dec 5 1000) = true := h
  obtain ⟨ha, hb⟩ := sub_fin_of h'
  refine ⟨ha, hb, ?_⟩
  have hn : F64.sub a b ≠ .nan := by rw [sub_key ha hb]; exact roundZ_ne_nan _ _ _
  rw [flt_iff (abs_not_nan hn) tolerance_fin.ne_nan, abs_key hn, tolerance_fin.key_eq] at h'
  rw [← tolerance_units]
  refine Int.not_le.1 fun hge => ?_
  have hT := tolerance_fin
  have hP : (0 : Int) ≤ 2 ^ 1074 := Int.pow_nonneg (by decide)
  rw [sub_key ha hb] at h'
  by_cases hz : 0 ≤ a.units - b.units
  · have : (dec 5 1000).units ≤ a.units - b.units := by omega
    have := le_roundZ (z := a.units - b.units) (q := 2 ^ 1074) (Nat.two_pow_pos _) hT
      (by rw [Int.natCast_pow]; exact Int.mul_le_mul_of_nonneg_right this hP) (a.signBit && (F64.neg b).signBit)
    generalize (dec 5 1000).units = T at *
    omega
  · obtain ⟨hf, hu⟩ := fin_units_neg hT rfl
    have : a.units - b.units ≤ (F64.neg (dec 5 1000)).units := by rw [hu]; omega
    have := roundZ_le (z := a.units - b.units) (q := 2 ^ 1074) (Nat.two_pow_pos _) hf
      (by rw [Int.natCast_pow]; exact Int.mul_le_mul_of_nonneg_right this hP) (a.signBit && (F64.neg b).signBit)
    rw [hu] at this
    generalize (dec 5 1000).units = T at *
    omega

/-- Finite numbers whose difference is at most the next smaller number are taken for equal. -/
theorem C82_near {a b : F64} (ha : a.IsFin) (hb : b.IsFin)
    (h : ((a.units - b.units).natAbs : Int) ≤ 5764607523034234 * 2 ^ 1014) : isEqual (.num a) (.num b) = true := by
  show flt (F64.abs (F64.sub a b)) (dec 5 1000) = true
  have hn : F64.sub a b ≠ .nan := by rw [sub_key ha hb]; exact roundZ_ne_nan _ _ _
  rw [flt_iff (abs_not_nan hn) tolerance_fin.ne_nan, abs_key hn, tolerance_fin.key_eq, tolerance_units]
  have hT : (F64.fin false 5764607523034234 (-60) (by decide)).IsFin := ⟨_, _, _, _, rfl⟩
  have hU : (F64.fin false 5764607523034234 (-60) (by decide)).units = 5764607523034234 * 2 ^ 1014 := by decide +kernel
  have hlt : (5764607523034234 * 2 ^ 1014 : Int) < closeUnits := by decide +kernel
  rw [← hU] at h hlt
  obtain ⟨hf, hu⟩ := fin_units_neg hT rfl
  have hP : (0 : Int) ≤ 2 ^ 1074 := Int.pow_nonneg (by decide)
  rw [sub_key ha hb]
  have h1 := roundZ_le (z := a.units - b.units) (q := 2 ^ 1074) (Nat.two_pow_pos _) hT
    (by rw [Int.natCast_pow]; exact Int.mul_le_mul_of_nonneg_right (by omega) hP) (a.signBit && (F64.neg b).signBit)
  have h2 := le_roundZ (z := a.units - b.units) (q := 2 ^ 1074) (Nat.two_pow_pos _) hf
    (by rw [Int.natCast_pow]; exact Int.mul_le_mul_of_nonneg_right (by rw [hu]; omega) hP) (a.signBit && (F64.neg b).signBit)
  rw [hu] at h2
  generalize (F64.fin false 5764607523034234 (-60) (by decide)).units = T at *
  generalize closeUnits = C at *
  omega

/-- Values that are taken for equal are of the same kind; all but numbers are the same. -/
theorem C82_kinds {c j : Js} (h : isEqual c j = true) : CloseValues c j := by
  cases c <;> cases j <;> simp only [isEqual, Bool.false_eq_true, beq_iff_eq] at h
  · exact .inl rfl
  · exact .inl (by rw [h])
  · exact .inr ⟨_, _, rfl, rfl, C82_close h⟩
  · exact .inl (by rw [h])
  · exact .inl (by rw [h])

/-- Values of sensors other than numbers are taken for equal if they are the same. -/
theorem C82_same (b : Bool) (s : Bytes) (n : Int) : isEqual (.bool b) (.bool b) = true ∧ isEqual (.str s) (.str s) = true ∧
    isEqual (.int n) (.int n) = true ∧ isEqual .null .null = true := by simp [isEqual]

/-- A finite number is taken for equal to itself, and the order of the two values does not matter. -/
theorem C82_refl {a : F64} (h : a.IsFin) : isEqual (.num a) (.num a) = true :=
  C82_near h h (by rw [Int.sub_self]; decide +kernel)

theorem roundZ_neg_key (s s' : Bool) (z : Int) {q : Nat} (hq : 0 < q) : (roundZ s z q).key = -(roundZ s' (-z) q).key := by
  rw [roundZ_key _ _ hq, roundZ_key _ _ hq, Int.natAbs_neg]
  have h0 : z = 0 → rounded z.natAbs q = 0 := by
    rintro rfl
    unfold rounded divRound
    simp
  generalize rounded z.natAbs q = r at *
  generalize (2 : Nat) ^ 2098 = K at *
  by_cases hz : z < 0
  · rw [if_pos hz, if_neg (by omega)]
  · rw [if_neg hz]
    by_cases h : z = 0
    · rw [h0 h, if_neg (by omega)]; simp
    · rw [if_pos (by omega)]; omega

theorem C82_symm (c j : Js) : isEqual c j = isEqual j c := by
  have hb : ∀ {a b : F64}, isEqual (.num a) (.num b) = true → isEqual (.num b) (.num a) = true := by
    intro a b h
    obtain ⟨ha, hb, -⟩ := C82_close h
    have h' : flt (F64.abs (F64.sub a b)) (dec 5 1000) = true := h
    show flt (F64.abs (F64.sub b a)) (dec 5 1000) = true
    have hn : F64.sub a b ≠ .nan := by rw [sub_key ha hb]; exact roundZ_ne_nan _ _ _
    have hn' : F64.sub b a ≠ .nan := by rw [sub_key hb ha]; exact roundZ_ne_nan _ _ _
    rw [flt_iff (abs_not_nan hn) tolerance_fin.ne_nan, abs_key hn] at h'
    rw [flt_iff (abs_not_nan hn') tolerance_fin.ne_nan, abs_key hn']
    have : (F64.sub b a).key = -(F64.sub a b).key := by
      rw [sub_key ha hb, sub_key hb ha, roundZ_neg_key _ (a.signBit && (F64.neg b).signBit) _ (Nat.two_pow_pos _)]
      rw [Int.neg_sub]
    rw [this, Int.natAbs_neg]
    exact h'
  cases c <;> cases j <;> simp only [isEqual]
  · exact Bool.beq_comm
  · rename_i a b
    rw [Bool.eq_iff_iff]
    exact ⟨hb, hb⟩
  · exact Bool.beq_comm
  · exact Bool.beq_comm

/-- With the comparison of the code the two documents of the simulation never differ by more than that. -/
theorem C82_documents (s : Sim) (hs : s.Start) (rs : List Reading)
    (hr : ∀ r ∈ rs, r.path ∈ mkeys s.sensors) (p : Bytes) (v₀ : Js) (hp : mget s.sensors p = some v₀) :
    ∃ c j, valueAt (s.run isEqual rs).tson p = some c ∧ valueAt (s.run isEqual rs).json p = some j ∧ CloseValues c j := by
  obtain ⟨c, j, -, h1, h2, -, h3⟩ := C60_documents isEqual s hs rs hr p v₀ hp
  exact ⟨c, j, h1, h2, h3.elim .inl C82_kinds⟩

/-- NaN and the infinities are not taken for equal to themselves: every reading of them counts as a change. -/
theorem C82_nan_fails : isEqual (.num .nan) (.num .nan) = false ∧ ∀ s, isEqual (.num (.inf s)) (.num (.inf s)) = false := by
  refine ⟨rfl, fun s => ?_⟩
  cases s <;> rfl

/-- The comparison is not transitive. -/
theorem C82_trans_fails : isEqual (.num (dec 0 1)) (.num (dec 4 1000)) = true ∧ isEqual (.num (dec 4 1000)) (.num (dec 8 1000)) = true ∧
    isEqual (.num (dec 0 1)) (.num (dec 8 1000)) = false := by decide +kernel

/-- Whether a step of 0.005 counts as a change depends on the rounding of the numbers. -/
theorem C82_boundary_fails : isEqual (.num (dec 375503 10000)) (.num (dec 375553 10000)) = false ∧
    isEqual (.num (dec 1269971 10000)) (.num (dec 1270021 10000)) = true := by decide +kernel

/-! ### Examples -/

example : isEqual (.num (dec 25 1)) (.num (dec 25004 1000)) = true ∧ isEqual (.num (dec 25 1)) (.num (dec 25006 1000)) = false := by decide +kernel

example : ((dec 25 1).units - (dec 25004 1000).units).natAbs < (closeUnits.natAbs) := by decide +kernel

example : CloseValues (.num (dec 25 1)) (.num (dec 25004 1000)) := C82_kinds (by decide +kernel)

example : isEqual (.num (dec 1 1)) (.num (dec 1001 1000)) = true :=
  C82_near ⟨_, _, _, _, rfl⟩ ⟨_, _, _, _, rfl⟩ (by decide +kernel)

end Verif
