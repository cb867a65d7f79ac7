import Verif.FloatArith
/-
Bounds for sums and products of floating-point numbers.
-/
namespace Verif
namespace F64

/-- A finite number. -/
def IsFin (f : F64) : Prop := ∃ s m e h, f = .fin s m e h

theorem IsFin.ne_nan {f : F64} (h : f.IsFin) : f ≠ .nan := by
  obtain ⟨s, m, e, hc, rfl⟩ := h
  intro h; cases h

theorem IsFin.key_eq {f : F64} (h : f.IsFin) : f.key = f.units := by
  obtain ⟨s, m, e, hc, rfl⟩ := h
  rfl

theorem ulps_zero {m : Nat} {e : Int} (h : ulps m e = 0) : m = 0 := by
  unfold ulps at h
  rcases Nat.mul_eq_zero.1 h with h | h
  · exact h
  · have := Nat.two_pow_pos (e + 1074).toNat
    omega

theorem feq_iff {a b : F64} (ha : a ≠ .nan) (hb : b ≠ .nan) : feq a b = true ↔ a.key = b.key := by
  have hK : (0 : Int) < ((2 ^ 2098 : Nat) : Int) := Int.natCast_pos.2 (Nat.two_pow_pos 2098)
  cases a with
  | nan => exact absurd rfl ha
  | inf s =>
    cases b with
    | nan => exact absurd rfl hb
    | inf t =>
      simp only [feq, key]
      generalize ((2 ^ 2098 : Nat) : Int) = K at *
      cases s <;> cases t <;> simp <;> omega
    | fin t m e h =>
      have := units_lt t m e h
      simp only [feq, key]
      generalize ((2 ^ 2098 : Nat) : Int) = K at *
      cases s <;> simp <;> omega
  | fin s m e h =>
    cases b with
    | nan => exact absurd rfl hb
    | inf t =>
      have := units_lt s m e h
      simp only [feq, key]
      generalize ((2 ^ 2098 : Nat) : Int) = K at *
      cases t <;> simp <;> omega
    | fin t m' e' h' =>
      simp only [feq, key, units_eq, Bool.or_eq_true, Bool.and_eq_true, beq_iff_eq]
      constructor
      · rintro (⟨rfl, rfl⟩ | ⟨⟨rfl, rfl⟩, rfl⟩)
        · simp [ulps]
        · rfl
      · intro hu
        by_cases h0 : ulps m e = 0
        · have h1 : ulps m' e' = 0 := by
            rw [h0] at hu
            revert hu
            cases s <;> cases t <;> simp <;> omega
          exact .inl ⟨ulps_zero h0, ulps_zero h1⟩
        · right
          have hst : s = t ∧ ulps m e = ulps m' e' := by
            revert hu
            cases s <;> cases t <;> simp <;> omega
          obtain ⟨rfl, he⟩ := hst
          obtain ⟨rfl, rfl⟩ := ulps_inj h h' he
          exact ⟨⟨rfl, rfl⟩, rfl⟩

theorem fle_iff {a b : F64} (ha : a ≠ .nan) (hb : b ≠ .nan) : fle a b = true ↔ a.key ≤ b.key := by
  rw [fle, Bool.or_eq_true, flt_iff ha hb, feq_iff ha hb]
  omega

theorem fle_ne_nan {a b : F64} (h : fle a b = true) : a ≠ .nan ∧ b ≠ .nan := by
  constructor <;> rintro rfl
  · simp [fle, flt, feq] at h
  · cases a <;> simp [fle, flt, feq] at h

theorem flt_ne_nan {a b : F64} (h : flt a b = true) : a ≠ .nan ∧ b ≠ .nan := by
  constructor <;> rintro rfl
  · simp [flt] at h
  · cases a <;> simp [flt] at h

theorem fle_trans {a b c : F64} (h : fle a b = true) (h' : fle b c = true) : fle a c = true := by
  obtain ⟨ha, hb⟩ := fle_ne_nan h
  obtain ⟨-, hc⟩ := fle_ne_nan h'
  rw [fle_iff ha hb] at h
  rw [fle_iff hb hc] at h'
  rw [fle_iff ha hc]
  omega

/-- What lies between finite numbers is finite. -/
theorem fin_between {a b f : F64} (ha : a.IsFin) (hb : b.IsFin) (hf : f ≠ .nan) (h1 : a.key ≤ f.key) (h2 : f.key ≤ b.key) : f.IsFin := by
  cases f with
  | nan => exact absurd rfl hf
  | fin s m e h => exact ⟨s, m, e, h, rfl⟩
  | inf s =>
    obtain ⟨s1, m1, e1, c1, rfl⟩ := ha
    obtain ⟨s2, m2, e2, c2, rfl⟩ := hb
    have u1 := units_lt s1 m1 e1 c1
    have u2 := units_lt s2 m2 e2 c2
    simp only [key] at h1 h2
    generalize ((2 ^ 2098 : Nat) : Int) = K at *
    cases s <;> simp at h1 h2 <;> omega

theorem neg_fin {a : F64} (h : a.IsFin) : (neg a).IsFin := by
  obtain ⟨s, m, e, hc, rfl⟩ := h
  exact ⟨!s, m, e, hc, rfl⟩

theorem neg_units {a : F64} (h : a.IsFin) : (neg a).units = -a.units := by
  obtain ⟨s, m, e, hc, rfl⟩ := h
  simp only [neg, units_eq]
  cases s <;> simp

theorem add_fin {a b : F64} (ha : a.IsFin) (hb : b.IsFin) :
    add a b = roundZ (a.signBit && b.signBit) (a.units + b.units) (2 ^ 1074) := by
  obtain ⟨s1, m1, e1, c1, rfl⟩ := ha
  obtain ⟨s2, m2, e2, c2, rfl⟩ := hb
  rfl

theorem mul_fin {a b : F64} (ha : a.IsFin) (hb : b.IsFin) :
    mul a b = roundZ (a.signBit != b.signBit) (a.units * b.units) (2 ^ 2148) := by
  obtain ⟨s1, m1, e1, c1, rfl⟩ := ha
  obtain ⟨s2, m2, e2, c2, rfl⟩ := hb
  rfl

theorem add_ne_nan {a b : F64} (ha : a.IsFin) (hb : b ≠ .nan) : add a b ≠ .nan := by
  obtain ⟨s1, m1, e1, c1, rfl⟩ := ha
  cases b with
  | nan => exact absurd rfl hb
  | inf s => intro h; cases h
  | fin s2 m2 e2 c2 => exact roundZ_ne_nan _ _ _

theorem mul_ne_nan {a b : F64} (ha : a.IsFin) (hb : b.IsFin) : mul a b ≠ .nan := by
  rw [mul_fin ha hb]
  exact roundZ_ne_nan _ _ _

/-- Sums keep the order. -/
theorem add_mono {a b a' b' : F64} (ha : a.IsFin) (hb : b.IsFin) (ha' : a'.IsFin) (hb' : b'.IsFin)
    (h : a.units ≤ a'.units) (h' : b.units ≤ b'.units) : (add a b).key ≤ (add a' b').key := by
  rw [add_fin ha hb, add_fin ha' hb']
  exact roundZ_mono (Nat.two_pow_pos _) (Nat.two_pow_pos _) (Int.mul_le_mul_of_nonneg_right (by omega) (Int.natCast_nonneg _)) _ _

theorem pow_split : ((2 : Int) ^ 2148) = 2 ^ 1074 * 2 ^ 1074 := by rw [← Int.pow_add]

/-- A product with a number of size at most 1 is not larger than the other factor. -/
theorem mul_unit {x n : F64} (hx : x.IsFin) (hn : n.IsFin) (h1 : -(2 ^ 1074) ≤ x.units) (h2 : x.units ≤ 2 ^ 1074) (h0 : 0 ≤ n.units) :
    (neg n).key ≤ (mul x n).key ∧ (mul x n).key ≤ n.key := by
  rw [mul_fin hx hn, (neg_fin hn).key_eq, hn.key_eq]
  have e : (((2 : Nat) ^ 2148 : Nat) : Int) = 2 ^ 1074 * 2 ^ 1074 := by rw [Int.natCast_pow]; exact pow_split
  have hP : (0 : Int) ≤ 2 ^ 1074 := Int.pow_nonneg (by decide)
  constructor
  · refine le_roundZ (Nat.two_pow_pos _) (neg_fin hn) ?_ _
    rw [neg_units hn, e]
    generalize (2 : Int) ^ 1074 = P at *
    have : -P * n.units ≤ x.units * n.units := Int.mul_le_mul_of_nonneg_right h1 h0
    calc -n.units * (P * P) = (-P * n.units) * P := by rw [Int.neg_mul, Int.neg_mul, Int.neg_mul, ← Int.mul_assoc, Int.mul_comm n.units P]
      _ ≤ x.units * n.units * P := Int.mul_le_mul_of_nonneg_right this hP
  · refine roundZ_le (Nat.two_pow_pos _) hn ?_ _
    rw [e]
    generalize (2 : Int) ^ 1074 = P at *
    have : x.units * n.units ≤ P * n.units := Int.mul_le_mul_of_nonneg_right h2 h0
    calc x.units * n.units * P ≤ P * n.units * P := Int.mul_le_mul_of_nonneg_right this hP
      _ = n.units * (P * P) := by rw [← Int.mul_assoc, Int.mul_comm n.units P]

/-- A product of numbers that are not negative keeps the order. -/
theorem mul_mono {a b a' b' : F64} (ha : a.IsFin) (hb : b.IsFin) (ha' : a'.IsFin) (hb' : b'.IsFin)
    (h0 : 0 ≤ a.units) (h : a.units ≤ a'.units) (h0' : 0 ≤ b.units) (h' : b.units ≤ b'.units) : (mul a b).key ≤ (mul a' b').key := by
  rw [mul_fin ha hb, mul_fin ha' hb']
  refine roundZ_mono (Nat.two_pow_pos _) (Nat.two_pow_pos _) ?_ _ _
  refine Int.mul_le_mul_of_nonneg_right ?_ (Int.natCast_nonneg _)
  exact Int.mul_le_mul h h' h0' (by omega)

/-- The magnitude of a product. -/
theorem mul_bound {a b A B : F64} (ha : a.IsFin) (hb : b.IsFin) (hA : A.IsFin) (hB : B.IsFin)
    (h1 : -A.units ≤ a.units) (h2 : a.units ≤ A.units) (h3 : -B.units ≤ b.units) (h4 : b.units ≤ B.units) :
    (mul (neg A) B).key ≤ (mul a b).key ∧ (mul a b).key ≤ (mul A B).key := by
  rw [mul_fin ha hb, mul_fin hA hB, mul_fin (neg_fin hA) hB, neg_units hA]
  have hA0 : 0 ≤ A.units := by omega
  have hB0 : 0 ≤ B.units := by omega
  have key : (a.units * b.units).natAbs ≤ (A.units * B.units).natAbs := by
    rw [Int.natAbs_mul, Int.natAbs_mul]
    exact Nat.mul_le_mul (by omega) (by omega)
  have hAB : 0 ≤ A.units * B.units := Int.mul_nonneg hA0 hB0
  constructor
  · refine roundZ_mono (Nat.two_pow_pos _) (Nat.two_pow_pos _) ?_ _ _
    refine Int.mul_le_mul_of_nonneg_right ?_ (Int.natCast_nonneg _)
    rw [Int.neg_mul]
    omega
  · refine roundZ_mono (Nat.two_pow_pos _) (Nat.two_pow_pos _) ?_ _ _
    refine Int.mul_le_mul_of_nonneg_right ?_ (Int.natCast_nonneg _)
    omega

end F64
end Verif
