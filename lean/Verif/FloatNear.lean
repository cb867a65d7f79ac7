import Verif.FloatError
/-
Results of operations are near to the exact ones, also when they are negative.
-/
namespace Verif
namespace F64

/-- Rounding something that is not huge gives a finite number near to it. -/
theorem roundZ_near {z : Int} {q : Nat} (hq : 0 < q) (s : Bool) (h : z.natAbs ≤ 2 ^ 300 * q) :
    (roundZ s z q).IsFin ∧ 2 ^ 53 * ((roundZ s z q).units * q - z * 2 ^ 1074) ≤ z.natAbs * 2 ^ 1074 + 2 ^ 52 * q ∧
      -(z.natAbs * 2 ^ 1074 + 2 ^ 52 * q) ≤ 2 ^ 53 * ((roundZ s z q).units * q - z * 2 ^ 1074) := by
  obtain ⟨h1, h2⟩ := rounded_error z.natAbs hq
  have hr : rounded z.natAbs q < 2 ^ 2098 := by
    have hb : z.natAbs * 2 ^ 1074 ≤ (2 ^ 300 * 2 ^ 1074) * q := by
      rw [Nat.mul_right_comm]
      exact Nat.mul_le_mul_right _ h
    have : rounded z.natAbs q * q ≤ (2 * (2 ^ 300 * 2 ^ 1074) + 1) * q := by
      rw [Nat.add_mul, Nat.one_mul, Nat.mul_assoc 2]
      generalize (2 ^ 300 * 2 ^ 1074) * q = x at *
      generalize z.natAbs * 2 ^ 1074 = y at *
      generalize rounded z.natAbs q * q = r at *
      omega
    have := Nat.le_of_mul_le_mul_right this hq
    rw [← Nat.pow_add] at this
    have e : (2 : Nat) ^ 2098 = 2 ^ (300 + 1074) * 2 ^ 724 := by rw [← Nat.pow_add]
    have e' : 3 < (2 : Nat) ^ 724 := Nat.lt_of_lt_of_le (by decide) (Nat.pow_le_pow_right (by decide) (by decide : 2 ≤ 724))
    have e'' : 0 < (2 : Nat) ^ (300 + 1074) := Nat.two_pow_pos _
    rw [e]
    generalize (2 : Nat) ^ (300 + 1074) = A at *
    generalize (2 : Nat) ^ 724 = B at *
    calc rounded z.natAbs q ≤ A * 3 := by omega
      _ < A * B := Nat.mul_lt_mul_of_pos_left e' e''
  have hk := roundZ_key s z hq
  rw [Nat.min_eq_left (Nat.le_of_lt hr)] at hk
  have hf : (roundZ s z q).IsFin := by
    cases hc : roundZ s z q with
    | nan => exact absurd hc (roundZ_ne_nan _ _ _)
    | fin s m e h => exact ⟨s, m, e, h, rfl⟩
    | inf t =>
      rw [hc, key] at hk
      generalize (2 : Nat) ^ 2098 = K at *
      cases t <;> simp at hk <;> split at hk <;> omega
  refine ⟨hf, ?_⟩
  rw [hf.key_eq] at hk
  rw [hk]
  have h1 : (2 : Int) ^ 53 * (rounded z.natAbs q * q) ≤ 2 ^ 53 * (z.natAbs * 2 ^ 1074) + z.natAbs * 2 ^ 1074 + 2 ^ 52 * q := by
    have := Int.ofNat_le.2 h1
    simpa using this
  have h2 : (2 : Int) ^ 53 * (z.natAbs * 2 ^ 1074) ≤ 2 ^ 53 * (rounded z.natAbs q * q) + z.natAbs * 2 ^ 1074 + 2 ^ 52 * q := by
    have := Int.ofNat_le.2 h2
    simpa using this
  by_cases hz : z < 0
  · rw [if_pos hz]
    have e : z * 2 ^ 1074 = -((z.natAbs : Int) * 2 ^ 1074) := by
      rw [← Int.neg_mul]; congr 1; omega
    rw [e, Int.neg_mul]
    generalize (z.natAbs : Int) * 2 ^ 1074 = x at *
    generalize (rounded z.natAbs q : Int) * q = y at *
    omega
  · rw [if_neg hz]
    have e : z * 2 ^ 1074 = (z.natAbs : Int) * 2 ^ 1074 := by
      congr 1; omega
    rw [e]
    generalize (z.natAbs : Int) * 2 ^ 1074 = x at *
    generalize (rounded z.natAbs q : Int) * q = y at *
    omega

/-- Whole numbers below 2^53 are represented exactly, negative ones too. -/
theorem ofInt_int {v : Int} (h : v.natAbs < 2 ^ 53) : (F64.ofInt v).IsFin ∧ (F64.ofInt v).units = v * 2 ^ 1074 := by
  have e : F64.ofInt v = roundZ false v 1 := by
    unfold ofInt roundZ
    by_cases h0 : v = 0
    · subst h0; rfl
    · rw [if_neg h0]
  have hf := (roundZ_near (z := v) (q := 1) (by decide) false (by
    have : (2 : Nat) ^ 53 ≤ 2 ^ 300 := Nat.pow_le_pow_right (by decide) (by decide)
    omega)).1
  rw [e]
  refine ⟨hf, ?_⟩
  have hk := roundZ_key false v (q := 1) (by decide)
  rw [hf.key_eq, rounded_nat h, Nat.min_eq_left] at hk
  · rw [hk]
    by_cases hz : v < 0
    · rw [if_pos hz, Int.natCast_mul, Int.natCast_pow, ← Int.neg_mul]
      congr 1; omega
    · rw [if_neg hz, Int.natCast_mul, Int.natCast_pow]
      congr 1; omega
  · have e : (2 : Nat) ^ 2098 = 2 ^ 1024 * 2 ^ 1074 := by rw [← Nat.pow_add]
    rw [e]
    refine Nat.mul_le_mul_right _ (Nat.le_trans (Nat.le_of_lt h) (Nat.pow_le_pow_right (by decide) (by decide)))

/-- The quotient of two whole numbers. -/
theorem div_near {a : Int} {b : Nat} (ha : a.natAbs < 2 ^ 53) (hb : 0 < b) (hb' : b < 2 ^ 53) :
    (div (ofInt a) (ofInt b)).IsFin ∧
      2 ^ 53 * ((div (ofInt a) (ofInt b)).units * b - a * 2 ^ 1074) ≤ a.natAbs * 2 ^ 1074 + 2 ^ 52 * b ∧
      -(a.natAbs * 2 ^ 1074 + 2 ^ 52 * b) ≤ 2 ^ 53 * ((div (ofInt a) (ofInt b)).units * b - a * 2 ^ 1074) := by
  obtain ⟨fa, ua⟩ := ofInt_int ha
  obtain ⟨fb, ub⟩ := ofInt_nat hb'
  have hP : (0 : Nat) < 2 ^ 1074 := Nat.two_pow_pos _
  have hd : div (ofInt a) (ofInt b) = roundZ ((ofInt a).signBit != (ofInt b).signBit) (a * 2 ^ 1074) (b * 2 ^ 1074) := by
    have hs : (ofInt b).units.sign = 1 := by
      rw [ub]
      exact Int.sign_eq_one_of_pos (Int.mul_pos (by omega) (Int.pow_pos (by decide)))
    have hn : (ofInt b).units.natAbs = b * 2 ^ 1074 := by
      rw [ub, Int.natAbs_mul, Int.natAbs_pow]; rfl
    have hz : (ofInt b).units ≠ 0 := by
      intro h0; rw [h0] at hs; cases hs
    rw [← ua, ← hn]
    generalize ofInt a = x at *
    generalize ofInt b = y at *
    obtain ⟨s1, m1, e1, c1, rfl⟩ := fa
    obtain ⟨s2, m2, e2, c2, rfl⟩ := fb
    rw [div, if_neg hz, hs, Int.mul_one]
  have hab : (a * 2 ^ 1074).natAbs = a.natAbs * 2 ^ 1074 := by rw [Int.natAbs_mul, Int.natAbs_pow]; rfl
  obtain ⟨h0, h1, h2⟩ := roundZ_near (z := a * 2 ^ 1074) (q := b * 2 ^ 1074) (Nat.mul_pos hb hP) ((ofInt a).signBit != (ofInt b).signBit) (by
    rw [hab, ← Nat.mul_assoc]
    refine Nat.mul_le_mul_right _ (Nat.le_trans (Nat.le_of_lt ha) (Nat.le_trans (Nat.pow_le_pow_right (by decide) (by decide : 53 ≤ 300)) ?_))
    exact Nat.le_mul_of_pos_right _ hb)
  rw [← hd] at h0 h1 h2
  refine ⟨h0, ?_⟩
  generalize (div (ofInt a) (ofInt b)).units = u at *
  rw [hab] at h1 h2
  have hP' : (0 : Int) < 2 ^ 1074 := Int.pow_pos (by decide)
  have c : ((b * 2 ^ 1074 : Nat) : Int) = b * 2 ^ 1074 := by rw [Int.natCast_mul, Int.natCast_pow]; rfl
  have c' : ((a.natAbs * 2 ^ 1074 : Nat) : Int) = a.natAbs * 2 ^ 1074 := by rw [Int.natCast_mul, Int.natCast_pow]; rfl
  rw [c, c'] at h1 h2
  clear c c' hab hd ua ub hP fa fb
  generalize (2 : Int) ^ 1074 = P at *
  have e1 : 2 ^ 53 * (u * (b * P) - a * P * P) = 2 ^ 53 * (u * b - a * P) * P := by
    rw [← Int.mul_assoc u, ← Int.sub_mul, Int.mul_assoc]
  have e2 : ↑a.natAbs * P * P + 2 ^ 52 * (b * P) = (a.natAbs * P + 2 ^ 52 * b) * P := by
    rw [Int.add_mul, Int.mul_assoc (2 ^ 52)]
  rw [e1, e2] at h1
  rw [e1, e2, ← Int.neg_mul] at h2
  exact ⟨Int.le_of_mul_le_mul_right h1 hP', Int.le_of_mul_le_mul_right h2 hP'⟩

/-- A number that is not huge divided by a whole number. -/
theorem quot_near {x : F64} (hx : x.IsFin) {R : Nat} (hR0 : 0 < R) (hR : R < 2 ^ 53) (hu : x.units.natAbs ≤ 2 ^ 200 * 2 ^ 1074) :
    (div x (ofInt R)).IsFin ∧
      2 ^ 53 * ((div x (ofInt R)).units * R - x.units) ≤ x.units.natAbs + 2 ^ 52 * R ∧
      -(x.units.natAbs + 2 ^ 52 * R) ≤ 2 ^ 53 * ((div x (ofInt R)).units * R - x.units) := by
  obtain ⟨fb, ub⟩ := ofInt_nat hR
  have hP : (0 : Nat) < 2 ^ 1074 := Nat.two_pow_pos _
  have hd : div x (ofInt R) = roundZ (x.signBit != (ofInt R).signBit) x.units (R * 2 ^ 1074) := by
    have hs : (ofInt R).units.sign = 1 := by
      rw [ub]
      exact Int.sign_eq_one_of_pos (Int.mul_pos (by omega) (Int.pow_pos (by decide)))
    have hn : (ofInt R).units.natAbs = R * 2 ^ 1074 := by
      rw [ub, Int.natAbs_mul, Int.natAbs_pow]; rfl
    have hz : (ofInt R).units ≠ 0 := by
      intro h0; rw [h0] at hs; cases hs
    rw [← hn]
    generalize ofInt R = y at *
    obtain ⟨s1, m1, e1, c1, rfl⟩ := hx
    obtain ⟨s2, m2, e2, c2, rfl⟩ := fb
    rw [div, if_neg hz, hs, Int.mul_one]
  obtain ⟨h0, h1, h2⟩ := roundZ_near (z := x.units) (q := R * 2 ^ 1074) (Nat.mul_pos hR0 hP) (x.signBit != (ofInt R).signBit) (by
    refine Nat.le_trans hu (Nat.mul_le_mul (Nat.pow_le_pow_right (by decide) (by decide)) (Nat.le_mul_of_pos_left _ hR0)))
  rw [← hd] at h0 h1 h2
  refine ⟨h0, ?_⟩
  generalize (div x (ofInt R)).units = u at *
  have hP' : (0 : Int) < 2 ^ 1074 := Int.pow_pos (by decide)
  have c : ((R * 2 ^ 1074 : Nat) : Int) = R * 2 ^ 1074 := by rw [Int.natCast_mul, Int.natCast_pow]; rfl
  rw [c] at h1 h2
  clear c hd ub hP fb hu
  generalize (2 : Int) ^ 1074 = P at *
  have e1 : 2 ^ 53 * (u * (R * P) - x.units * P) = 2 ^ 53 * (u * R - x.units) * P := by
    rw [← Int.mul_assoc u, ← Int.sub_mul, Int.mul_assoc]
  have e2 : ↑x.units.natAbs * P + 2 ^ 52 * (R * P) = (x.units.natAbs + 2 ^ 52 * R) * P := by
    rw [Int.add_mul, Int.mul_assoc (2 ^ 52)]
  rw [e1, e2] at h1
  rw [e1, e2, ← Int.neg_mul] at h2
  exact ⟨Int.le_of_mul_le_mul_right h1 hP', Int.le_of_mul_le_mul_right h2 hP'⟩

/-- A number that is not huge times a whole number. -/
theorem mul_near {x : F64} (hx : x.IsFin) {R : Nat} (hR : R < 2 ^ 53) (hu : x.units.natAbs ≤ 2 ^ 200 * 2 ^ 1074) :
    (mul x (ofInt R)).IsFin ∧
      2 ^ 53 * ((mul x (ofInt R)).units - x.units * R) ≤ x.units.natAbs * R + 2 ^ 52 ∧
      -(x.units.natAbs * R + 2 ^ 52) ≤ 2 ^ 53 * ((mul x (ofInt R)).units - x.units * R) := by
  obtain ⟨fR, uR⟩ := ofInt_nat hR
  have hm := mul_fin hx fR
  rw [uR] at hm
  have hP : (0 : Nat) < 2 ^ 1074 := Nat.two_pow_pos _
  have e2148 : (2 : Nat) ^ 2148 = 2 ^ 1074 * 2 ^ 1074 := by rw [← Nat.pow_add]
  have hab : (x.units * (R * 2 ^ 1074)).natAbs = x.units.natAbs * R * 2 ^ 1074 := by
    rw [Int.natAbs_mul, Int.natAbs_mul, Int.natAbs_pow, Nat.mul_assoc]; rfl
  obtain ⟨h0, h1, h2⟩ := roundZ_near (z := x.units * (R * 2 ^ 1074)) (q := 2 ^ 2148) (Nat.two_pow_pos _) (x.signBit != (ofInt R).signBit) (by
    rw [hab, e2148, ← Nat.mul_assoc]
    refine Nat.mul_le_mul_right _ ?_
    calc x.units.natAbs * R ≤ (2 ^ 200 * 2 ^ 1074) * 2 ^ 53 := Nat.mul_le_mul hu (Nat.le_of_lt hR)
      _ = (2 ^ 200 * 2 ^ 53) * 2 ^ 1074 := Nat.mul_right_comm ..
      _ ≤ 2 ^ 300 * 2 ^ 1074 := Nat.mul_le_mul_right _ (by rw [← Nat.pow_add]; exact Nat.pow_le_pow_right (by decide) (by decide)))
  rw [← hm] at h0 h1 h2
  refine ⟨h0, ?_⟩
  generalize (mul x (ofInt R)).units = u at *
  rw [hab] at h1 h2
  have hP' : (0 : Int) < 2 ^ 1074 * 2 ^ 1074 := Int.mul_pos (Int.pow_pos (by decide)) (Int.pow_pos (by decide))
  have c : ((2 ^ 2148 : Nat) : Int) = 2 ^ 1074 * 2 ^ 1074 := by rw [e2148, Int.natCast_mul, Int.natCast_pow]; rfl
  have c' : ((x.units.natAbs * R * 2 ^ 1074 : Nat) : Int) = x.units.natAbs * R * 2 ^ 1074 := by
    rw [Int.natCast_mul, Int.natCast_mul, Int.natCast_pow]; rfl
  rw [c, c'] at h1 h2
  clear c c' hab hm uR fR hP hu e2148
  generalize (2 : Int) ^ 1074 = P at *
  have e1 : 2 ^ 53 * (u * (P * P) - x.units * (R * P) * P) = 2 ^ 53 * (u - x.units * R) * (P * P) := by
    rw [Int.mul_assoc (2 ^ 53), Int.sub_mul]
    simp only [Int.mul_assoc]
  have e2 : ↑x.units.natAbs * ↑R * P * P + 2 ^ 52 * (P * P) = (x.units.natAbs * R + 2 ^ 52) * (P * P) := by
    rw [Int.add_mul]
    simp only [Int.mul_assoc]
  rw [e1, e2] at h1
  rw [e1, e2, ← Int.neg_mul] at h2
  exact ⟨Int.le_of_mul_le_mul_right h1 hP', Int.le_of_mul_le_mul_right h2 hP'⟩

/-- A sum of numbers that are not huge. -/
theorem sum_near {x y : F64} (hx : x.IsFin) (hy : y.IsFin) (hu : (x.units + y.units).natAbs ≤ 2 ^ 200 * 2 ^ 1074) :
    (add x y).IsFin ∧
      2 ^ 53 * ((add x y).units - (x.units + y.units)) ≤ (x.units + y.units).natAbs + 2 ^ 52 ∧
      -((x.units + y.units).natAbs + 2 ^ 52) ≤ 2 ^ 53 * ((add x y).units - (x.units + y.units)) := by
  have hm := add_fin hx hy
  obtain ⟨h0, h1, h2⟩ := roundZ_near (z := x.units + y.units) (q := 2 ^ 1074) (Nat.two_pow_pos _) (x.signBit && y.signBit)
    (Nat.le_trans hu (Nat.mul_le_mul_right _ (Nat.pow_le_pow_right (by decide) (by decide))))
  rw [← hm] at h0 h1 h2
  refine ⟨h0, ?_⟩
  generalize (add x y).units = u at *
  generalize x.units + y.units = w at *
  have hP' : (0 : Int) < 2 ^ 1074 := Int.pow_pos (by decide)
  have c : ((2 ^ 1074 : Nat) : Int) = 2 ^ 1074 := by rw [Int.natCast_pow]; rfl
  rw [c] at h1 h2
  clear c hu hm
  generalize (2 : Int) ^ 1074 = P at *
  have e1 : 2 ^ 53 * (u * P - w * P) = 2 ^ 53 * (u - w) * P := by rw [← Int.sub_mul, Int.mul_assoc]
  have e2 : ↑w.natAbs * P + 2 ^ 52 * P = (w.natAbs + 2 ^ 52) * P := by rw [Int.add_mul]
  rw [e1, e2] at h1
  rw [e1, e2, ← Int.neg_mul] at h2
  exact ⟨Int.le_of_mul_le_mul_right h1 hP', Int.le_of_mul_le_mul_right h2 hP'⟩

end F64
end Verif
