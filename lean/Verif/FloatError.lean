import Verif.FloatBound
/-
How far a rounded number is from the exact one, and products of quotients with whole numbers.
-/
namespace Verif
namespace F64

theorem divRound_error (a : Nat) {d : Nat} (hd : 0 < d) :
    2 * (divRound a d * d) ≤ 2 * a + d ∧ 2 * a ≤ 2 * (divRound a d * d) + d := by
  have ha := Nat.div_add_mod a d
  have ra := Nat.mod_lt a hd
  have e : (a / d + 1) * d = d * (a / d) + d := by rw [Nat.add_mul, Nat.one_mul, Nat.mul_comm]
  have e' : a / d * d = d * (a / d) := Nat.mul_comm _ _
  unfold divRound
  dsimp only
  repeat' split
  all_goals first | rw [e] | rw [e']
  all_goals generalize d * (a / d) = x at *; omega

/-- The rounded number differs from the exact one by at most its 2^53-th part, or by half of the smallest number. -/
theorem rounded_error (p : Nat) {q : Nat} (hq : 0 < q) :
    2 ^ 53 * (rounded p q * q) ≤ 2 ^ 53 * (p * 2 ^ 1074) + p * 2 ^ 1074 + 2 ^ 52 * q ∧
    2 ^ 53 * (p * 2 ^ 1074) ≤ 2 ^ 53 * (rounded p q * q) + p * 2 ^ 1074 + 2 ^ 52 * q := by
  by_cases hp : p = 0
  · subst hp
    have : rounded 0 q = 0 := by unfold rounded divRound; simp
    rw [this]
    simp
  · obtain ⟨-, h2⟩ := shift_spec (Nat.pos_of_ne_zero hp) hq
    obtain ⟨e1, e2⟩ := divRound_error (p * 2 ^ 1074) (d := q * 2 ^ shift p q) (Nat.mul_pos hq (Nat.two_pow_pos _))
    have er : rounded p q * q = divRound (p * 2 ^ 1074) (q * 2 ^ shift p q) * (q * 2 ^ shift p q) := by
      unfold rounded
      rw [Nat.mul_assoc, Nat.mul_comm (2 ^ shift p q) q]
    rw [er]
    generalize divRound (p * 2 ^ 1074) (q * 2 ^ shift p q) * (q * 2 ^ shift p q) = x at *
    have hb : 2 ^ 52 * (q * 2 ^ shift p q) ≤ p * 2 ^ 1074 + 2 ^ 52 * q := by
      rcases h2 with h2 | h2
      · rw [h2]; simp
      · rw [Nat.pow_add, ← Nat.mul_assoc, Nat.mul_comm] at h2
        omega
    generalize p * 2 ^ 1074 = y at *
    generalize q * 2 ^ shift p q = z at *
    omega

/-- Whole numbers below 2^53 are represented exactly. -/
theorem ofInt_nat {v : Nat} (h : v < 2 ^ 53) : (F64.ofInt v).IsFin ∧ (F64.ofInt v).units = v * 2 ^ 1074 := by
  obtain ⟨f, hf⟩ := ofRatio_nat (decide ((v : Int) < 0)) (p := v) (Nat.lt_trans h (by decide : 2 ^ 53 < 2 ^ 64))
  obtain ⟨m, e, hc, rfl, hu⟩ := ofRatio_ulps hf
  have hv : F64.ofInt v = .fin (decide ((v : Int) < 0)) m e hc := by
    unfold F64.ofInt
    rw [Int.natAbs_natCast, hf]; rfl
  refine ⟨⟨_, _, _, _, hv⟩, ?_⟩
  rw [hv, units_eq, hu, rounded_nat h, if_neg (by simp)]
  rw [Int.natCast_mul, Int.natCast_pow]
  rfl

/-- `int64(f)` of a number that is not negative. -/
theorem toInt64_key {f : F64} (hf : f.IsFin) (h0 : 0 ≤ f.units) (h1 : f.units < 2 ^ 63 * 2 ^ 1074) :
    f.toInt64 = f.units / 2 ^ 1074 := by
  obtain ⟨s, m, e, hc, rfl⟩ := hf
  rw [units_eq] at *
  have hu : (if s = true then -((ulps m e : Nat) : Int) else ((ulps m e : Nat) : Int)) = (ulps m e : Nat) := by
    cases s with
    | false => rfl
    | true => simp only [if_true] at h0 ⊢; omega
  rw [hu] at h0 h1
  rw [hu]
  have hd : ((ulps m e : Nat) : Int) / 2 ^ 1074 = ((ulps m e / 2 ^ 1074 : Nat) : Int) := by
    rw [Int.natCast_ediv, Int.natCast_pow]; rfl
  rw [hd, F64.toInt64]
  rw [units_whole hc]
  have hlt : ulps m e / 2 ^ 1074 < 2 ^ 63 := by
    refine Nat.div_lt_of_lt_mul ?_
    have : ((ulps m e : Nat) : Int) < ((2 ^ 1074 * 2 ^ 63 : Nat) : Int) := by
      rw [Int.natCast_mul, Int.natCast_pow, Int.natCast_pow, Int.mul_comm, show ((2 : Nat) : Int) = 2 from rfl]
      exact h1
    exact Int.ofNat_lt.1 this
  have hz : s = true → ulps m e / 2 ^ 1074 = 0 := by
    intro hs
    rw [hs, if_pos rfl] at hu
    have : ulps m e = 0 := by omega
    rw [this]; exact Nat.zero_div _
  have hv : (if s = true then -((ulps m e / 2 ^ 1074 : Nat) : Int) else ((ulps m e / 2 ^ 1074 : Nat) : Int)) = (ulps m e / 2 ^ 1074 : Nat) := by
    cases s with
    | false => rfl
    | true => rw [hz rfl]; rfl
  rw [hv]
  generalize ulps m e / 2 ^ 1074 = x at *
  rw [if_pos]
  unfold minInt64 maxInt64
  omega

/-- The units of the quotient of two whole numbers, the first not greater. -/
theorem div_units {i n : Nat} (hin : i ≤ n) (hn : 0 < n) (h : n < 2 ^ 53) :
    (div (F64.ofInt i) (F64.ofInt n)).IsFin ∧ (div (F64.ofInt i) (F64.ofInt n)).units = (rounded i n : Nat) ∧ rounded i n ≤ 2 ^ 1074 := by
  obtain ⟨fi, ui⟩ := ofInt_nat (v := i) (by omega)
  obtain ⟨fn, un⟩ := ofInt_nat h
  have hP : (0 : Nat) < 2 ^ 1074 := Nat.two_pow_pos _
  have hr1 : rounded i n ≤ 2 ^ 1074 := by
    have : rounded i n ≤ rounded 1 1 := rounded_mono hn (by decide) (by omega)
    rwa [rounded_nat (by decide), Nat.one_mul] at this
  have hd : div (F64.ofInt i) (F64.ofInt n) = roundZ ((F64.ofInt i).signBit != (F64.ofInt n).signBit)
      ((i : Int) * 2 ^ 1074) (n * 2 ^ 1074) := by
    have hs : (F64.ofInt n).units.sign = 1 := by
      rw [un]
      exact Int.sign_eq_one_of_pos (Int.mul_pos (by omega) (Int.pow_pos (by decide)))
    have ha : (F64.ofInt n).units.natAbs = n * 2 ^ 1074 := by
      rw [un, Int.natAbs_mul, Int.natAbs_pow]; rfl
    have hz : (F64.ofInt n).units ≠ 0 := by
      intro h0; rw [h0] at hs; cases hs
    rw [← ui, ← ha]
    generalize F64.ofInt i = a at *
    generalize F64.ofInt n = b at *
    obtain ⟨s1, m1, e1, c1, rfl⟩ := fi
    obtain ⟨s2, m2, e2, c2, rfl⟩ := fn
    rw [div, if_neg hz, hs, Int.mul_one]
  have hsc : rounded (i * 2 ^ 1074) (n * 2 ^ 1074) = rounded i n := by
    apply Nat.le_antisymm
    · exact rounded_mono (Nat.mul_pos hn hP) hn (by rw [Nat.mul_right_comm, Nat.mul_assoc]; exact Nat.le_refl _)
    · exact rounded_mono hn (Nat.mul_pos hn hP) (by rw [Nat.mul_right_comm, Nat.mul_assoc]; exact Nat.le_refl _)
  have hk : (div (F64.ofInt i) (F64.ofInt n)).key = (rounded i n : Nat) := by
    rw [hd, roundZ_key _ _ (Nat.mul_pos hn hP), if_neg]
    · have : (((i : Int) * 2 ^ 1074)).natAbs = i * 2 ^ 1074 := by rw [Int.natAbs_mul, Int.natAbs_pow]; rfl
      rw [this, hsc, Nat.min_eq_left]
      exact Nat.le_trans hr1 (Nat.pow_le_pow_right (by decide) (by decide))
    · have : (0 : Int) ≤ (i : Int) * 2 ^ 1074 := Int.mul_nonneg (by omega) (Int.pow_nonneg (by decide))
      omega
  have hfin : (div (F64.ofInt i) (F64.ofInt n)).IsFin := by
    obtain ⟨f1, u1⟩ := ofInt_nat (v := 1) (by decide)
    obtain ⟨f0, u0⟩ := ofInt_nat (v := 0) (by decide)
    refine fin_between f0 f1 ?_ ?_ ?_
    · rw [hd]; exact roundZ_ne_nan _ _ _
    · rw [hk, f0.key_eq, u0, Int.natCast_zero, Int.zero_mul]; exact Int.natCast_nonneg _
    · rw [hk, f1.key_eq, u1, Int.natCast_one, Int.one_mul]
      have := Int.ofNat_le.2 hr1
      rwa [Int.natCast_pow] at this
  exact ⟨hfin, by rw [← hk, hfin.key_eq], hr1⟩

/-- A product of a number between 0 and 1 with a whole number. -/
theorem mul_units {x : F64} {k R : Nat} (hx : x.IsFin) (ux : x.units = (k : Nat)) (hk : k ≤ 2 ^ 1074) (hR : R < 2 ^ 53) :
    (mul x (F64.ofInt R)).IsFin ∧ (mul x (F64.ofInt R)).units = (rounded (k * R) (2 ^ 1074) : Nat) ∧
      rounded (k * R) (2 ^ 1074) ≤ R * 2 ^ 1074 := by
  obtain ⟨fR, uR⟩ := ofInt_nat hR
  have hP : (0 : Nat) < 2 ^ 1074 := Nat.two_pow_pos _
  have hb : rounded (k * R) (2 ^ 1074) ≤ R * 2 ^ 1074 := by
    have : rounded (k * R) (2 ^ 1074) ≤ rounded R 1 := rounded_mono hP (by decide) (by
      rw [Nat.mul_one, Nat.mul_comm]; exact Nat.mul_le_mul_left _ hk)
    rwa [rounded_nat hR] at this
  have hsc : rounded (k * (R * 2 ^ 1074)) (2 ^ 2148) = rounded (k * R) (2 ^ 1074) := by
    have e : (2 : Nat) ^ 2148 = 2 ^ 1074 * 2 ^ 1074 :=
      (congrArg (HPow.hPow 2) (show 2148 = 1074 + 1074 from rfl)).trans (Nat.pow_add ..)
    rw [e, ← Nat.mul_assoc]
    clear e hb
    generalize (2 : Nat) ^ 1074 = P at *
    apply Nat.le_antisymm
    · exact rounded_mono (Nat.mul_pos hP hP) hP (by simp only [Nat.mul_assoc]; exact Nat.le_refl _)
    · exact rounded_mono hP (Nat.mul_pos hP hP) (by simp only [Nat.mul_assoc]; exact Nat.le_refl _)
  have hlt : rounded (k * R) (2 ^ 1074) ≤ 2 ^ 2098 := by
    refine Nat.le_trans hb (Nat.le_trans (Nat.mul_le_mul_right _ (Nat.le_of_lt hR)) ?_)
    rw [← Nat.pow_add]
    exact Nat.pow_le_pow_right (by decide) (by decide)
  have hkey : (mul x (F64.ofInt R)).key = (rounded (k * R) (2 ^ 1074) : Nat) := by
    rw [mul_fin hx fR, roundZ_key _ _ (Nat.two_pow_pos _), ux, uR, if_neg]
    · have : ((k : Int) * ((R : Int) * 2 ^ 1074)).natAbs = k * (R * 2 ^ 1074) := by
        rw [Int.natAbs_mul, Int.natAbs_mul, Int.natAbs_pow]; rfl
      rw [this, hsc, Nat.min_eq_left hlt]
    · have : (0 : Int) ≤ (k : Int) * ((R : Int) * 2 ^ 1074) :=
        Int.mul_nonneg (by omega) (Int.mul_nonneg (by omega) (Int.pow_nonneg (by decide)))
      omega
  have hfin : (mul x (F64.ofInt R)).IsFin := by
    obtain ⟨f0, u0⟩ := ofInt_nat (v := 0) (by decide)
    refine fin_between f0 fR (mul_ne_nan hx fR) ?_ ?_
    · rw [hkey, f0.key_eq, u0, Int.natCast_zero, Int.zero_mul]; exact Int.natCast_nonneg _
    · rw [hkey, fR.key_eq, uR]
      have := Int.ofNat_le.2 hb
      rwa [Int.natCast_mul, Int.natCast_pow] at this
  exact ⟨hfin, by rw [← hkey, hfin.key_eq], hb⟩

end F64
end Verif
