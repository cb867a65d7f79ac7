import Verif.FloatArith
/-
Subtracting from a number without leaving its binade.
-/
namespace Verif
namespace F64

theorem divRound_near {a d n : Nat} (h1 : 2 * (n * d) < 2 * a + d) (h2 : 2 * a < 2 * (n * d) + d) : divRound a d = n := by
  have hd : 0 < d := by omega
  unfold divRound
  dsimp only
  by_cases h : n * d ≤ a
  · have e : a = (a - n * d) + n * d := by omega
    have hq : a / d = n := by
      rw [e, Nat.add_mul_div_right _ _ hd, Nat.div_eq_of_lt (by omega)]; omega
    have hr : a % d = a - n * d := by
      rw [e, Nat.add_mul_mod_self_right, Nat.mod_eq_of_lt (by omega)]; omega
    rw [hq, hr, if_pos (by omega)]
  · cases n with
    | zero => omega
    | succ n =>
      have e1 : (n + 1) * d = n * d + d := Nat.succ_mul n d
      rw [e1] at h h1 h2
      have e : a = (a - n * d) + n * d := by omega
      have hq : a / d = n := by
        rw [e, Nat.add_mul_div_right _ _ hd, Nat.div_eq_of_lt (by omega)]; omega
      have hr : a % d = a - n * d := by
        rw [e, Nat.add_mul_mod_self_right, Nat.mod_eq_of_lt (by omega)]; omega
      rw [hq, hr, if_neg (by omega), if_pos (by omega)]

theorem pow_bound {a b : Nat} (h : 2 ^ (a + 52) < 2 ^ (b + 53)) : a ≤ b := by
  refine Nat.not_lt.1 fun hlt => ?_
  have := Nat.pow_le_pow_right (n := 2) (by decide) (show b + 53 ≤ a + 52 by omega)
  omega

/-- The exact difference stays in the binade of the first number: the result is the nearest multiple of its last place. -/
theorem add_near {m d m' k : Nat} {e f : Int} (hx : canon m e = true) (hd : canon d f = true) (hm : canon m' e = true) (hk : e = f + k)
    (h1 : 2 ^ 52 * 2 ^ k + d ≤ m * 2 ^ k) (h2 : 2 * (m' * 2 ^ k + d) < 2 * (m * 2 ^ k) + 2 ^ k) (h3 : 2 * (m * 2 ^ k) < 2 * (m' * 2 ^ k + d) + 2 ^ k) :
    add (.fin false m e hx) (.fin true d f hd) = .fin false m' e hm := by
  obtain ⟨c1, c2, c3, -⟩ := canon_iff.1 hx
  obtain ⟨d1, d2, d3, -⟩ := canon_iff.1 hd
  obtain ⟨F, hF⟩ : ∃ F : Nat, f + 1074 = F := ⟨(f + 1074).toNat, by omega⟩
  have hE : e + 1074 = ((k + F : Nat) : Int) := by omega
  have hu : (F64.fin false m e hx).units + (F64.fin true d f hd).units = (((m * 2 ^ k - d) * 2 ^ F : Nat) : Int) := by
    rw [units_eq, units_eq]
    simp only [Bool.false_eq_true, if_false, if_true]
    unfold ulps
    rw [hE, hF, Int.toNat_natCast, Int.toNat_natCast, Nat.pow_add, ← Nat.mul_assoc, Nat.sub_mul]
    have : d * 2 ^ F ≤ m * 2 ^ k * 2 ^ F := Nat.mul_le_mul_right _ (by omega)
    omega
  have hP := Nat.two_pow_pos F
  have hA : 2 ^ 52 * 2 ^ k ≤ m * 2 ^ k - d := by omega
  have hK := Nat.two_pow_pos k
  have hB : m * 2 ^ k - d < 2 ^ 53 * 2 ^ k := by
    have : m * 2 ^ k < 2 ^ 53 * 2 ^ k := Nat.mul_lt_mul_of_pos_right c1 hK
    omega
  generalize hAe : m * 2 ^ k - d = A at *
  have hpos : 0 < A * 2 ^ F := Nat.mul_pos (by have := Nat.mul_pos (Nat.two_pow_pos 52) hK; omega) hP
  obtain ⟨s1, s2⟩ := shift_spec hpos (Nat.two_pow_pos 1074)
  have b1 : 2 ^ (k + F + 52) ≤ A * 2 ^ F := by
    calc 2 ^ (k + F + 52) = 2 ^ 52 * 2 ^ k * 2 ^ F := by rw [← Nat.pow_add, ← Nat.pow_add]; congr 1; omega
      _ ≤ A * 2 ^ F := Nat.mul_le_mul_right _ hA
  have b2 : A * 2 ^ F < 2 ^ (k + F + 53) := by
    calc A * 2 ^ F < 2 ^ 53 * 2 ^ k * 2 ^ F := Nat.mul_lt_mul_of_pos_right hB hP
      _ = 2 ^ (k + F + 53) := by rw [← Nat.pow_add, ← Nat.pow_add]; congr 1; omega
  have hsh : shift (A * 2 ^ F) (2 ^ 1074) = k + F := by
    generalize shift (A * 2 ^ F) (2 ^ 1074) = S at s1 s2
    rw [Nat.mul_comm] at s1
    have t1 := Nat.lt_of_mul_lt_mul_left s1
    have u1 : k + F ≤ S := pow_bound (Nat.lt_of_le_of_lt b1 t1)
    rcases s2 with s2 | s2
    · omega
    · rw [Nat.mul_comm (A * 2 ^ F)] at s2
      have t2 := Nat.le_of_mul_le_mul_left s2 (Nat.two_pow_pos 1074)
      have u2 : S ≤ k + F := pow_bound (Nat.lt_of_le_of_lt t2 b2)
      omega
  have hdr : divRound A (2 ^ k) = m' := divRound_near (by omega) (by omega)
  have hr : rounded (A * 2 ^ F) (2 ^ 1074) = ulps m' e := by
    unfold rounded ulps
    rw [hsh, hE, Int.toNat_natCast]
    refine congrArg (· * 2 ^ (k + F)) ?_
    rw [Nat.mul_comm (2 ^ 1074), divRound_scale _ _ _ (Nat.two_pow_pos 1074), Nat.pow_add, divRound_scale _ _ _ hP]
    exact hdr
  show roundZ _ _ _ = _
  rw [hu]
  unfold roundZ
  have hz : ((A * 2 ^ F : Nat) : Int) ≠ 0 := by
    generalize A * 2 ^ F = B at hpos
    omega
  have hneg : decide (((A * 2 ^ F : Nat) : Int) < 0) = false := by
    generalize A * 2 ^ F = B
    simp
  rw [if_neg hz, Int.natAbs_natCast, hneg]
  cases ho : ofRatio false (A * 2 ^ F) (2 ^ 1074) with
  | none =>
    have h5 := ofRatio_none (Nat.two_pow_pos 1074) ho
    rw [hr] at h5
    exact absurd (ulps_lt hm) (Nat.not_lt.2 h5)
  | some g =>
    obtain ⟨m2, e2, hc2, rfl, hu2⟩ := ofRatio_ulps ho
    rw [hr] at hu2
    obtain ⟨rfl, rfl⟩ := ulps_inj hc2 hm hu2
    rfl

end F64
end Verif
