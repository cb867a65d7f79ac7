import Verif.ExpCsv
import Verif.PropsCsv
import Verif.FloatNear
/-
C91: the percentages in the tables of results.
-/
namespace Verif

/-- The text shows `v` hundredths, and they differ from `100 * z / b` percent by little more than half of the last digit. -/
def ShowsPct (s : Bytes) (z : Int) (b : Nat) (c : Nat) : Prop :=
  ∃ v, readFixed 2 s = some v ∧ 2 ^ 31 * (v * b - 10000 * z) ≤ 2 ^ 30 * b + 2 * c ∧ -(2 ^ 30 * b + 2 * c) ≤ 2 ^ 31 * (v * b - 10000 * z)

/-- What is shown of a number near to `100 * z / b`. -/
theorem shows_near {f : F64} (hf : f.IsFin) {z : Int} {b c : Nat}
    (h1 : 2 ^ 40 * (f.units * b - 100 * z * 2 ^ 1074) ≤ c * 2 ^ 1074) (h2 : -(c * 2 ^ 1074) ≤ 2 ^ 40 * (f.units * b - 100 * z * 2 ^ 1074)) :
    ShowsPct (fmtFixed 2 f) z b c := by
  obtain ⟨v, e, v1, v2⟩ := C89_fixed (n := 2) (by decide) hf
  refine ⟨v, e, ?_⟩
  generalize f.units = u at *
  have hP' : (0 : Int) < 2 ^ 1074 := Int.pow_pos (by decide)
  generalize (2 : Int) ^ 1074 = P at *
  have w1 := Int.mul_le_mul_of_nonneg_right v1 (Int.natCast_nonneg b)
  have w2 := Int.mul_le_mul_of_nonneg_right v2 (Int.natCast_nonneg b)
  have e1 : 2 * (v * P - u * 10 ^ 2) * b = 2 * (v * b * P) - 200 * (u * b) := by
    have a1 : 2 * (v * P - u * 10 ^ 2) * b = 2 * (v * P * b) - 2 * (u * 10 ^ 2 * b) := by
      rw [Int.mul_assoc, Int.sub_mul, Int.mul_sub]
    have a2 : v * P * b = v * b * P := Int.mul_right_comm ..
    have a3 : u * 10 ^ 2 * b = 100 * (u * b) := by rw [Int.mul_right_comm, Int.mul_comm]; rfl
    rw [a1, a2, a3]; omega
  rw [e1] at w1 w2
  rw [Int.neg_mul] at w2
  have goal1 : 2 ^ 31 * (v * b - 10000 * z) * P ≤ (2 ^ 30 * b + 2 * c) * P ∧ -(2 ^ 30 * b + 2 * c) * P ≤ 2 ^ 31 * (v * b - 10000 * z) * P := by
    have a1 : 2 ^ 31 * (v * b - 10000 * z) * P = 2 ^ 31 * (v * b * P) - 2 ^ 31 * (10000 * (z * P)) := by
      rw [Int.mul_assoc, Int.sub_mul, Int.mul_sub, Int.mul_assoc 10000]
    have a2 : ((2 : Int) ^ 30 * b + 2 * c) * P = 2 ^ 30 * (P * b) + 2 * (c * P) := by
      rw [Int.add_mul, Int.mul_assoc, Int.mul_assoc, Int.mul_comm (b : Int)]
    have a3 : 100 * z * P = 100 * (z * P) := Int.mul_assoc ..
    rw [Int.neg_mul, a1, a2]
    rw [a3] at h1 h2
    have hb : (0 : Int) ≤ P * b := Int.mul_nonneg (by omega) (by omega)
    have hc : (0 : Int) ≤ c * P := Int.mul_nonneg (by omega) (by omega)
    clear a1 a2 a3 e1 e v1 v2
    generalize v * b * P = V at *
    generalize z * P = Z at *
    generalize P * (b : Int) = B at *
    generalize (c : Int) * P = C at *
    generalize u * (b : Int) = U at *
    omega
  exact ⟨Int.le_of_mul_le_mul_right goal1.1 hP', Int.le_of_mul_le_mul_right goal1.2 hP'⟩

theorem natAbs_mul_nat (x : Int) (b : Nat) : ((x.natAbs : Int)) * b = ((x * b).natAbs : Int) := by
  rw [Int.natAbs_mul, Int.natCast_mul]; rfl

theorem pow_large : (2 : Int) ^ 60 ≤ 2 ^ 1074 := by
  have := Int.ofNat_le.2 (Nat.pow_le_pow_right (n := 2) (by decide) (by decide : 60 ≤ 1074))
  rwa [Int.natCast_pow, Int.natCast_pow] at this

theorem scale_up (b : Nat) : (2 ^ 60 : Int) * b ≤ b * 2 ^ 1074 := by
  rw [Int.mul_comm]
  refine Int.mul_le_mul_of_nonneg_left ?_ (Int.natCast_nonneg b)
  exact pow_large

/-- The quotient of whole numbers is not huge. -/
theorem quotient_bound {a : Int} {b : Nat} (ha : a.natAbs < 2 ^ 53) (hb : 0 < b) (hb' : b < 2 ^ 53) :
    (F64.div (F64.ofInt a) (F64.ofInt b)).units.natAbs ≤ 2 ^ 55 * 2 ^ 1074 := by
  obtain ⟨-, h1, h2⟩ := F64.div_near ha hb hb'
  generalize (F64.div (F64.ofInt a) (F64.ofInt b)).units = k at *
  have hk : (k.natAbs : Int) ≤ ((k * b).natAbs : Int) := by
    rw [← natAbs_mul_nat]
    have := Int.mul_le_mul_of_nonneg_left (show (1 : Int) ≤ b by omega) (Int.natCast_nonneg k.natAbs)
    rwa [Int.mul_one] at this
  have hz : (a.natAbs : Int) * 2 ^ 1074 ≤ 2 ^ 53 * 2 ^ 1074 :=
    Int.mul_le_mul_of_nonneg_right (by omega) (Int.pow_nonneg (by decide))
  have he : ((a * 2 ^ 1074).natAbs : Int) = a.natAbs * 2 ^ 1074 := by rw [Int.natAbs_mul, Int.natCast_mul, Int.natAbs_pow]; rfl
  have hP := pow_large
  have : (k.natAbs : Int) ≤ 2 ^ 55 * 2 ^ 1074 := by
    rw [← he] at h1 h2 hz
    generalize a * 2 ^ 1074 = A at *
    generalize k * b = K at *
    generalize (2 : Int) ^ 1074 = P at *
    omega
  have c : ((2 ^ 55 * 2 ^ 1074 : Nat) : Int) = 2 ^ 55 * 2 ^ 1074 := by rw [Int.natCast_mul, Int.natCast_pow, Int.natCast_pow]; rfl
  exact Int.ofNat_le.1 (by rw [c]; exact this)

/-- **C91.** The percentage in a row of the temporal results is shown to the last digit. -/
theorem C91_diff {a b : Nat} (ha : a < 2 ^ 53) (hb : 0 < b) (hb' : b < 2 ^ 53) :
    ShowsPct (fmtFixed 2 (diffPct a b)) ((a : Int) - b) b (a + b) := by
  unfold diffPct
  rw [if_pos hb]
  have hd : ((a : Int) - b).natAbs < 2 ^ 53 := by omega
  obtain ⟨fq, q1, q2⟩ := F64.div_near hd hb hb'
  obtain ⟨fm, m1, m2⟩ := F64.mul_near fq (R := 100) (by decide)
    (Nat.le_trans (quotient_bound hd hb hb') (Nat.mul_le_mul_right _ (Nat.pow_le_pow_right (by decide) (by decide))))
  have hs := scale_up b
  have hab : (0 : Int) ≤ (a : Int) * 2 ^ 1074 := Int.mul_nonneg (by omega) (Int.pow_nonneg (by decide))
  have hz : ((((a : Int) - b).natAbs : Nat) : Int) * 2 ^ 1074 ≤ ((a + b : Nat) : Int) * 2 ^ 1074 :=
    Int.mul_le_mul_of_nonneg_right (by omega) (Int.pow_nonneg (by decide))
  have hc : ((a + b : Nat) : Int) * 2 ^ 1074 = (a : Int) * 2 ^ 1074 + b * 2 ^ 1074 := by rw [Int.natCast_add, Int.add_mul]
  have he : ((((a : Int) - b) * 2 ^ 1074).natAbs : Int) = ((a : Int) - b).natAbs * 2 ^ 1074 := by
    rw [Int.natAbs_mul, Int.natCast_mul, Int.natAbs_pow]; rfl
  have hb0 : (0 : Int) ≤ b := by omega
  have n1 := Int.mul_le_mul_of_nonneg_right m1 hb0
  have n2 := Int.mul_le_mul_of_nonneg_right m2 hb0
  refine shows_near fm ?_ ?_
  all_goals
    generalize (F64.div (F64.ofInt ((a : Int) - b)) (F64.ofInt b)).units = k at *
    generalize (F64.mul (F64.div (F64.ofInt ((a : Int) - b)) (F64.ofInt b)) (F64.ofInt 100)).units = y at *
    have e1 : 2 ^ 53 * (y - k * (100 : Nat)) * b = 2 ^ 53 * (y * b - 100 * (k * b)) := by
      rw [Int.mul_assoc, Int.sub_mul, Int.mul_right_comm k, Int.mul_comm (k * b)]; rfl
    have e2 : ((k.natAbs : Int) * (100 : Nat) + 2 ^ 52) * b = 100 * ((k * b).natAbs : Int) + 2 ^ 52 * b := by
      rw [Int.add_mul, Int.mul_right_comm, natAbs_mul_nat, Int.mul_comm]; rfl
    have n1' : 2 ^ 53 * (y * b - 100 * (k * b)) ≤ 100 * ((k * b).natAbs : Int) + 2 ^ 52 * b := by rw [← e1, ← e2]; exact n1
    have n2' : -(100 * ((k * b).natAbs : Int) + 2 ^ 52 * b) ≤ 2 ^ 53 * (y * b - 100 * (k * b)) := by
      rw [← e1, ← e2, ← Int.neg_mul]; exact n2
    rw [Int.mul_assoc 100, hc]
    rw [hc, ← he] at hz
    rw [← he] at q1 q2
    clear n1 n2 e1 e2 m1 m2 hc he
    generalize ((a : Int) - b) * 2 ^ 1074 = A at *
    generalize (a : Int) * 2 ^ 1074 = A' at *
    generalize (b : Int) * 2 ^ 1074 = B at *
    generalize k * (b : Int) = K at *
    generalize y * (b : Int) = Y at *
    omega

/-- **C91.** A reduction, and the difference in a timing row, is shown to the last digit. -/
theorem C91_reduction {a b : Nat} (ha : a < 2 ^ 53) (hb : 0 < b) (hb' : b < 2 ^ 53) :
    ShowsPct (fmtFixed 2 (reduction a b)) ((b : Int) - a) b (a + b) := by
  unfold reduction F64.sub
  have hd : ((a : Int)).natAbs < 2 ^ 53 := by omega
  obtain ⟨fq, q1, q2⟩ := F64.div_near hd hb hb'
  have hq := quotient_bound hd hb hb'
  obtain ⟨f1, u1⟩ := F64.ofInt_int (v := 1) (by decide)
  have fn := F64.neg_fin fq
  have un := F64.neg_units fq
  generalize hk : (F64.div (F64.ofInt a) (F64.ofInt b)) = q at *
  have us : (F64.ofInt 1).units + (F64.neg q).units = 2 ^ 1074 - q.units := by
    rw [u1, un, Int.one_mul]; rfl
  have hw : (2 ^ 1074 - q.units).natAbs ≤ 2 ^ 56 * 2 ^ 1074 := by
    have c : ((2 ^ 1074 : Int)).natAbs = 2 ^ 1074 := by rw [Int.natAbs_pow]; rfl
    have : (2 ^ 1074 - q.units).natAbs ≤ ((2 ^ 1074 : Int)).natAbs + q.units.natAbs := Int.natAbs_sub_le ..
    rw [c] at this
    generalize (2 : Nat) ^ 1074 = P at *
    omega
  obtain ⟨fx, x1, x2⟩ := F64.sum_near f1 fn (by
    rw [us]
    exact Nat.le_trans hw (Nat.mul_le_mul_right _ (Nat.pow_le_pow_right (by decide) (by decide))))
  have hx : (F64.add (F64.ofInt 1) (F64.neg q)).units.natAbs ≤ 2 ^ 57 * 2 ^ 1074 := by
    rw [us] at x1 x2
    have hP : (2 : Nat) ^ 60 ≤ 2 ^ 1074 := Nat.pow_le_pow_right (by decide) (by decide)
    generalize (F64.add (F64.ofInt 1) (F64.neg q)).units = x at *
    generalize (2 ^ 1074 : Int) - q.units = w at *
    generalize (2 : Nat) ^ 1074 = P at *
    omega
  obtain ⟨fm, m1, m2⟩ := F64.mul_near fx (R := 100) (by decide)
    (Nat.le_trans hx (Nat.mul_le_mul_right _ (Nat.pow_le_pow_right (by decide) (by decide))))
  rw [us] at x1 x2
  have hs := scale_up b
  have hab : (0 : Int) ≤ (a : Int) * 2 ^ 1074 := Int.mul_nonneg (by omega) (Int.pow_nonneg (by decide))
  have hc : ((a + b : Nat) : Int) * 2 ^ 1074 = (a : Int) * 2 ^ 1074 + b * 2 ^ 1074 := by rw [Int.natCast_add, Int.add_mul]
  have he : (((a : Int)).natAbs : Int) * 2 ^ 1074 = a * 2 ^ 1074 := rfl
  have hz : ((b : Int) - a) * 2 ^ 1074 = b * 2 ^ 1074 - a * 2 ^ 1074 := Int.sub_mul ..
  have hb0 : (0 : Int) ≤ b := by omega
  have n1 := Int.mul_le_mul_of_nonneg_right m1 hb0
  have n2 := Int.mul_le_mul_of_nonneg_right m2 hb0
  have y1 := Int.mul_le_mul_of_nonneg_right x1 hb0
  have y2 := Int.mul_le_mul_of_nonneg_right x2 hb0
  have hkw : (2 ^ 1074 - q.units) * b = b * 2 ^ 1074 - q.units * b := by rw [Int.sub_mul, Int.mul_comm]
  refine shows_near fm ?_ ?_
  all_goals
    generalize (F64.mul (F64.add (F64.ofInt 1) (F64.neg q)) (F64.ofInt 100)).units = y at *
    generalize (F64.add (F64.ofInt 1) (F64.neg q)).units = x at *
    generalize q.units = k at *
    generalize hwk : (2 : Int) ^ 1074 - k = w at *
    have e1 : 2 ^ 53 * (y - x * (100 : Nat)) * b = 2 ^ 53 * (y * b - 100 * (x * b)) := by
      rw [Int.mul_assoc, Int.sub_mul, Int.mul_right_comm x, Int.mul_comm (x * b)]; rfl
    have e2 : ((x.natAbs : Int) * (100 : Nat) + 2 ^ 52) * b = 100 * ((x * b).natAbs : Int) + 2 ^ 52 * b := by
      rw [Int.add_mul, Int.mul_right_comm, natAbs_mul_nat, Int.mul_comm]; rfl
    have n1' : 2 ^ 53 * (y * b - 100 * (x * b)) ≤ 100 * ((x * b).natAbs : Int) + 2 ^ 52 * b := by rw [← e1, ← e2]; exact n1
    have n2' : -(100 * ((x * b).natAbs : Int) + 2 ^ 52 * b) ≤ 2 ^ 53 * (y * b - 100 * (x * b)) := by
      rw [← e1, ← e2, ← Int.neg_mul]; exact n2
    have g1 : 2 ^ 53 * (x - w) * b = 2 ^ 53 * (x * b - w * b) := by rw [Int.mul_assoc, Int.sub_mul]
    have g2 : ((w.natAbs : Int) + 2 ^ 52) * b = ((w * b).natAbs : Int) + 2 ^ 52 * b := by
      rw [Int.add_mul, natAbs_mul_nat]
    have y1' : 2 ^ 53 * (x * b - w * b) ≤ ((w * b).natAbs : Int) + 2 ^ 52 * b := by rw [← g1, ← g2]; exact y1
    have y2' : -(((w * b).natAbs : Int) + 2 ^ 52 * b) ≤ 2 ^ 53 * (x * b - w * b) := by
      rw [← g1, ← g2, ← Int.neg_mul]; exact y2
    rw [Int.mul_assoc 100, hc, hz]
    rw [he] at q1 q2
    clear n1 n2 y1 y2 e1 e2 g1 g2 m1 m2 x1 x2 hc he hz hwk hw hx hq un us hk
    rw [hkw] at y1' y2'
    generalize (a : Int) * 2 ^ 1074 = A at *
    generalize (b : Int) * 2 ^ 1074 = B at *
    generalize k * (b : Int) = K at *
    generalize x * (b : Int) = X at *
    generalize y * (b : Int) = Y at *
    omega

/-- Bounds of a percentage are bounds of what is shown. -/
theorem shown_le {v z : Int} {b c : Nat} (hb : 0 < b) (h : 2 ^ 31 * (v * b - 10000 * z) ≤ 2 ^ 30 * b + 2 * c) {n : Int}
    (hn : 2 ^ 31 * (10000 * z) + 2 * c < 2 ^ 31 * (n * b) + 2 ^ 30 * b) : v ≤ n := by
  have : v * b < (n + 1) * b := by
    rw [Int.add_mul, Int.one_mul]
    generalize v * (b : Int) = x at *
    generalize n * (b : Int) = y at *
    omega
  have := Int.lt_of_mul_lt_mul_right this (by omega)
  omega

theorem le_shown {v z : Int} {b c : Nat} (hb : 0 < b) (h : -(2 ^ 30 * b + 2 * c) ≤ 2 ^ 31 * (v * b - 10000 * z)) {n : Int}
    (hn : 2 ^ 31 * (n * b) + 2 * c < 2 ^ 31 * (10000 * z) + 2 ^ 30 * b) : n ≤ v := by
  have : (n - 1) * b < v * b := by
    rw [Int.sub_mul, Int.one_mul]
    generalize v * (b : Int) = x at *
    generalize n * (b : Int) = y at *
    omega
  have := Int.lt_of_mul_lt_mul_right this (by omega)
  omega

/-- **C91.** If the second number is not smaller, the reduction is shown between 0 and 100 percent, and at least 50 if it is
twice as large; if the first number is not smaller, at most 0. -/
theorem C91_range {a b : Nat} (ha : a < 2 ^ 53) (hb : 0 < b) (hb' : b < 2 ^ 53) :
    ∃ v, readFixed 2 (fmtFixed 2 (reduction a b)) = some v ∧ v ≤ 10000 ∧ (a ≤ b → 0 ≤ v) ∧ (2 * a ≤ b → 5000 ≤ v) ∧ (b ≤ a → v ≤ 0) := by
  obtain ⟨v, e, h1, h2⟩ := C91_reduction ha hb hb'
  exact ⟨v, e, shown_le hb h1 (by omega), fun h => le_shown hb h2 (by omega), fun h => le_shown hb h2 (by omega),
    fun h => shown_le hb h1 (by omega)⟩

/-- **C91.** A difference is never shown below -100 percent; its sign is that of the difference of the numbers. -/
theorem C91_sign {a b : Nat} (ha : a < 2 ^ 53) (hb : 0 < b) (hb' : b < 2 ^ 53) :
    ∃ v, readFixed 2 (fmtFixed 2 (diffPct a b)) = some v ∧ -10000 ≤ v ∧ (a ≤ b → v ≤ 0) ∧ (b ≤ a → 0 ≤ v) := by
  obtain ⟨v, e, h1, h2⟩ := C91_diff ha hb hb'
  exact ⟨v, e, le_shown hb h2 (by omega), fun h => shown_le hb h1 (by omega), fun h => le_shown hb h2 (by omega)⟩

example : ∃ v, readFixed 2 (fmtFixed 2 (reduction 1 3)) = some v ∧ v = 6667 := ⟨_, by decide +kernel, rfl⟩
example : (1 : Nat) < 2 ^ 53 ∧ 0 < 3 ∧ 3 < 2 ^ 53 := by decide

/-- **C91, refuted without numbers to compare with.**  The reduction of nothing is shown as `NaN`, that of something as `-Inf`; the
other differences are shown as 0 whatever the first number is. -/
theorem C91_zero_fails : fmtFixed 2 (reduction 0 0) = b!"NaN" ∧ fmtFixed 2 (reduction 7 0) = b!"-Inf" ∧
    fmtFixed 2 (diffPct 7 0) = b!"0.00" ∧ fmtFixed 2 (timingDiff 7 0) = b!"0.00" := by decide +kernel

/-- **C91.** The bandwidth, in KB per second, is shown to the last digit: `v` hundredths, where `v` is about
`100 * size / (1024 * secs)`. -/
theorem C91_bandwidth {size secs : Nat} (ha : size < 2 ^ 53) (hb : 0 < secs) (hb' : secs < 2 ^ 53) :
    ShowsPct (fmtFixed 2 (bandwidth size secs)) size (102400 * secs) (size + secs) := by
  unfold bandwidth
  have ha' : ((size : Nat) : Int).natAbs < 2 ^ 53 := by omega
  obtain ⟨fq, q1, q2⟩ := F64.div_near ha' hb hb'
  obtain ⟨fm, m1, m2⟩ := F64.quot_near fq (R := 1024) (by decide) (by decide)
    (Nat.le_trans (quotient_bound ha' hb hb') (Nat.mul_le_mul_right _ (Nat.pow_le_pow_right (by decide) (by decide))))
  have hs := scale_up secs
  have hab : (0 : Int) ≤ (size : Int) * 2 ^ 1074 := Int.mul_nonneg (by omega) (Int.pow_nonneg (by decide))
  have hc : ((size + secs : Nat) : Int) * 2 ^ 1074 = (size : Int) * 2 ^ 1074 + secs * 2 ^ 1074 := by rw [Int.natCast_add, Int.add_mul]
  have hb0 : (0 : Int) ≤ secs := by omega
  have n1 := Int.mul_le_mul_of_nonneg_right m1 hb0
  have n2 := Int.mul_le_mul_of_nonneg_right m2 hb0
  refine shows_near fm ?_ ?_
  all_goals
    generalize (F64.div (F64.ofInt (size : Int)) (F64.ofInt secs)).units = k at *
    generalize (F64.div (F64.div (F64.ofInt (size : Int)) (F64.ofInt secs)) (F64.ofInt 1024)).units = y at *
    have e1 : 2 ^ 53 * (y * (1024 : Nat) - k) * secs = 2 ^ 53 * (1024 * (y * secs) - k * secs) := by
      rw [Int.mul_assoc, Int.sub_mul, Int.mul_right_comm y, Int.mul_comm (y * secs)]; rfl
    have e2 : ((k.natAbs : Int) + 2 ^ 52 * (1024 : Nat)) * secs = ((k * secs).natAbs : Int) + 2 ^ 52 * (1024 * secs) := by
      rw [Int.add_mul, natAbs_mul_nat, Int.mul_assoc]; rfl
    have n1' : 2 ^ 53 * (1024 * (y * secs) - k * secs) ≤ ((k * secs).natAbs : Int) + 2 ^ 52 * (1024 * secs) := by rw [← e1, ← e2]; exact n1
    have n2' : -(((k * secs).natAbs : Int) + 2 ^ 52 * (1024 * secs)) ≤ 2 ^ 53 * (1024 * (y * secs) - k * secs) := by
      rw [← e1, ← e2, ← Int.neg_mul]; exact n2
    have e3 : y * ((102400 * secs : Nat) : Int) = 102400 * (y * secs) := by rw [Int.natCast_mul, Int.mul_left_comm]; rfl
    rw [Int.mul_assoc 100, hc, e3]
    have he : (((size : Nat) : Int).natAbs : Int) * 2 ^ 1074 = size * 2 ^ 1074 := rfl
    rw [he] at q1 q2
    clear n1 n2 e1 e2 m1 m2 hc e3 he
    generalize (size : Int) * 2 ^ 1074 = A at *
    generalize (secs : Int) * 2 ^ 1074 = B at *
    generalize k * (secs : Int) = K at *
    generalize y * (secs : Int) = Y at *
    omega

example : fmtFixed 2 (bandwidth 3000000 300) = b!"9.77" := by decide +kernel

/-- **C91, refuted without time.**  Nothing per no time is shown as `NaN`, something as `+Inf`. -/
theorem C91_bandwidth_fails : fmtFixed 2 (bandwidth 0 0) = b!"NaN" ∧ fmtFixed 2 (bandwidth 2 0) = b!"+Inf" := by decide +kernel

end Verif
