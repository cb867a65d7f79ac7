import Verif.PropsFloatRange
import Verif.ExpQuery
/-
Floating-point arithmetic: the exact result is rounded to the nearest number, ties to even.
-/
namespace Verif
namespace F64

/-- The sign bit. [of a `float64`, exp/utils.go:105] -/
def signBit : F64 → Bool
  | .nan => false
  | .inf s => s
  | .fin s _ _ _ => s

/-- The number nearest to `z / q`; `zneg` is the sign of a zero result. [rounding of exp/utils.go:105, 269, 279] -/
def roundZ (zneg : Bool) (z : Int) (q : Nat) : F64 :=
  (ofRatio (if z = 0 then zneg else decide (z < 0)) z.natAbs q).getD (.inf (decide (z < 0)))

/-- `-a`. [exp/utils.go:105] -/
def neg : F64 → F64
  | .nan => .nan
  | .inf s => .inf (!s)
  | .fin s m e h => .fin (!s) m e h

/-- `a + b`. [exp/utils.go:269, 279, 299, 309, 335, 362] -/
def add : F64 → F64 → F64
  | .nan, _ => .nan
  | _, .nan => .nan
  | .inf a, .inf b => if a = b then .inf a else .nan
  | .inf a, .fin .. => .inf a
  | .fin .., .inf b => .inf b
  | a@(.fin ..), b@(.fin ..) => roundZ (a.signBit && b.signBit) (a.units + b.units) (2 ^ 1074)

/-- `a - b`. [exp/utils.go:105, 269, 308, 362] -/
def sub (a b : F64) : F64 := add a (neg b)

/-- `a * b`. [exp/utils.go:269, 279, 299, 308, 335, 362] -/
def mul : F64 → F64 → F64
  | .nan, _ => .nan
  | _, .nan => .nan
  | .inf a, .inf b => .inf (a != b)
  | .inf a, b@(.fin ..) => if b.units = 0 then .nan else .inf (a != b.signBit)
  | a@(.fin ..), .inf b => if a.units = 0 then .nan else .inf (a.signBit != b)
  | a@(.fin ..), b@(.fin ..) => roundZ (a.signBit != b.signBit) (a.units * b.units) (2 ^ 2148)

/-- `a / b`. [exp/utils.go:279, 298] -/
def div : F64 → F64 → F64
  | .nan, _ => .nan
  | _, .nan => .nan
  | .inf _, .inf _ => .nan
  | .inf a, b@(.fin ..) => .inf (a != b.signBit)
  | a@(.fin ..), .inf b => .fin (a.signBit != b) 0 (-1074) (by decide)
  | a@(.fin ..), b@(.fin ..) =>
    if b.units = 0 then (if a.units = 0 then .nan else .inf (a.signBit != b.signBit))
    else roundZ (a.signBit != b.signBit) (a.units * b.units.sign) b.units.natAbs

/-- `math.Abs`. [exp/utils.go:105] -/
def abs : F64 → F64
  | .nan => .nan
  | .inf _ => .inf false
  | .fin _ m e h => .fin false m e h

/-! ### The order -/

/-- The place of a number in the order; NaN has none. -/
def key : F64 → Int
  | .nan => 0
  | .inf s => if s then -(2 ^ 2098 : Nat) else (2 ^ 2098 : Nat)
  | f@(.fin ..) => f.units

theorem units_eq (s : Bool) (m : Nat) (e : Int) (h : canon m e = true) :
    (F64.fin s m e h).units = if s then -(ulps m e : Int) else (ulps m e : Int) := rfl

theorem ulps_lt {m : Nat} {e : Int} (h : canon m e = true) : ulps m e < 2 ^ 2098 := by
  obtain ⟨h1, h2, h3, -⟩ := canon_iff.1 h
  unfold ulps
  have e1 : (2 : Nat) ^ (e + 1074).toNat ≤ 2 ^ 2045 := Nat.pow_le_pow_right (by decide) (by omega)
  have e2 : (2 : Nat) ^ 2098 = 2 ^ 53 * 2 ^ 2045 := by rw [← Nat.pow_add]
  rw [e2]
  generalize (2 : Nat) ^ (e + 1074).toNat = A at *
  have hK := Nat.two_pow_pos 2045
  generalize (2 : Nat) ^ 2045 = K at *
  calc m * A ≤ m * K := Nat.mul_le_mul_left _ e1
    _ < 2 ^ 53 * K := Nat.mul_lt_mul_of_pos_right h1 hK

theorem units_lt (s : Bool) (m : Nat) (e : Int) (h : canon m e = true) :
    -((2 ^ 2098 : Nat) : Int) < (F64.fin s m e h).units ∧ (F64.fin s m e h).units < ((2 ^ 2098 : Nat) : Int) := by
  have := ulps_lt h
  rw [units_eq]
  generalize (2 : Nat) ^ 2098 = K at *
  split <;> omega

theorem flt_iff {a b : F64} (ha : a ≠ .nan) (hb : b ≠ .nan) : flt a b = true ↔ a.key < b.key := by
  have hK : (0 : Int) < ((2 ^ 2098 : Nat) : Int) := by have := Nat.two_pow_pos 2098; omega
  cases a with
  | nan => exact absurd rfl ha
  | inf s =>
    cases b with
    | nan => exact absurd rfl hb
    | inf t =>
      simp only [flt, key]
      generalize ((2 ^ 2098 : Nat) : Int) = K at *
      cases s <;> cases t <;> simp <;> omega
    | fin t m e h =>
      have := units_lt t m e h
      simp only [flt, key]
      generalize ((2 ^ 2098 : Nat) : Int) = K at *
      cases s <;> simp <;> omega
  | fin s m e h =>
    cases b with
    | nan => exact absurd rfl hb
    | inf t =>
      have := units_lt s m e h
      simp only [flt, key]
      generalize ((2 ^ 2098 : Nat) : Int) = K at *
      cases t <;> simp <;> omega
    | fin t m' e' h' => simp [flt, key]

/-! ### Rounding -/

/-- What overflows is large. -/
theorem ofRatio_none {s : Bool} {p q : Nat} (hq : 0 < q) (h : ofRatio s p q = none) : 2 ^ 2098 ≤ rounded p q := by
  unfold ofRatio at h
  by_cases hp : p = 0
  · rw [if_pos hp] at h
    unfold mk? at h
    rw [dif_pos (by decide)] at h
    cases h
  · rw [if_neg hp] at h
    dsimp only at h
    have hp : 0 < p := by omega
    obtain ⟨a1, a2⟩ := shift_spec hp hq
    have hs := scaleRound_scale p q 1074 (max (floorLog2 p q - 52) (-1074)) (by omega)
    have hd : 0 < q * 2 ^ shift p q := Nat.mul_pos hq (Nat.two_pow_pos _)
    have hm : scaleRound p q (max (floorLog2 p q - 52) (-1074)) = divRound (p * 2 ^ 1074) (q * 2 ^ shift p q) := hs
    rw [hm] at h
    have c1 : divRound (p * 2 ^ 1074) (q * 2 ^ shift p q) ≤ 2 ^ 53 := by
      apply divRound_le hd
      rw [Nat.pow_add] at a1
      have : 2 ^ 53 * (q * 2 ^ shift p q) = q * (2 ^ shift p q * 2 ^ 53) := by
        rw [Nat.mul_comm, Nat.mul_assoc]
      omega
    have c2 : shift p q = 0 ∨ 2 ^ 52 ≤ divRound (p * 2 ^ 1074) (q * 2 ^ shift p q) := by
      rcases a2 with a2 | a2
      · exact .inl a2
      · right
        apply le_divRound hd
        rw [Nat.pow_add] at a2
        have : 2 ^ 52 * (q * 2 ^ shift p q) = q * (2 ^ shift p q * 2 ^ 52) := by
          rw [Nat.mul_comm, Nat.mul_assoc]
        omega
    have hsh : (shift p q : Int) = max (floorLog2 p q - 52) (-1074) + 1074 := by unfold shift; omega
    unfold rounded
    generalize divRound (p * 2 ^ 1074) (q * 2 ^ shift p q) = M at *
    generalize max (floorLog2 p q - 52) (-1074) = E at *
    generalize shift p q = S at *
    have big : ∀ A B : Nat, 2 ^ 52 ≤ A → 2046 ≤ B → 2 ^ 2098 ≤ A * 2 ^ B := by
      intro A B hA hB
      have e2 : (2 : Nat) ^ 2098 = 2 ^ 52 * 2 ^ 2046 := by rw [← Nat.pow_add]
      rw [e2]
      exact Nat.mul_le_mul hA (Nat.pow_le_pow_right (by decide) hB)
    by_cases h53 : M = 2 ^ 53
    · rw [if_pos h53] at h
      unfold mk? at h
      split at h
      · cases h
      · rename_i hc
        have : 2046 ≤ S + 1 := by
          refine Nat.not_lt.1 fun hlt => hc (canon_iff.2 ⟨by decide, by omega, by omega, .inl (Nat.le_refl _)⟩)
        have := big (2 ^ 52) (S + 1) (Nat.le_refl _) this
        have e3 : 2 ^ 52 * 2 ^ (S + 1) = M * 2 ^ S := by
          rw [h53, Nat.pow_succ 2 S]
          generalize (2 : Nat) ^ S = Z
          omega
        rw [← e3]
        exact this
    · rw [if_neg h53] at h
      unfold mk? at h
      split at h
      · cases h
      · rename_i hc
        have hlt : M < 2 ^ 53 := by omega
        by_cases hE : E ≤ 971
        · refine absurd (canon_iff.2 ⟨hlt, by omega, hE, ?_⟩) hc
          rcases c2 with c2 | c2
          · right; omega
          · exact .inl c2
        · refine big _ _ ?_ (by omega)
          rcases c2 with c2 | c2
          · omega
          · exact c2

theorem roundZ_ne_nan (s : Bool) (z : Int) (q : Nat) : roundZ s z q ≠ .nan := by
  unfold roundZ
  cases h : ofRatio (if z = 0 then s else decide (z < 0)) z.natAbs q with
  | none => intro h; cases h
  | some f =>
    obtain ⟨m, e, hc, rfl, -⟩ := ofRatio_ulps h
    intro h; cases h

/-- The rounded number, as a place in the order. -/
theorem roundZ_key (s : Bool) (z : Int) {q : Nat} (hq : 0 < q) :
    (roundZ s z q).key = if z < 0 then -((min (rounded z.natAbs q) (2 ^ 2098) : Nat) : Int) else ((min (rounded z.natAbs q) (2 ^ 2098) : Nat) : Int) := by
  unfold roundZ
  cases h : ofRatio (if z = 0 then s else decide (z < 0)) z.natAbs q with
  | none =>
    have := ofRatio_none hq h
    rw [Option.getD_none, key, Nat.min_eq_right this]
    by_cases hz : z < 0
    · rw [if_pos (by simpa using hz), if_pos hz]
    · rw [if_neg (by simpa using hz), if_neg hz]
  | some f =>
    obtain ⟨m, e, hc, rfl, hu⟩ := ofRatio_ulps h
    have := ulps_lt hc
    rw [Option.getD_some, key, units_eq, ← hu, Nat.min_eq_left (Nat.le_of_lt this)]
    by_cases hz : z < 0
    · rw [if_pos hz, if_pos (by rw [if_neg (by omega)]; simpa using hz)]
    · rw [if_neg hz]
      by_cases h0 : z = 0
      · have : ulps m e = 0 := by
          rw [hu, h0]
          unfold rounded divRound
          simp
        rw [this]; simp
      · rw [if_neg (by rw [if_neg h0]; simpa using hz)]

theorem signed_mono {z z' : Int} {a b K : Nat} (h : z < 0 → z' < 0 → b ≤ a) (h' : ¬ z < 0 → ¬ z' < 0 ∧ a ≤ b) :
    (if z < 0 then -((min a K : Nat) : Int) else ((min a K : Nat) : Int)) ≤
      if z' < 0 then -((min b K : Nat) : Int) else ((min b K : Nat) : Int) := by
  by_cases hz : z < 0
  · rw [if_pos hz]
    by_cases hz' : z' < 0
    · rw [if_pos hz']; have := h hz hz'; omega
    · rw [if_neg hz']; omega
  · obtain ⟨hz', hab⟩ := h' hz
    rw [if_neg hz, if_neg hz']; omega

/-- Rounding keeps the order. -/
theorem roundZ_mono {z z' : Int} {q q' : Nat} (hq : 0 < q) (hq' : 0 < q') (h : z * q' ≤ z' * q) (s s' : Bool) :
    (roundZ s z q).key ≤ (roundZ s' z' q').key := by
  rw [roundZ_key _ _ hq, roundZ_key _ _ hq']
  have hq0 : (0 : Int) < q := Int.natCast_pos.2 hq
  have hq0' : (0 : Int) < q' := Int.natCast_pos.2 hq'
  refine signed_mono (fun hz hz' => ?_) (fun hz => ?_)
  · refine rounded_mono hq' hq ?_
    have : ((z'.natAbs * q : Nat) : Int) ≤ ((z.natAbs * q' : Nat) : Int) := by
      rw [Int.natCast_mul, Int.natCast_mul]
      have e1 : (z'.natAbs : Int) = -z' := by omega
      have e2 : (z.natAbs : Int) = -z := by omega
      rw [e1, e2, Int.neg_mul, Int.neg_mul]
      exact Int.neg_le_neg h
    exact Int.ofNat_le.1 this
  · have hz' : ¬ z' < 0 := by
      intro hz'
      have e1 : z' * q < 0 := Int.mul_neg_of_neg_of_pos hz' hq0
      have e2 : 0 ≤ z * q' := Int.mul_nonneg (by omega) (by omega)
      omega
    refine ⟨hz', rounded_mono hq hq' ?_⟩
    have : ((z.natAbs * q' : Nat) : Int) ≤ ((z'.natAbs * q : Nat) : Int) := by
      rw [Int.natCast_mul, Int.natCast_mul]
      have e1 : (z'.natAbs : Int) = z' := by omega
      have e2 : (z.natAbs : Int) = z := by omega
      rw [e1, e2]; exact h
    exact Int.ofNat_le.1 this

/-- Numbers are not changed by rounding. -/
theorem roundZ_units (s t : Bool) (m : Nat) (e : Int) (h : canon m e = true) :
    (roundZ s (F64.fin t m e h).units (2 ^ 1074)).key = (F64.fin t m e h).units := by
  rw [roundZ_key _ _ (Nat.two_pow_pos _), units_eq]
  have hr : rounded (ulps m e) (2 ^ 1074) = ulps m e := rounded_exact h (Nat.two_pow_pos _) (units_ratio h)
  have hl := ulps_lt h
  cases t
  · simp only [Bool.false_eq_true, if_false, Int.natAbs_natCast]
    rw [if_neg (by omega), hr, Nat.min_eq_left (Nat.le_of_lt hl)]
  · simp only [if_true, Int.natAbs_neg, Int.natAbs_natCast]
    rw [hr, Nat.min_eq_left (Nat.le_of_lt hl)]
    split <;> omega

/-- A number at least `z / q` is at least the number nearest to it. -/
theorem roundZ_le {z : Int} {q : Nat} (hq : 0 < q) {f : F64} (hf : ∃ t m e h, f = .fin t m e h) (h : z * 2 ^ 1074 ≤ f.units * q) (s : Bool) :
    (roundZ s z q).key ≤ f.units := by
  obtain ⟨t, m, e, hc, rfl⟩ := hf
  rw [← roundZ_units false t m e hc]
  refine roundZ_mono hq (Nat.two_pow_pos _) ?_ _ _
  rw [Int.natCast_pow]
  exact h

/-- A number at most `z / q` is at most the number nearest to it. -/
theorem le_roundZ {z : Int} {q : Nat} (hq : 0 < q) {f : F64} (hf : ∃ t m e h, f = .fin t m e h) (h : f.units * q ≤ z * 2 ^ 1074) (s : Bool) :
    f.units ≤ (roundZ s z q).key := by
  obtain ⟨t, m, e, hc, rfl⟩ := hf
  rw [← roundZ_units false t m e hc]
  refine roundZ_mono (Nat.two_pow_pos _) hq ?_ _ _
  rw [Int.natCast_pow]
  exact h

end F64
end Verif
