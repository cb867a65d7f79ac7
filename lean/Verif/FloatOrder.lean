import Verif.FloatLemmas
/-
The order of floating-point numbers: correct rounding keeps it.
-/
namespace Verif
namespace F64

/-- The magnitude of `m * 2^e` in ulps of the smallest positive number. -/
def ulps (m : Nat) (e : Int) : Nat := m * 2 ^ (e + 1074).toNat

theorem divRound_mono {a b d : Nat} (hd : 0 < d) (h : a ≤ b) : divRound a d ≤ divRound b d := by
  have ha := Nat.div_add_mod a d
  have hb := Nat.div_add_mod b d
  have ra := Nat.mod_lt a hd
  have rb := Nat.mod_lt b hd
  have hq : a / d ≤ b / d := Nat.div_le_div_right h
  unfold divRound
  dsimp only
  generalize a / d = q at *
  generalize b / d = q' at *
  generalize a % d = r at *
  generalize b % d = r' at *
  by_cases he : q = q'
  · subst he
    have : r ≤ r' := by omega
    repeat' split
    all_goals omega
  · repeat' split
    all_goals omega

theorem divRound_scale (a d s : Nat) (hs : 0 < s) : divRound (a * s) (d * s) = divRound a d := by
  unfold divRound
  dsimp only
  rw [Nat.mul_div_mul_right _ _ hs, Nat.mul_mod_mul_right, ← Nat.mul_assoc]
  have h1 : 2 * (a % d) * s < d * s ↔ 2 * (a % d) < d := Nat.mul_lt_mul_right hs
  have h2 : d * s < 2 * (a % d) * s ↔ d < 2 * (a % d) := Nat.mul_lt_mul_right hs
  simp only [h1, h2]

theorem divRound_le {a d n : Nat} (hd : 0 < d) (h : a ≤ n * d) : divRound a d ≤ n := by
  have := divRound_mono hd h
  rwa [divRound_exact _ _ hd] at this

theorem le_divRound {a d n : Nat} (hd : 0 < d) (h : n * d ≤ a) : n ≤ divRound a d := by
  have := divRound_mono hd h
  rwa [divRound_exact _ _ hd] at this

/-- The exponent of the rounded number, from the smallest one. -/
def shift (p q : Nat) : Nat := (max (floorLog2 p q - 52) (-1074) + 1074).toNat

/-- The rounded number in ulps of the smallest positive one. -/
def rounded (p q : Nat) : Nat := divRound (p * 2 ^ 1074) (q * 2 ^ shift p q) * 2 ^ shift p q

theorem scaleRound_scale (p q K : Nat) (e : Int) (h : -(K : Int) ≤ e) : scaleRound p q e =
    divRound (p * 2 ^ K) (q * 2 ^ (e + K).toNat) := by
  unfold scaleRound
  split
  · rename_i h0
    have : (e + K).toNat = e.toNat + K := by omega
    rw [this, Nat.pow_add, ← Nat.mul_assoc, divRound_scale _ _ _ (Nat.two_pow_pos _)]
  · rename_i h0
    have : 2 ^ K = 2 ^ (-e).toNat * 2 ^ (e + K).toNat := by rw [← Nat.pow_add]; congr 1; omega
    rw [this, ← Nat.mul_assoc, divRound_scale _ _ _ (Nat.two_pow_pos _)]

theorem ofRatio_ulps {neg : Bool} {p q : Nat} {f : F64} (h : ofRatio neg p q = some f) :
    ∃ m e hc, f = .fin neg m e hc ∧ ulps m e = rounded p q := by
  have hmk : ∀ {m e}, mk? neg m e = some f → ∃ hc, f = .fin neg m e hc := by
    intro m e h
    unfold mk? at h
    split at h
    · rename_i hc
      cases h; exact ⟨hc, rfl⟩
    · cases h
  unfold ofRatio at h
  by_cases hp : p = 0
  · rw [if_pos hp] at h
    obtain ⟨hc, rfl⟩ := hmk h
    refine ⟨0, _, hc, rfl, ?_⟩
    subst hp
    unfold ulps rounded divRound
    simp
  · rw [if_neg hp] at h
    dsimp only at h
    have hs := scaleRound_scale p q 1074 (max (floorLog2 p q - 52) (-1074)) (by omega)
    by_cases h53 : scaleRound p q (max (floorLog2 p q - 52) (-1074)) = 2 ^ 53
    · rw [if_pos h53] at h
      obtain ⟨hc, rfl⟩ := hmk h
      refine ⟨_, _, hc, rfl, ?_⟩
      unfold rounded ulps shift
      rw [hs] at h53
      rw [show ((1074 : Nat) : Int) = 1074 from rfl] at h53
      rw [h53, show (max (floorLog2 p q - 52) (-1074) + 1 + 1074).toNat = (max (floorLog2 p q - 52) (-1074) + 1074).toNat + 1 by omega,
        Nat.pow_succ]
      omega
    · rw [if_neg h53] at h
      obtain ⟨hc, rfl⟩ := hmk h
      refine ⟨_, _, hc, rfl, ?_⟩
      unfold rounded ulps shift
      rw [hs]; rfl

theorem shift_spec {p q : Nat} (hp : 0 < p) (hq : 0 < q) :
    p * 2 ^ 1074 < q * 2 ^ (shift p q + 53) ∧ (shift p q = 0 ∨ q * 2 ^ (shift p q + 52) ≤ p * 2 ^ 1074) := by
  obtain ⟨h1, h2⟩ := floorLog2_spec hp hq
  generalize hL : floorLog2 p q = L at *
  have hsh : shift p q = (max (L - 52) (-1074) + 1074).toNat := by unfold shift; rw [hL]
  rw [hsh]
  constructor
  · have h3 : ¬ Le2 (max (L - 52) (-1074) + 53) p q := fun h => h2 (h.mono (by omega))
    rw [le2_scale (K := 1074) (by omega)] at h3
    rw [show (max (L - 52) (-1074) + 53 + ((1074 : Nat) : Int)).toNat = (max (L - 52) (-1074) + 1074).toNat + 53 by omega] at h3
    exact Nat.not_le.1 h3
  · by_cases h0 : -1074 < L - 52
    · right
      rw [le2_scale (K := 1074) (by omega)] at h1
      rw [show (L + ((1074 : Nat) : Int)).toNat = (max (L - 52) (-1074) + 1074).toNat + 52 by omega] at h1
      exact h1
    · left; omega

/-- Correct rounding keeps the order. -/
theorem rounded_mono {p q p' q' : Nat} (hq : 0 < q) (hq' : 0 < q') (h : p * q' ≤ p' * q) : rounded p q ≤ rounded p' q' := by
  by_cases hp : p = 0
  · subst hp
    unfold rounded divRound
    simp
  have hp : 0 < p := by omega
  have hp' : 0 < p' := by
    rcases Nat.eq_zero_or_pos p' with h0 | h0
    · subst h0
      have := Nat.mul_pos hp hq'
      omega
    · exact h0
  obtain ⟨a1, a2⟩ := shift_spec hp hq
  obtain ⟨b1, b2⟩ := shift_spec hp' hq'
  unfold rounded
  generalize shift p q = s at *
  generalize shift p' q' = s' at *
  generalize (2 : Nat) ^ 1074 = K at *
  have hK : p * K * q' ≤ p' * K * q := by
    have := Nat.mul_le_mul_right K h
    rw [Nat.mul_right_comm, Nat.mul_right_comm p']
    exact this
  generalize p * K = A at *
  generalize p' * K = B at *
  have hs : s ≤ s' := by
    refine Nat.not_lt.1 fun hlt => ?_
    rcases a2 with a2 | a2
    · omega
    · have e1 : q * 2 ^ (s + 52) * q' ≤ A * q' := Nat.mul_le_mul_right _ a2
      have e2 : B * q < q' * 2 ^ (s' + 53) * q := Nat.mul_lt_mul_of_pos_right b1 hq
      have e3 : q' * 2 ^ (s' + 53) * q ≤ q' * 2 ^ (s + 52) * q :=
        Nat.mul_le_mul_right _ (Nat.mul_le_mul_left _ (Nat.pow_le_pow_right (by omega) (by omega)))
      have e4 : q' * 2 ^ (s + 52) * q = q * 2 ^ (s + 52) * q' := by
        rw [Nat.mul_comm q', Nat.mul_assoc, Nat.mul_comm q' q, ← Nat.mul_assoc, Nat.mul_comm q]
      omega
  have d1 : 0 < q * 2 ^ s := Nat.mul_pos hq (Nat.two_pow_pos _)
  have d2 : 0 < q' * 2 ^ s' := Nat.mul_pos hq' (Nat.two_pow_pos _)
  by_cases he : s = s'
  · subst he
    apply Nat.mul_le_mul_right
    rw [← divRound_scale A _ q' hq', ← divRound_scale B _ q hq,
      show q' * 2 ^ s * q = q * 2 ^ s * q' by
        rw [Nat.mul_comm q', Nat.mul_assoc, Nat.mul_comm q' q, ← Nat.mul_assoc, Nat.mul_comm q]]
    exact divRound_mono (Nat.mul_pos d1 hq') hK
  · have c1 : divRound A (q * 2 ^ s) ≤ 2 ^ 53 := by
      apply divRound_le d1
      rw [Nat.pow_add] at a1
      have : 2 ^ 53 * (q * 2 ^ s) = q * (2 ^ s * 2 ^ 53) := by
        rw [Nat.mul_comm, Nat.mul_assoc]
      omega
    have c2 : 2 ^ 52 ≤ divRound B (q' * 2 ^ s') := by
      apply le_divRound d2
      rcases b2 with b2 | b2
      · omega
      · rw [Nat.pow_add] at b2
        have : 2 ^ 52 * (q' * 2 ^ s') = q' * (2 ^ s' * 2 ^ 52) := by
          rw [Nat.mul_comm, Nat.mul_assoc]
        omega
    calc divRound A (q * 2 ^ s) * 2 ^ s ≤ 2 ^ 53 * 2 ^ s := Nat.mul_le_mul_right _ c1
      _ = 2 ^ 52 * 2 ^ (s + 1) := by rw [Nat.pow_succ]; omega
      _ ≤ 2 ^ 52 * 2 ^ s' := Nat.mul_le_mul_left _ (Nat.pow_le_pow_right (by omega) (by omega))
      _ ≤ _ := Nat.mul_le_mul_right _ c2

end F64
end Verif
