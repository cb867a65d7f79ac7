import Verif.FloatText
/-
Lemmas about reading and printing floats: a float printed without exponent reads back as itself.
-/
namespace Verif

namespace F64

/-- `2^L ≤ p / q`. -/
def Le2 (L : Int) (p q : Nat) : Prop := q * 2 ^ L.toNat ≤ p * 2 ^ (-L).toNat

theorem le2_scale {L : Int} {p q K : Nat} (hK : (-L).toNat ≤ K) :
    Le2 L p q ↔ q * 2 ^ (L + K).toNat ≤ p * 2 ^ K := by
  unfold Le2
  have h1 : (L + K).toNat = L.toNat + (K - (-L).toNat) := by omega
  have h2 : K = (-L).toNat + (K - (-L).toNat) := by omega
  generalize K - (-L).toNat = r at h1 h2
  rw [h1, h2, Nat.pow_add, Nat.pow_add, ← Nat.mul_assoc, ← Nat.mul_assoc]
  exact (Nat.mul_le_mul_right_iff (Nat.two_pow_pos r)).symm

theorem Le2.mono {L L' : Int} {p q : Nat} (h : L ≤ L') (h' : Le2 L' p q) : Le2 L p q := by
  have hK1 : (-L).toNat ≤ (-L).toNat + (-L').toNat := by omega
  have hK2 : (-L').toNat ≤ (-L).toNat + (-L').toNat := by omega
  rw [le2_scale hK2] at h'
  rw [le2_scale hK1]
  refine Nat.le_trans (Nat.mul_le_mul_left q (Nat.pow_le_pow_right (by omega) ?_)) h'
  omega

theorem floorLog2_spec {p q : Nat} (hp : 0 < p) (hq : 0 < q) :
    Le2 (floorLog2 p q) p q ∧ ¬ Le2 (floorLog2 p q + 1) p q := by
  have ha1 := Nat.log2_self_le (by omega : p ≠ 0)
  have ha2 := Nat.lt_log2_self (n := p)
  have hb1 := Nat.log2_self_le (by omega : q ≠ 0)
  have hb2 := Nat.lt_log2_self (n := q)
  unfold floorLog2
  dsimp only
  generalize p.log2 = a at *
  generalize q.log2 = b at *
  -- the two outer bounds
  have hlow : Le2 ((a : Int) - b - 1) p q := by
    rw [le2_scale (K := b + 1) (by omega)]
    have : ((a : Int) - b - 1 + ((b + 1 : Nat) : Int)).toNat = a := by omega
    rw [this]
    calc q * 2 ^ a ≤ 2 ^ (b + 1) * 2 ^ a := Nat.mul_le_mul_right _ (by omega)
      _ = 2 ^ a * 2 ^ (b + 1) := Nat.mul_comm _ _
      _ ≤ p * 2 ^ (b + 1) := Nat.mul_le_mul_right _ ha1
  have hhigh : ¬ Le2 ((a : Int) - b + 1) p q := by
    rw [le2_scale (K := b) (by omega)]
    have : ((a : Int) - b + 1 + (b : Int)).toNat = a + 1 := by omega
    rw [this]
    intro h
    have h1 : p * 2 ^ b < 2 ^ (a + 1) * 2 ^ b := Nat.mul_lt_mul_of_pos_right ha2 (Nat.two_pow_pos b)
    have h2 : 2 ^ b * 2 ^ (a + 1) ≤ q * 2 ^ (a + 1) := Nat.mul_le_mul_right _ hb1
    rw [Nat.mul_comm] at h2
    omega
  have key : ∀ c : Prop, [Decidable c] → (c ↔ Le2 ((a : Int) - b) p q) →
      Le2 (if c then (a : Int) - b else (a : Int) - b - 1) p q ∧
      ¬ Le2 ((if c then (a : Int) - b else (a : Int) - b - 1) + 1) p q := by
    intro c _ hc
    by_cases h : c
    · rw [if_pos h]; exact ⟨hc.1 h, hhigh⟩
    · rw [if_neg h]
      refine ⟨hlow, ?_⟩
      rw [show (a : Int) - b - 1 + 1 = (a : Int) - b by omega]
      exact fun h' => h (hc.2 h')
  by_cases hl : (0 : Int) ≤ (a : Int) - b
  · rw [if_pos hl]
    apply key
    unfold Le2
    have : (-((a : Int) - b)).toNat = 0 := by omega
    rw [this, Nat.pow_zero, Nat.mul_one]
  · rw [if_neg hl]
    apply key
    unfold Le2
    have : ((a : Int) - b).toNat = 0 := by omega
    rw [this, Nat.pow_zero, Nat.mul_one]

theorem floorLog2_eq {p q : Nat} (hp : 0 < p) (hq : 0 < q) {L : Int} (h1 : Le2 L p q) (h2 : ¬ Le2 (L + 1) p q) :
    floorLog2 p q = L := by
  obtain ⟨h3, h4⟩ := floorLog2_spec hp hq
  have a : ¬ L < floorLog2 p q := fun h => h2 (h3.mono (by omega))
  have b : ¬ floorLog2 p q < L := fun h => h4 (h1.mono (by omega))
  omega

theorem divRound_exact (m d : Nat) (hd : 0 < d) : divRound (m * d) d = m := by
  unfold divRound
  dsimp only
  rw [Nat.mul_div_cancel _ hd, Nat.mul_mod_left]
  simp [hd]

theorem canon_iff {m : Nat} {e : Int} : canon m e = true ↔
    m < 2 ^ 53 ∧ -1074 ≤ e ∧ e ≤ 971 ∧ (2 ^ 52 ≤ m ∨ e = -1074) := by
  unfold canon
  simp only [Bool.and_eq_true, Bool.or_eq_true, decide_eq_true_eq]
  constructor
  · rintro ⟨⟨⟨h1, h2⟩, h3⟩, h4⟩; exact ⟨h1, h2, h3, h4⟩
  · rintro ⟨h1, h2, h3, h4⟩; exact ⟨⟨⟨h1, h2⟩, h3⟩, h4⟩

/-- A representable value is read without rounding. -/
theorem ofRatio_exact {neg : Bool} {m : Nat} {e : Int} (h : canon m e = true) {p q : Nat} (hq : 0 < q)
    (hpq : p * 2 ^ (-e).toNat = m * 2 ^ e.toNat * q) : ofRatio neg p q = some (.fin neg m e h) := by
  obtain ⟨hm, he1, he2, hn⟩ := canon_iff.1 h
  by_cases hm0 : m = 0
  · subst hm0
    have he : e = -1074 := by omega
    subst he
    have hp0 : p = 0 := by
      simp only [Nat.zero_mul] at hpq
      rcases Nat.mul_eq_zero.1 hpq with h | h
      · exact h
      · have := Nat.two_pow_pos ((- -1074 : Int).toNat); omega
    rw [ofRatio, if_pos hp0, mk?, dif_pos h]
  · have hp : 0 < p := by
      rcases Nat.eq_zero_or_pos p with h0 | h0
      · rw [h0, Nat.zero_mul] at hpq
        have : 0 < m * 2 ^ e.toNat * q := Nat.mul_pos (Nat.mul_pos (by omega) (Nat.two_pow_pos _)) hq
        omega
      · exact h0
    have hscale : ∀ s : Nat, Le2 ((s : Int) + e) p q ↔ 2 ^ s ≤ m := by
      intro s
      rw [le2_scale (K := (-e).toNat) (by omega), hpq]
      have : ((s : Int) + e + ((-e).toNat : Int)).toNat = s + e.toNat := by omega
      rw [this, Nat.pow_add]
      have hpos : 0 < q * 2 ^ e.toNat := Nat.mul_pos hq (Nat.two_pow_pos _)
      rw [show q * (2 ^ s * 2 ^ e.toNat) = 2 ^ s * (q * 2 ^ e.toNat) by
          rw [← Nat.mul_assoc, Nat.mul_comm q, Nat.mul_assoc],
        show m * 2 ^ e.toNat * q = m * (q * 2 ^ e.toNat) by rw [Nat.mul_assoc, Nat.mul_comm (2 ^ e.toNat)]]
      exact Nat.mul_le_mul_right_iff hpos
    have hexp : max (floorLog2 p q - 52) (-1074) = e := by
      by_cases h52 : 2 ^ 52 ≤ m
      · have : floorLog2 p q = 52 + e := by
          apply floorLog2_eq hp hq
          · exact (hscale 52).2 h52
          · rw [show (52 : Int) + e + 1 = ((53 : Nat) : Int) + e by omega]
            intro hc
            have := (hscale 53).1 hc
            omega
        omega
      · have he : e = -1074 := by omega
        have hlt : floorLog2 p q < 52 + e := by
          have h3 := (floorLog2_spec hp hq).1
          refine Int.not_le.1 fun hge => h52 ?_
          exact (hscale 52).1 (h3.mono hge)
        omega
    have hround : scaleRound p q e = m := by
      unfold scaleRound
      by_cases h0 : 0 ≤ e
      · rw [if_pos h0]
        have : (-e).toNat = 0 := by omega
        rw [this, Nat.pow_zero, Nat.mul_one, Nat.mul_assoc, Nat.mul_comm (2 ^ e.toNat)] at hpq
        rw [hpq]
        exact divRound_exact _ _ (Nat.mul_pos hq (Nat.two_pow_pos _))
      · rw [if_neg h0]
        have : e.toNat = 0 := by omega
        rw [this, Nat.pow_zero, Nat.mul_one] at hpq
        rw [hpq]
        exact divRound_exact _ _ hq
    rw [ofRatio, if_neg (by omega)]
    simp only [hexp, hround]
    rw [if_neg (by omega), mk?, dif_pos h]

end F64

theorem pickDecimal_reads {f : F64} {neg : Bool} {p q : Nat} {k : Int} {c : Nat}
    (h : pickDecimal f neg p q k = some c) : readDecimal neg c k = some f := by
  unfold pickDecimal at h
  rcases decFloor p q k with ⟨c0, r, d⟩
  dsimp only at h
  repeat' split at h
  all_goals simp only [Bool.and_eq_true, decide_eq_true_eq, Option.some.injEq, reduceCtorEq] at *
  all_goals subst h
  · rename_i h1; exact h1.1
  · rename_i h1; exact h1.2
  · assumption
  · assumption

theorem searchDecimal_reads {f : F64} {neg : Bool} {p q : Nat} (steps : Nat) : ∀ {k : Int},
    readDecimal neg (decFloor p q (k - steps)).1 (k - steps) = some f →
    readDecimal neg (searchDecimal f neg p q steps k).1 (searchDecimal f neg p q steps k).2 = some f := by
  induction steps with
  | zero => intro k h; simpa [searchDecimal] using h
  | succ s ih =>
    intro k h
    simp only [searchDecimal]
    split
    · exact pickDecimal_reads ‹_›
    · apply ih
      rw [show k - 1 - (s : Int) = k - ((s + 1 : Nat) : Int) by omega]
      exact h

/-- The shortest decimal reads back as the float. -/
theorem shortest_reads {neg : Bool} {m : Nat} {e : Int} (h : F64.canon m e = true) :
    readDecimal neg (shortest neg m e h).1 (shortest neg m e h).2 = some (.fin neg m e h) := by
  unfold shortest
  by_cases hm : m = 0
  · rw [if_pos hm]
    subst hm
    exact F64.ofRatio_exact (p := 0) (q := 1) h (by decide) (by simp)
  · rw [if_neg hm]
    obtain ⟨-, he1, he2, -⟩ := F64.canon_iff.1 h
    rcases hr : F64.ratio m e with ⟨p, q⟩
    dsimp only
    apply searchDecimal_reads
    rw [show (309 : Int) - ((309 - min 0 e).toNat : Int) = min 0 e by omega]
    unfold F64.ratio at hr
    by_cases h0 : 0 ≤ e
    · rw [if_pos h0] at hr
      cases hr
      rw [show min 0 e = 0 by omega]
      simp only [decFloor, readDecimal, Int.le_refl, if_true, Int.toNat_zero, Nat.pow_zero, Nat.mul_one, Nat.div_one]
      refine F64.ofRatio_exact h (by decide) ?_
      rw [show (-e).toNat = 0 by omega]
    · rw [if_neg h0] at hr
      cases hr
      rw [show min 0 e = e by omega]
      simp only [decFloor, readDecimal, h0, if_false]
      generalize hn : (-e).toNat = n
      have h10 : m * 10 ^ n = m * 5 ^ n * 2 ^ n := by
        rw [Nat.mul_assoc, ← Nat.mul_pow]
      rw [h10, Nat.mul_div_cancel _ (Nat.two_pow_pos n)]
      refine F64.ofRatio_exact h (Nat.pow_pos (by decide)) ?_
      rw [hn, show e.toNat = 0 by omega, Nat.pow_zero, Nat.mul_one, h10]

theorem digitsVal_zeros (acc n : Nat) : digitsVal acc (List.replicate n 48) = acc * 10 ^ n := by
  induction n generalizing acc with
  | zero => simp [digitsVal_nil]
  | succ n ih =>
    rw [List.replicate_succ, digitsVal_cons, ih, show digitVal 48 = 0 from rfl, Nat.add_zero, Nat.pow_succ,
      Nat.mul_assoc, Nat.mul_comm 10]

theorem zeros_isDigit (n : Nat) : (List.replicate n (48 : UInt8)).all isDigit = true := by
  induction n with
  | zero => rfl
  | succ n ih => rw [List.replicate_succ, List.all_cons, ih]; rfl

/-- A plain decimal consists of digits, optionally followed by a point and more digits, with the right value. -/
theorem fmtPlain_shape (neg : Bool) (c : Nat) (k : Int) : ∃ int frac, int ≠ [] ∧ int.all isDigit = true ∧
    frac.all isDigit = true ∧ fmtPlain c k = int ++ (if frac = [] then [] else 46 :: frac) ∧
    parseFloat neg int frac = readDecimal neg c k := by
  have hd := natDigits_isDigit c
  have hne := natDigits_ne_nil c
  have hv := digitsVal_natDigits c
  have hlen : 0 < (natDigits c).length := List.length_pos_iff.2 hne
  unfold fmtPlain
  dsimp only
  generalize natDigits c = ds at *
  by_cases hk : 0 ≤ k
  · refine ⟨ds ++ List.replicate k.toNat 48, [], by simp [hne], by rw [List.all_append, hd, zeros_isDigit]; rfl, rfl,
      by rw [if_pos hk]; simp, ?_⟩
    rw [parseFloat, if_neg (by simp [hne]), List.append_nil, digitsVal_append, hv, digitsVal_zeros]
    simp [readDecimal, hk]
  · rw [if_neg hk]
    by_cases hdp : 0 < (ds.length : Int) + k
    · rw [if_pos hdp]
      refine ⟨ds.take ((ds.length : Int) + k).toNat, ds.drop ((ds.length : Int) + k).toNat, ?_, ?_, ?_, ?_, ?_⟩
      · intro h
        have := congrArg List.length h
        rw [List.length_take, List.length_nil] at this
        omega
      · rw [List.all_eq_true] at hd ⊢
        exact fun x hx => hd x (List.mem_of_mem_take hx)
      · rw [List.all_eq_true] at hd ⊢
        exact fun x hx => hd x (List.mem_of_mem_drop hx)
      · have : ds.drop ((ds.length : Int) + k).toNat ≠ [] := by
          intro h
          have := congrArg List.length h
          rw [List.length_drop, List.length_nil] at this
          omega
        rw [if_neg this]
      · rw [parseFloat, if_neg, List.take_append_drop, hv, List.length_drop]
        · congr 1; omega
        · rintro ⟨h, -⟩
          have := congrArg List.length h
          rw [List.length_take, List.length_nil] at this
          omega
    · rw [if_neg hdp]
      refine ⟨[48], List.replicate (-((ds.length : Int) + k)).toNat 48 ++ ds, by simp, rfl, ?_, ?_, ?_⟩
      · rw [List.all_append, hd, zeros_isDigit]; rfl
      · rw [if_neg (by simp [hne])]; rfl
      · rw [parseFloat, if_neg (by simp), List.cons_append, List.nil_append, digitsVal_cons, digitsVal_append,
          digitsVal_zeros]
        simp only [show digitVal 48 = 0 from rfl, Nat.zero_mul, Nat.add_zero, hv, List.length_append,
          List.length_replicate]
        congr 1; omega

theorem spanDigits_append {ds rest : Bytes} (h : ds.all isDigit = true)
    (hr : ∀ c r, rest = c :: r → isDigit c = false) : spanDigits (ds ++ rest) = (ds, rest) := by
  induction ds with
  | nil =>
    cases rest with
    | nil => rfl
    | cons c r => simp [spanDigits, hr c r rfl]
  | cons d ds ih =>
    simp only [List.all_cons, Bool.and_eq_true] at h
    simp [spanDigits, h.1, ih h.2]

end Verif
