import Verif.FloatOrder
import Verif.PropsCodec
import Verif.PropsVssPatch
/-
C33: which numbers survive being written as text, in terms of their value.
-/
namespace Verif

/-- `p / q ≤ m * 2^e`. -/
def AtLeast (p q : Nat) (m : Nat) (e : Int) : Prop := p * 2 ^ (-e).toNat ≤ m * 2 ^ e.toNat * q

/-- `m * 2^e < p / q`. -/
def Below (m : Nat) (e : Int) (p q : Nat) : Prop := m * 2 ^ e.toNat * q < p * 2 ^ (-e).toNat

open F64

theorem units_ratio {m : Nat} {e : Int} (h : canon m e = true) : ulps m e * 2 ^ (-e).toNat = m * 2 ^ e.toNat * 2 ^ 1074 := by
  obtain ⟨-, he, -, -⟩ := canon_iff.1 h
  unfold ulps
  rw [Nat.mul_assoc, Nat.mul_assoc, ← Nat.pow_add, ← Nat.pow_add,
    show (e + 1074).toNat + (-e).toNat = e.toNat + 1074 by omega]

theorem ulps_inj {m m' : Nat} {e e' : Int} (h : canon m e = true) (h' : canon m' e' = true) (hu : ulps m e = ulps m' e') :
    m = m' ∧ e = e' := by
  have h1 := ofRatio_exact (neg := false) h (Nat.two_pow_pos 1074) (units_ratio h)
  have h2 := ofRatio_exact (neg := false) h' (Nat.two_pow_pos 1074) (units_ratio h')
  rw [hu, h2] at h1
  cases h1; exact ⟨rfl, rfl⟩

theorem rounded_exact {m : Nat} {e : Int} (h : canon m e = true) {p q : Nat} (hq : 0 < q)
    (hpq : p * 2 ^ (-e).toNat = m * 2 ^ e.toNat * q) : rounded p q = ulps m e := by
  obtain ⟨m', e', hc, h1, h2⟩ := ofRatio_ulps (ofRatio_exact (neg := false) h hq hpq)
  cases h1; exact h2.symm

/-- A number at least `p / q` is at least the number nearest to `p / q`. -/
theorem rounded_le {m : Nat} {e : Int} (h : canon m e = true) {p q : Nat} (hq : 0 < q) (hl : AtLeast p q m e) :
    rounded p q ≤ ulps m e := by
  rw [← rounded_exact h (p := m * 2 ^ e.toNat) (q := 2 ^ (-e).toNat) (Nat.two_pow_pos _) rfl]
  exact rounded_mono hq (Nat.two_pow_pos _) hl

/-- A number below `p / q` is at most the number nearest to `p / q`. -/
theorem le_rounded {m : Nat} {e : Int} (h : canon m e = true) {p q : Nat} (hq : 0 < q) (hl : ¬ AtLeast p q m e) :
    ulps m e ≤ rounded p q := by
  rw [← rounded_exact h (p := m * 2 ^ e.toNat) (q := 2 ^ (-e).toNat) (Nat.two_pow_pos _) rfl]
  exact rounded_mono (Nat.two_pow_pos _) hq (by unfold AtLeast at hl; omega)

theorem rounded_million : rounded 1000000 1 = ulps 8589934592000000 (-33) :=
  rounded_exact (by decide) (by decide) (by decide)

theorem rounded_tenthousandth : rounded 1 10000 = ulps 7378697629483821 (-66) := by
  have h : ofRatio false 1 10000 = some (.fin false 7378697629483821 (-66) (by decide)) := by decide +kernel
  obtain ⟨m', e', hc, h1, h2⟩ := ofRatio_ulps h
  cases h1; exact h2.symm

theorem atLeast_iff {p q m : Nat} {e : Int} (h : canon m e = true) : AtLeast p q m e ↔ p * 2 ^ 1074 ≤ ulps m e * q := by
  have hu := units_ratio h
  have hK := Nat.two_pow_pos 1074
  unfold AtLeast
  generalize (2 : Nat) ^ 1074 = K at *
  have hA := Nat.two_pow_pos (-e).toNat
  generalize (2 : Nat) ^ (-e).toNat = A at *
  generalize m * 2 ^ e.toNat = B at *
  generalize ulps m e = U at *
  have e1 : B * q * K = U * q * A := by
    rw [Nat.mul_right_comm, ← hu, Nat.mul_right_comm]
  rw [← Nat.mul_le_mul_right_iff hK, e1, Nat.mul_right_comm, Nat.mul_le_mul_right_iff hA]

theorem digitsVal_lt {ds : Bytes} (h : ds.all isDigit = true) : digitsVal 0 ds < 10 ^ ds.length := by
  have : ∀ acc b, acc < b → digitsVal acc ds < b * 10 ^ ds.length := by
    induction ds with
    | nil => intro acc b hb; simpa [digitsVal_nil] using hb
    | cons d ds ih =>
      intro acc b hb
      simp only [List.all_cons, Bool.and_eq_true] at h
      rw [digitsVal_cons, List.length_cons, Nat.pow_succ, Nat.mul_comm (10 ^ _), ← Nat.mul_assoc]
      apply ih h.2
      have : digitVal d ≤ 9 := by
        have := h.1
        simp only [isDigit, Bool.and_eq_true, decide_eq_true_eq, UInt8.le_iff_toNat_le] at this
        unfold digitVal
        have h57 : (57 : UInt8).toNat = 57 := rfl
        omega
      omega
  simpa using this 0 1 (by decide)

theorem le_digitsVal (ds : Bytes) (acc : Nat) : acc * 10 ^ ds.length ≤ digitsVal acc ds := by
  induction ds generalizing acc with
  | nil => simp [digitsVal_nil]
  | cons d ds ih =>
    rw [digitsVal_cons, List.length_cons, Nat.pow_succ, Nat.mul_comm (10 ^ _), ← Nat.mul_assoc]
    exact Nat.le_trans (Nat.mul_le_mul_right _ (by omega)) (ih _)

theorem natDigits_bounds {c : Nat} (hc : 0 < c) : 10 ^ ((natDigits c).length - 1) ≤ c ∧ c < 10 ^ (natDigits c).length := by
  have h1 := natDigits_isDigit c
  have h2 := digitsVal_natDigits c
  obtain ⟨d, r, h3, h4, h5⟩ := natDigits_pos (n := c) (by omega)
  refine ⟨?_, by have := digitsVal_lt h1; rwa [h2] at this⟩
  rw [h3] at h2
  rw [h3, List.length_cons, Nat.add_sub_cancel]
  rw [digitsVal_cons] at h2
  have h6 : 1 ≤ digitVal d := by
    simp only [isDigit, Bool.and_eq_true, decide_eq_true_eq, UInt8.le_iff_toNat_le] at h5
    unfold digitVal
    have h48 : (48 : UInt8).toNat = 48 := rfl
    have : d.toNat ≠ 48 := fun h => h4 (UInt8.toNat_inj.1 h)
    omega
  calc 10 ^ r.length = 1 * 10 ^ r.length := by rw [Nat.one_mul]
    _ ≤ (0 * 10 + digitVal d) * 10 ^ r.length := Nat.mul_le_mul_right _ (by omega)
    _ ≤ _ := le_digitsVal _ _
    _ = c := h2

/-- The decimal exponent of `c * 10^k` is at least `x` exactly if `10^x ≤ c * 10^k`. -/
theorem digits_exponent {c : Nat} (hc : 0 < c) (k x : Int) : x ≤ ((natDigits c).length : Int) + k - 1 ↔
    10 ^ (x - k).toNat ≤ c := by
  obtain ⟨h1, h2⟩ := natDigits_bounds hc
  have hl : 0 < (natDigits c).length := List.length_pos_iff.2 (natDigits_ne_nil c)
  constructor
  · intro h
    exact Nat.le_trans (Nat.pow_le_pow_right (by decide) (by omega)) h1
  · intro h
    have := Nat.lt_of_le_of_lt h h2
    have := (Nat.pow_lt_pow_iff_right (by decide : 1 < 10)).1 this
    omega

theorem readDecimal_eq (neg : Bool) (c : Nat) (k : Int) :
    readDecimal neg c k = ofRatio neg (c * 10 ^ k.toNat) (10 ^ (-k).toNat) := by
  unfold readDecimal
  split
  · rw [show (-k).toNat = 0 by omega, Nat.pow_zero]
  · rw [show k.toNat = 0 by omega, Nat.pow_zero, Nat.mul_one]

theorem decimal_le {c : Nat} (hc : 0 < c) (a k : Int) :
    10 ^ (a - k).toNat ≤ c ↔ 10 ^ a.toNat * 10 ^ (-k).toNat ≤ c * 10 ^ k.toNat * 10 ^ (-a).toNat := by
  rw [Nat.mul_assoc, ← Nat.pow_add, ← Nat.pow_add]
  by_cases h : 0 ≤ a - k
  · rw [show a.toNat + (-k).toNat = (a - k).toNat + (k.toNat + (-a).toNat) by omega, Nat.pow_add 10 (a - k).toNat]
    exact (Nat.mul_le_mul_right_iff (Nat.pow_pos (by decide))).symm
  · rw [show (a - k).toNat = 0 by omega, Nat.pow_zero]
    refine ⟨fun _ => ?_, fun _ => hc⟩
    calc 10 ^ (a.toNat + (-k).toNat) ≤ 10 ^ (k.toNat + (-a).toNat) := Nat.pow_le_pow_right (by decide) (by omega)
      _ = 1 * 10 ^ (k.toNat + (-a).toNat) := by rw [Nat.one_mul]
      _ ≤ _ := Nat.mul_le_mul_right _ hc

theorem shortest_million (neg : Bool) : shortest neg 8589934592000000 (-33) (by decide) = (1, 6) := by
  cases neg <;> decide +kernel

theorem shortest_tenthousandth (neg : Bool) : shortest neg 7378697629483821 (-66) (by decide) = (1, -4) := by
  cases neg <;> decide +kernel

/-- The decimal exponent of the shortest decimal of a number tells where the number lies, for a power of ten
whose nearest number is written as that power. -/
theorem shortest_exponent {neg : Bool} {m m0 : Nat} {e e0 x : Int} (h : canon m e = true) (hm : m ≠ 0) (h0 : canon m0 e0 = true)
    (hr : rounded (10 ^ x.toNat) (10 ^ (-x).toNat) = ulps m0 e0) (hs : shortest neg m0 e0 h0 = (1, x))
    (hx : AtLeast (10 ^ x.toNat) (10 ^ (-x).toNat) m0 e0) :
    x ≤ ((natDigits (shortest neg m e h).1).length : Int) + (shortest neg m e h).2 - 1 ↔
      AtLeast (10 ^ x.toNat) (10 ^ (-x).toNat) m e := by
  have hread := shortest_reads (neg := neg) h
  have hsm : m = m0 → e = e0 → shortest neg m e h = (1, x) := by
    intro h1 h2; subst h1; subst h2; exact hs
  rcases hck : shortest neg m e h with ⟨c, k⟩
  rw [hck] at hread hsm
  dsimp only at hread ⊢
  rw [readDecimal_eq] at hread
  obtain ⟨m', e', hc', h1, h2⟩ := ofRatio_ulps hread
  cases h1
  have hc : 0 < c := by
    rcases Nat.eq_zero_or_pos c with h3 | h3
    · subst h3
      rw [Nat.zero_mul] at h2
      have h4 : rounded 0 (10 ^ (-k).toNat) = 0 := by unfold rounded divRound; simp
      rw [h4] at h2
      unfold ulps at h2
      rcases Nat.mul_eq_zero.1 h2 with h5 | h5
      · exact absurd h5 hm
      · have := Nat.two_pow_pos (e + 1074).toNat; omega
    · exact h3
  rw [digits_exponent hc, decimal_le hc]
  have p1 : 0 < 10 ^ (-x).toNat := Nat.pow_pos (by decide)
  have p2 : 0 < 10 ^ (-k).toNat := Nat.pow_pos (by decide)
  constructor
  · intro hle
    have := rounded_mono p1 p2 hle
    rw [hr, ← h2] at this
    rw [atLeast_iff h]
    rw [atLeast_iff h0] at hx
    exact Nat.le_trans hx (Nat.mul_le_mul_right _ this)
  · intro hl
    refine Decidable.byContradiction fun hlt => ?_
    have h3 := rounded_mono p2 p1 (Nat.le_of_lt (Nat.not_le.1 hlt))
    have h4 := rounded_le h p1 hl
    rw [h2] at h4
    obtain ⟨h5, h6⟩ := ulps_inj h h0 (by rw [h2, ← hr]; omega)
    have h7 := hsm h5 h6
    cases h7
    exact hlt ((decimal_le (by decide) x x).1 (by simp))

/-- **C33, numbers.** A number is written without an exponent, and so read back, exactly if it is zero or its
magnitude is at least 0.0001 and less than 1000000. -/
theorem C33_plain_number (neg : Bool) (m : Nat) (e : Int) (h : canon m e = true) :
    PlainNumber (.fin neg m e h) ↔ m = 0 ∨ (AtLeast 1 10000 m e ∧ Below m e 1000000 1) := by
  have hP : PlainNumber (.fin neg m e h) ↔ usesExp (shortest neg m e h).1 (shortest neg m e h).2 = false := by
    constructor
    · rintro ⟨_, _, _, _, h1, h2⟩; cases h1; exact h2
    · intro h1; exact ⟨_, _, _, _, rfl, h1⟩
  rw [hP]
  by_cases hm : m = 0
  · subst hm
    unfold shortest
    simp only [if_true, true_or, iff_true]
    decide
  · have r1 : rounded (10 ^ (-4 : Int).toNat) (10 ^ (- (-4) : Int).toNat) = ulps 7378697629483821 (-66) := by
      rw [show 10 ^ (-4 : Int).toNat = 1 by decide, show 10 ^ (- (-4) : Int).toNat = 10000 by decide]
      exact rounded_tenthousandth
    have r2 : rounded (10 ^ (6 : Int).toNat) (10 ^ (-6 : Int).toNat) = ulps 8589934592000000 (-33) := by
      rw [show 10 ^ (6 : Int).toNat = 1000000 by decide, show 10 ^ (-6 : Int).toNat = 1 by decide]
      exact rounded_million
    have h1 := shortest_exponent (neg := neg) (x := -4) h hm (m0 := 7378697629483821) (e0 := -66) (by decide)
      r1 (shortest_tenthousandth neg) (by unfold AtLeast; decide)
    have h2 := shortest_exponent (neg := neg) (x := 6) h hm (m0 := 8589934592000000) (e0 := -33) (by decide)
      r2 (shortest_million neg) (by unfold AtLeast; decide)
    have e1 : AtLeast (10 ^ (-4 : Int).toNat) (10 ^ (- (-4) : Int).toNat) m e ↔ AtLeast 1 10000 m e := Iff.rfl
    have e2 : AtLeast (10 ^ (6 : Int).toNat) (10 ^ (-6 : Int).toNat) m e ↔ ¬ Below m e 1000000 1 := by
      unfold AtLeast Below
      exact Nat.not_lt.symm
    rw [e1] at h1
    rw [e2] at h2
    unfold usesExp
    simp only [Bool.or_eq_false_iff, decide_eq_false_iff_not, hm, false_or]
    rw [← h1]
    have h3 : Below m e 1000000 1 ↔
        ¬ 6 ≤ ((natDigits (shortest neg m e h).1).length : Int) + (shortest neg m e h).2 - 1 :=
      ⟨fun hb ha => h2.1 ha hb, fun hn => Classical.byContradiction fun hb => hn (h2.2 hb)⟩
    rw [h3]; omega

/-- Neither bound can be moved: 0.0001 and the number before 1000000 are plain, 1000000 and the number before
0.0001 are not. -/
example : PlainNumber (.fin false 7378697629483821 (-66) (by decide)) ∧ ¬ PlainNumber (.fin false 7378697629483820 (-66) (by decide)) ∧
    PlainNumber (.fin true 8589934591999999 (-33) (by decide)) ∧ ¬ PlainNumber (.fin true 8589934592000000 (-33) (by decide)) := by
  simp only [C33_plain_number, AtLeast, Below]
  decide

theorem rounded_nat {v : Nat} (hv : v < 2 ^ 53) : rounded v 1 = v * 2 ^ 1074 := by
  by_cases h0 : v = 0
  · subst h0; unfold rounded divRound; simp
  · obtain ⟨h1, h2⟩ := shift_spec (p := v) (q := 1) (by omega) (by decide)
    have hs : shift v 1 ≤ 1074 := by
      rcases h2 with h2 | h2
      · omega
      · have h3 : v * 2 ^ 1074 < 2 ^ 53 * 2 ^ 1074 := Nat.mul_lt_mul_of_pos_right hv (Nat.two_pow_pos _)
        rw [Nat.one_mul] at h2
        rw [← Nat.pow_add] at h3
        have := (Nat.pow_lt_pow_iff_right (by decide : 1 < 2)).1 (Nat.lt_of_le_of_lt h2 h3)
        omega
    unfold rounded
    generalize shift v 1 = s at *
    have e1 : (2 : Nat) ^ 1074 = 2 ^ (1074 - s) * 2 ^ s := by rw [← Nat.pow_add]; congr 1; omega
    rw [e1, ← Nat.mul_assoc, Nat.one_mul, divRound_exact _ _ (Nat.two_pow_pos s)]

theorem searchDecimal_ge {f : F64} {neg : Bool} {p q : Nat} {j : Int} {c : Nat} (hj : pickDecimal f neg p q j = some c) (steps : Nat) :
    ∀ k : Int, j ≤ k → k - steps ≤ j → j ≤ (searchDecimal f neg p q steps k).2 := by
  induction steps with
  | zero => intro k h1 h2; simpa [searchDecimal] using h1
  | succ s ih =>
    intro k h1 h2
    unfold searchDecimal
    cases hp : pickDecimal f neg p q k with
    | some c' => exact h1
    | none =>
      have : j ≠ k := by intro h; subst h; rw [hj] at hp; cases hp
      exact ih _ (by omega) (by omega)

/-- The shortest decimal of a whole number needs no digits after the point. -/
theorem shortest_whole {neg : Bool} {m : Nat} {e : Int} (h : canon m e = true) {n : Nat}
    (hn : m * 2 ^ e.toNat = n * 2 ^ (-e).toNat) : 0 ≤ (shortest neg m e h).2 := by
  unfold shortest
  by_cases hm : m = 0
  · rw [if_pos hm]; exact Int.le_refl 0
  · rw [if_neg hm]
    obtain ⟨-, he, -, -⟩ := canon_iff.1 h
    have hr : F64.ratio m e = (n * 2 ^ (-e).toNat, 2 ^ (-e).toNat) := by
      unfold F64.ratio
      by_cases h0 : 0 ≤ e
      · rw [if_pos h0, hn]
        rw [show (-e).toNat = 0 by omega]
      · rw [if_neg h0, ← hn, show e.toNat = 0 by omega, Nat.pow_zero, Nat.mul_one]
    rw [hr]
    dsimp only
    have hread : readDecimal neg n 0 = some (.fin neg m e h) := by
      rw [readDecimal_eq]
      refine ofRatio_exact h (by decide) ?_
      simp [hn]
    have hp : ∃ c, pickDecimal (.fin neg m e h) neg (n * 2 ^ (-e).toNat) (2 ^ (-e).toNat) 0 = some c := by
      unfold pickDecimal
      have hd : decFloor (n * 2 ^ (-e).toNat) (2 ^ (-e).toNat) 0 = (n, 0, 2 ^ (-e).toNat) := by
        unfold decFloor
        simp [Nat.mul_div_cancel _ (Nat.two_pow_pos _)]
      rw [hd]
      simp only [hread, decide_true, Bool.true_and, if_true]
      repeat' split
      all_goals exact ⟨_, rfl⟩
    obtain ⟨c, hp⟩ := hp
    exact searchDecimal_ge hp _ 309 (by decide) (by omega)

theorem natDigitsAux_fuel (n : Nat) : ∀ f f', n < f → n < f' → natDigitsAux f n [] = natDigitsAux f' n [] := by
  induction n using Nat.strongRecOn with
  | _ n ih =>
    intro f f' h h'
    cases f with
    | zero => omega
    | succ f =>
      cases f' with
      | zero => omega
      | succ f' =>
        rw [natDigitsAux_succ, natDigitsAux_succ]
        split
        · rfl
        · rw [natDigitsAux_append, natDigitsAux_append f', ih (n / 10) (by omega) f f' (by omega) (by omega)]

theorem natDigits_ten {c : Nat} (hc : 0 < c) : natDigits (c * 10) = natDigits c ++ [48] := by
  unfold natDigits
  rw [natDigitsAux_succ, if_neg (by omega), natDigitsAux_append, Nat.mul_div_cancel _ (by decide),
    natDigitsAux_fuel c (c * 10) (c + 1) (by omega) (by omega), Nat.mul_mod_left]
  rfl

theorem natDigits_pow {c : Nat} (hc : 0 < c) (k : Nat) : natDigits (c * 10 ^ k) = natDigits c ++ List.replicate k 48 := by
  induction k with
  | zero => simp
  | succ k ih =>
    rw [Nat.pow_succ, ← Nat.mul_assoc, natDigits_ten (Nat.mul_pos hc (Nat.pow_pos (by decide))), ih, List.append_assoc,
      List.replicate_succ']

theorem whole_ulps {m : Nat} {e : Int} (h : canon m e = true) {n : Nat} (hu : ulps m e = n * 2 ^ 1074) :
    m * 2 ^ e.toNat = n * 2 ^ (-e).toNat := by
  have := units_ratio h
  rw [hu] at this
  have hK := Nat.two_pow_pos 1074
  generalize (2 : Nat) ^ 1074 = K at *
  have h1 : m * 2 ^ e.toNat * K = n * 2 ^ (-e).toNat * K := by rw [← this, Nat.mul_right_comm]
  exact Nat.mul_right_cancel hK h1

/-- A whole number is below `v` exactly if it is. -/
theorem whole_lt {m : Nat} {e : Int} {n v : Nat} (hn : m * 2 ^ e.toNat = n * 2 ^ (-e).toNat) : Below m e v 1 ↔ n < v := by
  unfold Below
  rw [hn, Nat.mul_one]
  exact Nat.mul_lt_mul_right (Nat.two_pow_pos _)

/-- The shortest decimal of a whole number below a million is the number. -/
theorem shortest_small {neg : Bool} {m : Nat} {e : Int} (h : canon m e = true) {n : Nat} (h0 : 0 < n) (hlt : n < 1000000)
    (hn : m * 2 ^ e.toNat = n * 2 ^ (-e).toNat) :
    usesExp (shortest neg m e h).1 (shortest neg m e h).2 = false ∧
      fmtPlain (shortest neg m e h).1 (shortest neg m e h).2 = natDigits n := by
  have hm : m ≠ 0 := by
    intro hm
    rw [hm, Nat.zero_mul] at hn
    have := Nat.mul_pos h0 (Nat.two_pow_pos (-e).toNat)
    omega
  have hplain : usesExp (shortest neg m e h).1 (shortest neg m e h).2 = false := by
    have : PlainNumber (.fin neg m e h) := by
      rw [C33_plain_number]
      refine .inr ⟨?_, (whole_lt hn).2 hlt⟩
      unfold AtLeast
      rw [hn, Nat.one_mul]
      have := Nat.two_pow_pos (-e).toNat
      calc 2 ^ (-e).toNat = 1 * 2 ^ (-e).toNat := (Nat.one_mul _).symm
        _ ≤ n * 2 ^ (-e).toNat := Nat.mul_le_mul_right _ h0
        _ ≤ _ := Nat.le_mul_of_pos_right _ (by decide)
    obtain ⟨_, _, _, _, h1, h2⟩ := this
    cases h1; exact h2
  refine ⟨hplain, ?_⟩
  have hk := shortest_whole (neg := neg) h hn
  have hread := shortest_reads (neg := neg) h
  rcases hck : shortest neg m e h with ⟨c, k⟩
  rw [hck] at hplain hk hread
  dsimp only at hplain hk hread ⊢
  obtain ⟨k, rfl⟩ : ∃ j : Nat, k = j := ⟨k.toNat, by omega⟩
  rw [readDecimal_eq, show (-(k : Int)).toNat = 0 by omega, Nat.pow_zero, Int.toNat_natCast] at hread
  obtain ⟨m', e', hc', h1, h2⟩ := ofRatio_ulps hread
  cases h1
  have hu := rounded_exact h (p := n) (q := 1) (by decide) (by rw [Nat.mul_one, hn])
  rw [rounded_nat (Nat.lt_trans hlt (by decide))] at hu
  have hc : 0 < c := by
    rcases Nat.eq_zero_or_pos c with h3 | h3
    · subst h3
      rw [Nat.zero_mul, rounded_nat (by decide), Nat.zero_mul] at h2
      have := Nat.mul_pos h0 (Nat.two_pow_pos 1074)
      omega
    · exact h3
  have hsmall : c * 10 ^ k < 1000000 := by
    unfold usesExp at hplain
    simp only [Bool.or_eq_false_iff, decide_eq_false_iff_not] at hplain
    have h4 := fun h' => hplain.2 ((digits_exponent hc k 6).2 h')
    rw [decimal_le hc, show (-(k : Int)).toNat = 0 by omega, Int.toNat_natCast] at h4
    simpa using h4
  rw [rounded_nat (Nat.lt_trans hsmall (by decide)), ← hu] at h2
  have : n = c * 10 ^ k := Nat.mul_right_cancel (Nat.two_pow_pos 1074) h2
  rw [this, natDigits_pow hc]
  unfold fmtPlain
  simp

/-- **C33, whole numbers.** The float of a whole number below a million is written as that number. -/
theorem C33_whole_text (n : Int) (h : n.natAbs < 1000000) : fmtFloat (F64.ofInt n) = itoa n := by
  by_cases h0 : n = 0
  · subst h0; decide +kernel
  obtain ⟨f, hf⟩ : ∃ f, ofRatio (decide (n < 0)) n.natAbs 1 = some f :=
    ofRatio_nat _ (Nat.lt_trans h (by decide))
  obtain ⟨m, e, hc, rfl, hu⟩ := ofRatio_ulps hf
  rw [rounded_nat (Nat.lt_trans h (by decide))] at hu
  obtain ⟨h1, h2⟩ := shortest_small (neg := decide (n < 0)) hc (by omega) h (whole_ulps hc hu)
  unfold F64.ofInt itoa
  rw [hf]
  simp only [Option.getD_some, fmtFloat, h1, h2, Bool.false_eq_true, if_false, decide_eq_true_eq]
  split
  · rfl
  · congr 1; omega

example : fmtFloat (F64.ofInt (-999999)) = b!"-999999" := C33_whole_text _ (by decide)

/-- **C33, whole numbers.** The float of a whole number in the range of exact whole numbers is written without an
exponent exactly if the number is less than a million. -/
theorem C33_whole_plain (n : Int) (h : n.natAbs < 2 ^ 53) : PlainNumber (F64.ofInt n) ↔ n.natAbs < 1000000 := by
  obtain ⟨f, hf⟩ := ofRatio_nat (decide (n < 0)) (Nat.lt_trans h (by decide : 2 ^ 53 < 2 ^ 64))
  obtain ⟨m, e, hc, rfl, hu⟩ := ofRatio_ulps hf
  rw [rounded_nat h] at hu
  have hw := whole_ulps hc hu
  unfold F64.ofInt
  rw [hf, Option.getD_some, C33_plain_number, whole_lt hw]
  constructor
  · rintro (h0 | ⟨-, h1⟩)
    · rw [h0, Nat.zero_mul] at hw
      rcases Nat.mul_eq_zero.1 hw.symm with h1 | h1
      · omega
      · have := Nat.two_pow_pos (-e).toNat; omega
    · exact h1
  · intro h1
    by_cases hm : m = 0
    · exact .inl hm
    · refine .inr ⟨?_, h1⟩
      have h0 : 0 < n.natAbs := by
        rcases Nat.eq_zero_or_pos n.natAbs with h0 | h0
        · rw [h0, Nat.zero_mul] at hw
          rcases Nat.mul_eq_zero.1 hw with h1 | h1
          · exact absurd h1 hm
          · have := Nat.two_pow_pos e.toNat; omega
        · exact h0
      unfold AtLeast
      rw [hw, Nat.one_mul]
      calc 2 ^ (-e).toNat = 1 * 2 ^ (-e).toNat := (Nat.one_mul _).symm
        _ ≤ n.natAbs * 2 ^ (-e).toNat := Nat.mul_le_mul_right _ h0
        _ ≤ _ := Nat.le_mul_of_pos_right _ (by decide)

example : ¬ PlainNumber (F64.ofInt 21000000) := fun h => absurd ((C33_whole_plain _ (by decide)).1 h) (by decide)

/-! Timestamps on the way through JSON keep their order. -/

theorem units_whole {m : Nat} {e : Int} (h : canon m e = true) :
    (if 0 ≤ e then m * 2 ^ e.toNat else m / 2 ^ (-e).toNat) = ulps m e / 2 ^ 1074 := by
  obtain ⟨-, he, -, -⟩ := canon_iff.1 h
  unfold ulps
  split
  · rw [show (e + 1074).toNat = e.toNat + 1074 by omega, Nat.pow_add, ← Nat.mul_assoc,
      Nat.mul_div_cancel _ (Nat.two_pow_pos 1074)]
  · have : (2 : Nat) ^ 1074 = 2 ^ (-e).toNat * 2 ^ (e + 1074).toNat := by rw [← Nat.pow_add]; congr 1; omega
    rw [this, Nat.mul_div_mul_right _ _ (Nat.two_pow_pos _)]

/-- The magnitude of a timestamp after the way through JSON. -/
theorem jsonStamp_eq {n : Int} (h : n.natAbs < 2 ^ 64) :
    jsonStamp n = let v : Int := if n < 0 then - ((rounded n.natAbs 1 / 2 ^ 1074 : Nat) : Int) else (rounded n.natAbs 1 / 2 ^ 1074 : Nat)
      if minInt64 ≤ v ∧ v ≤ maxInt64 then v else minInt64 := by
  obtain ⟨f, hf⟩ := ofRatio_nat (decide (n < 0)) h
  obtain ⟨m, e, hc, rfl, hu⟩ := ofRatio_ulps hf
  unfold jsonStamp F64.ofInt
  rw [hf, Option.getD_some, F64.toInt64]
  dsimp only
  rw [units_whole hc, hu]
  simp only [decide_eq_true_eq]

theorem rounded_div_mono {a b : Nat} (h : a ≤ b) : rounded a 1 / 2 ^ 1074 ≤ rounded b 1 / 2 ^ 1074 :=
  Nat.div_le_div_right (rounded_mono (by decide) (by decide) (by omega))

theorem rounded_div_exact {p m : Nat} {e : Int} (h : canon m e = true) (hr : ofRatio false p 1 = some (.fin false m e h)) {v : Nat}
    (hv : (if 0 ≤ e then m * 2 ^ e.toNat else m / 2 ^ (-e).toNat) = v) : rounded p 1 / 2 ^ 1074 = v := by
  obtain ⟨m', e', hc, h1, h2⟩ := ofRatio_ulps hr
  cases h1
  rw [← h2, ← units_whole h, hv]

theorem rounded_top : rounded 9223372036854775295 1 / 2 ^ 1074 = 9223372036854774784 :=
  rounded_div_exact (m := 9007199254740991) (e := 10) (by decide) (by decide +kernel) (by decide)

theorem rounded_bottom : rounded 9223372036854775808 1 / 2 ^ 1074 = 9223372036854775808 :=
  rounded_div_exact (m := 4503599627370496) (e := 11) (by decide) (by decide +kernel) (by decide)

/-- **C76, order.** The way through JSON keeps the order of timestamps, up to 513 before the largest one. -/
theorem C76_order {a b : Int} (h1 : minInt64 ≤ a) (h2 : a ≤ b) (h3 : b ≤ maxInt64 - 512) : jsonStamp a ≤ jsonStamp b := by
  simp only [minInt64, maxInt64] at h1 h3
  rw [jsonStamp_eq (by omega), jsonStamp_eq (by omega)]
  dsimp only
  have ma : 0 ≤ a → a.natAbs ≤ b.natAbs := by omega
  have mb : b < 0 → b.natAbs ≤ a.natAbs := by omega
  have ra : a < 0 → rounded a.natAbs 1 / 2 ^ 1074 ≤ 9223372036854775808 := fun h => by
    rw [← rounded_bottom]; exact rounded_div_mono (by omega)
  have rb : 0 ≤ b → rounded b.natAbs 1 / 2 ^ 1074 ≤ 9223372036854774784 := fun h => by
    rw [← rounded_top]; exact rounded_div_mono (by omega)
  have m1 := fun h => rounded_div_mono (ma h)
  have m2 := fun h => rounded_div_mono (mb h)
  generalize rounded a.natAbs 1 / 2 ^ 1074 = A at *
  generalize rounded b.natAbs 1 / 2 ^ 1074 = B at *
  simp only [minInt64, maxInt64]
  grind

/-- Timestamps at the end of the range become the smallest one. -/
theorem C76_order_fails : jsonStamp (maxInt64 - 512) = maxInt64 - 1023 ∧ jsonStamp (maxInt64 - 511) = minInt64 := by
  decide +kernel

example : jsonStamp 1700000000000000001 ≤ jsonStamp 1700000000000000100 := C76_order (by decide) (by decide) (by decide)

/-- A whole number is rounded to a whole number. -/
theorem rounded_whole (n : Nat) : rounded n 1 = rounded n 1 / 2 ^ 1074 * 2 ^ 1074 := by
  by_cases hn : n < 2 ^ 53
  · rw [rounded_nat hn, Nat.mul_div_cancel _ (Nat.two_pow_pos 1074)]
  · obtain ⟨h1, -⟩ := shift_spec (p := n) (q := 1) (by omega) (by decide)
    have h3 : 2 ^ 53 * 2 ^ 1074 ≤ n * 2 ^ 1074 := Nat.mul_le_mul_right _ (Nat.not_lt.1 hn)
    rw [← Nat.pow_add] at h3
    rw [Nat.one_mul] at h1
    have h4 := (Nat.pow_lt_pow_iff_right (by decide : 1 < 2)).1 (Nat.lt_of_le_of_lt h3 h1)
    have h5 : 2 ^ 1074 ∣ rounded n 1 := by
      unfold rounded
      exact Nat.dvd_trans (Nat.pow_dvd_pow 2 (by omega)) (Nat.dvd_mul_left _ _)
    exact (Nat.div_mul_cancel h5).symm

theorem rounded_twice {n : Nat} (h : n < 2 ^ 64) : rounded (rounded n 1 / 2 ^ 1074) 1 = rounded n 1 := by
  obtain ⟨f, hf⟩ := ofRatio_nat false h
  obtain ⟨m, e, hc, rfl, hu⟩ := ofRatio_ulps hf
  have h1 := rounded_whole n
  rw [← hu] at h1 ⊢
  exact rounded_exact hc (by decide) (by rw [whole_ulps hc h1, Nat.mul_one])

/-- **C76.** A second way through JSON changes nothing. -/
theorem C76_again (n : Int) (h1 : minInt64 ≤ n) (h2 : n ≤ maxInt64) : jsonStamp (jsonStamp n) = jsonStamp n := by
  have hn := int64_natAbs h1 h2
  have e1 := jsonStamp_eq hn
  have hmin : jsonStamp minInt64 = minInt64 := by decide +kernel
  have ht := rounded_twice hn
  dsimp only at e1
  generalize hA : rounded n.natAbs 1 / 2 ^ 1074 = A at *
  by_cases hr : minInt64 ≤ (if n < 0 then -(A : Int) else A) ∧ (if n < 0 then -(A : Int) else A) ≤ maxInt64
  · rw [if_pos hr] at e1
    have hz : A = 0 → rounded n.natAbs 1 = 0 := by
      intro h0; have := rounded_whole n.natAbs; rw [hA, h0] at this; omega
    have habs : (jsonStamp n).natAbs = A := by rw [e1]; split <;> omega
    rw [jsonStamp_eq (n := jsonStamp n) (int64_natAbs (by rw [e1]; exact hr.1) (by rw [e1]; exact hr.2))]
    dsimp only
    rw [habs, ht, hA]
    have : (if jsonStamp n < 0 then -(A : Int) else A) = jsonStamp n := by
      rw [e1]; split <;> split <;> omega
    rw [this, e1, if_pos hr]
  · rw [if_neg hr] at e1
    rw [e1, hmin]

end Verif
