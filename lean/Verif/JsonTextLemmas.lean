import Verif.JsonText
import Verif.JsonTrip
import Verif.JsonImport
/-
Lemmas on JSON texts: what `json.Marshal` writes is read back by `json.Unmarshal`.
-/
namespace Verif

/-! ### Hexadecimal digits -/

theorem hexVal_hexDigit {n : Nat} (h : n < 16) : hexVal (hexDigit n) = some n := by
  have : ∀ k : Fin 16, hexVal (hexDigit k.val) = some k.val := by decide
  exact this ⟨n, h⟩

theorem hex4_hexDigits {n : Nat} (h : n < 65536) (r : Bytes) : hex4 (hexDigits 4 n ++ r) = some (n, r) := by
  have e : hexDigits 4 n ++ r = hexDigit (n / 16 / 16 / 16 % 16) :: hexDigit (n / 16 / 16 % 16) ::
      hexDigit (n / 16 % 16) :: hexDigit (n % 16) :: r := by simp [hexDigits]
  rw [e, hex4, hexVal_hexDigit (Nat.mod_lt _ (by decide)), hexVal_hexDigit (Nat.mod_lt _ (by decide)),
    hexVal_hexDigit (Nat.mod_lt _ (by decide)), hexVal_hexDigit (Nat.mod_lt _ (by decide))]
  simp only [Option.some.injEq, Prod.mk.injEq, and_true]
  omega

theorem hexDigits_length (k n : Nat) : (hexDigits k n).length = k := by
  induction k generalizing n with
  | zero => rfl
  | succ k ih => simp [hexDigits, ih]

/-! ### Strings -/

theorem readStr_end (n : Nat) (r : Bytes) : readStr (n + 1) (34 :: r) = some ([], r) := by simp [readStr]

theorem readStr_u {u : Nat} (h : u < 65536) (hs : ¬ (0xD800 ≤ u ∧ u < 0xE000)) (n : Nat) (r : Bytes) :
    readStr (n + 1) (92 :: 117 :: (hexDigits 4 u ++ r)) = consStr (runeBytes u) (readStr n r) := by
  simp only [readStr, hex4_hexDigits h, uEscape, if_neg hs]
  rfl

theorem readStr_esc {e b : UInt8} (he : e ≠ 117) (h : jsonUnescape e = some b) (n : Nat) (r : Bytes) :
    readStr (n + 1) (92 :: e :: r) = consStr [b] (readStr n r) := by
  simp only [readStr, if_neg he, h]
  rfl

theorem readStr_jsonByte {c : UInt8} (hc : c < 0x80) (n : Nat) (r : Bytes) :
    readStr (n + 1) (jsonByte c ++ r) = consStr [c] (readStr n r) := by
  unfold jsonByte
  by_cases h1 : c = 34 ∨ c = 92
  · rw [if_pos h1]
    rcases h1 with rfl | rfl <;> exact readStr_esc (by decide) (by decide) n r
  rw [if_neg h1]
  by_cases h2 : c = 8
  · rw [if_pos h2]; subst h2; exact readStr_esc (by decide) (by decide) n r
  rw [if_neg h2]
  by_cases h3 : c = 12
  · rw [if_pos h3]; subst h3; exact readStr_esc (by decide) (by decide) n r
  rw [if_neg h3]
  by_cases h4 : c = 10
  · rw [if_pos h4]; subst h4; exact readStr_esc (by decide) (by decide) n r
  rw [if_neg h4]
  by_cases h5 : c = 13
  · rw [if_pos h5]; subst h5; exact readStr_esc (by decide) (by decide) n r
  rw [if_neg h5]
  by_cases h6 : c = 9
  · rw [if_pos h6]; subst h6; exact readStr_esc (by decide) (by decide) n r
  rw [if_neg h6]
  have hlt : c.toNat < 128 := by simpa [UInt8.lt_iff_toNat_lt] using hc
  by_cases h7 : c < 32 ∨ c = 60 ∨ c = 62 ∨ c = 38
  · rw [if_pos h7]
    simp only [List.cons_append]
    rw [readStr_u (by omega) (by omega)]
    rw [runeBytes, if_pos hlt, UInt8.ofNat_toNat]
  · rw [if_neg h7]
    simp only [not_or] at h1 h7
    simp only [List.cons_append, List.nil_append, readStr, if_neg h1.1, if_neg h1.2, if_neg h7.1, if_pos hc]

theorem readStr_rune {r : Nat} (h : IsScalar r) (n : Nat) (s : Bytes) :
    readStr (n + 1) (utf8Enc r ++ s) = consStr (utf8Enc r) (readStr n s) := by
  obtain ⟨c, l, e, hc⟩ := utf8Enc_cons h
  have hr := runeAt_utf8Enc h s
  have h1 : c ≠ 34 := by rintro rfl; exact hc (by decide)
  have h2 : c ≠ 92 := by rintro rfl; exact hc (by decide)
  have h3 : ¬ c < 32 := by
    intro h; apply hc
    simp only [UInt8.lt_iff_toNat_lt] at h ⊢
    simp at h ⊢; omega
  have hcs : utf8Enc r ++ s = c :: (l ++ s) := by rw [e]; rfl
  have ht : (utf8Enc r ++ s).take (utf8Enc r).length = utf8Enc r := by simp
  have hd : (utf8Enc r ++ s).drop (utf8Enc r).length = s := by simp
  rw [hcs] at hr ht hd ⊢
  simp only [readStr, if_neg h1, if_neg h2, if_neg h3, if_neg hc, hr, ht, hd]

theorem runeBytes_utf8Enc {r : Nat} (h : IsScalar r) : runeBytes r = utf8Enc r := by
  obtain ⟨h1, h2, h3⟩ := h
  rw [runeBytes, if_neg (by omega), if_neg (by omega)]
  rfl

theorem jsonByte_length (c : UInt8) : 1 ≤ (jsonByte c).length := by
  unfold jsonByte
  repeat' split
  all_goals simp

/-- A string written by `json.Marshal` is read back, with invalid UTF-8 replaced. -/
theorem readStr_jsonStrBody (n : Nat) : ∀ {s : Bytes}, s.length ≤ n → ∀ {N : Nat}, (jsonStrBody n s).length < N →
    ∀ rest, readStr N (jsonStrBody n s ++ 34 :: rest) = some (sanitizeN n s, rest) := by
  induction n with
  | zero =>
    intro s _ N hN rest
    obtain ⟨N, rfl⟩ : ∃ k, N = k + 1 := ⟨N - 1, by omega⟩
    simp [jsonStrBody, readStr_end, sanitizeN]
  | succ n ih =>
    intro s hs N hN rest
    obtain ⟨N, rfl⟩ : ∃ k, N = k + 1 := ⟨N - 1, by omega⟩
    cases s with
    | nil => simp [jsonStrBody, readStr_end, sanitizeN]
    | cons c s =>
      have hl : s.length ≤ n := by simpa using hs
      simp only [jsonStrBody, sanitizeN] at hN ⊢
      by_cases hc : c < 0x80
      · rw [if_pos hc] at hN ⊢
        rw [if_pos hc, List.append_assoc, readStr_jsonByte hc]
        have := jsonByte_length c
        rw [List.length_append] at hN
        rw [ih hl (by omega)]
        rfl
      · rw [if_neg hc] at hN ⊢
        rw [if_neg hc]
        cases hr : runeAt (c :: s) with
        | none =>
          rw [hr] at hN
          simp only [List.length_cons, List.length_append] at hN
          simp only [List.cons_append, List.append_assoc]
          rw [readStr_u (by decide) (by decide), ih hl (by omega)]
          rfl
        | some p =>
          obtain ⟨cp, w⟩ := p
          rw [hr] at hN
          obtain ⟨hsc, htk, hw⟩ := runeAt_some hr
          have hdl : ((c :: s).drop w).length ≤ n := by
            rw [List.length_drop, List.length_cons]; simp at hs; omega
          simp only [List.length_append] at hN
          dsimp only
          rw [List.append_assoc]
          by_cases hcp : cp = 0x2028 ∨ cp = 0x2029
          · rw [if_pos hcp] at hN ⊢
            simp only [List.length_cons, hexDigits_length] at hN
            simp only [List.cons_append]
            rw [readStr_u (by omega) (by omega), ih hdl (by omega), runeBytes_utf8Enc hsc, htk]
            rfl
          · rw [if_neg hcp] at hN ⊢
            obtain ⟨c', l', e', -⟩ := utf8Enc_cons hsc
            rw [htk, e', List.length_cons] at hN
            rw [htk, readStr_rune hsc, ih hdl (by omega)]
            rfl

theorem readStr_jsonStr (s : Bytes) {N : Nat} (hN : (jsonStr s).length ≤ N + 1) (rest : Bytes) :
    readStr N (jsonStrBody s.length s ++ 34 :: rest) = some (sanitize s, rest) := by
  apply readStr_jsonStrBody _ (Nat.le_refl _)
  simp [jsonStr] at hN
  omega

/-! ### Numbers -/

/-- The text after a value: the end, a comma, a closing bracket, or white space. -/
def JStop (rest : Bytes) : Prop := ∀ c r, rest = c :: r → c = 44 ∨ c = 93 ∨ c = 125 ∨ c = 32 ∨ c = 10

theorem natDigitsAux_head (fuel : Nat) : ∀ n, n < fuel → n ≠ 0 → ∀ acc, ∃ c r, natDigitsAux fuel n acc = c :: r ∧
    c ≠ 48 := by
  induction fuel with
  | zero => intro n h; omega
  | succ f ih =>
    intro n h h0 acc
    rw [natDigitsAux_succ]
    split
    · rename_i hz
      refine ⟨_, _, rfl, ?_⟩
      rw [Ne, ← UInt8.toNat_inj, u8_ofNat_toNat (by omega)]
      have : n % 10 = n := Nat.mod_eq_of_lt (by omega)
      rw [this]
      simp
      omega
    · rename_i hz
      exact ih (n / 10) (by omega) hz _

/-- A positive number has no leading zero. -/
theorem natDigits_pos {n : Nat} (h : n ≠ 0) : ∃ c r, natDigits n = c :: r ∧ c ≠ 48 ∧ isDigit c = true := by
  obtain ⟨c, r, e, hc⟩ := natDigitsAux_head (n + 1) n (by omega) h []
  refine ⟨c, r, e, hc, ?_⟩
  have := natDigits_isDigit n
  rw [natDigits, e, List.all_cons, Bool.and_eq_true] at this
  exact this.1

/-- An integer part as JSON wants it. -/
def GoodInt (int : Bytes) : Prop := int.all isDigit = true ∧ (int = [48] ∨ ∃ c r, int = c :: r ∧ c ≠ 48)

theorem goodInt_natDigits (n : Nat) : GoodInt (natDigits n) := by
  refine ⟨natDigits_isDigit n, ?_⟩
  by_cases h : n = 0
  · subst h; exact .inl rfl
  · obtain ⟨c, r, e, hc, -⟩ := natDigits_pos h
    exact .inr ⟨c, r, e, hc⟩

theorem GoodInt.ne_nil {int : Bytes} (h : GoodInt int) : int ≠ [] := by
  rcases h.2 with rfl | ⟨c, r, rfl, -⟩ <;> simp

theorem readInt_good {int : Bytes} (h : GoodInt int) {rest : Bytes} (hr : ∀ c r, rest = c :: r → isDigit c = false) :
    readInt (int ++ rest) = some (int, rest) := by
  rcases h.2 with rfl | ⟨c, r, rfl, hc⟩
  · rfl
  · have hs := spanDigits_append h.1 hr
    have : readInt (c :: (r ++ rest)) = if (spanDigits (c :: (r ++ rest))).1 = [] then none
        else some (spanDigits (c :: (r ++ rest))) := by
      unfold readInt
      split
      · rename_i heq; cases heq; exact absurd rfl hc
      · rfl
    rw [List.cons_append, this]
    rw [List.cons_append] at hs
    rw [hs, if_neg (by simp)]

theorem readFrac_none {rest : Bytes} (hr : ∀ c r, rest = c :: r → c ≠ 46) : readFrac rest = some (none, rest) := by
  unfold readFrac
  split
  · rename_i r heq; exact absurd rfl (hr _ _ rfl)
  · rfl

theorem readFrac_some {ds rest : Bytes} (hd : ds.all isDigit = true) (hne : ds ≠ [])
    (hr : ∀ c r, rest = c :: r → isDigit c = false) : readFrac (46 :: (ds ++ rest)) = some (some ds, rest) := by
  simp only [readFrac]
  rw [spanDigits_append hd hr, if_neg hne]

theorem readExp_none {rest : Bytes} (hr : ∀ c r, rest = c :: r → c ≠ 101 ∧ c ≠ 69) :
    readExp rest = some (none, rest) := by
  cases rest with
  | nil => rfl
  | cons c r =>
    obtain ⟨h1, h2⟩ := hr c r rfl
    simp [readExp, h1, h2]

theorem readExp_some {neg : Bool} {ds rest : Bytes} (hd : ds.all isDigit = true) (hne : ds ≠ [])
    (hr : ∀ c r, rest = c :: r → isDigit c = false) :
    readExp (101 :: (if neg then 45 else 43) :: (ds ++ rest)) = some (some (neg, ds), rest) := by
  cases neg <;> simp [readExp, readSign, spanDigits_append hd hr, hne]

theorem JStop.digit {rest : Bytes} (h : JStop rest) : ∀ c r, rest = c :: r → isDigit c = false := by
  intro c r e
  rcases h c r e with rfl | rfl | rfl | rfl | rfl <;> decide

theorem JStop.point {rest : Bytes} (h : JStop rest) : ∀ c r, rest = c :: r → c ≠ 46 := by
  intro c r e
  rcases h c r e with rfl | rfl | rfl | rfl | rfl <;> decide

theorem JStop.exp {rest : Bytes} (h : JStop rest) : ∀ c r, rest = c :: r → c ≠ 101 ∧ c ≠ 69 := by
  intro c r e
  rcases h c r e with rfl | rfl | rfl | rfl | rfl <;> decide

/-- The sign in front of a number. -/
def signed (neg : Bool) (s : Bytes) : Bytes := if neg then 45 :: s else s

theorem readNum_signed (neg : Bool) {s : Bytes} (h : ∀ c r, s = c :: r → c ≠ 45) : readNum (signed neg s) =
    match readInt s with
    | none => none
    | some (int, s) =>
      match readFrac s with
      | none => none
      | some (frac, s) =>
        match readExp s with
        | none => none
        | some (exp, s) => some (.num neg int frac exp, s) := by
  cases neg with
  | true => simp [readNum, signed]; rfl
  | false =>
    have : (s.head? == some 45) = false := by
      cases s with
      | nil => rfl
      | cons c r => simp [h c r rfl]
    simp [readNum, signed, this]; rfl

theorem digit_not_minus {s rest : Bytes} (hd : s.all isDigit = true) (hne : s ≠ []) :
    ∀ c r, s ++ rest = c :: r → c ≠ 45 := by
  intro c r e
  cases s with
  | nil => exact absurd rfl hne
  | cons d s =>
    rw [List.cons_append] at e
    cases e
    rw [List.all_cons, Bool.and_eq_true] at hd
    rintro rfl
    exact absurd hd.1 (by decide)

/-- A number without exponent. -/
theorem readNum_plain (neg : Bool) {int frac rest : Bytes} (hi : GoodInt int) (hf : frac.all isDigit = true)
    (hr : JStop rest) :
    readNum (signed neg (int ++ (if frac = [] then [] else 46 :: frac)) ++ rest) =
      some (.num neg int (if frac = [] then none else some frac) none, rest) := by
  have e : signed neg (int ++ (if frac = [] then [] else 46 :: frac)) ++ rest =
      signed neg (int ++ ((if frac = [] then [] else 46 :: frac) ++ rest)) := by
    cases neg <;> simp [signed]
  rw [e, readNum_signed neg (digit_not_minus hi.1 hi.ne_nil)]
  by_cases h : frac = []
  · simp only [if_pos h, List.nil_append]
    rw [readInt_good hi hr.digit]
    simp only [readFrac_none hr.point, readExp_none hr.exp]
  · simp only [if_neg h, List.cons_append]
    rw [readInt_good hi (by intro c r e; cases e; decide)]
    simp only [readFrac_some hf h hr.digit, readExp_none hr.exp]

/-- A number with exponent. -/
theorem readNum_exp (neg eneg : Bool) {int frac ds rest : Bytes} (hi : GoodInt int) (hf : frac.all isDigit = true)
    (hd : ds.all isDigit = true) (hne : ds ≠ []) (hr : JStop rest) :
    readNum (signed neg (int ++ (if frac = [] then [] else 46 :: frac) ++ 101 :: (if eneg then 45 else 43) :: ds) ++ rest) =
      some (.num neg int (if frac = [] then none else some frac) (some (eneg, ds)), rest) := by
  have e : signed neg (int ++ (if frac = [] then [] else 46 :: frac) ++ 101 :: (if eneg then 45 else 43) :: ds) ++ rest =
      signed neg (int ++ ((if frac = [] then [] else 46 :: frac) ++ 101 :: (if eneg then 45 else 43) :: (ds ++ rest))) := by
    cases neg <;> simp [signed]
  rw [e, readNum_signed neg (digit_not_minus hi.1 hi.ne_nil)]
  by_cases h : frac = []
  · simp only [if_pos h, List.nil_append]
    rw [readInt_good hi (by intro c r e; cases e; decide)]
    have hp := readFrac_none (rest := 101 :: (if eneg then 45 else 43) :: (ds ++ rest)) (by intro c r e; cases e; decide)
    simp only [hp, readExp_some hd hne hr.digit]
  · simp only [if_neg h, List.cons_append]
    rw [readInt_good hi (by intro c r e; cases e; decide)]
    have hp := readFrac_some hf h (rest := 101 :: (if eneg then 45 else 43) :: (ds ++ rest)) (by intro c r e; cases e; decide)
    simp only [hp, readExp_some hd hne hr.digit]

/-- Integers of at most 64 bits do not overflow. -/
theorem ofRatio_nat (neg : Bool) {p : Nat} (h : p < 2 ^ 64) : ∃ f, F64.ofRatio neg p 1 = some f := by
  by_cases h0 : p = 0
  · subst h0
    exact ⟨.fin neg 0 (-1074) (by decide), by simp [F64.ofRatio, F64.mk?, show F64.canon 0 (-1074) = true by decide]⟩
  have hmk : ∀ m e, F64.canon m e = true → ∃ f, F64.mk? neg m e = some f := fun m e hc => ⟨_, by rw [F64.mk?, dif_pos hc]⟩
  obtain ⟨h1, h2⟩ := F64.floorLog2_spec (p := p) (q := 1) (by omega) (by decide)
  have hL0 : 0 ≤ F64.floorLog2 p 1 := by
    refine Int.not_lt.1 fun hlt => h2 (F64.Le2.mono (L' := 0) (by omega) ?_)
    simp [F64.Le2]; omega
  have hL1 : F64.floorLog2 p 1 ≤ 63 := by
    refine Int.not_lt.1 fun hlt => ?_
    have := F64.Le2.mono (L := 64) (by omega) h1
    simp [F64.Le2] at this
    omega
  rw [F64.ofRatio, if_neg h0]
  dsimp only
  generalize F64.floorLog2 p 1 = L at *
  rw [show max (L - 52) (-1074) = L - 52 by omega]
  obtain ⟨l, rfl⟩ : ∃ l : Nat, L = l := ⟨L.toNat, by omega⟩
  have hp1 : 2 ^ l ≤ p := by
    simp only [F64.Le2, show (-(l : Int)).toNat = 0 by omega, Int.toNat_natCast] at h1
    simpa using h1
  have hp2 : p < 2 ^ (l + 1) := by
    simp only [F64.Le2, show (-((l : Int) + 1)).toNat = 0 by omega, show ((l : Int) + 1).toNat = l + 1 by omega] at h2
    simpa using h2
  have hm : 2 ^ 52 ≤ F64.scaleRound p 1 ((l : Int) - 52) ∧ F64.scaleRound p 1 ((l : Int) - 52) ≤ 2 ^ 53 := by
    unfold F64.scaleRound
    by_cases hc : (0 : Int) ≤ (l : Int) - 52
    · rw [if_pos hc]
      have hl : l = 52 + ((l : Int) - 52).toNat := by omega
      generalize ((l : Int) - 52).toNat = k at *
      subst hl
      have hk := Nat.two_pow_pos k
      have q1 : 2 ^ 52 ≤ p / (1 * 2 ^ k) := by
        rw [Nat.one_mul, Nat.le_div_iff_mul_le hk, ← Nat.pow_add]; exact hp1
      have q2 : p / (1 * 2 ^ k) < 2 ^ 53 := by
        rw [Nat.one_mul, Nat.div_lt_iff_lt_mul hk, ← Nat.pow_add, show 53 + k = 52 + k + 1 by omega]; exact hp2
      unfold F64.divRound
      dsimp only
      repeat' split
      all_goals omega
    · rw [if_neg hc]
      have := F64.divRound_exact (p * 2 ^ (-((l : Int) - 52)).toNat) 1 (by decide)
      rw [Nat.mul_one] at this
      rw [this]
      have hl : 52 = l + (-((l : Int) - 52)).toNat := by omega
      generalize (-((l : Int) - 52)).toNat = k at *
      have e1 : 2 ^ 52 = 2 ^ l * 2 ^ k := by rw [← Nat.pow_add, ← hl]
      have e2 : 2 ^ 53 = 2 ^ (l + 1) * 2 ^ k := by rw [← Nat.pow_add, show l + 1 + k = 53 by omega]
      rw [e1, e2]
      exact ⟨Nat.mul_le_mul_right _ hp1, Nat.mul_le_mul_right _ (by omega)⟩
  split
  · exact hmk _ _ (F64.canon_iff.2 ⟨by decide, by omega, by omega, .inl (by decide)⟩)
  · exact hmk _ _ (F64.canon_iff.2 ⟨by omega, by omega, by omega, .inl hm.1⟩)

/-- A number written with a JSON number literal. -/
theorem readNum_itoa (n : Int) {rest : Bytes} (hr : JStop rest) :
    readNum (itoa n ++ rest) = some (.num (decide (n < 0)) (natDigits n.natAbs) none none, rest) := by
  have h := readNum_plain (decide (n < 0)) (int := natDigits n.natAbs) (frac := []) (goodInt_natDigits _) rfl hr
  simp only [if_true, List.append_nil] at h
  rw [← h]
  unfold itoa signed
  by_cases hn : n < 0
  · simp [hn]
  · simp [hn, show n.toNat = n.natAbs by omega]

theorem litFloat_itoa {n : Int} (h : n.natAbs < 2 ^ 64) :
    litFloat (decide (n < 0)) (natDigits n.natAbs) none none = some (.ofInt n) := by
  obtain ⟨f, hf⟩ := ofRatio_nat (decide (n < 0)) h
  simp [litFloat, expVal, digitsVal_natDigits, readDecimal, F64.ofInt, hf]

theorem litInt_itoa {n : Int} (h1 : minInt64 ≤ n) (h2 : n ≤ maxInt64) :
    litInt (decide (n < 0)) (natDigits n.natAbs) none none = some n := by
  have e : (if decide (n < 0) = true then -((n.natAbs : Nat) : Int) else (n.natAbs : Nat)) = n := by
    simp only [decide_eq_true_eq]; split <;> omega
  simp only [litInt, digitsVal_natDigits, and_self, if_true]
  rw [e, if_pos ⟨h1, h2⟩]

theorem shortest_ne_zero {neg : Bool} {m : Nat} {e : Int} (h : F64.canon m e = true) (hm : m ≠ 0) :
    (shortest neg m e h).1 ≠ 0 := by
  intro h0
  have := shortest_reads (neg := neg) h
  rw [h0] at this
  simp only [readDecimal, F64.ofRatio, Nat.zero_mul, if_true, ite_self] at this
  rw [F64.mk?, dif_pos (by decide)] at this
  cases this
  exact hm rfl

/-- The text of a plain number is a JSON number with the right value. -/
theorem fmtPlain_json (neg : Bool) (c : Nat) (k : Int) (h : c ≠ 0 ∨ k = 0) : ∃ int frac, GoodInt int ∧
    frac.all isDigit = true ∧ fmtPlain c k = int ++ (if frac = [] then [] else 46 :: frac) ∧
    litFloat neg int (if frac = [] then none else some frac) none = readDecimal neg c k := by
  have hd := natDigits_isDigit c
  have hne := natDigits_ne_nil c
  have hv := digitsVal_natDigits c
  have hg := goodInt_natDigits c
  have hp : c ≠ 0 → ∃ d r, natDigits c = d :: r ∧ d ≠ 48 ∧ isDigit d = true := natDigits_pos
  have hlen : 0 < (natDigits c).length := List.length_pos_iff.2 hne
  unfold fmtPlain
  dsimp only
  generalize natDigits c = ds at *
  by_cases hk : 0 ≤ k
  · refine ⟨ds ++ List.replicate k.toNat 48, [], ?_, rfl, by rw [if_pos hk]; simp, ?_⟩
    · rcases h with h | h
      · refine ⟨by rw [List.all_append, hd, zeros_isDigit]; rfl, .inr ?_⟩
        obtain ⟨d, r, rfl, h48, -⟩ := hp h
        exact ⟨d, _, rfl, h48⟩
      · subst h; simpa using hg
    · simp only [if_true, litFloat, expVal, Option.getD_none, List.append_nil, List.length_nil]
      rw [digitsVal_append, hv, digitsVal_zeros]
      simp [readDecimal, hk]
  · rw [if_neg hk]
    have hc : c ≠ 0 := by omega
    obtain ⟨d, r, rfl, h48, hdd⟩ := hp hc
    by_cases hdp : 0 < ((d :: r).length : Int) + k
    · rw [if_pos hdp]
      generalize hj : (((d :: r).length : Int) + k).toNat = j
      obtain ⟨j, rfl⟩ : ∃ i, j = i + 1 := ⟨j - 1, by omega⟩
      have hdr : (d :: r).drop (j + 1) ≠ [] := by
        intro h
        have := congrArg List.length h
        rw [List.length_drop, List.length_nil] at this
        omega
      refine ⟨(d :: r).take (j + 1), (d :: r).drop (j + 1), ⟨?_, .inr ⟨d, r.take j, rfl, h48⟩⟩, ?_, ?_, ?_⟩
      · rw [List.all_eq_true] at hd ⊢
        exact fun x hx => hd x (List.mem_of_mem_take hx)
      · rw [List.all_eq_true] at hd ⊢
        exact fun x hx => hd x (List.mem_of_mem_drop hx)
      · rw [if_neg hdr]
      · rw [if_neg hdr, litFloat]
        simp only [Option.getD_some, expVal]
        rw [List.take_append_drop, hv, List.length_drop]
        congr 1; omega
    · rw [if_neg hdp]
      have hnn : List.replicate (-(((d :: r).length : Int) + k)).toNat 48 ++ (d :: r) ≠ [] := by simp
      refine ⟨[48], List.replicate (-(((d :: r).length : Int) + k)).toNat 48 ++ (d :: r), ⟨rfl, .inl rfl⟩, ?_, ?_, ?_⟩
      · rw [List.all_append, hd, zeros_isDigit]; rfl
      · rw [if_neg hnn]; rfl
      · rw [if_neg hnn, litFloat]
        simp only [Option.getD_some, expVal]
        rw [List.cons_append, List.nil_append, digitsVal_cons, digitsVal_append, digitsVal_zeros]
        simp only [show digitVal 48 = 0 from rfl, Nat.zero_mul, Nat.add_zero, hv, List.length_append,
          List.length_replicate]
        congr 1; omega

/-- The text with exponent is a JSON number with the right value. -/
theorem jsonExp_json (neg : Bool) (c : Nat) (k : Int) (h : c ≠ 0) : ∃ int frac eneg ds, GoodInt int ∧
    frac.all isDigit = true ∧ ds.all isDigit = true ∧ ds ≠ [] ∧
    jsonExp c k = int ++ (if frac = [] then [] else 46 :: frac) ++ 101 :: (if eneg then 45 else 43) :: ds ∧
    litFloat neg int (if frac = [] then none else some frac) (some (eneg, ds)) = readDecimal neg c k := by
  have hd := natDigits_isDigit c
  have hv := digitsVal_natDigits c
  obtain ⟨d, r, e, h48, hdd⟩ := natDigits_pos h
  unfold jsonExp
  dsimp only
  rw [e] at hd hv ⊢
  rw [List.all_cons, Bool.and_eq_true] at hd
  generalize hx : ((d :: r).length : Int) + k - 1 = x
  refine ⟨[d], r, decide (x < 0), natDigits x.natAbs, ⟨by simp [hdd], .inr ⟨d, [], rfl, h48⟩⟩, hd.2,
    natDigits_isDigit _, natDigits_ne_nil _, ?_, ?_⟩
  · cases r with
    | nil => simp
    | cons a r => simp
  · have hg : (if r = [] then none else some r).getD [] = r := by split <;> simp_all
    rw [litFloat, hg, List.cons_append, List.nil_append, hv]
    congr 1
    simp only [expVal, digitsVal_natDigits, decide_eq_true_eq]
    rw [List.length_cons] at hx
    split <;> omega

/-- A number written by `json.Marshal` is read back. -/
theorem readNum_jsonNum {neg : Bool} {m : Nat} {e : Int} (h : F64.canon m e = true) :
    ∃ int frac exp, litFloat neg int frac exp = some (.fin neg m e h) ∧ ∀ rest, JStop rest →
      readNum (jsonNum (.fin neg m e h) ++ rest) = some (.num neg int frac exp, rest) := by
  have hs := shortest_reads (neg := neg) h
  simp only [jsonNum]
  by_cases hx : m ≠ 0 ∧ jsonUsesExp m e = true
  · rw [if_pos hx]
    obtain ⟨int, frac, eneg, ds, hi, hf, hd, hne, et, el⟩ := jsonExp_json neg _ (shortest neg m e h).2
      (shortest_ne_zero (neg := neg) h hx.1)
    refine ⟨int, _, _, el.trans hs, fun rest hr => ?_⟩
    have := readNum_exp neg eneg hi hf hd hne hr
    rw [et]
    exact this
  · rw [if_neg hx]
    have hc : (shortest neg m e h).1 ≠ 0 ∨ (shortest neg m e h).2 = 0 := by
      by_cases hm : m = 0
      · right; simp [shortest, hm]
      · exact .inl (shortest_ne_zero h hm)
    obtain ⟨int, frac, hi, hf, et, el⟩ := fmtPlain_json neg _ _ hc
    refine ⟨int, _, _, el.trans hs, fun rest hr => ?_⟩
    have := readNum_plain neg hi hf hr
    rw [et]
    exact this

/-- The first byte of a number. -/
theorem jsonNum_head {neg : Bool} {m : Nat} {e : Int} (h : F64.canon m e = true) :
    ∃ c r, jsonNum (.fin neg m e h) = c :: r ∧ (c = 45 ∨ isDigit c = true) := by
  cases neg with
  | true => exact ⟨45, _, rfl, .inl rfl⟩
  | false =>
    simp only [jsonNum]
    by_cases hx : m ≠ 0 ∧ jsonUsesExp m e = true
    · rw [if_pos hx]
      obtain ⟨d, r, e', h48, hdd⟩ := natDigits_pos (shortest_ne_zero (neg := false) h hx.1)
      refine ⟨d, _, by rw [jsonExp, e']; rfl, .inr hdd⟩
    · rw [if_neg hx]
      have hc : (shortest false m e h).1 ≠ 0 ∨ (shortest false m e h).2 = 0 := by
        by_cases hm : m = 0
        · right; simp [shortest, hm]
        · exact .inl (shortest_ne_zero h hm)
      obtain ⟨int, frac, hi, hf, et, el⟩ := fmtPlain_json false _ _ hc
      rcases hi.2 with rfl | ⟨d, r, rfl, -⟩
      · exact ⟨48, _, by rw [et]; rfl, .inr (by decide)⟩
      · have := hi.1
        rw [List.all_cons, Bool.and_eq_true] at this
        exact ⟨d, _, by rw [et]; rfl, .inr this.1⟩

theorem itoa_head (n : Int) : ∃ c r, itoa n = c :: r ∧ (c = 45 ∨ isDigit c = true) := by
  unfold itoa
  split
  · exact ⟨45, _, rfl, .inl rfl⟩
  · obtain ⟨c, r, e, h⟩ := natDigits_head n.toNat
    exact ⟨c, r, e, .inr h⟩

end Verif
