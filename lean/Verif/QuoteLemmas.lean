import Verif.SpecCodec
/-
Reading back quoted strings.
-/
namespace Verif

theorem u8_ofNat_toNat {n : Nat} (h : n < 256) : (UInt8.ofNat n).toNat = n := by
  rw [UInt8.toNat_ofNat']; exact Nat.mod_eq_of_lt h

theorem u8_eq {b : UInt8} {n : Nat} (h : b.toNat = n) : b = UInt8.ofNat n := by
  rw [← h, UInt8.ofNat_toNat]

theorem secondLo_spec (b : UInt8) : (b.toNat = 224 → (secondLo b).toNat = 160) ∧
    (b.toNat = 240 → (secondLo b).toNat = 144) ∧
    (b.toNat ≠ 224 → b.toNat ≠ 240 → (secondLo b).toNat = 128) := by
  simp only [secondLo, ← UInt8.toNat_inj, UInt8.reduceToNat]
  refine ⟨fun h => by rw [if_pos h]; rfl, fun h => by rw [if_neg (by omega), if_pos h]; rfl,
    fun h1 h2 => by rw [if_neg h1, if_neg h2]; rfl⟩

theorem secondHi_spec (b : UInt8) : (b.toNat = 237 → (secondHi b).toNat = 159) ∧
    (b.toNat = 244 → (secondHi b).toNat = 143) ∧
    (b.toNat ≠ 237 → b.toNat ≠ 244 → (secondHi b).toNat = 191) := by
  simp only [secondHi, ← UInt8.toNat_inj, UInt8.reduceToNat]
  refine ⟨fun h => by rw [if_pos h]; rfl, fun h => by rw [if_neg (by omega), if_pos h]; rfl,
    fun h1 h2 => by rw [if_neg h1, if_neg h2]; rfl⟩

theorem runeAt_utf8Enc {r : Nat} (h : IsScalar r) (s : Bytes) :
    runeAt (utf8Enc r ++ s) = some (r, (utf8Enc r).length) := by
  obtain ⟨h1, h2, h3⟩ := h
  unfold utf8Enc
  by_cases c1 : r < 0x800
  · simp only [if_pos c1, List.cons_append, List.nil_append, runeAt]
    have e1 := u8_ofNat_toNat (n := 0xC0 + r / 64) (by omega)
    have e2 := u8_ofNat_toNat (n := 0x80 + r % 64) (by omega)
    have a : (0xC2 ≤ UInt8.ofNat (0xC0 + r / 64) && UInt8.ofNat (0xC0 + r / 64) ≤ 0xDF) = true := by
      simp only [Bool.and_eq_true, decide_eq_true_eq, UInt8.le_iff_toNat_le, e1, UInt8.reduceToNat]; omega
    have b : contIn 0x80 0xBF (UInt8.ofNat (0x80 + r % 64)) = true := by
      simp only [contIn, Bool.and_eq_true, decide_eq_true_eq, UInt8.le_iff_toNat_le, e2, UInt8.reduceToNat]; omega
    rw [if_pos a, if_pos b, e1, e2]
    simp only [List.length_cons, List.length_nil, Option.some.injEq, Prod.mk.injEq, and_true]
    omega
  · by_cases c2 : r < 0x10000
    · simp only [if_neg c1, if_pos c2, List.cons_append, List.nil_append, runeAt]
      have e1 := u8_ofNat_toNat (n := 0xE0 + r / 4096) (by omega)
      have e2 := u8_ofNat_toNat (n := 0x80 + r / 64 % 64) (by omega)
      have e3 := u8_ofNat_toNat (n := 0x80 + r % 64) (by omega)
      have a0 : ¬ (0xC2 ≤ UInt8.ofNat (0xE0 + r / 4096) && UInt8.ofNat (0xE0 + r / 4096) ≤ 0xDF) = true := by
        simp only [Bool.and_eq_true, decide_eq_true_eq, UInt8.le_iff_toNat_le, e1, UInt8.reduceToNat]; omega
      have a : (0xE0 ≤ UInt8.ofNat (0xE0 + r / 4096) && UInt8.ofNat (0xE0 + r / 4096) ≤ 0xEF) = true := by
        simp only [Bool.and_eq_true, decide_eq_true_eq, UInt8.le_iff_toNat_le, e1, UInt8.reduceToNat]; omega
      have lo := secondLo_spec (UInt8.ofNat (0xE0 + r / 4096))
      have hi := secondHi_spec (UInt8.ofNat (0xE0 + r / 4096))
      rw [e1] at lo hi
      have b : (contIn (secondLo (UInt8.ofNat (0xE0 + r / 4096))) (secondHi (UInt8.ofNat (0xE0 + r / 4096)))
          (UInt8.ofNat (0x80 + r / 64 % 64)) && contIn 0x80 0xBF (UInt8.ofNat (0x80 + r % 64))) = true := by
        simp only [contIn, Bool.and_eq_true, decide_eq_true_eq, UInt8.le_iff_toNat_le, e2, e3, UInt8.reduceToNat]
        omega
      rw [if_neg a0, if_pos a, if_pos b, e1, e2, e3]
      simp only [List.length_cons, List.length_nil, Option.some.injEq, Prod.mk.injEq, and_true]; omega
    · simp only [if_neg c1, if_neg c2, List.cons_append, List.nil_append, runeAt]
      have e1 := u8_ofNat_toNat (n := 0xF0 + r / 262144) (by omega)
      have e2 := u8_ofNat_toNat (n := 0x80 + r / 4096 % 64) (by omega)
      have e3 := u8_ofNat_toNat (n := 0x80 + r / 64 % 64) (by omega)
      have e4 := u8_ofNat_toNat (n := 0x80 + r % 64) (by omega)
      have a0 : ¬ (0xC2 ≤ UInt8.ofNat (0xF0 + r / 262144) && UInt8.ofNat (0xF0 + r / 262144) ≤ 0xDF) = true := by
        simp only [Bool.and_eq_true, decide_eq_true_eq, UInt8.le_iff_toNat_le, e1, UInt8.reduceToNat]; omega
      have a1 : ¬ (0xE0 ≤ UInt8.ofNat (0xF0 + r / 262144) && UInt8.ofNat (0xF0 + r / 262144) ≤ 0xEF) = true := by
        simp only [Bool.and_eq_true, decide_eq_true_eq, UInt8.le_iff_toNat_le, e1, UInt8.reduceToNat]; omega
      have a : (0xF0 ≤ UInt8.ofNat (0xF0 + r / 262144) && UInt8.ofNat (0xF0 + r / 262144) ≤ 0xF4) = true := by
        simp only [Bool.and_eq_true, decide_eq_true_eq, UInt8.le_iff_toNat_le, e1, UInt8.reduceToNat]; omega
      have lo := secondLo_spec (UInt8.ofNat (0xF0 + r / 262144))
      have hi := secondHi_spec (UInt8.ofNat (0xF0 + r / 262144))
      rw [e1] at lo hi
      have b : (contIn (secondLo (UInt8.ofNat (0xF0 + r / 262144))) (secondHi (UInt8.ofNat (0xF0 + r / 262144)))
          (UInt8.ofNat (0x80 + r / 4096 % 64)) && contIn 0x80 0xBF (UInt8.ofNat (0x80 + r / 64 % 64)) &&
          contIn 0x80 0xBF (UInt8.ofNat (0x80 + r % 64))) = true := by
        simp only [contIn, Bool.and_eq_true, decide_eq_true_eq, UInt8.le_iff_toNat_le, e2, e3, e4, UInt8.reduceToNat]
        omega
      rw [if_neg a0, if_neg a1, if_pos a, if_pos b, e1, e2, e3, e4]
      simp only [List.length_cons, List.length_nil, Option.some.injEq, Prod.mk.injEq, and_true]; omega

theorem runeAt_some {s : Bytes} {r w : Nat} (h : runeAt s = some (r, w)) :
    IsScalar r ∧ s.take w = utf8Enc r ∧ 2 ≤ w := by
  unfold runeAt at h
  split at h
  · cases h
  · rename_i b0 s'
    split at h
    · rename_i h0
      split at h
      · split at h
        · rename_i b1 _ h1
          simp only [Option.some.injEq, Prod.mk.injEq] at h
          obtain ⟨h, rfl⟩ := h
          simp only [contIn, Bool.and_eq_true, decide_eq_true_eq, UInt8.le_iff_toNat_le, UInt8.reduceToNat] at h0 h1
          refine ⟨⟨by omega, by omega, by omega⟩, ?_, by omega⟩
          rw [utf8Enc, if_pos (by omega)]
          simp only [List.take_succ_cons, List.take_zero, List.cons.injEq, and_true]
          exact ⟨u8_eq (by omega), u8_eq (by omega)⟩
        · cases h
      · cases h
    · split at h
      · rename_i h0
        split at h
        · split at h
          · rename_i b1 b2 _ h1
            simp only [Option.some.injEq, Prod.mk.injEq] at h
            obtain ⟨h, rfl⟩ := h
            simp only [contIn, Bool.and_eq_true, decide_eq_true_eq, UInt8.le_iff_toNat_le, UInt8.reduceToNat] at h0 h1
            have lo := secondLo_spec b0
            have hi := secondHi_spec b0
            refine ⟨⟨by omega, by omega, by omega⟩, ?_, by omega⟩
            rw [utf8Enc, if_neg (by omega), if_pos (by omega)]
            simp only [List.take_succ_cons, List.take_zero, List.cons.injEq, and_true]
            exact ⟨u8_eq (by omega), u8_eq (by omega), u8_eq (by omega)⟩
          · cases h
        · cases h
      · split at h
        · rename_i h0
          split at h
          · split at h
            · rename_i b1 b2 b3 _ h1
              simp only [Option.some.injEq, Prod.mk.injEq] at h
              obtain ⟨h, rfl⟩ := h
              simp only [contIn, Bool.and_eq_true, decide_eq_true_eq, UInt8.le_iff_toNat_le, UInt8.reduceToNat] at h0 h1
              have lo := secondLo_spec b0
              have hi := secondHi_spec b0
              refine ⟨⟨by omega, by omega, by omega⟩, ?_, by omega⟩
              rw [utf8Enc, if_neg (by omega), if_neg (by omega)]
              simp only [List.take_succ_cons, List.take_zero, List.cons.injEq, and_true]
              exact ⟨u8_eq (by omega), u8_eq (by omega), u8_eq (by omega), u8_eq (by omega)⟩
            · cases h
          · cases h
        · cases h

theorem utf8Enc_high {r : Nat} (h : IsScalar r) : ∀ b ∈ utf8Enc r, 128 ≤ b.toNat := by
  obtain ⟨h1, h2, h3⟩ := h
  unfold utf8Enc
  intro b hb
  split at hb
  · simp only [List.mem_cons, List.not_mem_nil, or_false] at hb
    rcases hb with rfl | rfl <;> rw [u8_ofNat_toNat (by omega)] <;> omega
  · split at hb
    · simp only [List.mem_cons, List.not_mem_nil, or_false] at hb
      rcases hb with rfl | rfl | rfl <;> rw [u8_ofNat_toNat (by omega)] <;> omega
    · simp only [List.mem_cons, List.not_mem_nil, or_false] at hb
      rcases hb with rfl | rfl | rfl | rfl <;> rw [u8_ofNat_toNat (by omega)] <;> omega

theorem utf8Enc_cons {r : Nat} (h : IsScalar r) : ∃ c l, utf8Enc r = c :: l ∧ ¬ c < 0x80 := by
  have hh := utf8Enc_high h
  have hne : utf8Enc r ≠ [] := by
    unfold utf8Enc; repeat' split
    all_goals simp
  obtain ⟨c, l, hc⟩ := List.exists_cons_of_ne_nil hne
  refine ⟨c, l, hc, ?_⟩
  have := hh c (by simp [hc])
  simp only [UInt8.lt_iff_toNat_lt, UInt8.reduceToNat]
  omega

/-! ### `stringBody` step by step -/

theorem stringBody_esc (e : UInt8) (r : Bytes) : stringBody (92 :: e :: r) =
    match unescape e with
    | none => none
    | some c =>
      match stringBody r with
      | none => none
      | some (s, rest) => some (c :: s, rest) := by
  rw [stringBody]; rfl

theorem stringBody_end (r : Bytes) : stringBody (34 :: r) = some ([], r) := by
  simp [stringBody]

theorem stringBody_plain {c : UInt8} (h1 : c ≠ 34) (h2 : c ≠ 92) (r : Bytes) : stringBody (c :: r) =
    match stringBody r with
    | none => none
    | some (s, rest) => some (c :: s, rest) := by
  rw [stringBody.eq_def]
  split
  · simp_all
  · simp_all
  · simp_all
  · rename_i heq
    cases heq
    rw [if_neg h1]; rfl

theorem stringBody_append {e : Bytes} (h : ∀ b ∈ e, b ≠ 34 ∧ b ≠ 92) (r : Bytes) : stringBody (e ++ r) =
    match stringBody r with
    | none => none
    | some (s, rest) => some (e ++ s, rest) := by
  induction e with
  | nil =>
    simp only [List.nil_append]
    cases stringBody r <;> rfl
  | cons b e ih =>
    obtain ⟨h1, h2⟩ := h b (by simp)
    rw [List.cons_append, stringBody_plain h1 h2, ih fun b hb => h b (List.mem_cons_of_mem _ hb)]
    cases stringBody r <;> rfl

theorem high_ne {b : UInt8} (h : 128 ≤ b.toNat) : b ≠ 34 ∧ b ≠ 92 := by
  constructor <;> (rintro rfl; revert h; decide)

/-- The bytes that are written so that they are read back. -/
def plainByte (c : UInt8) : Prop := (32 ≤ c ∧ c ≤ 126) ∨ c = 8 ∨ c = 9 ∨ c = 10 ∨ c = 12 ∨ c = 13

instance (c : UInt8) : Decidable (plainByte c) := by unfold plainByte; infer_instance

theorem stringBody_escByte {c : UInt8} (h : plainByte c) (r : Bytes) : stringBody (escByte c ++ r) =
    match stringBody r with
    | none => none
    | some (s, rest) => some (c :: s, rest) := by
  unfold escByte
  by_cases h0 : c = 34 ∨ c = 92
  · rw [if_pos h0]
    rcases h0 with rfl | rfl <;> exact stringBody_esc _ _
  · rw [if_neg h0]
    by_cases h1 : 32 ≤ c ∧ c ≤ 126
    · rw [if_pos h1]
      exact stringBody_plain (fun h => h0 (.inl h)) (fun h => h0 (.inr h)) _
    · rw [if_neg h1]
      rcases h with h | rfl | rfl | rfl | rfl | rfl
      · exact absurd h h1
      all_goals exact stringBody_esc _ _

theorem stringBody_escByte_none {c : UInt8} (h : ¬ plainByte c) (r : Bytes) : stringBody (escByte c ++ r) = none := by
  unfold escByte
  by_cases h0 : c = 34 ∨ c = 92
  · rcases h0 with rfl | rfl <;> exact absurd (.inl (by decide)) h
  · have h1 : ¬ (32 ≤ c ∧ c ≤ 126) := fun hc => h (.inl hc)
    have h8 : c ≠ 8 := fun hc => h (.inr (.inl hc))
    have h9 : c ≠ 9 := fun hc => h (.inr (.inr (.inl hc)))
    have h10 : c ≠ 10 := fun hc => h (.inr (.inr (.inr (.inl hc))))
    have h12 : c ≠ 12 := fun hc => h (.inr (.inr (.inr (.inr (.inl hc)))))
    have h13 : c ≠ 13 := fun hc => h (.inr (.inr (.inr (.inr (.inr hc)))))
    rw [if_neg h0, if_neg h1, if_neg h8, if_neg h12, if_neg h10, if_neg h13, if_neg h9]
    repeat' split
    all_goals exact stringBody_esc _ _

/-- Plain text is read back. -/
theorem stringBody_quote {P : Nat → Bool} {s : Bytes} (h : PlainText P s) : ∀ {n : Nat}, s.length ≤ n →
    ∀ rest, stringBody (quoteBody P n s ++ 34 :: rest) = some (s, rest) := by
  induction h with
  | nil =>
    intro n _ rest
    cases n <;> simp only [quoteBody, List.nil_append] <;> exact stringBody_end _
  | @ascii c s hc _ ih =>
    intro n hn rest
    cases n with
    | zero => simp at hn
    | succ n =>
      have hlt : c < 0x80 := by
        rcases hc with ⟨-, h⟩ | h | h | h | h | h
        · simp only [UInt8.lt_iff_toNat_lt, UInt8.reduceToNat]
          simp only [UInt8.le_iff_toNat_le, UInt8.reduceToNat] at h
          omega
        all_goals (subst h; decide)
      simp only [quoteBody, if_pos hlt, List.append_assoc]
      rw [stringBody_escByte hc, ih (by simpa using hn)]
  | @rune r s hr hP _ ih =>
    intro n hn rest
    obtain ⟨c, l, hcl, hc⟩ := utf8Enc_cons hr
    have hrune := runeAt_utf8Enc hr s
    have htake : (utf8Enc r ++ s).take (utf8Enc r).length = utf8Enc r := by simp
    have hdrop : (utf8Enc r ++ s).drop (utf8Enc r).length = s := by simp
    have hlen : s.length + 1 ≤ (utf8Enc r ++ s).length := by
      rw [List.length_append, hcl, List.length_cons]; omega
    cases n with
    | zero => omega
    | succ n =>
      have e : quoteBody P (n + 1) (utf8Enc r ++ s) = utf8Enc r ++ quoteBody P n s := by
        have e0 : utf8Enc r ++ s = c :: (l ++ s) := by rw [hcl, List.cons_append]
        rw [e0] at hrune htake hdrop
        rw [e0, quoteBody, if_neg hc, hrune]
        simp only [escRune, hP, if_true, htake, hdrop]
      rw [e, List.append_assoc, stringBody_append fun b hb => high_ne (utf8Enc_high hr b hb), ih (by omega)]

/-- What is read back was plain text. -/
theorem plainText_of_stringBody {P : Nat → Bool} (n : Nat) : ∀ {s : Bytes}, s.length ≤ n → ∀ {rest x},
    stringBody (quoteBody P n s ++ 34 :: rest) = some x → PlainText P s := by
  induction n with
  | zero =>
    intro s hs rest x _
    cases s with
    | nil => exact .nil
    | cons c s => simp at hs
  | succ n ih =>
    intro s hs rest x h
    cases s with
    | nil => exact .nil
    | cons c s =>
      simp only [quoteBody] at h
      split at h
      · by_cases hc : plainByte c
        · rw [List.append_assoc, stringBody_escByte hc] at h
          refine .ascii hc (ih (by simpa using hs) (rest := rest) (x := ?_) ?_)
          · exact ((stringBody (quoteBody P n s ++ 34 :: rest)).get (by
              cases hb : stringBody (quoteBody P n s ++ 34 :: rest)
              · rw [hb] at h; cases h
              · rfl))
          · simp
        · rw [List.append_assoc, stringBody_escByte_none hc] at h; cases h
      · split at h
        · rename_i cp w hrune
          obtain ⟨hr, htake, hw⟩ := runeAt_some hrune
          have hsplit : c :: s = utf8Enc cp ++ (c :: s).drop w := by rw [← htake, List.take_append_drop]
          unfold escRune at h
          split at h
          · rename_i hP
            rw [htake, List.append_assoc, stringBody_append fun b hb => high_ne (utf8Enc_high hr b hb)] at h
            rw [hsplit]
            refine .rune hr hP (ih ?_ (rest := rest) (x := ?_) ?_)
            · rw [List.length_drop]; omega
            · exact ((stringBody (quoteBody P n ((c :: s).drop w) ++ 34 :: rest)).get (by
                cases hb : stringBody (quoteBody P n ((c :: s).drop w) ++ 34 :: rest)
                · rw [hb] at h; cases h
                · rfl))
            · simp
          · exfalso
            split at h
            · simp only [List.cons_append] at h
              rw [stringBody_esc, show unescape 117 = none from rfl] at h; cases h
            · simp only [List.cons_append] at h
              rw [stringBody_esc, show unescape 85 = none from rfl] at h; cases h
        · exfalso
          simp only [List.cons_append] at h
          rw [stringBody_esc, show unescape 120 = none from rfl] at h; cases h

theorem parseString_cons (r : Bytes) : parseString (34 :: r) = stringBody r := by
  simp [parseString, expect, skipWs, isWs]

/-- Quoted plain text is read back. -/
theorem parseString_quote {P : Nat → Bool} {s : Bytes} (h : PlainText P s) (rest : Bytes) :
    parseString (quote P s ++ rest) = some (s, rest) := by
  rw [quote, List.cons_append, parseString_cons, List.append_assoc]
  exact stringBody_quote h (Nat.le_refl _) rest

/-- Other quoted strings are not read. -/
theorem parseString_quote_none {P : Nat → Bool} {s : Bytes} (h : ¬ PlainText P s) (rest : Bytes) :
    parseString (quote P s ++ rest) = none := by
  rw [quote, List.cons_append, parseString_cons, List.append_assoc]
  cases hb : stringBody (quoteBody P s.length s ++ ([34] ++ rest)) with
  | none => rfl
  | some x => exact absurd (plainText_of_stringBody _ (Nat.le_refl _) hb) h

end Verif
