import Verif.PropsTight
import Verif.PropsPatchText
import Verif.VssPatch
/-
The escapes that the two parsers understand (C33, C44), and the names of operation types (C46).
-/
namespace Verif

/-- The escapes of TSON strings: the byte behind the backslash, and the byte meant. -/
def TsonEscape (e c : UInt8) : Prop :=
  (e, c) ∈ ([(34, 34), (92, 92), (47, 47), (39, 39), (98, 8), (102, 12), (110, 10), (114, 13), (116, 9)] : List (UInt8 × UInt8))

/-- The escapes of JSON strings with a single byte. -/
def JsonEscape (e c : UInt8) : Prop :=
  (e, c) ∈ ([(34, 34), (92, 92), (47, 47), (98, 8), (102, 12), (110, 10), (114, 13), (116, 9)] : List (UInt8 × UInt8))

theorem unescape_iff (e c : UInt8) : unescape e = some c ↔ TsonEscape e c := by
  constructor
  · have key : ∀ n : Fin 256, ∀ d : Fin 256, unescape (UInt8.ofNat n) = some (UInt8.ofNat d) → TsonEscape (UInt8.ofNat n) (UInt8.ofNat d) := by
      unfold TsonEscape
      decide +kernel
    have := key ⟨e.toNat, e.toNat_lt⟩ ⟨c.toNat, c.toNat_lt⟩
    simpa using this
  · unfold TsonEscape
    simp only [List.mem_cons, Prod.mk.injEq, List.not_mem_nil, or_false]
    intro h
    rcases h with ⟨rfl, rfl⟩ | ⟨rfl, rfl⟩ | ⟨rfl, rfl⟩ | ⟨rfl, rfl⟩ | ⟨rfl, rfl⟩ | ⟨rfl, rfl⟩ | ⟨rfl, rfl⟩ | ⟨rfl, rfl⟩ | ⟨rfl, rfl⟩ <;> decide

theorem jsonUnescape_iff (e c : UInt8) : jsonUnescape e = some c ↔ JsonEscape e c := by
  constructor
  · have key : ∀ n : Fin 256, ∀ d : Fin 256, jsonUnescape (UInt8.ofNat n) = some (UInt8.ofNat d) → JsonEscape (UInt8.ofNat n) (UInt8.ofNat d) := by
      unfold JsonEscape
      decide +kernel
    have := key ⟨e.toNat, e.toNat_lt⟩ ⟨c.toNat, c.toNat_lt⟩
    simpa using this
  · unfold JsonEscape
    simp only [List.mem_cons, Prod.mk.injEq, List.not_mem_nil, or_false]
    intro h
    rcases h with ⟨rfl, rfl⟩ | ⟨rfl, rfl⟩ | ⟨rfl, rfl⟩ | ⟨rfl, rfl⟩ | ⟨rfl, rfl⟩ | ⟨rfl, rfl⟩ | ⟨rfl, rfl⟩ | ⟨rfl, rfl⟩ <;> decide

/-- C33: a string with an escape, between bytes other than quotation marks and backslashes, is read as the string with the byte
meant; with any other byte behind the backslash, it is refused. -/
theorem C33_escapes {a b : Bytes} (ha : ∀ x ∈ a, x ≠ 34 ∧ x ≠ 92) (hb : ∀ x ∈ b, x ≠ 34 ∧ x ≠ 92) (e : UInt8) :
    (∀ c, TsonEscape e c → unmarshal (34 :: (a ++ 92 :: e :: (b ++ [34]))) = .ok (.leaf (.str (a ++ c :: b)) (-1))) ∧
    ((∀ c, ¬ TsonEscape e c) → unmarshal (34 :: (a ++ 92 :: e :: (b ++ [34]))) = .err) := by
  have hs := stringBody_append ha (92 :: e :: (b ++ [34]))
  rw [stringBody_esc, stringBody_append hb, stringBody_end] at hs
  constructor
  · intro c hc
    rw [(unescape_iff e c).2 hc] at hs
    rw [unmarshal_eq, pVal_unfold, valStep_str, parseString_cons, hs]
    simp [suffixTs, skipWs, defaultTimestamp]
  · intro hc
    have : unescape e = none := by
      cases h : unescape e with
      | none => rfl
      | some c => exact absurd ((unescape_iff e c).1 h) (hc c)
    rw [this] at hs
    rw [unmarshal_eq, pVal_unfold, valStep_str, parseString_cons, hs]

example : unmarshal b!"\"a\\/b\"" = .ok (.leaf (.str b!"a/b") (-1)) :=
  (C33_escapes (a := b!"a") (b := b!"b") (by decide) (by decide) 47).1 47 (by simp [TsonEscape])

example : unmarshal b!"\"a\\ub\"" = .err :=
  (C33_escapes (a := b!"a") (b := b!"b") (by decide) (by decide) 117).2 (by intro c; simp [TsonEscape])

theorem RawText.read_more {s : Bytes} (h : RawText s) {N : Nat} (x : Bytes) (hN : s.length ≤ N) :
    ∃ M, N ≤ M + s.length ∧ readStr N (s ++ x) = consStr s (readStr M x) := by
  obtain ⟨hv, hc⟩ := h
  revert N
  induction hv with
  | nil =>
    intro N hN
    refine ⟨N, by simp, ?_⟩
    rw [List.nil_append]
    cases readStr N x <;> rfl
  | @ascii c s hlt _ ih =>
    intro N hN
    rw [List.forall_mem_cons] at hc
    rw [List.length_cons] at hN
    obtain ⟨N, rfl⟩ : ∃ k, N = k + 1 := ⟨N - 1, by omega⟩
    obtain ⟨M, h1, h2⟩ := ih hc.2 (N := N) (by omega)
    refine ⟨M, by rw [List.length_cons]; omega, ?_⟩
    have h32 : ¬ c < 32 := by
      have := hc.1.1
      simp only [UInt8.lt_iff_toNat_lt, UInt8.le_iff_toNat_le] at this ⊢; omega
    simp only [List.cons_append, readStr, if_neg hc.1.2.1, if_neg hc.1.2.2, if_neg h32, if_pos hlt, h2]
    cases readStr M x <;> rfl
  | @rune r s hr _ ih =>
    intro N hN
    obtain ⟨c, l, e, -⟩ := utf8Enc_cons hr
    rw [List.length_append, e, List.length_cons] at hN
    obtain ⟨N, rfl⟩ : ∃ k, N = k + 1 := ⟨N - 1, by omega⟩
    obtain ⟨M, h1, h2⟩ := ih (fun c h => hc c (by simp [h])) (N := N) (by omega)
    refine ⟨M, by rw [List.length_append, e, List.length_cons]; omega, ?_⟩
    rw [List.append_assoc, readStr_rune hr, h2]
    cases readStr M x with
    | none => rfl
    | some y => simp [consStr]

/-- C44: the same for JSON; `\u` is an escape of more bytes. -/
theorem C44_escapes {a b : Bytes} (ha : RawText a) (hb : RawText b) (e : UInt8) :
    (∀ c, JsonEscape e c → unmarshalText (34 :: (a ++ 92 :: e :: (b ++ [34]))) = .ok (.str (a ++ c :: b))) ∧
    (e ≠ 117 → (∀ c, ¬ JsonEscape e c) → unmarshalText (34 :: (a ++ 92 :: e :: (b ++ [34]))) = .err) := by
  have hv : ∀ {N : Nat}, readVal (N + 1) (34 :: (a ++ 92 :: e :: (b ++ [34]))) =
      match readStr ((a ++ 92 :: e :: (b ++ [34])).length + 1) (a ++ 92 :: e :: (b ++ [34])) with
      | some (s, r) => some (.str s, r)
      | none => none := by
    intro N
    rw [readVal, if_neg (by decide), if_neg (by decide), if_pos rfl]
    cases readStr ((a ++ 92 :: e :: (b ++ [34])).length + 1) (a ++ 92 :: e :: (b ++ [34])) <;> rfl
  obtain ⟨M, h1, h2⟩ := ha.read_more (N := (a ++ 92 :: e :: (b ++ [34])).length + 1) (92 :: e :: (b ++ [34]))
    (by simp only [List.length_cons, List.length_append]; omega)
  obtain ⟨M, rfl⟩ : ∃ k, M = k + 1 := ⟨M - 1, by simp only [List.length_cons, List.length_append] at h1; omega⟩
  rw [readStr, if_neg (by decide), if_pos rfl] at h2
  constructor
  · intro c hc
    have hu := (jsonUnescape_iff e c).2 hc
    have he : e ≠ 117 := by rintro rfl; revert hu; simp [jsonUnescape]
    simp only [if_neg he, hu] at h2
    rw [hb.read [] (by simp only [List.length_cons, List.length_append] at h1; omega)] at h2
    rw [unmarshalText, readText, skipWs_of_not (by decide), hv, h2]
    simp [consStr, skipWs, Jt.depth, Jt.toAny]
  · intro he hc
    have hu : jsonUnescape e = none := by
      cases h : jsonUnescape e with
      | none => rfl
      | some c => exact absurd ((jsonUnescape_iff e c).1 h) (hc c)
    simp only [if_neg he, hu] at h2
    rw [unmarshalText, readText, skipWs_of_not (by decide), hv, h2]
    rfl

example : unmarshalText b!"\"a\\/b\"" = .ok (.str b!"a/b") :=
  (C44_escapes (a := b!"a") (b := b!"b") (rawText_ascii (by decide)) (rawText_ascii (by decide)) 47).1 47 (by simp [JsonEscape])

example : unmarshalText b!"\"a\\'b\"" = .err :=
  (C44_escapes (a := b!"a") (b := b!"b") (rawText_ascii (by decide)) (rawText_ascii (by decide)) 39).2 (by decide)
    (by intro c; simp [JsonEscape])

/-- The signs of an exponent: none and `+` for positive ones, `-` for negative ones. -/
inductive ExpSign : Bytes → Bool → Prop
  | none : ExpSign [] false
  | plus : ExpSign [43] false
  | minus : ExpSign [45] true

theorem readExp_signed {e : UInt8} (he : e = 101 ∨ e = 69) {sg : Bytes} {neg : Bool} (hs : ExpSign sg neg) {ds : Bytes} (hd : ds.all isDigit = true)
    (hne : ds ≠ []) : readExp (e :: (sg ++ ds)) = some (some (neg, ds), []) := by
  have h : spanDigits ds = (ds, []) := by
    have := spanDigits_append (rest := []) hd (by intro c r e; cases e)
    rwa [List.append_nil] at this
  have hsg : readSign (sg ++ ds) = (neg, ds) := by
    cases hs with
    | plus => rfl
    | minus => rfl
    | none =>
      cases ds with
      | nil => exact absurd rfl hne
      | cons c r =>
        rw [List.all_cons, Bool.and_eq_true] at hd
        have h1 : c ≠ 43 := by rintro rfl; exact absurd hd.1 (by decide)
        have h2 : c ≠ 45 := by rintro rfl; exact absurd hd.1 (by decide)
        simp [readSign, h1, h2]
  simp [readExp, he, hsg, h, hne]

theorem readVal_num {s : Bytes} {c : UInt8} {r : Bytes} (e : s = c :: r) (h : c = 45 ∨ isDigit c = true) (N : Nat) : readVal (N + 1) s = readNum s := by
  subst e
  have : ∀ k : UInt8, isDigit k = false → k ≠ 45 → c ≠ k := by
    rintro k h1 h2 rfl
    rcases h with h | h
    · exact h2 h
    · rw [h1] at h; cases h
  rw [readVal, if_neg (this _ (by decide) (by decide)), if_neg (this _ (by decide) (by decide)), if_neg (this _ (by decide) (by decide)), if_pos (by simpa using h)]

/-- **C44, exponents.**  In a number the exponent is introduced by `e` or `E`, with any of the signs, to the same effect: the number is the one that the
digits stand for, or it overflows. -/
theorem C44_exponents (neg : Bool) {int frac ds sg : Bytes} (hi : GoodInt int) (hf : frac.all isDigit = true) {e : UInt8} (he : e = 101 ∨ e = 69) {eneg : Bool}
    (hs : ExpSign sg eneg) (hd : ds.all isDigit = true) (hne : ds ≠ []) :
    unmarshalText (signed neg (int ++ (if frac = [] then [] else 46 :: frac) ++ e :: (sg ++ ds))) =
      match litFloat neg int (if frac = [] then none else some frac) (some (eneg, ds)) with
      | some f => .ok (.num f)
      | none => .err := by
  have hne' : isDigit e = false := by rcases he with rfl | rfl <;> decide
  have h46 : e ≠ 46 := by rcases he with rfl | rfl <;> decide
  have hr : readNum (signed neg (int ++ (if frac = [] then [] else 46 :: frac) ++ e :: (sg ++ ds))) =
      some (.num neg int (if frac = [] then none else some frac) (some (eneg, ds)), []) := by
    rw [List.append_assoc, readNum_signed neg (digit_not_minus hi.1 hi.ne_nil)]
    by_cases h : frac = []
    · simp only [if_pos h, List.nil_append]
      rw [readInt_good hi (by intro c r e; cases e; exact hne')]
      have hp := readFrac_none (rest := e :: (sg ++ ds)) (by intro c r e; cases e; exact h46)
      simp only [hp, readExp_signed he hs hd hne]
    · simp only [if_neg h, List.cons_append]
      rw [readInt_good hi (by intro c r e; cases e; decide)]
      have hp := readFrac_some hf h (rest := e :: (sg ++ ds)) (by intro c r e; cases e; exact hne')
      simp only [hp, readExp_signed he hs hd hne]
  obtain ⟨c, r, e1, h1⟩ : ∃ c r, signed neg (int ++ (if frac = [] then [] else 46 :: frac) ++ e :: (sg ++ ds)) = c :: r ∧ (c = 45 ∨ isDigit c = true) := by
    cases neg with
    | true => exact ⟨45, _, rfl, .inl rfl⟩
    | false =>
      cases int with
      | nil => exact absurd rfl hi.ne_nil
      | cons c r =>
        have := hi.1
        rw [List.all_cons, Bool.and_eq_true] at this
        exact ⟨c, _, rfl, .inr this.1⟩
  have hw : isWs c = false := by
    rcases h1 with rfl | h1
    · decide
    · cases hc : isWs c with
      | false => rfl
      | true =>
        have : c = 32 ∨ c = 9 ∨ c = 10 ∨ c = 13 := by simpa [isWs, or_assoc] using hc
        rcases this with rfl | rfl | rfl | rfl <;> exact absurd h1 (by decide)
  rw [unmarshalText, readText]
  have hsk : skipWs (signed neg (int ++ (if frac = [] then [] else 46 :: frac) ++ e :: (sg ++ ds))) =
      signed neg (int ++ (if frac = [] then [] else 46 :: frac) ++ e :: (sg ++ ds)) := by
    rw [e1]; exact skipWs_of_not hw
  rw [hsk, readVal_num e1 h1, hr]
  simp only [skipWs, Jt.depth]
  simp
  rw [Jt.toAny]
  cases litFloat neg int (if frac = [] then none else some frac) (some (eneg, ds)) <;> rfl

example : unmarshalText b!"-2.5E1" = .ok (.num (.fin true 7036874417766400 (-48) (by decide))) ∧ unmarshalText b!"-2.5E1" = unmarshalText b!"-2.5e+1" := by
  have h := fun e he sg hs => C44_exponents true (int := b!"2") (frac := b!"5") (ds := b!"1") (sg := sg) (e := e) (eneg := false)
    ⟨by decide, .inr ⟨50, [], rfl, by decide⟩⟩ (by decide) he hs (by decide) (by decide)
  exact ⟨(h 69 (.inr rfl) [] .none).trans (by rfl), (h 69 (.inr rfl) [] .none).trans (h 101 (.inl rfl) [43] .plus).symm⟩

/-- C46: the names of the operation types; every other name is of none of these types. -/
theorem C46_types (s : Bytes) :
    (opKind s = .add ↔ s = b!"add") ∧ (opKind s = .remove ↔ s = b!"remove") ∧ (opKind s = .replace ↔ s = b!"replace") ∧
    (opKind s = .move ↔ s = b!"move") ∧ (opKind s = .copy ↔ s = b!"copy") ∧ (opKind s = .test ↔ s = b!"test") ∧
    (opKind s).text = s := by
  unfold opKind
  repeat' split
  all_goals simp_all [OpKind.text]

example : opKind b!"move" = .move := (C46_types b!"move").2.2.2.1.2 rfl

end Verif
