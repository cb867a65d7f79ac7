import Verif.Csv
import Verif.SpecCsv
import Verif.FloatError
import Verif.PropsExpDirs
/-
C89: the tables written for the results are read back as they were, and the numbers in them are those given, rounded to the
digits shown.
-/
namespace Verif

/-! ### Tables -/

/-- What happens after a field that ends with a comma or a line feed. -/
def csvNext (c : UInt8) (s : Bytes) (rec : List Bytes) (r : Bytes) : Option (List (List Bytes)) :=
  if c = 44 then readCsv .start [] (rec ++ [s]) r else (readCsv .start [] [] r).map fun l => (rec ++ [s]) :: l

theorem csv_quoted (rec : List Bytes) {c : UInt8} (hc : c = 44 ∨ c = 10) (r : Bytes) : ∀ (s f : Bytes),
    readCsv .quoted f rec ((s.flatMap fun c => if c = 34 then [34, 34] else [c]) ++ 34 :: c :: r) = csvNext c (f ++ s) rec r
  | [], f => by
    rcases hc with rfl | rfl <;> simp [readCsv, csvNext]
  | x :: s, f => by
    have ih := csv_quoted rec hc r s
    by_cases hx : x = 34
    · subst hx
      simp only [List.flatMap_cons, if_pos, List.cons_append, List.nil_append, readCsv]
      rw [ih]
      simp
    · simp only [List.flatMap_cons, if_neg hx, List.cons_append, List.nil_append, readCsv]
      rw [ih]
      simp

theorem csv_plain (rec : List Bytes) {c : UInt8} (hc : c = 44 ∨ c = 10) (r : Bytes) : ∀ (s f : Bytes),
    (∀ x ∈ s, x ≠ 10 ∧ x ≠ 34 ∧ x ≠ 44) → readCsv .plain f rec (s ++ c :: r) = csvNext c (f ++ s) rec r
  | [], f, _ => by
    rcases hc with rfl | rfl <;> simp [readCsv, csvNext]
  | x :: s, f, h => by
    obtain ⟨h1, h2, h3⟩ := h x (by simp)
    have ih := csv_plain rec hc r s (f ++ [x]) fun y hy => h y (by simp [hy])
    simp only [List.cons_append, readCsv, if_neg h1, if_neg h2, if_neg h3]
    rw [ih]
    simp

theorem csv_field (rec : List Bytes) {c : UInt8} (hc : c = 44 ∨ c = 10) (r s : Bytes) :
    readCsv .start [] rec (csvField s ++ c :: r) = csvNext c s rec r := by
  unfold csvField
  by_cases hq : needsQuotes s = true
  · rw [if_pos hq]
    have := csv_quoted rec hc r s []
    simp only [List.nil_append] at this
    simp only [List.cons_append, List.append_assoc, List.nil_append, readCsv, if_true]
    exact this
  · rw [if_neg hq]
    cases s with
    | nil => rcases hc with rfl | rfl <;> simp [readCsv, csvNext]
    | cons x s =>
      have hs : ∀ y ∈ x :: s, y ≠ 10 ∧ y ≠ 34 ∧ y ≠ 44 := by
        intro y hy
        simp only [needsQuotes, List.isEmpty_cons, Bool.not_false, Bool.true_and, Bool.or_eq_true, not_or, Bool.not_eq_true] at hq
        have h := hq.1.2
        rw [List.any_eq_false] at h
        have h := h y hy
        simp at h
        exact ⟨h.1.1.1, h.1.2, h.2⟩
      obtain ⟨h1, h2, h3⟩ := hs x (by simp)
      have := csv_plain rec hc r s [x] fun y hy => hs y (by simp [hy])
      simp only [List.cons_append, List.nil_append, readCsv, if_neg h1, if_neg h2, if_neg h3] at this ⊢
      exact this

theorem csv_record (r : Bytes) : ∀ (fs : List Bytes) (rec : List Bytes), fs ≠ [] →
    readCsv .start [] rec (csvRecord fs ++ r) = (readCsv .start [] [] r).map fun l => (rec ++ fs) :: l
  | [], _, h => absurd rfl h
  | [s], rec, _ => by
    have := csv_field rec (.inr rfl) r s
    simp only [csvRecord, List.map_cons, List.map_nil, joinWith, List.append_assoc, List.cons_append, List.nil_append]
    rw [this]
    rfl
  | s :: s' :: fs, rec, _ => by
    have h1 := csv_field rec (c := 44) (.inl rfl) (csvRecord (s' :: fs) ++ r) s
    have ih := csv_record r (s' :: fs) (rec ++ [s]) (by simp)
    simp only [csvRecord, List.map_cons, joinWith, List.append_assoc, List.cons_append, List.nil_append] at h1 ih ⊢
    rw [h1, csvNext, if_pos rfl, ih]

/-- **C89.** A table whose records have at least one field is read back from its text as it was. -/
theorem C89_table : ∀ {T : List (List Bytes)}, (∀ fs ∈ T, fs ≠ []) → readTable (csvText T) = some T
  | [], _ => rfl
  | fs :: T, h => by
    have ih := C89_table (T := T) fun x hx => h x (by simp [hx])
    unfold readTable csvText at *
    rw [List.flatMap_cons, csv_record _ _ _ (h fs (by simp)), ih]
    rfl

example : readTable (csvText [[b!"x,y", b!" \"q\"", b!""], [b!"", b!"\\."], [b!"\r\n"]]) =
    some [[b!"x,y", b!" \"q\"", b!""], [b!"", b!"\\."], [b!"\r\n"]] := C89_table (by decide)

/-- C89 for a record without fields: it is written as a record with an empty field. -/
theorem C89_empty_fails : csvText [[]] = csvText [[[]]] := rfl

/-! ### Numbers -/

/-- **C89.** A whole number is read back as it was. -/
theorem C89_int (n : Int) : signedDigits (itoa n) = some n := by
  unfold itoa
  by_cases h : n < 0
  · rw [if_pos h]
    simp only [signedDigits, if_neg (by decide : (45 : UInt8) ≠ 43), if_true, parseDigits_natDigits, Option.map_some]
    congr 1
    have : Int.ofNat n.natAbs = -n := by simp; omega
    rw [this]; omega
  · rw [if_neg h]
    obtain ⟨c, r, e, hc⟩ := natDigits_head n.toNat
    have h1 : c ≠ 43 := by rintro rfl; revert hc; decide
    have h2 : c ≠ 45 := by rintro rfl; revert hc; decide
    rw [e]
    simp only [signedDigits, if_neg h1, if_neg h2]
    rw [← e, parseDigits_natDigits, Option.map_some]
    congr 1
    simp; omega

theorem fixedValue_units {n m : Nat} {e : Int} (h : F64.canon m e = true) :
    fixedValue n m e = F64.divRound (F64.ulps m e * 10 ^ n) (2 ^ 1074) := by
  obtain ⟨-, h2, -, -⟩ := F64.canon_iff.1 h
  have hq : 0 < (F64.ratio m e).2 := by
    unfold F64.ratio
    split
    · exact Nat.one_pos
    · exact Nat.two_pow_pos _
  have hr : (F64.ratio m e).1 * 2 ^ 1074 = F64.ulps m e * (F64.ratio m e).2 := by
    unfold F64.ratio F64.ulps
    split
    · dsimp only
      rw [Nat.mul_one, Nat.mul_assoc, ← Nat.pow_add]
      congr 2
      omega
    · dsimp only
      rw [Nat.mul_assoc, ← Nat.pow_add]
      congr 2
      omega
  unfold fixedValue
  rw [← F64.divRound_scale _ _ (2 ^ 1074) (Nat.two_pow_pos _), Nat.mul_right_comm, hr,
    ← F64.divRound_scale (F64.ulps m e * 10 ^ n) (2 ^ 1074) (F64.ratio m e).2 hq, Nat.mul_right_comm (F64.ulps m e),
    Nat.mul_comm (F64.ratio m e).2]

theorem digitVal_ofNat : ∀ d : Fin 10, digitVal (UInt8.ofNat (48 + d.val)) = d.val := by decide

theorem digitsVal_padded {w : Nat} : ∀ {n : Nat}, n < 10 ^ (w + 1) → ∀ acc, digitsVal acc (padded (w + 1) n) = acc * 10 ^ (w + 1) + n := by
  induction w with
  | zero =>
    intro n hn acc
    have hn : n < 10 := by simpa using hn
    have e := digitVal_ofNat ⟨n, hn⟩
    rw [padded_one hn, digitsVal_cons, digitsVal_nil, e]
  | succ w ih =>
    intro n hn acc
    have hn : n < 10 ^ (w + 1) * 10 := hn
    have e := digitVal_ofNat ⟨n % 10, Nat.mod_lt _ (by decide)⟩
    rw [padded_succ (by omega), digitsVal_append, ih (by omega), digitsVal_cons, digitsVal_nil, e, Nat.pow_succ 10 (w + 1), ← Nat.mul_assoc]
    dsimp only
    generalize acc * 10 ^ (w + 1) = x
    omega

theorem digitsVal_padded' {w : Nat} (hw : 1 ≤ w) {n : Nat} (hn : n < 10 ^ w) (acc : Nat) : digitsVal acc (padded w n) = acc * 10 ^ w + n := by
  obtain ⟨w, rfl⟩ : ∃ k, w = k + 1 := ⟨w - 1, by omega⟩
  exact digitsVal_padded hn acc

theorem point_not_digit {s : Bytes} (h : s.all isDigit = true) : (46 : UInt8) ∉ s := fun hm =>
  absurd (List.all_eq_true.1 h _ hm) (by decide)

/-- The digits of a number with a point are read. -/
theorem readFixed_digits {n : Nat} (hn : 1 ≤ n) (s : Bool) (v : Nat) :
    readFixed n ((if s then [45] else []) ++ fixedDigits n v) = some (if s then -(v : Int) else v) := by
  have hlt : v % 10 ^ n < 10 ^ n := Nat.mod_lt _ (Nat.pow_pos (by decide))
  obtain ⟨hl, hd⟩ := padded_digits hn hlt
  have hi := natDigits_isDigit (v / 10 ^ n)
  have hsp : split 46 (fixedDigits n v) = [natDigits (v / 10 ^ n), padded n (v % 10 ^ n)] := by
    unfold fixedDigits
    rw [split_append_sep _ _ _ (point_not_digit hi), split_of_not_mem _ _ (point_not_digit hd)]
  have hv : digitsVal 0 (natDigits (v / 10 ^ n) ++ padded n (v % 10 ^ n)) = v := by
    rw [digitsVal_append, digitsVal_natDigits, digitsVal_padded' hn hlt]
    exact Nat.div_add_mod' v (10 ^ n)
  have hh : (fixedDigits n v).head? ≠ some 45 := by
    obtain ⟨c, r, e, hc⟩ := natDigits_head (v / 10 ^ n)
    unfold fixedDigits
    rw [e]
    intro h
    simp at h
    rw [h] at hc
    exact absurd hc (by decide)
  cases s with
  | true =>
    simp only [if_true, readFixed, List.cons_append, List.nil_append, List.head?_cons, List.tail_cons]
    rw [hsp]
    simp only
    rw [if_pos ⟨natDigits_ne_nil _, hi, hl, hd⟩, hv]
    congr 1; omega
  | false =>
    simp only [readFixed, List.nil_append, if_neg hh, Bool.false_eq_true, if_false]
    rw [hsp]
    simp only
    rw [if_pos ⟨natDigits_ne_nil _, hi, hl, hd⟩, hv]
    congr 1; omega

/-- A finite number as shown. -/
theorem readFixed_fmt {n : Nat} (hn : 1 ≤ n) {s : Bool} {m : Nat} {e : Int} (h : F64.canon m e = true) :
    readFixed n (fmtFixed n (.fin s m e h)) =
      some (if s then -(F64.divRound (F64.ulps m e * 10 ^ n) (2 ^ 1074) : Int) else F64.divRound (F64.ulps m e * 10 ^ n) (2 ^ 1074)) := by
  rw [fmtFixed, readFixed_digits hn, fixedValue_units h]

/-- **C89.** A finite number is shown to the nearest of the last digit: what is read differs from it by at most half of it. -/
theorem C89_fixed {n : Nat} (hn : 1 ≤ n) {f : F64} (hf : f.IsFin) :
    ∃ v, readFixed n (fmtFixed n f) = some v ∧ 2 * (v * 2 ^ 1074 - f.units * 10 ^ n) ≤ 2 ^ 1074 ∧
      -(2 ^ 1074) ≤ 2 * (v * 2 ^ 1074 - f.units * 10 ^ n) := by
  obtain ⟨s, m, e, h, rfl⟩ := hf
  refine ⟨_, readFixed_fmt hn h, ?_⟩
  obtain ⟨h1, h2⟩ := F64.divRound_error (F64.ulps m e * 10 ^ n) (d := 2 ^ 1074) (Nat.two_pow_pos _)
  have h1 : (2 : Int) * (F64.divRound (F64.ulps m e * 10 ^ n) (2 ^ 1074) * 2 ^ 1074) ≤ 2 * (F64.ulps m e * 10 ^ n) + 2 ^ 1074 := by
    have := Int.ofNat_le.2 h1
    simpa using this
  have h2 : (2 : Int) * (F64.ulps m e * 10 ^ n) ≤ 2 * (F64.divRound (F64.ulps m e * 10 ^ n) (2 ^ 1074) * 2 ^ 1074) + 2 ^ 1074 := by
    have := Int.ofNat_le.2 h2
    simpa using this
  rw [F64.units_eq]
  generalize F64.divRound (F64.ulps m e * 10 ^ n) (2 ^ 1074) = D at *
  cases s with
  | true =>
    simp only [if_true]
    rw [Int.neg_mul, Int.neg_mul]
    generalize (D : Int) * 2 ^ 1074 = x at *
    generalize (F64.ulps m e : Int) * 10 ^ n = y at *
    generalize (2 : Int) ^ 1074 = P at *
    omega
  | false =>
    simp only [Bool.false_eq_true, if_false]
    generalize (D : Int) * 2 ^ 1074 = x at *
    generalize (F64.ulps m e : Int) * 10 ^ n = y at *
    generalize (2 : Int) ^ 1074 = P at *
    omega

/-- **C89.** A greater number is not shown smaller. -/
theorem C89_order {n : Nat} (hn : 1 ≤ n) {a b : F64} (ha : a.IsFin) (hb : b.IsFin) (h : a.units ≤ b.units) :
    ∃ v w, readFixed n (fmtFixed n a) = some v ∧ readFixed n (fmtFixed n b) = some w ∧ v ≤ w := by
  obtain ⟨s, m, e, c, rfl⟩ := ha
  obtain ⟨s', m', e', c', rfl⟩ := hb
  refine ⟨_, _, readFixed_fmt hn c, readFixed_fmt hn c', ?_⟩
  rw [F64.units_eq, F64.units_eq] at h
  have mono : ∀ {x y : Nat}, x ≤ y → F64.divRound (x * 10 ^ n) (2 ^ 1074) ≤ F64.divRound (y * 10 ^ n) (2 ^ 1074) := fun h =>
    F64.divRound_mono (Nat.two_pow_pos _) (Nat.mul_le_mul_right _ h)
  have z : F64.divRound (0 * 10 ^ n) (2 ^ 1074) = 0 := by
    have := F64.divRound_exact 0 (2 ^ 1074) (Nat.two_pow_pos _)
    rwa [Nat.zero_mul] at this ⊢
  cases s <;> cases s' <;> simp only [if_true, Bool.false_eq_true, if_false] at h ⊢
  · have := mono (x := F64.ulps m e) (y := F64.ulps m' e') (by omega)
    omega
  · have h1 : F64.ulps m e = 0 := by omega
    have h2 : F64.ulps m' e' = 0 := by omega
    rw [h1, h2, z]
    decide
  · omega
  · have := mono (x := F64.ulps m' e') (y := F64.ulps m e) (by omega)
    omega

/-- **C89.** What is no number is not shown as one. -/
theorem C89_special (n : Nat) (s : Bool) : readFixed n (fmtFixed n .nan) = none ∧ readFixed n (fmtFixed n (.inf s)) = none := by
  cases s <;> exact ⟨rfl, rfl⟩

example : readFixed 2 (fmtFixed 2 (dec (-37566) 1000)) = some (-3757) ∧ (dec (-37566) 1000).IsFin :=
  ⟨by decide +kernel, ⟨_, _, _, _, rfl⟩⟩

end Verif
