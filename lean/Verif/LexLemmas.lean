import Verif.RoundTrip
/-
The parser sees its input only through tokens: texts with the same tokens give the same result.
-/
namespace Verif

/-! ### The parsing functions in terms of tokens -/

theorem lexOne_skipWs (s : Bytes) : lexOne (skipWs s) = lexOne s := by
  unfold lexOne; rw [skipWs_skipWs]

theorem lexOne_ws {w : Bytes} (h : AllWs w) (s : Bytes) : lexOne (w ++ s) = lexOne s := by
  rw [← lexOne_skipWs, skipWs_append h, lexOne_skipWs]

theorem lexWord_cases (s : Bytes) : lexWord s = .bad ∨ ∃ b r, lexWord s = .tok (.word b) r := by
  unfold lexWord
  by_cases h5 : hasPrefix s b!"true" = true
  · rw [if_pos h5]; exact .inr ⟨_, _, rfl⟩
  · rw [if_neg h5]
    by_cases h6 : hasPrefix s b!"false" = true
    · rw [if_pos h6]; exact .inr ⟨_, _, rfl⟩
    · rw [if_neg h6]
      by_cases h7 : hasPrefix s b!"null" = true
      · rw [if_pos h7]; exact .inr ⟨_, _, rfl⟩
      · rw [if_neg h7]; exact .inl rfl

/-- All cases of `lexOne`. -/
theorem lexOne_cases (s : Bytes) :
    (skipWs s = [] ∧ lexOne s = .eof) ∨
    (∃ r, skipWs s = 60 :: r ∧ ((∃ n x, parseTs (60 :: r) = some (n, x) ∧ lexOne s = .tok (.ts n) x) ∨
      (parseTs (60 :: r) = none ∧ lexOne s = .badTs))) ∨
    (∃ r, skipWs s = 34 :: r ∧ ((∃ n x, stringBody r = some (n, x) ∧ lexOne s = .tok (.str n) x) ∨
      (stringBody r = none ∧ lexOne s = .bad))) ∨
    (∃ c r, skipWs s = c :: r ∧ isNumStart c = true ∧
      ((∃ n x, parseNumber (c :: r) = some (n, x) ∧ lexOne s = .tok (.num n) x) ∨
      (parseNumber (c :: r) = none ∧ lexOne s = .bad))) ∨
    (∃ c r, skipWs s = c :: r ∧ (c = 123 ∨ c = 125 ∨ c = 91 ∨ c = 93 ∨ c = 44 ∨ c = 58) ∧
      lexOne s = .tok (.punct c) r) ∨
    (∃ c r, skipWs s = c :: r ∧ c ≠ 60 ∧ c ≠ 34 ∧ isNumStart c = false ∧
      ¬ (c = 123 ∨ c = 125 ∨ c = 91 ∨ c = 93 ∨ c = 44 ∨ c = 58) ∧ lexOne s = lexWord (c :: r)) := by
  unfold lexOne
  cases hs : skipWs s with
  | nil => exact .inl ⟨rfl, rfl⟩
  | cons c r =>
    refine .inr ?_
    by_cases h1 : c = 60
    · subst h1
      refine .inl ⟨r, rfl, ?_⟩
      simp only [if_true]
      cases hp : parseTs (60 :: r) with
      | none => exact .inr ⟨rfl, rfl⟩
      | some x => exact .inl ⟨x.1, x.2, rfl, rfl⟩
    · refine .inr ?_
      simp only [if_neg h1]
      by_cases h2 : c = 34
      · subst h2
        refine .inl ⟨r, rfl, ?_⟩
        simp only [if_true]
        cases hp : stringBody r with
        | none => exact .inr ⟨rfl, rfl⟩
        | some x => exact .inl ⟨x.1, x.2, rfl, rfl⟩
      · refine .inr ?_
        simp only [if_neg h2]
        by_cases h3 : isNumStart c = true
        · refine .inl ⟨c, r, rfl, h3, ?_⟩
          simp only [if_pos h3]
          cases hp : parseNumber (c :: r) with
          | none => exact .inr ⟨rfl, rfl⟩
          | some x => exact .inl ⟨x.1, x.2, rfl, rfl⟩
        · refine .inr ?_
          simp only [if_neg h3]
          by_cases h4 : c = 123 ∨ c = 125 ∨ c = 91 ∨ c = 93 ∨ c = 44 ∨ c = 58
          · refine .inl ⟨c, r, rfl, h4, ?_⟩
            rw [if_pos h4]
          · refine .inr ⟨c, r, rfl, h1, h2, by simpa using h3, h4, ?_⟩
            rw [if_neg h4]

theorem expect_colon (s : Bytes) : expect 58 s =
    match lexOne s with
    | .tok (.punct c) r => if c = 58 then some r else none
    | _ => none := by
  unfold expect
  rcases lexOne_cases s with ⟨h, e⟩ | ⟨r, h, ⟨n, x, -, e⟩ | ⟨-, e⟩⟩ | ⟨r, h, ⟨n, x, -, e⟩ | ⟨-, e⟩⟩ |
    ⟨c, r, h, hc, ⟨n, x, -, e⟩ | ⟨-, e⟩⟩ | ⟨c, r, h, hc, e⟩ | ⟨c, r, h, -, -, -, hc, e⟩
  · rw [h, e]
  · rw [h, e]; rfl
  · rw [h, e]; rfl
  · rw [h, e]; rfl
  · rw [h, e]; rfl
  · rw [h, e]; simp only []; rw [if_neg]; rintro rfl; revert hc; decide
  · rw [h, e]; simp only []; rw [if_neg]; rintro rfl; revert hc; decide
  · rw [h, e]
  · rw [h, e]
    simp only []
    rw [if_neg (by intro h; exact hc (by simp [h]))]
    rcases lexWord_cases (c :: r) with hw | ⟨b, x, hw⟩ <;> rw [hw]

theorem parseString_lex (s : Bytes) : parseString s =
    match lexOne s with
    | .tok (.str x) r => some (x, r)
    | _ => none := by
  unfold parseString expect
  rcases lexOne_cases s with ⟨h, e⟩ | ⟨r, h, ⟨n, x, -, e⟩ | ⟨-, e⟩⟩ | ⟨r, h, ⟨n, x, hp, e⟩ | ⟨hp, e⟩⟩ |
    ⟨c, r, h, hc, ⟨n, x, -, e⟩ | ⟨-, e⟩⟩ | ⟨c, r, h, hc, e⟩ | ⟨c, r, h, -, hc, -, -, e⟩
  · rw [h, e]
  · rw [h, e]; rfl
  · rw [h, e]; rfl
  · rw [h, e]; simp only [if_true]; exact hp
  · rw [h, e]; simp only [if_true]; exact hp
  · rw [h, e]; simp only [if_neg (numStart_ne hc).2.2.2.2]
  · rw [h, e]; simp only [if_neg (numStart_ne hc).2.2.2.2]
  · rw [h, e]
    have : c ≠ 34 := by rintro rfl; revert hc; decide
    simp only [if_neg this]
  · rw [h, e]
    simp only [if_neg hc]
    rcases lexWord_cases (c :: r) with hw | ⟨b, x, hw⟩ <;> rw [hw]

theorem parsePrim_lex (s : Bytes) : parsePrim s =
    match lexOne s with
    | .tok (.str x) r => some (.str x, r)
    | .tok (.num f) r => some (.num f, r)
    | _ => none := by
  unfold parsePrim
  rcases lexOne_cases s with ⟨h, e⟩ | ⟨r, h, ⟨n, x, -, e⟩ | ⟨-, e⟩⟩ | ⟨r, h, ⟨n, x, hp, e⟩ | ⟨hp, e⟩⟩ |
    ⟨c, r, h, hc, ⟨n, x, hp, e⟩ | ⟨hp, e⟩⟩ | ⟨c, r, h, hc, e⟩ | ⟨c, r, h, -, hc, hn, -, e⟩
  · rw [h, e]
  · rw [h, e]; rfl
  · rw [h, e]; rfl
  · rw [h, e]; simp only [if_true, parseString_cons, hp]
  · rw [h, e]; simp only [if_true, parseString_cons, hp]
  · rw [h, e]; simp only [if_neg (numStart_ne hc).2.2.2.2, if_pos hc, hp]
  · rw [h, e]; simp only [if_neg (numStart_ne hc).2.2.2.2, if_pos hc, hp]
  · rw [h, e]
    have h1 : c ≠ 34 := by rintro rfl; revert hc; decide
    have h2 : isNumStart c = false := by rcases hc with rfl | rfl | rfl | rfl | rfl | rfl <;> decide
    simp only [if_neg h1, h2]; rfl
  · rw [h, e]
    simp only [if_neg hc, hn]
    rcases lexWord_cases (c :: r) with hw | ⟨b, x, hw⟩ <;> rw [hw] <;> rfl

theorem prefixTs_lex (s : Bytes) : prefixTs s =
    match lexOne s with
    | .tok (.ts n) r => some (n, r)
    | .badTs => none
    | _ => some (0, skipWs s) := by
  rcases lexOne_cases s with ⟨h, e⟩ | ⟨r, h, ⟨n, x, hp, e⟩ | ⟨hp, e⟩⟩ | ⟨r, h, ⟨n, x, -, e⟩ | ⟨-, e⟩⟩ |
    ⟨c, r, h, hc, ⟨n, x, -, e⟩ | ⟨-, e⟩⟩ | ⟨c, r, h, hc, e⟩ | ⟨c, r, h, hc, -, -, -, e⟩
  · rw [prefixTs_other (by rw [h]; simp), e]
  · rw [prefixTs_lt h, e, hp]
  · rw [prefixTs_lt h, e, hp]
  · rw [prefixTs_other (by rw [h]; simp), e]
  · rw [prefixTs_other (by rw [h]; simp), e]
  · rw [prefixTs_other, e]; rw [h]; intro x hx; cases hx; revert hc; decide
  · rw [prefixTs_other, e]; rw [h]; intro x hx; cases hx; revert hc; decide
  · rw [prefixTs_other, e]; rw [h]; intro x hx; cases hx; revert hc; decide
  · rw [prefixTs_other, e]
    · rcases lexWord_cases (c :: r) with hw | ⟨b, x, hw⟩ <;> rw [hw]
    · rw [h]; intro x hx; cases hx; exact hc rfl

theorem suffixTs_lex (p : Prim) (s : Bytes) : suffixTs p s =
    match lexOne s with
    | .tok (.ts n) r => .ok (.leaf p n) r
    | .badTs => .err
    | _ => .ok (.leaf p (-1)) (skipWs s) := by
  have hlt : ∀ r, skipWs s = 60 :: r → suffixTs p s =
      match parseTs (60 :: r) with
      | none => .err
      | some (ts, rest) => .ok (.leaf p ts) rest := by
    intro r h; unfold suffixTs; rw [h]; rfl
  rcases lexOne_cases s with ⟨h, e⟩ | ⟨r, h, ⟨n, x, hp, e⟩ | ⟨hp, e⟩⟩ | ⟨r, h, ⟨n, x, -, e⟩ | ⟨-, e⟩⟩ |
    ⟨c, r, h, hc, ⟨n, x, -, e⟩ | ⟨-, e⟩⟩ | ⟨c, r, h, hc, e⟩ | ⟨c, r, h, hc, -, -, -, e⟩
  · rw [suffixTs_other (by rw [h]; simp), e]
  · rw [hlt r h, e, hp]
  · rw [hlt r h, e, hp]
  · rw [suffixTs_other (by rw [h]; simp), e]
  · rw [suffixTs_other (by rw [h]; simp), e]
  · rw [suffixTs_other, e]; rw [h]; intro x hx; cases hx; revert hc; decide
  · rw [suffixTs_other, e]; rw [h]; intro x hx; cases hx; revert hc; decide
  · rw [suffixTs_other, e]; rw [h]; intro x hx; cases hx; revert hc; decide
  · rw [suffixTs_other, e]
    · rcases lexWord_cases (c :: r) with hw | ⟨b, x, hw⟩ <;> rw [hw]
    · rw [h]; intro x hx; cases hx; exact hc rfl

theorem afterItem_lex {close : UInt8} (hcl : close = 125 ∨ close = 93) (f : Bytes → PRes Tson) (d : Tson) (s : Bytes) :
    afterItem close f d s =
    match lexOne s with
    | .tok (.punct c) r => if c = 44 then f r else if c = close then .ok d r else .err
    | _ => .err := by
  unfold afterItem
  rcases lexOne_cases s with ⟨h, e⟩ | ⟨r, h, ⟨n, x, -, e⟩ | ⟨-, e⟩⟩ | ⟨r, h, ⟨n, x, -, e⟩ | ⟨-, e⟩⟩ |
    ⟨c, r, h, hc, ⟨n, x, -, e⟩ | ⟨-, e⟩⟩ | ⟨c, r, h, hc, e⟩ | ⟨c, r, h, -, -, -, hc, e⟩
  · rw [h, e]
  · rw [h, e]; rcases hcl with rfl | rfl <;> rfl
  · rw [h, e]; rcases hcl with rfl | rfl <;> rfl
  · rw [h, e]; rcases hcl with rfl | rfl <;> rfl
  · rw [h, e]; rcases hcl with rfl | rfl <;> rfl
  · rw [h, e]
    have h1 : c ≠ 44 := by rintro rfl; revert hc; decide
    have h2 : c ≠ close := by rintro rfl; rcases hcl with rfl | rfl <;> revert hc <;> decide
    simp only [if_neg h1, if_neg h2]
  · rw [h, e]
    have h1 : c ≠ 44 := by rintro rfl; revert hc; decide
    have h2 : c ≠ close := by rintro rfl; rcases hcl with rfl | rfl <;> revert hc <;> decide
    simp only [if_neg h1, if_neg h2]
  · rw [h, e]
  · rw [h, e]
    have h1 : c ≠ 44 := by rintro rfl; simp at hc
    have h2 : c ≠ close := by rintro rfl; rcases hcl with rfl | rfl <;> simp at hc
    simp only [if_neg h1, if_neg h2]
    rcases lexWord_cases (c :: r) with hw | ⟨b, x, hw⟩ <;> rw [hw]

theorem parseWord_lex (s : Bytes) : parseWord s =
    match lexWord s with
    | .tok (.word (some b)) r => suffixTs (.bool b) r
    | .tok (.word none) r => .ok .null r
    | _ => .err := by
  unfold parseWord lexWord
  by_cases h5 : hasPrefix s b!"true" = true
  · simp only [if_pos h5]
  · simp only [if_neg h5]
    by_cases h6 : hasPrefix s b!"false" = true
    · simp only [if_pos h6]
    · simp only [if_neg h6]
      by_cases h7 : hasPrefix s b!"null" = true
      · simp only [if_pos h7]
      · simp only [if_neg h7]

/-- `parseVal` in terms of tokens. -/
theorem pVal_lex (s : Bytes) : pVal s =
    match lexOne s with
    | .tok (.ts n) r =>
      (match lexOne r with
      | .tok (.str x) r => .ok (.leaf (.str x) n) r
      | .tok (.num f) r => .ok (.leaf (.num f) n) r
      | _ => .err)
    | .tok (.str x) r => suffixTs (.str x) r
    | .tok (.num f) r => suffixTs (.num f) r
    | .tok (.word (some b)) r => suffixTs (.bool b) r
    | .tok (.word none) r => .ok .null r
    | .tok (.punct c) r =>
      if c = 123 then
        (match lexOne r with
        | .tok (.punct c) rest => if c = 125 then .ok (.obj []) rest else pMembers [] r
        | _ => pMembers [] r)
      else if c = 91 then
        (match lexOne r with
        | .tok (.punct c) rest => if c = 93 then .ok (.arr []) rest else pElems [] r
        | _ => pElems [] r)
      else .err
    | _ => .err := by
  have hobj : ∀ r, pVal (123 :: r) = (match lexOne r with
        | .tok (.punct c) rest => if c = 125 then .ok (.obj []) rest else pMembers [] r
        | _ => pMembers [] r) := by
    intro r
    rcases lexOne_cases r with ⟨h, e⟩ | ⟨r', h, ⟨n, x, -, e⟩ | ⟨-, e⟩⟩ | ⟨r', h, ⟨n, x, -, e⟩ | ⟨-, e⟩⟩ |
      ⟨c, r', h, hc, ⟨n, x, -, e⟩ | ⟨-, e⟩⟩ | ⟨c, r', h, hc, e⟩ | ⟨c, r', h, -, -, -, hc, e⟩
    · rw [valStep_obj_cons (by rw [h]; simp), e]
    · rw [valStep_obj_cons (by rw [h]; simp), e]
    · rw [valStep_obj_cons (by rw [h]; simp), e]
    · rw [valStep_obj_cons (by rw [h]; simp), e]
    · rw [valStep_obj_cons (by rw [h]; simp), e]
    · rw [valStep_obj_cons, e]; rw [h]; intro x hx; cases hx; revert hc; decide
    · rw [valStep_obj_cons, e]; rw [h]; intro x hx; cases hx; revert hc; decide
    · rw [e]
      by_cases h1 : c = 125
      · subst h1; rw [valStep_obj_nil h]; rfl
      · rw [valStep_obj_cons (by rw [h]; intro x hx; cases hx; exact h1 rfl)]; simp only [if_neg h1]
    · rw [valStep_obj_cons, e]
      · rcases lexWord_cases (c :: r') with hw | ⟨b, x, hw⟩ <;> rw [hw]
      · rw [h]; intro x hx; cases hx; simp at hc
  have harr : ∀ r, pVal (91 :: r) = (match lexOne r with
        | .tok (.punct c) rest => if c = 93 then .ok (.arr []) rest else pElems [] r
        | _ => pElems [] r) := by
    intro r
    rcases lexOne_cases r with ⟨h, e⟩ | ⟨r', h, ⟨n, x, -, e⟩ | ⟨-, e⟩⟩ | ⟨r', h, ⟨n, x, -, e⟩ | ⟨-, e⟩⟩ |
      ⟨c, r', h, hc, ⟨n, x, -, e⟩ | ⟨-, e⟩⟩ | ⟨c, r', h, hc, e⟩ | ⟨c, r', h, -, -, -, hc, e⟩
    · rw [valStep_arr_cons (by rw [h]; simp), e]
    · rw [valStep_arr_cons (by rw [h]; simp), e]
    · rw [valStep_arr_cons (by rw [h]; simp), e]
    · rw [valStep_arr_cons (by rw [h]; simp), e]
    · rw [valStep_arr_cons (by rw [h]; simp), e]
    · rw [valStep_arr_cons, e]; rw [h]; intro x hx; cases hx; revert hc; decide
    · rw [valStep_arr_cons, e]; rw [h]; intro x hx; cases hx; revert hc; decide
    · rw [e]
      by_cases h1 : c = 93
      · subst h1; rw [valStep_arr_nil h]; rfl
      · rw [valStep_arr_cons (by rw [h]; intro x hx; cases hx; exact h1 rfl)]; simp only [if_neg h1]
    · rw [valStep_arr_cons, e]
      · rcases lexWord_cases (c :: r') with hw | ⟨b, x, hw⟩ <;> rw [hw]
      · rw [h]; intro x hx; cases hx; simp at hc
  have hprim : ∀ r, parsePrim (skipWs r) = parsePrim r := by
    intro r; unfold parsePrim; rw [skipWs_skipWs]
  rcases lexOne_cases s with ⟨h, e⟩ | ⟨r, h, ⟨n, x, hp, e⟩ | ⟨hp, e⟩⟩ | ⟨r, h, ⟨n, x, hp, e⟩ | ⟨hp, e⟩⟩ |
    ⟨c, r, h, hc, ⟨n, x, hp, e⟩ | ⟨hp, e⟩⟩ | ⟨c, r, h, hc, e⟩ | ⟨c, r, h, h1, h2, hn, hc, e⟩
  · rw [pVal_unfold, e]; unfold valStep; rw [h]
  · rw [pVal_unfold, e]; unfold valStep; rw [h]
    simp only [if_true, hp]
    rw [hprim, parsePrim_lex]
    cases lexOne x with
    | tok t y => cases t <;> rfl
    | _ => rfl
  · rw [pVal_unfold, e]; unfold valStep; rw [h]
    simp only [if_true, hp]
  · rw [← pVal_skipWs, h, pVal_unfold, e, valStep_str, parseString_cons, hp]
  · rw [← pVal_skipWs, h, pVal_unfold, e, valStep_str, parseString_cons, hp]
  · rw [← pVal_skipWs, h, pVal_unfold, e, valStep_num rfl hc, hp]
  · rw [← pVal_skipWs, h, pVal_unfold, e, valStep_num rfl hc, hp]
  · rw [← pVal_skipWs, h, e]
    by_cases c1 : c = 123
    · subst c1; rw [hobj]; rfl
    · by_cases c2 : c = 91
      · subst c2; rw [harr]; rfl
      · simp only [if_neg c1, if_neg c2]
        rw [pVal_unfold]
        rcases hc with rfl | rfl | rfl | rfl | rfl | rfl
        · exact absurd rfl c1
        · rfl
        · exact absurd rfl c2
        all_goals rfl
  · rw [← pVal_skipWs, h, pVal_unfold, e]
    unfold valStep
    have hw : skipWs (c :: r) = c :: r := by rw [← h, skipWs_skipWs]
    rw [hw]
    have c1 : c ≠ 123 := by rintro rfl; simp at hc
    have c2 : c ≠ 91 := by rintro rfl; simp at hc
    simp only [if_neg h1, if_neg c1, if_neg c2]
    rw [if_neg (by simp [h2, hn]), parseWord_lex]
    rcases lexWord_cases (c :: r) with hw | ⟨b, x, hw⟩ <;> rw [hw]
    cases b <;> rfl


end Verif
