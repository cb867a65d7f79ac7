import Verif.LexSim
/-
Reading a token does not depend on the text after it, as long as that text does not continue the token.
-/
namespace Verif

/-- `r'` does not continue a token in front of `r`: it begins like `r` or with white space, or is empty. -/
def Good (r r' : Bytes) : Prop := ∀ c y, r' = c :: y → isWs c = true ∨ ∃ z, r = c :: z

theorem skipWs_split (s : Bytes) : ∃ w, AllWs w ∧ s = w ++ skipWs s := by
  induction s with
  | nil => exact ⟨[], .nil, rfl⟩
  | cons c r ih =>
    by_cases h : isWs c = true
    · obtain ⟨w, hw, e⟩ := ih
      refine ⟨c :: w, .cons h hw, ?_⟩
      rw [skipWs, if_pos h, List.cons_append, ← e]
    · exact ⟨[], .nil, by rw [skipWs, if_neg h]; rfl⟩

theorem expect_prefix {ch : UInt8} {s r : Bytes} (h : expect ch s = some r) :
    ∃ w, AllWs w ∧ isWs ch = false ∧ s = w ++ ch :: r := by
  obtain ⟨w, hw, e⟩ := skipWs_split s
  unfold expect at h
  split at h
  · cases h
  · rename_i c x hs
    split at h
    · rename_i hc
      cases h
      subst hc
      exact ⟨w, hw, skipWs_head hs, by rw [← hs]; exact e⟩
    · cases h

theorem expect_ws {ch : UInt8} (hc : isWs ch = false) {w : Bytes} (hw : AllWs w) (r : Bytes) :
    expect ch (w ++ ch :: r) = some r := by
  unfold expect
  rw [skipWs_append hw, skipWs_of_not hc]
  simp

theorem stringBody_prefix {s x r : Bytes} (h : stringBody s = some (x, r)) :
    ∃ u, s = u ++ r ∧ ∀ r', stringBody (u ++ r') = some (x, r') := by
  match s with
  | [] => simp [stringBody] at h
  | [92] => simp [stringBody] at h
  | 92 :: e :: s =>
    rw [stringBody_esc] at h
    cases he : unescape e with
    | none => rw [he] at h; cases h
    | some c =>
      rw [he] at h
      cases hs : stringBody s with
      | none => rw [hs] at h; cases h
      | some p =>
        obtain ⟨y, r0⟩ := p
        rw [hs] at h
        cases h
        obtain ⟨u, hu, hr⟩ := stringBody_prefix hs
        refine ⟨92 :: e :: u, by rw [hu]; rfl, fun r' => ?_⟩
        rw [List.cons_append, List.cons_append, stringBody_esc, he]
        simp only [hr r']
  | c :: s =>
    by_cases h1 : c = 34
    · subst h1
      rw [stringBody_end] at h
      cases h
      exact ⟨[34], rfl, fun r' => stringBody_end r'⟩
    · by_cases h2 : c = 92
      · subst h2
        cases s with
        | nil => simp [stringBody] at h
        | cons e s =>
          rw [stringBody_esc] at h
          cases he : unescape e with
          | none => rw [he] at h; cases h
          | some c =>
            rw [he] at h
            cases hs : stringBody s with
            | none => rw [hs] at h; cases h
            | some p =>
              obtain ⟨y, r0⟩ := p
              rw [hs] at h
              cases h
              obtain ⟨u, hu, hr⟩ := stringBody_prefix hs
              refine ⟨92 :: e :: u, by rw [hu]; rfl, fun r' => ?_⟩
              rw [List.cons_append, List.cons_append, stringBody_esc, he]
              simp only [hr r']
      · rw [stringBody_plain h1 h2] at h
        cases hs : stringBody s with
        | none => rw [hs] at h; cases h
        | some p =>
          obtain ⟨y, r0⟩ := p
          rw [hs] at h
          cases h
          obtain ⟨u, hu, hr⟩ := stringBody_prefix hs
          refine ⟨c :: u, by rw [hu]; rfl, fun r' => ?_⟩
          rw [List.cons_append, stringBody_plain h1 h2, hr r']

theorem ws_notDigit {c : UInt8} (h : isWs c = true) : isDigit c = false ∧ c ≠ 46 := by
  simp only [isWs, Bool.or_eq_true, beq_iff_eq] at h
  rcases h with ((rfl | rfl) | rfl) | rfl <;> decide

theorem fraction_dot (r : Bytes) : fraction (46 :: r) = spanDigits r := rfl

theorem fraction_none {s : Bytes} (h : ∀ r, s ≠ 46 :: r) : fraction s = ([], s) := by
  unfold fraction
  split
  · rename_i r; exact absurd rfl (h r)
  · rfl

theorem parseNumber_prefix {s r : Bytes} {f : F64} (h : parseNumber s = some (f, r)) :
    ∃ u, s = u ++ r ∧ ∀ r', Good r r' → parseNumber (u ++ r') = some (f, r') := by
  -- the text after the sign
  have key : ∀ neg (s : Bytes), (match parseFloat neg (spanDigits s).1 (fraction (spanDigits s).2).1 with
      | none => none
      | some f => some (f, (fraction (spanDigits s).2).2)) = some (f, r) →
      ∃ u, s = u ++ r ∧ u ≠ [] ∧ (∀ c y, u = c :: y → isDigit c = true ∨ c = 46) ∧ ∀ r', Good r r' →
        (match parseFloat neg (spanDigits (u ++ r')).1 (fraction (spanDigits (u ++ r')).2).1 with
        | none => none
        | some f => some (f, (fraction (spanDigits (u ++ r')).2).2)) = some (f, r') := by
    intro neg s h
    have e1 := spanDigits_eq s
    have e2 := spanDigits_all s
    have e3 := spanDigits_stop s
    generalize spanDigits s = d at *
    obtain ⟨int, x⟩ := d
    simp only at h e1 e2 e3
    have hne : int ≠ [] ∨ (fraction x).1 ≠ [] := by
      by_cases h1 : int = []
      · by_cases h2 : (fraction x).1 = []
        · rw [h1, h2] at h; simp [parseFloat] at h
        · exact .inr h2
      · exact .inl h1
    have hint : ∀ c y, int = c :: y → isDigit c = true := by
      rintro c y rfl
      simp only [List.all_cons, Bool.and_eq_true] at e2
      exact e2.1
    by_cases hd : ∃ y, x = 46 :: y
    · obtain ⟨y, rfl⟩ := hd
      rw [fraction_dot] at h
      have f1 := spanDigits_eq y
      have f2 := spanDigits_all y
      have f3 := spanDigits_stop y
      generalize spanDigits y = d at *
      obtain ⟨frac, z⟩ := d
      simp only at h f1 f2 f3
      cases hf : parseFloat neg int frac with
      | none => rw [hf] at h; cases h
      | some g =>
        rw [hf] at h
        cases h
        refine ⟨int ++ 46 :: frac, by rw [← e1, ← f1]; simp, by simp, ?_, ?_⟩
        · intro c y h
          cases int with
          | nil => cases h; exact .inr rfl
          | cons d int => cases h; exact .inl (hint _ _ rfl)
        · intro r' hg
          have hr' : ∀ c x, r' = c :: x → isDigit c = false := by
            intro c x hc
            rcases hg c x hc with hw | ⟨w, hw⟩
            · exact (ws_notDigit hw).1
            · exact f3 c w hw
          rw [List.append_assoc, List.cons_append, spanDigits_append e2 (by rintro c x h; cases h; decide)]
          simp only [fraction_dot, spanDigits_append f2 hr', hf]
    · have hx : fraction x = ([], x) := fraction_none (fun y hy => hd ⟨y, hy⟩)
      rw [hx] at h
      simp only at h
      cases hf : parseFloat neg int [] with
      | none => rw [hf] at h; cases h
      | some g =>
        rw [hf] at h
        cases h
        have hne' : int ≠ [] := by
          rcases hne with h | h
          · exact h
          · rw [hx] at h; exact absurd rfl h
        refine ⟨int, e1.symm, hne', fun c y h => .inl (hint c y h), ?_⟩
        intro r' hg
        have hr' : ∀ c x, r' = c :: x → isDigit c = false := by
          intro c x hc
          rcases hg c x hc with hw | ⟨w, hw⟩
          · exact (ws_notDigit hw).1
          · exact e3 c w hw
        rw [spanDigits_append e2 hr']
        have hx' : fraction r' = ([], r') := by
          refine fraction_none fun y hy => ?_
          rcases hg 46 y hy with hw | ⟨w, hw⟩
          · exact absurd hw (by decide)
          · exact hd ⟨w, hw⟩
        simp only [hx', hf]
  by_cases hs : ∃ y, s = 45 :: y
  · obtain ⟨y, rfl⟩ := hs
    obtain ⟨u, e, -, -, hu⟩ := key true y h
    exact ⟨45 :: u, by rw [e]; rfl, fun r' hg => hu r' hg⟩
  · have hh : ∀ s : Bytes, (∀ y, s ≠ 45 :: y) → parseNumber s =
        match parseFloat false (spanDigits s).1 (fraction (spanDigits s).2).1 with
        | none => none
        | some f => some (f, (fraction (spanDigits s).2).2) := by
      intro s hs
      have : (s.head? == some 45) = false := by
        cases s with
        | nil => rfl
        | cons c y =>
          simp only [List.head?_cons, beq_eq_false_iff_ne, ne_eq, Option.some.injEq]
          rintro rfl
          exact hs y rfl
      unfold parseNumber
      rw [this]
      rfl
    rw [hh s fun y hy => hs ⟨y, hy⟩] at h
    obtain ⟨u, e, hne, hc, hu⟩ := key false s h
    refine ⟨u, e, fun r' hg => ?_⟩
    rw [hh]
    · exact hu r' hg
    · intro y hy
      obtain ⟨c, v, rfl⟩ := List.exists_cons_of_ne_nil hne
      cases hy
      rcases hc _ _ rfl with h | h
      · revert h; decide
      · revert h; decide

theorem parseTs_lt (r : Bytes) : parseTs (60 :: r) =
    match r with
    | 62 :: rest => some (-1, rest)
    | r =>
      let ds := spanDigits r
      if ds.1 = [] then none
      else if digitsVal 0 ds.1 > 9223372036854775807 then none
      else match expect 62 ds.2 with
        | none => none
        | some rest => some (digitsVal 0 ds.1, rest) := by
  have he : ∀ x, expect 60 (60 :: x) = some x := by intro x; simp [expect, skipWs, isWs]
  unfold parseTs
  rw [he]
  rfl

theorem parseTs_other {r : Bytes} (h : ∀ x, r ≠ 62 :: x) : parseTs (60 :: r) =
      if (spanDigits r).1 = [] then none
      else if digitsVal 0 (spanDigits r).1 > 9223372036854775807 then none
      else match expect 62 (spanDigits r).2 with
        | none => none
        | some rest => some ((digitsVal 0 (spanDigits r).1 : Int), rest) := by
  rw [parseTs_lt]
  split
  · rename_i x; exact absurd rfl (h x)
  · rfl

theorem parseTs_prefix {s r : Bytes} {n : Int} (h : parseTs (60 :: s) = some (n, r)) :
    ∃ u, s = u ++ r ∧ ∀ r', parseTs (60 :: (u ++ r')) = some (n, r') := by
  by_cases hs : ∃ x, s = 62 :: x
  · obtain ⟨x, rfl⟩ := hs
    rw [parseTs_lt] at h
    cases h
    exact ⟨[62], rfl, fun r' => parseTs_lt _⟩
  · rw [parseTs_other fun x hx => hs ⟨x, hx⟩] at h
    have e1 := spanDigits_eq s
    have e2 := spanDigits_all s
    generalize spanDigits s = d at *
    obtain ⟨ds, x⟩ := d
    simp only at h e1 e2
    split at h
    · cases h
    · rename_i hne
      split at h
      · cases h
      · rename_i hv
        split at h
        · cases h
        · rename_i y hx
          cases h
          obtain ⟨w, hw, -, rfl⟩ := expect_prefix hx
          refine ⟨ds ++ (w ++ [62]), by rw [← e1]; simp, fun r' => ?_⟩
          obtain ⟨d, ds', rfl⟩ := List.exists_cons_of_ne_nil hne
          have hd : isDigit d = true := by
            simp only [List.all_cons, Bool.and_eq_true] at e2
            exact e2.1
          have hsp : spanDigits (d :: ds' ++ (w ++ [62]) ++ r') = (d :: ds', w ++ 62 :: r') := by
            rw [List.append_assoc, List.append_assoc]
            refine spanDigits_append e2 ?_
            intro c z hc
            cases w with
            | nil => cases hc; decide
            | cons a w => cases hc; exact (ws_notDigit (hw _ (by simp))).1
          rw [parseTs_other]
          · rw [hsp]
            simp only [if_neg hne, if_neg hv, expect_ws (by decide : isWs 62 = false) hw]
          · intro z hz
            cases hz
            revert hd; decide

theorem hasPrefix_iff {s p : Bytes} : hasPrefix s p = true ↔ ∃ r, s = p ++ r := by
  unfold hasPrefix
  rw [List.isPrefixOf_iff_prefix]
  constructor
  · rintro ⟨r, rfl⟩; exact ⟨r, rfl⟩
  · rintro ⟨r, rfl⟩; exact ⟨r, rfl⟩

theorem lexWord_prefix {s r : Bytes} {t : Tok} (h : lexWord s = .tok t r) :
    ∃ u, s = u ++ r ∧ u ≠ [] ∧ ∀ r', lexWord (u ++ r') = .tok t r' := by
  unfold lexWord at h
  split at h
  · rename_i hp
    obtain ⟨x, rfl⟩ := hasPrefix_iff.1 hp
    cases h
    refine ⟨b!"true", rfl, by decide, fun r' => ?_⟩
    unfold lexWord
    rw [if_pos (hasPrefix_iff.2 ⟨_, rfl⟩)]; rfl
  · split at h
    · rename_i hp
      obtain ⟨x, rfl⟩ := hasPrefix_iff.1 hp
      cases h
      refine ⟨b!"false", rfl, by decide, fun r' => ?_⟩
      unfold lexWord
      rw [if_neg (by simp [hasPrefix, List.isPrefixOf]), if_pos (hasPrefix_iff.2 ⟨_, rfl⟩)]; rfl
    · split at h
      · rename_i hp
        obtain ⟨x, rfl⟩ := hasPrefix_iff.1 hp
        cases h
        refine ⟨b!"null", rfl, by decide, fun r' => ?_⟩
        unfold lexWord
        rw [if_neg (by simp [hasPrefix, List.isPrefixOf]), if_neg (by simp [hasPrefix, List.isPrefixOf]),
          if_pos (hasPrefix_iff.2 ⟨_, rfl⟩)]; rfl
      · cases h

theorem lexOne_prefix {s r : Bytes} {t : Tok} (h : lexOne s = .tok t r) :
    ∃ u, s = u ++ r ∧ ∀ r', Good r r' → lexOne (u ++ r') = .tok t r' := by
  obtain ⟨w, hw, es⟩ := skipWs_split s
  -- it is enough to look at the text after the white space
  suffices H : ∃ u, skipWs s = u ++ r ∧ ∀ r', Good r r' → lexOne (u ++ r') = .tok t r' by
    obtain ⟨u, e, hu⟩ := H
    refine ⟨w ++ u, by rw [List.append_assoc, ← e]; exact es, fun r' hg => ?_⟩
    rw [List.append_assoc, lexOne_ws hw]
    exact hu r' hg
  rcases lexOne_cases s with ⟨h', e⟩ | ⟨r', h', ⟨n, x, hp, e⟩ | ⟨hp, e⟩⟩ | ⟨r', h', ⟨n, x, hp, e⟩ | ⟨hp, e⟩⟩ |
    ⟨c, r', h', hc, ⟨n, x, hp, e⟩ | ⟨hp, e⟩⟩ | ⟨c, r', h', hc, e⟩ | ⟨c, r', h', n1, n2, n3, n4, e⟩
  all_goals rw [e] at h
  all_goals rw [h']
  · cases h
  · cases h
    obtain ⟨u, eu, hu⟩ := parseTs_prefix hp
    refine ⟨60 :: u, by rw [eu]; rfl, fun y _ => ?_⟩
    unfold lexOne
    rw [List.cons_append, skipWs_of_not (by decide)]
    simp only [if_true, hu y]
  · cases h
  · cases h
    obtain ⟨u, eu, hu⟩ := stringBody_prefix hp
    refine ⟨34 :: u, by rw [eu]; rfl, fun y _ => ?_⟩
    unfold lexOne
    rw [List.cons_append, skipWs_of_not (by decide)]
    simp only [if_true, hu y, if_neg (by decide : ¬ (34 : UInt8) = 60)]
  · cases h
  · cases h
    obtain ⟨u, eu, hu⟩ := parseNumber_prefix hp
    refine ⟨u, by rw [eu], fun y hg => ?_⟩
    have hl := parseNumber_length hp
    cases u with
    | nil => rw [eu] at hl; simp at hl
    | cons d v =>
      rw [List.cons_append] at eu
      cases eu
      obtain ⟨m1, m2, -, -, m5⟩ := numStart_ne hc
      have := hu y hg
      unfold lexOne
      rw [List.cons_append] at this ⊢
      rw [skipWs_of_not m1]
      simp only [if_neg m2, if_neg m5, if_pos hc, this]
  · cases h
  · cases h
    refine ⟨[c], rfl, fun y _ => ?_⟩
    unfold lexOne
    have hws : isWs c = false ∧ c ≠ 60 ∧ c ≠ 34 ∧ isNumStart c = false := by
      rcases hc with rfl | rfl | rfl | rfl | rfl | rfl <;> decide
    obtain ⟨m1, m2, m3, m4⟩ := hws
    rw [List.cons_append, skipWs_of_not m1]
    simp only [if_neg m2, if_neg m3, m4, if_pos hc]
    rfl
  · obtain ⟨u, eu, hne, hu⟩ := lexWord_prefix h
    refine ⟨u, eu, fun y _ => ?_⟩
    cases u with
    | nil => exact absurd rfl hne
    | cons d v =>
      rw [List.cons_append] at eu
      cases eu
      have := hu y
      unfold lexOne
      rw [List.cons_append] at this ⊢
      rw [skipWs_of_not (skipWs_head h')]
      simp only [if_neg n1, if_neg n2, n3, if_neg n4, Bool.false_eq_true, if_false, this]

theorem Good.append {post post' : Bytes} (h : Good post post') (pre : Bytes) : Good (pre ++ post) (pre ++ post') := by
  intro c y e
  cases pre with
  | cons d pre => cases e; exact .inr ⟨_, rfl⟩
  | nil => exact h c y e

theorem good_ws {w : Bytes} (hw : AllWs w) (post : Bytes) : Good post (w ++ post) := by
  intro c y h
  cases w with
  | cons d w => cases h; exact .inl (hw _ (by simp))
  | nil => exact .inr ⟨y, h⟩

theorem allWs_of_blank {w : Bytes} (h : IsBlank w) : AllWs w := by
  intro c hc
  rcases h c hc with rfl | rfl | rfl | rfl <;> decide

/-- Replacing the text after a token boundary by a text with the same tokens. -/
theorem tokens_swap {post post' pre : Bytes} (hg : Good post post') (ht : tokens post' = tokens post)
    (h : Boundary post pre) : tokens (pre ++ post') = tokens (pre ++ post) := by
  induction h with
  | here => exact ht
  | tok hl _ ih =>
    rename_i t p pre _
    obtain ⟨u, eu, hu⟩ := lexOne_prefix hl
    have : p = u := List.append_cancel_right eu
    subst this
    have h2 := hu _ (hg.append pre)
    rw [List.append_assoc, List.append_assoc, tokens_unfold, tokens_unfold (p ++ (pre ++ post)), hl, h2]
    simp only [ih]

/-- White space at a token boundary does not change the tokens. -/
theorem tokens_insert {w post pre : Bytes} (hw : AllWs w) (h : Boundary post pre) :
    tokens (pre ++ (w ++ post)) = tokens (pre ++ post) :=
  tokens_swap (good_ws hw post) (by rw [tokens_unfold, tokens_unfold post, lexOne_ws hw]) h

/-- White space in front of the closing bracket of a timestamp does not change the tokens. -/
theorem tokens_angle {w ds post pre : Bytes} (hw : AllWs w) (hne : ds ≠ []) (hd : ds.all isDigit = true)
    (h : Boundary (60 :: (ds ++ 62 :: post)) pre) :
    tokens (pre ++ 60 :: (ds ++ (w ++ 62 :: post))) = tokens (pre ++ 60 :: (ds ++ 62 :: post)) := by
  refine tokens_swap (fun c y e => ?_) ?_ h
  · cases e; exact .inr ⟨_, rfl⟩
  · have key : ∀ w, AllWs w → lexOne (60 :: (ds ++ (w ++ 62 :: post))) =
        if digitsVal 0 ds > 9223372036854775807 then .badTs else .tok (.ts (digitsVal 0 ds)) post := by
      intro w hw
      have hsp : spanDigits (ds ++ (w ++ 62 :: post)) = (ds, w ++ 62 :: post) := by
        refine spanDigits_append hd ?_
        intro c z hc
        cases w with
        | nil => cases hc; decide
        | cons a w => cases hc; exact (ws_notDigit (hw _ (by simp))).1
      have hp : parseTs (60 :: (ds ++ (w ++ 62 :: post))) =
          if digitsVal 0 ds > 9223372036854775807 then none else some ((digitsVal 0 ds : Int), post) := by
        rw [parseTs_other, hsp]
        · simp only [if_neg hne, expect_ws (by decide : isWs 62 = false) hw]
        · intro z hz
          obtain ⟨d, ds', rfl⟩ := List.exists_cons_of_ne_nil hne
          cases hz
          simp only [List.all_cons, Bool.and_eq_true] at hd
          exact absurd hd.1 (by decide)
      unfold lexOne
      rw [skipWs_of_not (by decide)]
      simp only [if_true, hp]
      split <;> rename_i e <;> split at e <;> simp_all
    have k0 := key [] .nil
    rw [List.nil_append] at k0
    rw [tokens_unfold, tokens_unfold (60 :: (ds ++ 62 :: post)), key w hw, k0]

end Verif
