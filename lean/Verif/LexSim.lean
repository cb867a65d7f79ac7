import Verif.LexLemmas
/-
Texts with the same tokens give the same result; white space between tokens does not change the tokens.
-/
namespace Verif

/-! ### Reading all tokens -/

theorem lexOne_length {s r : Bytes} {t : Tok} (h : lexOne s = .tok t r) : r.length < s.length := by
  have hw := skipWs_length s
  rcases lexOne_cases s with ⟨h', e⟩ | ⟨r', h', ⟨n, x, hp, e⟩ | ⟨hp, e⟩⟩ | ⟨r', h', ⟨n, x, hp, e⟩ | ⟨hp, e⟩⟩ |
    ⟨c, r', h', hc, ⟨n, x, hp, e⟩ | ⟨hp, e⟩⟩ | ⟨c, r', h', hc, e⟩ | ⟨c, r', h', -, -, -, -, e⟩
  all_goals rw [e] at h
  all_goals rw [h'] at hw
  · cases h
  · cases h; have := parseTs_length hp; omega
  · cases h
  · cases h; have := stringBody_length hp; simp only [List.length_cons] at hw; omega
  · cases h
  · cases h; have := parseNumber_length hp; omega
  · cases h
  · cases h; simp only [List.length_cons] at hw; omega
  · unfold lexWord at h
    split at h
    · cases h; rename_i hp; have := hasPrefix_length hp; rw [List.length_drop]
      simp only [List.length_cons, List.length_nil] at this hw ⊢; omega
    · split at h
      · cases h; rename_i hp; have := hasPrefix_length hp; rw [List.length_drop]
        simp only [List.length_cons, List.length_nil] at this hw ⊢; omega
      · split at h
        · cases h; rename_i hp; have := hasPrefix_length hp; rw [List.length_drop]
          simp only [List.length_cons, List.length_nil] at this hw ⊢; omega
        · cases h

theorem lexAll_stable (n : Nat) : ∀ s : Bytes, s.length < n → lexAll (n + 1) s = lexAll n s := by
  induction n with
  | zero => intro s h; omega
  | succ n ih =>
    intro s h
    rw [lexAll, lexAll]
    split
    · rename_i hl
      have := lexOne_length hl
      rw [ih _ (by omega)]
    · rfl
    · rfl
    · rfl

theorem lexAll_eq {n : Nat} {s : Bytes} (h : s.length < n) : lexAll n s = tokens s := by
  obtain ⟨d, rfl⟩ : ∃ d, n = s.length + 1 + d := ⟨n - (s.length + 1), by omega⟩
  clear h
  induction d with
  | zero => rfl
  | succ d ih => rw [← ih, ← Nat.add_assoc]; exact lexAll_stable _ s (by omega)

theorem tokens_unfold (s : Bytes) : tokens s =
    match lexOne s with
    | .tok t r => (t :: (tokens r).1, (tokens r).2)
    | .eof => ([], none)
    | .bad => ([], some false)
    | .badTs => ([], some true) := by
  conv => lhs; unfold tokens
  rw [lexAll]
  cases h : lexOne s with
  | tok t r => simp only [lexAll_eq (lexOne_length h)]
  | _ => rfl

theorem tokens_skipWs (s : Bytes) : tokens (skipWs s) = tokens s := by
  rw [tokens_unfold, tokens_unfold, lexOne_skipWs]

/-- Two texts with the same tokens start with the same token, and so on. -/
theorem tokens_cases {s s' : Bytes} (h : tokens s = tokens s') :
    (∃ t r r', lexOne s = .tok t r ∧ lexOne s' = .tok t r' ∧ tokens r = tokens r' ∧ r.length < s.length) ∨
    (lexOne s = .eof ∧ lexOne s' = .eof) ∨ (lexOne s = .bad ∧ lexOne s' = .bad) ∨
    (lexOne s = .badTs ∧ lexOne s' = .badTs) := by
  rw [tokens_unfold, tokens_unfold s'] at h
  cases h1 : lexOne s with
  | tok t r =>
    cases h2 : lexOne s' with
    | tok t' r' =>
      rw [h1, h2] at h
      simp only [Prod.mk.injEq, List.cons.injEq] at h
      obtain ⟨⟨rfl, h3⟩, h4⟩ := h
      exact .inl ⟨t, r, r', rfl, rfl, Prod.ext h3 h4, lexOne_length h1⟩
    | eof => rw [h1, h2] at h; simp at h
    | bad => rw [h1, h2] at h; simp at h
    | badTs => rw [h1, h2] at h; simp at h
  | eof => cases h2 : lexOne s' <;> rw [h1, h2] at h <;> simp_all
  | bad => cases h2 : lexOne s' <;> rw [h1, h2] at h <;> simp_all
  | badTs => cases h2 : lexOne s' <;> rw [h1, h2] at h <;> simp_all

/-! ### Parsing texts with the same tokens -/

/-- The same outcome, with rests that have the same tokens. -/
inductive SameRes : PRes Tson → PRes Tson → Prop
  | ok {v : Tson} {r r' : Bytes} : tokens r = tokens r' → SameRes (.ok v r) (.ok v r')
  | err : SameRes .err .err
  | panic : SameRes .panic .panic
  | more : SameRes .more .more

theorem suffixTs_same {p : Prim} {s s' : Bytes} (h : tokens s = tokens s') :
    SameRes (suffixTs p s) (suffixTs p s') := by
  rw [suffixTs_lex, suffixTs_lex]
  rcases tokens_cases h with ⟨t, r, r', e, e', hr, -⟩ | ⟨e, e'⟩ | ⟨e, e'⟩ | ⟨e, e'⟩
  · rw [e, e']
    cases t with
    | ts n => exact .ok hr
    | _ => exact .ok (by rw [tokens_skipWs, tokens_skipWs]; exact h)
  · rw [e, e']; exact .ok (by rw [tokens_skipWs, tokens_skipWs]; exact h)
  · rw [e, e']; exact .ok (by rw [tokens_skipWs, tokens_skipWs]; exact h)
  · rw [e, e']; exact .err

theorem afterItem_same {close : UInt8} (hcl : close = 125 ∨ close = 93) {f : Bytes → PRes Tson} {d : Tson}
    {s s' : Bytes} (h : tokens s = tokens s')
    (hf : ∀ r r', r.length < s.length → tokens r = tokens r' → SameRes (f r) (f r')) :
    SameRes (afterItem close f d s) (afterItem close f d s') := by
  rw [afterItem_lex hcl, afterItem_lex hcl]
  rcases tokens_cases h with ⟨t, r, r', e, e', hr, hl⟩ | ⟨e, e'⟩ | ⟨e, e'⟩ | ⟨e, e'⟩
  · rw [e, e']
    cases t with
    | punct c =>
      simp only
      split
      · exact hf _ _ hl hr
      · split
        · exact .ok hr
        · exact .err
    | _ => exact .err
  all_goals rw [e, e']; exact .err

/-- Continue after a value. -/
theorem SameRes.item {x x' : PRes Tson} (h : SameRes x x') {ts : Int} {g : Tson → Bytes → PRes Tson}
    (hg : ∀ v r r', x = .ok v r → tokens r = tokens r' → ∀ w, rewrap v ts = some w → SameRes (g w r) (g w r')) :
    SameRes (match (generalizing := false) x with
        | .more => .more
        | .err => .err
        | .panic => .panic
        | .ok v r =>
          match rewrap v ts with
          | none => .panic
          | some w => g w r)
      (match (generalizing := false) x' with
        | .more => .more
        | .err => .err
        | .panic => .panic
        | .ok v r =>
          match rewrap v ts with
          | none => .panic
          | some w => g w r) := by
  cases h with
  | ok hr =>
    rename_i v r r'
    simp only
    cases hw : rewrap v ts with
    | none => exact .panic
    | some w => exact hg v r r' rfl hr w hw
  | err => exact .err
  | panic => exact .panic
  | more => exact .more

theorem pMembers_same {n : Nat} (hv : ∀ s s' : Bytes, s.length < n → tokens s = tokens s' → SameRes (pVal s) (pVal s'))
    (hm : ∀ m (s s' : Bytes), s.length < n → tokens s = tokens s' → SameRes (pMembers m s) (pMembers m s'))
    (m : List (Bytes × Tson)) {s s' : Bytes} (hl : s.length ≤ n) (h : tokens s = tokens s') :
    SameRes (pMembers m s) (pMembers m s') := by
  rw [pMembers_unfold, pMembers_unfold]
  unfold memStep
  rw [parseString_lex, parseString_lex, lexOne_skipWs, lexOne_skipWs]
  rcases tokens_cases h with ⟨t, r, r', e, e', hr, hl1⟩ | ⟨e, e'⟩ | ⟨e, e'⟩ | ⟨e, e'⟩
  · rw [e, e']
    cases t with
    | str key =>
      simp only
      -- the rest of the round, after the optional timestamp
      have go : ∀ ts (r r' : Bytes), r.length < n → tokens r = tokens r' →
          SameRes
            (match expect 58 r with
            | none => .err
            | some r =>
              match pVal (skipWs r) with
              | .more => .more
              | .err => .err
              | .panic => .panic
              | .ok v r =>
                match rewrap v ts with
                | none => .panic
                | some v => afterItem 125 (pMembers (mset m key v)) (.obj (mset m key v)) r)
            (match expect 58 r' with
            | none => .err
            | some r =>
              match pVal (skipWs r) with
              | .more => .more
              | .err => .err
              | .panic => .panic
              | .ok v r =>
                match rewrap v ts with
                | none => .panic
                | some v => afterItem 125 (pMembers (mset m key v)) (.obj (mset m key v)) r) := by
        intro ts r r' hl2 hr
        rw [expect_colon, expect_colon]
        rcases tokens_cases hr with ⟨t, x, x', e, e', hx, hl3⟩ | ⟨e, e'⟩ | ⟨e, e'⟩ | ⟨e, e'⟩
        · rw [e, e']
          cases t with
          | punct c =>
            simp only
            by_cases hc : c = 58
            · simp only [if_pos hc, pVal_skipWs]
              have hs := hv x x' (by omega) hx
              have key2 := SameRes.item hs (ts := ts)
                (g := fun v r => afterItem 125 (pMembers (mset m key v)) (.obj (mset m key v)) r) (by
                  intro v y y' hok hy w hw
                  refine afterItem_same (.inl rfl) hy fun z z' hz hzz => hm _ _ _ ?_ hzz
                  have := pVal_shrinks _ _ _ hok
                  omega)
              revert key2
              cases pVal x <;> cases pVal x' <;> exact id
            · simp only [if_neg hc]; exact .err
          | _ => exact .err
        all_goals rw [e, e']; exact .err
      rw [prefixTs_lex, prefixTs_lex]
      rcases tokens_cases hr with ⟨t, x, x', e, e', hx, hl2⟩ | ⟨e, e'⟩ | ⟨e, e'⟩ | ⟨e, e'⟩
      · rw [e, e']
        cases t with
        | ts k => exact go k x x' (by omega) hx
        | _ =>
          refine go 0 (skipWs r) (skipWs r') ?_ (by rw [tokens_skipWs, tokens_skipWs]; exact hr)
          have := skipWs_length r
          omega
      · rw [e, e']
        refine go 0 (skipWs r) (skipWs r') ?_ (by rw [tokens_skipWs, tokens_skipWs]; exact hr)
        have := skipWs_length r
        omega
      · rw [e, e']
        refine go 0 (skipWs r) (skipWs r') ?_ (by rw [tokens_skipWs, tokens_skipWs]; exact hr)
        have := skipWs_length r
        omega
      · rw [e, e']; exact .err
    | _ => exact .err
  all_goals rw [e, e']; exact .err

theorem pElems_same {n : Nat} (hv : ∀ s s' : Bytes, s.length ≤ n → tokens s = tokens s' → SameRes (pVal s) (pVal s'))
    (he : ∀ l (s s' : Bytes), s.length < n → tokens s = tokens s' → SameRes (pElems l s) (pElems l s'))
    (l : List Tson) {s s' : Bytes} (hl : s.length ≤ n) (h : tokens s = tokens s') :
    SameRes (pElems l s) (pElems l s') := by
  rw [pElems_unfold, pElems_unfold]
  unfold elemStep
  have go : ∀ ts (r r' : Bytes), r.length ≤ n → tokens r = tokens r' →
      SameRes
        (match pVal r with
        | .more => .more
        | .err => .err
        | .panic => .panic
        | .ok v r =>
          match rewrap v ts with
          | none => .panic
          | some v => afterItem 93 (pElems (l ++ [v])) (.arr (l ++ [v])) r)
        (match pVal r' with
        | .more => .more
        | .err => .err
        | .panic => .panic
        | .ok v r =>
          match rewrap v ts with
          | none => .panic
          | some v => afterItem 93 (pElems (l ++ [v])) (.arr (l ++ [v])) r) := by
    intro ts x x' hl2 hx
    have hs := hv x x' hl2 hx
    have key2 := SameRes.item hs (ts := ts)
      (g := fun v r => afterItem 93 (pElems (l ++ [v])) (.arr (l ++ [v])) r) (by
        intro v y y' hok hy w hw
        refine afterItem_same (.inr rfl) hy fun z z' hz hzz => he _ _ _ ?_ hzz
        have := pVal_shrinks _ _ _ hok
        omega)
    revert key2
    cases pVal x <;> cases pVal x' <;> exact id
  rw [prefixTs_lex, prefixTs_lex]
  have hsk : (skipWs s).length ≤ n := by have := skipWs_length s; omega
  have htk : tokens (skipWs s) = tokens (skipWs s') := by rw [tokens_skipWs, tokens_skipWs]; exact h
  rcases tokens_cases h with ⟨t, x, x', e, e', hx, hl2⟩ | ⟨e, e'⟩ | ⟨e, e'⟩ | ⟨e, e'⟩
  · rw [e, e']
    cases t with
    | ts k => exact go k x x' (by omega) hx
    | _ => exact go 0 _ _ hsk htk
  · rw [e, e']; exact go 0 _ _ hsk htk
  · rw [e, e']; exact go 0 _ _ hsk htk
  · rw [e, e']; exact .err

theorem pVal_same {n : Nat}
    (hm : ∀ m (s s' : Bytes), s.length < n → tokens s = tokens s' → SameRes (pMembers m s) (pMembers m s'))
    (he : ∀ l (s s' : Bytes), s.length < n → tokens s = tokens s' → SameRes (pElems l s) (pElems l s'))
    {s s' : Bytes} (hl : s.length ≤ n) (h : tokens s = tokens s') : SameRes (pVal s) (pVal s') := by
  rw [pVal_lex, pVal_lex]
  rcases tokens_cases h with ⟨t, r, r', e, e', hr, hl2⟩ | ⟨e, e'⟩ | ⟨e, e'⟩ | ⟨e, e'⟩
  · rw [e, e']
    cases t with
    | ts n =>
      simp only
      rcases tokens_cases hr with ⟨t, x, x', e, e', hx, -⟩ | ⟨e, e'⟩ | ⟨e, e'⟩ | ⟨e, e'⟩
      · rw [e, e']
        cases t with
        | str y => exact .ok hx
        | num f => exact .ok hx
        | _ => exact .err
      all_goals rw [e, e']; exact .err
    | str x => exact suffixTs_same hr
    | num f => exact suffixTs_same hr
    | word b =>
      cases b with
      | none => exact .ok hr
      | some b => exact suffixTs_same hr
    | punct c =>
      simp only
      by_cases h1 : c = 123
      · simp only [if_pos h1]
        rcases tokens_cases hr with ⟨t, x, x', e, e', hx, -⟩ | ⟨e, e'⟩ | ⟨e, e'⟩ | ⟨e, e'⟩
        · rw [e, e']
          cases t with
          | punct d =>
            simp only
            split
            · exact .ok hx
            · exact hm _ _ _ (by omega) hr
          | _ => exact hm _ _ _ (by omega) hr
        all_goals rw [e, e']; exact hm _ _ _ (by omega) hr
      · simp only [if_neg h1]
        by_cases h2 : c = 91
        · simp only [if_pos h2]
          rcases tokens_cases hr with ⟨t, x, x', e, e', hx, -⟩ | ⟨e, e'⟩ | ⟨e, e'⟩ | ⟨e, e'⟩
          · rw [e, e']
            cases t with
            | punct d =>
              simp only
              split
              · exact .ok hx
              · exact he _ _ _ (by omega) hr
            | _ => exact he _ _ _ (by omega) hr
          all_goals rw [e, e']; exact he _ _ _ (by omega) hr
        · simp only [if_neg h2]; exact .err
  all_goals rw [e, e']; exact .err

theorem parse_same (n : Nat) : (∀ s s' : Bytes, s.length < n → tokens s = tokens s' → SameRes (pVal s) (pVal s')) ∧
    (∀ m (s s' : Bytes), s.length < n → tokens s = tokens s' → SameRes (pMembers m s) (pMembers m s')) ∧
    (∀ l (s s' : Bytes), s.length < n → tokens s = tokens s' → SameRes (pElems l s) (pElems l s')) := by
  induction n with
  | zero => exact ⟨fun s s' h => by omega, fun m s s' h => by omega, fun l s s' h => by omega⟩
  | succ n ih =>
    obtain ⟨hv, hm, he⟩ := ih
    have hv' : ∀ s s' : Bytes, s.length ≤ n → tokens s = tokens s' → SameRes (pVal s) (pVal s') :=
      fun s s' hl h => pVal_same hm he hl h
    exact ⟨fun s s' hl h => hv' s s' (by omega) h, fun m s s' hl h => pMembers_same hv hm m (by omega) h,
      fun l s s' hl h => pElems_same hv' he l (by omega) h⟩

theorem unmarshal_same {s s' : Bytes} (h : tokens s = tokens s') : unmarshal s = unmarshal s' := by
  rw [unmarshal_eq, unmarshal_eq]
  have := (parse_same (s.length + 1)).1 s s' (by omega) h
  generalize pVal s = x at *
  generalize pVal s' = y at *
  cases this <;> rfl

end Verif
