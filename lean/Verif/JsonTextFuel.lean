import Verif.JsonTextRead
/-
The bound on the recursion depth in the model of the JSON reader never matters.
-/
namespace Verif

theorem consStr_some {b : Bytes} {o : Option (Bytes × Bytes)} {a r : Bytes} (h : consStr b o = some (a, r)) :
    ∃ a', o = some (a', r) := by
  cases o with
  | none => cases h
  | some p => obtain ⟨x, y⟩ := p; cases h; exact ⟨x, rfl⟩

theorem hex4_length {s r : Bytes} {u : Nat} (h : hex4 s = some (u, r)) : r.length < s.length := by
  unfold hex4 at h
  split at h
  · split at h
    · cases h; simp; omega
    · cases h
  · cases h

theorem uEscape_length (u : Nat) (r : Bytes) : (uEscape u r).2.length ≤ r.length := by
  unfold uEscape
  split
  · split
    · rename_i r'
      split
      · rename_i v r'' hh
        have := hex4_length hh
        split
        · simp; omega
        · simp
      · simp
    · simp
  · simp

theorem readStr_length (n : Nat) : ∀ {s a r : Bytes}, readStr n s = some (a, r) → r.length < s.length := by
  induction n with
  | zero => intro s a r h; simp [readStr] at h
  | succ n ih =>
    intro s a r h
    cases s with
    | nil => simp [readStr] at h
    | cons c s =>
      simp only [readStr] at h
      by_cases h1 : c = 34
      · rw [if_pos h1] at h; cases h; simp
      rw [if_neg h1] at h
      by_cases h2 : c = 92
      · rw [if_pos h2] at h
        cases s with
        | nil => cases h
        | cons e s =>
          dsimp only at h
          by_cases h3 : e = 117
          · rw [if_pos h3] at h
            cases hx : hex4 s with
            | none => rw [hx] at h; cases h
            | some p =>
              obtain ⟨u, q⟩ := p
              rw [hx] at h
              dsimp only at h
              obtain ⟨a', h'⟩ := consStr_some h
              have i1 := ih h'
              have i2 := uEscape_length u q
              have i3 := hex4_length hx
              simp only [List.length_cons]; omega
          · rw [if_neg h3] at h
            cases hx : jsonUnescape e with
            | none => rw [hx] at h; cases h
            | some b =>
              rw [hx] at h
              dsimp only at h
              obtain ⟨a', h'⟩ := consStr_some h
              have i1 := ih h'
              simp only [List.length_cons]; omega
      rw [if_neg h2] at h
      by_cases h3 : c < 32
      · rw [if_pos h3] at h; cases h
      rw [if_neg h3] at h
      by_cases h4 : c < 0x80
      · rw [if_pos h4] at h
        obtain ⟨a', h'⟩ := consStr_some h
        have i1 := ih h'
        simp only [List.length_cons]; omega
      rw [if_neg h4] at h
      cases hx : runeAt (c :: s) with
      | none =>
        rw [hx] at h
        obtain ⟨a', h'⟩ := consStr_some h
        have i1 := ih h'
        simp only [List.length_cons]; omega
      | some p =>
        obtain ⟨cp, w⟩ := p
        rw [hx] at h
        obtain ⟨a', h'⟩ := consStr_some h
        have i1 := ih h'
        rw [List.length_drop] at i1
        omega

theorem spanDigits_length_pos {s : Bytes} (h : (spanDigits s).1 ≠ []) : (spanDigits s).2.length < s.length := by
  cases s with
  | nil => simp [spanDigits] at h
  | cons c s =>
    have := spanDigits_length s
    simp only [spanDigits] at h ⊢
    split
    · simp only [List.length_cons]; omega
    · rename_i hd; rw [if_neg hd] at h; simp at h

theorem readInt_length {s a r : Bytes} (h : readInt s = some (a, r)) : r.length < s.length := by
  unfold readInt at h
  split at h
  · cases h; simp
  · split at h
    · cases h
    · rename_i hne
      have := spanDigits_length_pos hne
      rw [Option.some.inj h] at this
      exact this

theorem readFrac_length {s r : Bytes} {a : Option Bytes} (h : readFrac s = some (a, r)) : r.length ≤ s.length := by
  unfold readFrac at h
  split at h
  · rename_i t
    split at h
    · cases h
    · have := spanDigits_length t
      cases h
      simp only [List.length_cons]; omega
  · cases h; exact Nat.le_refl _

theorem readSign_length (s : Bytes) : (readSign s).2.length ≤ s.length := by
  unfold readSign
  split <;> simp

theorem readExp_length {s r : Bytes} {a : Option (Bool × Bytes)} (h : readExp s = some (a, r)) : r.length ≤ s.length := by
  cases s with
  | nil => cases h; simp
  | cons c s =>
    simp only [readExp] at h
    split at h
    · split at h
      · cases h
      · have i1 := spanDigits_length (readSign s).2
        have i2 := readSign_length s
        cases h
        simp only [List.length_cons]; omega
    · cases h; exact Nat.le_refl _

theorem readNum_length {s r : Bytes} {j : Jt} (h : readNum s = some (j, r)) : r.length < s.length := by
  simp only [readNum] at h
  have hs : (if (s.head? == some 45) = true then s.tail else s).length ≤ s.length := by
    split
    · rw [List.length_tail]; omega
    · exact Nat.le_refl _
  generalize (if (s.head? == some 45) = true then s.tail else s) = t at h hs
  cases h1 : readInt t with
  | none => rw [h1] at h; cases h
  | some p =>
    obtain ⟨int, t1⟩ := p
    rw [h1] at h
    dsimp only at h
    cases h2 : readFrac t1 with
    | none => rw [h2] at h; cases h
    | some p =>
      obtain ⟨frac, t2⟩ := p
      rw [h2] at h
      dsimp only at h
      cases h3 : readExp t2 with
      | none => rw [h3] at h; cases h
      | some p =>
        obtain ⟨exp, t3⟩ := p
        rw [h3] at h
        cases h
        have := readInt_length h1
        have := readFrac_length h2
        have := readExp_length h3
        omega

theorem readWord_length {s r : Bytes} {j : Jt} (h : readWord s = some (j, r)) (hs : s ≠ []) : r.length < s.length := by
  have : 0 < s.length := List.length_pos_iff.2 hs
  unfold readWord at h
  repeat' split at h
  all_goals cases h
  all_goals rw [List.length_drop]; omega

/-- Reading consumes at least one byte. -/
theorem read_length (n : Nat) :
    (∀ {s r : Bytes} {j : Jt}, readVal n s = some (j, r) → r.length < s.length) ∧
    (∀ {s r : Bytes} {m : List (Bytes × Jt)}, readMembers n s = some (m, r) → r.length < s.length) ∧
    (∀ {s r : Bytes} {l : List Jt}, readElems n s = some (l, r) → r.length < s.length) := by
  induction n with
  | zero => simp [readVal, readMembers, readElems]
  | succ n ih =>
    obtain ⟨iv, im, ie⟩ := ih
    refine ⟨?_, ?_, ?_⟩
    · intro s r j h
      cases s with
      | nil => simp [readVal] at h
      | cons c s =>
        simp only [readVal] at h
        have hw := skipWs_length s
        by_cases h1 : c = 123
        · rw [if_pos h1] at h
          split at h
          · rename_i t heq
            cases h
            rw [heq] at hw
            simp only [List.length_cons] at hw ⊢; omega
          · cases hm : readMembers n (skipWs s) with
            | none => simp [hm] at h
            | some p =>
              obtain ⟨m, t⟩ := p
              have := im hm
              rw [hm] at h
              cases h
              simp only [List.length_cons]; omega
        rw [if_neg h1] at h
        by_cases h2 : c = 91
        · rw [if_pos h2] at h
          split at h
          · rename_i t heq
            cases h
            rw [heq] at hw
            simp only [List.length_cons] at hw ⊢; omega
          · cases hm : readElems n (skipWs s) with
            | none => simp [hm] at h
            | some p =>
              obtain ⟨m, t⟩ := p
              have := ie hm
              rw [hm] at h
              cases h
              simp only [List.length_cons]; omega
        rw [if_neg h2] at h
        by_cases h3 : c = 34
        · rw [if_pos h3] at h
          cases hm : readStr (s.length + 1) s with
          | none => simp [hm] at h
          | some p =>
            obtain ⟨m, t⟩ := p
            have := readStr_length _ hm
            rw [hm] at h
            cases h
            simp only [List.length_cons]; omega
        rw [if_neg h3] at h
        split at h
        · exact readNum_length h
        · exact readWord_length h (by simp)
    · intro s r m h
      cases s with
      | nil => simp [readMembers] at h
      | cons c s =>
        simp only [readMembers] at h
        split at h
        · cases hk : readStr (s.length + 1) s with
          | none => simp [hk] at h
          | some p =>
            obtain ⟨k, t⟩ := p
            have l1 := readStr_length _ hk
            rw [hk] at h
            dsimp only at h
            have w1 := skipWs_length t
            split at h
            · rename_i t1 heq1
              rw [heq1] at w1
              have w2 := skipWs_length t1
              cases hv : readVal n (skipWs t1) with
              | none => simp [hv] at h
              | some p =>
                obtain ⟨v, t2⟩ := p
                have l2 := iv hv
                rw [hv] at h
                dsimp only at h
                have w3 := skipWs_length t2
                split at h
                · rename_i t3 heq2
                  rw [heq2] at w3
                  have w4 := skipWs_length t3
                  cases hm : readMembers n (skipWs t3) with
                  | none => simp [hm] at h
                  | some p =>
                    obtain ⟨m', t4⟩ := p
                    have l3 := im hm
                    rw [hm] at h
                    cases h
                    simp only [List.length_cons] at *; omega
                · rename_i t3 heq2
                  rw [heq2] at w3
                  cases h
                  simp only [List.length_cons] at *; omega
                · cases h
            · cases h
        · cases h
    · intro s r l h
      simp only [readElems] at h
      cases hv : readVal n s with
      | none => simp [hv] at h
      | some p =>
        obtain ⟨v, t2⟩ := p
        have l2 := iv hv
        rw [hv] at h
        dsimp only at h
        have w3 := skipWs_length t2
        split at h
        · rename_i t3 heq2
          rw [heq2] at w3
          have w4 := skipWs_length t3
          cases hm : readElems n (skipWs t3) with
          | none => simp [hm] at h
          | some p =>
            obtain ⟨m', t4⟩ := p
            have l3 := ie hm
            rw [hm] at h
            cases h
            simp only [List.length_cons] at *; omega
        · rename_i t3 heq2
          rw [heq2] at w3
          cases h
          simp only [List.length_cons] at *; omega
        · cases h

/-- Two bounds that are large enough give the same result. -/
theorem read_fuel (L : Nat) :
    (∀ s, s.length ≤ L → ∀ n n', 2 * s.length < n → 2 * s.length < n' → readVal n s = readVal n' s) ∧
    (∀ s, s.length ≤ L → ∀ n n', 2 * s.length < n → 2 * s.length < n' → readMembers n s = readMembers n' s) ∧
    (∀ s, s.length ≤ L → ∀ n n', 2 * s.length + 1 < n → 2 * s.length + 1 < n' → readElems n s = readElems n' s) := by
  induction L with
  | zero =>
    have h0 : ∀ s : Bytes, s.length ≤ 0 → s = [] := fun s h => List.length_eq_zero_iff.1 (by omega)
    refine ⟨?_, ?_, ?_⟩
    all_goals
      intro s hs n n' hn hn'
      obtain ⟨n, rfl⟩ : ∃ k, n = k + 1 := ⟨n - 1, by omega⟩
      obtain ⟨n', rfl⟩ : ∃ k, n' = k + 1 := ⟨n' - 1, by omega⟩
      rw [h0 s hs] at *
    · simp [readVal]
    · simp [readMembers]
    · obtain ⟨n, rfl⟩ : ∃ k, n = k + 1 := ⟨n - 1, by omega⟩
      obtain ⟨n', rfl⟩ : ∃ k, n' = k + 1 := ⟨n' - 1, by omega⟩
      simp [readElems, readVal]
  | succ L ih =>
    obtain ⟨iv, im, ie⟩ := ih
    have hv : ∀ s : Bytes, s.length ≤ L + 1 → ∀ n n', 2 * s.length < n → 2 * s.length < n' → readVal n s = readVal n' s := by
      intro s hs n n' hn hn'
      obtain ⟨n, rfl⟩ : ∃ k, n = k + 1 := ⟨n - 1, by omega⟩
      obtain ⟨n', rfl⟩ : ∃ k, n' = k + 1 := ⟨n' - 1, by omega⟩
      cases s with
      | nil => simp [readVal]
      | cons c s =>
        have hw := skipWs_length s
        simp only [List.length_cons] at hs hn hn'
        simp only [readVal]
        have e1 := im (skipWs s) (by omega) n n' (by omega) (by omega)
        have e2 := ie (skipWs s) (by omega) n n' (by omega) (by omega)
        generalize skipWs s = t at e1 e2
        split
        · split
          · rfl
          · rw [e1]
        · split
          · split
            · rfl
            · rw [e2]
          · rfl
    refine ⟨hv, ?_, ?_⟩
    · intro s hs n n' hn hn'
      obtain ⟨n, rfl⟩ : ∃ k, n = k + 1 := ⟨n - 1, by omega⟩
      obtain ⟨n', rfl⟩ : ∃ k, n' = k + 1 := ⟨n' - 1, by omega⟩
      cases s with
      | nil => simp [readMembers]
      | cons c s =>
        simp only [List.length_cons] at hs hn hn'
        simp only [readMembers]
        by_cases h34 : c = 34
        · rw [if_pos h34, if_pos h34]
          cases hk : readStr (s.length + 1) s with
          | none => rfl
          | some p =>
            obtain ⟨k, t⟩ := p
            have l1 := readStr_length _ hk
            have w1 := skipWs_length t
            dsimp only
            split
            · rename_i t1 heq1
              rw [heq1] at w1
              simp only [List.length_cons] at w1
              have w2 := skipWs_length t1
              rw [iv (skipWs t1) (by omega) n n' (by omega) (by omega)]
              cases hv' : readVal n' (skipWs t1) with
              | none => rfl
              | some p =>
                obtain ⟨v, t2⟩ := p
                have l2 := (read_length n').1 hv'
                have w3 := skipWs_length t2
                dsimp only
                split
                · rename_i t3 heq2
                  rw [heq2] at w3
                  simp only [List.length_cons] at w3
                  have w4 := skipWs_length t3
                  rw [im (skipWs t3) (by omega) n n' (by omega) (by omega)]
                · rfl
                · rfl
            · rfl
        · rw [if_neg h34, if_neg h34]
    · intro s hs n n' hn hn'
      obtain ⟨n, rfl⟩ : ∃ k, n = k + 1 := ⟨n - 1, by omega⟩
      obtain ⟨n', rfl⟩ : ∃ k, n' = k + 1 := ⟨n' - 1, by omega⟩
      simp only [readElems]
      rw [hv s hs n n' (by omega) (by omega)]
      cases hv' : readVal n' s with
      | none => rfl
      | some p =>
        obtain ⟨v, t2⟩ := p
        have l2 := (read_length n').1 hv'
        have w3 := skipWs_length t2
        dsimp only
        split
        · rename_i t3 heq2
          rw [heq2] at w3
          simp only [List.length_cons] at w3
          have w4 := skipWs_length t3
          rw [ie (skipWs t3) (by omega) n n' (by omega) (by omega)]
        · rfl
        · rfl

end Verif
