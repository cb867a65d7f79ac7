import Verif.Codec
import Verif.FloatLemmas
/-
Lemmas about the parser: it consumes its input, and the bound on the recursion depth is never reached.
-/
namespace Verif

/-! ### Every parsing function consumes input -/

theorem skipWs_length (s : Bytes) : (skipWs s).length ≤ s.length := by
  induction s with
  | nil => exact Nat.le_refl _
  | cons c r ih =>
    simp only [skipWs]
    split
    · simp only [List.length_cons]; omega
    · exact Nat.le_refl _

theorem skipWs_skipWs (s : Bytes) : skipWs (skipWs s) = skipWs s := by
  induction s with
  | nil => rfl
  | cons c r ih =>
    simp only [skipWs]
    split
    · exact ih
    · rename_i h; simp only [skipWs, h]; rfl

theorem skipWs_head {s : Bytes} {c : UInt8} {r : Bytes} (h : skipWs s = c :: r) : isWs c = false := by
  induction s with
  | nil => simp [skipWs] at h
  | cons d s ih =>
    simp only [skipWs] at h
    split at h
    · exact ih h
    · rename_i hd; cases h; simpa using hd

theorem skipWs_of_not {c : UInt8} {r : Bytes} (h : isWs c = false) : skipWs (c :: r) = c :: r := by
  simp [skipWs, h]

theorem expect_length {ch : UInt8} {s r : Bytes} (h : expect ch s = some r) : r.length < s.length := by
  unfold expect at h
  have := skipWs_length s
  split at h
  · cases h
  · rename_i heq
    split at h
    · cases h; rw [heq, List.length_cons] at this; omega
    · cases h

theorem stringBody_length {s x r : Bytes} (h : stringBody s = some (x, r)) : r.length < s.length := by
  fun_induction stringBody s generalizing x r with
  | case1 => cases h
  | case2 => cases h
  | case3 => simp_all
  | case4 => simp_all
  | case5 e r' c hc s rest hs ih =>
    simp only [Option.some.injEq, Prod.mk.injEq] at h
    have := ih hs
    simp only [List.length_cons, ← h.2]; omega
  | case6 => simp_all
  | case7 => simp_all
  | case8 c r' _ _ hc s rest hs ih =>
    simp only [Option.some.injEq, Prod.mk.injEq] at h
    have := ih hs
    simp only [List.length_cons, ← h.2]; omega

theorem parseString_length {s x r : Bytes} (h : parseString s = some (x, r)) : r.length < s.length := by
  unfold parseString at h
  split at h
  · cases h
  · rename_i heq
    have := expect_length heq
    have := stringBody_length h
    omega

theorem spanDigits_eq (s : Bytes) : (spanDigits s).1 ++ (spanDigits s).2 = s := by
  induction s with
  | nil => rfl
  | cons c r ih =>
    simp only [spanDigits]
    split
    · simp [ih]
    · rfl

theorem spanDigits_all (s : Bytes) : (spanDigits s).1.all isDigit = true := by
  induction s with
  | nil => rfl
  | cons c r ih =>
    simp only [spanDigits]
    split
    · rename_i h; simp [ih, h]
    · rfl

theorem spanDigits_stop (s : Bytes) : ∀ c r, (spanDigits s).2 = c :: r → isDigit c = false := by
  induction s with
  | nil => intro c r h; simp [spanDigits] at h
  | cons d s ih =>
    intro c r h
    simp only [spanDigits] at h
    split at h
    · exact ih c r h
    · rename_i hd; cases h; simpa using hd

theorem spanDigits_length (s : Bytes) : (spanDigits s).1.length + (spanDigits s).2.length = s.length := by
  rw [← List.length_append, spanDigits_eq]

theorem fraction_length (s : Bytes) : (fraction s).1.length + (fraction s).2.length ≤ s.length := by
  unfold fraction
  split
  · rename_i r; have := spanDigits_length r; simp only [List.length_cons]; omega
  · simp

theorem parseNumber_length {s r : Bytes} {f : F64} (h : parseNumber s = some (f, r)) : r.length < s.length := by
  unfold parseNumber at h
  dsimp only at h
  generalize hs' : (if (s.head? == some 45) = true then s.tail else s) = s' at h
  have hl : s'.length ≤ s.length := by
    rw [← hs']; split
    · rw [List.length_tail]; omega
    · exact Nat.le_refl _
  have h1 := spanDigits_length s'
  have h2 := fraction_length (spanDigits s').2
  split at h
  · cases h
  · rename_i heq
    simp only [Option.some.injEq, Prod.mk.injEq] at h
    have hne : ¬ ((spanDigits s').1 = [] ∧ (fraction (spanDigits s').2).1 = []) := by
      intro hc; simp [parseFloat, hc] at heq
    rw [← h.2]
    rcases Nat.eq_zero_or_pos (spanDigits s').1.length with h0 | h0
    · have : 0 < (fraction (spanDigits s').2).1.length := by
        rcases Nat.eq_zero_or_pos (fraction (spanDigits s').2).1.length with h3 | h3
        · exact absurd ⟨List.length_eq_zero_iff.1 h0, List.length_eq_zero_iff.1 h3⟩ hne
        · exact h3
      omega
    · omega

theorem parsePrim_length {s r : Bytes} {p : Prim} (h : parsePrim s = some (p, r)) : r.length < s.length := by
  unfold parsePrim at h
  have hw := skipWs_length s
  split at h
  · cases h
  · rename_i heq
    rw [heq] at hw
    split at h
    · split at h
      · cases h
      · rename_i h1
        simp only [Option.some.injEq, Prod.mk.injEq] at h
        have := parseString_length h1
        rw [← h.2]; omega
    · split at h
      · split at h
        · cases h
        · rename_i h1
          simp only [Option.some.injEq, Prod.mk.injEq] at h
          have := parseNumber_length h1
          rw [← h.2]; omega
      · cases h

theorem parseTs_length {s r : Bytes} {ts : Int} (h : parseTs s = some (ts, r)) : r.length < s.length := by
  unfold parseTs at h
  split at h
  · cases h
  · rename_i r' heq
    have h1 := expect_length heq
    split at h
    · simp only [Option.some.injEq, Prod.mk.injEq] at h
      simp only [List.length_cons] at h1
      rw [← h.2]; omega
    · dsimp only at h
      split at h
      · cases h
      · split at h
        · cases h
        · have h2 := spanDigits_length r'
          split at h
          · cases h
          · rename_i h3
            have h4 := expect_length h3
            simp only [Option.some.injEq, Prod.mk.injEq] at h
            rw [← h.2]; omega

theorem suffixTs_length {s r : Bytes} {p : Prim} {v : Tson} (h : suffixTs p s = .ok v r) : r.length ≤ s.length := by
  unfold suffixTs at h
  have hw := skipWs_length s
  split at h
  · rename_i heq
    rw [heq] at hw
    split at h
    · cases h
    · rename_i h1
      have := parseTs_length h1
      cases h; omega
  · cases h; exact hw

theorem prefixTs_length {s r : Bytes} {ts : Int} (h : prefixTs s = some (ts, r)) : r.length ≤ s.length := by
  unfold prefixTs at h
  have hw := skipWs_length s
  split at h
  · rename_i heq
    rw [heq] at hw
    have := parseTs_length h
    omega
  · cases h; exact hw

theorem hasPrefix_length {s p : Bytes} (h : hasPrefix s p = true) : p.length ≤ s.length :=
  (List.isPrefixOf_iff_prefix.1 h).length_le

theorem parseWord_length {s r : Bytes} {v : Tson} (h : parseWord s = .ok v r) : r.length < s.length := by
  unfold parseWord at h
  split at h
  · rename_i hp
    have h1 := hasPrefix_length hp
    have := suffixTs_length h
    rw [List.length_drop] at this
    simp only [List.length_cons, List.length_nil] at h1
    omega
  · split at h
    · rename_i hp
      have h1 := hasPrefix_length hp
      have := suffixTs_length h
      rw [List.length_drop] at this
      simp only [List.length_cons, List.length_nil] at h1
      omega
    · split at h
      · rename_i hp
        have h1 := hasPrefix_length hp
        cases h
        rw [List.length_drop]
        simp only [List.length_cons, List.length_nil] at h1
        omega
      · cases h

/-- A parsing function that consumes input. -/
def Shrinks (p : Bytes → PRes Tson) : Prop := ∀ s v r, p s = .ok v r → r.length < s.length

theorem afterItem_shrinks {close : UInt8} {next : Bytes → PRes Tson} {done : Tson} (h : Shrinks next) :
    Shrinks (afterItem close next done) := by
  intro s v r hr
  unfold afterItem at hr
  have hw := skipWs_length s
  split at hr
  · cases hr
  · rename_i heq
    rw [heq, List.length_cons] at hw
    split at hr
    · have := h _ _ _ hr; omega
    · split at hr
      · cases hr; omega
      · cases hr

theorem valStep_shrinks {pm : List (Bytes × Tson) → Bytes → PRes Tson} {pe : List Tson → Bytes → PRes Tson}
    (hm : ∀ m, Shrinks (pm m)) (he : ∀ l, Shrinks (pe l)) : Shrinks (valStep pm pe) := by
  intro s v r h
  unfold valStep at h
  have hw := skipWs_length s
  split at h
  · cases h
  · rename_i c r' heq
    rw [heq] at hw
    have hw2 := skipWs_length r'
    simp only [List.length_cons] at hw
    split at h
    · split at h
      · cases h
      · rename_i r1 h1
        have h2 := parseTs_length h1
        simp only [List.length_cons] at h2
        split at h
        · cases h
        · rename_i h3
          have h4 := parsePrim_length h3
          have h5 := skipWs_length r1
          cases h; omega
    · split at h
      · split at h
        · rename_i h1
          rw [h1, List.length_cons] at hw2
          cases h; omega
        · have := hm _ _ _ _ h; omega
      · split at h
        · split at h
          · rename_i h1
            rw [h1, List.length_cons] at hw2
            cases h; omega
          · have := he _ _ _ _ h; omega
        · split at h
          · split at h
            · cases h
            · rename_i h1
              have h2 := parsePrim_length h1
              simp only [List.length_cons] at h2
              have := suffixTs_length h
              omega
          · have := parseWord_length h
            simp only [List.length_cons] at this; omega

theorem memStep_shrinks {pv : Bytes → PRes Tson} {pm : List (Bytes × Tson) → Bytes → PRes Tson}
    (hv : Shrinks pv) (hm : ∀ m, Shrinks (pm m)) (m : List (Bytes × Tson)) : Shrinks (memStep pv pm m) := by
  intro s v r h
  unfold memStep at h
  have hw := skipWs_length s
  split at h
  · cases h
  · rename_i h1
    have l1 := parseString_length h1
    split at h
    · cases h
    · rename_i h2
      have l2 := prefixTs_length h2
      split at h
      · cases h
      · rename_i r3 h3
        have l3 := expect_length h3
        have l4 := skipWs_length r3
        split at h
        · cases h
        · cases h
        · cases h
        · rename_i h5
          have l5 := hv _ _ _ h5
          split at h
          · cases h
          · have := afterItem_shrinks (hm _) _ _ _ h; omega

theorem elemStep_shrinks {pv : Bytes → PRes Tson} {pe : List Tson → Bytes → PRes Tson}
    (hv : Shrinks pv) (he : ∀ l, Shrinks (pe l)) (l : List Tson) : Shrinks (elemStep pv pe l) := by
  intro s v r h
  unfold elemStep at h
  split at h
  · cases h
  · rename_i h1
    have l1 := prefixTs_length h1
    split at h
    · cases h
    · cases h
    · cases h
    · rename_i h5
      have l5 := hv _ _ _ h5
      split at h
      · cases h
      · have := afterItem_shrinks (he _) _ _ _ h; omega

theorem parse_shrinks (n : Nat) : Shrinks (parseVal n) ∧ (∀ m, Shrinks (parseMembers n m)) ∧
    ∀ l, Shrinks (parseElems n l) := by
  induction n with
  | zero =>
    refine ⟨fun s v r h => ?_, fun m s v r h => ?_, fun l s v r h => ?_⟩
    · simp [parseVal] at h
    · simp [parseMembers] at h
    · simp [parseElems] at h
  | succ n ih =>
    obtain ⟨hv, hm, he⟩ := ih
    refine ⟨?_, ?_, ?_⟩
    · rw [parseVal]; exact valStep_shrinks hm he
    · intro m; rw [parseMembers]; exact memStep_shrinks hv hm m
    · intro l; rw [parseElems]; exact elemStep_shrinks hv he l

/-! ### The bound on the recursion depth -/

theorem afterItem_congr {close : UInt8} {f g : Bytes → PRes Tson} {done : Tson} {s : Bytes}
    (h : ∀ r, r.length < s.length → f r = g r) : afterItem close f done s = afterItem close g done s := by
  unfold afterItem
  have hw := skipWs_length s
  split
  · rfl
  · rename_i heq
    rw [heq, List.length_cons] at hw
    rw [h _ (by omega)]

theorem valStep_congr {pm pm' : List (Bytes × Tson) → Bytes → PRes Tson} {pe pe' : List Tson → Bytes → PRes Tson}
    {s : Bytes} (hm : ∀ m r, r.length < s.length → pm m r = pm' m r)
    (he : ∀ l r, r.length < s.length → pe l r = pe' l r) : valStep pm pe s = valStep pm' pe' s := by
  unfold valStep
  have hw := skipWs_length s
  split
  · rfl
  · rename_i c r heq
    rw [heq, List.length_cons] at hw
    have hw2 := skipWs_length r
    by_cases h1 : c = 60
    · simp only [if_pos h1]
    · simp only [if_neg h1]
      by_cases h2 : c = 123
      · simp only [if_pos h2]
        split
        · rfl
        · exact hm _ _ (by omega)
      · simp only [if_neg h2]
        by_cases h3 : c = 91
        · simp only [if_pos h3]
          split
          · rfl
          · exact he _ _ (by omega)
        · simp only [if_neg h3]

theorem memStep_congr {pv pv' : Bytes → PRes Tson} {pm pm' : List (Bytes × Tson) → Bytes → PRes Tson}
    {m : List (Bytes × Tson)} {s : Bytes} (hs : Shrinks pv) (hv : ∀ r, r.length < s.length → pv r = pv' r)
    (hm : ∀ m r, r.length < s.length → pm m r = pm' m r) : memStep pv pm m s = memStep pv' pm' m s := by
  unfold memStep
  have hw := skipWs_length s
  split
  · rfl
  · rename_i h1
    have l1 := parseString_length h1
    split
    · rfl
    · rename_i h2
      have l2 := prefixTs_length h2
      split
      · rfl
      · rename_i r3 h3
        have l3 := expect_length h3
        have l4 := skipWs_length r3
        rw [← hv _ (by omega)]
        split
        · rfl
        · rfl
        · rfl
        · rename_i h5
          have l5 := hs _ _ _ h5
          split
          · rfl
          · exact afterItem_congr fun r hr => hm _ _ (by omega)

theorem elemStep_congr {pv pv' : Bytes → PRes Tson} {pe pe' : List Tson → Bytes → PRes Tson}
    {l : List Tson} {s : Bytes} (hs : Shrinks pv) (hv : ∀ r, r.length ≤ s.length → pv r = pv' r)
    (he : ∀ l r, r.length < s.length → pe l r = pe' l r) : elemStep pv pe l s = elemStep pv' pe' l s := by
  unfold elemStep
  split
  · rfl
  · rename_i h1
    have l1 := prefixTs_length h1
    rw [← hv _ (by omega)]
    split
    · rfl
    · rfl
    · rfl
    · rename_i h5
      have l5 := hs _ _ _ h5
      split
      · rfl
      · exact afterItem_congr fun r hr => he _ _ (by omega)

theorem suffixTs_ne_more (p : Prim) (s : Bytes) : suffixTs p s ≠ .more := by
  unfold suffixTs
  split
  · split <;> simp
  · simp

theorem parseWord_ne_more (s : Bytes) : parseWord s ≠ .more := by
  unfold parseWord
  repeat' split
  all_goals first | exact suffixTs_ne_more _ _ | simp

theorem afterItem_ne_more {close : UInt8} {f : Bytes → PRes Tson} {done : Tson} {s : Bytes}
    (h : ∀ r, r.length < s.length → f r ≠ .more) : afterItem close f done s ≠ .more := by
  unfold afterItem
  have hw := skipWs_length s
  split
  · simp
  · rename_i heq
    rw [heq, List.length_cons] at hw
    split
    · exact h _ (by omega)
    · split <;> simp

theorem valStep_ne_more {pm : List (Bytes × Tson) → Bytes → PRes Tson} {pe : List Tson → Bytes → PRes Tson}
    {s : Bytes} (hm : ∀ m r, r.length < s.length → pm m r ≠ .more)
    (he : ∀ l r, r.length < s.length → pe l r ≠ .more) : valStep pm pe s ≠ .more := by
  unfold valStep
  have hw := skipWs_length s
  split
  · simp
  · rename_i c r heq
    rw [heq, List.length_cons] at hw
    have hw2 := skipWs_length r
    repeat' split
    all_goals first | exact hm _ _ (by omega) | exact he _ _ (by omega) | exact suffixTs_ne_more _ _ |
      exact parseWord_ne_more _ | simp

theorem memStep_ne_more {pv : Bytes → PRes Tson} {pm : List (Bytes × Tson) → Bytes → PRes Tson}
    {m : List (Bytes × Tson)} {s : Bytes} (hs : Shrinks pv) (hv : ∀ r, r.length < s.length → pv r ≠ .more)
    (hm : ∀ m r, r.length < s.length → pm m r ≠ .more) : memStep pv pm m s ≠ .more := by
  unfold memStep
  have hw := skipWs_length s
  split
  · simp
  · rename_i h1
    have l1 := parseString_length h1
    split
    · simp
    · rename_i h2
      have l2 := prefixTs_length h2
      split
      · simp
      · rename_i r3 h3
        have l3 := expect_length h3
        have l4 := skipWs_length r3
        split
        · rename_i h; exact absurd h (hv _ (by omega))
        · simp
        · simp
        · rename_i h5
          have l5 := hs _ _ _ h5
          split
          · simp
          · exact afterItem_ne_more fun r hr => hm _ _ (by omega)

theorem elemStep_ne_more {pv : Bytes → PRes Tson} {pe : List Tson → Bytes → PRes Tson}
    {l : List Tson} {s : Bytes} (hs : Shrinks pv) (hv : ∀ r, r.length ≤ s.length → pv r ≠ .more)
    (he : ∀ l r, r.length < s.length → pe l r ≠ .more) : elemStep pv pe l s ≠ .more := by
  unfold elemStep
  split
  · simp
  · rename_i h1
    have l1 := prefixTs_length h1
    split
    · rename_i h; exact absurd h (hv _ (by omega))
    · simp
    · simp
    · rename_i h5
      have l5 := hs _ _ _ h5
      split
      · simp
      · exact afterItem_ne_more fun r hr => he _ _ (by omega)

/-- Enough depth for the length of the input: the bound is not reached, and more depth changes nothing. -/
theorem parse_stable (n : Nat) :
    (∀ s, 2 * s.length < n → parseVal n s ≠ .more ∧ parseVal (n + 1) s = parseVal n s) ∧
    (∀ m s, 2 * s.length + 1 < n → parseMembers n m s ≠ .more ∧ parseMembers (n + 1) m s = parseMembers n m s) ∧
    (∀ l s, 2 * s.length + 1 < n → parseElems n l s ≠ .more ∧ parseElems (n + 1) l s = parseElems n l s) := by
  induction n with
  | zero => exact ⟨fun s h => by omega, fun m s h => by omega, fun l s h => by omega⟩
  | succ n ih =>
    obtain ⟨hv, hm, he⟩ := ih
    obtain ⟨sv, sm, se⟩ := parse_shrinks n
    obtain ⟨sv', -, -⟩ := parse_shrinks (n + 1)
    refine ⟨fun s h => ⟨?_, ?_⟩, fun m s h => ⟨?_, ?_⟩, fun l s h => ⟨?_, ?_⟩⟩
    · rw [parseVal]
      exact valStep_ne_more (fun m r hr => (hm m r (by omega)).1) (fun l r hr => (he l r (by omega)).1)
    · rw [parseVal, parseVal]
      exact valStep_congr (fun m r hr => (hm m r (by omega)).2) (fun l r hr => (he l r (by omega)).2)
    · rw [parseMembers]
      exact memStep_ne_more sv (fun r hr => (hv r (by omega)).1) (fun m r hr => (hm m r (by omega)).1)
    · rw [parseMembers, parseMembers]
      exact memStep_congr sv' (fun r hr => (hv r (by omega)).2) (fun m r hr => (hm m r (by omega)).2)
    · rw [parseElems]
      exact elemStep_ne_more sv (fun r hr => (hv r (by omega)).1) (fun l r hr => (he l r (by omega)).1)
    · rw [parseElems, parseElems]
      exact elemStep_congr sv' (fun r hr => (hv r (by omega)).2) (fun l r hr => (he l r (by omega)).2)

/-- `parseVal` with enough depth. -/
def pVal (s : Bytes) : PRes Tson := parseVal (2 * s.length + 1) s
/-- The loop of `parseObject` with enough depth. -/
def pMembers (m : List (Bytes × Tson)) (s : Bytes) : PRes Tson := parseMembers (2 * s.length + 2) m s
/-- The loop of `parseArray` with enough depth. -/
def pElems (l : List Tson) (s : Bytes) : PRes Tson := parseElems (2 * s.length + 2) l s

theorem parseVal_eq {n : Nat} {s : Bytes} (h : 2 * s.length < n) : parseVal n s = pVal s := by
  obtain ⟨d, rfl⟩ : ∃ d, n = 2 * s.length + 1 + d := ⟨n - (2 * s.length + 1), by omega⟩
  clear h
  induction d with
  | zero => rfl
  | succ d ih => rw [← ih, ← Nat.add_assoc]; exact ((parse_stable _).1 s (by omega)).2

theorem parseMembers_eq {n : Nat} {m : List (Bytes × Tson)} {s : Bytes} (h : 2 * s.length + 1 < n) :
    parseMembers n m s = pMembers m s := by
  obtain ⟨d, rfl⟩ : ∃ d, n = 2 * s.length + 2 + d := ⟨n - (2 * s.length + 2), by omega⟩
  clear h
  induction d with
  | zero => rfl
  | succ d ih => rw [← ih, ← Nat.add_assoc]; exact ((parse_stable _).2.1 m s (by omega)).2

theorem parseElems_eq {n : Nat} {l : List Tson} {s : Bytes} (h : 2 * s.length + 1 < n) :
    parseElems n l s = pElems l s := by
  obtain ⟨d, rfl⟩ : ∃ d, n = 2 * s.length + 2 + d := ⟨n - (2 * s.length + 2), by omega⟩
  clear h
  induction d with
  | zero => rfl
  | succ d ih => rw [← ih, ← Nat.add_assoc]; exact ((parse_stable _).2.2 l s (by omega)).2

theorem pVal_ne_more (s : Bytes) : pVal s ≠ .more := ((parse_stable _).1 s (by omega)).1
theorem pMembers_ne_more (m : List (Bytes × Tson)) (s : Bytes) : pMembers m s ≠ .more :=
  ((parse_stable _).2.1 m s (by omega)).1
theorem pElems_ne_more (l : List Tson) (s : Bytes) : pElems l s ≠ .more := ((parse_stable _).2.2 l s (by omega)).1

theorem pVal_shrinks : Shrinks pVal := fun s => (parse_shrinks _).1 s

/-- `parseVal` as a recursive function, without the bound. -/
theorem pVal_unfold (s : Bytes) : pVal s = valStep pMembers pElems s := by
  rw [pVal, parseVal]
  exact valStep_congr (fun m r hr => parseMembers_eq (by omega)) (fun l r hr => parseElems_eq (by omega))

theorem pMembers_unfold (m : List (Bytes × Tson)) (s : Bytes) : pMembers m s = memStep pVal pMembers m s := by
  rw [pMembers, parseMembers]
  exact memStep_congr (parse_shrinks _).1 (fun r hr => parseVal_eq (by omega)) (fun m r hr => parseMembers_eq (by omega))

theorem pElems_unfold (l : List Tson) (s : Bytes) : pElems l s = elemStep pVal pElems l s := by
  rw [pElems, parseElems]
  exact elemStep_congr (parse_shrinks _).1 (fun r hr => parseVal_eq (by omega)) (fun l r hr => parseElems_eq (by omega))

theorem skipWs_valStep (pm : List (Bytes × Tson) → Bytes → PRes Tson) (pe : List Tson → Bytes → PRes Tson)
    (s : Bytes) : valStep pm pe (skipWs s) = valStep pm pe s := by
  unfold valStep; rw [skipWs_skipWs]

theorem pVal_skipWs (s : Bytes) : pVal (skipWs s) = pVal s := by
  rw [pVal_unfold, pVal_unfold, skipWs_valStep]

/-- The outcome of `Unmarshal` without the bound on the recursion depth. -/
theorem unmarshal_eq (s : Bytes) : unmarshal s =
    match pVal s with
    | .ok v _ => .ok v
    | .panic => .panic
    | _ => .err := by
  unfold unmarshal
  have h : parseVal (2 * s.length + 1) (skipWs s) = pVal s := by
    rw [parseVal_eq (by have := skipWs_length s; omega), pVal_skipWs]
  rw [h]
  cases pVal s <;> rfl

end Verif
