import Verif.WebPage
/-
C102: what the page of the demo shows.
-/
namespace Verif

/-! ### Escaping -/

/-- One unit, escaped. -/
def esc1 (c : Nat) : Units := if c = 38 then units b!"&amp;" else if c = 60 then units b!"&lt;" else if c = 62 then units b!"&gt;" else [c]

/-- A text, escaped unit by unit. -/
def escU (s : Units) : Units := s.flatMap esc1

theorem escapeHtml_eq (s : Units) : escapeHtml s = escU s := by
  induction s with
  | nil => rfl
  | cons c s ih =>
    unfold escapeHtml escU at *
    rw [List.flatMap_cons, ← ih]
    have : ∀ (c : Nat) (r a b : Units), replUnit c r (a ++ b) = replUnit c r a ++ replUnit c r b := fun c r a b => List.flatMap_append
    have h1 : c :: s = [c] ++ s := rfl
    rw [h1, this, this, this]
    congr 1
    by_cases h38 : c = 38
    · subst h38; decide
    by_cases h60 : c = 60
    · subst h60; decide
    by_cases h62 : c = 62
    · subst h62; decide
    simp [replUnit, esc1, h38, h60, h62]

/-! ### Tokens do not split references -/

/-- The references. -/
def refs : List Units := [units b!"&amp;", units b!"&lt;", units b!"&gt;"]

theorem esc1_cases (c : Nat) : (esc1 c ∈ refs) ∨ (esc1 c = [c] ∧ c ≠ 38 ∧ c ≠ 60 ∧ c ≠ 62) := by
  by_cases h38 : c = 38
  · subst h38; exact .inl (by decide)
  by_cases h60 : c = 60
  · subst h60; exact .inl (by decide)
  by_cases h62 : c = 62
  · subst h62; exact .inl (by decide)
  exact .inr ⟨by simp [esc1, h38, h60, h62], h38, h60, h62⟩

/-- How a token can end. -/
def GoodEnd (m : Units) : Prop := (∃ c, m.getLast? = some c ∧ (c = 34 ∨ c = 58 ∨ c = 101 ∨ digitUnit c = true)) ∨ m = units b!"null"

/-- A cut through an escaped text is a cut through the text, or it is inside a reference. -/
theorem esc_cut : ∀ (s m r : Units), escU s = m ++ r →
    (∃ s1 s2, s = s1 ++ s2 ∧ m = escU s1 ∧ r = escU s2) ∨ ∃ m' p q, m = m' ++ p ∧ p ≠ [] ∧ q ≠ [] ∧ p ++ q ∈ refs
  | [], m, r, h => by
    have := List.append_eq_nil_iff.1 h.symm
    exact .inl ⟨[], [], rfl, this.1, this.2⟩
  | c :: s, m, r, h => by
    have h' : esc1 c ++ escU s = m ++ r := h
    rcases List.append_eq_append_iff.1 h' with ⟨a, e1, e2⟩ | ⟨a, e1, e2⟩
    · rcases esc_cut s a r e2 with ⟨s1, s2, rfl, rfl, rfl⟩ | ⟨m', p, q, rfl, h1, h2, h3⟩
      · exact .inl ⟨c :: s1, s2, rfl, e1, rfl⟩
      · exact .inr ⟨esc1 c ++ m', p, q, by rw [e1, List.append_assoc], h1, h2, h3⟩
    · by_cases ha : a = []
      · subst ha
        exact .inl ⟨[c], s, rfl, by rw [List.append_nil] at e1; rw [← e1]; simp [escU], e2⟩
      by_cases hm : m = []
      · subst hm
        refine .inl ⟨[], c :: s, rfl, rfl, ?_⟩
        simpa using h.symm
      · rcases esc1_cases c with hc | ⟨hc, -⟩
        · exact .inr ⟨[], m, a, rfl, hm, ha, by rw [← e1]; exact hc⟩
        · rw [hc] at e1
          obtain ⟨x, m, rfl⟩ := List.exists_cons_of_ne_nil hm
          obtain ⟨y, a, rfl⟩ := List.exists_cons_of_ne_nil ha
          have := congrArg List.length e1
          simp at this

theorem refs_ends {p q : Units} (h : p ++ q ∈ refs) (hp : p ≠ []) (hq : q ≠ []) :
    p ∈ [units b!"&", units b!"&a", units b!"&am", units b!"&amp", units b!"&l", units b!"&lt", units b!"&g", units b!"&gt"] := by
  have key : ∀ w : Units, w.length ≤ 5 → w = p ++ q → p = w.take p.length ∧ 0 < p.length ∧ p.length < w.length := by
    intro w _ e
    refine ⟨by rw [e]; simp, List.length_pos_iff.2 hp, ?_⟩
    rw [e, List.length_append]
    have := List.length_pos_iff.2 hq
    omega
  simp only [refs, List.mem_cons, List.not_mem_nil, or_false] at h
  rcases h with h | h | h
  all_goals
    obtain ⟨e1, e2, e3⟩ := key _ (by decide) h.symm
    generalize hn : p.length = n at e1 e2 e3
    have e3' : n < 5 := Nat.lt_of_lt_of_le e3 (by decide)
    match n, e2, e3' with
    | 1, _, _ => rw [e1]; decide
    | 2, _, _ => rw [e1]; decide
    | 3, _, _ => rw [e1]; first | decide | exact absurd e3 (by decide)
    | 4, _, _ => rw [e1]; first | decide | exact absurd e3 (by decide)

theorem good_cut {s m r : Units} (h : escU s = m ++ r) (hg : GoodEnd m) : ∃ s1 s2, s = s1 ++ s2 ∧ m = escU s1 ∧ r = escU s2 := by
  rcases esc_cut s m r h with h | ⟨m', p, q, rfl, h1, h2, h3⟩
  · exact h
  · exfalso
    have hp := refs_ends h3 h1 h2
    rcases hg with ⟨c, hc, hg⟩ | hg
    · rw [List.getLast?_append, List.getLast?_eq_some_getLast h1, Option.some_or, ← List.getLast?_eq_some_getLast h1] at hc
      have : ∀ p ∈ [units b!"&", units b!"&a", units b!"&am", units b!"&amp", units b!"&l", units b!"&lt", units b!"&g", units b!"&gt"],
          ∀ c ∈ p.getLast?, ¬ (c = 34 ∨ c = 58 ∨ c = 101 ∨ digitUnit c = true) := by decide
      exact this p hp c hc hg
    · have h38 : 38 ∈ m' ++ p := by
        have : ∀ p ∈ [units b!"&", units b!"&a", units b!"&am", units b!"&amp", units b!"&l", units b!"&lt", units b!"&g", units b!"&gt"], 38 ∈ p := by decide
        exact List.mem_append_right _ (this p hp)
      rw [hg] at h38
      revert h38
      decide

/-! ### Tokens -/

theorem strRest_split : ∀ (n : Nat) (s m r : Units), s.length ≤ n → strRest s = some (m, r) → s = m ++ r ∧ m.getLast? = some 34
  | 0, s, m, r, hn, h => by
    have : s = [] := List.length_eq_zero_iff.1 (by omega)
    subst this
    simp [strRest] at h
  | n + 1, [], m, r, _, h => by simp [strRest] at h
  | n + 1, c :: s, m, r, hn, h => by
    have last : ∀ (x : Nat) (m : Units), m.getLast? = some 34 → (x :: m).getLast? = some 34 := fun x m hm => by
      cases m with
      | nil => cases hm
      | cons y m => rw [List.getLast?_cons_cons]; exact hm
    rw [strRest.eq_def] at h; dsimp only at h
    by_cases h34 : c = 34
    · rw [if_pos h34] at h
      cases h
      subst h34
      exact ⟨rfl, rfl⟩
    rw [if_neg h34] at h
    by_cases h92 : c = 92
    · rw [if_pos h92] at h
      subst h92
      cases s with
      | nil => cases h
      | cons d s =>
        dsimp only at h
        by_cases hd : d = 117
        · rw [if_pos hd] at h
          subst hd
          match s, h with
          | [], h => cases h
          | [_], h => cases h
          | a :: b :: s, h =>
            dsimp only at h
            by_cases ha : (alnumUnit a && alnumUnit b) = true
            · rw [if_pos ha] at h
              cases e : strRest s with
              | none => rw [e] at h; cases h
              | some p =>
                rw [e] at h
                cases h
                obtain ⟨e1, e2⟩ := strRest_split n s p.1 p.2 (by simp at hn; omega) e
                exact ⟨by rw [e1]; rfl, last _ _ (last _ _ (last _ _ (last _ _ e2)))⟩
            · rw [if_neg ha] at h; cases h
        · rw [if_neg hd] at h
          cases e : strRest s with
          | none => rw [e] at h; cases h
          | some p =>
            rw [e] at h
            cases h
            obtain ⟨e1, e2⟩ := strRest_split n s p.1 p.2 (by simp at hn; omega) e
            exact ⟨by rw [e1]; rfl, last _ _ (last _ _ e2)⟩
    · rw [if_neg h92] at h
      cases e : strRest s with
      | none => rw [e] at h; cases h
      | some p =>
        rw [e] at h
        cases h
        obtain ⟨e1, e2⟩ := strRest_split n s p.1 p.2 (by simp at hn; omega) e
        exact ⟨by rw [e1]; rfl, last _ _ e2⟩

theorem colonRest_split (s : Units) : s = (colonRest s).1 ++ (colonRest s).2 ∧ ((colonRest s).1 = [] ∨ (colonRest s).1.getLast? = some 58) := by
  unfold colonRest
  cases e : s.dropWhile spaceUnit with
  | nil => exact ⟨rfl, .inl rfl⟩
  | cons c r =>
    dsimp only
    by_cases hc : c = 58
    · rw [if_pos hc]
      subst hc
      refine ⟨?_, .inr (by simp)⟩
      have := List.takeWhile_append_dropWhile (p := spaceUnit) (l := s)
      rw [e] at this
      simpa using this.symm
    · rw [if_neg hc]
      exact ⟨rfl, .inl rfl⟩

/-- A part of a number: it ends in a digit. -/
def DigitEnd (d : Units) : Prop := ∃ c, d.getLast? = some c ∧ digitUnit c = true

theorem DigitEnd.append {a d : Units} (h : DigitEnd d) : DigitEnd (a ++ d) := by
  obtain ⟨c, h1, h2⟩ := h
  exact ⟨c, by rw [List.getLast?_append, h1, Option.some_or], h2⟩

theorem digitsAt_split {s d r : Units} (h : digitsAt s = some (d, r)) : s = d ++ r ∧ DigitEnd d := by
  unfold digitsAt at h
  by_cases e : s.takeWhile digitUnit = []
  · rw [if_pos e] at h; cases h
  · rw [if_neg e] at h
    cases h
    refine ⟨List.takeWhile_append_dropWhile.symm, _, List.getLast?_eq_some_getLast e, ?_⟩
    exact List.all_eq_true.1 (List.all_takeWhile (p := digitUnit) (l := s)) _ (List.getLast_mem e)

theorem fracAt_split (s : Units) : s = (fracAt s).1 ++ (fracAt s).2 ∧ ((fracAt s).1 = [] ∨ DigitEnd (fracAt s).1) := by
  unfold fracAt
  cases s with
  | nil => exact ⟨rfl, .inl rfl⟩
  | cons c r =>
    dsimp only
    by_cases hc : c = 46
    · rw [if_pos hc]
      cases e : digitsAt r with
      | none => exact ⟨rfl, .inl rfl⟩
      | some p =>
        obtain ⟨e1, e2⟩ := digitsAt_split (d := p.1) (r := p.2) e
        exact ⟨by subst hc; dsimp only; rw [List.cons_append, ← e1], .inr (e2.append (a := [46]))⟩
    · rw [if_neg hc]
      exact ⟨rfl, .inl rfl⟩

theorem expAt_split (s : Units) : s = (expAt s).1 ++ (expAt s).2 ∧ ((expAt s).1 = [] ∨ DigitEnd (expAt s).1) := by
  unfold expAt
  cases s with
  | nil => exact ⟨rfl, .inl rfl⟩
  | cons c r =>
    dsimp only
    by_cases hc : c = 101 ∨ c = 69
    · rw [if_pos hc]
      cases r with
      | nil => exact ⟨rfl, .inl rfl⟩
      | cons d r' =>
        dsimp only
        by_cases hd : d = 43 ∨ d = 45
        · rw [if_pos hd]
          cases e : digitsAt r' with
          | none => exact ⟨rfl, .inl rfl⟩
          | some p =>
            obtain ⟨e1, e2⟩ := digitsAt_split (d := p.1) (r := p.2) e
            exact ⟨by dsimp only; rw [List.cons_append, List.cons_append, ← e1], .inr (e2.append (a := [c, d]))⟩
        · rw [if_neg hd]
          cases e : digitsAt (d :: r') with
          | none => exact ⟨rfl, .inl rfl⟩
          | some p =>
            obtain ⟨e1, e2⟩ := digitsAt_split (d := p.1) (r := p.2) e
            exact ⟨by dsimp only; rw [List.cons_append, ← e1], .inr (e2.append (a := [c]))⟩
    · rw [if_neg hc]
      exact ⟨rfl, .inl rfl⟩

theorem numberAt_split {s m r : Units} (h : numberAt s = some (m, r)) : s = m ++ r ∧ DigitEnd m := by
  unfold numberAt at h
  dsimp only at h
  have hs : s = (if s.head? = some 45 then [45] else []) ++ s.drop (if s.head? = some 45 then [45] else [] : Units).length := by
    by_cases h45 : s.head? = some 45
    · rw [if_pos h45]
      cases s with
      | nil => cases h45
      | cons c s => cases h45; rfl
    · rw [if_neg h45]; rfl
  cases e : digitsAt (s.drop (if s.head? = some 45 then [45] else [] : Units).length) with
  | none => rw [e] at h; cases h
  | some p =>
    rw [e] at h
    cases h
    obtain ⟨e1, e2⟩ := digitsAt_split (d := p.1) (r := p.2) e
    obtain ⟨f1, f2⟩ := fracAt_split p.2
    obtain ⟨g1, g2⟩ := expAt_split (fracAt p.2).2
    refine ⟨?_, ?_⟩
    · rw [e1] at hs
      refine hs.trans ?_
      rw [List.append_assoc, List.append_assoc, List.append_assoc, ← g1, ← f1]
    · rcases g2 with g2 | g2
      · rw [g2, List.append_nil]
        rcases f2 with f2 | f2
        · rw [f2, List.append_nil]
          exact e2.append
        · exact f2.append
      · exact g2.append

theorem wordAt_split {w s m r : Units} (h : wordAt w s = some (m, r)) : s = m ++ r ∧ m = w := by
  unfold wordAt at h
  by_cases e : w.isPrefixOf s = true
  · rw [if_pos e] at h
    cases h
    obtain ⟨t, rfl⟩ := List.isPrefixOf_iff_prefix.1 e
    exact ⟨by simp, rfl⟩
  · rw [if_neg e] at h; cases h

theorem tokenAt_split {s m r : Units} (h : tokenAt s = some (m, r)) : s = m ++ r ∧ GoodEnd m ∧ m ≠ [] := by
  unfold tokenAt at h
  cases s with
  | nil => cases h
  | cons c s =>
    dsimp only at h
    by_cases h34 : c = 34
    · rw [if_pos h34] at h
      cases e : strRest s with
      | none => rw [e] at h; cases h
      | some p =>
        rw [e] at h
        cases h
        obtain ⟨e1, e2⟩ := strRest_split s.length s p.1 p.2 (Nat.le_refl _) e
        obtain ⟨f1, f2⟩ := colonRest_split p.2
        refine ⟨?_, .inl ?_, by simp⟩
        · rw [e1, h34, List.cons_append, List.append_assoc, ← f1]
        · have : ∀ (x : Units) (c : Nat), x.getLast? = some c → (34 :: x).getLast? = some c := fun x c hx => by
            cases x with
            | nil => cases hx
            | cons y x => rw [List.getLast?_cons_cons]; exact hx
          rcases f2 with f2 | f2
          · exact ⟨34, this _ _ (by rw [f2, List.append_nil, e2]), .inl rfl⟩
          · exact ⟨58, this _ _ (by rw [List.getLast?_append, f2, Option.some_or]), .inr (.inl rfl)⟩
    · rw [if_neg h34] at h
      rw [Option.or_eq_some_iff, Option.or_eq_some_iff, Option.or_eq_some_iff] at h
      have done : ∀ w : Units, GoodEnd w → w ≠ [] → wordAt w (c :: s) = some (m, r) → c :: s = m ++ r ∧ GoodEnd m ∧ m ≠ [] := by
        intro w h1 h2 h
        obtain ⟨e1, rfl⟩ := wordAt_split h
        exact ⟨e1, h1, h2⟩
      rcases h with (h | ⟨-, h⟩) | ⟨-, h | ⟨-, h⟩⟩
      · exact done _ (.inl ⟨101, by decide, by decide⟩) (by decide) h
      · exact done _ (.inl ⟨101, by decide, by decide⟩) (by decide) h
      · exact done _ (.inr rfl) (by decide) h
      · obtain ⟨e1, d, e2, e3⟩ := numberAt_split h
        exact ⟨e1, .inl ⟨d, e2, .inr (.inr (.inr e3))⟩, by rintro rfl; cases e2⟩

theorem noToken {c : Nat} (h : c ∉ [34, 116, 102, 110, 45]) (hd : digitUnit c = false) (r : Units) : tokenAt (c :: r) = none := by
  simp only [List.mem_cons, List.not_mem_nil, or_false, not_or] at h
  obtain ⟨h1, h2, h3, h4, h5⟩ := h
  have hw : ∀ (x : Nat) (w : Units), c ≠ x → wordAt (x :: w) (c :: r) = none := by
    intro x w hx
    unfold wordAt
    rw [if_neg]
    rw [List.isPrefixOf]
    simp [Ne.symm hx]
  have hn : numberAt (c :: r) = none := by
    unfold numberAt
    rw [List.head?_cons, if_neg (by simp [h5])]
    simp [digitsAt, hd]
  unfold tokenAt
  dsimp only
  rw [if_neg h1, hn]
  have e1 := hw 116 (units b!"rue") h2
  have e2 := hw 102 (units b!"alse") h3
  have e3 := hw 110 (units b!"ull") h4
  have u1 : units b!"true" = 116 :: units b!"rue" := rfl
  have u2 : units b!"false" = 102 :: units b!"alse" := rfl
  have u3 : units b!"null" = 110 :: units b!"ull" := rfl
  rw [u1, u2, u3, e1, e2, e3]
  rfl

theorem noToken_t (r : Units) : tokenAt (116 :: 59 :: r) = none := by
  have e1 : wordAt (units b!"true") (116 :: 59 :: r) = none := rfl
  have e2 : wordAt (units b!"false") (116 :: 59 :: r) = none := rfl
  have e3 : wordAt (units b!"null") (116 :: 59 :: r) = none := rfl
  have e4 : numberAt (116 :: 59 :: r) = none := rfl
  unfold tokenAt
  dsimp only
  rw [e1, e2, e3, e4]
  rfl

theorem colour_skip {n c : Nat} {r : Units} (h : tokenAt (c :: r) = none) : colour (n + 1) (c :: r) = c :: colour n r := by
  rw [colour, h]

theorem colour_ref {w : Units} (hw : w ∈ refs) (n : Nat) (r : Units) : colour (n + w.length) (w ++ r) = w ++ colour n r := by
  simp only [refs, List.mem_cons, List.not_mem_nil, or_false] at hw
  rcases hw with rfl | rfl | rfl
  · show colour (n + 1 + 1 + 1 + 1 + 1) (38 :: 97 :: 109 :: 112 :: 59 :: r) = 38 :: 97 :: 109 :: 112 :: 59 :: colour n r
    rw [colour_skip (noToken (by decide) (by decide) _), colour_skip (noToken (by decide) (by decide) _), colour_skip (noToken (by decide) (by decide) _),
      colour_skip (noToken (by decide) (by decide) _), colour_skip (noToken (by decide) (by decide) _)]
  · show colour (n + 1 + 1 + 1 + 1) (38 :: 108 :: 116 :: 59 :: r) = 38 :: 108 :: 116 :: 59 :: colour n r
    rw [colour_skip (noToken (by decide) (by decide) _), colour_skip (noToken (by decide) (by decide) _), colour_skip (noToken_t _),
      colour_skip (noToken (by decide) (by decide) _)]
  · show colour (n + 1 + 1 + 1 + 1) (38 :: 103 :: 116 :: 59 :: r) = 38 :: 103 :: 116 :: 59 :: colour n r
    rw [colour_skip (noToken (by decide) (by decide) _), colour_skip (noToken (by decide) (by decide) _), colour_skip (noToken_t _),
      colour_skip (noToken (by decide) (by decide) _)]

/-! ### What is shown -/

theorem shown_unit (c : Nat) (i : Bool) (h : Units) (n : Nat) : shown (n + 1) i (esc1 c ++ h) = (shown n i h).map (c :: ·) := by
  by_cases h38 : c = 38
  · subst h38; rfl
  by_cases h60 : c = 60
  · subst h60; rfl
  by_cases h62 : c = 62
  · subst h62; rfl
  have : esc1 c = [c] := by simp [esc1, h38, h60, h62]
  rw [this, List.singleton_append, shown, if_neg h60, if_neg h38]

theorem shown_esc (i : Bool) (h : Units) : ∀ (s : Units) (n : Nat), (escU s ++ h).length < n →
    ∃ k, h.length < k ∧ shown n i (escU s ++ h) = (shown k i h).map (s ++ ·)
  | [], n, hn => ⟨n, by simpa [escU] using hn, by cases e : shown n i h <;> simp [escU, e]⟩
  | c :: s, n, hn => by
    have hs : escU (c :: s) = esc1 c ++ escU s := by simp [escU]
    have hl : 1 ≤ (esc1 c).length := by
      rcases esc1_cases c with h | ⟨h, -⟩
      · revert h; generalize esc1 c = w; revert w; decide
      · simp [h]
    rw [hs, List.append_assoc] at hn ⊢
    rw [List.length_append] at hn
    obtain ⟨n, rfl⟩ : ∃ m, n = m + 1 := ⟨n - 1, by omega⟩
    obtain ⟨k, hk, e⟩ := shown_esc i h s n (by omega)
    refine ⟨k, hk, ?_⟩
    rw [shown_unit, e]
    cases shown k i h <;> rfl

theorem tokenClass_mem (m : Units) : tokenClass m ∈ classes := by
  unfold tokenClass
  split
  · split <;> decide
  · split
    · decide
    · split <;> decide

theorem shown_open {cls : Units} (hc : cls ∈ classes) (n : Nat) (h : Units) : shown (n + 1) false (openTag cls ++ h) = shown n true h := by
  simp only [classes, List.mem_cons, List.not_mem_nil, or_false] at hc
  rcases hc with rfl | rfl | rfl | rfl | rfl <;> rfl

theorem shown_close (n : Nat) (h : Units) : shown (n + 1) true (units b!"</span>" ++ h) = shown n false h := rfl

theorem colour_shown : ∀ (l : Nat) (s : Units), s.length ≤ l → ∀ n, (escU s).length ≤ n → ∀ k, (colour n (escU s)).length < k →
    shown k false (colour n (escU s)) = some s
  | _, [], _, n, _, k, hk => by
    have e : colour n (escU []) = [] := by cases n <;> rfl
    rw [e] at hk ⊢
    obtain ⟨k, rfl⟩ : ∃ m, k = m + 1 := ⟨k - 1, by omega⟩
    rfl
  | 0, _ :: _, hl, _, _, _, _ => by simp at hl
  | l + 1, c :: s, hl, n, hn, k, hk => by
    have hs : escU (c :: s) = esc1 c ++ escU s := by simp [escU]
    rcases esc1_cases c with hc | ⟨hc, h38, h60, h62⟩
    · rw [hs] at hn hk ⊢
      rw [List.length_append] at hn
      obtain ⟨n, rfl⟩ : ∃ m, n = m + (esc1 c).length := ⟨n - (esc1 c).length, by omega⟩
      rw [colour_ref hc] at hk ⊢
      rw [List.length_append] at hk
      have h1 : 1 ≤ (esc1 c).length := by revert hc; generalize esc1 c = w; revert w; decide
      obtain ⟨k, rfl⟩ : ∃ m, k = m + 1 := ⟨k - 1, by omega⟩
      rw [shown_unit, colour_shown l s (by simpa using hl) n (by omega) k (by omega)]
      rfl
    · cases e : tokenAt (escU (c :: s)) with
      | none =>
        rw [hs, hc, List.singleton_append] at e hn hk ⊢
        rw [List.length_cons] at hn
        obtain ⟨n, rfl⟩ : ∃ m, n = m + 1 := ⟨n - 1, by omega⟩
        rw [colour_skip e] at hk ⊢
        rw [List.length_cons] at hk
        obtain ⟨k, rfl⟩ : ∃ m, k = m + 1 := ⟨k - 1, by omega⟩
        have := shown_unit c false (colour n (escU s)) k
        rw [hc, List.singleton_append] at this
        rw [this, colour_shown l s (by simpa using hl) n (by omega) k (by omega)]
        rfl
      | some p =>
        obtain ⟨m, r⟩ := p
        obtain ⟨e1, e2, e3⟩ := tokenAt_split e
        obtain ⟨s1, s2, f1, f2, f3⟩ := good_cut e1 e2
        have hs1 : 1 ≤ s1.length := by
          cases s1 with
          | nil => exact absurd (by rw [f2]; rfl) e3
          | cons => simp
        have hm : 1 ≤ m.length := List.length_pos_iff.2 e3
        have hlen := congrArg List.length e1
        rw [List.length_append] at hlen
        obtain ⟨n, rfl⟩ : ∃ m, n = m + 1 := ⟨n - 1, by omega⟩
        have hcol : colour (n + 1) (escU (c :: s)) = openTag (tokenClass m) ++ (escU s1 ++ (units b!"</span>" ++ colour n (escU s2))) := by
          have hx : escU (c :: s) = c :: escU s := by rw [hs, hc]; rfl
          rw [hx] at e ⊢
          rw [colour, e]
          dsimp only
          rw [spanOf, f3]
          conv => lhs; rw [f2]
          simp only [openTag, List.append_assoc]
          rw [f2]
        rw [hcol] at hk ⊢
        have ho : 1 ≤ (openTag (tokenClass m)).length := by
          unfold openTag
          rw [List.length_append, List.length_append]
          have : (units b!"<span class=\"").length = 13 := rfl
          omega
        rw [List.length_append] at hk
        obtain ⟨k, rfl⟩ : ∃ m, k = m + 1 := ⟨k - 1, by omega⟩
        rw [shown_open (tokenClass_mem m)]
        obtain ⟨j, hj, g⟩ := shown_esc true (units b!"</span>" ++ colour n (escU s2)) s1 k (by omega)
        rw [g]
        rw [List.length_append] at hj
        have h7 : (units b!"</span>").length = 7 := rfl
        obtain ⟨j, rfl⟩ : ∃ m, j = m + 1 := ⟨j - 1, by omega⟩
        have hl2 : s2.length ≤ l := by
          have := congrArg List.length f1
          rw [List.length_append] at this
          omega
        rw [shown_close, colour_shown l s2 hl2 n (by rw [← f3]; omega) j (by omega), f1]
        rfl

/-- **C102, texts.**  Whatever text is coloured: the browser shows exactly this text, with coloured parts around tokens; no markup of the text gets into the page. -/
theorem C102_shown (s : Units) : htmlText (syntaxHighlight s) = some s := by
  unfold htmlText syntaxHighlight
  rw [escapeHtml_eq]
  exact colour_shown _ s (Nat.le_refl _) _ (Nat.le_refl _) _ (Nat.lt_succ_self _)

/-- **C102, blocks.**  A block shows the answer of the server as it is, or in its pretty form if it is JSON. -/
theorem C102_block (pretty : Units → Option Units) (s : Units) : htmlText (blockHtml pretty s) = some ((pretty s).getD s) := by
  unfold blockHtml
  cases pretty s with
  | some p => exact C102_shown p
  | none => exact C102_shown s

/-- A text with markup in it. -/
example : htmlText (syntaxHighlight (units b!"{\"<b>\" : -1.5e3, true&amp;}")) = some (units b!"{\"<b>\" : -1.5e3, true&amp;}") := C102_shown _

example : syntaxHighlight (units b!"{\"<b>\" : -1.5e3, true&}") =
    units b!"{<span class=\"key\">\"&lt;b&gt;\" :</span> <span class=\"number\">-1.5e3</span>, <span class=\"boolean\">true</span>&amp;}" := by
  decide +kernel

end Verif
