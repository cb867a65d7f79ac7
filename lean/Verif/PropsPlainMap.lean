import Verif.WebDemo
import Verif.PropsVssSave
/-
Property C79: conversion of data sets to plain maps.
-/
namespace Verif

/-! ### The end of a string -/

/-- What follows the closing quote. -/
def skipLit : Bytes → Option Bytes
  | [] => none
  | [c] => if c = 34 then some [] else none
  | c :: d :: r => if c = 34 then some (d :: r) else if c = 92 then skipLit r else skipLit (d :: r)

theorem skipLit_other {c : UInt8} (h1 : c ≠ 34) (h2 : c ≠ 92) (r : Bytes) : skipLit (c :: r) = skipLit r := by
  cases r with
  | nil => simp [skipLit, h1]
  | cons d r => simp [skipLit, h1, h2]

theorem skipLit_escape (c : UInt8) (r : Bytes) : skipLit (92 :: c :: r) = skipLit r := by simp [skipLit]

theorem skipLit_end (r : Bytes) : skipLit (34 :: r) = some r := by cases r <;> simp [skipLit]

theorem skipLit_plain {w : Bytes} (h : ∀ c ∈ w, c ≠ 34 ∧ c ≠ 92) (r : Bytes) : skipLit (w ++ r) = skipLit r := by
  induction w with
  | nil => rfl
  | cons c w ih =>
    rw [List.forall_mem_cons] at h
    rw [List.cons_append, skipLit_other h.1.1 h.1.2, ih h.2]

theorem hexVal_plain {c : UInt8} {n : Nat} (h : hexVal c = some n) : c ≠ 34 ∧ c ≠ 92 := by
  constructor <;> (rintro rfl; revert h; simp [hexVal])

theorem hex4_skip {s r : Bytes} {u : Nat} (h : hex4 s = some (u, r)) : skipLit s = skipLit r := by
  unfold hex4 at h
  split at h
  · rename_i a b c d r'
    split at h
    · rename_i ha hb hc hd
      cases h
      rw [skipLit_other (hexVal_plain ha).1 (hexVal_plain ha).2, skipLit_other (hexVal_plain hb).1 (hexVal_plain hb).2,
        skipLit_other (hexVal_plain hc).1 (hexVal_plain hc).2, skipLit_other (hexVal_plain hd).1 (hexVal_plain hd).2]
    · cases h
  · cases h

theorem uEscape_skip (u : Nat) (r : Bytes) : skipLit (uEscape u r).2 = skipLit r := by
  unfold uEscape
  split
  · split
    · split
      · rename_i h
        split
        · rw [skipLit_escape, hex4_skip h]
        · rfl
      · rfl
    · rfl
  · rfl

theorem runeAt_high {s : Bytes} {r w : Nat} (h : runeAt s = some (r, w)) : ∀ c ∈ s.take w, c ≠ 34 ∧ c ≠ 92 := by
  have hi : ∀ c : UInt8, 0x80 ≤ c → c ≠ 34 ∧ c ≠ 92 := by
    intro c h
    constructor <;> (rintro rfl; revert h; decide)
  have cont : ∀ b0 b : UInt8, contIn (secondLo b0) (secondHi b0) b = true → 0x80 ≤ b := by
    intro b0 b h
    simp only [contIn, Bool.and_eq_true, decide_eq_true_eq] at h
    have : (0x80 : UInt8) ≤ secondLo b0 := by unfold secondLo; repeat' split
                                              all_goals decide
    exact UInt8.le_trans this h.1
  have cont' : ∀ b : UInt8, contIn 0x80 0xBF b = true → 0x80 ≤ b := by
    intro b h
    simp only [contIn, Bool.and_eq_true, decide_eq_true_eq] at h
    exact h.1
  have lead : ∀ lo b : UInt8, (0x80 : UInt8) ≤ lo → lo ≤ b → 0x80 ≤ b := fun lo b h1 h2 => UInt8.le_trans h1 h2
  unfold runeAt at h
  split at h
  · cases h
  · split at h
    · rename_i h0
      simp only [Bool.and_eq_true, decide_eq_true_eq] at h0
      split at h
      · split at h
        · simp only [Option.some.injEq, Prod.mk.injEq] at h
          obtain ⟨-, rfl⟩ := h
          rename_i b1 _ h1
          intro c hc
          simp only [List.take_succ_cons, List.take_zero, List.mem_cons, List.not_mem_nil, or_false] at hc
          rcases hc with rfl | rfl
          · exact hi _ (lead _ _ (by decide) h0.1)
          · exact hi _ (cont' _ h1)
        · cases h
      · cases h
    · split at h
      · rename_i h0
        simp only [Bool.and_eq_true, decide_eq_true_eq] at h0
        split at h
        · split at h
          · simp only [Option.some.injEq, Prod.mk.injEq] at h
            obtain ⟨-, rfl⟩ := h
            rename_i h1
            simp only [Bool.and_eq_true] at h1
            intro c hc
            simp only [List.take_succ_cons, List.take_zero, List.mem_cons, List.not_mem_nil, or_false] at hc
            rcases hc with rfl | rfl | rfl
            · exact hi _ (lead _ _ (by decide) h0.1)
            · exact hi _ (cont _ _ h1.1)
            · exact hi _ (cont' _ h1.2)
          · cases h
        · cases h
      · split at h
        · rename_i h0
          simp only [Bool.and_eq_true, decide_eq_true_eq] at h0
          split at h
          · split at h
            · simp only [Option.some.injEq, Prod.mk.injEq] at h
              obtain ⟨-, rfl⟩ := h
              rename_i h1
              simp only [Bool.and_eq_true] at h1
              intro c hc
              simp only [List.take_succ_cons, List.take_zero, List.mem_cons, List.not_mem_nil, or_false] at hc
              rcases hc with rfl | rfl | rfl | rfl
              · exact hi _ (lead _ _ (by decide) h0.1)
              · exact hi _ (cont _ _ h1.1.1)
              · exact hi _ (cont' _ h1.1.2)
              · exact hi _ (cont' _ h1.2)
            · cases h
          · cases h
        · cases h

/-- The JSON reader goes on after the closing quote. -/
theorem readStr_skip : ∀ (n : Nat) {s k r : Bytes}, readStr n s = some (k, r) → skipLit s = some r := by
  intro n
  induction n with
  | zero => intro s k r h; cases h
  | succ n ih =>
    intro s k r h
    cases s with
    | nil => cases h
    | cons c s =>
      unfold readStr at h
      split at h
      · subst c; cases h; exact skipLit_end _
      · split at h
        · subst c
          cases s with
          | nil => cases h
          | cons e s =>
            simp only at h
            rw [skipLit_escape]
            split at h
            · split at h
              · cases h
              · rename_i hx
                obtain ⟨y, hy⟩ := consStr_some h
                rw [hex4_skip hx, ← uEscape_skip, ih hy]
            · split at h
              · cases h
              · obtain ⟨y, hy⟩ := consStr_some h
                exact ih hy
        · split at h
          · cases h
          · rename_i h1 h2 _
            split at h
            · obtain ⟨y, hy⟩ := consStr_some h
              rw [skipLit_other h1 h2, ih hy]
            · split at h
              · rename_i w hw
                obtain ⟨y, hy⟩ := consStr_some h
                have := skipLit_plain (runeAt_high hw) ((c :: s).drop w)
                rw [List.take_append_drop] at this
                rw [this, ih hy]
              · obtain ⟨y, hy⟩ := consStr_some h
                rw [skipLit_other h1 h2, ih hy]

theorem hexDigit_plain (n : Nat) (h : n < 16) : hexDigit n ≠ 34 ∧ hexDigit n ≠ 92 := by
  have : ∀ n : Fin 16, hexDigit n.1 ≠ 34 ∧ hexDigit n.1 ≠ 92 := by decide
  exact this ⟨n, h⟩

theorem hexDigits_plain (k : Nat) : ∀ n, ∀ c ∈ hexDigits k n, c ≠ 34 ∧ c ≠ 92 := by
  induction k with
  | zero => intro n c h; cases h
  | succ k ih =>
    intro n c h
    rw [hexDigits, List.mem_append] at h
    rcases h with h | h
    · exact ih _ c h
    · rw [List.mem_singleton.1 h]; exact hexDigit_plain _ (Nat.mod_lt _ (by decide))

theorem escByte_skip (c : UInt8) (r : Bytes) : skipLit (escByte c ++ r) = skipLit r := by
  unfold escByte
  split
  · exact skipLit_escape _ _
  · rename_i h
    split
    · exact skipLit_other (fun e => h (.inl e)) (fun e => h (.inr e)) _
    · repeat' split
      all_goals first
        | exact skipLit_escape _ _
        | (rw [List.cons_append, List.cons_append, skipLit_escape]; exact skipLit_plain (hexDigits_plain _ _) _)

theorem quoteBody_skip (P : Nat → Bool) : ∀ (n : Nat) (s rest : Bytes), skipLit (quoteBody P n s ++ 34 :: rest) = some rest := by
  intro n
  induction n with
  | zero => intro s rest; exact skipLit_end _
  | succ n ih =>
    intro s rest
    cases s with
    | nil => exact skipLit_end _
    | cons c s =>
      unfold quoteBody
      split
      · rw [List.append_assoc, escByte_skip, ih]
      · split
        · rename_i hw
          rw [List.append_assoc, escRune]
          split
          · rw [skipLit_plain (runeAt_high hw), ih]
          · split
            all_goals
              rw [List.cons_append, List.cons_append, skipLit_escape, skipLit_plain (hexDigits_plain _ _), ih]
        · rw [List.cons_append, List.cons_append, skipLit_escape, List.append_assoc, skipLit_plain (hexDigits_plain _ _), ih]

/-- The JSON reader refuses a quoted text or reads just that. -/
theorem readStr_quote {P : Nat → Bool} {n : Nat} {s k rest r : Bytes} {N : Nat} (h : readStr N (quoteBody P n s ++ 34 :: rest) = some (k, r)) :
    r = rest := by
  have := readStr_skip N h
  rw [quoteBody_skip] at this
  cases this
  rfl

/-! ### The text of a data set -/

/-- No readings. -/
def Silent (j : Js) : Prop := ∀ ks x t, ¬ ReadingAt j ks x t

/-- The JSON reader refuses the text of data, or there are no readings and it reads just that. -/
def JsonBack (L : Layout) (P : Nat → Bool) (j : Js) : Prop := ∀ (N : Nat) (cur : Bytes) (ctx : Ctx) (rest : Bytes), AllWs cur →
  readVal N (renderJs L P cur ctx j ++ rest) = none ∨ (Silent j ∧ ∃ x, readVal N (renderJs L P cur ctx j ++ rest) = some (x, rest))

theorem renderJsF_next (L : Layout) (P : Nat → Bool) (cur : Bytes) (p : Bytes × Js) (m : List (Bytes × Js)) :
    renderJsF L P cur false (p :: m) = 44 :: (L.sep ++ renderJsF L P cur true (p :: m)) := by
  obtain ⟨k, v⟩ := p
  simp [renderJsF]

theorem renderJsL_next (L : Layout) (P : Nat → Bool) (cur : Bytes) (v : Js) (l : List Js) :
    renderJsL L P cur false (v :: l) = 44 :: (L.sep ++ renderJsL L P cur true (v :: l)) := by
  simp [renderJsL]

theorem json_members {L : Layout} (hL : L.Ok) {P : Nat → Bool} {cur : Bytes} (hcur : AllWs cur) (rest : Bytes) :
    ∀ (m : List (Bytes × Js)), m ≠ [] → (∀ p ∈ m, (∃ x t, p.2 = readingJs x t) ∨ (IsTree p.2 ∧ JsonBack L P p.2)) → ∀ N,
    readMembers N (skipWs (renderJsF L P cur true m ++ (L.stop cur ++ 125 :: rest))) = none ∨
    ((∀ p ∈ m, Silent p.2) ∧ ∃ x, readMembers N (skipWs (renderJsF L P cur true m ++ (L.stop cur ++ 125 :: rest))) = some (x, rest)) := by
  intro m
  induction m with
  | nil => intro h; exact absurd rfl h
  | cons p m ih =>
    obtain ⟨k, v⟩ := p
    intro _ hb N
    rw [List.forall_mem_cons] at hb
    cases N with
    | zero => exact .inl rfl
    | succ N =>
      simp only [renderJsF, if_true, List.nil_append, List.append_assoc, quote, List.cons_append]
      rw [skipWs_append (hL.lead cur hcur), skipWs_of_not (by decide)]
      simp only [readMembers, if_true]
      cases hs : readStr ((quoteBody P k.length k ++ 34 :: (anyKeyTs v ++ 58 :: 32 :: (renderJs L P (L.next cur) .object v ++
          (renderJsF L P cur false m ++ (L.stop cur ++ 125 :: rest))))).length + 1)
          (quoteBody P k.length k ++ 34 :: (anyKeyTs v ++ 58 :: 32 :: (renderJs L P (L.next cur) .object v ++
          (renderJsF L P cur false m ++ (L.stop cur ++ 125 :: rest))))) with
      | none => exact .inl rfl
      | some y =>
        obtain ⟨key, r⟩ := y
        have := readStr_quote hs
        subst this
        simp only
        rcases hb.1 with ⟨x, t, hx⟩ | ⟨hkey, hv⟩
        · left
          simp only at hx
          subst hx
          obtain ⟨z, hz⟩ := fmtTs_cons t (58 :: 32 :: (renderJs L P (L.next cur) .object (readingJs x t) ++
            (renderJsF L P cur false m ++ (L.stop cur ++ 125 :: rest))))
          rw [anyKeyTs_reading, List.cons_append, hz]
          rfl
        · simp only at hkey hv
          rw [hkey.key, List.nil_append, skipWs_of_not (by decide)]
          simp only
          have hw : skipWs (32 :: (renderJs L P (L.next cur) .object v ++ (renderJsF L P cur false m ++ (L.stop cur ++ 125 :: rest)))) =
              renderJs L P (L.next cur) .object v ++ (renderJsF L P cur false m ++ (L.stop cur ++ 125 :: rest)) := by
            obtain ⟨c, z, hz, hc⟩ := hkey.text L P (L.next cur) .object
            rw [hz, List.cons_append]
            rcases hc with rfl | rfl <;> rfl
          rw [hw]
          rcases hv N (L.next cur) .object (renderJsF L P cur false m ++ (L.stop cur ++ 125 :: rest)) (hL.next cur hcur) with h | ⟨hsil, x, h⟩
          · rw [h]; exact .inl rfl
          · rw [h]
            simp only
            cases m with
            | nil =>
              right
              refine ⟨by simpa using hsil, ?_⟩
              rw [renderJsF, List.nil_append, skipWs_append (hL.stop cur hcur), skipWs_of_not (by decide)]
              exact ⟨_, rfl⟩
            | cons q m =>
              rw [renderJsF_next, List.cons_append, skipWs_of_not (by decide), List.append_assoc]
              simp only
              rw [skipWs_append hL.sep]
              rcases ih (by simp) hb.2 N with h | ⟨h1, x, h⟩
              · rw [h]; exact .inl rfl
              · rw [h]
                exact .inr ⟨List.forall_mem_cons.2 ⟨hsil, h1⟩, _, rfl⟩

theorem json_elems {L : Layout} (hL : L.Ok) {P : Nat → Bool} {cur : Bytes} (hcur : AllWs cur) (rest : Bytes) :
    ∀ (l : List Js), l ≠ [] → (∀ v ∈ l, (∃ x t, v = readingJs x t) ∨ (IsTree v ∧ JsonBack L P v)) → ∀ N,
    readElems N (skipWs (renderJsL L P cur true l ++ (L.stop cur ++ 93 :: rest))) = none ∨
    ((∀ v ∈ l, Silent v) ∧ ∃ x, readElems N (skipWs (renderJsL L P cur true l ++ (L.stop cur ++ 93 :: rest))) = some (x, rest)) := by
  intro l
  induction l with
  | nil => intro h; exact absurd rfl h
  | cons v l ih =>
    intro _ hb N
    rw [List.forall_mem_cons] at hb
    cases N with
    | zero => exact .inl rfl
    | succ N =>
      simp only [renderJsL, if_true, List.nil_append, List.append_assoc]
      rw [skipWs_append (hL.lead cur hcur)]
      rcases hb.1 with ⟨x, t, hx⟩ | ⟨hkey, hv⟩
      · left
        subst hx
        rw [renderJs_reading]
        simp only [leafInCtx, List.append_assoc, List.cons_append]
        obtain ⟨z, hz⟩ := fmtTs_cons t (32 :: (valText P x ++ (renderJsL L P cur false l ++ (L.stop cur ++ 93 :: rest))))
        rw [hz, skipWs_of_not (by decide), readElems]
        cases N with
        | zero => rfl
        | succ N => rfl
      · have hw : skipWs (renderJs L P (L.next cur) .array v ++ (renderJsL L P cur false l ++ (L.stop cur ++ 93 :: rest))) =
            renderJs L P (L.next cur) .array v ++ (renderJsL L P cur false l ++ (L.stop cur ++ 93 :: rest)) := by
          obtain ⟨c, z, hz, hc⟩ := hkey.text L P (L.next cur) .array
          rw [hz, List.cons_append]
          rcases hc with rfl | rfl <;> rfl
        rw [hw, readElems]
        rcases hv N (L.next cur) .array (renderJsL L P cur false l ++ (L.stop cur ++ 93 :: rest)) (hL.next cur hcur) with h | ⟨hsil, x, h⟩
        · rw [h]; exact .inl rfl
        · rw [h]
          simp only
          cases l with
          | nil =>
            right
            refine ⟨by simpa using hsil, ?_⟩
            rw [renderJsL, List.nil_append, skipWs_append (hL.stop cur hcur), skipWs_of_not (by decide)]
            exact ⟨_, rfl⟩
          | cons q l =>
            rw [renderJsL_next, List.cons_append, skipWs_of_not (by decide), List.append_assoc]
            simp only
            rw [skipWs_append hL.sep]
            rcases ih (by simp) hb.2 N with h | ⟨h1, x, h⟩
            · rw [h]; exact .inl rfl
            · rw [h]
              exact .inr ⟨List.forall_mem_cons.2 ⟨hsil, h1⟩, _, rfl⟩

theorem json_back {L : Layout} (hL : L.Ok) (P : Nat → Bool) {j : Js} (h : DataTree j) :
    (∃ x t, j = readingJs x t) ∨ (IsTree j ∧ JsonBack L P j) := by
  induction h with
  | reading x t _ _ _ => exact .inl ⟨x, t, rfl⟩
  | map m hn hk hm ih =>
    have hs := DataTree.noStamp hk
    have ht : IsTree (.obj m) := by
      rcases (DataTree.map m hn hk hm).shape with ⟨x, ts, e, -⟩ | h
      · rw [readingJs] at e
        cases e
        exact absurd (by simp [mkeys]) hs
      · exact h
    refine .inr ⟨ht, ?_⟩
    intro N cur ctx rest hcur
    rw [renderJs_map L P cur ctx hs]
    simp only [List.append_assoc, List.cons_append, List.nil_append]
    cases N with
    | zero => exact .inl rfl
    | succ N =>
      cases m with
      | nil =>
        right
        refine ⟨?_, ?_⟩
        · intro ks x t hr
          obtain ⟨k, c, ks', -, hk', -⟩ := (readingAt_map hs).1 hr
          cases hk'
        · simp only [readVal, if_true]
          rw [skipWs_append hL.opn, renderJsF, List.nil_append, skipWs_append (hL.stop cur hcur), skipWs_of_not (by decide)]
          exact ⟨_, rfl⟩
      | cons p m =>
        have key := json_members hL hcur rest (p :: m) (by simp) ih N
        have hq : ∃ z, skipWs (renderJsF L P cur true (p :: m) ++ (L.stop cur ++ 125 :: rest)) = 34 :: z := by
          obtain ⟨k, v⟩ := p
          simp only [renderJsF, if_true, List.nil_append, List.append_assoc, quote, List.cons_append]
          rw [skipWs_append (hL.lead cur hcur), skipWs_of_not (by decide)]
          exact ⟨_, rfl⟩
        obtain ⟨z, hz⟩ := hq
        rw [hz] at key
        have hm : ∀ o : Option (List (Bytes × Jt) × Bytes), readMembers N (34 :: z) = o → readVal (N + 1) (123 :: (L.opn ++
            (renderJsF L P cur true (p :: m) ++ (L.stop cur ++ 125 :: rest)))) = match o with
              | none => none
              | some (m, r) => some (Jt.obj m, r) := by
          intro o ho
          simp only [readVal, if_true]
          rw [skipWs_append hL.opn, hz]
          split
          · rename_i e; cases e
          · rw [ho]; cases o <;> rfl
        rcases key with h | ⟨h1, x, h⟩
        · exact .inl (hm _ h)
        · refine .inr ⟨?_, _, hm _ h⟩
          intro ks y t hr
          obtain ⟨k, c, ks', -, hk', hc⟩ := (readingAt_map hs).1 hr
          exact h1 _ (mget_mem hk') _ _ _ hc
  | array l hl hv ih =>
    refine .inr ⟨⟨fun L P cur ctx => ⟨_, _, by rw [renderJs], .inr rfl⟩, rfl, by rw [docJs]; trivial⟩, ?_⟩
    intro N cur ctx rest hcur
    rw [renderJs]
    simp only [List.append_assoc, List.cons_append, List.nil_append]
    cases N with
    | zero => exact .inl rfl
    | succ N =>
      cases l with
      | nil =>
        right
        refine ⟨?_, ?_⟩
        · intro ks x t hr
          obtain ⟨i, c, ks', -, hk', -⟩ := readingAt_array.1 hr
          cases hk'
        · simp only [readVal, if_true]
          rw [if_neg (by decide), skipWs_append hL.opn, renderJsL, List.nil_append, skipWs_append (hL.stop cur hcur), skipWs_of_not (by decide)]
          exact ⟨_, rfl⟩
      | cons v l =>
        have key := json_elems hL hcur rest (v :: l) (by simp) ih N
        have hq : ∃ c z, skipWs (renderJsL L P cur true (v :: l) ++ (L.stop cur ++ 93 :: rest)) = c :: z ∧ c ≠ 93 := by
          simp only [renderJsL, if_true, List.nil_append, List.append_assoc]
          rw [skipWs_append (hL.lead cur hcur)]
          rcases ih v (by simp) with ⟨x, t, rfl⟩ | ⟨hk, -⟩
          · rw [renderJs_reading]
            simp only [leafInCtx, List.append_assoc, List.cons_append]
            obtain ⟨z, hz⟩ := fmtTs_cons t (32 :: (valText P x ++ (renderJsL L P cur false l ++ (L.stop cur ++ 93 :: rest))))
            rw [hz, skipWs_of_not (by decide)]
            exact ⟨_, _, rfl, by decide⟩
          · obtain ⟨c, z, hz, hc⟩ := hk.text L P (L.next cur) .array
            rw [hz, List.cons_append]
            rcases hc with rfl | rfl
            · exact ⟨_, _, skipWs_of_not (by decide), by decide⟩
            · exact ⟨_, _, skipWs_of_not (by decide), by decide⟩
        obtain ⟨c, z, hz, hc⟩ := hq
        rw [hz] at key
        have hm : ∀ o : Option (List Jt × Bytes), readElems N (c :: z) = o → readVal (N + 1) (91 :: (L.opn ++ (renderJsL L P cur true (v :: l) ++
            (L.stop cur ++ 93 :: rest)))) = match o with
              | none => none
              | some (l, r) => some (Jt.arr l, r) := by
          intro o ho
          simp only [readVal, if_true]
          rw [if_neg (by decide), skipWs_append hL.opn, hz]
          split
          · rename_i e; cases e; exact absurd rfl hc
          · rw [ho]; cases o <;> rfl
        rcases key with h | ⟨h1, x, h⟩
        · exact .inl (hm _ h)
        · refine .inr ⟨?_, _, hm _ h⟩
          intro ks y t hr
          obtain ⟨i, c, ks', -, hk', hc⟩ := readingAt_array.1 hr
          exact h1 _ (List.mem_of_getElem? hk') _ _ _ hc

/-! ### C79 -/

/-- **C79**, violated whenever there is something to convert: a data set with at least one reading has no plain map.  `Save`
writes timestamps behind keys and before elements, which is not JSON. -/
theorem C79_reading_fails (P : Nat → Bool) (m : List (Bytes × Js)) (h : DataTree (.obj m)) (hs : b!"timestamp" ∉ mkeys m)
    (hr : ∃ ks x t, ReadingAt (.obj m) ks x t) : toPlainMap P (.obj m) = .err := by
  obtain ⟨ks, x, t, hr⟩ := hr
  have hb : JsonBack (indentLayout b!"    ") P (.obj m) := by
    rcases json_back (indentLayout_ok indent_blank) P h with ⟨x, t, e⟩ | ⟨-, hb⟩
    · rw [readingJs] at e
      cases e
      exact absurd (by simp [mkeys]) hs
    · exact hb
  rw [toPlainMap, vssSave_text h]
  have hn : unmarshalText (renderJs (indentLayout b!"    ") P [] .top (.obj m)) = .err := by
    rw [unmarshalText, readText]
    have hw : skipWs (renderJs (indentLayout b!"    ") P [] .top (.obj m)) = renderJs (indentLayout b!"    ") P [] .top (.obj m) ++ [] := by
      rw [List.append_nil, renderJs_map _ _ _ _ hs, skipWs_of_not (by decide)]
    rw [hw]
    rcases hb (2 * (renderJs (indentLayout b!"    ") P [] .top (.obj m)).length + 1) [] .top [] .nil with e | ⟨hsil, -⟩
    · rw [e]
    · exact absurd hr (hsil ks x t)
  simp only [Res.bind, hn]

/-- **C79**, the part that holds: the empty data set becomes the empty map.  Missing: everything with readings, see
`C79_reading_fails`. -/
theorem C79_empty_partial (P : Nat → Bool) : toPlainMap P (.obj []) = .ok (.obj []) := by rfl

example : toPlainMap (fun _ => true) (.obj [(b!"Speed", readingJs (.int 5) 7)]) = .err :=
  C79_reading_fails _ _ (.map _ (by simp [mkeys]) (by
      intro k hk
      simp only [mkeys, List.map_cons, List.map_nil, List.mem_singleton] at hk
      subst hk
      exact ⟨valid_ascii (by decide), by decide, by decide⟩) (by
      intro p hp
      rw [List.mem_singleton.1 hp]
      exact .reading _ _ (.int _ (by decide) (by decide)) (by decide) (by decide))) (by decide)
    ⟨[b!"Speed"], .int 5, 7, .member _ _ _ _ _ _ (by decide) rfl (.here _ _)⟩

end Verif
