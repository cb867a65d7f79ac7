import Verif.PropsPlainMap
import Verif.PropsCodec
/-
C104: texts of documents are not JSON.
-/
namespace Verif

/-! ### Specification -/

/-- The document has a value with a timestamp. -/
inductive HasStamp : Tson → Prop where
  | leaf (p : Prim) (ts : Int) : HasStamp (.leaf p ts)
  | member {m : List (Bytes × Tson)} {k : Bytes} {v : Tson} (h : (k, v) ∈ m) (hv : HasStamp v) : HasStamp (.obj m)
  | elem {l : List Tson} {v : Tson} (h : v ∈ l) (hv : HasStamp v) : HasStamp (.arr l)

/-- A text is JSON, whatever its depth: one value, and white space around it. -/
def IsJson (s : Bytes) : Prop := ∃ N j r, readVal N (skipWs s) = some (j, r) ∧ skipWs r = []

/-! ### Documents in containers -/

/-- The JSON reader refuses the text of a document, or the document has no timestamp and the reader reads just that. -/
def JsonOr (L : Layout) (P : Nat → Bool) (t : Tson) : Prop := ∀ (N : Nat) (cur : Bytes) (ctx : Ctx) (rest : Bytes), AllWs cur →
  readVal N (render L P cur ctx t ++ rest) = none ∨ (¬ HasStamp t ∧ ∃ x, readVal N (render L P cur ctx t ++ rest) = some (x, rest))

theorem renderF_next (L : Layout) (P : Nat → Bool) (cur : Bytes) (p : Bytes × Tson) (m : List (Bytes × Tson)) :
    renderF L P cur false (p :: m) = 44 :: (L.sep ++ renderF L P cur true (p :: m)) := by
  obtain ⟨k, v⟩ := p
  simp [renderF]

theorem renderL_next (L : Layout) (P : Nat → Bool) (cur : Bytes) (v : Tson) (l : List Tson) :
    renderL L P cur false (v :: l) = 44 :: (L.sep ++ renderL L P cur true (v :: l)) := by
  simp [renderL]

/-- A document other than a leaf. -/
def Tson.noLeaf : Tson → Prop
  | .leaf _ _ => False
  | _ => True

theorem noLeaf_key {v : Tson} (h : v.noLeaf) : keyTs v = [] := by cases v <;> first | rfl | exact h.elim

theorem noLeaf_text {v : Tson} (h : v.noLeaf) (L : Layout) (P : Nat → Bool) (cur : Bytes) (ctx : Ctx) :
    ∃ c z, render L P cur ctx v = c :: z ∧ isWs c = false := by
  cases v with
  | null => exact ⟨_, _, by rw [render], by decide⟩
  | leaf => exact h.elim
  | obj m => exact ⟨_, _, by rw [render], by decide⟩
  | arr l => exact ⟨_, _, by rw [render], by decide⟩

theorem tson_members {L : Layout} (hL : L.Ok) {P : Nat → Bool} {cur : Bytes} (hcur : AllWs cur) (rest : Bytes) :
    ∀ (m : List (Bytes × Tson)), m ≠ [] → (∀ p ∈ m, (∃ x t, p.2 = .leaf x t) ∨ (p.2.noLeaf ∧ JsonOr L P p.2)) → ∀ N,
    readMembers N (skipWs (renderF L P cur true m ++ (L.stop cur ++ 125 :: rest))) = none ∨
    ((∀ p ∈ m, ¬ HasStamp p.2) ∧ ∃ x, readMembers N (skipWs (renderF L P cur true m ++ (L.stop cur ++ 125 :: rest))) = some (x, rest)) := by
  intro m
  induction m with
  | nil => intro h; exact absurd rfl h
  | cons p m ih =>
    obtain ⟨k, v⟩ := p
    intro _ hb N
    rw [List.forall_mem_cons] at hb
    cases N with
    | zero => exact .inl rfl
    | succ N =>
      simp only [renderF, if_true, List.nil_append, List.append_assoc, quote, List.cons_append]
      rw [skipWs_append (hL.lead cur hcur), skipWs_of_not (by decide)]
      simp only [readMembers, if_true]
      cases hs : readStr ((quoteBody P k.length k ++ 34 :: (keyTs v ++ 58 :: 32 :: (render L P (L.next cur) .object v ++
          (renderF L P cur false m ++ (L.stop cur ++ 125 :: rest))))).length + 1)
          (quoteBody P k.length k ++ 34 :: (keyTs v ++ 58 :: 32 :: (render L P (L.next cur) .object v ++
          (renderF L P cur false m ++ (L.stop cur ++ 125 :: rest))))) with
      | none => exact .inl rfl
      | some y =>
        obtain ⟨key, r⟩ := y
        have := readStr_quote hs
        subst this
        simp only
        rcases hb.1 with ⟨x, t, hx⟩ | ⟨hkey, hv⟩
        · left
          simp only at hx
          subst hx
          rfl
        · simp only at hkey hv
          rw [noLeaf_key hkey, List.nil_append, skipWs_of_not (by decide)]
          simp only
          have hw : skipWs (32 :: (render L P (L.next cur) .object v ++ (renderF L P cur false m ++ (L.stop cur ++ 125 :: rest)))) =
              render L P (L.next cur) .object v ++ (renderF L P cur false m ++ (L.stop cur ++ 125 :: rest)) := by
            obtain ⟨c, z, hz, hc⟩ := noLeaf_text hkey L P (L.next cur) .object
            rw [hz, List.cons_append, show ∀ s, skipWs (32 :: s) = skipWs s from fun s => by simp [skipWs, isWs], skipWs_of_not hc]
          rw [hw]
          rcases hv N (L.next cur) .object (renderF L P cur false m ++ (L.stop cur ++ 125 :: rest)) (hL.next cur hcur) with h | ⟨hsil, x, h⟩
          · rw [h]; exact .inl rfl
          · rw [h]
            simp only
            cases m with
            | nil =>
              right
              refine ⟨by simpa using hsil, ?_⟩
              rw [renderF, List.nil_append, skipWs_append (hL.stop cur hcur), skipWs_of_not (by decide)]
              exact ⟨_, rfl⟩
            | cons q m =>
              rw [renderF_next, List.cons_append, skipWs_of_not (by decide), List.append_assoc]
              simp only
              rw [skipWs_append hL.sep]
              rcases ih (by simp) hb.2 N with h | ⟨h1, x, h⟩
              · rw [h]; exact .inl rfl
              · rw [h]
                exact .inr ⟨List.forall_mem_cons.2 ⟨hsil, h1⟩, _, rfl⟩

theorem tson_elems {L : Layout} (hL : L.Ok) {P : Nat → Bool} {cur : Bytes} (hcur : AllWs cur) (rest : Bytes) :
    ∀ (l : List Tson), l ≠ [] → (∀ v ∈ l, (∃ x t, v = .leaf x t) ∨ (v.noLeaf ∧ JsonOr L P v)) → ∀ N,
    readElems N (skipWs (renderL L P cur true l ++ (L.stop cur ++ 93 :: rest))) = none ∨
    ((∀ v ∈ l, ¬ HasStamp v) ∧ ∃ x, readElems N (skipWs (renderL L P cur true l ++ (L.stop cur ++ 93 :: rest))) = some (x, rest)) := by
  intro l
  induction l with
  | nil => intro h; exact absurd rfl h
  | cons v l ih =>
    intro _ hb N
    rw [List.forall_mem_cons] at hb
    cases N with
    | zero => exact .inl rfl
    | succ N =>
      simp only [renderL, if_true, List.nil_append, List.append_assoc]
      rw [skipWs_append (hL.lead cur hcur)]
      rcases hb.1 with ⟨x, t, hx⟩ | ⟨hkey, hv⟩
      · left
        subst hx
        rw [render]
        simp only [fmtLeaf, List.append_assoc, List.cons_append]
        obtain ⟨z, hz⟩ := fmtTs_cons t (32 :: (fmtPrim P x ++ (renderL L P cur false l ++ (L.stop cur ++ 93 :: rest))))
        rw [hz, skipWs_of_not (by decide), readElems]
        cases N with
        | zero => rfl
        | succ N => rfl
      · have hw : skipWs (render L P (L.next cur) .array v ++ (renderL L P cur false l ++ (L.stop cur ++ 93 :: rest))) =
            render L P (L.next cur) .array v ++ (renderL L P cur false l ++ (L.stop cur ++ 93 :: rest)) := by
          obtain ⟨c, z, hz, hc⟩ := noLeaf_text hkey L P (L.next cur) .array
          rw [hz, List.cons_append, skipWs_of_not hc]
        rw [hw, readElems]
        rcases hv N (L.next cur) .array (renderL L P cur false l ++ (L.stop cur ++ 93 :: rest)) (hL.next cur hcur) with h | ⟨hsil, x, h⟩
        · rw [h]; exact .inl rfl
        · rw [h]
          simp only
          cases l with
          | nil =>
            right
            refine ⟨by simpa using hsil, ?_⟩
            rw [renderL, List.nil_append, skipWs_append (hL.stop cur hcur), skipWs_of_not (by decide)]
            exact ⟨_, rfl⟩
          | cons q l =>
            rw [renderL_next, List.cons_append, skipWs_of_not (by decide), List.append_assoc]
            simp only
            rw [skipWs_append hL.sep]
            rcases ih (by simp) hb.2 N with h | ⟨h1, x, h⟩
            · rw [h]; exact .inl rfl
            · rw [h]
              exact .inr ⟨List.forall_mem_cons.2 ⟨hsil, h1⟩, _, rfl⟩

theorem json_object {L : Layout} (hL : L.Ok) {P : Nat → Bool} {m : List (Bytes × Tson)}
    (ih : ∀ p ∈ m, (∃ x t, p.2 = .leaf x t) ∨ (p.2.noLeaf ∧ JsonOr L P p.2)) : JsonOr L P (.obj m) := by
  intro N cur ctx rest hcur
  rw [render]
  simp only [List.append_assoc, List.cons_append, List.nil_append]
  cases N with
  | zero => exact .inl rfl
  | succ N =>
    cases m with
    | nil =>
      right
      refine ⟨(fun h => by cases h with | member h => cases h), ?_⟩
      simp only [readVal, if_true]
      rw [skipWs_append hL.opn, renderF, List.nil_append, skipWs_append (hL.stop cur hcur), skipWs_of_not (by decide)]
      exact ⟨_, rfl⟩
    | cons p m =>
      have key := tson_members hL hcur rest (p :: m) (by simp) ih N
      have hq : ∃ z, skipWs (renderF L P cur true (p :: m) ++ (L.stop cur ++ 125 :: rest)) = 34 :: z := by
        obtain ⟨k, v⟩ := p
        simp only [renderF, if_true, List.nil_append, List.append_assoc, quote, List.cons_append]
        rw [skipWs_append (hL.lead cur hcur), skipWs_of_not (by decide)]
        exact ⟨_, rfl⟩
      obtain ⟨z, hz⟩ := hq
      rw [hz] at key
      have hm : ∀ o : Option (List (Bytes × Jt) × Bytes), readMembers N (34 :: z) = o → readVal (N + 1) (123 :: (L.opn ++
          (renderF L P cur true (p :: m) ++ (L.stop cur ++ 125 :: rest)))) = match o with
            | none => none
            | some (m, r) => some (Jt.obj m, r) := by
        intro o ho
        simp only [readVal, if_true]
        rw [skipWs_append hL.opn, hz]
        split
        · rename_i e; cases e
        · rw [ho]; cases o <;> rfl
      rcases key with h | ⟨h1, x, h⟩
      · exact .inl (hm _ h)
      · refine .inr ⟨fun hst => ?_, _, hm _ h⟩
        cases hst with
        | member hmem hv => exact h1 _ hmem hv

theorem json_array {L : Layout} (hL : L.Ok) {P : Nat → Bool} {l : List Tson}
    (ih : ∀ v ∈ l, (∃ x t, v = .leaf x t) ∨ (v.noLeaf ∧ JsonOr L P v)) : JsonOr L P (.arr l) := by
  intro N cur ctx rest hcur
  rw [render]
  simp only [List.append_assoc, List.cons_append, List.nil_append]
  cases N with
  | zero => exact .inl rfl
  | succ N =>
    have e91 : ∀ s : Bytes, readVal (N + 1) (91 :: s) = match skipWs s with
        | 93 :: r => some (.arr [], r)
        | r => match readElems N r with
          | none => none
          | some (l, r) => some (.arr l, r) := by
      intro s
      simp only [readVal]
      rw [if_neg (by decide)]
      rfl
    cases l with
    | nil =>
      right
      refine ⟨(fun h => by cases h with | elem h => cases h), ?_⟩
      rw [e91, skipWs_append hL.opn, renderL, List.nil_append, skipWs_append (hL.stop cur hcur), skipWs_of_not (by decide)]
      exact ⟨_, rfl⟩
    | cons v l =>
      have key := tson_elems hL hcur rest (v :: l) (by simp) ih N
      have hq : ∃ c z, skipWs (renderL L P cur true (v :: l) ++ (L.stop cur ++ 93 :: rest)) = c :: z ∧ c ≠ 93 := by
        simp only [renderL, if_true, List.nil_append, List.append_assoc]
        rw [skipWs_append (hL.lead cur hcur)]
        rcases ih v (by simp) with ⟨x, t, rfl⟩ | ⟨h, -⟩
        · rw [render]
          exact ⟨60, _, rfl, by decide⟩
        · cases v with
          | null => rw [render]; exact ⟨110, _, rfl, by decide⟩
          | leaf => exact h.elim
          | obj m => rw [render]; exact ⟨123, _, rfl, by decide⟩
          | arr m => rw [render]; exact ⟨91, _, rfl, by decide⟩
      obtain ⟨c, z, hz, hc⟩ := hq
      rw [hz] at key
      have hm : ∀ o : Option (List Jt × Bytes), readElems N (c :: z) = o → readVal (N + 1) (91 :: (L.opn ++
          (renderL L P cur true (v :: l) ++ (L.stop cur ++ 93 :: rest)))) = match o with
            | none => none
            | some (m, r) => some (Jt.arr m, r) := by
        intro o ho
        rw [e91, skipWs_append hL.opn, hz]
        split
        · rename_i e; cases e; exact absurd rfl hc
        · rw [ho]
      rcases key with h | ⟨h1, x, h⟩
      · exact .inl (hm _ h)
      · refine .inr ⟨fun hst => ?_, _, hm _ h⟩
        cases hst with
        | elem hmem hv => exact h1 _ hmem hv

mutual
theorem json_or {L : Layout} (hL : L.Ok) (P : Nat → Bool) : ∀ t : Tson, (∃ x ts, t = .leaf x ts) ∨ (t.noLeaf ∧ JsonOr L P t)
  | .null => .inr ⟨trivial, fun N cur ctx rest _ => by
      cases N with
      | zero => exact .inl rfl
      | succ N => exact .inr ⟨(fun h => by cases h), _, by rw [render]; rfl⟩⟩
  | .leaf x ts => .inl ⟨x, ts, rfl⟩
  | .obj m => .inr ⟨trivial, json_object hL (json_orF hL P m)⟩
  | .arr l => .inr ⟨trivial, json_array hL (json_orL hL P l)⟩
theorem json_orF {L : Layout} (hL : L.Ok) (P : Nat → Bool) : ∀ m : List (Bytes × Tson),
    ∀ p ∈ m, (∃ x t, p.2 = .leaf x t) ∨ (p.2.noLeaf ∧ JsonOr L P p.2)
  | [], _, h => by cases h
  | (k, v) :: m, p, h => by
    rcases List.mem_cons.1 h with e | h
    · rw [e]; exact json_or hL P v
    · exact json_orF hL P m p h
theorem json_orL {L : Layout} (hL : L.Ok) (P : Nat → Bool) : ∀ l : List Tson,
    ∀ v ∈ l, (∃ x t, v = .leaf x t) ∨ (v.noLeaf ∧ JsonOr L P v)
  | [], _, h => by cases h
  | v :: l, w, h => by
    rcases List.mem_cons.1 h with e | h
    · rw [e]; exact json_or hL P v
    · exact json_orL hL P l w h
end

/-! ### Leaves -/

theorem spanDigits_no (s : Bytes) : (60 : UInt8) ∉ (spanDigits s).1 := by
  intro h
  have := List.all_eq_true.1 (spanDigits_all s) _ h
  revert this; decide

/-- `r` is what remains of `s` behind a part without `<`. -/
def Rest60 (s r : Bytes) : Prop := ∃ p : Bytes, s = p ++ r ∧ (60 : UInt8) ∉ p

theorem Rest60.refl (s : Bytes) : Rest60 s s := ⟨[], rfl, by simp⟩

theorem Rest60.trans {a b c : Bytes} (h : Rest60 a b) (h' : Rest60 b c) : Rest60 a c := by
  obtain ⟨p, rfl, hp⟩ := h
  obtain ⟨q, rfl, hq⟩ := h'
  exact ⟨p ++ q, by rw [List.append_assoc], by simp [hp, hq]⟩

theorem Rest60.cons {c : UInt8} {r s : Bytes} (hc : c ≠ 60) (h : Rest60 r s) : Rest60 (c :: r) s := by
  obtain ⟨p, rfl, hp⟩ := h
  exact ⟨c :: p, rfl, by simp [hp, Ne.symm hc]⟩

theorem rest60_digits (s : Bytes) : Rest60 s (spanDigits s).2 := ⟨_, (spanDigits_eq s).symm, spanDigits_no s⟩

theorem rest60_int {s i r : Bytes} (h : readInt s = some (i, r)) : Rest60 s r := by
  unfold readInt at h
  split at h
  · cases h; exact .cons (by decide) (.refl _)
  · split at h
    · cases h
    · have e := Option.some.inj h
      rw [show r = (spanDigits s).2 by rw [e]]
      exact rest60_digits _

theorem rest60_frac {s r : Bytes} {i : Option Bytes} (h : readFrac s = some (i, r)) : Rest60 s r := by
  unfold readFrac at h
  split at h
  · split at h
    · cases h
    · cases h; exact .cons (by decide) (rest60_digits _)
  · cases h; exact .refl _

theorem rest60_sign (s : Bytes) : Rest60 s (readSign s).2 := by
  unfold readSign
  split
  · exact .cons (by decide) (.refl _)
  · exact .cons (by decide) (.refl _)
  · exact .refl _

theorem rest60_exp {s r : Bytes} {i : Option (Bool × Bytes)} (h : readExp s = some (i, r)) : Rest60 s r := by
  unfold readExp at h
  split at h
  · cases h; exact .refl _
  · split at h
    · rename_i c r' hc
      dsimp only at h
      split at h
      · cases h
      · cases h
        refine .cons ?_ ((rest60_sign _).trans (rest60_digits _))
        rcases hc with rfl | rfl <;> decide
    · cases h; exact .refl _

theorem rest60_num {s r : Bytes} {j : Jt} (h : readNum s = some (j, r)) : Rest60 s r := by
  unfold readNum at h
  dsimp only at h
  have h0 : Rest60 s (if (s.head? == some 45) = true then s.tail else s) := by
    split
    · rename_i e
      cases s with
      | nil => cases e
      | cons c s =>
        have : c = 45 := by simpa using e
        subst this
        exact .cons (by decide) (.refl _)
    · exact .refl _
  split at h
  · cases h
  · rename_i h1
    split at h
    · cases h
    · rename_i h2
      split at h
      · cases h
      · rename_i h3
        cases h
        exact ((h0.trans (rest60_int h1)).trans (rest60_frac h2)).trans (rest60_exp h3)

theorem rest60_word {s r : Bytes} {j : Jt} (h : readWord s = some (j, r)) : Rest60 s r := by
  have aux : ∀ w : Bytes, (60 : UInt8) ∉ w → hasPrefix s w = true → Rest60 s (s.drop w.length) := by
    intro w hw hp
    rw [hasPrefix, List.isPrefixOf_iff_prefix] at hp
    obtain ⟨t, rfl⟩ := hp
    exact ⟨w, by rw [List.drop_left], hw⟩
  unfold readWord at h
  split at h
  · rename_i e; cases h; exact aux b!"true" (by decide) e
  · split at h
    · rename_i e; cases h; exact aux b!"false" (by decide) e
    · split at h
      · rename_i e; cases h; exact aux b!"null" (by decide) e
      · cases h

theorem skipWs_lt {s : Bytes} (h : (60 : UInt8) ∈ s) : skipWs s ≠ [] := by
  induction s with
  | nil => cases h
  | cons c s ih =>
    unfold skipWs
    split
    · rename_i hw
      refine ih ?_
      rcases List.mem_cons.1 h with rfl | h
      · exact absurd hw (by decide)
      · exact h
    · simp

/-- A text that does not start like a container or a string and has a `<` is not JSON. -/
theorem scalar_not {c : UInt8} {s : Bytes} (hc : c ≠ 123 ∧ c ≠ 91 ∧ c ≠ 34) (hs : (60 : UInt8) ∈ c :: s) {N : Nat} {j : Jt} {r : Bytes}
    (h : readVal N (c :: s) = some (j, r)) : skipWs r ≠ [] := by
  have key : Rest60 (c :: s) r := by
    cases N with
    | zero => rw [readVal] at h; cases h
    | succ N =>
      simp only [readVal, hc.1, hc.2.1, hc.2.2, if_false] at h
      split at h
      · exact rest60_num h
      · exact rest60_word h
  obtain ⟨p, e, hp⟩ := key
  rw [e] at hs
  exact skipWs_lt ((List.mem_append.1 hs).resolve_left hp)

theorem fmtFloat_start (f : F64) : ∃ c r, fmtFloat f = c :: r ∧ isWs c = false ∧ c ≠ 123 ∧ c ≠ 91 ∧ c ≠ 34 := by
  cases f with
  | nan => exact ⟨_, _, rfl, by decide, by decide⟩
  | inf neg => cases neg <;> exact ⟨_, _, rfl, by decide, by decide⟩
  | fin neg m e h =>
    obtain ⟨_, _, _, -, ⟨c, r, e, hc⟩, -⟩ := readNum_fmtFloat (neg := neg) h
    refine ⟨c, r, e, ?_⟩
    rcases hc with rfl | hc
    · decide
    · refine ⟨?_, ?_, ?_, ?_⟩
      · rcases hw : isWs c with _ | _
        · rfl
        · simp only [isWs, Bool.or_eq_true, beq_iff_eq] at hw
          rcases hw with ((rfl | rfl) | rfl) | rfl <;> exact absurd hc (by decide)
      all_goals (rintro rfl; exact absurd hc (by decide))

theorem leaf_not_json {P : Nat → Bool} {p : Prim} {ts : Int} : ¬ IsJson (fmtLeaf P .top p ts) := by
  rintro ⟨N, j, r, h, hr⟩
  simp only [fmtLeaf] at h
  have h60 : ∀ x : Bytes, (60 : UInt8) ∈ x ++ 32 :: fmtTs ts := fun x => by simp [fmtTs]
  cases p with
  | num f =>
    obtain ⟨c, z, e, hw, hc⟩ := fmtFloat_start f
    simp only [fmtPrim] at h
    have := h60 (fmtFloat f)
    rw [e, List.cons_append] at h this
    rw [skipWs_of_not hw] at h
    exact scalar_not hc this h hr
  | bool b =>
    have := h60 (if b then b!"true" else b!"false")
    simp only [fmtPrim] at h
    cases b
    · exact scalar_not (by decide) this h hr
    · exact scalar_not (by decide) this h hr
  | str x =>
    simp only [fmtPrim, quote, List.cons_append, List.append_assoc, List.nil_append] at h
    rw [skipWs_of_not (by decide)] at h
    cases N with
    | zero => rw [readVal] at h; cases h
    | succ N =>
      simp only [readVal] at h
      rw [if_neg (by decide), if_neg (by decide), if_pos trivial] at h
      split at h
      · cases h
      · rename_i hs
        cases h
        rw [readStr_quote hs] at hr
        revert hr
        simp [skipWs, isWs, fmtTs]

/-! ### C104 -/

theorem render_not_json {L : Layout} (hL : L.Ok) {P : Nat → Bool} {t : Tson} (ht : HasStamp t) {cur : Bytes} (hcur : AllWs cur) :
    ¬ IsJson (render L P cur .top t) := by
  rcases json_or hL P t with ⟨x, ts, rfl⟩ | ⟨hn, h⟩
  · rw [render]; exact leaf_not_json
  · rintro ⟨N, j, r, hr, -⟩
    obtain ⟨c, z, hz, hc⟩ := noLeaf_text hn L P cur .top
    rw [hz, skipWs_of_not hc, ← hz] at hr
    rcases h N cur .top [] hcur with h | ⟨h, -⟩
    · rw [List.append_nil] at h
      rw [h] at hr
      cases hr
    · exact h ht

theorem readText_json {s : Bytes} (h : ¬ IsJson s) : readText s = none := by
  unfold readText
  split
  · rfl
  · rename_i j r e
    rw [if_neg]
    exact fun hr => h ⟨_, _, _, e, hr.1⟩

/-- **C104.**  The text of a document with a timestamp, with or without indentation, is no JSON: `FromCompatibleTsonBytes` and other
readers of JSON never take a document for plain data. -/
theorem C104_not_json (P : Nat → Bool) {t : Tson} (ht : HasStamp t) :
    (∀ s, marshal P t = .ok s → ¬ IsJson s ∧ fromCompatibleText s = .err) ∧
    ∀ pre ind : Bytes, AllWs pre → AllWs ind → ¬ IsJson (marshalIndent P t pre ind) ∧ fromCompatibleText (marshalIndent P t pre ind) = .err := by
  have key : ∀ s, ¬ IsJson s → ¬ IsJson s ∧ fromCompatibleText s = .err := fun s h => ⟨h, by rw [fromCompatibleText, unmarshalText, readText_json h]; rfl⟩
  constructor
  · intro s hs
    refine key s ?_
    have hn : NullFree t := Classical.byContradiction fun hn => by
      rw [marshal, marshalTson_null P .top hn] at hs
      cases hs
    rw [marshal, marshalTson_render P [] .top hn] at hs
    cases hs
    exact render_not_json compactLayout_ok ht .nil
  · intro pre ind hp hi
    refine key _ ?_
    rw [marshalIndent, marshalIndent_render]
    exact render_not_json (indentLayout_ok hi) ht hp

/-- A document with an empty object beside a value. -/
example : HasStamp (.obj [(b!"a", .obj []), (b!"b", .arr [.leaf (.bool true) 5])]) :=
  .member (k := b!"b") (.tail _ (.head _)) (.elem (.head _) (.leaf _ _))
example : marshal (fun _ => true) (.obj [(b!"a", .obj []), (b!"b", .arr [.leaf (.bool true) 5])]) = .ok b!"{\"a\": {}, \"b\": [<5> true]}" := by decide
/-- Without timestamps the text can be JSON. -/
example : ∃ s, marshal (fun _ => true) (.obj [(b!"a", .obj [])]) = .ok s ∧ IsJson s :=
  ⟨b!"{\"a\": {}}", by decide, 5, .obj [(b!"a", .obj [])], [], by rfl, rfl⟩

end Verif
