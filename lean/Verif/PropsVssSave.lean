import Verif.SaveLemmas
import Verif.PatchTextLemmas
import Verif.PropsFloatRange
/-
Property C77: saved data sets and saved patches can be read back.
-/
namespace Verif

/-! ### Data sets -/

theorem vssSave_text {m : List (Bytes × Js)} (h : DataTree (.obj m)) (P : Nat → Bool) :
    vssSave P (.obj m) = .ok (renderJs (indentLayout b!"    ") P [] .top (.obj m)) := by
  rw [vssSave, anyIndent_render h]

theorem tree_of_map {m : List (Bytes × Js)} (h : DataTree (.obj m)) (hs : b!"timestamp" ∉ mkeys m) : IsTree (.obj m) := by
  rcases h.shape with ⟨x, ts, e, -⟩ | h
  · rw [readingJs] at e
    cases e
    exact absurd (by simp [mkeys]) hs
  · exact h

theorem indent_blank : AllWs b!"    " := by
  repeat first | exact .nil | refine .cons (by decide) ?_

/-- C77: a saved data set whose keys and values are readable gives, read with `Unmarshal`, the document with the same keys
in the same order, the same values, and the exact timestamps (negative ones as -1). -/
theorem C77_data_partial (P : Nat → Bool) {m : List (Bytes × Js)} (h : DataTree (.obj m)) (hs : b!"timestamp" ∉ mkeys m)
    (hr : ReadableData P (.obj m)) : ∃ txt t, vssSave P (.obj m) = .ok txt ∧ unmarshal txt = .ok t ∧ SavedAs (.obj m) t := by
  refine ⟨_, docJs (.obj m), vssSave_text h P, ?_, docJs_saved h⟩
  have := (js_back (indentLayout_ok indent_blank) P h (tree_of_map h hs) [] .top [] .nil).1 hr
  rw [List.append_nil] at this
  rw [unmarshal_eq, this]

/-- C77: every other data set is saved all the same, as a text that `Unmarshal` refuses. -/
theorem C77_unreadable (P : Nat → Bool) {m : List (Bytes × Js)} (h : DataTree (.obj m)) (hs : b!"timestamp" ∉ mkeys m)
    (hr : ¬ ReadableData P (.obj m)) : ∃ txt, vssSave P (.obj m) = .ok txt ∧ unmarshal txt = .err := by
  refine ⟨_, vssSave_text h P, ?_⟩
  have := (js_back (indentLayout_ok indent_blank) P h (tree_of_map h hs) [] .top [] .nil).2 hr
  rw [List.append_nil] at this
  rw [unmarshal_eq, this]

/-! ### Values of patches -/

/-- The text with exponent and at least two digits of it is a JSON number with the right value. -/
theorem fmtExp_json (neg : Bool) (c : Nat) (k : Int) (h : c ≠ 0) : ∃ int frac eneg ds, GoodInt int ∧
    frac.all isDigit = true ∧ ds.all isDigit = true ∧ ds ≠ [] ∧
    fmtExp c k = int ++ (if frac = [] then [] else 46 :: frac) ++ 101 :: (if eneg then 45 else 43) :: ds ∧
    litFloat neg int (if frac = [] then none else some frac) (some (eneg, ds)) = readDecimal neg c k := by
  obtain ⟨int, frac, eneg, ds, h1, h2, h3, h4, h5, h6⟩ := jsonExp_json neg c k h
  have hd := natDigits_isDigit c
  have hv := digitsVal_natDigits c
  obtain ⟨d, r, e, h48, hdd⟩ := natDigits_pos h
  clear h1 h2 h3 h4 h5 h6 int frac eneg ds
  unfold fmtExp
  dsimp only
  rw [e] at hd hv ⊢
  rw [List.all_cons, Bool.and_eq_true] at hd
  generalize hx : ((d :: r).length : Int) + k - 1 = x
  have hes : ∃ es, (if (natDigits x.natAbs).length < 2 then 48 :: natDigits x.natAbs else natDigits x.natAbs) = es ∧
      es.all isDigit = true ∧ es ≠ [] ∧ digitsVal 0 es = x.natAbs := by
    refine ⟨_, rfl, ?_, ?_, ?_⟩
    · split
      · rw [List.all_cons, natDigits_isDigit]; rfl
      · exact natDigits_isDigit _
    · split
      · simp
      · exact natDigits_ne_nil _
    · split
      · rw [digitsVal_cons, show 0 * 10 + digitVal 48 = 0 from rfl, digitsVal_natDigits]
      · exact digitsVal_natDigits _
  obtain ⟨es, e1, e2, e3, e4⟩ := hes
  rw [e1]
  refine ⟨[d], r, decide (x < 0), es, ⟨by simp [hdd], .inr ⟨d, [], rfl, h48⟩⟩, hd.2, e2, e3, ?_, ?_⟩
  · cases r with
    | nil => simp
    | cons a r => simp
  · have hg : (if r = [] then none else some r).getD [] = r := by split <;> simp_all
    rw [litFloat, hg, List.cons_append, List.nil_append, hv]
    congr 1
    simp only [expVal, e4, decide_eq_true_eq]
    rw [List.length_cons] at hx
    split <;> omega

/-- The text of a finite number in Go is a JSON number. -/
theorem readNum_fmtFloat {neg : Bool} {m : Nat} {e : Int} (h : F64.canon m e = true) :
    ∃ int frac exp, litFloat neg int frac exp = some (.fin neg m e h) ∧
      (∃ c r, fmtFloat (.fin neg m e h) = c :: r ∧ (c = 45 ∨ isDigit c = true)) ∧ ∀ rest, JStop rest →
      readNum (fmtFloat (.fin neg m e h) ++ rest) = some (.num neg int frac exp, rest) := by
  have hs := shortest_reads (neg := neg) h
  have hhead : ∀ (int X : Bytes), GoodInt int →
      ∃ c r, (if neg = true then 45 :: (int ++ X) else int ++ X) = c :: r ∧ (c = 45 ∨ isDigit c = true) := by
    intro int X hi
    cases neg with
    | true => exact ⟨45, _, rfl, .inl rfl⟩
    | false =>
      rcases hi.2 with rfl | ⟨d, r, rfl, -⟩
      · exact ⟨48, _, rfl, .inr (by decide)⟩
      · have := hi.1
        rw [List.all_cons, Bool.and_eq_true] at this
        exact ⟨d, _, rfl, .inr this.1⟩
  simp only [fmtFloat]
  by_cases hx : usesExp (shortest neg m e h).1 (shortest neg m e h).2 = true
  · rw [if_pos hx]
    have hm : m ≠ 0 := by
      intro hm
      have : shortest neg m e h = (0, 0) := by simp [shortest, hm]
      rw [this] at hx
      revert hx; decide
    obtain ⟨int, frac, eneg, ds, hi, hf, hd, hne, et, el⟩ := fmtExp_json neg _ (shortest neg m e h).2
      (shortest_ne_zero (neg := neg) h hm)
    refine ⟨int, _, _, el.trans hs, ?_, fun rest hr => ?_⟩
    · rw [et, List.append_assoc]; exact hhead _ _ hi
    · have := readNum_exp neg eneg hi hf hd hne hr
      rw [et]
      exact this
  · rw [if_neg hx]
    have hc : (shortest neg m e h).1 ≠ 0 ∨ (shortest neg m e h).2 = 0 := by
      by_cases hm : m = 0
      · right; simp [shortest, hm]
      · exact .inl (shortest_ne_zero h hm)
    obtain ⟨int, frac, hi, hf, et, el⟩ := fmtPlain_json neg _ _ hc
    refine ⟨int, _, _, el.trans hs, ?_, fun rest hr => ?_⟩
    · rw [et]; exact hhead _ _ hi
    · have := readNum_plain neg hi hf hr
      rw [et]
      exact this

theorem readStr_escByte {c : UInt8} (h : plainByte c) (n : Nat) (r : Bytes) :
    readStr (n + 1) (escByte c ++ r) = consStr [c] (readStr n r) := by
  have key : ∀ c : UInt8, plainByte c →
      (escByte c = [c] ∧ c ≠ 34 ∧ c ≠ 92 ∧ ¬ c < 32 ∧ c < 0x80) ∨ ∃ e, escByte c = [92, e] ∧ e ≠ 117 ∧ jsonUnescape e = some c := by
    intro c h
    by_cases h1 : c = 34 ∨ c = 92
    · right
      refine ⟨c, by rw [escByte, if_pos h1], ?_, ?_⟩
      · rcases h1 with rfl | rfl <;> decide
      · rcases h1 with rfl | rfl <;> decide
    · rcases h with h | h | h | h | h | h
      · left
        refine ⟨by rw [escByte, if_neg h1, if_pos h], fun e => h1 (.inl e), fun e => h1 (.inr e), ?_, ?_⟩
        · simp only [UInt8.lt_iff_toNat_lt, UInt8.le_iff_toNat_le, UInt8.reduceToNat] at h ⊢; omega
        · simp only [UInt8.lt_iff_toNat_lt, UInt8.le_iff_toNat_le, UInt8.reduceToNat] at h ⊢; omega
      all_goals (subst h; right; exact ⟨_, rfl, by decide, by decide⟩)
  rcases key c h with ⟨e, h1, h2, h3, h4⟩ | ⟨x, e, h1, h2⟩
  · rw [e]
    simp only [List.cons_append, List.nil_append, readStr, if_neg h1, if_neg h2, if_neg h3, if_pos h4]
  · rw [e]
    simp only [List.cons_append, List.nil_append, readStr, if_neg (show (92 : UInt8) ≠ 34 by decide), if_true, if_neg h1, h2]

/-- Quoted plain text is a JSON string. -/
theorem litReads_quote {P : Nat → Bool} {s : Bytes} (h : PlainText P s) : ∀ n, s.length ≤ n → LitReads (quoteBody P n s) s := by
  induction h with
  | nil =>
    intro n _ N rest hN
    obtain ⟨N, rfl⟩ : ∃ k, N = k + 1 := ⟨N - 1, by omega⟩
    cases n <;> simp [quoteBody, readStr]
  | @ascii c s hc _ ih =>
    intro n hn N rest hN
    obtain ⟨N, rfl⟩ : ∃ k, N = k + 1 := ⟨N - 1, by omega⟩
    cases n with
    | zero => simp at hn
    | succ n =>
      have hlt : c < 0x80 := by
        rcases hc with ⟨-, h⟩ | h | h | h | h | h
        · simp only [UInt8.lt_iff_toNat_lt, UInt8.reduceToNat]
          simp only [UInt8.le_iff_toNat_le, UInt8.reduceToNat] at h
          omega
        all_goals (subst h; decide)
      have hpos : 0 < (escByte c).length := by
        unfold escByte
        repeat' split
        all_goals simp
      simp only [quoteBody, if_pos hlt, List.append_assoc, List.length_append] at hN ⊢
      rw [readStr_escByte hc, ih n (by simpa using hn) N rest (by omega)]
      rfl
  | @rune r s hr hP _ ih =>
    intro n hn N rest hN
    obtain ⟨N, rfl⟩ : ∃ k, N = k + 1 := ⟨N - 1, by omega⟩
    obtain ⟨c, l, hcl, hc⟩ := utf8Enc_cons hr
    have hrune := runeAt_utf8Enc hr s
    have htake : (utf8Enc r ++ s).take (utf8Enc r).length = utf8Enc r := by simp
    have hdrop : (utf8Enc r ++ s).drop (utf8Enc r).length = s := by simp
    have hlen : s.length + 1 ≤ (utf8Enc r ++ s).length := by
      rw [List.length_append, hcl, List.length_cons]; omega
    cases n with
    | zero => omega
    | succ n =>
      have e : quoteBody P (n + 1) (utf8Enc r ++ s) = utf8Enc r ++ quoteBody P n s := by
        have e0 : utf8Enc r ++ s = c :: (l ++ s) := by rw [hcl]; rfl
        rw [e0] at hrune htake hdrop
        rw [e0, quoteBody, if_neg hc, hrune]
        simp only [escRune, hP, if_true, htake, hdrop]
      rw [e] at hN ⊢
      rw [List.length_append, hcl, List.length_cons] at hN
      rw [List.append_assoc, readStr_rune hr, ih n (by omega) N rest (by omega)]
      rfl

/-- The Go syntax of such a value is its JSON text. -/
theorem SharedSyntax.reads {P : Nat → Bool} {v : Js} (h : SharedSyntax P v) :
    ∃ jt, TextReads (fmtGo P (some v)) jt ∧ jt.toAny = .ok v ∧ jt.depth = 0 := by
  cases h with
  | bool b =>
    have := PVal.reads (v := .any (.bool b)) trivial rfl
    obtain ⟨jt, h1, h2, h3⟩ := this
    exact ⟨jt, h1, h2, h3⟩
  | num neg m e h =>
    obtain ⟨int, frac, exp, h1, h2, h3⟩ := readNum_fmtFloat (neg := neg) h
    refine ⟨.num neg int frac exp, ⟨?_, fun N rest hs hN => ?_⟩, by rw [Jt.toAny, h1], rfl⟩
    · obtain ⟨c, r, e, hd⟩ := h2
      exact ⟨c, r, e, (digit_head hd).1⟩
    · obtain ⟨N, rfl⟩ : ∃ n, N = n + 1 := ⟨N - 1, by omega⟩
      rw [fmtGo, readVal_number h2, h3 _ hs]
  | str s hs => exact ⟨.str s, (litReads_quote hs _ (Nat.le_refl _)).text, rfl, rfl⟩

/-! ### Patches -/

theorem ItemOf.line {P : Nat → Bool} {i : Js} {o : POp} (h : ItemOf P i o) :
    ∃ s, saveItem P i = .ok (b!"    " ++ s) ∧ OpReads s o 1 ∧ ∃ r, s = 123 :: r := by
  obtain ⟨d, v, f, rfl, ho, hp, hv, e1, e2, g1, g2, g3, g4⟩ := h
  obtain ⟨jt, h1, h2, h3⟩ := hv.reads
  refine ⟨b!"{ \"op\": \"" ++ o.op ++ b!"\", \"path\": \"" ++ o.path ++ b!"\", \"value\": " ++ fmtGo P (some v) ++
      b!", \"timestamp\": " ++ itoa f.toInt64 ++ b!" }", ?_, ⟨_, textReads_op4 (litReads_plain ho) (litReads_plain hp) h1, ?_, ?_⟩, ?_⟩
  · simp only [saveItem, g1, g2, g3, g4, fmtS]
    rfl
  · have : o = ⟨o.op, o.path, .any v, f.toInt64⟩ := by rw [← e1, ← e2]
    rw [this]
    exact decodeFields_op4 h2 (toInt64_range f)
  · simp only [Jt.depth, Jt.depthF, h3]; omega
  · exact ⟨_, by simp only [List.cons_append]; rfl⟩

/-- The lines of all items. -/
theorem saveItems_lines {P : Nat → Bool} : ∀ (items : List Js) (ops : List POp), items.length = ops.length →
    (∀ (n : Nat) i o, items[n]? = some i → ops[n]? = some o → ItemOf P i o) →
    ∃ l : List OpText, saveItems P items = .ok (joinLines (l.map OpText.text)) ∧ l.map OpText.op = ops ∧
      (∀ x ∈ l, OpReads x.text x.op x.depth ∧ x.depth = 1 ∧ ∃ r, x.text = 123 :: r) := by
  intro items
  induction items with
  | nil =>
    intro ops hl _
    obtain rfl : ops = [] := List.length_eq_zero_iff.1 hl.symm
    exact ⟨[], rfl, rfl, fun x hx => by cases hx⟩
  | cons i items ih =>
    intro ops hl h
    cases ops with
    | nil => simp at hl
    | cons o ops =>
      obtain ⟨s, h1, h2, h3⟩ := (h 0 i o rfl rfl).line
      obtain ⟨l, g1, g2, g3⟩ := ih ops (by simpa using hl) fun n i' o' hi ho => h (n + 1) i' o' hi ho
      refine ⟨⟨s, o, 1⟩ :: l, ?_, by rw [List.map_cons, g2], ?_⟩
      · cases items with
        | nil =>
          have : l = [] := by
            have := congrArg List.length g2
            rw [List.length_map] at this
            simp only [List.length_cons, List.length_nil] at hl
            exact List.length_eq_zero_iff.1 (by omega)
          subst this
          rw [saveItems, h1]; rfl
        | cons j items =>
          cases l with
          | nil => rw [← g2] at hl; simp at hl
          | cons x l =>
            rw [saveItems, h1, Res.bind_ok, g1, Res.map_ok]
            · rfl
            · simp
      · intro x hx
        rcases List.mem_cons.1 hx with rfl | hx
        · exact ⟨h2, rfl, h3⟩
        · exact g3 x hx

/-- C77: a saved patch, read with `tsonpatch.Unmarshal`, gives the operations of its items, in order, if the operation types
and paths need no escapes and the values are booleans, finite numbers or plain text. -/
theorem C77_patch_partial (P : Nat → Bool) {items : List Js} {ops : List POp} (hl : items.length = ops.length)
    (h : ∀ (n : Nat) i o, items[n]? = some i → ops[n]? = some o → ItemOf P i o) :
    ∃ txt, vssSave P (.arr items) = .ok txt ∧ unmarshalPatch txt = .ok (some ops) := by
  obtain ⟨l, h1, h2, h3⟩ := saveItems_lines items ops hl h
  refine ⟨b!"[\n" ++ joinLines (l.map OpText.text) ++ b!"\n]", by rw [vssSave, h1, Res.map_ok], ?_⟩
  cases l with
  | nil => rw [← h2]; rfl
  | cons x l =>
    obtain ⟨jl, g1, g2, g3⟩ := readElems_lines (x :: l) (by simp) fun y hy => (h3 y hy).1
    obtain ⟨r, hr⟩ : ∃ r, skipWs (joinLines ((x :: l).map OpText.text) ++ (b!"\n" ++ [93])) = 123 :: r := by
      obtain ⟨r, hr⟩ := (h3 x (by simp)).2.2
      rw [List.map_cons, joinLines_cons, List.append_assoc, skipWs_blank (by decide), hr, List.append_assoc, List.cons_append,
        skipWs_of_not (by decide)]
      exact ⟨_, rfl⟩
    have := unmarshalPatch_arr (w := b!"\n") (X := joinLines ((x :: l).map OpText.text) ++ (b!"\n" ++ [93])) (jl := jl)
      (by decide) hr (by decide) (fun N hN => g1 N b!"\n" [] (by decide) (by simp only [List.length_append, List.length_cons, List.length_nil] at hN; omega))
    have e : b!"[\n" ++ joinLines ((x :: l).map OpText.text) ++ b!"\n]" =
        91 :: (b!"\n" ++ (joinLines ((x :: l).map OpText.text) ++ (b!"\n" ++ [93]))) := by
      simp only [List.cons_append, List.nil_append]
    rw [e, this, g2, g3, h2]
    have hd : maxDepth ((x :: l).map OpText.depth) ≤ 9999 := by
      rw [maxDepth_le]
      intro d hd
      obtain ⟨y, hy, rfl⟩ := List.mem_map.1 hd
      rw [(h3 y hy).2.1]; omega
    rw [if_pos (by omega)]
    rfl

/-- C77: the saved patch between two data sets, read back, has exactly one operation for each reading that changed. -/
theorem C77_between_partial (P : Nat → Bool) {m n : List (Bytes × Js)} (hm : DataTree (.obj m)) (hn : DataTree (.obj n))
    (hs : SameData (.obj m) (.obj n)) (hdm : (Js.obj m).depth ≤ 10000) (hdn : (Js.obj n).depth ≤ 10000)
    (hr : ∀ ks y u, ReadingAt (.obj n) ks y u → RawText (pointer ks) ∧ ∀ s, y = .str s → PlainText P s) :
    ∃ patch txt ops, vssPatch m n = .ok patch ∧ vssSave P patch = .ok txt ∧ unmarshalPatch txt = .ok (some ops) ∧ ops.Nodup ∧
      ∀ o, o ∈ ops ↔ ∃ ks x t y u v, ReadingAt (.obj m) ks x t ∧ ReadingAt (.obj n) ks y u ∧ ¬ SameReading x t y u ∧
        Decoded y v ∧ o = ⟨b!"replace", pointer ks, .any v, jsonStamp u⟩ := by
  obtain ⟨items, h1, h2, h3⟩ := C76_patch_partial hm hn hs hdm hdn
  have hex : ∀ i : {i // i ∈ items}, ∃ o : POp, ItemOf P i.1 o ∧ ∃ ks x t y u v, ReadingAt (.obj m) ks x t ∧
      ReadingAt (.obj n) ks y u ∧ ¬ SameReading x t y u ∧ Decoded y v ∧ o = ⟨b!"replace", pointer ks, .any v, jsonStamp u⟩ ∧
      i.1 = .obj [(b!"op", .str b!"replace"), (b!"path", .str (pointer ks)), (b!"value", v),
        (b!"timestamp", .num (.ofInt (jsonStamp u)))] := by
    rintro ⟨i, hi⟩
    obtain ⟨ks, x, t, y, u, r1, r2, hne, v, hv, rfl⟩ := (h3 i).1 hi
    obtain ⟨c1, ⟨c2, c3⟩, -⟩ := readingAt_valid hn r2
    obtain ⟨q1, q2⟩ := hr ks y u r2
    refine ⟨⟨b!"replace", pointer ks, .any v, jsonStamp u⟩, ⟨_, v, .ofInt (jsonStamp u), rfl, rawText_ascii (s := b!"replace") (by decide), q1, ?_, rfl, ?_, rfl, rfl, rfl, rfl⟩,
      ks, x, t, y, u, v, r1, r2, hne, hv, rfl, rfl⟩
    · cases hv with
      | bool b => exact .bool b
      | num x f hf =>
        cases hf with
        | num f => cases c1 with | num neg m e h => exact .num neg m e h
        | int k =>
          cases c1 with
          | int _ k1 k2 =>
            obtain ⟨neg, m, e, h, he⟩ := ofInt_fin (int64_natAbs k1 k2)
            rw [he]; exact .num neg m e h
      | str s => exact .str s (q2 s rfl)
    · exact (C76_again u c2 c3).symm
  obtain ⟨f, hf⟩ := Classical.axiomOfChoice hex
  refine ⟨.arr items, ?_⟩
  obtain ⟨txt, g1, g2⟩ := C77_patch_partial P (items := items) (ops := items.attach.map f) (by simp) (by
    intro k i o hi ho
    rw [List.getElem?_map] at ho
    obtain ⟨j, hj, rfl⟩ := Option.map_eq_some_iff.1 ho
    have : j.1 = i := by
      have := congrArg (Option.map Subtype.val) hj
      rw [← List.getElem?_map, List.attach_map_subtype_val, hi] at this
      simpa using this.symm
    rw [← this]
    exact (hf j).1)
  refine ⟨txt, _, h1, g1, g2, ?_, fun o => ?_⟩
  · rw [List.Nodup, List.pairwise_map]
    have : List.Pairwise (fun i j : {i // i ∈ items} => i.1 ≠ j.1) items.attach := by
      rw [← List.pairwise_map (f := Subtype.val) (R := fun a b : Js => a ≠ b), List.attach_map_subtype_val]
      exact h2
    refine this.imp fun {i j} hne he => hne ?_
    obtain ⟨-, ks, x, t, y, u, v, -, -, -, -, e1, e2⟩ := hf i
    obtain ⟨-, ks', x', t', y', u', v', -, -, -, -, e1', e2'⟩ := hf j
    rw [e1, e1'] at he
    simp only [POp.mk.injEq, PVal.any.injEq, true_and] at he
    rw [e2, e2', he.1, he.2.1, he.2.2]
  · rw [List.mem_map]
    constructor
    · rintro ⟨i, -, rfl⟩
      obtain ⟨-, ks, x, t, y, u, v, r1, r2, r3, r4, e, -⟩ := hf i
      exact ⟨ks, x, t, y, u, v, r1, r2, r3, r4, e⟩
    · rintro ⟨ks, x, t, y, u, v, r1, r2, r3, r4, rfl⟩
      have hi := (h3 _).2 ⟨ks, x, t, y, u, r1, r2, r3, v, r4, rfl⟩
      refine ⟨⟨_, hi⟩, List.mem_attach _ _, ?_⟩
      obtain ⟨-, ks', x', t', y', u', v', -, s2, -, -, e1, e2⟩ := hf ⟨_, hi⟩
      rw [e1]
      simp only [Js.obj.injEq, List.cons.injEq, Prod.mk.injEq, Js.str.injEq, Js.num.injEq, true_and, and_true] at e2
      obtain ⟨p1, p2, p3⟩ := e2
      obtain ⟨-, ⟨c2, c3⟩, -⟩ := readingAt_valid hn r2
      obtain ⟨-, ⟨d2, d3⟩, -⟩ := readingAt_valid hn s2
      have hts : jsonStamp (jsonStamp u) = jsonStamp (jsonStamp u') := congrArg F64.toInt64 p3
      rw [C76_again u c2 c3, C76_again u' d2 d3] at hts
      rw [p1, p2, hts]

/-! ### What is lost -/

/-- C77: a number below 0.0001 or from 1000000 on is written with an exponent; the file is not read. -/
theorem C77_exponent_fails : ∃ m, DataTree (.obj m) ∧ b!"timestamp" ∉ mkeys m ∧
    ∀ P, ∃ txt, vssSave P (.obj m) = .ok txt ∧ unmarshal txt = .err := by
  have hd : DataTree (.obj [(b!"a", readingJs (.num (.ofInt 1000000)) 5)]) := by
    refine .map _ (by simp [mkeys]) (by
      intro k hk
      simp only [mkeys, List.map_cons, List.map_nil, List.mem_singleton] at hk
      subst hk
      exact ⟨valid_ascii (by decide), by decide, by decide⟩) ?_
    intro p hp
    rw [List.mem_singleton] at hp
    subst hp
    obtain ⟨neg, m, e, h, he⟩ := ofInt_fin (n := 1000000) (by decide)
    rw [he]
    exact .reading _ _ (.num neg m e h) (by decide) (by decide)
  refine ⟨_, hd, by simp [mkeys], fun P => C77_unreadable P hd (by simp [mkeys]) fun h => ?_⟩
  rw [readableData_map (by simp [mkeys])] at h
  have := readableData_reading.1 (h _ (List.mem_singleton.2 rfl)).2
  generalize e : Js.num (.ofInt 1000000) = j at this
  cases this with
  | num f hf =>
    cases e
    exact absurd ((C33_whole_plain 1000000 (by decide)).1 hf) (by decide)
  | _ => cases e

/-- C77: if a data set contains a reading without value, the file is empty. -/
theorem C77_nil_fails (P : Nat → Bool) : vssSave P (.obj [(b!"a", readingJs (.bool true) 1), (b!"b", readingJs .null 1)]) = .ok [] ∧
    unmarshal [] = .err := by
  exact ⟨rfl, by decide⟩

set_option maxRecDepth 8000 in
/-- C77: a patch item without value is written with the Go syntax `<nil>`, which is not JSON. -/
theorem C77_nil_patch_fails (P : Nat → Bool) : ∃ txt, vssSave P (.arr [.obj [(b!"op", .str b!"replace"), (b!"path", .str b!"/a"), (b!"value", .null),
      (b!"timestamp", .num .zero)]]) = .ok txt ∧ unmarshalPatch txt = .err := by
  refine ⟨b!"[\n    { \"op\": \"replace\", \"path\": \"/a\", \"value\": <nil>, \"timestamp\": 0 }\n]", rfl, by rfl⟩

set_option maxRecDepth 8000 in
/-- C77: the path is written without escapes; with a quotation mark in a key the file is not read. -/
theorem C77_quote_fails (P : Nat → Bool) : ∃ txt, vssSave P (.arr [.obj [(b!"op", .str b!"replace"), (b!"path", .str b!"/a\"b"), (b!"value", .bool true),
      (b!"timestamp", .num .zero)]]) = .ok txt ∧ unmarshalPatch txt = .err := by
  refine ⟨b!"[\n    { \"op\": \"replace\", \"path\": \"/a\"b\", \"value\": true, \"timestamp\": 0 }\n]", rfl, by rfl⟩

/-- C77: a patch that is not there, as after failed generation (C76), cannot be saved. -/
theorem C77_absent_panics (P : Nat → Bool) : vssSave P .null = .panic := rfl

/-! ### Examples -/

/-- A data set with a nested reading. -/
def saveExample : List (Bytes × Js) :=
  [(b!"V", .obj [(b!"on", readingJs (.bool true) 5), (b!"n", readingJs (.int 1234567) (-3))]), (b!"s", readingJs (.str b!"a\"b") 7)]

theorem saveExample_tree : DataTree (.obj saveExample) := by
  refine .map _ (by decide) (by
    intro k hk
    simp only [saveExample, mkeys, List.map_cons, List.map_nil, List.mem_cons, List.not_mem_nil, or_false] at hk
    rcases hk with rfl | rfl <;> exact ⟨valid_ascii (by decide), by decide, by decide⟩) ?_
  intro p hp
  simp only [saveExample, List.mem_cons, List.not_mem_nil, or_false] at hp
  rcases hp with rfl | rfl
  · refine .map _ (by decide) (by
      intro k hk
      simp only [mkeys, List.map_cons, List.map_nil, List.mem_cons, List.not_mem_nil, or_false] at hk
      rcases hk with rfl | rfl <;> exact ⟨valid_ascii (by decide), by decide, by decide⟩) ?_
    intro p hp
    simp only [List.mem_cons, List.not_mem_nil, or_false] at hp
    rcases hp with rfl | rfl
    · exact .reading _ _ (.bool true) (by decide) (by decide)
    · exact .reading _ _ (.int _ (by decide) (by decide)) (by decide) (by decide)
  · exact .reading _ _ (.str _ (valid_ascii (by decide))) (by decide) (by decide)

theorem plain_ascii {P : Nat → Bool} {s : Bytes} (h : ∀ c ∈ s, 32 ≤ c ∧ c ≤ 126) : PlainText P s := by
  induction s with
  | nil => exact .nil
  | cons c s ih => rw [List.forall_mem_cons] at h; exact .ascii (.inl h.1) (ih h.2)

theorem saveExample_readable (P : Nat → Bool) : ReadableData P (.obj saveExample) := by
  refine .map _ (by decide) (by
    intro k hk
    simp only [saveExample, mkeys, List.map_cons, List.map_nil, List.mem_cons, List.not_mem_nil, or_false] at hk
    rcases hk with rfl | rfl <;> exact plain_ascii (by decide)) ?_
  intro p hp
  simp only [saveExample, List.mem_cons, List.not_mem_nil, or_false] at hp
  rcases hp with rfl | rfl
  · refine .map _ (by decide) (by
      intro k hk
      simp only [mkeys, List.map_cons, List.map_nil, List.mem_cons, List.not_mem_nil, or_false] at hk
      rcases hk with rfl | rfl <;> exact plain_ascii (by decide)) ?_
    intro p hp
    simp only [List.mem_cons, List.not_mem_nil, or_false] at hp
    rcases hp with rfl | rfl
    · exact .reading _ _ (.bool true)
    · exact .reading _ _ (.int _)
  · exact .reading _ _ (.str _ (plain_ascii (by decide)))

/-- The hypotheses of `C77_data_partial` are met. -/
example : ∃ txt t, vssSave (fun _ => true) (.obj saveExample) = .ok txt ∧ unmarshal txt = .ok t ∧ SavedAs (.obj saveExample) t :=
  C77_data_partial _ saveExample_tree (by decide) (saveExample_readable _)

/-- The text of the example. -/
example : vssSave (fun _ => true) (.obj saveExample) =
    .ok b!"{\n    \"V\": {\n        \"on\" <5>: true,\n        \"n\" <>: 1234567\n    },\n    \"s\" <7>: \"a\\\"b\"\n}" := by rfl

/-- A data set that meets the hypotheses of `C77_unreadable`: a control character in a string. -/
example (P : Nat → Bool) : ∃ txt, vssSave P (.obj [(b!"s", readingJs (.str [1]) 7)]) = .ok txt ∧ unmarshal txt = .err := by
  refine C77_unreadable P ?_ (by simp [mkeys]) ?_
  · refine .map _ (by simp [mkeys]) (by
      intro k hk
      simp only [mkeys, List.map_cons, List.map_nil, List.mem_singleton] at hk
      subst hk
      exact ⟨valid_ascii (by decide), by decide, by decide⟩) ?_
    intro p hp
    rw [List.mem_singleton] at hp
    subst hp
    exact .reading _ _ (.str _ (valid_ascii (by decide))) (by decide) (by decide)
  · rw [readableData_map (by simp [mkeys])]
    intro h
    have h1 := readableData_reading.1 (h _ (List.mem_singleton.2 rfl)).2
    cases h1 with
    | str s hs =>
      generalize e : [(1 : UInt8)] = s at hs
      cases hs with
      | nil => cases e
      | ascii hc => cases e; revert hc; decide
      | @rune r s hr =>
        obtain ⟨c, l, e', hc⟩ := utf8Enc_cons hr
        rw [e', List.cons_append, List.cons.injEq] at e
        obtain ⟨rfl, -⟩ := e
        exact hc (by decide)

theorem zero_stamp : F64.zero.toInt64 = 0 := by decide +kernel

/-- The hypotheses of `C77_patch_partial` are met. -/
example (P : Nat → Bool) : ∃ txt, vssSave P (.arr [.obj [(b!"op", .str b!"replace"), (b!"path", .str b!"/V/s"), (b!"value", .str b!"a\"b"),
    (b!"timestamp", .num .zero)]]) = .ok txt ∧
    unmarshalPatch txt = .ok (some [⟨b!"replace", b!"/V/s", .any (.str b!"a\"b"), 0⟩]) := by
  refine C77_patch_partial P rfl fun n i o hi ho => ?_
  cases n with
  | zero =>
    cases hi
    cases ho
    exact ⟨_, _, .zero, rfl, rawText_ascii (s := b!"replace") (by decide), rawText_ascii (s := b!"/V/s") (by decide),
      .str _ (plain_ascii (by decide)), rfl, zero_stamp.symm, rfl, rfl, rfl, rfl⟩
  | succ n => cases hi

theorem one_reading (b : Bool) (ts : Int) (h1 : minInt64 ≤ ts) (h2 : ts ≤ maxInt64) : DataTree (.obj [(b!"V", readingJs (.bool b) ts)]) := by
  refine .map _ (by simp [mkeys]) (by
    intro k hk
    simp only [mkeys, List.map_cons, List.map_nil, List.mem_singleton] at hk
    subst hk
    exact ⟨valid_ascii (by decide), by decide, by decide⟩) ?_
  intro p hp
  rw [List.mem_singleton] at hp
  subst hp
  exact .reading _ _ (.bool b) h1 h2

/-- The hypotheses of `C77_between_partial` are met. -/
example (P : Nat → Bool) : ∃ patch txt ops, vssPatch [(b!"V", readingJs (.bool true) 7)] [(b!"V", readingJs (.bool false) 9)] = .ok patch ∧
    vssSave P patch = .ok txt ∧ unmarshalPatch txt = .ok (some ops) ∧
    (⟨b!"replace", b!"/V", .any (.bool false), jsonStamp 9⟩ : POp) ∈ ops := by
  have hat : ∀ b ts ks y u, ReadingAt (.obj [(b!"V", readingJs (.bool b) ts)]) ks y u → ks = [b!"V"] ∧ y = .bool b := by
    intro b ts ks y u h
    generalize e : Js.obj [(b!"V", readingJs (.bool b) ts)] = j at h
    cases h with
    | here x ts => cases e
    | member m k c ks x ts _ hc hr =>
      cases e
      by_cases hk : b!"V" = k
      · subst hk
        cases hc
        obtain ⟨rfl, rfl, -⟩ := readingAt_reading hr
        exact ⟨rfl, rfl⟩
      · simp only [mget, if_neg hk] at hc
        cases hc
    | element => cases e
  have hs : SameData (.obj [(b!"V", readingJs (.bool true) 7)]) (.obj [(b!"V", readingJs (.bool false) 9)]) := by
    refine .map _ _ (by simp [mkeys]) (fun k => ?_) fun k v w hv hw => ?_
    · by_cases hk : b!"V" = k <;> simp [mget, hk]
    · by_cases hk : b!"V" = k
      · simp only [mget, if_pos hk] at hv hw
        cases hv
        cases hw
        exact .reading _ _ _ _ (.bool true false)
      · simp only [mget, if_neg hk] at hv
        cases hv
  obtain ⟨patch, txt, ops, h1, h2, h3, -, h5⟩ := C77_between_partial P (one_reading true 7 (by decide) (by decide))
    (one_reading false 9 (by decide) (by decide)) hs (by decide) (by decide) (by
      intro ks y u h
      obtain ⟨rfl, rfl⟩ := hat _ _ _ _ _ h
      exact ⟨rawText_ascii (by decide), fun s e => by cases e⟩)
  refine ⟨patch, txt, ops, h1, h2, h3, (h5 _).2 ⟨[b!"V"], .bool true, 7, .bool false, 9, .bool false, ?_, ?_, ?_, .bool false, rfl⟩⟩
  · exact .member _ _ _ _ _ _ (by simp [mkeys]) rfl (.here _ _)
  · exact .member _ _ _ _ _ _ (by simp [mkeys]) rfl (.here _ _)
  · rintro ⟨h, -⟩
    revert h
    decide +kernel

end Verif
