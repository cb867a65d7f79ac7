import Verif.ParseInv
/-
Properties of the text format (C33-C37).

The document after a round trip is described by `clampTs` (negative timestamps become -1) and the readable documents
by `Readable` (`SpecCodec`).  `P` says which code points of at least 0x80 are printable (`strconv.IsPrint`); the
theorems hold for every `P`.  The member lists of a document stand for one map iteration order, so the theorems,
which hold for all documents, hold for all iteration orders of `Marshal`.
-/
namespace Verif

/-! ### Lemmas -/

mutual
theorem marshalTson_null (P : Nat → Bool) : ∀ (ctx : Ctx) {t : Tson}, ¬ NullFree t → marshalTson P ctx t = .err
  | _, .null, _ => by simp [marshalTson]
  | _, .leaf p ts, h => (h trivial).elim
  | _, .obj m, h => by rw [marshalTson, marshalMembers_null P true h]; rfl
  | _, .arr l, h => by rw [marshalTson, marshalElems_null P true h]; rfl
theorem marshalMembers_null (P : Nat → Bool) : ∀ (first : Bool) {m : List (Bytes × Tson)}, ¬ NullFreeF m →
    marshalMembers P first m = .err
  | _, [], h => (h trivial).elim
  | first, (k, v) :: m, h => by
    rw [marshalMembers]
    by_cases hv : NullFree v
    · rw [marshalTson_render P [] .object hv, Res.bind_ok, marshalMembers_null P false fun hm => h ⟨hv, hm⟩]; rfl
    · rw [marshalTson_null P .object hv]; rfl
theorem marshalElems_null (P : Nat → Bool) : ∀ (first : Bool) {l : List Tson}, ¬ NullFreeL l →
    marshalElems P first l = .err
  | _, [], h => (h trivial).elim
  | first, v :: l, h => by
    rw [marshalElems]
    by_cases hv : NullFree v
    · rw [marshalTson_render P [] .array hv, Res.bind_ok, marshalElems_null P false fun hm => h ⟨hv, hm⟩]; rfl
    · rw [marshalTson_null P .array hv]; rfl
end

mutual
theorem readable_nullFree (P : Nat → Bool) : ∀ {t : Tson}, Readable P t → NullFree t
  | .null, h => h.elim
  | .leaf _ _, _ => trivial
  | .obj _, h => readableF_nullFree P h
  | .arr _, h => readableL_nullFree P h
theorem readableF_nullFree (P : Nat → Bool) : ∀ {m : List (Bytes × Tson)}, ReadableF P m → NullFreeF m
  | [], _ => trivial
  | (_, _) :: _, h => ⟨readable_nullFree P h.2.1, readableF_nullFree P h.2.2⟩
theorem readableL_nullFree (P : Nat → Bool) : ∀ {l : List Tson}, ReadableL P l → NullFreeL l
  | [], _ => trivial
  | _ :: _, h => ⟨readable_nullFree P h.1, readableL_nullFree P h.2⟩
end

mutual
theorem clampTs_id : ∀ {t : Tson}, (∀ ts ∈ stamps t, -1 ≤ ts) → clampTs t = t
  | .null, _ => rfl
  | .leaf p ts, h => by
    have := h ts (by simp [stamps])
    rw [clampTs]
    by_cases h0 : 0 ≤ ts
    · rw [if_pos h0]
    · rw [if_neg h0]
      have : ts = -1 := by omega
      rw [this]
  | .obj m, h => by rw [clampTs, clampTsF_id h]
  | .arr l, h => by rw [clampTs, clampTsL_id h]
theorem clampTsF_id : ∀ {m : List (Bytes × Tson)}, (∀ ts ∈ stampsF m, -1 ≤ ts) → clampTsF m = m
  | [], _ => rfl
  | (k, v) :: m, h => by
    rw [clampTsF, clampTs_id fun n hn => h n (by simp [stampsF, hn]), clampTsF_id fun n hn => h n (by simp [stampsF, hn])]
theorem clampTsL_id : ∀ {l : List Tson}, (∀ ts ∈ stampsL l, -1 ≤ ts) → clampTsL l = l
  | [], _ => rfl
  | v :: l, h => by
    rw [clampTsL, clampTs_id fun n hn => h n (by simp [stampsL, hn]), clampTsL_id fun n hn => h n (by simp [stampsL, hn])]
end

theorem notNum_space (r : Bytes) : NotNum (32 :: r) := by
  intro c x h; cases h; decide

theorem pVal_top {P : Nat → Bool} {p : Prim} {ts : Int} (h : Readable P (.leaf p ts)) :
    pVal (fmtLeaf P .top p ts) = .ok (clampTs (.leaf p ts)) [] := by
  rw [pVal_unfold]
  unfold fmtLeaf
  simp only
  rw [valStep_prim h.1 (notNum_space _)]
  unfold suffixTs
  have hs : skipWs (32 :: fmtTs ts) = 60 :: ((if 0 ≤ ts then itoa ts else []) ++ [62]) := by
    simp [skipWs, isWs, fmtTs]
  rw [hs]
  have := parseTs_fmtTs h.2 []
  rw [List.append_nil] at this
  unfold fmtTs at this
  simp only [this]
  rfl

/-! ### C33: reading back what was written -/

/-- Documents with readable keys and values read back, except that negative timestamps become -1.
Missing for the full property: strings and keys outside `PlainText`, numbers printed with an exponent, nil. -/
theorem C33_roundtrip_partial (P : Nat → Bool) (t : Tson) (hw : t.Wf) (h : Readable P t) :
    ∃ txt, marshal P t = .ok txt ∧ unmarshal txt = .ok (clampTs t) := by
  have hn := readable_nullFree P h
  refine ⟨render compactLayout P [] .top t, marshalTson_render P [] .top hn, ?_⟩
  rw [unmarshal_eq]
  cases t with
  | null => exact h.elim
  | leaf p ts =>
    have := pVal_top h
    rw [render, this]
  | obj m =>
    have := (readsBack compactLayout_ok P _ hn hw trivial [] .top [] .nil).1 h
    rw [List.append_nil] at this
    rw [this]
  | arr l =>
    have := (readsBack compactLayout_ok P _ hn hw trivial [] .top [] .nil).1 h
    rw [List.append_nil] at this
    rw [this]

/-- If no timestamp is below -1, the document is read back unchanged. -/
theorem C33_exact_partial (P : Nat → Bool) (t : Tson) (hw : t.Wf) (h : Readable P t) (ht : ∀ ts ∈ stamps t, -1 ≤ ts) :
    ∃ txt, marshal P t = .ok txt ∧ unmarshal txt = .ok t := by
  have := C33_roundtrip_partial P t hw h
  rwa [clampTs_id ht] at this

/-- The hypotheses of the two theorems hold for a document with escapes, a number, a negative timestamp and an empty
container. -/
example : ∃ t : Tson, t.Wf ∧ Readable (fun _ => true) t ∧ (∀ ts ∈ stamps t, -1 ≤ ts) ∧
    t = .obj [([97, 10], .leaf (.str (34 :: utf8Enc 0xE9)) 5),
      (b!"b", .arr [.leaf (.num ((F64.ofRatio true 3 2).getD .nan)) (-1), .arr []])] := by
  refine ⟨_, ?_, ?_, ?_, rfl⟩
  · simp [Tson.Wf, Tson.WfF, Tson.WfL, mkeys]
  · refine ⟨.ascii (by decide) (.ascii (by decide) .nil), ⟨.ascii (by decide) ?_, by decide⟩, .ascii (by decide) .nil,
      ⟨⟨?_, by decide⟩, trivial, trivial⟩, trivial⟩
    · have : PlainText (fun _ => true) (utf8Enc 0xE9 ++ []) := .rune ⟨by decide, by decide, by decide⟩ rfl .nil
      rwa [List.append_nil] at this
    · exact ⟨true, 6755399441055744, -52, by decide +kernel, by decide +kernel, by decide +kernel⟩
  · simp [stamps, stampsF, stampsL]

/-- Every other object or array gives an error, when written or when read. -/
theorem C33_unreadable (P : Nat → Bool) (t : Tson) (hw : t.Wf) (hc : t.IsContainer) (h : ¬ Readable P t) :
    marshal P t = .err ∨ ∃ txt, marshal P t = .ok txt ∧ unmarshal txt = .err := by
  by_cases hn : NullFree t
  · refine .inr ⟨_, marshalTson_render P [] .top hn, ?_⟩
    have := (readsBack compactLayout_ok P _ hn hw hc [] .top [] .nil).2 h
    rw [List.append_nil] at this
    rw [unmarshal_eq, this]
  · exact .inl (marshalTson_null P .top hn)

/-- So a text written for an object or an array is never read as a different document. -/
theorem C33_no_silent_change (P : Nat → Bool) (t u : Tson) (hw : t.Wf) (hc : t.IsContainer) (txt : Bytes)
    (h1 : marshal P t = .ok txt) (h2 : unmarshal txt = .ok u) : u = clampTs t := by
  by_cases h : Readable P t
  · obtain ⟨x, hx, hu⟩ := C33_roundtrip_partial P t hw h
    rw [h1] at hx; cases hx
    rw [h2] at hu; cases hu; rfl
  · rcases C33_unreadable P t hw hc h with h | ⟨x, hx, hu⟩
    · rw [h1] at h; cases h
    · rw [h1] at hx; cases hx
      rw [h2] at hu; cases hu

/-- A text is written exactly for the documents without nil. -/
theorem C33_marshal_nil (P : Nat → Bool) (t : Tson) : (∃ txt, marshal P t = .ok txt) ↔ NullFree t := by
  constructor
  · rintro ⟨x, hx⟩
    by_cases h : NullFree t
    · exact h
    · rw [marshal, marshalTson_null P .top h] at hx; cases hx
  · exact fun h => ⟨_, marshalTson_render P [] .top h⟩

/-- The property fails for a string with the control character `\a`: `Quote` writes `"\a"`, which the parser does not
understand. -/
theorem C33_control_char_fails : ∃ t txt, t.Wf ∧ marshal (fun _ => true) t = .ok txt ∧ unmarshal txt = .err :=
  ⟨.obj [(b!"k", .leaf (.str [7]) 1)], b!"{\"k\" <1>: \"\\a\"}", by simp [Tson.Wf, Tson.WfF, mkeys], by decide +kernel,
    by decide +kernel⟩

/-- The property fails for a document with the number 21000000, which `%v` writes as `2.1e+07`. -/
theorem C33_exponent_fails : ∃ t txt, t.Wf ∧ marshal (fun _ => true) t = .ok txt ∧ unmarshal txt = .err :=
  ⟨.obj [(b!"k", .leaf (.num (F64.ofInt 21000000)) 1)], b!"{\"k\" <1>: 2.1e+07}", by simp [Tson.Wf, Tson.WfF, mkeys],
    by decide +kernel, by decide +kernel⟩

/-- For a leaf as whole document the exponent and the timestamp are dropped without an error: 21000000 at time 5 is
read as 2.1 without timestamp. -/
theorem C33_top_leaf_fails : ∃ txt,
    marshal (fun _ => true) (.leaf (.num (F64.ofInt 21000000)) 5) = .ok txt ∧
    unmarshal txt = .ok (.leaf (.num ((F64.ofRatio false 21 10).getD .nan)) (-1)) :=
  ⟨b!"2.1e+07 <5>", by decide +kernel, by decide +kernel⟩

/-! ### C34: the indented form -/

/-- The indented form of a document without nil is read like the compact one. -/
theorem C34_indent_partial (P : Nat → Bool) (t : Tson) (pre ind : Bytes) (hw : t.Wf) (hn : NullFree t)
    (hp : IsBlank pre) (hi : IsBlank ind) :
    ∃ txt, marshal P t = .ok txt ∧ unmarshal (marshalIndent P t pre ind) = unmarshal txt := by
  refine ⟨_, marshalTson_render P pre .top hn, ?_⟩
  unfold marshalIndent
  rw [marshalIndent_render]
  have hcont : t.IsContainer → unmarshal (render (indentLayout ind) P pre .top t) =
      unmarshal (render compactLayout P pre .top t) := by
    intro hc
    have a := readsBack (indentLayout_ok (allWs_of_blank hi)) P t hn hw hc pre .top [] (allWs_of_blank hp)
    have b := readsBack compactLayout_ok P t hn hw hc pre .top [] (allWs_of_blank hp)
    simp only [List.append_nil] at a b
    rw [unmarshal_eq, unmarshal_eq]
    by_cases h : Readable P t
    · rw [a.1 h, b.1 h]
    · rw [a.2 h, b.2 h]
  cases t with
  | null => exact hn.elim
  | leaf p ts => rfl
  | obj m => exact hcont trivial
  | arr l => exact hcont trivial

example : ∃ t : Tson, t.Wf ∧ NullFree t ∧ IsBlank b!" \t" ∧ marshalIndent (fun _ => true) t b!" \t" b!"  " =
    b!"[\n \t  <3> \"x\"\n \t]" :=
  ⟨.arr [.leaf (.str b!"x") 3], by simp [Tson.Wf, Tson.WfL], by simp [NullFree, NullFreeL],
    by unfold IsBlank; decide, by decide +kernel⟩

/-- With nil in the document `Marshal` fails, but `MarshalIndent` writes `null`, on which `Unmarshal` panics. -/
theorem C34_null_fails : ∃ t : Tson, t.Wf ∧ marshal (fun _ => true) t = .err ∧
    unmarshal (marshalIndent (fun _ => true) t [] b!" ") = .panic :=
  ⟨.arr [.null], by simp [Tson.Wf, Tson.WfL], by decide +kernel, by decide +kernel⟩

/-! ### C35: the parser is total -/

/-- The bound on the recursion depth in the definition of `unmarshal` is immaterial: the parser comes to an end, with
the same outcome for every larger bound. -/
theorem C35_fuel (s : Bytes) : ∃ r, r ≠ PRes.more ∧ ∀ n, 2 * s.length < n → parseVal n (skipWs s) = r := by
  refine ⟨pVal (skipWs s), pVal_ne_more _, fun n hn => parseVal_eq ?_⟩
  have := skipWs_length s
  omega

/-- The outcome is a document, an error, or, only if the text contains `null`, a panic.
Missing for the full property: texts containing `null`. -/
theorem C35_total_partial (s : Bytes) (h : ¬ ∃ a b, s = a ++ (b!"null" ++ b)) :
    (∃ v, unmarshal s = .ok v) ∨ unmarshal s = .err := by
  rw [unmarshal_eq]
  have hp := pVal_ok s
  cases e : pVal s with
  | ok v r => exact .inl ⟨v, rfl⟩
  | err => exact .inr rfl
  | more => exact .inr rfl
  | panic =>
    rw [e] at hp
    exact absurd (tokens_null (s.length + 1) (by omega) hp) h

example : ¬ ∃ a b, b!"[<5> \"nul\", }" = a ++ (b!"null" ++ b) := by
  rintro ⟨a, b, h⟩
  have := congrArg (fun l => hasPrefix (l.drop a.length) b!"null") h
  simp only [List.drop_left] at this
  have hl : a.length ≤ 13 := by have := congrArg List.length h; simp at this; omega
  have h2 : ∀ n ≤ 13, hasPrefix (b!"[<5> \"nul\", }".drop n) b!"null" = false := by decide
  rw [h2 _ hl] at this
  simp [hasPrefix, List.isPrefixOf] at this

/-- The property fails: `null` inside an object or an array makes `Unmarshal` panic. -/
theorem C35_null_fails : unmarshal b!"{\"a\": null}" = .panic ∧ unmarshal b!"[1, null]" = .panic := by
  constructor <;> decide +kernel

/-- `null` as whole text gives the nil document without an error. -/
theorem C35_top_null : unmarshal b!"null" = .ok .null := by decide +kernel

/-! ### C36: white space -/

/-- The outcome depends on the tokens of the text only. -/
theorem C36_tokens (s s' : Bytes) (h : tokens s = tokens s') : unmarshal s = unmarshal s' := unmarshal_same h

/-- White space inserted between two tokens, before the first or after the last one does not change the outcome. -/
theorem C36_insert (pre w post : Bytes) (hw : IsBlank w) (h : Boundary post pre) :
    unmarshal (pre ++ (w ++ post)) = unmarshal (pre ++ post) :=
  unmarshal_same (tokens_insert (allWs_of_blank hw) h)

/-- White space in front of the text does not change the outcome. -/
theorem C36_front (w s : Bytes) (hw : IsBlank w) : unmarshal (w ++ s) = unmarshal s := C36_insert [] w s hw .here

/-- White space in front of the closing bracket of a timestamp does not change the outcome. -/
theorem C36_angle (pre ds w post : Bytes) (hw : IsBlank w) (hne : ds ≠ []) (hd : ds.all isDigit = true)
    (h : Boundary (60 :: (ds ++ 62 :: post)) pre) :
    unmarshal (pre ++ 60 :: (ds ++ (w ++ 62 :: post))) = unmarshal (pre ++ 60 :: (ds ++ 62 :: post)) :=
  unmarshal_same (tokens_angle (allWs_of_blank hw) hne hd h)

/-- A boundary inside a text: after `[`, `<5>` and `1`, in front of `, true]`. -/
example : Boundary b!", true]" b!"[<5>1" ∧ IsBlank b!"\t\n " := by
  constructor
  · have h3 : Boundary b!", true]" b!"1" := .tok (t := .num (F64.ofInt 1)) (p := b!"1") (pre := []) (by decide +kernel) .here
    have h2 : Boundary b!", true]" b!"<5>1" := .tok (t := .ts 5) (p := b!"<5>") (by decide +kernel) h3
    exact .tok (t := .punct 91) (p := b!"[") (by decide +kernel) h2
  · unfold IsBlank; decide

example : ∃ ds : Bytes, ds ≠ [] ∧ ds.all isDigit = true ∧ Boundary (60 :: (ds ++ 62 :: b!"1]")) b!"[" :=
  ⟨b!"5", by decide, by decide, .tok (t := .punct 91) (p := b!"[") (pre := []) (by decide +kernel) .here⟩

/-- The property fails for the closing bracket of an empty timestamp: `<>` is accepted, `< >` is not. -/
theorem C36_empty_timestamp_fails : unmarshal b!"[<> true]" = .ok (.arr [.leaf (.bool true) (-1)]) ∧
    unmarshal b!"[< > true]" = .err := by
  constructor <;> decide +kernel

/-! ### C37: timestamps of parsed documents -/

/-- Every timestamp in a parsed object or array is 0 or was written in the text. -/
theorem C37_container (s : Bytes) (v : Tson) (h : unmarshal s = .ok v) (hc : v.IsContainer) :
    ∀ ts ∈ stamps v, ts = 0 ∨ Tok.ts ts ∈ (tokens s).1 := by
  rw [unmarshal_eq] at h
  have hp := pVal_ok s
  cases e : pVal s with
  | ok w r =>
    rw [e] at h hp
    cases h
    cases v with
    | null => exact hc.elim
    | leaf p ts => exact hc.elim
    | obj m => exact hp.2
    | arr l => exact hp.2
  | err => rw [e] at h; cases h
  | panic => rw [e] at h; cases h
  | more => rw [e] at h; cases h

/-- The timestamp of a parsed leaf is -1 or was written in the text. -/
theorem C37_leaf (s : Bytes) (p : Prim) (ts : Int) (h : unmarshal s = .ok (.leaf p ts)) :
    ts = -1 ∨ Tok.ts ts ∈ (tokens s).1 := by
  rw [unmarshal_eq] at h
  have hp := pVal_ok s
  cases e : pVal s with
  | ok w r => rw [e] at h hp; cases h; exact hp.2
  | err => rw [e] at h; cases h
  | panic => rw [e] at h; cases h
  | more => rw [e] at h; cases h

/-- Every timestamp in a parsed document is -1 or in the range of the non-negative `int64` numbers. -/
theorem C37_range (s : Bytes) (v : Tson) (h : unmarshal s = .ok v) :
    ∀ ts ∈ stamps v, ts = -1 ∨ (0 ≤ ts ∧ ts ≤ 9223372036854775807) := by
  intro ts hts
  have hr : Tok.ts ts ∈ (tokens s).1 → ts = -1 ∨ (0 ≤ ts ∧ ts ≤ 9223372036854775807) :=
    tokens_range (s.length + 1) (by omega)
  cases v with
  | null => simp [stamps] at hts
  | leaf p n =>
    simp only [stamps, List.mem_cons, List.not_mem_nil, or_false] at hts
    subst hts
    exact (C37_leaf s p ts h).elim .inl hr
  | obj m => exact (C37_container s _ h trivial ts hts).elim (fun h => .inr (by omega)) hr
  | arr l => exact (C37_container s _ h trivial ts hts).elim (fun h => .inr (by omega)) hr

/-- Without a timestamp in the text all leaves inside an object or array have timestamp 0, and a leaf as whole
document has timestamp -1. -/
theorem C37_default (s : Bytes) (v : Tson) (h : unmarshal s = .ok v) (hn : ∀ n, Tok.ts n ∉ (tokens s).1) :
    (v.IsContainer → ∀ ts ∈ stamps v, ts = 0) ∧ (∀ p ts, v = .leaf p ts → ts = -1) := by
  constructor
  · exact fun hc ts hts => (C37_container s v h hc ts hts).elim id fun h => absurd h (hn ts)
  · rintro p ts rfl
    exact (C37_leaf s p ts h).elim id fun h => absurd h (hn ts)

example : unmarshal b!"[1, {\"a\": true}]" =
      .ok (.arr [.leaf (.num (F64.ofInt 1)) 0, .obj [(b!"a", .leaf (.bool true) 0)]]) ∧
    (∀ n, Tok.ts n ∉ (tokens b!"[1, {\"a\": true}]").1) ∧ unmarshal b!"true" = .ok (.leaf (.bool true) (-1)) := by
  have h : (tokens b!"[1, {\"a\": true}]").1 = [.punct 91, .num (F64.ofInt 1), .punct 44, .punct 123, .str b!"a",
      .punct 58, .word (some true), .punct 125, .punct 93] := by decide +kernel
  refine ⟨by decide +kernel, ?_, by decide +kernel⟩
  rw [h]
  simp

/-- `<>` in front of an element, behind a key, or behind a leaf as whole document gives -1. -/
theorem C37_empty : unmarshal b!"[<> true]" = .ok (.arr [.leaf (.bool true) (-1)]) ∧
    unmarshal b!"{\"a\" <>: true}" = .ok (.obj [(b!"a", .leaf (.bool true) (-1))]) ∧
    unmarshal b!"true <>" = .ok (.leaf (.bool true) (-1)) := by
  refine ⟨?_, ?_, ?_⟩ <;> decide +kernel

/-- A timestamp written behind a value inside a container is dropped; only the one in front of an element or behind a
key counts. -/
theorem C37_suffix_dropped : unmarshal b!"[true <7>]" = .ok (.arr [.leaf (.bool true) 0]) ∧
    unmarshal b!"{\"a\": <7> \"x\"}" = .ok (.obj [(b!"a", .leaf (.str b!"x") 0)]) := by
  constructor <;> decide +kernel

end Verif
