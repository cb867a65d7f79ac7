import Verif.PatchTextLemmas
import Verif.PropsText
/-
Properties of patches as texts (C45-C47).
-/
namespace Verif

theorem oneByOne_map {R : POp → POp → Prop} {f : POp → POp} {p : List POp} (h : ∀ o ∈ p, R o (f o)) :
    OneByOne R p (p.map f) := by
  induction p with
  | nil => trivial
  | cons o p ih => rw [List.forall_mem_cons] at h; exact ⟨h.1, ih h.2⟩

theorem readsAs_back {o : POp} (ht : o.Typed) (hf : o.value.finite = true) (hd : o.value.depth ≤ 9998) :
    ReadsAs o o.back := by
  obtain ⟨b, h1, h2⟩ := PVal.back_text (v := o.value) ht.2 hf (by omega)
  exact ⟨rfl, rfl, rfl, b, _, h1, h2, rfl⟩

theorem samePOp_back {o : POp} {j : Js} (hv : o.value = .any j) (hj : TextJson j) : SamePOp o o.back := by
  refine ⟨rfl, rfl, rfl, j, _, hv, rfl, ?_⟩
  rw [hv]
  show SameJson j (decAny (sanT (ordAny j)))
  rw [hj.back]
  exact sameJson_ord hj

theorem finite_of_text {v : PVal} : (∃ b, v.text = .ok b) ↔ v.finite = true := by
  rw [PVal.text_eq]
  cases v.finite <;> simp

/-! ### C45: the text of a patch -/

/-- C45: `Unmarshal` of the text of a patch whose operation types and paths need no escapes: it gives an operation for
every operation, with the same type, path and timestamp, and with the value read from the JSON text of the original
value.  It fails only if a value cannot be written or is nested deeper than 9998 levels. -/
theorem C45_text (p : List POp) (h : ∀ o ∈ p, RawText o.op ∧ RawText o.path ∧ o.Typed) :
    ((∀ o ∈ p, (∃ b, o.value.text = .ok b) ∧ o.value.depth ≤ 9998) ∧
      ∃ q, unmarshalPatch (patchString p) = .ok (some q) ∧ OneByOne ReadsAs p q) ∨
    ((∃ o ∈ p, (∀ b, o.value.text ≠ .ok b) ∨ 9998 < o.value.depth) ∧ unmarshalPatch (patchString p) = .err) := by
  by_cases hf : ∀ o ∈ p, o.value.finite = true
  · rw [unmarshal_string p h hf]
    by_cases hd : ∀ o ∈ p, o.value.depth ≤ 9998
    · rw [if_pos hd]
      exact .inl ⟨fun o ho => ⟨finite_of_text.2 (hf o ho), hd o ho⟩, _, rfl,
        oneByOne_map fun o ho => readsAs_back (h o ho).2.2 (hf o ho) (hd o ho)⟩
    · rw [if_neg hd]
      refine .inr ⟨?_, rfl⟩
      simp only [Classical.not_forall, Nat.not_le] at hd
      obtain ⟨o, ho, hd⟩ := hd
      exact ⟨o, ho, .inr hd⟩
  · have : ∃ o ∈ p, o.value.finite = false := by
      simp only [Classical.not_forall, Bool.not_eq_true] at hf
      obtain ⟨o, ho, hf⟩ := hf
      exact ⟨o, ho, hf⟩
    refine .inr ⟨?_, unmarshal_string_none p h this⟩
    obtain ⟨o, ho, hf⟩ := this
    refine ⟨o, ho, .inl fun b hb => ?_⟩
    have := finite_of_text.1 ⟨b, hb⟩
    rw [hf] at this
    cases this

/-- The hypotheses hold for a patch with a TSON document and an integer as values, and with unusual paths. -/
example : ∀ o ∈ [(⟨b!"replace", b!"/a~1b/ü 'x'", .doc (.obj [(b!"k", .leaf (.str b!"v") 5)]), 7⟩ : POp),
    ⟨b!"nonsense", [], .any (.arr [.int (-3), .null]), minInt64⟩], RawText o.op ∧ RawText o.path ∧ o.Typed := by
  simp only [List.forall_mem_cons, List.not_mem_nil, false_imp_iff, implies_true, and_true]
  refine ⟨⟨⟨by repeat first | exact .nil | refine .ascii (by decide) ?_, by decide⟩, ⟨?_, by decide⟩, by decide, ?_⟩,
    ⟨by repeat first | exact .nil | refine .ascii (by decide) ?_, by decide⟩, ⟨.nil, by decide⟩, by decide, ?_⟩
  · iterate 6 refine .ascii (by decide) ?_
    exact ValidUtf8.rune (r := 0xFC) (s := b!" 'x'") (by unfold IsScalar; omega)
      (by repeat first | exact .nil | refine .ascii (by decide) ?_)
  · intro ts hts; simp [stamps, stampsF] at hts; subst hts; decide
  · exact ⟨by simp [Ints64], trivial, trivial⟩

/-- C45 in the range where it holds: a patch with JSON values, as `Unmarshal` itself gives them, whose operation types
and paths need no escapes is read back from its text.
Missing from the full statement: operation types and paths with quotation marks, backslashes, control characters or
invalid UTF-8, values with NaN or infinities, integers, TSON documents as values, and values nested deeper than 9998
levels. -/
theorem C45_roundtrip_partial (p : List POp) (h : ∀ o ∈ p, RawText o.op ∧ RawText o.path ∧
    (minInt64 ≤ o.ts ∧ o.ts ≤ maxInt64) ∧ ∃ j, o.value = .any j ∧ TextJson j ∧ j.depth ≤ 9998) :
    ∃ q, unmarshalPatch (patchString p) = .ok (some q) ∧ OneByOne SamePOp p q := by
  have ht : ∀ o ∈ p, RawText o.op ∧ RawText o.path ∧ o.Typed := by
    intro o ho
    obtain ⟨h1, h2, h3, j, hv, hj, -⟩ := h o ho
    refine ⟨h1, h2, h3, ?_⟩
    rw [hv]
    exact hj.ints
  have hf : ∀ o ∈ p, o.value.finite = true := by
    intro o ho
    obtain ⟨-, -, -, j, hv, hj, -⟩ := h o ho
    rw [hv]
    exact hj.finite
  rw [unmarshal_string p ht hf, if_pos]
  · refine ⟨_, rfl, oneByOne_map fun o ho => ?_⟩
    obtain ⟨-, -, -, j, hv, hj, -⟩ := h o ho
    exact samePOp_back hv hj
  · intro o ho
    obtain ⟨-, -, -, j, hv, -, hd⟩ := h o ho
    rw [hv]; exact hd

/-- The hypotheses hold for a patch with two operations. -/
example : ∀ o ∈ [(⟨b!"add", b!"/a", .any (.obj [(b!"k\"", .arr [.null, .num (.ofInt 2)]), (b!"b", .str b!"\n")]), -1⟩ : POp),
    ⟨b!"remove", b!"/b/0", .any .null, 3⟩], RawText o.op ∧ RawText o.path ∧
    (minInt64 ≤ o.ts ∧ o.ts ≤ maxInt64) ∧ ∃ j, o.value = .any j ∧ TextJson j ∧ j.depth ≤ 9998 := by
  simp only [List.forall_mem_cons, List.not_mem_nil, false_imp_iff, implies_true, and_true]
  refine ⟨⟨⟨by repeat first | exact .nil | refine .ascii (by decide) ?_, by decide⟩,
      ⟨by repeat first | exact .nil | refine .ascii (by decide) ?_, by decide⟩, by decide, _, rfl, ?_,
      by simp [Js.depth, Js.depthF, Js.depthL]⟩,
    ⟨by repeat first | exact .nil | refine .ascii (by decide) ?_, by decide⟩,
    ⟨by repeat first | exact .nil | refine .ascii (by decide) ?_, by decide⟩, by decide, _, rfl, trivial,
    by simp [Js.depth]⟩
  exact ⟨by decide, by repeat first | exact .nil | refine .ascii (by decide) ?_,
    ⟨trivial, ⟨false, 2 ^ 52, -51, by decide, by decide +kernel⟩, trivial⟩,
    by repeat first | exact .nil | refine .ascii (by decide) ?_,
    by repeat first | exact .nil | refine .ascii (by decide) ?_, trivial⟩

theorem gval_same {j k : Js} (h : SameJson j k) : (PVal.any k).gval = (PVal.any j).gval := by
  cases j <;> cases k <;> simp only [SameJson] at h <;> first | exact h.elim | rfl | (subst h; rfl)

theorem toOp_same {p q : List POp} (h : OneByOne SamePOp p q) : q.map POp.toOp = p.map POp.toOp := by
  induction p generalizing q with
  | nil =>
    cases q with
    | nil => rfl
    | cons o q => exact h.elim
  | cons o p ih =>
    cases q with
    | nil => exact h.elim
    | cons r q =>
      obtain ⟨⟨h1, h2, h3, j, k, h4, h5, h6⟩, h⟩ := h
      rw [List.map_cons, List.map_cons, ih h]
      congr 1
      simp only [POp.toOp, h1, h2, h3, h4, h5, gval_same h6]

/-- C45 for `Store`: in the same range, storing the text of a patch is storing the patch. -/
theorem C45_store_partial (g : Lgm) (p : List POp) (h : ∀ o ∈ p, RawText o.op ∧ RawText o.path ∧
    (minInt64 ≤ o.ts ∧ o.ts ≤ maxInt64) ∧ ∃ j, o.value = .any j ∧ TextJson j ∧ j.depth ≤ 9998) :
    g.store (storeText (patchString p)) = g.store (storePatch p) := by
  obtain ⟨q, h1, h2⟩ := C45_roundtrip_partial p h
  simp only [storeText, storePatch, h1, Res.map_ok, Option.map_some, toOp_same h2, Lgm.store, StoreArg.resolve]

/-- C45 fails: a quotation mark in a path is not escaped, so that a path can change the type of its operation, here from
`test` to `remove`. -/
theorem C45_injection_fails : ∃ p q : List POp,
    p.map POp.toOp = [⟨.test, b!"/a\", \"op\": \"remove", .nil, 1⟩] ∧
    unmarshalPatch (patchString p) = .ok (some q) ∧ q.map POp.toOp = [⟨.remove, b!"/a", .nil, 1⟩] :=
  ⟨[⟨b!"test", b!"/a\", \"op\": \"remove", .any .null, 1⟩], [⟨b!"remove", b!"/a", .any .null, 1⟩], by decide, by rfl, by decide⟩

/-- C45 fails: a path can add operations to the text. -/
theorem C45_smuggle_fails : ∃ p q : List POp, p.length = 1 ∧
    unmarshalPatch (patchString p) = .ok (some q) ∧ q.length = 2 :=
  ⟨[⟨b!"test", b!"/a\"}, {\"path\": \"/b", .any .null, 1⟩],
    [⟨b!"test", b!"/a", .any .null, 0⟩, ⟨[], b!"/b", .any .null, 1⟩], rfl, by rfl, rfl⟩

/-- C45 fails: backslashes and control characters in a path are not escaped: the path changes or the text cannot be
read. -/
theorem C45_escape_fails :
    (∃ q : List POp, unmarshalPatch (patchString [⟨b!"test", b!"/a\\n", .any .null, 1⟩]) = .ok (some q) ∧
      q.map POp.toOp = [⟨.test, b!"/a\n", .nil, 1⟩]) ∧
    unmarshalPatch (patchString [⟨b!"test", b!"/a\n", .any .null, 1⟩]) = .err ∧
    unmarshalPatch (patchString [⟨b!"test", b!"/a\\", .any .null, 1⟩]) = .err :=
  ⟨⟨[⟨b!"test", b!"/a\n", .any .null, 1⟩], by rfl, by decide⟩, by rfl, by rfl⟩

/-- C45 fails: values change their types in the text: an integer becomes a float and a leaf becomes a map; and a patch
with NaN has a text that cannot be read. -/
theorem C45_value_fails :
    (∃ p q : List POp, p.map POp.toOp = [⟨.add, b!"/a", .int 2, 1⟩] ∧
      unmarshalPatch (patchString p) = .ok (some q) ∧ q.map POp.toOp = [⟨.add, b!"/a", .num (.ofInt 2), 1⟩]) ∧
    (∃ p q : List POp, p.map POp.toOp = [⟨.add, b!"/a", .leaf (.bool true) 3, 1⟩] ∧
      unmarshalPatch (patchString p) = .ok (some q) ∧ q.map POp.toOp = [⟨.add, b!"/a", .container 0 0, 1⟩]) ∧
    unmarshalPatch (patchString [⟨b!"add", b!"/a", .any (.num .nan), 1⟩]) = .err :=
  ⟨⟨[⟨b!"add", b!"/a", .any (.int 2), 1⟩], [⟨b!"add", b!"/a", .any (.num (.fin false (2 ^ 52) (-51) (by decide))), 1⟩],
      by decide, by rfl, by decide +kernel⟩,
    ⟨[⟨b!"add", b!"/a", .doc (.leaf (.bool true) 3), 1⟩],
      [⟨b!"add", b!"/a", .any (.obj [(b!"value", .bool true), (b!"timestamp", .num (.fin false 6755399441055744 (-51) (by decide)))]), 1⟩],
      by decide, by rfl, by decide⟩, by rfl⟩

/-! ### C46: `Operation.Marshal` -/

theorem PVal.isNil_iff (v : PVal) : v.isNil = true ↔ v = .any .null ∨ v = .doc .null := by
  unfold PVal.isNil
  split <;> simp_all

/-- C46: `Marshal` succeeds unless the value cannot be written.  It gives the text of `String`; only for a nil value of an
operation other than add, replace and test the value is left out. -/
theorem C46_text (o : POp) :
    ((∀ b, o.value.text ≠ .ok b) ∧ o.marshal = .err) ∨
    ((∃ b, o.value.text = .ok b) ∧ (¬ (o.value = .any .null ∨ o.value = .doc .null) ∨ o.op = b!"replace" ∨ o.op = b!"add" ∨ o.op = b!"test") ∧
      o.marshal = .ok o.string) ∨
    ((o.value = .any .null ∨ o.value = .doc .null) ∧ o.op ≠ b!"replace" ∧ o.op ≠ b!"add" ∧ o.op ≠ b!"test" ∧ o.marshal =
      .ok (b!"{ \"op\": \"" ++ o.op ++ b!"\", \"path\": \"" ++ o.path ++ b!"\", \"timestamp\": " ++ itoa o.ts ++ b!" }")) := by
  have hnil := o.value.isNil_iff
  have hsh : o.showsValue = true ↔ ¬ (o.value = .any .null ∨ o.value = .doc .null) ∨ o.op = b!"replace" ∨ o.op = b!"add" ∨ o.op = b!"test" := by
    rw [← hnil, POp.showsValue]
    simp only [Bool.or_eq_true, Bool.not_eq_true', beq_iff_eq, Bool.not_eq_true, or_assoc]
  by_cases hs : o.showsValue = true
  · rw [POp.marshal, if_pos hs]
    cases hf : o.value.finite with
    | true =>
      refine .inr (.inl ⟨finite_of_text.2 hf, hsh.1 hs, ?_⟩)
      rw [POp.string, PVal.textOrNothing, PVal.text_eq, if_pos hf, Res.map_ok]
    | false =>
      refine .inl ⟨fun b hb => ?_, by rw [PVal.text_eq, hf]; rfl⟩
      rw [finite_of_text.1 ⟨b, hb⟩] at hf
      cases hf
  · rw [POp.marshal, if_neg hs]
    rw [hsh, ← hnil] at hs
    simp only [not_or, Decidable.not_not] at hs
    exact .inr (.inr ⟨hnil.1 hs.1, hs.2.1, hs.2.2.1, hs.2.2.2, rfl⟩)

/-- C46 fails: `Marshal` does not escape the path either: the text of an operation can be read as another operation, or not at all. -/
theorem C46_read_fails :
    (∃ (o q : POp) (b : Bytes), o.marshal = .ok b ∧ unmarshalPatch (91 :: (b ++ [93])) = .ok (some [q]) ∧
      o.toOp = ⟨.test, b!"/a\", \"op\": \"remove", .nil, 1⟩ ∧ q.toOp = ⟨.remove, b!"/a", .nil, 1⟩) ∧
    ∃ (o : POp) (b : Bytes), o.marshal = .ok b ∧ unmarshalPatch (91 :: (b ++ [93])) = .err :=
  ⟨⟨⟨b!"test", b!"/a\", \"op\": \"remove", .any .null, 1⟩, ⟨b!"remove", b!"/a", .any .null, 1⟩, _, by rfl, by rfl, by decide, by decide⟩,
    ⟨b!"test", b!"/a\\", .any .null, 1⟩, _, by rfl, by rfl⟩

/-- C46 (part): a text written by `Marshal` for an operation type and path that need no escapes is read as the operation, with the
value read from the JSON text of the original value.
Missing: operation types and paths with characters that need escapes, which `Marshal` does not escape
(`C46_read_fails`). -/
theorem C46_read_partial (o : POp) (h1 : RawText o.op) (h2 : RawText o.path) (ht : o.Typed) (hd : o.value.depth ≤ 9998)
    (b : Bytes) (hb : o.marshal = .ok b) :
    ∃ q, unmarshalPatch (91 :: (b ++ [93])) = .ok (some [q]) ∧ ReadsAs o q := by
  have hr : o.value.finite = true ∧ OpReads b o.back (1 + o.value.depth) ∧ ∃ r, b = 123 :: r := by
    rcases C46_text o with ⟨-, h⟩ | ⟨⟨c, hc⟩, -, h⟩ | ⟨hn, -, -, -, h⟩
    · rw [hb] at h; cases h
    · rw [hb] at h; cases h
      have hf := finite_of_text.1 ⟨c, hc⟩
      exact ⟨hf, POp.string_reads h1 h2 ht hf, string_head o⟩
    · rw [hb] at h; cases h
      replace hn := o.value.isNil_iff.2 hn
      refine ⟨(PVal.isNil_tree hn).1, ⟨_, textReads_op3 (litReads_plain h1) (litReads_plain h2), ?_, ?_⟩,
        ⟨_, by simp only [List.cons_append]; rfl⟩⟩
      · rw [POp.back, PVal.isNil_back hn]; exact decodeFields_op3 ht.1
      · have e : o.value.depth = 0 := by rw [← PVal.tree_depth, (PVal.isNil_tree hn).2]; rfl
        simp only [Jt.depth, Jt.depthF, e]; omega
  obtain ⟨hf, hr, hh⟩ := hr
  obtain ⟨r, hs⟩ := hr.head hh [93]
  obtain ⟨jt, g1, g2, g3⟩ := hr
  have := unmarshalPatch_arr (w := []) (X := b ++ [93]) (jl := [jt]) blank_nil hs (by decide) (fun N hN => by
    simp only [List.length_append, List.length_cons, List.length_nil] at hN
    obtain ⟨N, rfl⟩ : ∃ n, N = n + 1 := ⟨N - 1, by omega⟩
    rw [g1.skip]
    exact readElems_one (w := []) g1 blank_nil (by omega))
  rw [List.nil_append] at this
  refine ⟨o.back, ?_, readsAs_back ht hf hd⟩
  rw [this, if_pos (by simp only [Jt.depthL, g3]; omega)]
  simp only [decodeOps, g2, Res.bind_ok, Res.map_ok]

/-- The hypotheses hold for an operation whose value is left out, and for one whose value is written. -/
example : (⟨b!"remove", b!"/a", .any .null, 4⟩ : POp).marshal = .ok b!"{ \"op\": \"remove\", \"path\": \"/a\", \"timestamp\": 4 }" ∧
    (⟨b!"add", b!"/a", .any .null, 4⟩ : POp).marshal =
      .ok b!"{ \"op\": \"add\", \"path\": \"/a\", \"value\": null, \"timestamp\": 4 }" := by decide +kernel

/-! ### C47: `FromJson` -/

/-- C47: `FromJson` of a patch gives an operation for every operation of the patch, whatever its type, path and value
contain: the type and path with invalid UTF-8 replaced, the same timestamp, and the value read from the JSON text of the
original value.  It fails only if a value cannot be written or is nested deeper than 9998 levels.  Nil stays nil. -/
theorem C47_fromJson (p : List POp) (h : ∀ o ∈ p, o.Typed) :
    (((∀ o ∈ p, (∃ b, o.value.text = .ok b) ∧ o.value.depth ≤ 9998) ∧
      ∃ q, patchFromJson (.patch (some p)) = .ok (some q) ∧ OneByOne (fun o q => q.op = sanitize o.op ∧
        q.path = sanitize o.path ∧ q.ts = o.ts ∧
        ∃ b j, o.value.text = .ok b ∧ unmarshalText b = .ok j ∧ q.value = .any j) p q) ∨
    ((∃ o ∈ p, (∀ b, o.value.text ≠ .ok b) ∨ 9998 < o.value.depth) ∧ patchFromJson (.patch (some p)) = .err)) ∧
    patchFromJson (.patch none) = .ok none := by
  refine ⟨?_, rfl⟩
  by_cases hf : ∀ o ∈ p, o.value.finite = true
  · rw [fromJson_patch p h hf]
    by_cases hd : ∀ o ∈ p, o.value.depth ≤ 9998
    · rw [if_pos hd]
      refine .inl ⟨fun o ho => ⟨finite_of_text.2 (hf o ho), hd o ho⟩, _, rfl, oneByOne_map fun o ho => ?_⟩
      obtain ⟨-, -, -, hv⟩ := readsAs_back (h o ho) (hf o ho) (hd o ho)
      exact ⟨rfl, rfl, rfl, hv⟩
    · rw [if_neg hd]
      refine .inr ⟨?_, rfl⟩
      simp only [Classical.not_forall, Nat.not_le] at hd
      obtain ⟨o, ho, hd⟩ := hd
      exact ⟨o, ho, .inr hd⟩
  · have : ∃ o ∈ p, o.value.finite = false := by
      simp only [Classical.not_forall, Bool.not_eq_true] at hf
      obtain ⟨o, ho, hf⟩ := hf
      exact ⟨o, ho, hf⟩
    refine .inr ⟨?_, by rw [patchFromJson, patchJson, jsonOps_err p this]; rfl⟩
    obtain ⟨o, ho, hf⟩ := this
    refine ⟨o, ho, .inl fun b hb => ?_⟩
    have := finite_of_text.1 ⟨b, hb⟩
    rw [hf] at this
    cases this

/-- The hypothesis holds for operations whose paths the text of `String` does not escape. -/
example : ∀ o ∈ [(⟨b!"test", b!"/a\", \"op\": \"remove", .any .null, 1⟩ : POp), ⟨[0xFF], b!"\\\n", .any (.int 3), -1⟩], o.Typed := by
  simp only [List.forall_mem_cons, List.not_mem_nil, false_imp_iff, implies_true, and_true]
  exact ⟨⟨by decide, trivial⟩, by decide, by show Ints64 (.int 3); simp only [Ints64]; omega⟩

/-- C47 in the range where it holds: a patch with JSON values, valid UTF-8, timestamps of type `int64` and at most 9998
levels is read back, also with quotation marks, backslashes and control characters in its paths.
Missing from the full statement: invalid UTF-8, NaN and infinities, integers, TSON documents as values, deeper
nesting. -/
theorem C47_roundtrip_partial (p : List POp) (h : ∀ o ∈ p, ValidUtf8 o.op ∧ ValidUtf8 o.path ∧
    (minInt64 ≤ o.ts ∧ o.ts ≤ maxInt64) ∧ ∃ j, o.value = .any j ∧ TextJson j ∧ j.depth ≤ 9998) :
    ∃ q, patchFromJson (.patch (some p)) = .ok (some q) ∧ OneByOne SamePOp p q := by
  have ht : ∀ o ∈ p, o.Typed := by
    intro o ho
    obtain ⟨-, -, h3, j, hv, hj, -⟩ := h o ho
    refine ⟨h3, ?_⟩
    rw [hv]
    exact hj.ints
  have hf : ∀ o ∈ p, o.value.finite = true := by
    intro o ho
    obtain ⟨-, -, -, j, hv, hj, -⟩ := h o ho
    rw [hv]
    exact hj.finite
  rw [fromJson_patch p ht hf, if_pos]
  · refine ⟨_, rfl, oneByOne_map fun o ho => ?_⟩
    obtain ⟨h1, h2, -, j, hv, hj, -⟩ := h o ho
    obtain ⟨-, -, -, hs⟩ := samePOp_back hv hj
    exact ⟨sanitize_valid h1, sanitize_valid h2, rfl, hs⟩
  · intro o ho
    obtain ⟨-, -, -, j, hv, -, hd⟩ := h o ho
    rw [hv]; exact hd

/-- The hypotheses hold for a path that the text of `String` does not escape. -/
example : ∀ o ∈ [(⟨b!"test", b!"/a\", \"op\": \"remove\\\n", .any (.str b!"\""), 1⟩ : POp)], ValidUtf8 o.op ∧ ValidUtf8 o.path ∧
    (minInt64 ≤ o.ts ∧ o.ts ≤ maxInt64) ∧ ∃ j, o.value = .any j ∧ TextJson j ∧ j.depth ≤ 9998 := by
  simp only [List.forall_mem_cons, List.not_mem_nil, false_imp_iff, implies_true, and_true]
  exact ⟨by repeat first | exact .nil | refine .ascii (by decide) ?_,
    by repeat first | exact .nil | refine .ascii (by decide) ?_, by decide, _, rfl,
    by repeat first | exact .nil | refine .ascii (by decide) ?_, by simp [Js.depth]⟩

/-- C47 fails for invalid UTF-8: two different paths become the same. -/
theorem C47_utf8_fails : ∃ p q : List POp, p.map (fun o => o.path) = [b!"/" ++ [0xFF], b!"/" ++ [0xFE]] ∧
    patchFromJson (.patch (some p)) = .ok (some q) ∧ q.map (fun o => o.path) = [b!"/�", b!"/�"] :=
  ⟨[⟨b!"test", b!"/" ++ [0xFF], .any .null, 1⟩, ⟨b!"test", b!"/" ++ [0xFE], .any .null, 1⟩],
    [⟨b!"test", b!"/�", .any .null, 1⟩, ⟨b!"test", b!"/�", .any .null, 1⟩], rfl, by rfl, rfl⟩

end Verif
