import Verif.JsonOrder
import Verif.PropsCodec
/-
Properties of the conversions between TSON and JSON and of the equality functions (C38-C42).
-/
namespace Verif

/-! ### C38: the compatible form round-trips -/

/-- C38 in the range where it holds: a document without nil, with valid UTF-8, finite numbers, timestamps between -2^53
and 2^53 and at most 10000 levels is read back as the same document (up to the order of the members of a Go map).
Missing from the full statement: documents outside of this range, for which it fails (see below). -/
theorem C38_roundtrip_partial (t : Tson) (hw : t.Wf) (hc : Clean t) (hn : NullFree t) (hd : nesting t ≤ 10000) :
    ∃ u, (encTson t).bind fromCompatible = .ok u ∧ u.Wf ∧ SameDoc t u := by
  refine ⟨sortT t, ?_, sortT_wf t hw, docRel_sortT (fun _ _ => ⟨rfl, rfl⟩) t hw⟩
  rw [encTson_clean t (clean_writable t hc), Res.bind_ok, fromCompatible, unmarshalAny, compatText_depth, if_pos hd,
    Res.bind_ok, decAny_compatText t hw, convert_compat t hn hw, clean_roundTs t hc]

/-- Outside of that range of timestamps, and only there, the round trip changes timestamps: every timestamp is rounded
to the nearest `float64`. -/
theorem C38_rounding (t : Tson) (hw : t.Wf) (hc : Writable t) (hn : NullFree t) (hd : nesting t ≤ 10000) :
    ∃ u, (encTson t).bind fromCompatible = .ok u ∧ u.Wf ∧ SameDoc (roundTs t) u := by
  refine ⟨sortT (roundTs t), ?_, sortT_wf _ (roundTs_wf t hw), docRel_sortT (fun _ _ => ⟨rfl, rfl⟩) _ (roundTs_wf t hw)⟩
  rw [encTson_clean t hc, Res.bind_ok, fromCompatible, unmarshalAny, compatText_depth, if_pos hd,
    Res.bind_ok, decAny_compatText t hw, convert_compat t hn hw]

/-- A nil in the document makes reading panic. -/
theorem C38_null (t : Tson) (hw : t.Wf) (hc : Writable t) (hn : ¬ NullFree t) (hd : nesting t ≤ 10000) :
    (encTson t).bind fromCompatible = .panic := by
  rw [encTson_clean t hc, Res.bind_ok, fromCompatible, unmarshalAny, compatText_depth, if_pos hd,
    Res.bind_ok, decAny_compatText t hw, convert_null t hw hn]

/-- A document nested too deeply is written but not read. -/
theorem C38_too_deep (t : Tson) (hc : Writable t) (hd : 10000 < nesting t) :
    (∃ j, encTson t = .ok j) ∧ (encTson t).bind fromCompatible = .err := by
  refine ⟨⟨_, encTson_clean t hc⟩, ?_⟩
  rw [encTson_clean t hc, Res.bind_ok, fromCompatible, unmarshalAny, compatText_depth, if_neg (by omega)]; rfl

/-- The hypotheses hold for a document with leaf-like members, an array and a timestamp of 2^53. -/
example : ∃ t : Tson, t.Wf ∧ Clean t ∧ NullFree t ∧ nesting t ≤ 10000 ∧
    t = .obj [(b!"value", .leaf (.bool true) 9007199254740992),
      (b!"timestamp", .arr [.leaf (.str (utf8Enc 0xE9)) (-5)])] :=
  ⟨.obj [(b!"value", .leaf (.bool true) 9007199254740992),
      (b!"timestamp", .arr [.leaf (.str (utf8Enc 0xE9)) (-5)])], by simp [Tson.Wf, Tson.WfF, Tson.WfL, mkeys],
    ⟨by repeat first | exact .nil | refine .ascii (by decide) ?_, ⟨trivial, by decide, by decide⟩,
      by repeat first | exact .nil | refine .ascii (by decide) ?_,
      ⟨⟨by rw [← List.append_nil (utf8Enc 0xE9)]; exact .rune (by unfold IsScalar; omega) .nil, by decide, by decide⟩,
        trivial⟩, trivial⟩,
    by simp [NullFree, NullFreeF, NullFreeL], by simp [nesting, nestingF, nestingL], rfl⟩

/-- C38 fails: the timestamp 2^53 + 1 comes back as 2^53. -/
theorem C38_timestamp_fails : ∃ t u, t.Wf ∧ NullFree t ∧ (encTson t).bind fromCompatible = .ok u ∧ ¬ SameDoc t u :=
  ⟨.obj [(b!"a", .leaf (.bool true) 9007199254740993)], .obj [(b!"a", .leaf (.bool true) 9007199254740992)],
    by simp [Tson.Wf, Tson.WfF, mkeys], by simp [NullFree, NullFreeF], by decide +kernel,
    by
      rintro ⟨-, ⟨w, hw, hr⟩, -⟩
      cases hw
      exact absurd hr.2 (by decide)⟩

/-- C38 fails: NaN and infinities cannot be written. -/
theorem C38_nan_fails : ∃ t : Tson, t.Wf ∧ NullFree t ∧ encTson t = .err :=
  ⟨.arr [.leaf (.num .nan) 1], by simp [Tson.Wf, Tson.WfL], by simp [NullFree, NullFreeL], rfl⟩

/-- C38 fails: invalid UTF-8 is replaced. -/
theorem C38_utf8_fails : ∃ t u, t.Wf ∧ NullFree t ∧ (encTson t).bind fromCompatible = .ok u ∧ ¬ SameDoc t u :=
  ⟨.arr [.leaf (.str [0xFF]) 1], .arr [.leaf (.str [0xEF, 0xBF, 0xBD]) 1],
    by simp [Tson.Wf, Tson.WfL], by simp [NullFree, NullFreeL], by decide +kernel,
    by simp [SameDoc, DocRel, DocRelL]⟩

/-- C38 fails: a member can disappear, because two keys become the same. -/
theorem C38_key_fails : ∃ t u, t.Wf ∧ NullFree t ∧ (encTson t).bind fromCompatible = .ok u ∧ ¬ SameDoc t u :=
  ⟨.obj [([0xFE], .leaf (.bool true) 1), ([0xFF], .leaf (.bool false) 2)],
    .obj [([0xEF, 0xBF, 0xBD], .leaf (.bool false) 2)],
    by simp [Tson.Wf, Tson.WfF, mkeys], by simp [NullFree, NullFreeF], by decide +kernel,
    by simp [SameDoc, DocRel]⟩

/-- C38 fails: nil panics. -/
theorem C38_null_fails : ∃ t : Tson, t.Wf ∧ (encTson t).bind fromCompatible = .panic :=
  ⟨.obj [(b!"a", .null)], by simp [Tson.Wf, Tson.WfF, mkeys], by decide +kernel⟩

/-! ### C39: plain JSON -/

/-- C39 in the range where it holds: JSON objects and arrays without null, with valid UTF-8 and fewer than 10000 levels
come back the same, and every leaf has timestamp -1.  Data that looks like the encoding of a leaf is included.
Missing from the full statement: null inside, and nesting of 10000 levels, for which it fails (see below). -/
theorem C39_roundtrip_partial (j : Js) (hj : PlainJson j) (hc : j.IsContainer) (hd : j.depth < 10000) :
    ∃ t, fromJson j = .ok t ∧ SameJson j (toJson t) ∧ ∀ ts ∈ stamps t, ts = -1 := by
  refine ⟨sortT (stampT j), fromJson_plain hj hc hd, ?_, stamps_sortT_stampT j⟩
  rw [toJson_fromJson hj hc hd]
  exact sameJson_values j hj

/-- The same for the functions on bytes. -/
theorem C39_bytes_partial (j : Js) (hj : PlainJson j) (hc : j.IsContainer) (hd : j.depth < 10000) :
    ∃ t k, fromJsonBytes j = .ok t ∧ toJsonBytes t = .ok k ∧ SameJson j k ∧ ∀ ts ∈ stamps t, ts = -1 := by
  have hw := stampT_wf j hj
  have hcl := stampT_clean j hj
  refine ⟨sortT (stampT j), values (stampT j), ?_, ?_, sameJson_values j hj, stamps_sortT_stampT j⟩
  · rw [fromJsonBytes, unmarshalAny, if_pos (by omega), Res.bind_ok, decAny_plain j hj, fromJson_plain hj hc hd]
  · rw [toJsonBytes, toJson_fromJson hj hc hd, encAny_values _ (clean_writable _ hcl.1) hw]

/-- The hypotheses hold for data that looks like the encoding of a leaf. -/
example : ∃ j : Js, PlainJson j ∧ j.IsContainer ∧ j.depth < 10000 ∧
    j = .obj [(b!"value", .bool true), (b!"timestamp", .num (.ofInt 5))] :=
  ⟨.obj [(b!"value", .bool true), (b!"timestamp", .num (.ofInt 5))], ⟨by decide, by repeat first | exact .nil | refine .ascii (by decide) ?_, trivial,
      by repeat first | exact .nil | refine .ascii (by decide) ?_, ⟨_, _, _, _, rfl⟩, trivial⟩, trivial,
    by simp [Js.depth, Js.depthF], rfl⟩

/-- C39 fails: null panics. -/
theorem C39_null_fails : ∃ j : Js, j.IsContainer ∧ fromJson j = .panic :=
  ⟨.obj [(b!"a", .null)], trivial, by decide +kernel⟩

/-- An array nested `n + 1` times around a JSON value. -/
def nestJs : Nat → Js → Js
  | 0, j => .arr [j]
  | n + 1, j => .arr [nestJs n j]

theorem nestJs_spec (n : Nat) : (nestJs n (.bool true)).depth = n + 1 ∧ PlainJson (nestJs n (.bool true)) ∧
    nesting (stampT (nestJs n (.bool true))) = n + 2 := by
  induction n with
  | zero =>
    refine ⟨by simp [nestJs, Js.depth, Js.depthL], ⟨trivial, trivial⟩, ?_⟩
    simp [nestJs, stampT, stampTL, nesting, nestingL]
  | succ n ih =>
    refine ⟨?_, ⟨ih.2.1, trivial⟩, ?_⟩
    · simp only [nestJs, Js.depth, Js.depthL, ih.1]; omega
    · simp only [nestJs, stampT, stampTL, nesting, nestingL, ih.2.2]; omega

/-- C39 fails: JSON text of 10000 levels is read by `encoding/json`, but not by `FromJson`, because every primitive
value becomes an object. -/
theorem C39_depth_fails : ∃ j : Js, PlainJson j ∧ j.IsContainer ∧ j.depth = 10000 ∧ unmarshalAny j = .ok j ∧
    fromJson j = .err := by
  obtain ⟨h1, h2, h3⟩ := nestJs_spec 9999
  refine ⟨nestJs 9999 (.bool true), h2, trivial, h1, ?_, ?_⟩
  · rw [unmarshalAny, h1, if_pos (by omega), decAny_plain _ h2]
  · have ha : addTimestamp (nestJs 9999 (.bool true)) = stampEntry (nestJs 9999 (.bool true)) := by
      rw [nestJs]; simp only [addTimestamp, stampEntry]
    rw [fromJson, ha, encAny_stamp _ h2]
    simp only
    rw [fromCompatible, unmarshalAny, sortedText_depth, h3, if_neg (by omega)]; rfl

/-! ### C40: the equality functions -/

/-- C40 for `Equal` in the range where it holds.  Missing from the full statement: timestamps beyond 2^53, invalid
UTF-8, NaN, infinities and more than 10000 levels (see below). -/
theorem C40_equal_partial (a b : Tson) (ha : a.Wf) (hb : b.Wf) (ca : Clean a) (cb : Clean b) (da : nesting a ≤ 10000)
    (db : nesting b ≤ 10000) : ∃ r, equal a b = .ok r ∧ (r = true ↔ SameTimed a b) := by
  refine ⟨jsEq (compat a) (compat b), ?_, jsEq_compat a ha b hb ca cb⟩
  rw [equal, toCompatible_clean (clean_writable a ca) ha da, toCompatible_clean (clean_writable b cb) hb db]

/-- With any timestamps, `Equal` compares them after conversion to `float64`. -/
theorem C40_equal_float (a b : Tson) (ha : a.Wf) (hb : b.Wf) (ca : Writable a) (cb : Writable b)
    (da : nesting a ≤ 10000) (db : nesting b ≤ 10000) :
    ∃ r, equal a b = .ok r ∧
      (r = true ↔ DocRel (fun p t q u => GoEqPrim p q ∧ F64.feq (.ofInt t) (.ofInt u) = true) a b) := by
  refine ⟨jsEq (compat a) (compat b), ?_, jsEq_compat_float a ha b hb⟩
  rw [equal, toCompatible_clean ca ha da, toCompatible_clean cb hb db]

/-- C40 for `EqualWithoutTimestamp` in the range where it holds: objects and arrays.  Missing from the full statement:
documents that are a single leaf, invalid UTF-8, NaN, infinities and more than 10000 levels (see below). -/
theorem C40_untimed_partial (a b : Tson) (ha : a.Wf) (hb : b.Wf) (ca : Writable a) (cb : Writable b)
    (da : nesting a ≤ 10000) (db : nesting b ≤ 10000) (ka : a.IsContainer) (kb : b.IsContainer) :
    ∃ r, equalWithoutTimestamp a b = .ok r ∧ (r = true ↔ SameUntimed a b) := by
  refine ⟨jsEq (values a) (values b), ?_, jsEq_values a ha b hb⟩
  rw [equalWithoutTimestamp, toJsonBytes_clean ca ha da ka, toJsonBytes_clean cb hb db kb]

/-- Equality of documents is an equivalence relation (for numbers other than NaN). -/
theorem C40_equivalence : (∀ a : Tson, a.Wf → Clean a → SameTimed a a) ∧
    (∀ a b : Tson, a.Wf → b.Wf → SameTimed a b → SameTimed b a) ∧
    (∀ a b c : Tson, SameTimed a b → SameTimed b c → SameTimed a c) := by
  refine ⟨fun a ha ca => ?_, fun a b ha hb h => ?_, fun a b c h h' => ?_⟩
  · induction a using Tson.induction with
    | null => trivial
    | leaf p ts =>
      refine ⟨?_, rfl⟩
      cases p with
      | str s => rfl
      | num f => obtain ⟨neg, m, e, h, rfl⟩ := ca.1; exact F64.feq_refl_of_ne_nan (by simp)
      | bool b => rfl
    | obj m ih =>
      refine ⟨rfl, (docRelF_iff _ _ _).2 fun p hp => ?_⟩
      exact ⟨p.2, mem_mget ha.1 (show (p.1, p.2) ∈ m from hp),
        ih p hp ((Tson.wfF_iff m).1 ha.2 p hp) ((cleanF_iff m).1 ca p hp).2⟩
    | arr l ih =>
      change Tson.WfL l at ha
      change CleanL l at ca
      show DocRelL _ l l
      induction l with
      | nil => trivial
      | cons v l ihl =>
        rw [List.forall_mem_cons] at ih
        exact ⟨ih.1 ha.1 ca.1, ihl ih.2 ha.2 ca.2⟩
  · refine docRel_symm (fun p t q u h => ⟨?_, h.2.symm⟩) a ha b hb h
    have h := h.1
    cases p <;> cases q <;> simp only [GoEqPrim] at h ⊢
    · exact h.symm
    · rw [F64.feq_symm]; exact h
    · exact h.symm
  · refine docRel_trans (fun p t q u r v h h' => ⟨?_, h.2.trans h'.2⟩) a b c h h'
    have h := h.1
    have h' := h'.1
    cases p <;> cases q <;> cases r <;> simp only [GoEqPrim] at h h' ⊢
    · exact h.trans h'
    · exact F64.feq_trans h h'
    · exact h.trans h'

/-- Documents that cannot be written, or are nested too deeply, are all equal without timestamps: the error is lost. -/
theorem C40_lost_error (a b : Tson) (ha : toCompatible a = .err) (hb : toCompatible b = .err) :
    equalWithoutTimestamp a b = .ok true := by
  have h : ∀ t, toCompatible t = .err → (toJsonBytes t).bind unmarshalAny = .ok .null := by
    intro t ht
    rw [toJsonBytes, toJson, ht]; rfl
  rw [equalWithoutTimestamp, h a ha, h b hb]; simp [jsEq]

/-- The hypotheses hold for two documents that differ in a timestamp and in the order of members. -/
example : ∃ a b : Tson, a.Wf ∧ b.Wf ∧ Clean a ∧ Clean b ∧ nesting a ≤ 10000 ∧ nesting b ≤ 10000 ∧ a.IsContainer ∧
    b.IsContainer ∧ ¬ SameTimed a b ∧ SameUntimed a b ∧
    a = .obj [(b!"a", .leaf (.bool true) 1), (b!"b", .arr [.null])] ∧
    b = .obj [(b!"b", .arr [.null]), (b!"a", .leaf (.bool true) 2)] :=
  ⟨.obj [(b!"a", .leaf (.bool true) 1), (b!"b", .arr [.null])],
    .obj [(b!"b", .arr [.null]), (b!"a", .leaf (.bool true) 2)],
    by simp [Tson.Wf, Tson.WfF, Tson.WfL, mkeys], by simp [Tson.Wf, Tson.WfF, Tson.WfL, mkeys],
    ⟨.ascii (by decide) .nil, ⟨trivial, by decide, by decide⟩, .ascii (by decide) .nil, ⟨trivial, trivial⟩, trivial⟩,
    ⟨.ascii (by decide) .nil, ⟨trivial, trivial⟩, .ascii (by decide) .nil, ⟨trivial, by decide, by decide⟩, trivial⟩,
    by simp [nesting, nestingF, nestingL], by simp [nesting, nestingF, nestingL], trivial, trivial,
    by
      rintro ⟨-, ⟨w, hw, hr⟩, -⟩
      cases hw
      exact absurd hr.2 (by decide),
    ⟨rfl, ⟨_, rfl, rfl⟩, ⟨_, rfl, trivial, trivial⟩, trivial⟩, rfl, rfl⟩

/-- C40 fails: timestamps beyond 2^53 that are different are equal. -/
theorem C40_timestamp_fails : ∃ a b : Tson, a.Wf ∧ b.Wf ∧ equal a b = .ok true ∧ ¬ SameTimed a b :=
  ⟨.arr [.leaf (.bool true) 9007199254740992], .arr [.leaf (.bool true) 9007199254740993],
    by simp [Tson.Wf, Tson.WfL], by simp [Tson.Wf, Tson.WfL], by decide +kernel,
    by simp [SameTimed, DocRel, DocRelL]⟩

/-- C40 fails: different invalid UTF-8 is equal. -/
theorem C40_utf8_fails : ∃ a b : Tson, a.Wf ∧ b.Wf ∧ equal a b = .ok true ∧ equalWithoutTimestamp a b = .ok true ∧
    ¬ SameUntimed a b :=
  ⟨.arr [.leaf (.str [0xFE]) 1], .arr [.leaf (.str [0xFF]) 1],
    by simp [Tson.Wf, Tson.WfL], by simp [Tson.Wf, Tson.WfL], by decide +kernel, by decide +kernel,
    by simp [SameUntimed, GoEqPrim, DocRel, DocRelL]⟩

/-- C40 fails: two single leaves that differ in their timestamps only are not equal without timestamps. -/
theorem C40_root_leaf_fails : ∃ a b : Tson, a.Wf ∧ b.Wf ∧ equalWithoutTimestamp a b = .ok false ∧ SameUntimed a b :=
  ⟨.leaf (.bool true) 1, .leaf (.bool true) 2, by simp [Tson.Wf], by simp [Tson.Wf], by decide +kernel,
    by simp [SameUntimed, GoEqPrim, DocRel]⟩

/-- C40 fails: documents with infinite numbers give an error from `Equal`, and are all equal without timestamps. -/
theorem C40_infinite_fails : ∃ a b : Tson, a.Wf ∧ b.Wf ∧ equal a b = .err ∧ equalWithoutTimestamp a b = .ok true ∧
    ¬ SameUntimed a b :=
  ⟨.arr [.leaf (.num (.inf false)) 1], .obj [(b!"a", .leaf (.num (.inf true)) 1)],
    by simp [Tson.Wf, Tson.WfL], by simp [Tson.Wf, Tson.WfF, mkeys], by decide +kernel, by decide +kernel,
    by simp [SameUntimed, DocRel]⟩

/-! ### C41: the order of members -/

/-- C41 for `ToCompatibleTsonBytesSorted`: the same bytes (or the same error) for every order of the members. -/
theorem C41_sorted (a b : Tson) (ha : a.Wf) (hb : b.Wf) (h : SameDoc a b) :
    toCompatibleSorted a = toCompatibleSorted b := by
  rw [toCompatibleSorted, toCompatibleSorted, sortedInterface_same a ha b hb h]

/-- The same holds for `ToCompatibleTsonBytes`. -/
theorem C41_compatible (a b : Tson) (ha : a.Wf) (hb : b.Wf) (h : SameDoc a b) : encTson a = encTson b :=
  encTson_same a ha b hb h

/-- C41 for `Marshal`: whatever the order of the members, the text is read back as the same document, or as an error in
both cases. -/
theorem C41_text (P : Nat → Bool) (a b : Tson) (ha : a.Wf) (hb : b.Wf) (h : SameDoc a b) :
    (marshal P a).bind unmarshal = (marshal P b).bind unmarshal ∨
      ∃ u v, (marshal P a).bind unmarshal = .ok u ∧ (marshal P b).bind unmarshal = .ok v ∧ SameDoc u v := by
  by_cases hr : Readable P b
  · have hr' := sameDoc_readable P a b h hr
    obtain ⟨x, hx, hu⟩ := C33_roundtrip_partial P a ha hr'
    obtain ⟨y, hy, hv⟩ := C33_roundtrip_partial P b hb hr
    refine .inr ⟨clampTs a, clampTs b, ?_, ?_, sameDoc_clampTs a b h⟩
    · rw [hx, Res.bind_ok, hu]
    · rw [hy, Res.bind_ok, hv]
  · have hr' : ¬ Readable P a := fun hc => hr (sameDoc_readable P b a (sameDoc_symm ha hb h) hc)
    have key : ∀ t : Tson, t.Wf → t.IsContainer → ¬ Readable P t → (marshal P t).bind unmarshal = .err := by
      intro t hw hc hn
      rcases C33_unreadable P t hw hc hn with e | ⟨txt, e, e'⟩
      · rw [e]; rfl
      · rw [e, Res.bind_ok, e']
    left
    cases a <;> cases b <;> simp only [SameDoc, DocRel] at h
    · rfl
    · obtain ⟨rfl, rfl⟩ := h; rfl
    · rw [key _ ha trivial hr', key _ hb trivial hr]
    · rw [key _ ha trivial hr', key _ hb trivial hr]

/-- The hypotheses hold for a document with two orders of its members. -/
example : ∃ a b : Tson, a.Wf ∧ b.Wf ∧ SameDoc a b ∧ a ≠ b :=
  ⟨.obj [(b!"a", .leaf (.bool true) 1), (b!"b", .arr [])], .obj [(b!"b", .arr []), (b!"a", .leaf (.bool true) 1)],
    by simp [Tson.Wf, Tson.WfF, Tson.WfL, mkeys], by simp [Tson.Wf, Tson.WfF, Tson.WfL, mkeys],
    ⟨rfl, ⟨_, rfl, rfl, rfl⟩, ⟨_, rfl, trivial⟩, trivial⟩, by decide⟩

/-! ### C42: the unexported parser of decoded JSON -/

/-- C42: `parseValue` reads the decoded compatible form of every document, nil included, as the same document; timestamps
between -2^53 and 2^53 are kept. -/
theorem C42_parseValue (t : Tson) (hw : t.Wf) (hc : Clean t) (hd : nesting t ≤ 10000) :
    ∃ u, (toCompatible t).bind parseValueAny = .ok u ∧ u.Wf ∧ SameDoc t u := by
  refine ⟨sortT t, ?_, sortT_wf t hw, docRel_sortT (fun _ _ => ⟨rfl, rfl⟩) t hw⟩
  rw [toCompatible_clean (clean_writable t hc) hw hd, Res.bind_ok, parseValue_compat t hw, clean_roundTs t hc]

/-- `parseValue` accepts what `FromCompatibleTsonBytes` accepts, with the same result, on the output of
`ToCompatibleTsonBytes`. -/
theorem C42_agrees (t : Tson) (hw : t.Wf) (hc : Writable t) (hn : NullFree t) (hd : nesting t ≤ 10000) :
    (toCompatible t).bind parseValueAny = (encTson t).bind fromCompatible := by
  rw [toCompatible_clean hc hw hd, Res.bind_ok, parseValue_compat t hw, encTson_clean t hc, Res.bind_ok,
    fromCompatible, unmarshalAny, compatText_depth, if_pos hd, Res.bind_ok, decAny_compatText t hw,
    convert_compat t hn hw]

/-- The hypotheses of `C42_parseValue` hold for a document with nil. -/
example : ∃ t : Tson, t.Wf ∧ Clean t ∧ nesting t ≤ 10000 ∧ t = .obj [(b!"a", .null), (b!"b", .leaf (.bool true) 3)] :=
  ⟨.obj [(b!"a", .null), (b!"b", .leaf (.bool true) 3)], by simp [Tson.Wf, Tson.WfF, mkeys],
    ⟨.ascii (by decide) .nil, trivial, .ascii (by decide) .nil, ⟨trivial, by decide, by decide⟩, trivial⟩,
    by simp [nesting, nestingF], rfl⟩

/-! ### C43: `ToArray` -/

/-- C43: `ToArray` succeeds exactly if every element is a leaf, and then returns their values in order. -/
theorem C43_toArray (l : List Tson) (vs : List Prim) :
    toArray l = .ok vs ↔ ∃ stamps : List Int, stamps.length = vs.length ∧
      l = (vs.zip stamps).map fun p => .leaf p.1 p.2 := by
  induction l generalizing vs with
  | nil =>
    constructor
    · intro h; cases h; exact ⟨[], rfl, rfl⟩
    · rintro ⟨st, hl, h⟩
      cases vs with
      | nil => rfl
      | cons v vs =>
        cases st with
        | nil => simp at hl
        | cons a st => simp at h
  | cons t l ih =>
    constructor
    · intro h
      cases t <;> simp only [toArray] at h <;> try cases h
      rename_i p ts
      cases hl : toArray l with
      | err => rw [hl] at h; cases h
      | panic => rw [hl] at h; cases h
      | ok r =>
        rw [hl, Res.map_ok] at h; cases h
        obtain ⟨st, h1, h2⟩ := (ih r).1 hl
        exact ⟨ts :: st, by simp [h1], by rw [h2]; simp⟩
    · rintro ⟨st, hl, h⟩
      cases vs with
      | nil => simp at h
      | cons v vs =>
        cases st with
        | nil => simp at hl
        | cons a st =>
          simp only [List.zip_cons_cons, List.map_cons, List.cons.injEq] at h
          obtain ⟨rfl, h⟩ := h
          rw [toArray, (ih vs).2 ⟨st, by simpa using hl, h⟩]; rfl

/-- It never panics, and any element that is not a leaf is an error. -/
theorem C43_not_leaf (l : List Tson) (t : Tson) (h : t ∈ l) (ht : ∀ p ts, t ≠ .leaf p ts) : toArray l = .err := by
  induction l with
  | nil => cases h
  | cons x l ih =>
    rcases List.mem_cons.1 h with rfl | hm
    · cases t with
      | leaf p ts => exact absurd rfl (ht p ts)
      | _ => rfl
    · cases x with
      | leaf p ts => rw [toArray, ih hm]; rfl
      | _ => rfl

example : toArray [.leaf (.bool true) 1, .leaf (.str b!"x") 2] = .ok [.bool true, .str b!"x"] := by decide
example : toArray [.leaf (.bool true) 1, .arr []] = .err := by decide

end Verif
