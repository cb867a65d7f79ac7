import Verif.JsonTextFuel
import Verif.PropsJson
/-
Properties of the JSON texts as bytes (C44).
-/
namespace Verif

/-! ### C44: the JSON texts are read back -/

/-- C44 for values: writing a value with `json.Marshal` and reading the bytes with `json.Unmarshal` gives what the
syntax trees of C38-C42 say. -/
theorem C44_value (j : Js) (h : IntsOk j) : (marshalAny j).bind unmarshalText = (encAny j).bind unmarshalAny :=
  unmarshal_marshal h

/-- C44 for documents: reading the bytes of `ToCompatibleTsonBytes` gives what the syntax trees of C38-C42 say, for every
document with timestamps of type `int64`. -/
theorem C44_document (t : Tson) (h : ∀ ts ∈ stamps t, minInt64 ≤ ts ∧ ts ≤ maxInt64) :
    (toCompatibleText t).bind fromCompatibleText = (encTson t).bind fromCompatible ∧
      toCompatibleAny t = toCompatible t := by
  have h' : ∀ ts ∈ stamps t, ts.natAbs < 2 ^ 64 := fun ts hts => by have := h ts hts; simp only [minInt64, maxInt64] at this; omega
  exact ⟨fromCompatibleText_eq h', toCompatibleAny_eq h'⟩

theorem clean_int64 {t : Tson} (h : Clean t) : ∀ ts ∈ stamps t, minInt64 ≤ ts ∧ ts ≤ maxInt64 := by
  intro ts hts
  have := clean_stamps t h ts hts
  simp only [minInt64, maxInt64]
  omega

/-- C44 in the range where it holds: a document without nil, with valid UTF-8, finite numbers, timestamps between -2^53
and 2^53 and at most 10000 levels is written as bytes, and the bytes are read back as the same document.
Missing from the full statement: documents outside of this range, for which it fails (see C38). -/
theorem C44_roundtrip_partial (t : Tson) (hw : t.Wf) (hc : Clean t) (hn : NullFree t) (hd : nesting t ≤ 10000) :
    ∃ b u, toCompatibleText t = .ok b ∧ fromCompatibleText b = .ok u ∧ u.Wf ∧ SameDoc t u := by
  obtain ⟨u, h1, h2, h3⟩ := C38_roundtrip_partial t hw hc hn hd
  rw [← (C44_document t (clean_int64 hc)).1] at h1
  unfold toCompatibleText at h1 ⊢
  by_cases hf : t.finite = true
  · rw [if_pos hf, Res.bind_ok] at h1
    exact ⟨_, u, by rw [if_pos hf], h1, h2, h3⟩
  · rw [if_neg hf] at h1; cases h1

/-- The hypotheses hold for a document whose text needs escapes, an exponent and a surrogate. -/
example : ∃ t : Tson, t.Wf ∧ Clean t ∧ NullFree t ∧ nesting t ≤ 10000 ∧ tsonText t =
    b!"{\"a\\\"\\u003c\":{\"value\":\"😀\\n\",\"timestamp\":-5},\"b\":[{\"value\":1e+21,\"timestamp\":9007199254740992}]}" :=
  ⟨.obj [(b!"b", .arr [.leaf (.num (.ofInt 1000000000000000000000)) 9007199254740992]),
      (b!"a\"<", .leaf (.str (utf8Enc 0x1F600 ++ b!"\n")) (-5))], by simp [Tson.Wf, Tson.WfF, Tson.WfL, mkeys],
    ⟨by repeat first | exact .nil | refine .ascii (by decide) ?_,
      ⟨⟨⟨false, 7629394531250000, 17, by decide, by decide +kernel⟩, by decide, by decide⟩, trivial⟩,
      by repeat first | exact .nil | refine .ascii (by decide) ?_,
      ⟨.rune (by unfold IsScalar; omega) (by repeat first | exact .nil | refine .ascii (by decide) ?_), by decide, by decide⟩,
      trivial⟩,
    by simp [NullFree, NullFreeF, NullFreeL], by simp [nesting, nestingF, nestingL], by decide +kernel⟩

mutual
/-- No integers. -/
def NoInt : Js → Prop
  | .int _ => False
  | .obj m => NoIntF m
  | .arr l => NoIntL l
  | _ => True
/-- No integers in the members. -/
def NoIntF : List (Bytes × Js) → Prop
  | [] => True
  | (_, v) :: m => NoInt v ∧ NoIntF m
/-- No integers in the elements. -/
def NoIntL : List Js → Prop
  | [] => True
  | v :: l => NoInt v ∧ NoIntL l
end

theorem noIntF_iff {m : List (Bytes × Js)} : NoIntF m ↔ ∀ p ∈ m, NoInt p.2 := by
  induction m with
  | nil => simp [NoIntF]
  | cons p m ih => obtain ⟨k, v⟩ := p; simp [NoIntF, ih]

theorem noIntL_iff {l : List Js} : NoIntL l ↔ ∀ v ∈ l, NoInt v := by
  induction l with
  | nil => simp [NoIntL]
  | cons v l ih => simp [NoIntL, ih]

theorem mset_all {α : Type} {Q : α → Prop} {m : List (Bytes × α)} {k : Bytes} {v : α} (hm : ∀ p ∈ m, Q p.2) (hv : Q v) :
    ∀ p ∈ mset m k v, Q p.2 := by
  induction m with
  | nil => simpa [mset] using hv
  | cons q m ih =>
    obtain ⟨k', v'⟩ := q
    rw [List.forall_mem_cons] at hm
    simp only [mset]
    split
    · rw [List.forall_mem_cons]; exact ⟨hv, hm.2⟩
    · rw [List.forall_mem_cons]; exact ⟨hm.1, ih hm.2⟩

theorem fillMap_all {Q : Js → Prop} {m : List (Bytes × Js)} (h : ∀ p ∈ m, Q p.2) : ∀ p ∈ fillMap m, Q p.2 := by
  have : ∀ (l acc : List (Bytes × Js)), (∀ p ∈ acc, Q p.2) → (∀ p ∈ l, Q p.2) →
      ∀ p ∈ l.foldl (fun acc p => mset acc p.1 p.2) acc, Q p.2 := by
    intro l
    induction l with
    | nil => intro acc ha _; simpa using ha
    | cons q l ih =>
      intro acc ha hl
      rw [List.forall_mem_cons] at hl
      exact ih _ (mset_all ha hl.1) hl.2
  exact this m [] (by simp) h

theorem Jt.induction {P : Jt → Prop} (null : P .null) (bool : ∀ b, P (.bool b)) (num : ∀ a b c d, P (.num a b c d))
    (str : ∀ s, P (.str s)) (obj : ∀ m, (∀ p ∈ m, P p.2) → P (.obj m)) (arr : ∀ l, (∀ v ∈ l, P v) → P (.arr l)) :
    ∀ j, P j := by
  intro j
  refine Jt.rec (motive_1 := P) (motive_2 := fun m => ∀ p ∈ m, P p.2) (motive_3 := fun l => ∀ v ∈ l, P v)
    (motive_4 := fun p => P p.2) null bool num str obj arr ?_ ?_ ?_ ?_ ?_ j
  · intro p h; cases h
  · intro p m hp hm; rw [List.forall_mem_cons]; exact ⟨hp, hm⟩
  · intro p h; cases h
  · intro p m hp hm; rw [List.forall_mem_cons]; exact ⟨hp, hm⟩
  · intro k v h; exact h

theorem toAnyF_all {Q : Js → Prop} {m : List (Bytes × Jt)} {r : List (Bytes × Js)}
    (h : ∀ p ∈ m, ∀ j, p.2.toAny = .ok j → Q j) (hr : Jt.toAnyF m = .ok r) : ∀ p ∈ r, Q p.2 := by
  induction m generalizing r with
  | nil => simp only [Jt.toAnyF] at hr; cases hr; simp
  | cons q m ih =>
    obtain ⟨k, v⟩ := q
    rw [List.forall_mem_cons] at h
    rw [Jt.toAnyF] at hr
    cases hv : v.toAny with
    | ok j =>
      rw [hv, Res.bind_ok] at hr
      cases hm : Jt.toAnyF m with
      | ok r' =>
        rw [hm, Res.map_ok] at hr
        cases hr
        rw [List.forall_mem_cons]
        exact ⟨h.1 j hv, ih h.2 hm⟩
      | err => rw [hm] at hr; cases hr
      | panic => rw [hm] at hr; cases hr
    | err => rw [hv] at hr; cases hr
    | panic => rw [hv] at hr; cases hr

theorem toAnyL_all {Q : Js → Prop} {m : List Jt} {r : List Js}
    (h : ∀ v ∈ m, ∀ j, v.toAny = .ok j → Q j) (hr : Jt.toAnyL m = .ok r) : ∀ v ∈ r, Q v := by
  induction m generalizing r with
  | nil => simp only [Jt.toAnyL] at hr; cases hr; simp
  | cons v m ih =>
    rw [List.forall_mem_cons] at h
    rw [Jt.toAnyL] at hr
    cases hv : v.toAny with
    | ok j =>
      rw [hv, Res.bind_ok] at hr
      cases hm : Jt.toAnyL m with
      | ok r' =>
        rw [hm, Res.map_ok] at hr
        cases hr
        rw [List.forall_mem_cons]
        exact ⟨h.1 j hv, ih h.2 hm⟩
      | err => rw [hm] at hr; cases hr
      | panic => rw [hm] at hr; cases hr
    | err => rw [hv] at hr; cases hr
    | panic => rw [hv] at hr; cases hr

/-- A value read from a text contains no `int64`. -/
theorem toAny_noInt (t : Jt) : ∀ j, t.toAny = .ok j → NoInt j := by
  induction t using Jt.induction with
  | num neg int frac exp =>
    intro j h
    simp only [Jt.toAny] at h
    split at h
    · cases h; trivial
    · cases h
  | obj m ih =>
    intro j h
    simp only [Jt.toAny] at h
    cases hm : Jt.toAnyF m with
    | ok r =>
      rw [hm, Res.map_ok] at h
      cases h
      rw [NoInt, noIntF_iff]
      exact fillMap_all (toAnyF_all ih hm)
    | err => rw [hm] at h; cases h
    | panic => rw [hm] at h; cases h
  | arr l ih =>
    intro j h
    simp only [Jt.toAny] at h
    cases hm : Jt.toAnyL l with
    | ok r =>
      rw [hm, Res.map_ok] at h
      cases h
      rw [NoInt, noIntL_iff]
      exact toAnyL_all ih hm
    | err => rw [hm] at h; cases h
    | panic => rw [hm] at h; cases h
  | _ => intro j h; simp only [Jt.toAny] at h; cases h; trivial

theorem intsOk_stampEntry (j : Js) : NoInt j → IntsOk (stampEntry j) := by
  induction j using Js.induction with
  | obj m ih =>
    intro h
    rw [NoInt, noIntF_iff] at h
    rw [stampEntry, IntsOk, intsOkF_iff, stampAnyF_eq]
    intro p hp
    obtain ⟨q, hq, rfl⟩ := List.mem_map.1 hp
    exact ih q hq (h q hq)
  | arr l ih =>
    intro h
    rw [NoInt, noIntL_iff] at h
    rw [stampEntry, IntsOk, intsOkL_iff, stampAnyL_eq]
    intro p hp
    obtain ⟨q, hq, rfl⟩ := List.mem_map.1 hp
    exact ih q hq (h q hq)
  | int n => intro h; exact h.elim
  | null => intro _; simp [stampEntry, IntsOk]
  | _ => intro _; simp [stampEntry, leafAny, IntsOk, IntsOkF, defaultTimestamp]

theorem intsOk_addTimestamp (j : Js) (h : NoInt j) : IntsOk (addTimestamp j) := by
  cases j with
  | obj m => have := intsOk_stampEntry _ h; simpa only [addTimestamp, stampEntry] using this
  | arr l => have := intsOk_stampEntry _ h; simpa only [addTimestamp, stampEntry] using this
  | int n => exact h.elim
  | _ => simp [addTimestamp, IntsOk]

/-- C44 for `FromJsonBytes`: for every text, the bytes written and read in the middle of it can be replaced by the
syntax tree of C39. -/
theorem C44_fromJson (s : Bytes) : fromJsonText s = (unmarshalText s).bind fromJson := by
  rw [fromJsonText]
  cases hu : unmarshalText s with
  | err => rfl
  | panic => rfl
  | ok o =>
    have hno : NoInt o := by
      unfold unmarshalText at hu
      split at hu
      · exact toAny_noInt _ _ hu
      · cases hu
    have := unmarshal_marshal (intsOk_addTimestamp o hno)
    simp only [Res.bind_ok, fromJson]
    rw [marshalAny, encAny_all] at this ⊢
    by_cases hf : (addTimestamp o).finite = true
    · rw [if_pos hf, if_pos hf, Res.bind_ok, Res.bind_ok] at this
      simp only [if_pos hf, fromCompatibleText, fromCompatible, this]
    · simp only [if_neg hf]

theorem plain_noInt (j : Js) : PlainJson j → NoInt j := by
  induction j using Js.induction with
  | obj m ih =>
    intro h
    rw [NoInt, noIntF_iff]
    exact fun p hp => ih p hp ((plainJsonF_iff m).1 h.2 p hp).2
  | arr l ih =>
    intro h
    rw [NoInt, noIntL_iff]
    exact fun p hp => ih p hp ((plainJsonL_iff l).1 h p hp)
  | int n => intro h; exact h.elim
  | _ => intro _; trivial

theorem intsOk_noInt (j : Js) : NoInt j → IntsOk j := by
  induction j using Js.induction with
  | obj m ih =>
    intro h
    rw [NoInt, noIntF_iff] at h
    rw [IntsOk, intsOkF_iff]
    exact fun p hp => ih p hp (h p hp)
  | arr l ih =>
    intro h
    rw [NoInt, noIntL_iff] at h
    rw [IntsOk, intsOkL_iff]
    exact fun p hp => ih p hp (h p hp)
  | int n => intro h; exact h.elim
  | _ => intro _; trivial

/-- A decoded text contains no `int64`. -/
theorem decAny_noInt (j : Js) : NoInt (decAny j) := by
  induction j using Js.induction with
  | obj m ih =>
    rw [decAny, NoInt, noIntF_iff]
    apply fillMap_all
    rw [decAnyF_eq]
    intro p hp
    obtain ⟨q, hq, rfl⟩ := List.mem_map.1 hp
    exact ih q hq
  | arr l ih =>
    rw [decAny, NoInt, noIntL_iff, decAnyL_eq]
    intro p hp
    obtain ⟨q, hq, rfl⟩ := List.mem_map.1 hp
    exact ih q hq
  | _ => simp [decAny, NoInt]

theorem mget_noInt {m : List (Bytes × Js)} (h : ∀ p ∈ m, NoInt p.2) {k : Bytes} {v : Js} (hk : mget m k = some v) :
    NoInt v := h (k, v) (mget_mem hk)

theorem stripEntry_noInt (j : Js) : NoInt j → NoInt (stripEntry j) := by
  induction j using Js.induction with
  | obj m ih =>
    intro h
    have h' := noIntF_iff.1 h
    rw [stripEntry]
    split
    · rename_i v ts hc
      unfold checkLeaf at hc
      split at hc
      · split at hc
        · rename_i hv _; cases hc; exact mget_noInt h' hv
        · rename_i hv _; cases hc; exact mget_noInt h' hv
        · cases hc
      · cases hc
    · rw [NoInt, noIntF_iff, stripF_eq]
      intro p hp
      obtain ⟨q, hq, rfl⟩ := List.mem_map.1 hp
      exact ih q hq (h' q hq)
  | arr l ih =>
    intro h
    have h' := noIntL_iff.1 h
    rw [stripEntry, NoInt, noIntL_iff, stripL_eq]
    intro p hp
    obtain ⟨q, hq, rfl⟩ := List.mem_map.1 hp
    exact ih q hq (h' q hq)
  | int n => intro h; exact h.elim
  | _ => intro _; simp [stripEntry, NoInt]

theorem removeTimestamp_noInt (j : Js) (h : NoInt j) : NoInt (removeTimestamp j) := by
  cases j with
  | obj m =>
    rw [removeTimestamp, NoInt, noIntF_iff, stripF_eq]
    intro p hp
    obtain ⟨q, hq, rfl⟩ := List.mem_map.1 hp
    exact stripEntry_noInt _ (noIntF_iff.1 h q hq)
  | arr l =>
    rw [removeTimestamp, NoInt, noIntL_iff, stripL_eq]
    intro p hp
    obtain ⟨q, hq, rfl⟩ := List.mem_map.1 hp
    exact stripEntry_noInt _ (noIntL_iff.1 h q hq)
  | int n => exact h.elim
  | _ => simp [removeTimestamp, NoInt]

theorem toJson_noInt (t : Tson) : NoInt (toJson t) := by
  unfold toJson
  split
  · rename_i o ho
    apply removeTimestamp_noInt
    rw [toCompatible, encTson_all] at ho
    split at ho
    · rw [Res.bind_ok, unmarshalAny] at ho
      split at ho
      · cases ho; exact decAny_noInt _
      · cases ho
    · cases ho
  · trivial

/-- C44 for `ToJsonBytes`: reading its bytes gives what the syntax trees of C38-C42 say. -/
theorem C44_toJson (t : Tson) (h : ∀ ts ∈ stamps t, minInt64 ≤ ts ∧ ts ≤ maxInt64) :
    (toJsonText t).bind unmarshalText = (toJsonBytes t).bind unmarshalAny := by
  have e : toJsonAny t = toJson t := by unfold toJsonAny toJson; rw [(C44_document t h).2]; rfl
  rw [toJsonText, e, toJsonBytes]
  exact unmarshal_marshal (intsOk_noInt _ (toJson_noInt t))

/-- C44 for the equality functions: they compare what was written and read as bytes; C40 holds for them. -/
theorem C44_equal (a b : Tson) (ha : ∀ ts ∈ stamps a, minInt64 ≤ ts ∧ ts ≤ maxInt64)
    (hb : ∀ ts ∈ stamps b, minInt64 ≤ ts ∧ ts ≤ maxInt64) :
    equalText a b = equal a b ∧ equalWithoutTimestampText a b = equalWithoutTimestamp a b := by
  constructor
  · unfold equalText equal
    rw [(C44_document a ha).2, (C44_document b hb).2]; rfl
  · unfold equalWithoutTimestampText equalWithoutTimestamp
    rw [C44_toJson a ha, C44_toJson b hb]; rfl

/-- C44 for plain JSON in the range of C39: a text with a plain JSON object or array is read into a document with
timestamps -1, and writing this document and reading the text gives the same JSON.
Missing from the full statement: null inside, and nesting of 10000 levels (see C39). -/
theorem C44_json_partial (b : Bytes) (j : Js) (hu : unmarshalText b = .ok j) (hj : PlainJson j) (hc : j.IsContainer)
    (hd : j.depth < 10000) : ∃ t c k, fromJsonText b = .ok t ∧ toJsonText t = .ok c ∧ unmarshalText c = .ok k ∧
      SameJson j k ∧ ∀ ts ∈ stamps t, ts = -1 := by
  have hw := stampT_wf j hj
  have hcl := stampT_clean j hj
  have hst := stamps_sortT_stampT j
  have h64 : ∀ ts ∈ stamps (sortT (stampT j)), minInt64 ≤ ts ∧ ts ≤ maxInt64 := by
    intro ts h; rw [hst ts h]; decide
  have h1 : fromJsonText b = .ok (sortT (stampT j)) := by
    rw [C44_fromJson, hu, Res.bind_ok, fromJson_plain hj hc hd]
  have h2 := C44_toJson _ h64
  rw [toJsonBytes, toJson_fromJson hj hc hd, encAny_values _ (clean_writable _ hcl.1) hw, Res.bind_ok, unmarshalAny,
    if_pos (Nat.le_trans (values_depth _) (Nat.le_trans (stampT_nesting j) hd)), decAny_values _ hw] at h2
  cases ht : toJsonText (sortT (stampT j)) with
  | ok c => rw [ht, Res.bind_ok] at h2; exact ⟨_, c, _, h1, ht, h2, sameJson_values j hj, hst⟩
  | err => rw [ht] at h2; cases h2
  | panic => rw [ht] at h2; cases h2

/-- The hypotheses hold for a text with white space, an escape and an exponent. -/
example : ∃ j, unmarshalText b!" {\"a\\u0041\" : [ 2e0 ] }" = .ok j ∧ PlainJson j ∧ j.IsContainer ∧ j.depth < 10000 :=
  ⟨.obj [(b!"aA", .arr [.num (.fin false (2 ^ 52) (-51) (by decide))])], by rfl,
    ⟨by decide, by repeat first | exact .nil | refine .ascii (by decide) ?_, ⟨⟨_, _, _, _, rfl⟩, trivial⟩, trivial⟩,
    trivial, by simp [Js.depth, Js.depthF, Js.depthL]⟩

/-- C44: the bound on the recursion depth in the model of the reader never matters: with any larger bound the
result is the same. -/
theorem C44_fuel (s : Bytes) (n : Nat) (h : 2 * s.length < n) :
    readVal n (skipWs s) = readVal (2 * s.length + 1) (skipWs s) := by
  have := skipWs_length s
  exact (read_fuel _).1 (skipWs s) (Nat.le_refl _) _ _ (by omega) (by omega)

/-- C44 fails: a text accepted by `FromJsonBytes` can be written differently by `ToJsonBytes`; two members with the same
key become one. -/
theorem C44_duplicate_fails : ∃ b t c, fromJsonText b = .ok t ∧ toJsonText t = .ok c ∧
    b = b!"{\"a\":1,\"a\":2}" ∧ c = b!"{\"a\":2}" :=
  ⟨_, .obj [(b!"a", .leaf (.num (.ofInt 2)) (-1))], _, by decide +kernel, by decide +kernel, rfl, rfl⟩

end Verif
