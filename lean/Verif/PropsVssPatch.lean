import Verif.PropsDiffFull
import Verif.PropsVssGen
import Verif.PatchTextLemmas
import Verif.SpecVssPatch
/-
Property C76: the patch between two data sets of a vehicle.
-/
namespace Verif

/-! ### Documents of data sets -/

theorem ofRatio_fin {neg : Bool} {p q : Nat} {f : F64} (h : F64.ofRatio neg p q = some f) : ∃ m e hc, f = .fin neg m e hc := by
  have hmk : ∀ m e, F64.mk? neg m e = some f → ∃ m e hc, f = .fin neg m e hc := by
    intro m e h
    unfold F64.mk? at h
    split at h
    · rename_i hc
      cases h; exact ⟨m, e, hc, rfl⟩
    · cases h
  unfold F64.ofRatio at h
  split at h
  · exact hmk _ _ h
  · dsimp only at h
    split at h
    · exact hmk _ _ h
    · exact hmk _ _ h

/-- Integers of Go are finite numbers. -/
theorem ofInt_fin {n : Int} (h : n.natAbs < 2 ^ 64) : ∃ neg m e hc, F64.ofInt n = .fin neg m e hc := by
  obtain ⟨f, hf⟩ := ofRatio_nat (decide (n < 0)) h
  obtain ⟨m, e, hc, rfl⟩ := ofRatio_fin hf
  exact ⟨_, m, e, hc, by rw [F64.ofInt, hf]; rfl⟩

theorem int64_natAbs {n : Int} (h1 : minInt64 ≤ n) (h2 : n ≤ maxInt64) : n.natAbs < 2 ^ 64 := by
  simp only [minInt64, maxInt64] at h1 h2
  omega

theorem toInt64_range (f : F64) : minInt64 ≤ f.toInt64 ∧ f.toInt64 ≤ maxInt64 := by
  cases f with
  | nan => decide
  | inf s => cases s <;> decide
  | fin neg m e h =>
    simp only [F64.toInt64]
    generalize (if neg = true then (-(((if 0 ≤ e then m * 2 ^ e.toNat else m / 2 ^ (-e).toNat) : Nat) : Int))
      else (((if 0 ≤ e then m * 2 ^ e.toNat else m / 2 ^ (-e).toNat) : Nat) : Int)) = v
    split
    · rename_i hv; exact hv
    · decide

/-- The value of a reading as a value of a document. -/
theorem CleanScalar.prim {x : Js} (h : CleanScalar x) : ∃ p, PrimOf x p ∧ CleanPrim p ∧ encAny x = .ok (sanT x) ∧
    decAny (sanT x) = primJs p ∧ IntsOk x ∧ x.depth = 0 ∧ (sanT x).depth = 0 := by
  cases h with
  | bool b => exact ⟨.bool b, .bool b, trivial, rfl, rfl, trivial, rfl, rfl⟩
  | num neg m e h => exact ⟨.num (.fin neg m e h), .num _ _ (.num _), ⟨neg, m, e, h, rfl⟩, rfl, rfl, trivial, rfl, rfl⟩
  | int n h1 h2 =>
    refine ⟨.num (.ofInt n), .num _ _ (.int n), ofInt_fin (int64_natAbs h1 h2), rfl, rfl, int64_natAbs h1 h2, rfl, rfl⟩
  | str s h =>
    refine ⟨.str s, .str s, h, ?_, ?_, trivial, rfl, rfl⟩
    · rw [encAny]; rfl
    · rw [sanT, sanitize_valid h]; rfl

theorem encAny_reading {x : Js} {e : Js} (h : encAny x = .ok e) (ts : Int) :
    encAny (readingJs x ts) = .ok (.obj [(b!"timestamp", .int ts), (b!"value", e)]) := by
  rw [readingJs, encAny, encAnyF, h, Res.bind_ok, encAnyF, encAny, Res.bind_ok, encAnyF]
  simp only [Res.map_ok]
  have : sortM [(b!"value", e), (b!"timestamp", .int ts)] = [(b!"timestamp", .int ts), (b!"value", e)] := rfl
  rw [this]
  have e1 : sanitize b!"timestamp" = b!"timestamp" := by decide
  have e2 : sanitize b!"value" = b!"value" := by decide
  simp only [List.map_cons, List.map_nil, encKey, e1, e2]

/-- The document `t` is read from the JSON value `e` of the data `j`. -/
structure DocRead (j e : Js) (t : Tson) : Prop where
  enc : encAny j = .ok e
  depth : e.depth ≤ j.depth
  ints : IntsOk j
  conv : convert (decAny e) = .ok t
  wf : t.Wf
  doc : DocOf j t

theorem mapV_id (m : List (Bytes × Js)) : mapV (fun v => v) m = m := by
  simp [mapV]

theorem dataTree_read {j : Js} (h : DataTree j) : ∃ et : Js × Tson, DocRead j et.1 et.2 := by
  induction h with
  | reading x ts hx h1 h2 =>
    obtain ⟨p, hp, hc, e1, e2, e3, e4, e5⟩ := hx.prim
    refine ⟨(.obj [(b!"timestamp", .int ts), (b!"value", sanT x)], .leaf p (jsonStamp ts)),
      ⟨encAny_reading e1 ts, ?_, ⟨e3, int64_natAbs h1 h2, trivial⟩, ?_, trivial, .reading x ts p hp⟩⟩
    · simp [Js.depth, Js.depthF, readingJs, e4, e5]
    · rw [decAny, decAnyF_eq, fillMap_nodup]
      · simp only [mapV, List.map_cons, List.map_nil, e2]
        rw [convert, show decAny (.int ts) = .num (.ofInt ts) by rfl, checkLeaf_leaf']
        simp only [mkLeaf_prim, jsonStamp]
      · rw [mkeys_mapV]; simp only [mkeys, List.map_cons, List.map_nil]; decide
  | map m hn hk _ ih =>
    have hch : ∀ v : Js, ∃ et : Js × Tson, (∃ k, (k, v) ∈ m) → DocRead v et.1 et.2 := by
      intro v
      by_cases hv : ∃ k, (k, v) ∈ m
      · obtain ⟨k, hkv⟩ := hv
        obtain ⟨et, h⟩ := ih (k, v) hkv
        exact ⟨et, fun _ => h⟩
      · exact ⟨(.null, .null), fun h => absurd h hv⟩
    obtain ⟨F, hF⟩ := Classical.axiomOfChoice hch
    have hp : ∀ p ∈ m, DocRead p.2 (F p.2).1 (F p.2).2 := fun p hp => hF p.2 ⟨p.1, hp⟩
    have hts : b!"timestamp" ∉ mkeys m := fun h => (hk _ h).2.2 rfl
    refine ⟨(.obj (sortM (mapV (fun v => (F v).1) m)), .obj (sortM (mapV (fun v => (F v).2) m))), ⟨?_, ?_, ?_, ?_, ?_, ?_⟩⟩
    · have := encAnyF_ok (f := fun v => v) (g := fun v => (F v).1) fun p hpm => (hp p hpm).enc
      rw [mapV_id] at this
      rw [encAny, this, Res.map_ok, encKey_valid]
      exact mapV_keys fun p hpm => (hk p.1 (List.mem_map_of_mem hpm)).1
    · simp only [Js.depth]
      have : Js.depthF (sortM (mapV (fun v => (F v).1) m)) ≤ Js.depthF m := by
        rw [depthF_sorted]
        intro p hpm
        exact Nat.le_trans (hp p hpm).depth (depthF_le.1 (Nat.le_refl _) p hpm)
      omega
    · rw [IntsOk, intsOkF_iff]; exact fun p hpm => (hp p hpm).ints
    · have hnk := decAny_sorted (f := fun v => (F v).1) (g := fun v => decAny (F v).1) hn fun p _ => rfl
      have hcv : convertF (mapV (fun v => decAny (F v).1) (sortM m)) = .ok (mapV (fun v => (F v).2) (sortM m)) :=
        convertF_ok fun p hpm => (hp p ((sortM_perm m).subset hpm)).conv
      have hcl : checkLeaf (mapV (fun v => decAny (F v).1) (sortM m)) = none := by
        apply checkLeaf_none <;> intro f h <;> rw [mget_mapV, mget_sortM hn, mget_eq_none.2 hts] at h <;>
          cases h
      simp only [sortM_mapV] at hnk ⊢
      rw [hnk, convert, hcl, hcv]; rfl
    · refine ⟨sortM_nodup (by rw [mkeys_mapV]; exact hn), (Tson.wfF_iff _).2 ?_⟩
      rw [forall_sortM_mapV (Q := Tson.Wf)]
      exact fun p hpm => (hp p hpm).wf
    · refine .map _ _ hts (fun k => ?_) fun k v w hv hw => ?_
      · rw [mget_sortM (by rw [mkeys_mapV]; exact hn), mget_mapV]
        cases mget m k <;> rfl
      · rw [mget_sortM (by rw [mkeys_mapV]; exact hn), mget_mapV, hv] at hw
        cases hw
        exact (hp _ (mget_mem hv)).doc
  | array l hl _ ih =>
    have hch : ∀ v : Js, ∃ et : Js × Tson, v ∈ l → DocRead v et.1 et.2 := by
      intro v
      by_cases hv : v ∈ l
      · obtain ⟨et, h⟩ := ih v hv
        exact ⟨et, fun _ => h⟩
      · exact ⟨(.null, .null), fun h => absurd h hv⟩
    obtain ⟨F, hF⟩ := Classical.axiomOfChoice hch
    refine ⟨(.arr (l.map fun v => (F v).1), .arr (l.map fun v => (F v).2)), ⟨?_, ?_, ?_, ?_, ?_, ?_⟩⟩
    · have := encAnyL_ok (f := fun v => v) (g := fun v => (F v).1) fun v hv => (hF v hv).enc
      rw [List.map_id'] at this
      rw [encAny, this]; rfl
    · simp only [Js.depth]
      have : Js.depthL (l.map fun v => (F v).1) ≤ Js.depthL l := by
        rw [depthL_le]
        intro w hw
        obtain ⟨v, hv, rfl⟩ := List.mem_map.1 hw
        exact Nat.le_trans (hF v hv).depth (depthL_le.1 (Nat.le_refl _) v hv)
      omega
    · rw [IntsOk, intsOkL_iff]; exact fun v hv => (hF v hv).ints
    · rw [decAny, decAnyL_eq, List.map_map, convert]
      have := convertL_ok (f := fun v => decAny (F v).1) (g := fun v => (F v).2) fun v hv => (hF v hv).conv
      exact congrArg (Res.map Tson.arr) this
    · refine (Tson.wfL_iff _).2 fun t ht => ?_
      obtain ⟨v, hv, rfl⟩ := List.mem_map.1 ht
      exact (hF v hv).wf
    · refine .array _ _ (by simp) fun i v w hv hw => ?_
      rw [List.getElem?_map, hv] at hw
      cases hw
      exact (hF v (List.mem_of_getElem? hv)).doc

/-- C76: the document made from a data set has the same keys and indices, and for each reading a leaf with its value and its
rounded timestamp. -/
theorem C76_document {m : List (Bytes × Js)} (h : DataTree (.obj m)) (hd : (Js.obj m).depth ≤ 10000) :
    ∃ t, vssTson m = .ok t ∧ t.Wf ∧ DocOf (.obj m) t := by
  obtain ⟨⟨e, t⟩, hr⟩ := dataTree_read h
  refine ⟨t, ?_, hr.wf, hr.doc⟩
  have hu := unmarshal_marshal hr.ints
  rw [hr.enc, Res.bind_ok, unmarshalAny, if_pos (Nat.le_trans hr.depth hd)] at hu
  unfold vssTson
  cases hm : marshalAny (.obj m) with
  | ok b =>
    rw [hm, Res.bind_ok] at hu
    dsimp only
    rw [fromCompatibleText, hu, Res.bind_ok, hr.conv]
  | err => rw [hm] at hu; cases hu
  | panic => rw [hm] at hu; cases hu


/-! ### Places of readings -/

theorem readingJs_inj {x y : Js} {t u : Int} (h : readingJs x t = readingJs y u) : x = y ∧ t = u := by
  simpa [readingJs] using h

theorem readingJs_ne {m : List (Bytes × Js)} {x : Js} {ts : Int} (h : b!"timestamp" ∉ mkeys m) : Js.obj m ≠ readingJs x ts := by
  intro e
  simp only [readingJs, Js.obj.injEq] at e
  subst e
  exact h (by simp [mkeys])

theorem docOf_reading {x : Js} {ts : Int} {t : Tson} (h : DocOf (readingJs x ts) t) :
    ∃ p, PrimOf x p ∧ t = .leaf p (jsonStamp ts) := by
  generalize e : readingJs x ts = j at h
  cases h with
  | reading y u p hp => obtain ⟨rfl, rfl⟩ := readingJs_inj e; exact ⟨p, hp, rfl⟩
  | map m n h1 => exact absurd e.symm (readingJs_ne h1)
  | array l k => cases e

theorem docOf_map {m : List (Bytes × Js)} {t : Tson} (hts : b!"timestamp" ∉ mkeys m) (h : DocOf (.obj m) t) :
    ∃ n, t = .obj n ∧ (∀ k, (mget m k).isSome = (mget n k).isSome) ∧
      ∀ k v w, mget m k = some v → mget n k = some w → DocOf v w := by
  generalize e : Js.obj m = j at h
  cases h with
  | reading y u p hp => exact absurd e (readingJs_ne hts)
  | map m' n h1 h2 h3 => cases e; exact ⟨n, rfl, h2, h3⟩
  | array l k => cases e

theorem docOf_array {l : List Js} {t : Tson} (h : DocOf (.arr l) t) :
    ∃ k, t = .arr k ∧ l.length = k.length ∧ ∀ (i : Nat) v w, l[i]? = some v → k[i]? = some w → DocOf v w := by
  generalize e : Js.arr l = j at h
  cases h with
  | reading y u p hp => cases e
  | map m' n h1 h2 h3 => cases e
  | array l k h1 h2 => cases e; exact ⟨k, rfl, h1, h2⟩

theorem readingAt_reading {x y : Js} {t u : Int} {ks : List Bytes} (h : ReadingAt (readingJs x t) ks y u) :
    ks = [] ∧ y = x ∧ u = t := by
  generalize e : readingJs x t = j at h
  cases h with
  | here => obtain ⟨rfl, rfl⟩ := readingJs_inj e; exact ⟨rfl, rfl, rfl⟩
  | member m k c ks _ _ h1 => exact absurd e.symm (readingJs_ne h1)
  | element l i c ks _ _ => cases e

theorem readingAt_map {m : List (Bytes × Js)} (hts : b!"timestamp" ∉ mkeys m) {ks : List Bytes} {x : Js} {ts : Int} :
    ReadingAt (.obj m) ks x ts ↔ ∃ k c r, ks = k :: r ∧ mget m k = some c ∧ ReadingAt c r x ts := by
  constructor
  · intro h
    generalize e : Js.obj m = j at h
    cases h with
    | here => exact absurd e (readingJs_ne hts)
    | member m' k c ks _ _ _ h2 h3 => cases e; exact ⟨k, c, ks, rfl, h2, h3⟩
    | element l i c ks _ _ => cases e
  · rintro ⟨k, c, r, rfl, h2, h3⟩; exact .member m k c r x ts hts h2 h3

theorem readingAt_array {l : List Js} {ks : List Bytes} {x : Js} {ts : Int} :
    ReadingAt (.arr l) ks x ts ↔ ∃ i c r, ks = natDigits i :: r ∧ l[i]? = some c ∧ ReadingAt c r x ts := by
  constructor
  · intro h
    generalize e : Js.arr l = j at h
    cases h with
    | here => cases e
    | member m' k c ks _ _ _ h2 h3 => cases e
    | element l i c ks _ _ h1 h2 => cases e; exact ⟨i, c, ks, rfl, h1, h2⟩
  · rintro ⟨i, c, r, rfl, h2, h3⟩; exact .element l i c r x ts h2 h3

theorem NumberJs.unique {x : Js} {f g : F64} (h1 : NumberJs x f) (h2 : NumberJs x g) : f = g := by
  cases h1 <;> cases h2 <;> rfl

theorem PrimOf.unique {x : Js} {p q : Prim} (h1 : PrimOf x p) (h2 : PrimOf x q) : p = q := by
  cases h1 with
  | bool b => cases h2 with
    | bool => rfl
    | num _ _ h => cases h
  | str s => cases h2 with
    | str => rfl
    | num _ _ h => cases h
  | num _ f h =>
    cases h2 with
    | bool => cases h
    | str => cases h
    | num _ g h' => rw [h.unique h']

theorem isSome_other {m : List (Bytes × α)} {n : List (Bytes × β)} (h : ∀ k, (mget m k).isSome = (mget n k).isSome)
    {k : Bytes} {w : β} (hw : mget n k = some w) : ∃ v, mget m k = some v := by
  have := h k
  rw [hw] at this
  exact Option.isSome_iff_exists.1 this

theorem isSome_other' {m : List (Bytes × α)} {n : List (Bytes × β)} (h : ∀ k, (mget m k).isSome = (mget n k).isSome)
    {k : Bytes} {w : α} (hw : mget m k = some w) : ∃ v, mget n k = some v :=
  isSome_other (fun k => (h k).symm) hw

theorem length_other {l : List α} {k : List β} (h : l.length = k.length) {i : Nat} {w : β} (hw : k[i]? = some w) :
    ∃ v, l[i]? = some v := by
  obtain ⟨hi, -⟩ := List.getElem?_eq_some_iff.1 hw
  exact ⟨l[i]'(by omega), List.getElem?_eq_getElem _⟩

/-- C76: the leaves of the document are the readings of the data set. -/
theorem C76_leaves {j : Js} {t : Tson} (h : DocOf j t) (ks : List Bytes) (p : Prim) (u : Int) :
    NodeAt t ks (.leaf p u) ↔ ∃ x ts, ReadingAt j ks x ts ∧ PrimOf x p ∧ u = jsonStamp ts := by
  induction h generalizing ks with
  | reading x ts q hq =>
    constructor
    · intro h
      obtain ⟨rfl, rfl, rfl⟩ := nodeAt_leaf h
      exact ⟨x, ts, .here x ts, hq, rfl⟩
    · rintro ⟨y, v, h1, h2, rfl⟩
      obtain ⟨rfl, rfl, rfl⟩ := readingAt_reading h1
      rw [h2.unique hq]
      exact .here _
  | map m n hts h1 _ ih =>
    constructor
    · intro h
      cases ks with
      | nil => cases h
      | cons k ks =>
        obtain ⟨c, hc, h⟩ := nodeAt_obj.1 h
        obtain ⟨v, hv⟩ := isSome_other h1 hc
        obtain ⟨x, ts, h2, h3⟩ := (ih k v c hv hc ks).1 h
        exact ⟨x, ts, .member m k v ks x ts hts hv h2, h3⟩
    · rintro ⟨x, ts, h2, h3⟩
      obtain ⟨k, v, r, rfl, hv, h2⟩ := (readingAt_map hts).1 h2
      obtain ⟨c, hc⟩ := isSome_other' h1 hv
      exact nodeAt_obj.2 ⟨c, hc, (ih k v c hv hc r).2 ⟨x, ts, h2, h3⟩⟩
  | array l n h1 _ ih =>
    constructor
    · intro h
      cases ks with
      | nil => cases h
      | cons k ks =>
        obtain ⟨i, c, rfl, hc, h⟩ := nodeAt_arr.1 h
        obtain ⟨v, hv⟩ := length_other h1 hc
        obtain ⟨x, ts, h2, h3⟩ := (ih i v c hv hc ks).1 h
        exact ⟨x, ts, .element l i v ks x ts hv h2, h3⟩
    · rintro ⟨x, ts, h2, h3⟩
      obtain ⟨i, v, r, rfl, hv, h2⟩ := readingAt_array.1 h2
      obtain ⟨c, hc⟩ := length_other h1.symm hv
      exact nodeAt_arr.2 ⟨i, c, rfl, hc, (ih i v c hv hc r).2 ⟨x, ts, h2, h3⟩⟩

theorem sameJsType_prim {x y : Js} {p q : Prim} (h : SameJsType x y) (h1 : PrimOf x p) (h2 : PrimOf y q) : SameType p q := by
  cases h with
  | bool b c => rw [h1.unique (.bool b), h2.unique (.bool c)]; exact .bool b c
  | num _ _ f g hf hg => rw [h1.unique (.num x f hf), h2.unique (.num y g hg)]; exact .num f g
  | str s r => rw [h1.unique (.str s), h2.unique (.str r)]; exact .str s r

theorem timestamp_other {m n : List (Bytes × Js)} (hts : b!"timestamp" ∉ mkeys m)
    (h : ∀ k, (mget m k).isSome = (mget n k).isSome) : b!"timestamp" ∉ mkeys n := by
  rw [← mget_eq_none]
  have := h b!"timestamp"
  rw [mget_eq_none.2 hts] at this
  cases h' : mget n b!"timestamp" with
  | none => rfl
  | some v => rw [h'] at this; cases this

theorem sameData_shape {j k : Js} (h : SameData j k) : ∀ {a b : Tson}, DocOf j a → DocOf k b → SameShape a b := by
  induction h with
  | reading x y t u hxy =>
    intro a b ha hb
    obtain ⟨p, hp, rfl⟩ := docOf_reading ha
    obtain ⟨q, hq, rfl⟩ := docOf_reading hb
    exact .leaf _ _ _ _ (sameJsType_prim hxy hp hq)
  | map m n hts h1 _ ih =>
    intro a b ha hb
    obtain ⟨m', rfl, ha1, ha2⟩ := docOf_map hts ha
    obtain ⟨n', rfl, hb1, hb2⟩ := docOf_map (timestamp_other hts h1) hb
    refine .obj _ _ (fun k => by rw [← ha1, ← hb1, h1]) fun k v w hv hw => ?_
    obtain ⟨v', hv'⟩ := isSome_other ha1 hv
    obtain ⟨w', hw'⟩ := isSome_other hb1 hw
    exact ih k v' w' hv' hw' (ha2 k v' v hv' hv) (hb2 k w' w hw' hw)
  | array l k h1 _ ih =>
    intro a b ha hb
    obtain ⟨l', rfl, ha1, ha2⟩ := docOf_array ha
    obtain ⟨k', rfl, hb1, hb2⟩ := docOf_array hb
    refine .arr _ _ (by omega) fun i v w hv hw => ?_
    obtain ⟨v', hv'⟩ := length_other ha1 hv
    obtain ⟨w', hw'⟩ := length_other hb1 hw
    exact ih i v' w' hv' hw' (ha2 i v' v hv' hv) (hb2 i w' w hw' hw)

/-- C76: data sets of the same kind have readings at the same places. -/
theorem sameData_places {j k : Js} (h : SameData j k) (ks : List Bytes) :
    (∃ x t, ReadingAt j ks x t) ↔ ∃ y u, ReadingAt k ks y u := by
  induction h generalizing ks with
  | reading x y t u _ =>
    constructor
    · rintro ⟨x', t', h⟩
      obtain ⟨rfl, -, -⟩ := readingAt_reading h
      exact ⟨y, u, .here y u⟩
    · rintro ⟨x', t', h⟩
      obtain ⟨rfl, -, -⟩ := readingAt_reading h
      exact ⟨x, t, .here x t⟩
  | map m n h0 hk _ ih =>
    constructor
    · rintro ⟨x, t, h⟩
      obtain ⟨k, c, r, rfl, h1, h2⟩ := (readingAt_map h0).1 h
      obtain ⟨w, hw⟩ := isSome_other' hk h1
      obtain ⟨y, u, h3⟩ := (ih k c w h1 hw r).1 ⟨x, t, h2⟩
      exact ⟨y, u, .member n k w r y u (timestamp_other h0 hk) hw h3⟩
    · rintro ⟨x, t, h⟩
      obtain ⟨k, w, r, rfl, hw, h2⟩ := (readingAt_map (timestamp_other h0 hk)).1 h
      obtain ⟨c, h1⟩ := isSome_other hk hw
      obtain ⟨y, u, h3⟩ := (ih k c w h1 hw r).2 ⟨x, t, h2⟩
      exact ⟨y, u, .member m k c r y u h0 h1 h3⟩
  | array l k hk _ ih =>
    constructor
    · rintro ⟨x, t, h⟩
      obtain ⟨i, c, r, rfl, h1, h2⟩ := readingAt_array.1 h
      obtain ⟨w, hw⟩ := length_other hk.symm h1
      obtain ⟨y, u, h3⟩ := (ih i c w h1 hw r).1 ⟨x, t, h2⟩
      exact ⟨y, u, .element k i w r y u hw h3⟩
    · rintro ⟨x, t, h⟩
      obtain ⟨i, w, r, rfl, hw, h2⟩ := readingAt_array.1 h
      obtain ⟨c, h1⟩ := length_other hk hw
      obtain ⟨y, u, h3⟩ := (ih i c w h1 hw r).2 ⟨x, t, h2⟩
      exact ⟨y, u, .element l i c r y u h1 h3⟩

theorem dataTree_named {j : Js} (h : DataTree j) : ∀ {t : Tson}, DocOf j t → Named t := by
  induction h with
  | reading x ts _ _ _ =>
    intro t ht
    obtain ⟨p, -, rfl⟩ := docOf_reading ht
    refine ⟨fun ks m h => ?_, fun ks m h => ?_⟩ <;> cases h
  | map m hn hk _ ih =>
    intro t ht
    have hts : b!"timestamp" ∉ mkeys m := fun h => (hk _ h).2.2 rfl
    obtain ⟨n, rfl, h1, h2⟩ := docOf_map hts ht
    have hc : ∀ {k c}, mget n k = some c → Named c := by
      intro k c hc
      obtain ⟨v, hv⟩ := isSome_other h1 hc
      exact ih (k, v) (mget_mem hv) (h2 k v c hv hc)
    refine ⟨fun ks m' h => ?_, fun ks l h => ?_⟩
    · cases h with
      | here =>
        intro k hkn
        obtain ⟨c, hc⟩ := mget_isSome.2 hkn
        obtain ⟨v, hv⟩ := isSome_other h1 hc
        exact (hk k (mget_isSome.1 ⟨v, hv⟩)).2.1
      | member _ k ks c _ h3 h4 => exact (hc h3).keys _ _ h4
    · cases h with
      | member _ k ks c _ h3 h4 => exact (hc h3).arrays _ _ h4
  | array l hl _ ih =>
    intro t ht
    obtain ⟨k, rfl, h1, h2⟩ := docOf_array ht
    have hc : ∀ {i : Nat} {c}, k[i]? = some c → Named c := by
      intro i c hc
      obtain ⟨v, hv⟩ := length_other h1 hc
      exact ih v (List.mem_of_getElem? hv) (h2 i v c hv hc)
    refine ⟨fun ks m' h => ?_, fun ks l' h => ?_⟩
    · cases h with
      | element _ _ ks i c _ _ h3 h4 => exact (hc h3).keys _ _ h4
    · cases h with
      | here => rw [← h1]; exact hl
      | element _ _ ks i c _ _ h3 h4 => exact (hc h3).arrays _ _ h4

theorem valid_ascii {s : Bytes} (h : ∀ c ∈ s, c < 0x80) : ValidUtf8 s := by
  induction s with
  | nil => exact .nil
  | cons c s ih =>
    rw [List.forall_mem_cons] at h
    exact .ascii h.1 (ih h.2)

theorem valid_digits (n : Nat) : ValidUtf8 (natDigits n) := by
  refine valid_ascii fun c hc => ?_
  have h := List.all_eq_true.1 (natDigits_isDigit n) c hc
  simp only [isDigit, Bool.and_eq_true, decide_eq_true_eq, UInt8.le_iff_toNat_le] at h
  rw [UInt8.lt_iff_toNat_lt]
  have := h.2
  simp at this ⊢
  omega

theorem valid_append {s t : Bytes} (hs : ValidUtf8 s) (ht : ValidUtf8 t) : ValidUtf8 (s ++ t) := by
  induction hs with
  | nil => exact ht
  | ascii h _ ih => exact .ascii h ih
  | rune h _ ih => rw [List.append_assoc]; exact .rune h ih

theorem encode_high {s t : Bytes} (h : ∀ c ∈ s, 128 ≤ c.toNat) : encode (s ++ t) = s ++ encode t := by
  induction s with
  | nil => rfl
  | cons c s ih =>
    rw [List.forall_mem_cons] at h
    have h1 : c ≠ bTilde := by rintro rfl; exact absurd h.1 (by decide)
    have h2 : c ≠ bSlash := by rintro rfl; exact absurd h.1 (by decide)
    rw [List.cons_append, encode, if_neg h1, if_neg h2, ih h.2]; rfl

theorem valid_encode {s : Bytes} (hs : ValidUtf8 s) : ValidUtf8 (encode s) := by
  induction hs with
  | nil => exact .nil
  | ascii h _ ih =>
    rw [encode]
    split
    · exact .ascii (by decide) (.ascii (by decide) ih)
    · split
      · exact .ascii (by decide) (.ascii (by decide) ih)
      · exact .ascii h ih
  | rune h _ ih => rw [encode_high (utf8Enc_high h)]; exact .rune h ih

theorem valid_pointer {ks : List Bytes} (h : ∀ k ∈ ks, ValidUtf8 k) : ValidUtf8 (pointer ks) := by
  induction ks with
  | nil => exact .nil
  | cons k ks ih =>
    rw [List.forall_mem_cons] at h
    exact .ascii (by decide) (valid_append (valid_encode h.1) (ih h.2))

theorem readingAt_valid {j : Js} (h : DataTree j) : ∀ {ks : List Bytes} {x : Js} {ts : Int}, ReadingAt j ks x ts →
    CleanScalar x ∧ (minInt64 ≤ ts ∧ ts ≤ maxInt64) ∧ ∀ k ∈ ks, ValidUtf8 k := by
  induction h with
  | reading x ts h1 h2 h3 =>
    intro ks y u h
    obtain ⟨rfl, rfl, rfl⟩ := readingAt_reading h
    exact ⟨h1, ⟨h2, h3⟩, by simp⟩
  | map m hn hk _ ih =>
    intro ks y u h
    have hts : b!"timestamp" ∉ mkeys m := fun h => (hk _ h).2.2 rfl
    obtain ⟨k, c, r, rfl, h1, h2⟩ := (readingAt_map hts).1 h
    obtain ⟨h3, h4, h5⟩ := ih (k, c) (mget_mem h1) h2
    refine ⟨h3, h4, fun k' hk' => ?_⟩
    rcases List.mem_cons.1 hk' with rfl | hk'
    · exact (hk _ (mget_isSome.1 ⟨c, h1⟩)).1
    · exact h5 k' hk'
  | array l hl _ ih =>
    intro ks y u h
    obtain ⟨i, c, r, rfl, h1, h2⟩ := readingAt_array.1 h
    obtain ⟨h3, h4, h5⟩ := ih c (List.mem_of_getElem? h1) h2
    refine ⟨h3, h4, fun k' hk' => ?_⟩
    rcases List.mem_cons.1 hk' with rfl | hk'
    · exact valid_digits i
    · exact h5 k' hk'

/-! ### The patch -/

/-- The JSON value of a generated operation. -/
def opJs (o : Op) : Js := .obj [(b!"op", .str o.kind.text), (b!"path", .str o.path), (b!"value", o.value.any),
  (b!"timestamp", .int o.ts)]

theorem opJson {o : Op} {q : Prim} (hv : o.value = q.toGo) (hq : CleanPrim q) : o.full.json = .ok (treeText (opJs o)) := by
  have ht : o.full.value.text = .ok (treeText o.value.any) := by
    obtain ⟨k, path, v, ts⟩ := o
    cases hv
    rw [PVal.text_eq]
    cases q with
    | num f => obtain ⟨neg, m, e, h, rfl⟩ := hq; rfl
    | bool b => rfl
    | str s => rfl
  have hn : o.full.value.isNil = false := by
    simp only [Op.full, hv]
    cases q <;> rfl
  rw [POp.json, hn, ht]
  simp only [Bool.false_eq_true, if_false, Res.map_ok, opJs, treeText, treeTextF, joinMembers, Op.full]
  have e1 : jsonStr b!"op" = b!"\"op\"" := by decide
  have e2 : jsonStr b!"path" = b!"\"path\"" := by decide
  have e3 : jsonStr b!"value" = b!"\"value\"" := by decide
  have e4 : jsonStr b!"timestamp" = b!"\"timestamp\"" := by decide
  rw [e1, e2, e3, e4]
  simp only [List.append_assoc, List.cons_append, List.nil_append]

theorem jsonOps_trees {ops : List Op} (h : ∀ o ∈ ops, ∃ q : Prim, o.value = q.toGo ∧ CleanPrim q) :
    jsonOps (ops.map Op.full) = .ok (treeTextL (ops.map opJs)) := by
  induction ops with
  | nil => rfl
  | cons o ops ih =>
    rw [List.forall_mem_cons] at h
    obtain ⟨q, h1, h2⟩ := h.1
    rw [List.map_cons, jsonOps, opJson h1 h2, Res.bind_ok, ih h.2]; rfl

/-- An operation that can be written. -/
structure PlainOp (o : Op) : Prop where
  kind : o.kind = .replace
  path : ValidUtf8 o.path
  value : ∃ q : Prim, o.value = q.toGo ∧ CleanPrim q
  ts : minInt64 ≤ o.ts ∧ o.ts ≤ maxInt64

theorem decAny_op {o : Op} (h : PlainOp o) {q : Prim} (hv : o.value = q.toGo) (hq : CleanPrim q) :
    decAny (sanT (opJs o)) = .obj [(b!"op", .str b!"replace"), (b!"path", .str o.path), (b!"value", primJs q),
      (b!"timestamp", .num (.ofInt o.ts))] := by
  have e1 : sanitize b!"op" = b!"op" := by decide
  have e2 : sanitize b!"path" = b!"path" := by decide
  have e3 : sanitize b!"value" = b!"value" := by decide
  have e4 : sanitize b!"timestamp" = b!"timestamp" := by decide
  have e5 : sanitize b!"replace" = b!"replace" := by decide
  have e6 : decAny (sanT q.toGo.any) = primJs q := by
    cases q with
    | num f => rfl
    | bool b => rfl
    | str s => simp only [Prim.toGo, GVal.any, sanT, decAny, primJs]; rw [sanitize_valid hq]
  simp only [opJs, sanT, sanTF, h.kind, OpKind.text, hv, e1, e2, e3, e4, e5, sanitize_valid h.path]
  rw [decAny, decAnyF_eq, fillMap_nodup]
  · simp only [mapV, List.map_cons, List.map_nil, e6, decAny]
  · rw [mkeys_mapV]; simp only [mkeys, List.map_cons, List.map_nil]; decide

theorem opJs_good {o : Op} (h : PlainOp o) : GoodJs (opJs o) ∧ (sanT (opJs o)).depth ≤ 1 := by
  obtain ⟨q, hv, hq⟩ := h.value
  have hg : GoodJs o.value.any ∧ (sanT o.value.any).depth = 0 := by
    rw [hv]
    cases q with
    | num f => exact ⟨hq, rfl⟩
    | bool b => exact ⟨trivial, rfl⟩
    | str s => exact ⟨trivial, rfl⟩
  refine ⟨⟨trivial, trivial, hg.1, int64_natAbs h.ts.1 h.ts.2, trivial⟩, ?_⟩
  simp [opJs, sanT, sanTF, Js.depth, Js.depthF, hg.2]

theorem patchData_ops {ops : List Op} (h : ∀ o ∈ ops, PlainOp o) :
    patchData (some (ops.map Op.full)) = .arr (ops.map fun o => decAny (sanT (opJs o))) := by
  have hj : patchJson (some (ops.map Op.full)) = .ok (treeText (.arr (ops.map opJs))) := by
    rw [patchJson, jsonOps_trees fun o ho => (h o ho).value]; rfl
  have hg : GoodJs (.arr (ops.map opJs)) := by
    rw [GoodJs, goodJsL_iff]
    intro v hv
    obtain ⟨o, ho, rfl⟩ := List.mem_map.1 hv
    exact (opJs_good (h o ho)).1
  have hd : (sanT (.arr (ops.map opJs))).depth ≤ 10000 := by
    rw [sanT, Js.depth]
    have : Js.depthL (sanTL (ops.map opJs)) ≤ 1 := by
      rw [depthL_le]
      intro v hv
      rw [sanTL_eq, List.map_map] at hv
      obtain ⟨o, ho, rfl⟩ := List.mem_map.1 hv
      exact (opJs_good (h o ho)).2
    omega
  rw [patchData, hj, Res.bind_ok, unmarshalText_treeText hg, unmarshalAny, if_pos hd]
  simp only
  rw [sanT, decAny, sanTL_eq, decAnyL_eq, List.map_map, List.map_map]; rfl

theorem CleanScalar.clean {x : Js} {p : Prim} (h : CleanScalar x) (hp : PrimOf x p) : CleanPrim p ∧ Decoded x (primJs p) := by
  obtain ⟨q, hq, hc, -⟩ := h.prim
  rw [hp.unique hq]
  refine ⟨hc, ?_⟩
  cases hq with
  | bool b => exact .bool b
  | num _ f hf => exact .num _ f hf
  | str s => exact .str s

theorem Decoded.unique {x v w : Js} (h1 : Decoded x v) (h2 : Decoded x w) : v = w := by
  cases h1 with
  | bool b => cases h2 with
    | bool => rfl
    | num _ _ h => cases h
  | str s => cases h2 with
    | str => rfl
    | num _ _ h => cases h
  | num _ f h =>
    cases h2 with
    | bool => cases h
    | str => cases h
    | num _ g h' => rw [h.unique h']

/-- C76: the patch between two data sets with readings at the same places has exactly one item for each reading that changed:
its path, its new value and its new timestamp. -/
theorem C76_patch_partial {m n : List (Bytes × Js)} (hm : DataTree (.obj m)) (hn : DataTree (.obj n)) (hs : SameData (.obj m) (.obj n))
    (hdm : (Js.obj m).depth ≤ 10000) (hdn : (Js.obj n).depth ≤ 10000) :
    ∃ items, vssPatch m n = .ok (.arr items) ∧ items.Nodup ∧
      ∀ i, i ∈ items ↔ ∃ ks x t y u, ReadingAt (.obj m) ks x t ∧ ReadingAt (.obj n) ks y u ∧ ¬ SameReading x t y u ∧
        ReplaceItem ks y u i := by
  obtain ⟨a, ea, wa, da⟩ := C76_document hm hdm
  obtain ⟨b, eb, wb, db⟩ := C76_document hn hdn
  obtain ⟨ops, eo, hnd, ho⟩ := C30_same_shape wa wb (dataTree_named hm da) (dataTree_named hn db) (sameData_shape hs da db) true
  rw [if_pos rfl] at eo
  have hplain : ∀ o ∈ ops, PlainOp o := by
    intro o h
    obtain ⟨ks, p, t, q, u, -, h2, -, rfl⟩ := (ho o).1 h
    obtain ⟨y, us, h4, h5, rfl⟩ := (C76_leaves db ks q u).1 h2
    obtain ⟨c1, c2, c3⟩ := readingAt_valid hn h4
    exact ⟨rfl, valid_pointer c3, ⟨q, rfl, (c1.clean h5).1⟩, toInt64_range _⟩
  refine ⟨ops.map fun o => decAny (sanT (opJs o)), ?_, ?_, fun i => ?_⟩
  · rw [vssPatch, ea, Res.bind_ok, eb, Res.bind_ok, eo]
    simp only
    rw [patchData_ops hplain]
  · rw [List.Nodup, List.pairwise_map] at hnd ⊢
    refine hnd.imp_of_mem fun {o o'} h h' hne he => hne ?_
    obtain ⟨q, hq, hc⟩ := (hplain o h).value
    obtain ⟨q', hq', hc'⟩ := (hplain o' h').value
    rw [decAny_op (hplain o h) hq hc, decAny_op (hplain o' h') hq' hc'] at he
    simp at he
    exact he.1
  · rw [List.mem_map]
    constructor
    · rintro ⟨o, h, rfl⟩
      have hp := hplain o h
      obtain ⟨ks, p, t, q, u, h1, h2, h3, e⟩ := (ho o).1 h
      obtain ⟨x, ts, r1, p1, rfl⟩ := (C76_leaves da ks p t).1 h1
      obtain ⟨y, us, r2, p2, rfl⟩ := (C76_leaves db ks q u).1 h2
      obtain ⟨c1, -, -⟩ := readingAt_valid hn r2
      have hc := c1.clean p2
      refine ⟨ks, x, ts, y, us, r1, r2, ?_, primJs q, hc.2, ?_⟩
      · rintro ⟨e1, p', q', hp', hq', he⟩
        rw [hp'.unique p1, hq'.unique p2] at he
        exact h3 ⟨he, fun _ => e1⟩
      · rw [decAny_op hp (by rw [e]) hc.1, e]
    · rintro ⟨ks, x, ts, y, us, r1, r2, h3, v, hv, rfl⟩
      obtain ⟨c0, -, -⟩ := readingAt_valid hm r1
      obtain ⟨p, p1, -⟩ := c0.prim
      obtain ⟨c1, -, c3⟩ := readingAt_valid hn r2
      obtain ⟨q, p2, -⟩ := c1.prim
      have hc := c1.clean p2
      have hmem : (⟨.replace, pointer ks, q.toGo, jsonStamp us⟩ : Op) ∈ ops := by
        refine (ho _).2 ⟨ks, p, _, q, _, (C76_leaves da ks p _).2 ⟨x, ts, r1, p1, rfl⟩,
          (C76_leaves db ks q _).2 ⟨y, us, r2, p2, rfl⟩, ?_, rfl⟩
        rintro ⟨he, ht⟩
        exact h3 ⟨ht rfl, p, q, p1, p2, he⟩
      exact ⟨_, hmem, by rw [decAny_op (hplain _ hmem) rfl hc.1, hv.unique hc.2]⟩

/-! ### The patch to the next data set -/

theorem dataTree_reading {x : Js} {ts : Int} (h : DataTree (readingJs x ts)) : CleanScalar x ∧ minInt64 ≤ ts ∧ ts ≤ maxInt64 := by
  generalize e : readingJs x ts = j at h
  cases h with
  | reading y u h1 h2 h3 => obtain ⟨rfl, rfl⟩ := readingJs_inj e; exact ⟨h1, h2, h3⟩
  | map m _ hk => exact absurd e.symm (readingJs_ne fun h => (hk _ h).2.2 rfl)
  | array => cases e

theorem dataTree_map {m : List (Bytes × Js)} (h0 : b!"timestamp" ∉ mkeys m) (h : DataTree (.obj m)) :
    (mkeys m).Nodup ∧ (∀ k ∈ mkeys m, ValidUtf8 k ∧ k ≠ [] ∧ k ≠ b!"timestamp") ∧ ∀ p ∈ m, DataTree p.2 := by
  generalize e : Js.obj m = j at h
  cases h with
  | reading y u h1 h2 h3 => exact absurd e (readingJs_ne h0)
  | map m h1 h2 h3 => cases e; exact ⟨h1, h2, h3⟩
  | array => cases e

theorem dataTree_array {l : List Js} (h : DataTree (.arr l)) : (l.length : Int) ≤ maxInt64 ∧ ∀ v ∈ l, DataTree v := by
  generalize e : Js.arr l = j at h
  cases h with
  | reading y u h1 h2 h3 => cases e
  | map m h1 h2 h3 => cases e
  | array _ h1 h2 => cases e; exact ⟨h1, h2⟩

theorem sameJsType_refl {x : Js} (h : CleanScalar x) : SameJsType x x := by
  cases h with
  | bool b => exact .bool b b
  | num _ _ _ _ => exact .num _ _ _ _ (.num _) (.num _)
  | int n => exact .num _ _ _ _ (.int _) (.int _)
  | str s => exact .str s s

theorem sameData_refl {j : Js} (h : DataTree j) : SameData j j := by
  induction h with
  | reading x ts h => exact .reading _ _ _ _ (sameJsType_refl h)
  | map m hn hk _ ih =>
    refine .map _ _ (fun h => (hk _ h).2.2 rfl) (fun _ => rfl) fun k v w hv hw => ?_
    rw [hv] at hw; cases hw
    exact ih (k, v) (mget_mem hv)
  | array l hl _ ih =>
    refine .array _ _ rfl fun i v w hv hw => ?_
    rw [hv] at hw; cases hw
    exact ih v (List.mem_of_getElem? hv)

theorem ReadingAt.unique {j : Js} {ks : List Bytes} {x : Js} {t : Int} (h : ReadingAt j ks x t) :
    ∀ {y : Js} {u : Int}, ReadingAt j ks y u → y = x ∧ u = t := by
  induction h with
  | here x t => intro y u h; exact (readingAt_reading h).2
  | member m k c ks x t hts hc _ ih =>
    intro y u h
    obtain ⟨k', c', r, e, h1, h2⟩ := (readingAt_map hts).1 h
    cases e
    rw [hc] at h1; cases h1
    exact ih h2
  | element l i c ks x t hc _ ih =>
    intro y u h
    obtain ⟨i', c', r, e, h1, h2⟩ := readingAt_array.1 h
    injection e with e1 e2
    cases natDigits_injective e1; cases e2
    rw [hc] at h1; cases h1
    exact ih h2

/-- What is needed of the next data set: readings of the same types at the same places, each as before or with the new
timestamp and the old value or one drawn anew. -/
structure Alike (ts : Int) (a b : Js) : Prop where
  same : SameData a b
  tree : DataTree b
  depth : b.depth = a.depth
  moved : ∀ ks x t y u, ReadingAt a ks x t → ReadingAt b ks y u → u = ts ∧ (y = x ∨ Redrawn x y) ∨ y = x ∧ u = t

theorem scalar_depth {x : Js} (h : CleanScalar x) : x.depth = 0 := by cases h <;> rfl

theorem redrawn_clean {x y : Js} (h : Redrawn x y) : CleanScalar y ∧ SameJsType x y := by
  cases h with
  | bool b => exact ⟨.bool _, .bool _ _⟩
  | int n k h1 h2 => exact ⟨.int k (by simp only [minInt64]; omega) (by simp only [maxInt64]; omega), .num _ _ _ _ (.int n) (.int k)⟩
  | num f g h =>
    obtain ⟨m, e, hc, rfl, -⟩ := h
    exact ⟨.num _ _ _ _, .num _ _ _ _ (.num f) (.num _)⟩
  | str s i h1 h2 =>
    refine ⟨.str _ (valid_append (by repeat first | exact .nil | refine .ascii (by decide) ?_) ?_), .str _ _⟩
    rw [itoa, if_neg (by omega)]
    exact valid_digits _

theorem alike_reading {x y : Js} {t ts : Int} (h : DataTree (readingJs x t)) (hy : CleanScalar y) (hxy : SameJsType x y)
    (hr : y = x ∨ Redrawn x y) (h1 : minInt64 ≤ ts) (h2 : ts ≤ maxInt64) : Alike ts (readingJs x t) (readingJs y ts) := by
  refine ⟨.reading _ _ _ _ hxy, .reading _ _ hy h1 h2, ?_, ?_⟩
  · simp only [readingJs, Js.depth, Js.depthF, scalar_depth hy, scalar_depth (dataTree_reading h).1]
  · intro ks x' t' y' u hx hy
    obtain ⟨-, rfl, -⟩ := readingAt_reading hx
    obtain ⟨-, rfl, rfl⟩ := readingAt_reading hy
    exact .inl ⟨rfl, hr⟩

theorem alike_refl {a : Js} (ts : Int) (h : DataTree a) : Alike ts a a :=
  ⟨sameData_refl h, h, rfl, fun _ _ _ _ _ h1 h2 => .inr (h1.unique h2)⟩

theorem follows_alike {ts : Int} {f : Fate} {v v' : Js} (h : Follows ts f v v') (hv : DataTree v) (h1 : minInt64 ≤ ts)
    (h2 : ts ≤ maxInt64) : Alike ts v v' := by
  cases h with
  | change x y t hr => exact alike_reading hv (redrawn_clean hr).1 (redrawn_clean hr).2 (.inr hr) h1 h2
  | touch x t =>
    have := (dataTree_reading hv).1
    exact alike_reading hv this (sameJsType_refl this) (.inl rfl) h1 h2
  | keep m => exact alike_refl ts hv
  | array f xs =>
    have ht := dataTree_array hv
    have hel : ∀ p ∈ xs, Alike ts (readingJs p.1 p.2) (readingJs p.1 ts) := by
      intro p hp
      have hd : DataTree (readingJs p.1 p.2) := ht.2 _ (List.mem_map.2 ⟨p, hp, rfl⟩)
      have := (dataTree_reading hd).1
      exact alike_reading hd this (sameJsType_refl this) (.inl rfl) h1 h2
    have hget : ∀ (i : Nat) v w, (xs.map fun p => readingJs p.1 p.2)[i]? = some v →
        (xs.map fun p => readingJs p.1 ts)[i]? = some w → Alike ts v w := by
      intro i v w hv hw
      rw [List.getElem?_map] at hv hw
      cases hx : xs[i]? with
      | none => rw [hx] at hv; cases hv
      | some p =>
        rw [hx] at hv hw; cases hv; cases hw
        exact hel p (List.mem_of_getElem? hx)
    refine ⟨.array _ _ (by simp) fun i v w hv hw => (hget i v w hv hw).same, .array _ (by simpa using ht.1) fun v hv => ?_, ?_, ?_⟩
    · obtain ⟨p, hp, rfl⟩ := List.mem_map.1 hv
      exact (hel p hp).tree
    · have : ∀ xs : List (Js × Int), (∀ p ∈ xs, Alike ts (readingJs p.1 p.2) (readingJs p.1 ts)) →
          Js.depthL (xs.map fun p => readingJs p.1 ts) = Js.depthL (xs.map fun p => readingJs p.1 p.2) := by
        intro xs
        induction xs with
        | nil => intro _; rfl
        | cons p xs ih =>
          intro h
          rw [List.forall_mem_cons] at h
          simp only [List.map_cons, Js.depthL, h.1.depth, ih h.2]
      simp only [Js.depth]
      exact congrArg _ (this xs hel)
    · intro ks x t y u hx hy
      obtain ⟨i, c, r, rfl, hc, hx⟩ := readingAt_array.1 hx
      obtain ⟨i', c', r', e, hc', hy⟩ := readingAt_array.1 hy
      injection e with e1 e2
      cases natDigits_injective e1; cases e2
      exact (hget i c c' hc hc').moved _ _ _ _ _ hx hy

/-- Data sets are alike if their leaves are. -/
theorem alike_map {ts : Int} {m n : List (Bytes × Js)} (hm : DataTree (.obj m)) (h0 : b!"timestamp" ∉ mkeys m)
    (hnn : (mkeys n).Nodup) (hk : ∀ k, (mget m k).isSome = (mget n k).isSome)
    (hc : ∀ k v w, mget m k = some v → mget n k = some w → Alike ts v w) : Alike ts (.obj m) (.obj n) := by
  obtain ⟨hmn, hmk, -⟩ := dataTree_map h0 hm
  have h0' := timestamp_other h0 hk
  refine ⟨.map _ _ h0 hk fun k v w hv hw => (hc k v w hv hw).same, .map _ hnn (fun k hkn => ?_) (fun p hp => ?_), ?_, ?_⟩
  · obtain ⟨w, hw⟩ := mget_isSome.2 hkn
    obtain ⟨v, hv⟩ := isSome_other hk hw
    exact hmk k (mget_isSome.1 ⟨v, hv⟩)
  · have hw := mem_mget hnn (show (p.1, p.2) ∈ n from hp)
    obtain ⟨v, hv⟩ := isSome_other hk hw
    exact (hc _ _ _ hv hw).tree
  · simp only [Js.depth]
    refine congrArg _ (Nat.le_antisymm ?_ ?_)
    · refine depthF_le.2 fun p hp => ?_
      have hw := mem_mget hnn (show (p.1, p.2) ∈ n from hp)
      obtain ⟨v, hv⟩ := isSome_other hk hw
      rw [(hc _ _ _ hv hw).depth]
      exact depthF_le.1 (Nat.le_refl _) _ (mget_mem hv)
    · refine depthF_le.2 fun p hp => ?_
      have hv := mem_mget hmn (show (p.1, p.2) ∈ m from hp)
      obtain ⟨w, hw⟩ := isSome_other' hk hv
      rw [← (hc _ _ _ hv hw).depth]
      exact depthF_le.1 (Nat.le_refl _) _ (mget_mem hw)
  · intro ks x t y u hx hy
    obtain ⟨k, c, r, rfl, h1, hx⟩ := (readingAt_map h0).1 hx
    obtain ⟨k', c', r', e, h1', hy⟩ := (readingAt_map h0').1 hy
    cases e
    exact (hc k c c' h1 h1').moved _ _ _ _ _ hx hy

theorem leaves_member {G : Js → Js → Prop} {m n : List (Bytes × Js)} (h0 : b!"timestamp" ∉ mkeys m) {k : Bytes} {v w : Js}
    (hv : mget m k = some v) (hw : mget n k = some w)
    (h : ∀ ks x, JsLeaf (.obj m) ks x → ∃ x', JsLeaf (.obj n) ks x' ∧ G x x') :
    ∀ ks x, JsLeaf v ks x → ∃ x', JsLeaf w ks x' ∧ G x x' := by
  intro ks x hx
  obtain ⟨x', h1, h2⟩ := h (k :: ks) x (.step m k v ks x h0 hv hx)
  rw [jsLeaf_cons] at h1
  obtain ⟨_, w', e, -, hw', h1⟩ := h1
  cases e
  rw [hw] at hw'; cases hw'
  exact ⟨x', h1, h2⟩

theorem leaves_keys {G : Js → Js → Prop} {m n : List (Bytes × Js)} (h0 : b!"timestamp" ∉ mkeys m)
    (hg : ∀ k v, mget m k = some v → Branching v)
    (h : ∀ ks x, JsLeaf (.obj m) ks x → ∃ x', JsLeaf (.obj n) ks x' ∧ G x x') (k : Bytes) (hs : (mget m k).isSome = true) :
    (mget n k).isSome = true := by
  obtain ⟨v, hv⟩ := Option.isSome_iff_exists.1 hs
  obtain ⟨ks, x, hl⟩ := branching_leaf (hg k v hv)
  obtain ⟨x', h1, -⟩ := h _ _ (.step m k v ks x h0 hv hl)
  rw [jsLeaf_cons] at h1
  obtain ⟨_, w, e, -, hw, -⟩ := h1
  cases e; rw [hw]; rfl

/-- Maps are alike if their leaves are. -/
theorem alike_maps {ts : Int} {m n : List (Bytes × Js)} (hm : DataTree (.obj m)) (h0 : b!"timestamp" ∉ mkeys m)
    (h0' : b!"timestamp" ∉ mkeys n) (hnn : (mkeys n).Nodup) (hg : ∀ k v, mget m k = some v → Branching v)
    (hg' : ∀ k v, mget n k = some v → Branching v)
    (h1 : ∀ ks x, JsLeaf (.obj m) ks x → ∃ x', JsLeaf (.obj n) ks x' ∧ Alike ts x x')
    (h2 : ∀ ks x', JsLeaf (.obj n) ks x' → ∃ x, JsLeaf (.obj m) ks x ∧ Alike ts x x')
    (hc : ∀ k v w, mget m k = some v → mget n k = some w →
      (∀ ks x, JsLeaf v ks x → ∃ x', JsLeaf w ks x' ∧ Alike ts x x') →
      (∀ ks x', JsLeaf w ks x' → ∃ x, JsLeaf v ks x ∧ Alike ts x x') → Alike ts v w) : Alike ts (.obj m) (.obj n) := by
  refine alike_map hm h0 hnn (fun k => ?_) fun k v w hv hw => hc k v w hv hw (leaves_member h0 hv hw h1)
    (leaves_member (G := fun x' x => Alike ts x x') h0' hw hv h2)
  rw [Bool.eq_iff_iff]
  exact ⟨leaves_keys h0 hg h1 k, leaves_keys (G := fun x' x => Alike ts x x') h0' hg' h2 k⟩

theorem alike_of_leaves {ts : Int} (a : Js) : ∀ b : Js, DataTree a → Branching a → Branching b → NodupKeys b →
    (∀ ks x, JsLeaf a ks x → ∃ x', JsLeaf b ks x' ∧ Alike ts x x') →
    (∀ ks x', JsLeaf b ks x' → ∃ x, JsLeaf a ks x ∧ Alike ts x x') → Alike ts a b := by
  have hleaf : ∀ {a b : Js}, IsVssLeaf a → (∀ ks x, JsLeaf a ks x → ∃ x', JsLeaf b ks x' ∧ Alike ts x x') → Alike ts a b := by
    intro a b ha h
    obtain ⟨x', h1, h2⟩ := h [] a (.here a ha)
    rw [jsLeaf_nil] at h1
    rw [h1.1]; exact h2
  induction a using Js.induction with
  | obj m ih =>
    intro b hd ha hb hn h1 h2
    by_cases hl : IsVssLeaf (.obj m)
    · exact hleaf hl h1
    · have h0 : b!"timestamp" ∉ mkeys m := fun h => hl fun n e => by cases e; exact h
      have hbl : ¬ IsVssLeaf b := by
        intro h
        obtain ⟨x, h3, -⟩ := h2 [] b (.here _ h)
        rw [jsLeaf_nil] at h3
        exact hl h3.2
      cases ha with
      | leaf _ h => exact absurd h hl
      | obj _ hne _ hg =>
        cases hb with
        | leaf _ h => exact absurd h hbl
        | obj n hne' h0' hg' =>
          exact alike_maps hd h0 h0' hn.root hg hg' h1 h2 fun k v w hv hw l1 l2 =>
            ih _ (mget_mem hv) w ((dataTree_map h0 hd).2.2 _ (mget_mem hv)) (hg k v hv) (hg' k w hw) (hn.member hw) l1 l2
  | _ => intro b _ _ _ _ h1 _; exact hleaf (by intro m e; cases e) h1

theorem dataTree_leaf {d v : Js} {ks : List Bytes} (h : JsLeaf d ks v) : DataTree d → DataTree v := by
  induction h with
  | here => exact id
  | step m k w ks v h0 hw _ ih => intro h; exact ih ((dataTree_map h0 h).2.2 _ (mget_mem hw))

theorem branching_members {m : List (Bytes × Js)} (he : NoEmptyMap (.obj m)) : ∀ k v, mget m k = some v → Branching v :=
  fun k v hv => branching_of_noEmpty v fun ks hks => by
    have := he (k :: ks) (.step _ k v ks _ hv hks)
    cases this

theorem feq_fin_refl (neg : Bool) (m : Nat) (e : Int) (h : F64.canon m e = true) : F64.feq (.fin neg m e h) (.fin neg m e h) = true := by
  simp [F64.feq]

theorem sameReading_refl {x : Js} (t : Int) (h : CleanScalar x) : SameReading x t x t := by
  obtain ⟨p, hp, hc, -⟩ := h.prim
  refine ⟨rfl, p, p, hp, hp, ?_⟩
  cases p with
  | bool b => exact .bool b
  | str s => exact .str s
  | num f => obtain ⟨neg, m, e, hc, rfl⟩ := hc; exact .num _ _ (feq_fin_refl _ _ _ _)

/-- The next data set is like the one before. -/
theorem next_alike {m : List (Bytes × Js)} (hm : VehicleData m) (he : NoEmptyMap (.obj m)) (hd : DataTree (.obj m)) {ts : Int}
    (h1 : minInt64 ≤ ts) (h2 : ts ≤ maxInt64) {draw : Bytes → NextDraw} (hf : ∀ n, (draw n).Fair) :
    ∃ n, generateNext ts draw (.obj m) = .ok n ∧ VehicleData n ∧ NoEmptyMap (.obj n) ∧ Alike ts (.obj m) (.obj n) := by
  obtain ⟨n, e, hn, hen, hl1, hl2⟩ := C75_follows hm ts hf
  refine ⟨n, e, hn, hen, ?_⟩
  have g1 : ∀ ks x, JsLeaf (.obj m) ks x → ∃ x', JsLeaf (.obj n) ks x' ∧ Alike ts x x' := by
    intro ks x hx
    obtain ⟨x', hx', hfo⟩ := hl2 ks x hx
    exact ⟨x', hx', follows_alike hfo (dataTree_leaf hx hd) h1 h2⟩
  have g2 : ∀ ks x', JsLeaf (.obj n) ks x' → ∃ x, JsLeaf (.obj m) ks x ∧ Alike ts x x' := by
    intro ks x' hx'
    obtain ⟨x, hx, hfo⟩ := hl1 ks x' hx'
    exact ⟨x, hx, follows_alike hfo (dataTree_leaf hx hd) h1 h2⟩
  refine alike_maps hd hm.1.root hn.1.root hn.1.nodup.root (branching_members he) (branching_members hen) g1 g2 ?_
  intro k v w hv hw l1 l2
  exact alike_of_leaves v w ((dataTree_map hm.1.root hd).2.2 _ (mget_mem hv)) (branching_members he k v hv)
    (branching_members hen k w hw) (hn.1.nodup.member hw) l1 l2

/-- C76: beside the next data set, `GenerateNext` gives a patch with exactly one item for each reading that changed, all with
the timestamp of the next data set. -/
theorem C76_next_partial {m : List (Bytes × Js)} (hm : VehicleData m) (he : NoEmptyMap (.obj m)) (hd : DataTree (.obj m))
    (hdep : (Js.obj m).depth ≤ 10000) {ts : Int} (h1 : minInt64 ≤ ts) (h2 : ts ≤ maxInt64) {draw : Bytes → NextDraw}
    (hf : ∀ n, (draw n).Fair) :
    ∃ n items, generateNext ts draw (.obj m) = .ok n ∧ vssPatch m n = .ok (.arr items) ∧ items.Nodup ∧
      (∀ ks, (∃ x t, ReadingAt (.obj m) ks x t) ↔ ∃ y u, ReadingAt (.obj n) ks y u) ∧
      (∀ i, i ∈ items ↔ ∃ ks x t y, ReadingAt (.obj m) ks x t ∧ ReadingAt (.obj n) ks y ts ∧ ¬ SameReading x t y ts ∧
        ReplaceItem ks y ts i) ∧
      VehicleData n ∧ NoEmptyMap (.obj n) ∧ DataTree (.obj n) ∧ (Js.obj n).depth ≤ 10000 := by
  obtain ⟨n, e, hn, hen, ha⟩ := next_alike hm he hd h1 h2 hf
  obtain ⟨items, hp, hnd, hi⟩ := C76_patch_partial hd ha.tree ha.same hdep (by rw [ha.depth]; exact hdep)
  refine ⟨n, items, e, hp, hnd, sameData_places ha.same, fun i => ?_, hn, hen, ha.tree, by rw [ha.depth]; exact hdep⟩
  rw [hi]
  constructor
  · rintro ⟨ks, x, t, y, u, r1, r2, h3, h4⟩
    rcases ha.moved _ _ _ _ _ r1 r2 with ⟨rfl, -⟩ | ⟨rfl, rfl⟩
    · exact ⟨ks, x, t, y, r1, r2, h3, h4⟩
    · exact absurd (sameReading_refl _ (readingAt_valid hd r1).1) h3
  · rintro ⟨ks, x, t, y, r1, r2, h3, h4⟩
    exact ⟨ks, x, t, y, ts, r1, r2, h3, h4⟩

theorem divRound_near (p : Nat) {d : Nat} (hd : 0 < d) : 2 * (F64.divRound p d * d) ≤ 2 * p + d ∧ 2 * p ≤ 2 * (F64.divRound p d * d) + d := by
  have h := Nat.div_add_mod p d
  have hr := Nat.mod_lt p hd
  unfold F64.divRound
  dsimp only
  rw [Nat.mul_comm] at h
  generalize p / d = q at *
  generalize p % d = r at *
  have e : (q + 1) * d = q * d + d := by rw [Nat.add_mul, Nat.one_mul]
  split
  · omega
  · split
    · rw [e]; omega
    · split
      · omega
      · rw [e]; omega

/-- Integers below 2^61 are rounded by at most 128. -/
theorem ofRatio_near (neg : Bool) {p : Nat} (h1 : 2 ^ 53 ≤ p) (h2 : p < 2 ^ 61) : ∃ m e hc, F64.ofRatio neg p 1 = some (.fin neg m e hc) ∧
    0 ≤ e ∧ m * 2 ^ e.toNat ≤ p + 128 ∧ p ≤ m * 2 ^ e.toNat + 128 := by
  have hp : p ≠ 0 := by simp only [Nat.reducePow] at h1; omega
  obtain ⟨f, hf⟩ := ofRatio_nat neg (p := p) (by simp only [Nat.reducePow] at h2 ⊢; omega)
  have hlog : F64.floorLog2 p 1 = (p.log2 : Int) := by
    unfold F64.floorLog2
    have : (1 : Nat).log2 = 0 := by decide
    have h3 := Nat.log2_self_le hp
    simp only [this]
    rw [if_pos (by omega), if_pos (by simpa using h3)]
    omega
  have hl1 : 53 ≤ p.log2 := (Nat.le_log2 hp).2 h1
  have hl2 : p.log2 < 61 := (Nat.log2_lt hp).2 h2
  rw [F64.ofRatio, if_neg hp] at hf ⊢
  dsimp only at hf ⊢
  rw [hlog] at hf ⊢
  generalize p.log2 = l at *
  have hm : max ((l : Int) - 52) (-1074) = ((l - 52 : Nat) : Int) := by omega
  rw [hm] at hf ⊢
  have hs : F64.scaleRound p 1 ((l - 52 : Nat) : Int) = F64.divRound p (2 ^ (l - 52)) := by
    rw [F64.scaleRound, if_pos (by omega), Int.toNat_natCast, Nat.one_mul]
  rw [hs] at hf ⊢
  have hd : 2 ^ (l - 52) ≤ 256 := by
    have : 2 ^ (l - 52) ≤ 2 ^ 8 := Nat.pow_le_pow_right (by decide) (by omega)
    simpa using this
  have hn := divRound_near p (Nat.two_pow_pos (l - 52))
  have hmk : ∀ m e, F64.mk? neg m e = some f → ∃ hc, F64.mk? neg m e = some (.fin neg m e hc) := by
    intro m e h
    unfold F64.mk? at h ⊢
    split at h
    · rename_i hc; exact ⟨hc, by rw [dif_pos hc]⟩
    · cases h
  split at hf
  · rename_i heq
    rw [if_pos heq]
    obtain ⟨hc, e⟩ := hmk _ _ hf
    refine ⟨_, _, hc, e, by omega, ?_⟩
    rw [show (((l - 52 : Nat) : Int) + 1).toNat = (l - 52) + 1 by omega]
    have : 2 ^ 52 * 2 ^ (l - 52 + 1) = 2 ^ 53 * 2 ^ (l - 52) := by
      rw [← Nat.pow_add, ← Nat.pow_add, show 52 + (l - 52 + 1) = 53 + (l - 52) by omega]
    rw [this, ← heq]
    omega
  · rename_i heq
    rw [if_neg heq]
    obtain ⟨hc, e⟩ := hmk _ _ hf
    refine ⟨_, _, hc, e, by omega, ?_⟩
    rw [Int.toNat_natCast]
    omega

/-- C76: on the way through JSON, timestamps below 2^61 (about 73 years in nanoseconds) move by at most 128. -/
theorem C76_stamp {n : Int} (h1 : -2305843009213693952 < n) (h2 : n < 2305843009213693952) :
    jsonStamp n - 128 ≤ n ∧ n ≤ jsonStamp n + 128 := by
  by_cases hs : -9007199254740992 ≤ n ∧ n ≤ 9007199254740992
  · rw [jsonStamp, ofInt_exact hs.1 hs.2]; omega
  · obtain ⟨m, e, hc, hr, he, h3, h4⟩ := ofRatio_near (decide (n < 0)) (p := n.natAbs) (by simp only [Nat.reducePow]; omega)
      (by simp only [Nat.reducePow]; omega)
    rw [jsonStamp, F64.ofInt, hr, Option.getD_some, F64.toInt64]
    simp only [if_pos he]
    generalize m * 2 ^ e.toNat = v at *
    by_cases hn : n < 0
    · simp only [hn, decide_true, if_true]
      rw [if_pos (by simp only [minInt64, maxInt64]; omega)]
      omega
    · simp only [hn, decide_false, Bool.false_eq_true, if_false]
      rw [if_pos (by simp only [minInt64, maxInt64]; omega)]
      omega

/-- C76: a reading that got a timestamp more than 256 later counts as changed. -/
theorem C76_moved {t u : Int} (h1 : -2305843009213693952 < t) (h2 : t < 2305843009213693952) (h3 : u < 2305843009213693952)
    (h : t + 256 < u) (x y : Js) : ¬ SameReading x t y u := by
  rintro ⟨e, -⟩
  have a := C76_stamp h1 h2
  have b := C76_stamp (n := u) (by omega) h3
  omega

/-! ### Examples -/

theorem exData_tree : DataTree (.obj exData) ∧ (Js.obj exData).depth ≤ 10000 ∧ NoEmptyMap (.obj exData) := by
  have hk : ∀ s : Bytes, (∀ c ∈ s, c < 0x80) → ValidUtf8 s := fun s h => valid_ascii h
  refine ⟨.map _ (by decide) ?_ ?_, by decide, ?_⟩
  · intro k h
    simp only [exData, mkeys, List.map_cons, List.map_nil, List.mem_singleton] at h
    subst h
    exact ⟨hk _ (by decide), by decide, by decide⟩
  · intro p h
    simp only [exData, List.mem_singleton] at h
    subst h
    refine .map _ (by decide) ?_ ?_
    · intro k h
      simp only [mkeys, List.map_cons, List.map_nil, List.mem_cons, List.not_mem_nil, or_false] at h
      rcases h with rfl | rfl
      · exact ⟨hk _ (by decide), by decide, by decide⟩
      · exact ⟨hk _ (by decide), by decide, by decide⟩
    · intro p h
      simp only [List.mem_cons, List.not_mem_nil, or_false] at h
      rcases h with rfl | rfl
      · exact .reading _ 7 (.num _ _ _ _) (by decide) (by decide)
      · exact .reading _ 7 (.str _ (hk _ (by decide))) (by decide) (by decide)
  · obtain ⟨r, h, -, hr, -⟩ := C74_signals_partial catalogue_vssCat' (order := id) (fun _ => .refl _) 7 exDraw_fair
    rw [exData_vehicle.1] at h
    cases h
    exact hr

example : VehicleData exData ∧ NoEmptyMap (.obj exData) ∧ DataTree (.obj exData) ∧ (Js.obj exData).depth ≤ 10000 ∧
    ∀ n, (exNext n).Fair :=
  ⟨exData_vehicle.2, exData_tree.2.2, exData_tree.1, exData_tree.2.1, fun n => ⟨by simp [exNext], below100_five, by simp [exNext]⟩⟩

/-- A patch: the switch is turned, the names stay. -/
example : vssPatch [(b!"V", .obj [(b!"S", readingJs (.bool true) 7), (b!"A", .arr [readingJs (.str b!"x") 7])])]
    [(b!"V", .obj [(b!"S", readingJs (.bool false) 9), (b!"A", .arr [readingJs (.str b!"x") 7])])] =
    .ok (.arr [.obj [(b!"op", .str b!"replace"), (b!"path", .str b!"/V/S"), (b!"value", .bool false),
        (b!"timestamp", .num (F64.ofInt 9))]]) := by rfl

/-- C76: timestamps in nanoseconds are not kept. -/
theorem C76_stamp_fails : jsonStamp 1700000000000000001 = 1700000000000000000 := by decide +kernel

/-- C76: a reading that got a new timestamp soon after is not in the patch. -/
theorem C76_soon_fails : vssPatch [(b!"V", readingJs (.bool true) 1700000000000000001)]
    [(b!"V", readingJs (.bool true) 1700000000000000100)] = .ok (.arr []) := by rfl

/-- C76: a number that JSON cannot represent ends the program with a panic. -/
theorem C76_infinite_fails (n : List (Bytes × Js)) : vssPatch [(b!"V", readingJs (.num (.inf false)) 7)] n = .panic := by rfl

/-- C76: a map that is new and empty gives no patch but null. -/
theorem C76_empty_fails : vssPatch [] [(b!"V", .obj [])] = .ok .null := by rfl

end Verif
