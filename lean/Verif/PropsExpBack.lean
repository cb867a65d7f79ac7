import Verif.ExpOut
import Verif.PropsExpKept
/-
The results of the temporal experiments as read back from their files.
-/
namespace Verif

/-- What is in a file of results: the indented text. -/
def readFile (b : Bytes) : Res Js := unmarshalText (appendIndent 2 .out 0 false b)

theorem plain_textJson {j : Js} : PlainJson j → TextJson j := by
  induction j using Js.induction with
  | obj m ih =>
    intro h
    exact ⟨h.1, textJsonF_iff.2 fun p hp => ⟨((plainJsonF_iff _).1 h.2 p hp).1, ih p hp ((plainJsonF_iff _).1 h.2 p hp).2⟩⟩
  | arr l ih =>
    intro h
    exact textJsonL_iff.2 fun p hp => ih p hp ((plainJsonL_iff _).1 h p hp)
  | null => intro h; exact h.elim
  | int n => intro h; exact h.elim
  | num f => intro h; exact h
  | str s => intro h; exact h
  | bool b => intro _; trivial

/-- A value without nil and without integers is written and read back. -/
theorem value_back {j : Js} (h : TextJson j) (hd : j.depth ≤ 10000) :
    ∃ b, marshalAny j = .ok b ∧ readFile b = .ok (ordAny j) ∧ SameJson j (ordAny j) := by
  have hg := goodJs_ord j (ints64_ok _ h.ints) h.finite
  refine ⟨anyText j, by rw [marshalAny, if_pos h.finite], ?_, sameJson_ord h⟩
  rw [readFile, anyText_ord, unmarshal_indented (iw := 2) hg ((sanT_ordAny_depth _ _).2 hd), h.back]

/-- A document is written and read back. -/
theorem doc_back {n : Nat} (hn : n ≤ 10000) {u : Tson} (h : KeptDoc n u) :
    ∃ b u', toCompatibleText u = .ok b ∧ fromCompatibleText (appendIndent 2 .out 0 false b) = .ok u' ∧ SameDoc u u' ∧ SameDoc u' u := by
  obtain ⟨b, u', h1, h2, h3, h4⟩ := C44_roundtrip_partial u h.wf h.clean h.nullFree (Nat.le_trans h.nesting hn)
  refine ⟨b, u', h1, ?_, h4, sameDoc_symm h.wf h3 h4⟩
  unfold toCompatibleText at h1
  by_cases hf : u.finite = true
  · rw [if_pos hf] at h1
    have h1 := Res.ok.inj h1
    subst h1
    have hg := goodJs_ordTson u (fun ts ht => by
      have := clean_int64 h.clean ts ht
      unfold minInt64 maxInt64 at this
      omega) hf
    rw [tsonText_ord] at h2 ⊢
    unfold fromCompatibleText at h2 ⊢
    rw [unmarshalText_treeText hg, unmarshalAny] at h2
    by_cases hd : (sanT (ordTson u)).depth ≤ 10000
    · rw [if_pos hd] at h2
      rw [unmarshal_indented (iw := 2) hg hd]
      exact h2
    · rw [if_neg hd] at h2; cases h2
  · rw [if_neg hf] at h1; cases h1

theorem jsonList_ok {α : Type} {f : α → Res Bytes} {g : α → Bytes} : ∀ {l : List α}, (∀ x ∈ l, f x = .ok (g x)) →
    jsonList f l = .ok (l.map g)
  | [], _ => rfl
  | x :: l, h => by
    rw [jsonList, h x (by simp), jsonList_ok fun y hy => h y (by simp [hy])]
    rfl

/-- Times are written and read back. -/
theorem times_back {l : List Int} (h : ∀ t ∈ l, t.natAbs < 2 ^ 64) :
    ∃ b, timesText l = .ok b ∧ readFile b = .ok (.arr (l.map fun t => .num (.ofInt t))) := by
  have e : timesText l = .ok (treeText (.arr (l.map .int))) := by
    rw [timesText, jsonSlice, jsonList_ok (g := itoa) (fun _ _ => rfl), treeText, treeTextL_eq, List.map_map]
    congr 4
  refine ⟨_, e, ?_⟩
  have hg : GoodJs (.arr (l.map .int)) := goodJsL_iff.2 fun v hv => by
    obtain ⟨t, ht, rfl⟩ := List.mem_map.1 hv
    exact h t ht
  have hs : sanT (.arr (l.map .int)) = .arr (l.map .int) := by
    rw [sanT, sanTL_eq, List.map_map]
    congr 1
  have hd : (sanT (.arr (l.map .int))).depth ≤ 10000 := by
    rw [hs, Js.depth]
    have : Js.depthL (l.map Js.int) = 0 := by
      clear h e hg hs
      induction l with
      | nil => rfl
      | cons a l ih => simp [Js.depthL, Js.depth, ih]
    omega
  rw [readFile, unmarshal_indented (iw := 2) hg hd, hs, decAny, decAnyL_eq, List.map_map]
  congr 2

/-- A version as read. -/
def IsVersion (j : Js) (v : TVersion) : Prop := ∃ o d, j = .obj o ∧ o.length = 2 ∧ mget o b!"timestamp" = some (.str v.period) ∧
  mget o b!"data" = some d ∧ SameJson v.data d

/-- Versions are written and read back. -/
theorem versions_back {n : Nat} (hn : n ≤ 9998) {B : List TVersion} (h : ∀ v ∈ B, KeptVersion n v) :
    ∃ b l, versionsText B = .ok b ∧ readFile b = .ok (.arr l) ∧ l.length = B.length ∧
      ∀ (i : Nat) (v : TVersion), B[i]? = some v → ∃ j, l[i]? = some j ∧ IsVersion j v := by
  let J : Js := .arr (B.map fun v => .obj [(b!"timestamp", .str v.period), (b!"data", v.data)])
  have hJ : TextJson J := textJsonL_iff.2 fun j hj => by
    obtain ⟨v, hv, rfl⟩ := List.mem_map.1 hj
    exact ⟨by simp [mkeys], valid_ascii (by decide), (h v hv).1, valid_ascii (by decide), plain_textJson (h v hv).2.1, trivial⟩
  have hd : J.depth ≤ 10000 := by
    show (Js.arr _).depth ≤ _
    rw [Js.depth]
    have : Js.depthL (B.map fun v => .obj [(b!"timestamp", .str v.period), (b!"data", v.data)]) ≤ 9999 := by
      rw [depthL_le]
      intro j hj
      obtain ⟨v, hv, rfl⟩ := List.mem_map.1 hj
      have := (h v hv).2.2
      simp only [Js.depth, Js.depthF]
      omega
    omega
  obtain ⟨b, h1, h2, h3⟩ := value_back hJ hd
  have e : versionsText B = marshalAny J := by
    rw [marshalAny, if_pos hJ.finite, versionsText, jsonSlice, jsonList_ok (g := fun v : TVersion =>
      anyText (.obj [(b!"timestamp", .str v.period), (b!"data", v.data)])) (fun v hv => by
        have := (textJsonL_iff.1 hJ _ (List.mem_map_of_mem hv)).finite
        rw [marshalAny, if_pos this])]
    show _ = Res.ok (anyText (.arr _))
    rw [anyText, anyTextL_eq, List.map_map]
    rfl
  refine ⟨b, (B.map fun v => .obj [(b!"timestamp", .str v.period), (b!"data", v.data)]).map ordAny, by rw [e]; exact h1, ?_, by simp, ?_⟩
  · rw [h2]
    show Res.ok (ordAny (.arr _)) = _
    rw [ordAny, ordAnyL_eq]
  · intro i v hv
    refine ⟨_, by rw [List.map_map, List.getElem?_map, hv]; rfl, ?_⟩
    have hb : TextJson v.data := plain_textJson (h v (List.mem_of_getElem? hv)).2.1
    refine ⟨_, ordAny v.data, by rw [Function.comp, ordAny], by rw [sortM_length, ordAnyF_eq, mapV_length]; rfl, ?_, ?_, sameJson_ord hb⟩
    · rw [ordAnyF_eq, mget_sortM (by rw [mkeys_mapV]; simp [mkeys]), mget_mapV]
      simp [mget, ordAny]
    · rw [ordAnyF_eq, mget_sortM (by rw [mkeys_mapV]; simp [mkeys]), mget_mapV]
      simp [mget]

/-! ### Tracks of the logument -/

/-- An operation as read. -/
def IsPatch (j : Js) (p : TPatch) : Prop := ∃ o, j = .obj o ∧ o.length = 4 ∧ mget o b!"op" = some (.str p.op) ∧
  mget o b!"path" = some (.str p.path) ∧ mget o b!"value" = some p.value ∧ mget o b!"timestamp" = some (.num (.ofInt p.ts))

/-- A patch as written. -/
def opTree (p : TPatch) : Js := .obj [(b!"op", .str p.op), (b!"path", .str p.path), (b!"value", p.value), (b!"timestamp", .int p.ts)]

/-- A patch of a sensor. -/
structure SensorPatch (p : TPatch) : Prop where
  op : p.op = b!"add" ∨ p.op = b!"replace"
  path : ValidUtf8 p.path
  value : PlainScalar p.value
  ts : p.ts.natAbs < 2 ^ 64

theorem SensorPatch.written {p : TPatch} (h : SensorPatch p) : p.toOp.written = ⟨p.op, p.path, .any p.value, p.ts⟩ := by
  have hk : (opKind p.op).name = p.op := by
    rcases h.op with e | e <;> rw [e] <;> rfl
  have hv : (PVal.gval (.any p.value)).pval = .any p.value := by
    rcases plainScalar_cases h.value with ⟨b, e⟩ | ⟨f, e, -⟩ | ⟨s, e, -⟩ <;> rw [e] <;> rfl
  unfold TPatch.toOp POp.toOp Op.written
  dsimp only
  rw [hk, hv]

theorem SensorPatch.json {p : TPatch} (h : SensorPatch p) : p.toOp.written.json = .ok (treeText (opTree p)) := by
  obtain ⟨k1, -, -, k4⟩ := h.value.ord
  obtain ⟨-, k5, -⟩ := h.value.dec
  rw [h.written, POp.json, if_neg (by
    rcases plainScalar_cases h.value with ⟨b, e⟩ | ⟨f, e, -⟩ | ⟨s, e, -⟩ <;> rw [e] <;> simp [PVal.isNil])]
  have e1 : jsonStr b!"op" = b!"\"op\"" := by decide +kernel
  have e2 : jsonStr b!"path" = b!"\"path\"" := by decide +kernel
  have e3 : jsonStr b!"value" = b!"\"value\"" := by decide +kernel
  have e4 : jsonStr b!"timestamp" = b!"\"timestamp\"" := by decide +kernel
  show (PVal.text (.any p.value)).map _ = _
  rw [show PVal.text (.any p.value) = .ok (treeText p.value) by
    show marshalAny p.value = _
    rw [marshalAny, if_pos k4, anyText_ord, k1]]
  simp only [opTree, treeText, treeTextF, joinMembers, e1, e2, e3, e4, List.append_assoc, List.cons_append, List.nil_append, Res.map_ok]

theorem SensorPatch.good {p : TPatch} (h : SensorPatch p) : GoodJs (opTree p) := by
  obtain ⟨k1, -, k3, k4⟩ := h.value.ord
  have := goodJs_ord _ k3 k4
  rw [k1] at this
  exact ⟨trivial, trivial, this, h.ts, trivial⟩

theorem SensorPatch.back {p : TPatch} (h : SensorPatch p) : IsPatch (decAny (sanT (opTree p))) p ∧ (sanT (opTree p)).depth ≤ 1 := by
  obtain ⟨k1, k2, k3, k4⟩ := h.value.ord
  obtain ⟨k5, -, -, k6, -⟩ := h.value.dec
  have ho : sanitize p.op = p.op := by
    rcases h.op with e | e <;> rw [e] <;> decide +kernel
  have e1 : sanitize b!"op" = b!"op" := by decide +kernel
  have e2 : sanitize b!"path" = b!"path" := by decide +kernel
  have e3 : sanitize b!"value" = b!"value" := by decide +kernel
  have e4 : sanitize b!"timestamp" = b!"timestamp" := by decide +kernel
  have e : sanT (opTree p) = opTree p := by
    simp only [opTree, sanT, sanTF, e1, e2, e3, e4, ho, sanitize_valid h.path, k2]
  rw [e]
  refine ⟨?_, ?_⟩
  · have : decAny (opTree p) = .obj [(b!"op", .str p.op), (b!"path", .str p.path), (b!"value", p.value), (b!"timestamp", .num (.ofInt p.ts))] := by
      simp [opTree, decAny, decAnyF, k5]
      rw [fillMap_nodup (by simp [mkeys])]
    rw [this]
    exact ⟨_, rfl, rfl, rfl, rfl, rfl, rfl⟩
  · simp [opTree, Js.depth, Js.depthF, k6]

theorem jsonOps_ok {g : POp → Bytes} : ∀ {l : List POp}, (∀ x ∈ l, x.json = .ok (g x)) → jsonOps l = .ok (l.map g)
  | [], _ => rfl
  | x :: l, h => by
    rw [jsonOps, h x (by simp), jsonOps_ok fun y hy => h y (by simp [hy])]
    rfl

theorem jsonOps_sensor : ∀ {L : List TPatch}, (∀ p ∈ L, SensorPatch p) →
    jsonOps ((L.map TPatch.toOp).map Op.written) = .ok (L.map fun p => treeText (opTree p))
  | [], _ => rfl
  | x :: l, h => by
    rw [List.map_cons, List.map_cons, jsonOps, (h x (by simp)).json, jsonOps_sensor fun y hy => h y (by simp [hy])]
    rfl

/-- The track of the logument as read: the operations under the number of the only version. -/
def IsTrack (j : Js) (L : List TPatch) : Prop :=
  (L = [] ∧ j = .obj []) ∨ ∃ l, L ≠ [] ∧ j = .obj [(b!"1", .arr l)] ∧ l.length = L.length ∧
    ∀ (i : Nat) (p : TPatch), L[i]? = some p → ∃ x, l[i]? = some x ∧ IsPatch x p

/-- A track of the logument is written and read back. -/
theorem track_back {A : List (Nat × List Op)} {L : List TPatch} (hA : A = if L = [] then [] else [(1, L.map TPatch.toOp)])
    (h : ∀ p ∈ L, SensorPatch p) : ∃ b j, trackText A = .ok b ∧ readFile b = .ok j ∧ IsTrack j L := by
  by_cases hL : L = []
  · rw [if_pos hL] at hA
    subst hA
    refine ⟨b!"{}", .obj [], rfl, ?_, .inl ⟨hL, rfl⟩⟩
    have := unmarshal_indented (iw := 2) (j := .obj []) trivial (by decide)
    exact this
  · rw [if_neg hL] at hA
    subst hA
    let J : Js := .obj [(b!"1", .arr (L.map opTree))]
    have hg : GoodJs J := ⟨goodJsL_iff.2 fun v hv => by
      obtain ⟨p, hp, rfl⟩ := List.mem_map.1 hv
      exact (h p hp).good, trivial⟩
    have e1 : sanitize b!"1" = b!"1" := by decide +kernel
    have hsn : sanT J = .obj [(b!"1", .arr (L.map fun p => sanT (opTree p)))] := by
      show sanT (.obj [(b!"1", .arr (L.map opTree))]) = _
      simp only [sanT, sanTF, e1, sanTL_eq, List.map_map, Function.comp_def]
    have hd : (sanT J).depth ≤ 10000 := by
      rw [hsn, Js.depth, Js.depthF, Js.depthF, Js.depth]
      have : Js.depthL (L.map fun p => sanT (opTree p)) ≤ 9000 := by
        rw [depthL_le]
        intro j hj
        obtain ⟨p, hp, rfl⟩ := List.mem_map.1 hj
        have := (h p hp).back.2
        omega
      omega
    have ht : trackText [(1, L.map TPatch.toOp)] = .ok (treeText J) := by
      rw [trackText, trackMembers, patchJson, jsonOps_sensor h]
      show Res.ok _ = Res.ok (treeText (.obj [(b!"1", .arr (L.map opTree))]))
      rw [treeText, treeTextF, treeTextF, treeText, treeTextL_eq, List.map_map]
      rfl
    refine ⟨_, .obj [(b!"1", .arr (L.map fun p => decAny (sanT (opTree p))))], ht, ?_,
      .inr ⟨L.map fun p => decAny (sanT (opTree p)), hL, rfl, by simp, fun i p hp => ?_⟩⟩
    · rw [readFile, unmarshal_indented (iw := 2) hg hd, hsn]
      simp only [decAny, decAnyF, decAnyL_eq, List.map_map, Function.comp_def]
      rw [fillMap_nodup (by simp [mkeys])]
    · exact ⟨_, by rw [List.getElem?_map, hp]; rfl, (h p (List.mem_of_getElem? hp)).back.1⟩

end Verif
