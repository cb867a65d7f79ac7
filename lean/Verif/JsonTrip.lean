import Verif.JsonLemmas
/-
What the JSON conversions compute on documents that JSON can represent.
-/
namespace Verif

/-- A primitive value as JSON. -/
def primJs : Prim → Js
  | .str s => .str s
  | .num f => .num f
  | .bool b => .bool b

mutual
/-- The text of a document. -/
def compatText : Tson → Js
  | .null => .null
  | .leaf p ts => .obj [(b!"value", primJs p), (b!"timestamp", .int ts)]
  | .obj m => .obj (sortM (compatTextF m))
  | .arr l => .arr (compatTextL l)
/-- The members. -/
def compatTextF : List (Bytes × Tson) → List (Bytes × Js)
  | [] => []
  | (k, v) :: m => (k, compatText v) :: compatTextF m
/-- The elements. -/
def compatTextL : List Tson → List Js
  | [] => []
  | v :: l => compatText v :: compatTextL l
end

mutual
/-- The decoded text of a document. -/
def compat : Tson → Js
  | .null => .null
  | .leaf p ts => .obj [(b!"value", primJs p), (b!"timestamp", .num (.ofInt ts))]
  | .obj m => .obj (sortM (compatF m))
  | .arr l => .arr (compatL l)
/-- The members. -/
def compatF : List (Bytes × Tson) → List (Bytes × Js)
  | [] => []
  | (k, v) :: m => (k, compat v) :: compatF m
/-- The elements. -/
def compatL : List Tson → List Js
  | [] => []
  | v :: l => compat v :: compatL l
end

mutual
/-- The document with sorted members. -/
def sortT : Tson → Tson
  | .null => .null
  | .leaf p ts => .leaf p ts
  | .obj m => .obj (sortM (sortTF m))
  | .arr l => .arr (sortTL l)
/-- The members. -/
def sortTF : List (Bytes × Tson) → List (Bytes × Tson)
  | [] => []
  | (k, v) :: m => (k, sortT v) :: sortTF m
/-- The elements. -/
def sortTL : List Tson → List Tson
  | [] => []
  | v :: l => sortT v :: sortTL l
end

mutual
/-- The document without timestamps. -/
def values : Tson → Js
  | .null => .null
  | .leaf p _ => primJs p
  | .obj m => .obj (sortM (valuesF m))
  | .arr l => .arr (valuesL l)
/-- The members. -/
def valuesF : List (Bytes × Tson) → List (Bytes × Js)
  | [] => []
  | (k, v) :: m => (k, values v) :: valuesF m
/-- The elements. -/
def valuesL : List Tson → List Js
  | [] => []
  | v :: l => values v :: valuesL l
end

theorem compatTextF_eq (m : List (Bytes × Tson)) : compatTextF m = mapV compatText m := by
  induction m with
  | nil => rfl
  | cons p m ih => obtain ⟨k, v⟩ := p; rw [compatTextF, ih]; rfl
theorem compatTextL_eq (l : List Tson) : compatTextL l = l.map compatText := by
  induction l with
  | nil => rfl
  | cons v l ih => rw [compatTextL, ih]; rfl
theorem compatF_eq (m : List (Bytes × Tson)) : compatF m = mapV compat m := by
  induction m with
  | nil => rfl
  | cons p m ih => obtain ⟨k, v⟩ := p; rw [compatF, ih]; rfl
theorem compatL_eq (l : List Tson) : compatL l = l.map compat := by
  induction l with
  | nil => rfl
  | cons v l ih => rw [compatL, ih]; rfl
theorem sortTF_eq (m : List (Bytes × Tson)) : sortTF m = mapV sortT m := by
  induction m with
  | nil => rfl
  | cons p m ih => obtain ⟨k, v⟩ := p; rw [sortTF, ih]; rfl
theorem sortTL_eq (l : List Tson) : sortTL l = l.map sortT := by
  induction l with
  | nil => rfl
  | cons v l ih => rw [sortTL, ih]; rfl
theorem valuesF_eq (m : List (Bytes × Tson)) : valuesF m = mapV values m := by
  induction m with
  | nil => rfl
  | cons p m ih => obtain ⟨k, v⟩ := p; rw [valuesF, ih]; rfl
theorem valuesL_eq (l : List Tson) : valuesL l = l.map values := by
  induction l with
  | nil => rfl
  | cons v l ih => rw [valuesL, ih]; rfl

theorem cleanF_iff (m : List (Bytes × Tson)) : CleanF m ↔ ∀ p ∈ m, ValidUtf8 p.1 ∧ Clean p.2 := by
  induction m with
  | nil => simp [CleanF]
  | cons p m ih => obtain ⟨k, v⟩ := p; simp only [CleanF, ih, List.forall_mem_cons, and_assoc]
theorem cleanL_iff (l : List Tson) : CleanL l ↔ ∀ v ∈ l, Clean v := by
  induction l with
  | nil => simp [CleanL]
  | cons v l ih => simp only [CleanL, ih, List.forall_mem_cons]
theorem nullFreeF_iff (m : List (Bytes × Tson)) : NullFreeF m ↔ ∀ p ∈ m, NullFree p.2 := by
  induction m with
  | nil => simp [NullFreeF]
  | cons p m ih => obtain ⟨k, v⟩ := p; simp only [NullFreeF, ih, List.forall_mem_cons]
theorem nullFreeL_iff (l : List Tson) : NullFreeL l ↔ ∀ v ∈ l, NullFree v := by
  induction l with
  | nil => simp [NullFreeL]
  | cons v l ih => simp only [NullFreeL, ih, List.forall_mem_cons]

theorem writableF_iff (m : List (Bytes × Tson)) : WritableF m ↔ ∀ p ∈ m, ValidUtf8 p.1 ∧ Writable p.2 := by
  induction m with
  | nil => simp [WritableF]
  | cons p m ih => obtain ⟨k, v⟩ := p; simp only [WritableF, ih, List.forall_mem_cons, and_assoc]
theorem writableL_iff (l : List Tson) : WritableL l ↔ ∀ v ∈ l, Writable v := by
  induction l with
  | nil => simp [WritableL]
  | cons v l ih => simp only [WritableL, ih, List.forall_mem_cons]
theorem roundTsF_eq (m : List (Bytes × Tson)) : roundTsF m = mapV roundTs m := by
  induction m with
  | nil => rfl
  | cons p m ih => obtain ⟨k, v⟩ := p; rw [roundTsF, ih]; rfl
theorem roundTsL_eq (l : List Tson) : roundTsL l = l.map roundTs := by
  induction l with
  | nil => rfl
  | cons v l ih => rw [roundTsL, ih]; rfl

theorem clean_writable (t : Tson) : Clean t → Writable t := by
  induction t using Tson.induction with
  | null => exact id
  | leaf p ts => exact fun h => h.1
  | obj m ih =>
    exact fun h => (writableF_iff m).2 fun p hp => ⟨((cleanF_iff m).1 h p hp).1, ih p hp ((cleanF_iff m).1 h p hp).2⟩
  | arr l ih => exact fun h => (writableL_iff l).2 fun v hv => ih v hv ((cleanL_iff l).1 h v hv)

theorem clean_roundTs (t : Tson) : Clean t → roundTs t = t := by
  induction t using Tson.induction with
  | null => intro _; rfl
  | leaf p ts => intro h; rw [roundTs, ofInt_exact h.2.1 h.2.2]
  | obj m ih =>
    intro h
    rw [roundTs, roundTsF_eq, mapV_congr (g := id) fun p hp => ih p hp ((cleanF_iff m).1 h p hp).2]
    simp [mapV]
  | arr l ih =>
    intro h
    rw [roundTs, roundTsL_eq, List.map_congr_left (g := id) fun v hv => ih v hv ((cleanL_iff l).1 h v hv)]
    simp

theorem roundTs_wf (t : Tson) : t.Wf → (roundTs t).Wf := by
  induction t using Tson.induction with
  | null => exact id
  | leaf p ts => exact id
  | obj m ih =>
    intro h
    rw [roundTs, roundTsF_eq]
    refine ⟨by rw [mkeys_mapV]; exact h.1, (Tson.wfF_iff _).2 fun p hp => ?_⟩
    unfold mapV at hp
    obtain ⟨q, hq, rfl⟩ := List.mem_map.1 hp
    exact ih q hq ((Tson.wfF_iff m).1 h.2 q hq)
  | arr l ih =>
    intro h
    rw [roundTs, roundTsL_eq]
    refine (Tson.wfL_iff _).2 ?_
    rw [List.forall_mem_map]
    exact fun v hv => ih v hv ((Tson.wfL_iff l).1 h v hv)

/-! ### Writing -/

theorem encTsonF_ok {m : List (Bytes × Tson)} {f : Tson → Js} (h : ∀ p ∈ m, encTson p.2 = .ok (f p.2)) :
    encTsonF m = .ok (mapV f m) := by
  induction m with
  | nil => rfl
  | cons p m ih =>
    obtain ⟨k, v⟩ := p
    rw [List.forall_mem_cons] at h
    rw [encTsonF, h.1, Res.bind_ok, ih h.2]; rfl

theorem encTsonL_ok {l : List Tson} {f : Tson → Js} (h : ∀ v ∈ l, encTson v = .ok (f v)) :
    encTsonL l = .ok (l.map f) := by
  induction l with
  | nil => rfl
  | cons v l ih =>
    rw [List.forall_mem_cons] at h
    rw [encTsonL, h.1, Res.bind_ok, ih h.2]; rfl

theorem encKey_valid {m : List (Bytes × Js)} (h : ∀ p ∈ m, ValidUtf8 p.1) : m.map encKey = m := by
  induction m with
  | nil => rfl
  | cons p m ih =>
    rw [List.forall_mem_cons] at h
    rw [List.map_cons, ih h.2, encKey, sanitize_valid h.1]

theorem mapV_keys {f : α → β} {m : List (Bytes × α)} {Q : Bytes → Prop} (h : ∀ p ∈ m, Q p.1) :
    ∀ p ∈ sortM (mapV f m), Q p.1 := by
  intro p hp
  have := (sortM_perm _).subset hp
  unfold mapV at this
  obtain ⟨q, hq, rfl⟩ := List.mem_map.1 this
  exact h q hq

theorem encPrim_clean {p : Prim} (h : CleanPrim p) : encPrim p = .ok (primJs p) := by
  cases p with
  | str s => rw [encPrim, sanitize_valid h]; rfl
  | num f => obtain ⟨neg, m, e, hc, rfl⟩ := h; rfl
  | bool b => rfl

theorem encTson_clean (t : Tson) : Writable t → encTson t = .ok (compatText t) := by
  induction t using Tson.induction with
  | null => intro _; rfl
  | leaf p ts => intro h; rw [encTson, encPrim_clean h]; rfl
  | obj m ih =>
    intro h
    have h' := (writableF_iff m).1 h
    rw [encTson, encTsonF_ok fun p hp => ih p hp (h' p hp).2, Res.map_ok, compatText, compatTextF_eq, encKey_valid]
    exact mapV_keys fun p hp => (h' p hp).1
  | arr l ih =>
    intro h
    have h' := (writableL_iff l).1 h
    rw [encTson, encTsonL_ok fun v hv => ih v hv (h' v hv), Res.map_ok, compatText, compatTextL_eq]

/-! ### Depth -/

theorem depthF_le {m : List (Bytes × Js)} {n : Nat} : Js.depthF m ≤ n ↔ ∀ p ∈ m, p.2.depth ≤ n := by
  induction m with
  | nil => simp [Js.depthF]
  | cons p m ih => obtain ⟨k, v⟩ := p; simp only [Js.depthF, List.forall_mem_cons, ← ih]; omega
theorem depthL_le {l : List Js} {n : Nat} : Js.depthL l ≤ n ↔ ∀ v ∈ l, v.depth ≤ n := by
  induction l with
  | nil => simp [Js.depthL]
  | cons v l ih => simp only [Js.depthL, List.forall_mem_cons, ← ih]; omega
theorem nestingF_le {m : List (Bytes × Tson)} {n : Nat} : nestingF m ≤ n ↔ ∀ p ∈ m, nesting p.2 ≤ n := by
  induction m with
  | nil => simp [nestingF]
  | cons p m ih => obtain ⟨k, v⟩ := p; simp only [nestingF, List.forall_mem_cons, ← ih]; omega
theorem nestingL_le {l : List Tson} {n : Nat} : nestingL l ≤ n ↔ ∀ v ∈ l, nesting v ≤ n := by
  induction l with
  | nil => simp [nestingL]
  | cons v l ih => simp only [nestingL, List.forall_mem_cons, ← ih]; omega

theorem forall_sortM_mapV {f : α → β} {m : List (Bytes × α)} {Q : β → Prop} :
    (∀ p ∈ sortM (mapV f m), Q p.2) ↔ ∀ p ∈ m, Q (f p.2) := by
  constructor
  · intro h p hp
    exact h (p.1, f p.2) ((sortM_perm _).symm.subset (List.mem_map.2 ⟨p, hp, rfl⟩))
  · intro h p hp
    have := (sortM_perm _).subset hp
    unfold mapV at this
    obtain ⟨q, hq, rfl⟩ := List.mem_map.1 this
    exact h q hq

theorem depthF_sorted {f : α → Js} {m : List (Bytes × α)} {n : Nat} :
    Js.depthF (sortM (mapV f m)) ≤ n ↔ ∀ p ∈ m, (f p.2).depth ≤ n := by
  rw [depthF_le, forall_sortM_mapV (Q := fun j => Js.depth j ≤ n)]

theorem primJs_depth (p : Prim) : (primJs p).depth = 0 := by cases p <;> rfl

theorem compatText_depth (t : Tson) : (compatText t).depth = nesting t := by
  induction t using Tson.induction with
  | null => rfl
  | leaf p ts => simp [compatText, Js.depth, Js.depthF, primJs_depth, nesting]
  | obj m ih =>
    rw [compatText, compatTextF_eq, Js.depth, nesting]
    congr 1
    refine Nat.le_antisymm ?_ ?_
    · rw [depthF_sorted]
      intro p hp; rw [ih p hp]; exact nestingF_le.1 (Nat.le_refl _) p hp
    · rw [nestingF_le]
      intro p hp; rw [← ih p hp]; exact depthF_sorted.1 (Nat.le_refl _) p hp
  | arr l ih =>
    rw [compatText, compatTextL_eq, Js.depth, nesting]
    congr 1
    refine Nat.le_antisymm ?_ ?_
    · rw [depthL_le, List.forall_mem_map]
      intro v hv; rw [ih v hv]; exact nestingL_le.1 (Nat.le_refl _) v hv
    · rw [nestingL_le]
      intro v hv; rw [← ih v hv]
      exact depthL_le.1 (Nat.le_refl _) _ (List.mem_map.2 ⟨v, hv, rfl⟩)

/-! ### Reading -/

theorem decAnyF_eq (m : List (Bytes × Js)) : decAnyF m = mapV decAny m := by
  induction m with
  | nil => rfl
  | cons p m ih => obtain ⟨k, v⟩ := p; rw [decAnyF, ih]; rfl
theorem decAnyL_eq (l : List Js) : decAnyL l = l.map decAny := by
  induction l with
  | nil => rfl
  | cons v l ih => rw [decAnyL, ih]; rfl

theorem decAny_prim (p : Prim) : decAny (primJs p) = primJs p := by cases p <;> simp [decAny, primJs]

/-- Reading the sorted members of an object. -/
theorem decAny_sorted {f : α → Js} {g : α → Js} {m : List (Bytes × α)} (hn : (mkeys m).Nodup)
    (h : ∀ p ∈ m, decAny (f p.2) = g p.2) : decAny (.obj (sortM (mapV f m))) = .obj (sortM (mapV g m)) := by
  rw [decAny, decAnyF_eq, ← sortM_mapV, mapV_mapV, mapV_congr h, fillMap_nodup]
  exact sortM_nodup (by rw [mkeys_mapV]; exact hn)

theorem decAny_leaf (p : Prim) (ts : Int) : decAny (.obj [(b!"value", primJs p), (b!"timestamp", .int ts)]) =
    .obj [(b!"value", primJs p), (b!"timestamp", .num (.ofInt ts))] := by
  rw [decAny, decAnyF_eq, fillMap_nodup]
  · simp [mapV, decAny_prim, decAny]
  · rw [mkeys_mapV]; simp only [mkeys, List.map_cons, List.map_nil]; decide

theorem decAny_compatText (t : Tson) : t.Wf → decAny (compatText t) = compat t := by
  induction t using Tson.induction with
  | null => intro _; simp [compatText, compat, decAny]
  | leaf p ts => intro _; exact decAny_leaf p ts
  | obj m ih =>
    intro h
    rw [compatText, compatTextF_eq, compat, compatF_eq]
    exact decAny_sorted h.1 fun p hp => ih p hp ((Tson.wfF_iff m).1 h.2 p hp)
  | arr l ih =>
    intro h
    rw [compatText, compatTextL_eq, compat, compatL_eq, decAny, decAnyL_eq, List.map_map]
    congr 1
    exact List.map_congr_left fun v hv => ih v hv ((Tson.wfL_iff l).1 h v hv)

theorem toCompatible_clean {t : Tson} (hc : Writable t) (hw : t.Wf) (hd : nesting t ≤ 10000) :
    toCompatible t = .ok (compat t) := by
  unfold toCompatible
  rw [encTson_clean t hc, Res.bind_ok, unmarshalAny, compatText_depth, if_pos hd, decAny_compatText t hw]

/-! ### From JSON to documents -/

theorem convertF_ok {m : List (Bytes × α)} {f : α → Js} {g : α → Tson} (h : ∀ p ∈ m, convert (f p.2) = .ok (g p.2)) :
    convertF (mapV f m) = .ok (mapV g m) := by
  induction m with
  | nil => rfl
  | cons p m ih =>
    obtain ⟨k, v⟩ := p
    rw [List.forall_mem_cons] at h
    have : mapV f ((k, v) :: m) = (k, f v) :: mapV f m := rfl
    rw [this, convertF, h.1, Res.bind_ok, ih h.2]; rfl

theorem convertL_ok {l : List α} {f : α → Js} {g : α → Tson} (h : ∀ v ∈ l, convert (f v) = .ok (g v)) :
    convertL (l.map f) = .ok (l.map g) := by
  induction l with
  | nil => rfl
  | cons v l ih =>
    rw [List.forall_mem_cons] at h
    rw [List.map_cons, convertL, h.1, Res.bind_ok, ih h.2]; rfl

/-- The value of a member is never a number. -/
theorem checkLeaf_none {m : List (Bytes × Js)} (h1 : ∀ f, mget m b!"timestamp" ≠ some (.num f))
    (h2 : ∀ n, mget m b!"timestamp" ≠ some (.int n)) : checkLeaf m = none := by
  unfold checkLeaf
  split
  · split
    · rename_i f _ h; exact absurd h (h1 f)
    · rename_i n _ h; exact absurd h (h2 n)
    · rfl
  · rfl

theorem compat_not_num (t : Tson) : (∀ f, compat t ≠ .num f) ∧ ∀ n, compat t ≠ .int n := by
  cases t <;> simp [compat]

theorem checkLeaf_compat {m : List (Bytes × Tson)} (hn : (mkeys m).Nodup) :
    checkLeaf (sortM (mapV compat m)) = none := by
  have hn' : (mkeys (mapV compat m)).Nodup := by rw [mkeys_mapV]; exact hn
  apply checkLeaf_none
  · intro f h
    rw [mget_sortM hn', mget_mapV, Option.map_eq_some_iff] at h
    obtain ⟨v, -, hv⟩ := h
    exact (compat_not_num v).1 f hv
  · intro f h
    rw [mget_sortM hn', mget_mapV, Option.map_eq_some_iff] at h
    obtain ⟨v, -, hv⟩ := h
    exact (compat_not_num v).2 f hv

theorem checkLeaf_leaf (p : Prim) (f : F64) :
    checkLeaf [(b!"value", primJs p), (b!"timestamp", .num f)] = some (primJs p, f.toInt64) := by
  unfold checkLeaf
  rw [if_pos (by rfl)]
  have h1 : mget [(b!"value", primJs p), (b!"timestamp", .num f)] b!"value" = some (primJs p) := rfl
  have h2 : mget [(b!"value", primJs p), (b!"timestamp", .num f)] b!"timestamp" = some (.num f) := rfl
  rw [h1, h2]

theorem mkLeaf_prim (p : Prim) (ts : Int) : mkLeaf (primJs p) ts = .leaf p ts := by cases p <;> rfl

theorem convert_compat (t : Tson) : NullFree t → t.Wf → convert (compat t) = .ok (sortT (roundTs t)) := by
  induction t using Tson.induction with
  | null => intro h; exact h.elim
  | leaf p ts =>
    intro _ _
    rw [compat, convert, checkLeaf_leaf]
    simp only [mkLeaf_prim, sortT, roundTs]
  | obj m ih =>
    intro h1 h3
    rw [compat, compatF_eq, convert, checkLeaf_compat h3.1]
    simp only
    rw [sortM_mapV, convertF_ok (g := fun v => sortT (roundTs v)), Res.map_ok, ← sortM_mapV, roundTs, roundTsF_eq,
      sortT, sortTF_eq, mapV_mapV]
    intro p hp
    have hp := (sortM_perm m).subset hp
    exact ih p hp ((nullFreeF_iff m).1 h1 p hp) ((Tson.wfF_iff m).1 h3.2 p hp)
  | arr l ih =>
    intro h1 h3
    rw [compat, compatL_eq, convert, convertL_ok (g := fun v => sortT (roundTs v)), Res.map_ok, roundTs, roundTsL_eq,
      sortT, sortTL_eq, List.map_map]
    · rfl
    · intro v hv
      exact ih v hv ((nullFreeL_iff l).1 h1 v hv) ((Tson.wfL_iff l).1 h3 v hv)

theorem parseLeafValue_leaf (p : Prim) (f : F64) :
    parseLeafValue [(b!"value", primJs p), (b!"timestamp", .num f)] = .ok (.leaf p f.toInt64) := by
  unfold parseLeafValue
  have h1 : mget [(b!"value", primJs p), (b!"timestamp", .num f)] b!"value" = some (primJs p) := rfl
  have h2 : mget [(b!"value", primJs p), (b!"timestamp", .num f)] b!"timestamp" = some (.num f) := rfl
  rw [h1, h2]
  cases p <;> rfl

theorem parseObjectAny_ok {m : List (Bytes × α)} {f : α → Js} {g : α → Tson}
    (h : ∀ p ∈ m, parseValueAny (f p.2) = .ok (g p.2)) : parseObjectAny (mapV f m) = .ok (mapV g m) := by
  induction m with
  | nil => rfl
  | cons p m ih =>
    obtain ⟨k, v⟩ := p
    rw [List.forall_mem_cons] at h
    have : mapV f ((k, v) :: m) = (k, f v) :: mapV f m := rfl
    rw [this, parseObjectAny, h.1, Res.bind_ok, ih h.2]; rfl

theorem parseArrayAny_ok {l : List α} {f : α → Js} {g : α → Tson} (h : ∀ v ∈ l, parseValueAny (f v) = .ok (g v)) :
    parseArrayAny (l.map f) = .ok (l.map g) := by
  induction l with
  | nil => rfl
  | cons v l ih =>
    rw [List.forall_mem_cons] at h
    rw [List.map_cons, parseArrayAny, h.1, Res.bind_ok, ih h.2]; rfl

theorem parseValue_compat (t : Tson) : t.Wf → parseValueAny (compat t) = .ok (sortT (roundTs t)) := by
  induction t using Tson.induction with
  | null => intro h; rfl
  | leaf p ts =>
    intro _
    rw [compat, parseValueAny, checkLeaf_leaf]
    simp only [parseLeafValue_leaf, sortT, roundTs]
  | obj m ih =>
    intro h3
    rw [compat, compatF_eq, parseValueAny, checkLeaf_compat h3.1]
    simp only
    rw [sortM_mapV, parseObjectAny_ok (g := fun v => sortT (roundTs v)), Res.map_ok, ← sortM_mapV, roundTs,
      roundTsF_eq, sortT, sortTF_eq, mapV_mapV]
    intro p hp
    have hp := (sortM_perm m).subset hp
    exact ih p hp ((Tson.wfF_iff m).1 h3.2 p hp)
  | arr l ih =>
    intro h3
    rw [compat, compatL_eq, parseValueAny, parseArrayAny_ok (g := fun v => sortT (roundTs v)), Res.map_ok, roundTs,
      roundTsL_eq, sortT, sortTL_eq, List.map_map]
    · rfl
    · intro v hv
      exact ih v hv ((Tson.wfL_iff l).1 h3 v hv)

/-! ### The order of members -/

theorem docRelF_iff (R : Prim → Int → Prim → Int → Prop) (m n : List (Bytes × Tson)) :
    DocRelF R m n ↔ ∀ p ∈ m, ∃ w, mget n p.1 = some w ∧ DocRel R p.2 w := by
  induction m with
  | nil => simp [DocRelF]
  | cons p m ih => obtain ⟨k, v⟩ := p; simp only [DocRelF, ih, List.forall_mem_cons]

theorem docRel_sortT {R : Prim → Int → Prim → Int → Prop} (hR : ∀ p t, R p t p t) (t : Tson) :
    t.Wf → DocRel R t (sortT t) := by
  induction t using Tson.induction with
  | null => intro _; trivial
  | leaf p ts => intro _; exact hR p ts
  | obj m ih =>
    intro h
    have hn : (mkeys (mapV sortT m)).Nodup := by rw [mkeys_mapV]; exact h.1
    rw [sortT, sortTF_eq]
    refine ⟨by rw [sortM_length, mapV_length], (docRelF_iff R _ _).2 fun p hp => ?_⟩
    refine ⟨sortT p.2, ?_, ih p hp ((Tson.wfF_iff m).1 h.2 p hp)⟩
    rw [mget_sortM hn, mget_mapV, mem_mget h.1 (show (p.1, p.2) ∈ m from hp)]; rfl
  | arr l ih =>
    intro h
    rw [sortT, sortTL_eq]
    show DocRelL R l (l.map sortT)
    have h' := (Tson.wfL_iff l).1 h
    clear h
    induction l with
    | nil => trivial
    | cons v l ihl =>
      rw [List.forall_mem_cons] at ih h'
      exact ⟨ih.1 h'.1, ihl ih.2 h'.2⟩

/-! ### Stripping timestamps -/

theorem stripF_eq (m : List (Bytes × Js)) : stripF m = mapV stripEntry m := by
  induction m with
  | nil => rfl
  | cons p m ih => obtain ⟨k, v⟩ := p; rw [stripF, ih]; rfl
theorem stripL_eq (l : List Js) : stripL l = l.map stripEntry := by
  induction l with
  | nil => rfl
  | cons v l ih => rw [stripL, ih]; rfl

theorem stripEntry_compat (t : Tson) : t.Wf → stripEntry (compat t) = values t := by
  induction t using Tson.induction with
  | null => intro _; simp [compat, stripEntry, values]
  | leaf p ts =>
    intro _
    rw [compat, stripEntry, checkLeaf_leaf, values]
  | obj m ih =>
    intro h
    rw [compat, compatF_eq, stripEntry, checkLeaf_compat h.1, values, valuesF_eq]
    simp only
    rw [stripF_eq, ← sortM_mapV, mapV_mapV, mapV_congr fun p hp => ih p hp ((Tson.wfF_iff m).1 h.2 p hp)]
  | arr l ih =>
    intro h
    rw [compat, compatL_eq, stripEntry, values, valuesL_eq, stripL_eq, List.map_map]
    congr 1
    exact List.map_congr_left fun v hv => ih v hv ((Tson.wfL_iff l).1 h v hv)

theorem toJson_clean {t : Tson} (hc : Writable t) (hw : t.Wf) (hd : nesting t ≤ 10000) (ht : t.IsContainer) :
    toJson t = values t := by
  unfold toJson
  rw [toCompatible_clean hc hw hd]
  simp only
  rw [← stripEntry_compat t hw]
  cases t with
  | null => exact ht.elim
  | leaf p ts => exact ht.elim
  | obj m => rw [compat, compatF_eq, stripEntry, checkLeaf_compat hw.1]; rfl
  | arr l => rw [compat, compatL_eq, stripEntry]; rfl

theorem encAnyF_ok {m : List (Bytes × α)} {f g : α → Js} (h : ∀ p ∈ m, encAny (f p.2) = .ok (g p.2)) :
    encAnyF (mapV f m) = .ok (mapV g m) := by
  induction m with
  | nil => rfl
  | cons p m ih =>
    obtain ⟨k, v⟩ := p
    rw [List.forall_mem_cons] at h
    have : mapV f ((k, v) :: m) = (k, f v) :: mapV f m := rfl
    rw [this, encAnyF, h.1, Res.bind_ok, ih h.2]; rfl

theorem encAnyL_ok {l : List α} {f g : α → Js} (h : ∀ v ∈ l, encAny (f v) = .ok (g v)) :
    encAnyL (l.map f) = .ok (l.map g) := by
  induction l with
  | nil => rfl
  | cons v l ih =>
    rw [List.forall_mem_cons] at h
    rw [List.map_cons, encAnyL, h.1, Res.bind_ok, ih h.2]; rfl

theorem encAny_prim {p : Prim} (h : CleanPrim p) : encAny (primJs p) = .ok (primJs p) := by
  cases p with
  | str s => rw [primJs, encAny, sanitize_valid h]
  | num f => obtain ⟨neg, m, e, hc, rfl⟩ := h; rfl
  | bool b => rfl

theorem encAny_values (t : Tson) : Writable t → t.Wf → encAny (values t) = .ok (values t) := by
  induction t using Tson.induction with
  | null => intro _ _; rfl
  | leaf p ts => intro h _; exact encAny_prim h
  | obj m ih =>
    intro h1 h2
    have hn : (mkeys (mapV values m)).Nodup := by rw [mkeys_mapV]; exact h2.1
    have h' := (writableF_iff m).1 h1
    rw [values, valuesF_eq, encAny, sortM_mapV, encAnyF_ok (g := values), Res.map_ok, ← sortM_mapV, sortM_idem hn,
      encKey_valid]
    · exact mapV_keys fun p hp => (h' p hp).1
    · intro p hp
      have hp := (sortM_perm m).subset hp
      exact ih p hp (h' p hp).2 ((Tson.wfF_iff m).1 h2.2 p hp)
  | arr l ih =>
    intro h1 h2
    rw [values, valuesL_eq, encAny, encAnyL_ok (g := values)]
    · rfl
    · exact fun v hv => ih v hv ((writableL_iff l).1 h1 v hv) ((Tson.wfL_iff l).1 h2 v hv)

theorem values_depth (t : Tson) : (values t).depth ≤ nesting t := by
  induction t using Tson.induction with
  | null => exact Nat.le_refl _
  | leaf p ts => rw [values, primJs_depth]; exact Nat.zero_le _
  | obj m ih =>
    rw [values, valuesF_eq, Js.depth, nesting]
    apply Nat.add_le_add_left
    rw [depthF_sorted]
    intro p hp
    exact Nat.le_trans (ih p hp) (nestingF_le.1 (Nat.le_refl _) p hp)
  | arr l ih =>
    rw [values, valuesL_eq, Js.depth, nesting]
    apply Nat.add_le_add_left
    rw [depthL_le, List.forall_mem_map]
    intro v hv
    exact Nat.le_trans (ih v hv) (nestingL_le.1 (Nat.le_refl _) v hv)

theorem decAny_values (t : Tson) : t.Wf → decAny (values t) = values t := by
  induction t using Tson.induction with
  | null => intro _; simp [values, decAny]
  | leaf p ts => intro _; exact decAny_prim p
  | obj m ih =>
    intro h
    rw [values, valuesF_eq]
    exact decAny_sorted h.1 fun p hp => ih p hp ((Tson.wfF_iff m).1 h.2 p hp)
  | arr l ih =>
    intro h
    rw [values, valuesL_eq, decAny, decAnyL_eq, List.map_map]
    congr 1
    exact List.map_congr_left fun v hv => ih v hv ((Tson.wfL_iff l).1 h v hv)

theorem toJsonBytes_clean {t : Tson} (hc : Writable t) (hw : t.Wf) (hd : nesting t ≤ 10000) (ht : t.IsContainer) :
    (toJsonBytes t).bind unmarshalAny = .ok (values t) := by
  unfold toJsonBytes
  rw [toJson_clean hc hw hd ht, encAny_values t hc hw, Res.bind_ok, unmarshalAny,
    if_pos (Nat.le_trans (values_depth t) hd), decAny_values t hw]

/-! ### Comparing -/

theorem jsEqF_iff (m n : List (Bytes × Js)) :
    jsEqF m n = true ↔ ∀ p ∈ m, ∃ w, mget n p.1 = some w ∧ jsEq p.2 w = true := by
  induction m with
  | nil => simp [jsEqF]
  | cons p m ih =>
    obtain ⟨k, v⟩ := p
    rw [jsEqF, Bool.and_eq_true, ih, List.forall_mem_cons]
    cases mget n k <;> simp

/-- Comparing sorted members. -/
theorem jsEq_sorted {f : α → Js} {g : β → Js} {m : List (Bytes × α)} {n : List (Bytes × β)}
    (hn : (mkeys n).Nodup) :
    jsEq (.obj (sortM (mapV f m))) (.obj (sortM (mapV g n))) = true ↔
      m.length = n.length ∧ ∀ p ∈ m, ∃ w, mget n p.1 = some w ∧ jsEq (f p.2) (g w) = true := by
  have hn' : (mkeys (mapV g n)).Nodup := by rw [mkeys_mapV]; exact hn
  rw [jsEq, Bool.and_eq_true, decide_eq_true_eq, sortM_length, sortM_length, mapV_length, mapV_length, jsEqF_iff]
  refine and_congr_right fun _ => ⟨fun h p hp => ?_, fun h q hq => ?_⟩
  · obtain ⟨w, h1, h2⟩ := h (p.1, f p.2) ((sortM_perm _).symm.subset (List.mem_map.2 ⟨p, hp, rfl⟩))
    rw [mget_sortM hn', mget_mapV, Option.map_eq_some_iff] at h1
    obtain ⟨x, hx, rfl⟩ := h1
    exact ⟨x, hx, h2⟩
  · have := (sortM_perm _).subset hq
    unfold mapV at this
    obtain ⟨p, hp, rfl⟩ := List.mem_map.1 this
    obtain ⟨w, h1, h2⟩ := h p hp
    exact ⟨g w, by rw [mget_sortM hn', mget_mapV, h1]; rfl, h2⟩

theorem jsEq_prim (p q : Prim) : jsEq (primJs p) (primJs q) = true ↔ GoEqPrim p q := by
  cases p <;> cases q <;> simp [primJs, jsEq, GoEqPrim]

theorem jsEq_list {f : Tson → Js} {R : Prim → Int → Prim → Int → Prop} {l k : List Tson}
    (ih : ∀ v ∈ l, ∀ w ∈ k, (jsEq (f v) (f w) = true ↔ DocRel R v w)) :
    jsEqL (l.map f) (k.map f) = true ↔ DocRelL R l k := by
  induction l generalizing k with
  | nil => cases k <;> simp [jsEqL, DocRelL]
  | cons v l ihl =>
    cases k with
    | nil => simp [jsEqL, DocRelL]
    | cons w k =>
      simp only [List.map_cons, jsEqL, DocRelL, Bool.and_eq_true]
      rw [ih v (by simp) w (by simp), ihl fun x hx y hy => ih x (by simp [hx]) y (by simp [hy])]

theorem jsEq_obj {f : Tson → Js} {R : Prim → Int → Prim → Int → Prop} {m n : List (Bytes × Tson)}
    (ih : ∀ p ∈ m, ∀ q ∈ n, (jsEq (f p.2) (f q.2) = true ↔ DocRel R p.2 q.2)) (hn : (mkeys n).Nodup) :
    jsEq (.obj (sortM (mapV f m))) (.obj (sortM (mapV f n))) = true ↔ DocRel R (.obj m) (.obj n) := by
  rw [jsEq_sorted hn, DocRel, docRelF_iff]
  refine and_congr_right fun _ => forall_congr' fun p => forall_congr' fun hp => exists_congr fun w =>
    and_congr_right fun hw => ?_
  exact ih p hp _ (mget_mem hw)

theorem jsEq_num_compat (f : F64) (t : Tson) : jsEq (.num f) (compat t) = false := by
  cases t <;> simp [compat, jsEq]
theorem jsEq_compat_num (f : F64) (t : Tson) : jsEq (compat t) (.num f) = false := by
  cases t <;> simp [compat, jsEq]

theorem jsEq_leaf_obj (p : Prim) (ts : Int) (m : List (Bytes × Tson)) (hn : (mkeys m).Nodup) :
    jsEq (compat (.leaf p ts)) (compat (.obj m)) = false := by
  have hn' : (mkeys (mapV compat m)).Nodup := by rw [mkeys_mapV]; exact hn
  rw [Bool.eq_false_iff]
  intro h
  rw [compat, compat, compatF_eq, jsEq, Bool.and_eq_true, jsEqF_iff] at h
  obtain ⟨w, h1, h2⟩ := h.2 (b!"timestamp", .num (.ofInt ts)) (by simp)
  rw [mget_sortM hn', mget_mapV, Option.map_eq_some_iff] at h1
  obtain ⟨x, -, rfl⟩ := h1
  rw [jsEq_num_compat] at h2
  cases h2

theorem jsEq_obj_leaf (p : Prim) (ts : Int) (m : List (Bytes × Tson)) (hn : (mkeys m).Nodup) :
    jsEq (compat (.obj m)) (compat (.leaf p ts)) = false := by
  rw [Bool.eq_false_iff]
  intro h
  rw [compat, compat, compatF_eq, jsEq, Bool.and_eq_true, decide_eq_true_eq, sortM_length, mapV_length,
    jsEqF_iff] at h
  obtain ⟨hl, h⟩ := h
  have h' : ∀ q ∈ m, q.1 = b!"value" := by
    intro q hq
    obtain ⟨w, h1, h2⟩ := h (q.1, compat q.2) ((sortM_perm _).symm.subset (List.mem_map.2 ⟨q, hq, rfl⟩))
    simp only [mget] at h1
    split at h1
    · rename_i e; exact e.symm
    · split at h1
      · cases h1
        rw [jsEq_compat_num] at h2
        cases h2
      · cases h1
  match m, hl, hn, h' with
  | [a, b], _, hn, h' =>
    have ha := h' a (by simp)
    have hb := h' b (by simp)
    simp only [mkeys, List.map_cons, List.map_nil, ha, hb] at hn
    simp at hn

/-- Comparing decoded documents: timestamps are compared as `float64`. -/
theorem jsEq_compat_float (a : Tson) : a.Wf → ∀ b, b.Wf →
    (jsEq (compat a) (compat b) = true ↔
      DocRel (fun p t q u => GoEqPrim p q ∧ F64.feq (.ofInt t) (.ofInt u) = true) a b) := by
  induction a using Tson.induction with
  | null =>
    intro _ b _
    cases b <;> simp [compat, jsEq, DocRel]
  | leaf p ts =>
    intro _ b hb
    cases b with
    | null => simp [compat, jsEq, DocRel]
    | leaf q us =>
      rw [compat, compat, DocRel, jsEq, Bool.and_eq_true, jsEqF_iff, List.forall_mem_cons, List.forall_mem_cons]
      have g1 : ∀ x y : Js, mget [(b!"value", x), (b!"timestamp", y)] b!"value" = some x := fun _ _ => rfl
      have g2 : ∀ x y : Js, mget [(b!"value", x), (b!"timestamp", y)] b!"timestamp" = some y := fun _ _ => rfl
      have g3 : jsEq (.num (.ofInt ts)) (.num (.ofInt us)) = (F64.ofInt ts).feq (.ofInt us) := by rw [jsEq]
      simp only [g1, g2, g3, Option.some.injEq, exists_eq_left', jsEq_prim, List.length_cons, decide_true, true_and,
        List.not_mem_nil, false_imp_iff, implies_true, and_true]
    | obj n => simp only [jsEq_leaf_obj p ts n hb.1, DocRel]; simp
    | arr k => simp [compat, jsEq, DocRel]
  | obj m ih =>
    intro ha b hb
    cases b with
    | null => simp [compat, jsEq, DocRel]
    | leaf q us => simp only [jsEq_obj_leaf q us m ha.1, DocRel]; simp
    | obj n =>
      rw [compat, compat, compatF_eq, compatF_eq]
      exact jsEq_obj (fun p hp q hq => ih p hp ((Tson.wfF_iff m).1 ha.2 p hp) q.2 ((Tson.wfF_iff n).1 hb.2 q hq)) hb.1
    | arr k => simp [compat, jsEq, DocRel]
  | arr l ih =>
    intro ha b hb
    cases b with
    | null => simp [compat, jsEq, DocRel]
    | leaf q us => simp [compat, jsEq, DocRel]
    | obj n => simp [compat, jsEq, DocRel]
    | arr k =>
      rw [compat, compat, compatL_eq, compatL_eq, jsEq, DocRel]
      exact jsEq_list fun v hv w hw => ih v hv ((Tson.wfL_iff l).1 ha v hv) w ((Tson.wfL_iff k).1 hb w hw)

theorem mem_stampsF {m : List (Bytes × Tson)} {n : Int} : n ∈ stampsF m ↔ ∃ p ∈ m, n ∈ stamps p.2 := by
  induction m with
  | nil => simp [stampsF]
  | cons p m ih => obtain ⟨k, v⟩ := p; simp [stampsF, ih]
theorem mem_stampsL {l : List Tson} {n : Int} : n ∈ stampsL l ↔ ∃ v ∈ l, n ∈ stamps v := by
  induction l with
  | nil => simp [stampsL]
  | cons v l ih => simp [stampsL, ih]

theorem docRel_mono {R S : Prim → Int → Prim → Int → Prop} (a : Tson) : ∀ b,
    (∀ p q, ∀ t ∈ stamps a, ∀ u ∈ stamps b, R p t q u → S p t q u) → DocRel R a b → DocRel S a b := by
  induction a using Tson.induction with
  | null => intro b _ h; cases b <;> simp only [DocRel] at h ⊢
  | leaf p ts =>
    intro b hs h
    cases b <;> simp only [DocRel] at h ⊢
    exact hs _ _ _ (by simp [stamps]) _ (by simp [stamps]) h
  | obj m ih =>
    intro b hs h
    cases b <;> simp only [DocRel] at h ⊢
    rw [docRelF_iff] at h ⊢
    refine ⟨h.1, fun p hp => ?_⟩
    obtain ⟨w, hw, hr⟩ := h.2 p hp
    exact ⟨w, hw, ih p hp w (fun x y t ht u hu => hs x y t (mem_stampsF.2 ⟨p, hp, ht⟩) u
      (mem_stampsF.2 ⟨_, mget_mem hw, hu⟩)) hr⟩
  | arr l ih =>
    intro b hs h
    cases b <;> simp only [DocRel] at h ⊢
    rename_i k
    simp only [stamps] at hs
    induction l generalizing k with
    | nil => cases k <;> simp_all [DocRelL]
    | cons v l ihl =>
      cases k with
      | nil => simp [DocRelL] at h
      | cons w k =>
        rw [List.forall_mem_cons] at ih
        simp only [stampsL, List.mem_append] at hs
        exact ⟨ih.1 w (fun x y t ht u hu => hs x y t (.inl ht) u (.inl hu)) h.1,
          ihl ih.2 k (fun x y t ht u hu => hs x y t (.inr ht) u (.inr hu)) h.2⟩

theorem clean_stamps (t : Tson) : Clean t → ∀ n ∈ stamps t, -9007199254740992 ≤ n ∧ n ≤ 9007199254740992 := by
  induction t using Tson.induction with
  | null => intro _ n h; simp [stamps] at h
  | leaf p ts => intro h n hn; simp only [stamps, List.mem_singleton] at hn; subst hn; exact h.2
  | obj m ih =>
    intro h n hn
    obtain ⟨p, hp, hn⟩ := mem_stampsF.1 hn
    exact ih p hp ((cleanF_iff m).1 h p hp).2 n hn
  | arr l ih =>
    intro h n hn
    obtain ⟨v, hv, hn⟩ := mem_stampsL.1 hn
    exact ih v hv ((cleanL_iff l).1 h v hv) n hn

theorem jsEq_compat (a : Tson) (ha : a.Wf) (b : Tson) (hb : b.Wf) (ca : Clean a) (cb : Clean b) :
    jsEq (compat a) (compat b) = true ↔ SameTimed a b := by
  rw [jsEq_compat_float a ha b hb, SameTimed]
  constructor
  · refine docRel_mono a b fun p q t ht u hu h => ⟨h.1, ?_⟩
    have := toInt64_feq h.2
    have h1 := clean_stamps a ca t ht
    have h2 := clean_stamps b cb u hu
    rwa [ofInt_exact h1.1 h1.2, ofInt_exact h2.1 h2.2] at this
  · refine docRel_mono a b fun p q t ht u hu h => ⟨h.1, ?_⟩
    rw [← h.2]
    apply F64.feq_refl_of_ne_nan
    intro hnan
    have h1 := clean_stamps a ca t ht
    have h0 := ofInt_exact h1.1 h1.2
    rw [hnan, F64.toInt64] at h0
    have := h1.1
    rw [← h0] at this
    revert this; decide

theorem jsEq_values (a : Tson) : a.Wf → ∀ b, b.Wf →
    (jsEq (values a) (values b) = true ↔ SameUntimed a b) := by
  unfold SameUntimed
  induction a using Tson.induction with
  | null =>
    intro _ b _
    cases b with
    | leaf q us => cases q <;> simp [values, primJs, jsEq, DocRel]
    | _ => simp [values, jsEq, DocRel]
  | leaf p ts =>
    intro _ b hb
    cases b with
    | leaf q us => rw [values, values, jsEq_prim, DocRel]
    | _ => cases p <;> simp [values, primJs, jsEq, DocRel]
  | obj m ih =>
    intro ha b hb
    cases b with
    | null => simp [values, jsEq, DocRel]
    | leaf q us => cases q <;> simp [values, primJs, jsEq, DocRel]
    | obj n =>
      rw [values, values, valuesF_eq, valuesF_eq]
      exact jsEq_obj (fun p hp q hq => ih p hp ((Tson.wfF_iff m).1 ha.2 p hp) q.2 ((Tson.wfF_iff n).1 hb.2 q hq)) hb.1
    | arr k => simp [values, jsEq, DocRel]
  | arr l ih =>
    intro ha b hb
    cases b with
    | null => simp [values, jsEq, DocRel]
    | leaf q us => cases q <;> simp [values, primJs, jsEq, DocRel]
    | obj n => simp [values, jsEq, DocRel]
    | arr k =>
      rw [values, values, valuesL_eq, valuesL_eq, jsEq, DocRel]
      exact jsEq_list fun v hv w hw => ih v hv ((Tson.wfL_iff l).1 ha v hv) w ((Tson.wfL_iff k).1 hb w hw)

end Verif
