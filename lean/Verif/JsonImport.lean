import Verif.JsonTrip
/-
What `FromJson` computes on plain JSON, and the independence of the order of members.
-/
namespace Verif

mutual
/-- The document made from plain JSON. -/
def stampT : Js → Tson
  | .null => .null
  | .bool b => .leaf (.bool b) (-1)
  | .num f => .leaf (.num f) (-1)
  | .int _ => .null
  | .str s => .leaf (.str s) (-1)
  | .obj m => .obj (stampTF m)
  | .arr l => .arr (stampTL l)
/-- The members. -/
def stampTF : List (Bytes × Js) → List (Bytes × Tson)
  | [] => []
  | (k, v) :: m => (k, stampT v) :: stampTF m
/-- The elements. -/
def stampTL : List Js → List Tson
  | [] => []
  | v :: l => stampT v :: stampTL l
end

mutual
/-- A document written by way of Go maps: the members of a leaf are sorted too. -/
def sortedText : Tson → Js
  | .null => .null
  | .leaf p ts => .obj [(b!"timestamp", .int ts), (b!"value", primJs p)]
  | .obj m => .obj (sortM (sortedTextF m))
  | .arr l => .arr (sortedTextL l)
/-- The members. -/
def sortedTextF : List (Bytes × Tson) → List (Bytes × Js)
  | [] => []
  | (k, v) :: m => (k, sortedText v) :: sortedTextF m
/-- The elements. -/
def sortedTextL : List Tson → List Js
  | [] => []
  | v :: l => sortedText v :: sortedTextL l
end

mutual
/-- A document written by way of Go maps and read back. -/
def sortedCompat : Tson → Js
  | .null => .null
  | .leaf p ts => .obj [(b!"timestamp", .num (.ofInt ts)), (b!"value", primJs p)]
  | .obj m => .obj (sortM (sortedCompatF m))
  | .arr l => .arr (sortedCompatL l)
/-- The members. -/
def sortedCompatF : List (Bytes × Tson) → List (Bytes × Js)
  | [] => []
  | (k, v) :: m => (k, sortedCompat v) :: sortedCompatF m
/-- The elements. -/
def sortedCompatL : List Tson → List Js
  | [] => []
  | v :: l => sortedCompat v :: sortedCompatL l
end

theorem stampTF_eq (m : List (Bytes × Js)) : stampTF m = mapV stampT m := by
  induction m with
  | nil => rfl
  | cons p m ih => obtain ⟨k, v⟩ := p; rw [stampTF, ih]; rfl
theorem stampTL_eq (l : List Js) : stampTL l = l.map stampT := by
  induction l with
  | nil => rfl
  | cons v l ih => rw [stampTL, ih]; rfl
theorem sortedTextF_eq (m : List (Bytes × Tson)) : sortedTextF m = mapV sortedText m := by
  induction m with
  | nil => rfl
  | cons p m ih => obtain ⟨k, v⟩ := p; rw [sortedTextF, ih]; rfl
theorem sortedTextL_eq (l : List Tson) : sortedTextL l = l.map sortedText := by
  induction l with
  | nil => rfl
  | cons v l ih => rw [sortedTextL, ih]; rfl
theorem sortedCompatF_eq (m : List (Bytes × Tson)) : sortedCompatF m = mapV sortedCompat m := by
  induction m with
  | nil => rfl
  | cons p m ih => obtain ⟨k, v⟩ := p; rw [sortedCompatF, ih]; rfl
theorem sortedCompatL_eq (l : List Tson) : sortedCompatL l = l.map sortedCompat := by
  induction l with
  | nil => rfl
  | cons v l ih => rw [sortedCompatL, ih]; rfl
theorem stampAnyF_eq (m : List (Bytes × Js)) : stampAnyF m = mapV stampEntry m := by
  induction m with
  | nil => rfl
  | cons p m ih => obtain ⟨k, v⟩ := p; rw [stampAnyF, ih]; rfl
theorem stampAnyL_eq (l : List Js) : stampAnyL l = l.map stampEntry := by
  induction l with
  | nil => rfl
  | cons v l ih => rw [stampAnyL, ih]; rfl

theorem plainJsonF_iff (m : List (Bytes × Js)) : PlainJsonF m ↔ ∀ p ∈ m, ValidUtf8 p.1 ∧ PlainJson p.2 := by
  induction m with
  | nil => simp [PlainJsonF]
  | cons p m ih => obtain ⟨k, v⟩ := p; simp only [PlainJsonF, ih, List.forall_mem_cons, and_assoc]
theorem plainJsonL_iff (l : List Js) : PlainJsonL l ↔ ∀ v ∈ l, PlainJson v := by
  induction l with
  | nil => simp [PlainJsonL]
  | cons v l ih => simp only [PlainJsonL, ih, List.forall_mem_cons]

/-- Induction over JSON values. -/
theorem Js.induction {P : Js → Prop} (null : P .null) (bool : ∀ b, P (.bool b)) (num : ∀ f, P (.num f))
    (int : ∀ n, P (.int n)) (str : ∀ s, P (.str s))
    (obj : ∀ m, (∀ p ∈ m, P p.2) → P (.obj m)) (arr : ∀ l, (∀ v ∈ l, P v) → P (.arr l)) : ∀ j, P j := by
  intro j
  refine Js.rec (motive_1 := P) (motive_2 := fun m => ∀ p ∈ m, P p.2) (motive_3 := fun l => ∀ v ∈ l, P v)
    (motive_4 := fun p => P p.2) null bool num int str obj arr ?_ ?_ ?_ ?_ ?_ j
  · intro p h; cases h
  · intro p m hp hm; rw [List.forall_mem_cons]; exact ⟨hp, hm⟩
  · intro p h; cases h
  · intro p m hp hm; rw [List.forall_mem_cons]; exact ⟨hp, hm⟩
  · intro _ _ h; exact h

/-! ### The stamped document -/

theorem stampT_wf (j : Js) : PlainJson j → (stampT j).Wf := by
  induction j using Js.induction with
  | null => intro h; exact h.elim
  | int n => intro h; exact h.elim
  | bool b => intro _; simp [stampT, Tson.Wf]
  | num f => intro _; simp [stampT, Tson.Wf]
  | str s => intro _; simp [stampT, Tson.Wf]
  | obj m ih =>
    intro h
    rw [stampT, stampTF_eq]
    refine ⟨by rw [mkeys_mapV]; exact h.1, (Tson.wfF_iff _).2 ?_⟩
    intro p hp
    unfold mapV at hp
    obtain ⟨q, hq, rfl⟩ := List.mem_map.1 hp
    exact ih q hq ((plainJsonF_iff m).1 h.2 q hq).2
  | arr l ih =>
    intro h
    rw [stampT, stampTL_eq]
    refine (Tson.wfL_iff _).2 ?_
    rw [List.forall_mem_map]
    exact fun v hv => ih v hv ((plainJsonL_iff l).1 h v hv)

theorem stampT_clean (j : Js) : PlainJson j → Clean (stampT j) ∧ NullFree (stampT j) := by
  induction j using Js.induction with
  | null => intro h; exact h.elim
  | int n => intro h; exact h.elim
  | bool b => intro _; exact ⟨⟨trivial, by decide, by decide⟩, trivial⟩
  | num f => intro h; exact ⟨⟨h, by decide, by decide⟩, trivial⟩
  | str s => intro h; exact ⟨⟨h, by decide, by decide⟩, trivial⟩
  | obj m ih =>
    intro h
    have h' := (plainJsonF_iff m).1 h.2
    rw [stampT, stampTF_eq]
    refine ⟨(cleanF_iff _).2 ?_, (nullFreeF_iff _).2 ?_⟩
    · intro p hp
      unfold mapV at hp
      obtain ⟨q, hq, rfl⟩ := List.mem_map.1 hp
      exact ⟨(h' q hq).1, (ih q hq (h' q hq).2).1⟩
    · intro p hp
      unfold mapV at hp
      obtain ⟨q, hq, rfl⟩ := List.mem_map.1 hp
      exact (ih q hq (h' q hq).2).2
  | arr l ih =>
    intro h
    have h' := (plainJsonL_iff l).1 h
    rw [stampT, stampTL_eq]
    refine ⟨(cleanL_iff _).2 ?_, (nullFreeL_iff _).2 ?_⟩
    · rw [List.forall_mem_map]
      exact fun v hv => (ih v hv (h' v hv)).1
    · rw [List.forall_mem_map]
      exact fun v hv => (ih v hv (h' v hv)).2

theorem stampT_nesting (j : Js) : nesting (stampT j) ≤ j.depth + 1 := by
  induction j using Js.induction with
  | null => exact Nat.zero_le _
  | int n => exact Nat.zero_le _
  | bool b => exact Nat.le_refl _
  | num f => exact Nat.le_refl _
  | str s => exact Nat.le_refl _
  | obj m ih =>
    rw [stampT, stampTF_eq, nesting, Js.depth]
    suffices nestingF (mapV stampT m) ≤ Js.depthF m + 1 by omega
    rw [nestingF_le]
    intro p hp
    unfold mapV at hp
    obtain ⟨q, hq, rfl⟩ := List.mem_map.1 hp
    have := ih q hq
    have := (depthF_le (m := m)).1 (Nat.le_refl _) q hq
    simp only; omega
  | arr l ih =>
    rw [stampT, stampTL_eq, nesting, Js.depth]
    suffices nestingL (l.map stampT) ≤ Js.depthL l + 1 by omega
    rw [nestingL_le, List.forall_mem_map]
    intro v hv
    have := ih v hv
    have := (depthL_le (l := l)).1 (Nat.le_refl _) v hv
    omega

/-! ### Import -/

theorem encAny_leaf {p : Prim} (hp : CleanPrim p) (ts : Int) :
    encAny (.obj [(b!"value", primJs p), (b!"timestamp", .int ts)]) =
      .ok (.obj [(b!"timestamp", .int ts), (b!"value", primJs p)]) := by
  rw [encAny, encAnyF, encAny_prim hp, Res.bind_ok, encAnyF, encAny, Res.bind_ok, encAnyF]
  simp only [Res.map_ok]
  have : sortM [(b!"value", primJs p), (b!"timestamp", .int ts)] = [(b!"timestamp", .int ts), (b!"value", primJs p)] :=
    rfl
  rw [this]
  have e1 : sanitize b!"timestamp" = b!"timestamp" := by decide
  have e2 : sanitize b!"value" = b!"value" := by decide
  simp only [List.map_cons, List.map_nil, encKey, e1, e2]

theorem encAny_stamp (j : Js) : PlainJson j → encAny (stampEntry j) = .ok (sortedText (stampT j)) := by
  induction j using Js.induction with
  | null => intro h; exact h.elim
  | int n => intro h; exact h.elim
  | bool b => intro h; exact encAny_leaf (p := .bool b) h (-1)
  | num f => intro h; exact encAny_leaf (p := .num f) h (-1)
  | str s => intro h; exact encAny_leaf (p := .str s) h (-1)
  | obj m ih =>
    intro h
    have h' := (plainJsonF_iff m).1 h.2
    rw [stampEntry, stampAnyF_eq, encAny, encAnyF_ok (g := fun v => sortedText (stampT v))]
    · rw [Res.map_ok, encKey_valid, stampT, stampTF_eq, sortedText, sortedTextF_eq, mapV_mapV]
      exact mapV_keys fun p hp => (h' p hp).1
    · exact fun p hp => ih p hp (h' p hp).2
  | arr l ih =>
    intro h
    have h' := (plainJsonL_iff l).1 h
    rw [stampEntry, stampAnyL_eq, encAny, encAnyL_ok (g := fun v => sortedText (stampT v))]
    · rw [Res.map_ok, stampT, stampTL_eq, sortedText, sortedTextL_eq, List.map_map]; rfl
    · exact fun v hv => ih v hv (h' v hv)

theorem sortedText_depth (t : Tson) : (sortedText t).depth = nesting t := by
  induction t using Tson.induction with
  | null => rfl
  | leaf p ts => simp [sortedText, Js.depth, Js.depthF, primJs_depth, nesting]
  | obj m ih =>
    rw [sortedText, sortedTextF_eq, Js.depth, nesting]
    congr 1
    refine Nat.le_antisymm ?_ ?_
    · rw [depthF_sorted]
      intro p hp; rw [ih p hp]; exact nestingF_le.1 (Nat.le_refl _) p hp
    · rw [nestingF_le]
      intro p hp; rw [← ih p hp]; exact depthF_sorted.1 (Nat.le_refl _) p hp
  | arr l ih =>
    rw [sortedText, sortedTextL_eq, Js.depth, nesting]
    congr 1
    refine Nat.le_antisymm ?_ ?_
    · rw [depthL_le, List.forall_mem_map]
      intro v hv; rw [ih v hv]; exact nestingL_le.1 (Nat.le_refl _) v hv
    · rw [nestingL_le]
      intro v hv; rw [← ih v hv]
      exact depthL_le.1 (Nat.le_refl _) _ (List.mem_map.2 ⟨v, hv, rfl⟩)

theorem decAny_sortedText (t : Tson) : t.Wf → decAny (sortedText t) = sortedCompat t := by
  induction t using Tson.induction with
  | null => intro _; simp [sortedText, sortedCompat, decAny]
  | leaf p ts =>
    intro _
    rw [sortedText, sortedCompat, decAny, decAnyF_eq, fillMap_nodup]
    · simp [mapV, decAny_prim, decAny]
    · rw [mkeys_mapV]; simp only [mkeys, List.map_cons, List.map_nil]; decide
  | obj m ih =>
    intro h
    rw [sortedText, sortedTextF_eq, sortedCompat, sortedCompatF_eq]
    exact decAny_sorted h.1 fun p hp => ih p hp ((Tson.wfF_iff m).1 h.2 p hp)
  | arr l ih =>
    intro h
    rw [sortedText, sortedTextL_eq, sortedCompat, sortedCompatL_eq, decAny, decAnyL_eq, List.map_map]
    congr 1
    exact List.map_congr_left fun v hv => ih v hv ((Tson.wfL_iff l).1 h v hv)

theorem sortedCompat_not_num (t : Tson) : (∀ f, sortedCompat t ≠ .num f) ∧ ∀ n, sortedCompat t ≠ .int n := by
  cases t <;> simp [sortedCompat]

theorem checkLeaf_sortedCompat {m : List (Bytes × Tson)} (hn : (mkeys m).Nodup) :
    checkLeaf (sortM (mapV sortedCompat m)) = none := by
  have hn' : (mkeys (mapV sortedCompat m)).Nodup := by rw [mkeys_mapV]; exact hn
  apply checkLeaf_none
  · intro f h
    rw [mget_sortM hn', mget_mapV, Option.map_eq_some_iff] at h
    obtain ⟨v, -, hv⟩ := h
    exact (sortedCompat_not_num v).1 f hv
  · intro f h
    rw [mget_sortM hn', mget_mapV, Option.map_eq_some_iff] at h
    obtain ⟨v, -, hv⟩ := h
    exact (sortedCompat_not_num v).2 f hv

theorem checkLeaf_leaf' (p : Prim) (f : F64) :
    checkLeaf [(b!"timestamp", .num f), (b!"value", primJs p)] = some (primJs p, f.toInt64) := by
  unfold checkLeaf
  rw [if_pos (by rfl)]
  have h1 : mget [(b!"timestamp", .num f), (b!"value", primJs p)] b!"value" = some (primJs p) := rfl
  have h2 : mget [(b!"timestamp", .num f), (b!"value", primJs p)] b!"timestamp" = some (.num f) := rfl
  rw [h1, h2]

theorem convert_sortedCompat (t : Tson) : NullFree t → Clean t → t.Wf → convert (sortedCompat t) = .ok (sortT t) := by
  induction t using Tson.induction with
  | null => intro h; exact h.elim
  | leaf p ts =>
    intro _ h _
    rw [sortedCompat, convert, checkLeaf_leaf']
    simp only [ofInt_exact h.2.1 h.2.2, mkLeaf_prim, sortT]
  | obj m ih =>
    intro h1 h2 h3
    rw [sortedCompat, sortedCompatF_eq, convert, checkLeaf_sortedCompat h3.1]
    simp only
    rw [sortM_mapV, convertF_ok (g := sortT), Res.map_ok, ← sortM_mapV, sortT, sortTF_eq]
    intro p hp
    have hp := (sortM_perm m).subset hp
    exact ih p hp ((nullFreeF_iff m).1 h1 p hp) ((cleanF_iff m).1 h2 p hp).2 ((Tson.wfF_iff m).1 h3.2 p hp)
  | arr l ih =>
    intro h1 h2 h3
    rw [sortedCompat, sortedCompatL_eq, convert, convertL_ok (g := sortT), Res.map_ok, sortT, sortTL_eq]
    intro v hv
    exact ih v hv ((nullFreeL_iff l).1 h1 v hv) ((cleanL_iff l).1 h2 v hv) ((Tson.wfL_iff l).1 h3 v hv)

theorem fromJson_plain {j : Js} (hj : PlainJson j) (hc : j.IsContainer) (hd : j.depth < 10000) :
    fromJson j = .ok (sortT (stampT j)) := by
  have ha : addTimestamp j = stampEntry j := by
    cases j with
    | obj m => simp [addTimestamp, stampEntry]
    | arr l => simp [addTimestamp, stampEntry]
    | null => exact hc.elim
    | bool b => exact hc.elim
    | num b => exact hc.elim
    | int b => exact hc.elim
    | str b => exact hc.elim
  have hn : nesting (stampT j) ≤ 10000 := Nat.le_trans (stampT_nesting j) hd
  unfold fromJson
  rw [ha, encAny_stamp j hj]
  simp only
  rw [fromCompatible, unmarshalAny, sortedText_depth, if_pos hn, Res.bind_ok, decAny_sortedText _ (stampT_wf j hj),
    convert_sortedCompat _ (stampT_clean j hj).2 (stampT_clean j hj).1 (stampT_wf j hj)]

/-! ### The sorted document -/

theorem mem_sorted {f : α → β} {m : List (Bytes × α)} {p : Bytes × β} (h : p ∈ sortM (mapV f m)) :
    ∃ q ∈ m, p = (q.1, f q.2) := by
  have := (sortM_perm _).subset h
  unfold mapV at this
  obtain ⟨q, hq, rfl⟩ := List.mem_map.1 this
  exact ⟨q, hq, rfl⟩

theorem stamps_sortT_stampT (j : Js) : ∀ n ∈ stamps (sortT (stampT j)), n = -1 := by
  induction j using Js.induction with
  | null => intro n h; simp [stampT, sortT, stamps] at h
  | int n => intro n h; simp [stampT, sortT, stamps] at h
  | bool b => intro n h; simpa [stampT, sortT, stamps] using h
  | num f => intro n h; simpa [stampT, sortT, stamps] using h
  | str s => intro n h; simpa [stampT, sortT, stamps] using h
  | obj m ih =>
    intro n h
    rw [stampT, stampTF_eq, sortT, sortTF_eq, mapV_mapV, stamps, mem_stampsF] at h
    obtain ⟨p, hp, h⟩ := h
    obtain ⟨q, hq, rfl⟩ := mem_sorted hp
    exact ih q hq n h
  | arr l ih =>
    intro n h
    rw [stampT, stampTL_eq, sortT, sortTL_eq, List.map_map, stamps, mem_stampsL] at h
    obtain ⟨v, hv, h⟩ := h
    obtain ⟨q, hq, rfl⟩ := List.mem_map.1 hv
    exact ih q hq n h

theorem sortT_wf (t : Tson) : t.Wf → (sortT t).Wf := by
  induction t using Tson.induction with
  | null => exact id
  | leaf p ts => exact id
  | obj m ih =>
    intro h
    rw [sortT, sortTF_eq]
    refine ⟨sortM_nodup (by rw [mkeys_mapV]; exact h.1), (Tson.wfF_iff _).2 fun p hp => ?_⟩
    obtain ⟨q, hq, rfl⟩ := mem_sorted hp
    exact ih q hq ((Tson.wfF_iff m).1 h.2 q hq)
  | arr l ih =>
    intro h
    rw [sortT, sortTL_eq]
    refine (Tson.wfL_iff _).2 ?_
    rw [List.forall_mem_map]
    exact fun v hv => ih v hv ((Tson.wfL_iff l).1 h v hv)

theorem sortT_clean (t : Tson) : Clean t → Clean (sortT t) := by
  induction t using Tson.induction with
  | null => exact id
  | leaf p ts => exact id
  | obj m ih =>
    intro h
    rw [sortT, sortTF_eq]
    refine (cleanF_iff _).2 fun p hp => ?_
    obtain ⟨q, hq, rfl⟩ := mem_sorted hp
    exact ⟨((cleanF_iff m).1 h q hq).1, ih q hq ((cleanF_iff m).1 h q hq).2⟩
  | arr l ih =>
    intro h
    rw [sortT, sortTL_eq]
    refine (cleanL_iff _).2 ?_
    rw [List.forall_mem_map]
    exact fun v hv => ih v hv ((cleanL_iff l).1 h v hv)

theorem sortT_nesting (t : Tson) : nesting (sortT t) ≤ nesting t := by
  induction t using Tson.induction with
  | null => exact Nat.le_refl _
  | leaf p ts => exact Nat.le_refl _
  | obj m ih =>
    rw [sortT, sortTF_eq, nesting, nesting]
    apply Nat.add_le_add_left
    rw [nestingF_le]
    intro p hp
    obtain ⟨q, hq, rfl⟩ := mem_sorted hp
    exact Nat.le_trans (ih q hq) (nestingF_le.1 (Nat.le_refl _) q hq)
  | arr l ih =>
    rw [sortT, sortTL_eq, nesting, nesting]
    apply Nat.add_le_add_left
    rw [nestingL_le, List.forall_mem_map]
    intro v hv
    exact Nat.le_trans (ih v hv) (nestingL_le.1 (Nat.le_refl _) v hv)

theorem values_sortT (t : Tson) : t.Wf → values (sortT t) = values t := by
  induction t using Tson.induction with
  | null => intro _; rfl
  | leaf p ts => intro _; rfl
  | obj m ih =>
    intro h
    have hn : (mkeys (mapV values m)).Nodup := by rw [mkeys_mapV]; exact h.1
    rw [sortT, sortTF_eq, values, valuesF_eq, values, valuesF_eq, ← sortM_mapV, mapV_mapV,
      mapV_congr fun p hp => ih p hp ((Tson.wfF_iff m).1 h.2 p hp), sortM_idem hn]
  | arr l ih =>
    intro h
    rw [sortT, sortTL_eq, values, valuesL_eq, values, valuesL_eq, List.map_map]
    congr 1
    exact List.map_congr_left fun v hv => ih v hv ((Tson.wfL_iff l).1 h v hv)

theorem sameJsonF_iff (m n : List (Bytes × Js)) :
    SameJsonF m n ↔ ∀ p ∈ m, ∃ w, mget n p.1 = some w ∧ SameJson p.2 w := by
  induction m with
  | nil => simp [SameJsonF]
  | cons p m ih => obtain ⟨k, v⟩ := p; simp only [SameJsonF, ih, List.forall_mem_cons]

theorem sameJson_values (j : Js) : PlainJson j → SameJson j (values (stampT j)) := by
  induction j using Js.induction with
  | null => intro h; exact h.elim
  | int n => intro h; exact h.elim
  | bool b => intro _; simp [stampT, values, primJs, SameJson]
  | num f => intro _; simp [stampT, values, primJs, SameJson]
  | str s => intro _; simp [stampT, values, primJs, SameJson]
  | obj m ih =>
    intro h
    rw [stampT, stampTF_eq, values, valuesF_eq, mapV_mapV]
    refine ⟨by rw [sortM_length, mapV_length], (sameJsonF_iff _ _).2 fun p hp => ?_⟩
    refine ⟨_, ?_, ih p hp ((plainJsonF_iff m).1 h.2 p hp).2⟩
    rw [mget_sortM (by rw [mkeys_mapV]; exact h.1), mget_mapV, mem_mget h.1 (show (p.1, p.2) ∈ m from hp)]; rfl
  | arr l ih =>
    intro h
    have h' := (plainJsonL_iff l).1 h
    rw [stampT, stampTL_eq, values, valuesL_eq, List.map_map]
    show SameJsonL l _
    clear h
    induction l with
    | nil => trivial
    | cons v l ihl =>
      rw [List.forall_mem_cons] at ih h'
      exact ⟨ih.1 h'.1, ihl ih.2 h'.2⟩

theorem toJson_fromJson {j : Js} (hj : PlainJson j) (hc : j.IsContainer) (hd : j.depth < 10000) :
    toJson (sortT (stampT j)) = values (stampT j) := by
  have hw := stampT_wf j hj
  rw [toJson_clean (clean_writable _ (sortT_clean _ (stampT_clean j hj).1)) (sortT_wf _ hw)
    (Nat.le_trans (sortT_nesting _) (Nat.le_trans (stampT_nesting j) hd)), values_sortT _ hw]
  cases j with
  | obj m => simp only [stampT, sortT]; trivial
  | arr l => simp only [stampT, sortT]; trivial
  | null => exact hc.elim
  | bool b => exact hc.elim
  | num b => exact hc.elim
  | int b => exact hc.elim
  | str b => exact hc.elim

theorem decAny_plain (j : Js) : PlainJson j → decAny j = j := by
  induction j using Js.induction with
  | null => intro h; exact h.elim
  | int n => intro h; exact h.elim
  | bool b => intro _; simp [decAny]
  | num f => intro _; simp [decAny]
  | str s => intro _; simp [decAny]
  | obj m ih =>
    intro h
    rw [decAny, decAnyF_eq, mapV_congr (g := id) fun p hp => ih p hp ((plainJsonF_iff m).1 h.2 p hp).2]
    have : mapV id m = m := by simp [mapV]
    rw [this, fillMap_nodup h.1]
  | arr l ih =>
    intro h
    rw [decAny, decAnyL_eq, List.map_congr_left (g := id) fun v hv => ih v hv ((plainJsonL_iff l).1 h v hv)]
    simp

/-! ### nil in a document -/

theorem convertF_ne_err : ∀ {m : List (Bytes × Js)}, (∀ p ∈ m, convert p.2 ≠ .err) → convertF m ≠ .err
  | [], _ => by simp [convertF]
  | (k, v) :: m, h => by
    rw [List.forall_mem_cons] at h
    have := convertF_ne_err h.2
    rw [convertF]
    cases hv : convert v with
    | err => exact absurd hv h.1
    | panic => simp [Res.bind]
    | ok j =>
      rw [Res.bind_ok]
      cases hc : convertF m with
      | err => exact absurd hc this
      | panic => simp [Res.map]
      | ok j => simp [Res.map]

theorem convertL_ne_err : ∀ {l : List Js}, (∀ v ∈ l, convert v ≠ .err) → convertL l ≠ .err
  | [], _ => by simp [convertL]
  | v :: l, h => by
    rw [List.forall_mem_cons] at h
    have := convertL_ne_err h.2
    rw [convertL]
    cases hv : convert v with
    | err => exact absurd hv h.1
    | panic => simp [Res.bind]
    | ok j =>
      rw [Res.bind_ok]
      cases hc : convertL l with
      | err => exact absurd hc this
      | panic => simp [Res.map]
      | ok j => simp [Res.map]

theorem convert_ne_err (j : Js) : convert j ≠ .err := by
  induction j using Js.induction with
  | obj m ih =>
    rw [convert]
    split
    · simp
    · have := convertF_ne_err ih
      cases hc : convertF m <;> simp_all [Res.map]
  | arr l ih =>
    rw [convert]
    have := convertL_ne_err ih
    cases hc : convertL l <;> simp_all [Res.map]
  | null => simp [convert]
  | bool b => simp [convert]
  | num b => simp [convert]
  | int b => simp [convert]
  | str b => simp [convert]

theorem convertF_panic : ∀ {m : List (Bytes × Js)}, (∃ p ∈ m, convert p.2 = .panic) → convertF m = .panic
  | [], h => by simp at h
  | (k, v) :: m, h => by
    rw [convertF]
    cases hv : convert v with
    | err => exact absurd hv (convert_ne_err v)
    | panic => rfl
    | ok j =>
      rw [Res.bind_ok, convertF_panic (m := m)]
      · rfl
      · obtain ⟨p, hp, he⟩ := h
        rcases List.mem_cons.1 hp with rfl | hp
        · simp only at he; rw [hv] at he; cases he
        · exact ⟨p, hp, he⟩

theorem convertL_panic : ∀ {l : List Js}, (∃ v ∈ l, convert v = .panic) → convertL l = .panic
  | [], h => by simp at h
  | v :: l, h => by
    rw [convertL]
    cases hv : convert v with
    | err => exact absurd hv (convert_ne_err v)
    | panic => rfl
    | ok j =>
      rw [Res.bind_ok, convertL_panic (l := l)]
      · rfl
      · obtain ⟨p, hp, he⟩ := h
        rcases List.mem_cons.1 hp with rfl | hp
        · rw [hv] at he; cases he
        · exact ⟨p, hp, he⟩

theorem convert_null (t : Tson) : t.Wf → ¬ NullFree t → convert (compat t) = .panic := by
  induction t using Tson.induction with
  | null => intro _ _; rfl
  | leaf p ts => intro _ h; exact absurd trivial h
  | obj m ih =>
    intro hw h
    have h : ¬ NullFreeF m := h
    rw [nullFreeF_iff] at h
    rw [compat, compatF_eq, convert, checkLeaf_compat hw.1]
    simp only
    have : ∃ p ∈ m, ¬ NullFree p.2 := by
      apply Classical.byContradiction
      intro hn
      exact h fun p hp => Classical.byContradiction fun hc => hn ⟨p, hp, hc⟩
    obtain ⟨p, hp, hn⟩ := this
    rw [convertF_panic]
    · rfl
    · exact ⟨(p.1, compat p.2), (sortM_perm _).symm.subset (List.mem_map.2 ⟨p, hp, rfl⟩),
        ih p hp ((Tson.wfF_iff m).1 hw.2 p hp) hn⟩
  | arr l ih =>
    intro hw h
    have h : ¬ NullFreeL l := h
    rw [nullFreeL_iff] at h
    have : ∃ v ∈ l, ¬ NullFree v := by
      apply Classical.byContradiction
      intro hn
      exact h fun v hv => Classical.byContradiction fun hc => hn ⟨v, hv, hc⟩
    obtain ⟨v, hv, hn⟩ := this
    rw [compat, compatL_eq, convert, convertL_panic]
    · rfl
    · exact ⟨compat v, List.mem_map.2 ⟨v, hv, rfl⟩, ih v hv ((Tson.wfL_iff l).1 hw v hv) hn⟩

end Verif
