import Verif.PropsDiffTimes
/-
C110 with conditions on the documents only.
-/
namespace Verif

/-! ### Specification -/

/-- No member name reads as an index, and arrays hold no objects and arrays. -/
structure WordDoc (t : Tson) : Prop where
  keys : ∀ ks m, Reaches t ks (.obj m) → ∀ k ∈ mkeys m, atoi k = none
  arrays : ∀ ks l, Reaches t ks (.arr l) → ∀ v ∈ l, (∃ p ts, v = .leaf p ts) ∨ v = .null

/-- What is an array stays an array. -/
def ArraysStay (a b : Tson) : Prop := ∀ ks l, Reaches a ks (.arr l) → ∃ k, Reaches b ks (.arr k)

/-- The patches are those generated along a series of documents from `m` to `n`; successive documents differ, have
plain names that do not read as an index, and arrays of leaves that keep their lengths.
[internal/tsonpatch/tsonpatch.go:124-131, 133-140] -/
inductive Series (times : Bool) (m : List (Bytes × Tson)) : List (List Op) → List (Bytes × Tson) → Prop
  | none : Series times m [] m
  | next (ps n k ops) : Series times m ps n → (Tson.obj n).Wf → (Tson.obj k).Wf → PlainDoc (.obj n) → PlainDoc (.obj k) →
      WordDoc (.obj n) → WordDoc (.obj k) → FlatArrays times (.obj n) (.obj k) → ArraysStay (.obj n) (.obj k) →
      (if times then generatePatchWithTimestamp (.obj n) (.obj k) else generatePatch (.obj n) (.obj k)) = .ok ops →
      ops ≠ [] → Series times m (ps ++ [ops]) k

/-! ### Lemmas -/

theorem FlatArrays.sameLengths {wt : Bool} {a b : Tson} (h : FlatArrays wt a b) : SameLengths a b := by
  intro ks l k h1 h2
  rcases h ks l k h1 h2 with h | h
  · cases h with
    | arr _ _ e _ => exact e
  · exact h.1

theorem PlainDoc.named {t : Tson} (h : PlainDoc t) : Named t :=
  ⟨fun ks m hm k hk => (h.keys ks m hm k hk).1, h.arrays⟩

theorem WordDoc.member {m : List (Bytes × Tson)} (h : WordDoc (.obj m)) {k : Bytes} {c : Tson} (hc : mget m k = some c) :
    WordDoc c :=
  ⟨fun ks m' hm => h.keys (k :: ks) m' (.member _ _ _ _ _ hc hm), fun ks l hl => h.arrays (k :: ks) l (.member _ _ _ _ _ hc hl)⟩

/-- A location in such a document consists of names, but for an index at the end. -/
theorem Reaches.words {t u : Tson} {ks : List Bytes} (h : Reaches t ks u) : WordDoc t →
    (∀ seg ∈ ks, atoi seg = none) ∨
    ∃ init k l, ks = init ++ [k] ∧ (∀ seg ∈ init, atoi seg = none) ∧ Reaches t init (.arr l) ∧
      ∃ i : Nat, atoi k = some (i : Int) ∧ i < l.length := by
  induction h with
  | here t => intro _; exact Or.inl (by simp)
  | member m k ks c t hc h ih =>
    intro hw
    have hk : atoi k = none := hw.keys [] m (.here _) k (mget_isSome.1 ⟨c, hc⟩)
    rcases ih (hw.member hc) with h1 | ⟨init, k', l, rfl, h1, h2, h3⟩
    · refine Or.inl fun seg hs => ?_
      rcases List.mem_cons.1 hs with rfl | hs
      · exact hk
      · exact h1 seg hs
    · refine Or.inr ⟨k :: init, k', l, rfl, fun seg hs => ?_, .member _ _ _ _ _ hc h2, h3⟩
      rcases List.mem_cons.1 hs with rfl | hs
      · exact hk
      · exact h1 seg hs
  | element l k ks i c t hk hc h ih =>
    intro hw
    have hl : i < l.length := (List.getElem?_eq_some_iff.1 hc).1
    have hks : ks = [] := by
      rcases hw.arrays [] l (.here _) c (List.mem_of_getElem? hc) with ⟨p, ts, rfl⟩ | rfl
      · cases h; rfl
      · cases h; rfl
    subst hks
    exact Or.inr ⟨[], k, l, rfl, by simp, .here _, i, hk, hl⟩

theorem Reaches.append {t u w : Tson} {ks ls : List Bytes} (h : Reaches t ks u) (h' : Reaches u ls w) :
    Reaches t (ks ++ ls) w := by
  induction h with
  | here t => exact h'
  | member m k ks c t hc _ ih => exact .member _ _ _ _ _ hc (ih h')
  | element l k ks i c t hk hc _ ih => exact .element _ _ _ _ _ _ hk hc (ih h')

theorem GoValue.writes {v : GVal} {p : Prim} (h : GoValue v p) : Writes v p := by cases h <;> constructor

/-- The operations generated for such documents. -/
theorem generated_elem {wt : Bool} {m n : List (Bytes × Tson)} (ha : (Tson.obj m).Wf) (hb : (Tson.obj n).Wf)
    (hpa : PlainDoc (.obj m)) (hpb : PlainDoc (.obj n)) (hwa : WordDoc (.obj m)) (hwb : WordDoc (.obj n))
    (hfl : FlatArrays wt (.obj m) (.obj n)) (hst : ArraysStay (.obj m) (.obj n)) {ops : List Op}
    (h : handleValues wt (.obj m) (.obj n) [] = .ok ops) : ∀ o ∈ ops, ElemOp o ∧ ElemOp (stripSlash o) := by
  intro o ho
  obtain ⟨L, -, h1, -, -⟩ := handleValues_run (.obj n) rfl ha hb hpa hpb hfl (by simp [GoodPath]) h
  rw [← h1.1] at ho
  obtain ⟨x, hx, rfl⟩ := List.mem_map.1 ho
  obtain ⟨e1, e2, e3⟩ := h1.2 x hx
  rw [List.nil_append] at e3
  have hd : Describes wt (.obj m) (.obj n) x.1 x.2 := by
    obtain ⟨L', g1, -, g3⟩ := handleValues_located wt (.obj n) ha hb hpa.named hpb.named hfl.sameLengths (by simp [GoodPath]) h
    have hx2 : x.2 ∈ L'.map Prod.snd := by rw [g1, ← h1.1]; exact List.mem_map_of_mem hx
    obtain ⟨y, hy, hyx⟩ := List.mem_map.1 hx2
    obtain ⟨f1, f2⟩ := g3 y hy
    rw [hyx] at f1 f2
    have : x.1 = y.1 := pointer_injective (by rw [← e3, f1]; simp)
    rw [this]; exact f2
  have hs : ∀ k ∈ x.1, bSlash ∉ k := fun k hk => (e2 k hk).2.1
  have hdot : ∀ k ∈ x.1, bDot ∉ k := fun k hk => (e2 k hk).2.2
  have w1 : writeParts x.2.path = [] :: x.1 := by rw [e3]; exact writeParts_pointer_slash x.1 hs hdot
  have w2 : writeParts (stripSlash x.2).path = x.1 := by
    show writeParts x.2.path.tail = x.1
    rw [e3]; exact writeParts_pointer x.1 e1 hs hdot
  have hnil : atoi [] = none := by decide
  have hset : (x.2.kind = .add ∨ x.2.kind = .replace) → (∃ p, Writes x.2.value p) →
      (∃ u, Reaches (.obj n) x.1 u) → ElemOp x.2 ∧ ElemOp (stripSlash x.2) := by
    intro hk hv ⟨u, hu⟩
    have hq : ∀ seg ∈ x.1.dropLast, atoi seg = none := by
      rcases hu.words hwb with h | ⟨init, k, l, e, h, -⟩
      · exact fun seg hseg => h seg (List.dropLast_subset _ hseg)
      · rw [e, List.dropLast_concat]; exact h
    refine ⟨Or.inl ⟨hk, hv, ?_⟩, Or.inl ⟨hk, hv, by rw [w2]; exact hq⟩⟩
    rw [w1, List.dropLast_cons_of_ne_nil e1]
    intro seg hseg
    rcases List.mem_cons.1 hseg with rfl | hseg
    · exact hnil
    · exact hq seg hseg
  cases hd with
  | add p hk hr hv _ => exact hset (Or.inl hk) ⟨p, hv.writes⟩ ⟨_, hr⟩
  | replace u p hk _ hr hv _ => exact hset (Or.inr hk) ⟨p, hv.writes⟩ ⟨_, hr⟩
  | remove u hk hv hr hn =>
    have hq : ∀ seg ∈ x.1, atoi seg = none := by
      rcases hr.words hwa with h | ⟨init, k, l, e, h, hl, i, hi, hlt⟩
      · exact h
      · obtain ⟨l', hl'⟩ := hst init l hl
        have hlen := hfl.sameLengths init l l' hl hl'
        have hi' : i < l'.length := by omega
        exact absurd (hl'.append (.element l' k [] i _ _ hi (List.getElem?_eq_getElem hi') (.here _)))
          (by rw [← e]; exact hn _)
    refine ⟨Or.inr ⟨hk, hv, ?_⟩, Or.inr ⟨hk, hv, by rw [w2]; exact hq⟩⟩
    rw [w1]
    intro seg hseg
    rcases List.mem_cons.1 hseg with rfl | hseg
    · exact hnil
    · exact hq seg hseg

theorem Series.differences {m n : List (Bytes × Tson)} {ps : List (List Op)} (h : Series false m ps n) :
    Differences m (ps.map (·.map stripSlash)) n := by
  induction h with
  | none => exact .none
  | next ps n k ops _ h1 h2 h3 h4 h5 h6 h7 h8 h9 h10 ih =>
    have hg : generatePatch (.obj n) (.obj k) = .ok ops := by simpa using h9
    rw [List.map_append]
    refine .next _ n k ops ih h1 h2 h3 h4 h7 hg h10 fun o ho => ?_
    obtain ⟨y, hy, rfl⟩ := List.mem_map.1 ho
    exact (generated_elem h1 h2 h3 h4 h5 h6 h7 h8 hg y hy).2

theorem Series.generated {m n : List (Bytes × Tson)} {ps : List (List Op)} (h : Series false m ps n) :
    Generated m ps n := by
  induction h with
  | none => exact .none
  | next ps n k ops _ h1 h2 h3 h4 h5 h6 h7 h8 h9 h10 ih =>
    have hg : generatePatch (.obj n) (.obj k) = .ok ops := by simpa using h9
    exact .next _ n k ops ih h1 h2 h3 h4 h7 hg h10 fun o ho => (generated_elem h1 h2 h3 h4 h5 h6 h7 h8 hg o ho).1

theorem Series.times {m n : List (Bytes × Tson)} {ps : List (List Op)} (h : Series true m ps n) :
    GeneratedTimes m ps n := by
  induction h with
  | none => exact .none
  | next ps n k ops _ h1 h2 h3 h4 h5 h6 h7 h8 h9 h10 ih =>
    have hg : generatePatchWithTimestamp (.obj n) (.obj k) = .ok ops := by simpa using h9
    exact .next _ n k ops ih h1 h2 h3 h4 h7 hg h10 (generated_elem h1 h2 h3 h4 h5 h6 h7 h8 hg)

/-! ### C110 -/

/-- C110 with conditions on the documents only: a logument of the first document of a series, fed with the generated
patches without leading separators, shows at each version the values of that version's document; held below an empty
name and fed with the patches as generated, it shows them below the empty name.  Missing: the patches as generated
for the documents themselves (`C110_generated_violated`), and the documents `Series` leaves out. -/
theorem C110_series_partial {m n : List (Bytes × Tson)} (hw : (Tson.obj m).Wf) (h : Heap) (ps : List (List Op))
    {v : Nat} (hv : v ≤ ps.length) (hd : Series false m (ps.take v) n) :
    (∃ d t, ((run (newLogument h (.obj m) none).1 (feed (ps.map (·.map stripSlash)))).snapshot v).2 = .ok d ∧
      ((run (newLogument h (.obj m) none).1 (feed (ps.map (·.map stripSlash)))).snapshot v).1.heap.view d = some t ∧
      SameVals t (.obj n)) ∧
    ∃ d t, ((run (newLogument h (.obj [([], .obj m)]) none).1 (feed ps)).snapshot v).2 = .ok d ∧
      ((run (newLogument h (.obj [([], .obj m)]) none).1 (feed ps)).snapshot v).1.heap.view d = some t ∧
      SameVals t (.obj [([], .obj n)]) :=
  ⟨C110_snapshot_partial hw h (ps.map (·.map stripSlash)) (v := v) (by simpa using hv)
    (by rw [← List.map_take]; exact hd.differences), C110_below_partial hw h ps hv hd.generated⟩

/-- The same for `GeneratePatchWithTimestamp`, with timestamps.  Missing as in `C110_series_partial`
(`C110_times_violated`). -/
theorem C110_series_times_partial {m n : List (Bytes × Tson)} (hw : (Tson.obj m).Wf) (h : Heap) (ps : List (List Op))
    {v : Nat} (hv : v ≤ ps.length) (hd : Series true m (ps.take v) n) :
    (∃ d t, ((run (newLogument h (.obj m) none).1 (feed (ps.map (·.map stripSlash)))).snapshot v).2 = .ok d ∧
      ((run (newLogument h (.obj m) none).1 (feed (ps.map (·.map stripSlash)))).snapshot v).1.heap.view d = some t ∧
      SameContent true t (.obj n)) ∧
    ∃ d t, ((run (newLogument h (.obj [([], .obj m)]) none).1 (feed ps)).snapshot v).2 = .ok d ∧
      ((run (newLogument h (.obj [([], .obj m)]) none).1 (feed ps)).snapshot v).1.heap.view d = some t ∧
      SameContent true t (.obj [([], .obj n)]) :=
  ⟨C110_times_series_partial hw h ps hv hd.times, C110_times_below_partial hw h ps hv hd.times⟩

/-- An object of leaves whose names do not read as an index. -/
theorem word_of_leaves {m : List (Bytes × Tson)} (h : ∀ x ∈ m, (∃ p ts, x.2 = .leaf p ts) ∧ atoi x.1 = none) :
    WordDoc (.obj m) ∧ ∀ ks l, ¬ Reaches (.obj m) ks (.arr l) := by
  have low : ∀ c ks u, Reaches (.obj m) (c :: ks) u → ks = [] ∧ ∃ p ts, u = .leaf p ts := by
    intro c ks u hr
    obtain ⟨v, hv, hr⟩ := reaches_obj.1 hr
    obtain ⟨⟨p, ts, e⟩, -⟩ := h _ (mget_mem hv)
    dsimp only at e
    subst e
    cases hr
    exact ⟨rfl, p, ts, rfl⟩
  have noarr : ∀ ks l, ¬ Reaches (.obj m) ks (.arr l) := by
    intro ks l hr
    cases ks with
    | nil => cases hr
    | cons c ks => obtain ⟨-, p, ts, e⟩ := low c ks _ hr; cases e
  refine ⟨⟨fun ks m' hr k hk => ?_, fun ks l hr => absurd hr (noarr ks l)⟩, noarr⟩
  cases ks with
  | nil =>
    cases hr
    obtain ⟨v, hv⟩ := mget_isSome.2 hk
    exact (h _ (mget_mem hv)).2
  | cons c ks => obtain ⟨-, p, ts, e⟩ := low c ks _ hr; cases e

theorem ser_series (wt : Bool) : Series wt serA [serAB, serBC] serC := by
  have wA := word_of_leaves (m := serA) (by simp [serA]; decide)
  have wB := word_of_leaves (m := serB) (by simp [serB]; decide)
  have wC := word_of_leaves (m := serC) (by simp [serC]; decide)
  exact .next [serAB] serB serC serBC (.next [] serA serB serAB .none serA_wf serB_wf (.of_check (by decide))
      (.of_check (by decide)) wA.1 wB.1 (fun ks l k h => absurd h (wA.2 ks l)) (fun ks l h => absurd h (wA.2 ks l))
      (by cases wt <;> decide) (by decide))
    serB_wf serC_wf (.of_check (by decide)) (.of_check (by decide)) wB.1 wC.1 (fun ks l k h => absurd h (wB.2 ks l))
    (fun ks l h => absurd h (wB.2 ks l)) (by cases wt <;> decide) (by decide)

example : ∃ d t, ((run (newLogument [] (.obj [([], .obj serA)]) none).1 (feed [serAB, serBC])).snapshot 2).2 = .ok d ∧
    ((run (newLogument [] (.obj [([], .obj serA)]) none).1 (feed [serAB, serBC])).snapshot 2).1.heap.view d = some t ∧
    SameVals t (.obj [([], .obj serC)]) :=
  (C110_series_partial serA_wf [] [serAB, serBC] (v := 2) (by decide) (ser_series false)).2

example : ∃ d t, ((run (newLogument [] (.obj [([], .obj serA)]) none).1 (feed [serAB, serBC])).snapshot 2).2 = .ok d ∧
    ((run (newLogument [] (.obj [([], .obj serA)]) none).1 (feed [serAB, serBC])).snapshot 2).1.heap.view d = some t ∧
    SameContent true t (.obj [([], .obj serC)]) :=
  (C110_series_times_partial serA_wf [] [serAB, serBC] (v := 2) (by decide) (ser_series true)).2

end Verif
