import Verif.PropsDiffRaw
/-
C110 with timestamps, for series of documents of any length.
-/
namespace Verif

/-! ### Specification -/

/-- The patches are those of `GeneratePatchWithTimestamp` along a series of documents from `m` to `n`; successive
documents differ, have plain keys, and only arrays of leaves of the same length differ.
[internal/tsonpatch/tsonpatch.go:133-140] -/
inductive GeneratedTimes (m : List (Bytes × Tson)) : List (List Op) → List (Bytes × Tson) → Prop
  | none : GeneratedTimes m [] m
  | next (ps n k ops) : GeneratedTimes m ps n → (Tson.obj n).Wf → (Tson.obj k).Wf → PlainDoc (.obj n) →
      PlainDoc (.obj k) → FlatArrays true (.obj n) (.obj k) → generatePatchWithTimestamp (.obj n) (.obj k) = .ok ops →
      ops ≠ [] → (∀ o ∈ ops, ElemOp o ∧ ElemOp (stripSlash o)) → GeneratedTimes m (ps ++ [ops]) k

/-! ### Lemmas -/

theorem samePrim_symm {p q : Prim} (h : p = q ∨ EqPrim p q) : q = p ∨ EqPrim q p := by
  rcases h with rfl | h
  · exact Or.inl rfl
  · cases h with
    | str s => exact Or.inl rfl
    | num a b h => exact Or.inr (.num _ _ (by rw [F64.feq_symm]; exact h))
    | bool b => exact Or.inl rfl

theorem samePrim_trans {p q r : Prim} (h : p = q ∨ EqPrim p q) (h' : q = r ∨ EqPrim q r) : p = r ∨ EqPrim p r := by
  rcases h with rfl | h
  · exact h'
  · rcases h' with rfl | h'
    · exact Or.inr h
    · cases h with
      | str s => exact Or.inr h'
      | bool b => exact Or.inr h'
      | num a b h =>
        cases h' with
        | num _ c h' => exact Or.inr (.num _ _ (F64.feq_trans h h'))

theorem SameContent.mset {wt : Bool} {m m' : List (Bytes × Tson)} {c c' : Tson} (h : SameContent wt (.obj m) (.obj m'))
    (hc : SameContent wt c c') (k : Bytes) : SameContent wt (.obj (mset m k c)) (.obj (mset m' k c')) := by
  cases h with
  | obj _ _ h1 h2 =>
    refine .obj _ _ (fun k' => ?_) fun k' d d' hd hd' => ?_
    · rw [mget_mset, mget_mset]; split <;> simp [h1 k']
    · rw [mget_mset] at hd hd'
      by_cases hk : k' = k
      · simp [hk] at hd hd'; rw [← hd, ← hd']; exact hc
      · simp [hk] at hd hd'; exact h2 k' d d' hd hd'

theorem SameContent.mdel {wt : Bool} {m m' : List (Bytes × Tson)} (h : SameContent wt (.obj m) (.obj m')) (k : Bytes) :
    SameContent wt (.obj (mdel m k)) (.obj (mdel m' k)) := by
  cases h with
  | obj _ _ h1 h2 =>
    refine .obj _ _ (fun k' => ?_) fun k' d d' hd hd' => ?_
    · by_cases hk : k' = k
      · subst hk; rw [mget_mdel_self, mget_mdel_self]
      · rw [mget_mdel_ne _ hk, mget_mdel_ne _ hk]; exact h1 k'
    · by_cases hk : k' = k
      · subst hk; rw [mget_mdel_self] at hd; simp at hd
      · rw [mget_mdel_ne _ hk] at hd hd'; exact h2 k' d d' hd hd'

theorem SameContent.get {wt : Bool} {m m' : List (Bytes × Tson)} (h : SameContent wt (.obj m) (.obj m')) {k : Bytes} {c' : Tson}
    (hc : mget m' k = some c') : ∃ c, mget m k = some c ∧ SameContent wt c c' := by
  cases h with
  | obj _ _ h1 h2 =>
    have := h1 k
    rw [hc] at this
    cases hq : mget m k with
    | none => rw [hq] at this; simp at this
    | some c => exact ⟨c, rfl, h2 k c c' hq hc⟩

theorem SameContent.get_none {wt : Bool} {m m' : List (Bytes × Tson)} (h : SameContent wt (.obj m) (.obj m')) {k : Bytes}
    (hc : mget m k = none) : mget m' k = none := by
  cases h with
  | obj _ _ h1 h2 =>
    have := h1 k
    rw [hc] at this
    cases hq : mget m' k with
    | none => rfl
    | some c => rw [hq] at this; simp at this

theorem SameContent.extend_set {wt : Bool} {l l' : List Tson} (h : SameContent wt (.arr l) (.arr l')) (i : Nat) (c : Tson) :
    SameContent wt (.arr ((extendT l (i + 1)).set i c)) (.arr ((extendT l' (i + 1)).set i c)) := by
  cases h with
  | arr _ _ h1 h2 =>
    refine .arr _ _ (by simp only [List.length_set, extendT_length, h1]) fun j d d' hd hd' => ?_
    by_cases hij : i = j
    · subst hij
      rw [List.getElem?_set_self (by rw [extendT_length]; omega)] at hd hd'
      cases hd; cases hd'; exact .refl _
    · rw [List.getElem?_set_ne hij] at hd hd'
      unfold extendT at hd hd'
      rcases Nat.lt_or_ge j l.length with hj | hj
      · rw [List.getElem?_append_left hj] at hd
        rw [List.getElem?_append_left (by omega)] at hd'
        exact h2 j d d' hd hd'
      · rw [List.getElem?_append_right hj] at hd
        rw [List.getElem?_append_right (by omega)] at hd'
        have e1 := List.eq_of_mem_replicate (List.mem_of_getElem? hd)
        have e2 := List.eq_of_mem_replicate (List.mem_of_getElem? hd')
        rw [e1, e2]; exact .null

theorem SameContent.symm {wt : Bool} {t u : Tson} (h : SameContent wt t u) : SameContent wt u t := by
  induction h with
  | null => exact .null
  | leaf p q a b h e => exact .leaf _ _ _ _ (samePrim_symm h) fun hw => (e hw).symm
  | obj m m' h1 h2 ih => exact .obj _ _ (fun k => (h1 k).symm) fun k c c' hc hc' => ih k c' c hc' hc
  | arr l l' h1 h2 ih => exact .arr _ _ h1.symm fun i c c' hc hc' => ih i c' c hc' hc

theorem SameContent.applyIn {wt : Bool} {op : Op} (ps : List Bytes) (hne : ps ≠ []) (hp : PlainAt op ps) :
    ∀ {m m' o t'}, SameContent wt (.obj m) (.obj m') → Verif.applyT (.obj m) ps op = (o, .ok t') →
    ∃ o' u', Verif.applyT (.obj m') ps op = (o', .ok u') ∧ SameContent wt t' u' := by
  induction ps with
  | nil => exact absurd rfl hne
  | cons k ps ih =>
    intro m m' o t' hst ha
    cases ps with
    | nil =>
      rcases hp with ⟨hc, ⟨q, hv⟩, -⟩ | ⟨hc, -⟩
      · simp only [Verif.applyT, hc, hv, Prod.mk.injEq, Res.ok.injEq] at ha ⊢
        rw [← ha.2]
        exact ⟨_, _, ⟨rfl, rfl⟩, hst.mset (SameContent.refl _) k⟩
      · simp only [Verif.applyT, hc, Prod.mk.injEq, Res.ok.injEq] at ha ⊢
        rw [← ha.2]
        exact ⟨_, _, ⟨rfl, rfl⟩, hst.mdel k⟩
    | cons p ps =>
      obtain ⟨c, hb, rfl⟩ := below_of_ok hp ha
      have hold : ∀ old, mget m k = old → (old = none ∨ old = some .null) →
          (mget m' k = none ∨ mget m' k = some .null) := by
        intro old hg ho
        rcases ho with rfl | rfl
        · exact Or.inl (hst.get_none hg)
        · obtain ⟨c', h1, h2⟩ := hst.symm.get hg
          cases h2
          exact Or.inr h1
      have hb' : ∃ c', BelowAt op p ps (mget m' k) c' ∧ SameContent wt c c' := by
        generalize hg : mget m k = old at hb
        cases hb with
        | obj mb o' _ h =>
          obtain ⟨d, h1, h2⟩ := hst.symm.get hg
          have h2' := h2
          cases h2 with
          | obj md _ _ _ =>
            obtain ⟨o2, u2, h3, h4⟩ := ih (by simp) hp.tail h2'.symm h
            exact ⟨u2, by rw [h1]; exact .obj md o2 u2 h3, h4⟩
        | new _ o' _ ho hc hi h => exact ⟨c, .new _ o' c (hold old hg ho) hc hi h, .refl _⟩
        | elem _ l q i ho hc hq hps hi =>
          rcases ho with rfl | ⟨ho, rfl⟩
          · obtain ⟨d, h1, h2⟩ := hst.symm.get hg
            have h2' := h2
            cases h2 with
            | arr ld _ _ _ =>
              exact ⟨_, by rw [h1]; exact .elem _ ld q i (Or.inl rfl) hc hq hps hi, h2'.symm.extend_set i _⟩
          · exact ⟨_, .elem _ [] q i (Or.inr ⟨hold old hg ho, rfl⟩) hc hq hps hi, .refl _⟩
      obtain ⟨c', hb', hs'⟩ := hb'
      obtain ⟨o2, h2⟩ := ok_of_below hb'
      exact ⟨o2, _, h2, hst.mset hs' k⟩

theorem SameContent.trans {wt : Bool} {t u : Tson} (h : SameContent wt t u) : ∀ {w}, SameContent wt u w → SameContent wt t w := by
  induction h with
  | null => intro w h; exact h
  | leaf p q a b h f =>
    intro w h'
    cases h' with
    | leaf _ r _ c e g => exact .leaf _ _ _ _ (samePrim_trans h e) fun hw => (f hw).trans (g hw)
  | obj m m' h1 h2 ih =>
    intro w h'
    have hw := h'
    cases h' with
    | obj _ m'' e1 e2 =>
      refine .obj _ _ (fun k => (h1 k).trans (e1 k)) fun k c c'' hc hc'' => ?_
      obtain ⟨c', hc', e⟩ := hw.get hc''
      exact ih k c c' hc hc' e
  | arr l l' h1 h2 ih =>
    intro w h'
    cases h' with
    | arr _ l'' e1 e2 =>
      refine .arr _ _ (h1.trans e1) fun i c c'' hc hc'' => ?_
      have hi : i < l'.length := by
        have := (List.getElem?_eq_some_iff.1 hc).1
        omega
      have hc' : l'[i]? = some l'[i] := List.getElem?_eq_getElem hi
      exact ih i c _ hc hc' (e2 i _ _ hc' hc'')

theorem SameContent.replayIn {wt : Bool} (ops : List Op) : ∀ {m m' : List (Bytes × Tson)} {t : Tson}, (∀ o ∈ ops, ElemOp o) →
    (Tson.obj m).Wf → (Tson.obj m').Wf → SameContent wt (.obj m) (.obj m') → replay (.obj m) ops = .ok t →
    ∃ u, replay (.obj m') ops = .ok u ∧ SameContent wt t u := by
  induction ops with
  | nil =>
    intro m m' t _ _ _ hs h
    simp only [replay, Res.ok.injEq] at h
    subst h
    exact ⟨_, rfl, hs⟩
  | cons op ops ih =>
    intro m m' t hel hw hw' hs h
    simp only [replay, applyDoc_eq hw, applyDoc_eq hw'] at h ⊢
    rcases hT : applyOpT (.obj m) op with ⟨o, r⟩
    rw [hT] at h
    cases r with
    | err => simp [Res.bind] at h
    | panic => simp [Res.bind] at h
    | ok t1 =>
      obtain ⟨o', u1, hU, hs1⟩ := SameContent.applyIn _ (split_ne_nil' op.path) (hel op (by simp)).plainAt hs hT
      have hU' : applyOpT (.obj m') op = (o', .ok u1) := hU
      obtain ⟨m1, rfl⟩ := applyT_obj_res hT
      obtain ⟨m2, rfl⟩ := applyT_obj_res hU
      rw [hU']
      exact ih (fun o ho => hel o (by simp [ho])) (applyOpT_wf hw op (by rw [hT])) (applyOpT_wf hw' op (by rw [hU'])) hs1 h

theorem GeneratedTimes.replay {m n : List (Bytes × Tson)} {ps : List (List Op)} (h : GeneratedTimes m ps n)
    (hw : (Tson.obj m).Wf) :
    ∃ t, Verif.replay (.obj m) (ps.map (·.map stripSlash)).flatten = .ok t ∧ SameContent true t (.obj n) := by
  induction h with
  | none => exact ⟨_, rfl, .refl _⟩
  | next ps n k ops _ h1 h2 h3 h4 h5 h6 h7 h8 ih =>
    obtain ⟨t, ht, hs⟩ := ih
    obtain ⟨⟨mt, rfl⟩, hwt⟩ := replay_obj hw ht
    obtain ⟨u, hu, hsu⟩ := C31_times_partial h1 h2 h3 h4 h5 h6 h7
    rw [C27_sequential n h1 _ (by simpa using h7)] at hu
    have h9 : ∀ o ∈ ops.map stripSlash, ElemOp o := by
      intro o ho
      obtain ⟨x, hx, rfl⟩ := List.mem_map.1 ho
      exact (h8 x hx).2
    obtain ⟨u', hu', hs'⟩ := SameContent.replayIn _ h9 h1 hwt hs.symm hu
    refine ⟨u', ?_, hs'.symm.trans hsu⟩
    rw [List.map_append, List.flatten_append, replay_append, ht]
    simpa [Res.bind] using hu'

theorem GeneratedTimes.replay_below {m n : List (Bytes × Tson)} {ps : List (List Op)} (h : GeneratedTimes m ps n)
    (hw : (Tson.obj m).Wf) :
    ∃ t, Verif.replay (.obj [([], .obj m)]) ps.flatten = .ok t ∧ SameContent true t (.obj [([], .obj n)]) := by
  induction h with
  | none => exact ⟨_, rfl, .refl _⟩
  | next ps n k ops _ h1 h2 h3 h4 h5 h6 h7 h8 ih =>
    obtain ⟨t, ht, hs⟩ := ih
    obtain ⟨⟨mt, rfl⟩, hwt⟩ := replay_obj (wf_below hw) ht
    obtain ⟨u, hu, hsu⟩ := C31_below_times_partial h1 h2 h3 h4 h5 h6 h7
    rw [C27_sequential _ (wf_below h1) _ h7] at hu
    obtain ⟨u', hu', hs'⟩ := SameContent.replayIn _ (fun o ho => (h8 o ho).1) (wf_below h1) hwt hs.symm hu
    refine ⟨u', ?_, hs'.symm.trans hsu⟩
    rw [List.flatten_append, replay_append, ht]
    simpa [Res.bind] using hu'

theorem GeneratedTimes.last_ne {m n : List (Bytes × Tson)} {ps : List (List Op)} (h : GeneratedTimes m ps n) :
    ps.getLast? ≠ some [] := by
  cases h with
  | none => simp
  | next ps n k ops _ h1 h2 h3 h4 h5 h6 h7 h8 => simpa using h7

/-! ### C110 -/

/-- C110 for the patches of `GeneratePatchWithTimestamp` along a series of documents, with the leading separators
dropped: the snapshots have the values and the timestamps of the documents.  Missing as in `C110_snapshot_partial`
(`C110_times_violated`). -/
theorem C110_times_series_partial {m n : List (Bytes × Tson)} (hw : (Tson.obj m).Wf) (h : Heap) (ps : List (List Op))
    {v : Nat} (hv : v ≤ ps.length) (hd : GeneratedTimes m (ps.take v) n) :
    ∃ d t, ((run (newLogument h (.obj m) none).1 (feed (ps.map (·.map stripSlash)))).snapshot v).2 = .ok d ∧
      ((run (newLogument h (.obj m) none).1 (feed (ps.map (·.map stripSlash)))).snapshot v).1.heap.view d = some t ∧
      SameContent true t (.obj n) := by
  obtain ⟨t, ht, hs⟩ := hd.replay hw
  have hl : ((ps.map (·.map stripSlash)).take v).getLast? ≠ some [] := by
    rw [← List.map_take, List.getLast?_map]
    intro hc
    obtain ⟨x, hx, hx'⟩ := Option.map_eq_some_iff.1 hc
    rw [List.map_eq_nil_iff] at hx'
    subst hx'
    exact hd.last_ne hx
  obtain ⟨d, h1, h2⟩ := feed_snapshot hw h (ps.map (·.map stripSlash)) (v := v) (by simpa using hv) hl
    (by rw [← List.map_take]; exact ht)
  exact ⟨d, t, h1, h2, hs⟩

/-- C110 for the patches of `GeneratePatchWithTimestamp` as they are and a logument that holds the first document below
an empty name, with timestamps.  Missing as in `C110_below_partial`. -/
theorem C110_times_below_partial {m n : List (Bytes × Tson)} (hw : (Tson.obj m).Wf) (h : Heap) (ps : List (List Op))
    {v : Nat} (hv : v ≤ ps.length) (hd : GeneratedTimes m (ps.take v) n) :
    ∃ d t, ((run (newLogument h (.obj [([], .obj m)]) none).1 (feed ps)).snapshot v).2 = .ok d ∧
      ((run (newLogument h (.obj [([], .obj m)]) none).1 (feed ps)).snapshot v).1.heap.view d = some t ∧
      SameContent true t (.obj [([], .obj n)]) := by
  obtain ⟨t, ht, hs⟩ := hd.replay_below hw
  obtain ⟨d, h1, h2⟩ := feed_snapshot (wf_below hw) h ps hv hd.last_ne ht
  exact ⟨d, t, h1, h2, hs⟩

theorem flat_of_leaves_times {m n : List (Bytes × Tson)} (h : ∀ x ∈ m, ∃ p ts, x.2 = .leaf p ts) :
    FlatArrays true (.obj m) (.obj n) := by
  intro ks l k h1 _
  cases ks with
  | nil => cases h1
  | cons c ks =>
    obtain ⟨v, hv, h1⟩ := reaches_obj.1 h1
    obtain ⟨p, ts, e⟩ := h _ (mget_mem hv)
    dsimp only at e
    subst e
    cases h1

theorem ser_times : GeneratedTimes serA [serAB, serBC] serC := by
  refine .next [serAB] serB serC serBC (.next [] serA serB serAB .none serA_wf serB_wf
    (.of_check (by decide)) (.of_check (by decide)) (flat_of_leaves_times (by simp [serA])) (by decide) (by decide) ?_)
    serB_wf serC_wf (.of_check (by decide)) (.of_check (by decide)) (flat_of_leaves_times (by simp [serB]))
    (by decide) (by decide) ?_
  all_goals
    intro o ho
    simp only [serAB, serBC, List.mem_cons, List.not_mem_nil, or_false] at ho
    rcases ho with rfl | rfl
  · exact ⟨Or.inl ⟨by decide, ⟨_, .bool _⟩, by decide⟩, Or.inl ⟨by decide, ⟨_, .bool _⟩, by decide⟩⟩
  · exact ⟨Or.inl ⟨by decide, ⟨_, .str _⟩, by decide⟩, Or.inl ⟨by decide, ⟨_, .str _⟩, by decide⟩⟩
  · exact ⟨Or.inl ⟨by decide, ⟨_, .str _⟩, by decide⟩, Or.inl ⟨by decide, ⟨_, .str _⟩, by decide⟩⟩
  · exact ⟨Or.inr ⟨by decide, by decide, by decide⟩, Or.inr ⟨by decide, by decide, by decide⟩⟩

example : ∃ d t, ((run (newLogument [] (.obj serA) none).1
      (feed ([serAB, serBC].map (·.map stripSlash)))).snapshot 2).2 = .ok d ∧
    ((run (newLogument [] (.obj serA) none).1 (feed ([serAB, serBC].map (·.map stripSlash)))).snapshot 2).1.heap.view d =
      some t ∧ SameContent true t (.obj serC) :=
  C110_times_series_partial serA_wf [] [serAB, serBC] (v := 2) (by decide) ser_times

example : ∃ d t, ((run (newLogument [] (.obj [([], .obj serA)]) none).1 (feed [serAB, serBC])).snapshot 2).2 = .ok d ∧
    ((run (newLogument [] (.obj [([], .obj serA)]) none).1 (feed [serAB, serBC])).snapshot 2).1.heap.view d = some t ∧
    SameContent true t (.obj [([], .obj serC)]) :=
  C110_times_below_partial serA_wf [] [serAB, serBC] (v := 2) (by decide) ser_times

end Verif
