import Verif.PropsDiffLog
/-
C110 for the patches as generated: documents below an empty name; and timestamps.
-/
namespace Verif

/-! ### Specification -/

/-- The patches are those generated along a series of documents from `m` to `n`; successive documents differ, have
plain keys, and only arrays of leaves of the same length differ. [internal/tsonpatch/tsonpatch.go:124-131] -/
inductive Generated (m : List (Bytes × Tson)) : List (List Op) → List (Bytes × Tson) → Prop
  | none : Generated m [] m
  | next (ps n k ops) : Generated m ps n → (Tson.obj n).Wf → (Tson.obj k).Wf → PlainDoc (.obj n) → PlainDoc (.obj k) →
      FlatArrays false (.obj n) (.obj k) → generatePatch (.obj n) (.obj k) = .ok ops → ops ≠ [] →
      (∀ o ∈ ops, ElemOp o) → Generated m (ps ++ [ops]) k

/-! ### Lemmas -/

theorem wf_below {m : List (Bytes × Tson)} (h : (Tson.obj m).Wf) : (Tson.obj [([], .obj m)]).Wf := by
  simpa [Tson.Wf, Tson.WfF, mkeys] using h

theorem Generated.replay {m n : List (Bytes × Tson)} {ps : List (List Op)} (h : Generated m ps n)
    (hw : (Tson.obj m).Wf) :
    ∃ t, Verif.replay (.obj [([], .obj m)]) ps.flatten = .ok t ∧ SameVals t (.obj [([], .obj n)]) := by
  induction h with
  | none => exact ⟨_, rfl, .refl _⟩
  | next ps n k ops _ h1 h2 h3 h4 h5 h6 h7 h8 ih =>
    obtain ⟨t, ht, hs⟩ := ih
    obtain ⟨⟨mt, rfl⟩, hwt⟩ := replay_obj (wf_below hw) ht
    obtain ⟨u, hu, hsu⟩ := C31_below_empty_name_partial h1 h2 h3 h4 h5 h6 h7
    rw [C27_sequential _ (wf_below h1) _ h7] at hu
    obtain ⟨u', hu', hs'⟩ := SameVals.replayIn _ h8 (wf_below h1) hwt hs.symm hu
    refine ⟨u', ?_, hs'.symm.trans hsu⟩
    rw [List.flatten_append, replay_append, ht]
    simpa [Res.bind] using hu'

theorem Generated.last_ne {m n : List (Bytes × Tson)} {ps : List (List Op)} (h : Generated m ps n) :
    ps.getLast? ≠ some [] := by
  cases h with
  | none => simp
  | next ps n k ops _ h1 h2 h3 h4 h5 h6 h7 h8 => simpa using h7

/-- A fed logument shows at a version the replay of the patches up to it. -/
theorem feed_snapshot {m : List (Bytes × Tson)} (hw : (Tson.obj m).Wf) (h : Heap) (ps : List (List Op))
    {v : Nat} (hv : v ≤ ps.length) (hl : (ps.take v).getLast? ≠ some []) {t : Tson}
    (ht : replay (.obj m) (ps.take v).flatten = .ok t) :
    ∃ d, ((run (newLogument h (.obj m) none).1 (feed ps)).snapshot v).2 = .ok d ∧
      ((run (newLogument h (.obj m) none).1 (feed ps)).snapshot v).1.heap.view d = some t := by
  have hf := fed_new h (.obj m) ps
  rw [← hf.opsUpTo v hv] at ht
  have hne : mget (run (newLogument h (.obj m) none).1 (feed ps)).lgm.patches v ≠ some [] := by
    cases v with
    | zero =>
      intro hc
      have := (hf.1.gapFree.2 0).1 ⟨_, hc⟩
      omega
    | succ v =>
      rw [hf.2.2 v (by omega)]
      rw [List.getLast?_take] at hl
      simp only [Nat.add_one_ne_zero, if_false, Nat.add_sub_cancel] at hl
      rw [List.getElem?_eq_getElem (by omega)] at hl ⊢
      simpa using hl
  exact C06_first_snapshot_partial hw h none (feed ps) (feed_calls ps) hf.1.gapFree hv hne ht

/-! ### C110 -/

/-- C110 for the patches as generated and a logument that holds the first document below an empty name: the snapshots
have the values of the series of documents, below the empty name.  Missing: the documents themselves
(`C110_generated_violated`), and the documents `Generated` leaves out. -/
theorem C110_below_partial {m n : List (Bytes × Tson)} (hw : (Tson.obj m).Wf) (h : Heap) (ps : List (List Op))
    {v : Nat} (hv : v ≤ ps.length) (hd : Generated m (ps.take v) n) :
    ∃ d t, ((run (newLogument h (.obj [([], .obj m)]) none).1 (feed ps)).snapshot v).2 = .ok d ∧
      ((run (newLogument h (.obj [([], .obj m)]) none).1 (feed ps)).snapshot v).1.heap.view d = some t ∧
      SameVals t (.obj [([], .obj n)]) := by
  obtain ⟨t, ht, hs⟩ := hd.replay hw
  obtain ⟨d, h1, h2⟩ := feed_snapshot (wf_below hw) h ps hv hd.last_ne ht
  exact ⟨d, t, h1, h2, hs⟩

/-- C110 for one patch of `GeneratePatchWithTimestamp`, with the leading separators dropped: the snapshot also has the
timestamps of the second document.  Missing as in `C110_snapshot_partial`; longer series: `C110_times_series_partial`. -/
theorem C110_times_partial {m n : List (Bytes × Tson)} (ha : (Tson.obj m).Wf) (hb : (Tson.obj n).Wf)
    (hpa : PlainDoc (.obj m)) (hpb : PlainDoc (.obj n)) (hfl : FlatArrays true (.obj m) (.obj n)) {ops : List Op}
    (hg : generatePatchWithTimestamp (.obj m) (.obj n) = .ok ops) (hne : ops ≠ []) (h : Heap) :
    ∃ d t, ((run (newLogument h (.obj m) none).1 (feed [ops.map stripSlash])).snapshot 1).2 = .ok d ∧
      ((run (newLogument h (.obj m) none).1 (feed [ops.map stripSlash])).snapshot 1).1.heap.view d = some t ∧
      SameContent true t (.obj n) := by
  obtain ⟨t, ht, hs⟩ := C31_times_partial ha hb hpa hpb hfl hg hne
  rw [C27_sequential m ha _ (by simpa using hne)] at ht
  obtain ⟨d, h1, h2⟩ := feed_snapshot ha h [ops.map stripSlash] (v := 1) (by simp) (by simpa using hne) (by simpa using ht)
  exact ⟨d, t, h1, h2, hs⟩

/-- C110 is violated for the patches of `GeneratePatchWithTimestamp` as they are, as in `C110_generated_violated`. -/
theorem C110_times_violated {m n : List (Bytes × Tson)} (ha : (Tson.obj m).Wf) (hb : (Tson.obj n).Wf)
    (hm : ([] : Bytes) ∉ mkeys m) (hn : ([] : Bytes) ∉ mkeys n) {ops : List Op}
    (hg : generatePatchWithTimestamp (.obj m) (.obj n) = .ok ops) (hne : ops ≠ []) (h : Heap) {d : HVal} {t : Tson}
    (hd : ((run (newLogument h (.obj m) none).1 (feed [ops])).snapshot 1).2 = .ok d)
    (ht : ((run (newLogument h (.obj m) none).1 (feed [ops])).snapshot 1).1.heap.view d = some t) :
    ¬ EqDoc true t (.obj n) := by
  have hf := fed_new h (.obj m) [ops]
  have ho := hf.opsUpTo 1 (by simp)
  have hp : mget (run (newLogument h (.obj m) none).1 (feed [ops])).lgm.patches 1 ≠ some [] := by
    rw [hf.2.2 0 (by simp)]; simpa using hne
  have C := C06_snapshot_is_replay_partial ha (feed_grown h (.obj m) [ops]) hf.1.gapFree (Nat.zero_le 1) (by simp)
    (Or.inr hp)
  rw [ho] at C
  simp only [List.take_succ_cons, List.take_nil, List.flatten_cons, List.flatten_nil, List.append_nil] at C
  cases hr : Verif.replay (.obj m) ops with
  | ok t0 =>
    obtain ⟨d', e1, e2⟩ := C.1 t0 hr
    rw [hd] at e1
    cases e1
    rw [ht] at e2
    cases e2
    exact C31_times_violated ha hb hm hn hg hne (by rw [C27_sequential m ha ops hne]; exact hr)
  | err => rw [C.2 (by rw [hr]; rfl)] at hd; cases hd
  | panic => rw [C.2 (by rw [hr]; rfl)] at hd; cases hd

theorem ser_generated : Generated serA [serAB, serBC] serC := by
  refine .next [serAB] serB serC serBC (.next [] serA serB serAB .none serA_wf serB_wf
    (.of_check (by decide)) (.of_check (by decide)) (flat_of_leaves (by simp [serA])) (by decide) (by decide) ?_)
    serB_wf serC_wf (.of_check (by decide)) (.of_check (by decide)) (flat_of_leaves (by simp [serB]))
    (by decide) (by decide) ?_
  all_goals
    intro o ho
    simp only [serAB, serBC, List.mem_cons, List.not_mem_nil, or_false] at ho
    rcases ho with rfl | rfl
  · exact Or.inl ⟨by decide, ⟨_, .bool _⟩, by decide⟩
  · exact Or.inl ⟨by decide, ⟨_, .str _⟩, by decide⟩
  · exact Or.inl ⟨by decide, ⟨_, .str _⟩, by decide⟩
  · exact Or.inr ⟨by decide, by decide, by decide⟩

example : ∃ d t, ((run (newLogument [] (.obj [([], .obj serA)]) none).1 (feed [serAB, serBC])).snapshot 2).2 = .ok d ∧
    ((run (newLogument [] (.obj [([], .obj serA)]) none).1 (feed [serAB, serBC])).snapshot 2).1.heap.view d = some t ∧
    SameVals t (.obj [([], .obj serC)]) :=
  C110_below_partial serA_wf [] _ (v := 2) (by decide) ser_generated

example : ((run (newLogument [] (.obj serA) none).1 (feed [serAB.map stripSlash])).snapshot 1).1.heap.view (.obj 0) =
    some (.obj serB) ∧ generatePatchWithTimestamp (.obj serA) (.obj serB) = .ok serAB := ⟨by decide, by decide⟩

end Verif
