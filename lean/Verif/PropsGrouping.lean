import Verif.PropsSliceUse
import Verif.PropsTemporal
/-
C106: the grouping of operations into versions.
-/
namespace Verif

/-! ### Specification -/

/-- The committed operations in order, without the versions they are grouped into. -/
def committed (g : Lgm) : List Op := (records g).map Prod.snd

/-- The operations of a version-to-patch map in order, without the versions. -/
def ungrouped (r : List (Nat × List Op)) : List Op := (entries r).map Prod.snd

/-! ### The loops over versions as one loop over the operations -/

theorem compactOps_append (sel : Op → Sel) (x y : List Op) : ∀ latest, compactOps sel latest (x ++ y) =
    (compactOps sel latest x).bind fun r => (compactOps sel r.2 y).map fun q => (r.1 ++ q.1, q.2) := by
  induction x with
  | nil =>
    intro latest
    simp only [List.nil_append, compactOps, Option.bind_some]
    cases compactOps sel latest y <;> rfl
  | cons p x ih =>
    intro latest
    simp only [List.cons_append, compactOps]
    split
    · exact ih _
    · rw [ih]; cases compactOps sel latest x with
      | none => rfl
      | some r => simp only [Option.bind_some, Option.map_some]; cases compactOps sel r.2 y <;> rfl
    · split
      · rw [ih]; cases compactOps sel (mset latest p.path p.value) x with
        | none => rfl
        | some r => simp only [Option.bind_some, Option.map_some]; cases compactOps sel r.2 y <;> rfl
      · split
        · rfl
        · exact ih _
        · rw [ih]; cases compactOps sel (mset latest p.path p.value) x with
          | none => rfl
          | some r => simp only [Option.bind_some, Option.map_some]; cases compactOps sel r.2 y <;> rfl

theorem trackVersions_ungrouped (g : Lgm) (sel : Op → Sel) (vs : List Nat) : ∀ latest,
    (trackVersions g sel latest vs).map ungrouped = (compactOps sel latest (vs.flatMap g.patchOf)).map Prod.fst := by
  induction vs with
  | nil => intro latest; rfl
  | cons v vs ih =>
    intro latest
    simp only [trackVersions, List.flatMap_cons, compactOps_append]
    cases compactOps sel latest (g.patchOf v) with
    | none => rfl
    | some r =>
      obtain ⟨ps, lat⟩ := r
      have := ih lat
      simp only [Option.bind_some]
      cases ht : trackVersions g sel lat vs with
      | none =>
        rw [ht] at this
        cases hc : compactOps sel lat (vs.flatMap g.patchOf) with
        | none => rfl
        | some q => rw [hc] at this; simp at this
      | some t =>
        rw [ht] at this
        cases hc : compactOps sel lat (vs.flatMap g.patchOf) with
        | none => rw [hc] at this; simp at this
        | some q =>
          rw [hc] at this
          simp only [Option.map_some, Option.some.injEq] at this ⊢
          rw [← this]
          split
          · rename_i he; simp [he]
          · simp [ungrouped, entries, Function.comp_def]

theorem compactVersions_ungrouped (sel : Op → Sel) (vs : List Nat) (hnd : vs.Nodup) : ∀ latest patches,
    (compactVersions sel latest patches vs).2 =
      (compactOps sel latest (vs.flatMap fun v => (mget patches v).getD [])).isSome ∧
    (∀ v, v ∉ vs → mget (compactVersions sel latest patches vs).1 v = mget patches v) ∧
    ∀ q, compactOps sel latest (vs.flatMap fun v => (mget patches v).getD []) = some q →
      (vs.flatMap fun v => (mget (compactVersions sel latest patches vs).1 v).getD []) = q.1 := by
  induction vs with
  | nil =>
    intro latest patches
    refine ⟨rfl, fun _ _ => rfl, fun q hq => ?_⟩
    simp only [List.flatMap_nil, compactOps, Option.some.injEq] at hq ⊢
    simp [← hq]
  | cons v vs ih =>
    intro latest patches
    rw [List.nodup_cons] at hnd
    simp only [compactVersions, List.flatMap_cons, compactOps_append]
    cases compactOps sel latest ((mget patches v).getD []) with
    | none => exact ⟨rfl, fun _ _ => rfl, by simp⟩
    | some r =>
      obtain ⟨ps, lat⟩ := r
      obtain ⟨i1, i2, i3⟩ := ih hnd.2 lat (mset patches v ps)
      have e : (vs.flatMap fun w => (mget (mset patches v ps) w).getD []) =
          vs.flatMap fun w => (mget patches w).getD [] := by
        rw [List.flatMap_def, List.flatMap_def]
        congr 1
        exact List.map_congr_left fun w hw => by rw [mget_mset_ne _ _ (by rintro rfl; exact hnd.1 hw)]
      rw [e] at i1 i3
      simp only [Option.bind_some]
      refine ⟨?_, fun w hw => ?_, fun q hq => ?_⟩
      · rw [i1]; cases compactOps sel lat (vs.flatMap fun w => (mget patches w).getD []) <;> rfl
      · simp only [List.mem_cons, not_or] at hw
        rw [i2 w hw.2, mget_mset_ne _ _ hw.1]
      · cases hc : compactOps sel lat (vs.flatMap fun w => (mget patches w).getD []) with
        | none => rw [hc] at hq; simp at hq
        | some q' =>
          rw [hc] at hq
          simp only [Option.map_some, Option.some.injEq] at hq
          rw [i2 v hnd.1, mget_mset_self, i3 q' hc, ← hq]
          rfl

theorem Lgm.Versions.committed {g : Lgm} {n : Nat} (h : g.Versions n) :
    Verif.committed g = (List.range' 1 n).flatMap fun v => (mget g.patches v).getD [] := by
  unfold Verif.committed
  rw [records_eq h, List.map_flatMap, h.sortedKeys]
  congr 1
  funext v
  simp [Function.comp_def]

/-! ### C106 -/

/-- C106 (part): what `TemporalTrack` reports, apart from the versions, depends only on the sequence of committed
operations, not on where the calls of `Append` fell. -/
theorem C106_temporalTrack_partial {s s' : St} (h : Reachable s) (h' : Reachable s')
    (hc : committed s.lgm = committed s'.lgm) (ti tj : Int) :
    (s.lgm.temporalTrack ti tj).2.isOk = (s'.lgm.temporalTrack ti tj).2.isOk ∧
    ∀ r r', (s.lgm.temporalTrack ti tj).2 = .ok r → (s'.lgm.temporalTrack ti tj).2 = .ok r' →
      ungrouped r = ungrouped r' := by
  obtain ⟨n, hn⟩ := h.versions
  obtain ⟨n', hn'⟩ := h'.versions
  rw [hn.committed, hn'.committed] at hc
  have e := trackVersions_ungrouped s.lgm (selWindow ti tj) (sortedKeys s.lgm.patches) []
  have e' := trackVersions_ungrouped s'.lgm (selWindow ti tj) (sortedKeys s'.lgm.patches) []
  rw [hn.sortedKeys, show (List.range' 1 n).flatMap s.lgm.patchOf = _ from hc] at e
  rw [hn'.sortedKeys] at e'
  have e'' := e.trans e'.symm
  unfold Lgm.temporalTrack
  rw [hn.sortedKeys, hn'.sortedKeys]
  by_cases hle : ti > tj
  · simp [hle, Res.isOk]
  · rw [if_neg hle, if_neg hle]
    cases h1 : trackVersions s.lgm (selWindow ti tj) [] (List.range' 1 n) with
    | none =>
      cases h2 : trackVersions s'.lgm (selWindow ti tj) [] (List.range' 1 n') with
      | none => exact ⟨rfl, by simp⟩
      | some r' => rw [h1, h2] at e''; simp at e''
    | some r =>
      cases h2 : trackVersions s'.lgm (selWindow ti tj) [] (List.range' 1 n') with
      | none => rw [h1, h2] at e''; simp at e''
      | some r' =>
        rw [h1, h2] at e''
        refine ⟨rfl, fun a a' ha ha' => ?_⟩
        simp only [Res.ok.injEq] at ha ha'
        subst ha ha'
        simpa using e''

/-- C106 (part): what `Compact` keeps, apart from the versions, depends only on the sequence of committed
operations. -/
theorem C106_compact_partial {s s' : St} (h : Reachable s) (h' : Reachable s')
    (hc : committed s.lgm = committed s'.lgm) (pre : Bytes) :
    (s.lgm.compact pre).2.isOk = (s'.lgm.compact pre).2.isOk ∧
    ((s.lgm.compact pre).2.isOk = true →
      committed (s.lgm.compact pre).1 = committed (s'.lgm.compact pre).1) := by
  have key : ∀ {g : Lgm} {n : Nat}, g.Versions n →
      (g.compact pre).2.isOk = (compactOps (selPrefix pre) [] (committed g)).isSome ∧
      ∀ q, compactOps (selPrefix pre) [] (committed g) = some q → committed (g.compact pre).1 = q.1 := by
    intro g n hn
    obtain ⟨i1, -, i3⟩ := compactVersions_ungrouped (selPrefix pre) (List.range' 1 n) List.nodup_range' [] g.patches
    have hn2 := hn.of_compact pre
    rw [hn2.committed]
    rw [← hn.committed] at i1 i3
    unfold Lgm.compact
    rw [hn.isContinuous]
    simp only [hn.sortedKeys]
    rcases hv : compactVersions (selPrefix pre) [] g.patches (List.range' 1 n) with ⟨ps, b⟩
    rw [hv] at i1 i3
    dsimp only at i1 i3
    refine ⟨by rw [← i1]; cases b <;> rfl, fun q hq => ?_⟩
    rw [← i3 q hq]
    cases b <;> rfl
  obtain ⟨n, hn⟩ := h.versions
  obtain ⟨n', hn'⟩ := h'.versions
  obtain ⟨k1, k2⟩ := key hn
  obtain ⟨k1', k2'⟩ := key hn'
  rw [hc] at k1 k2
  refine ⟨k1.trans k1'.symm, fun hok => ?_⟩
  rw [k1] at hok
  obtain ⟨q, hq⟩ := Option.isSome_iff_exists.1 hok
  rw [k2 q hq, k2' q hq]

/-- C106 (part): so does what the compaction built into `Track` over all versions leaves. -/
theorem C106_track_partial {s s' : St} (h : Reachable s) (h' : Reachable s') {n n' : Nat}
    (hn : GapFree s.lgm n) (hn' : GapFree s'.lgm n') (hc : committed s.lgm = committed s'.lgm) :
    (s.lgm.track 0 n).2.isOk = (s'.lgm.track 0 n').2.isOk ∧
    (∀ r r', (s.lgm.track 0 n).2 = .ok r → (s'.lgm.track 0 n').2 = .ok r' → ungrouped r = ungrouped r') ∧
    ((s.lgm.track 0 n).2.isOk = true → committed (s.lgm.track 0 n).1 = committed (s'.lgm.track 0 n').1) := by
  have key : ∀ {g : Lgm} {n : Nat}, g.Versions n →
      (g.track 0 n).2.isOk = (compactOps (fun _ => .compare) [] (committed g)).isSome ∧
      (∀ r, (g.track 0 n).2 = .ok r → ungrouped r = committed g) ∧
      ∀ q, compactOps (fun _ => .compare) [] (committed g) = some q → committed (g.track 0 n).1 = q.1 := by
    intro g n hn
    obtain ⟨i1, -, i3⟩ := compactVersions_ungrouped (fun _ => .compare) (List.range' 1 n) List.nodup_range' [] g.patches
    have hn2 := hn.of_track 0 n
    have hf : (sortedKeys g.patches).filter (fun v => decide (0 ≤ v ∧ v ≤ n)) = List.range' 1 n := by
      rw [hn.sortedKeys, List.filter_eq_self]
      intro v hv
      simp only [List.mem_range'_1, decide_eq_true_eq] at hv ⊢
      omega
    have hk : sortNat (mkeys (restrict g.patches [] 0 n)) = List.range' 1 n := by
      rw [mkeys_restrict, hf]
      exact sorted_perm_unique (sortNat_perm _) (sortNat_sorted _) List.pairwise_le_range'
    have hr : ungrouped (restrict g.patches [] 0 n) = committed g := by
      rw [hn.committed]
      simp only [ungrouped, entries, restrict, hf, List.flatMap_map, List.map_flatMap]
      congr 1
      funext v
      simp [Function.comp_def]
    have hl : g.version.getLast? = some n := by rw [hn.1]; simp [List.range_succ]
    rw [hn2.committed]
    rw [← hn.committed] at i1 i3
    unfold Lgm.track Lgm.checkRange
    rw [hn.isContinuous]
    simp only [hl, Nat.zero_le, Nat.le_refl, and_self, decide_true, hk]
    rcases hv : compactVersions (fun _ => .compare) [] g.patches (List.range' 1 n) with ⟨ps, b⟩
    rw [hv] at i1 i3
    dsimp only at i1 i3
    refine ⟨by rw [← i1]; cases b <;> rfl, fun r hr' => ?_, fun q hq => ?_⟩
    · cases b with
      | false => simp at hr'
      | true => simp only [Res.ok.injEq] at hr'; rw [← hr', hr]
    · rw [← i3 q hq]
      cases b <;> rfl
  have ver : ∀ {s : St} {n : Nat}, Reachable s → GapFree s.lgm n → s.lgm.Versions n := by
    intro s n h hn
    obtain ⟨m, hm⟩ := h.versions
    have : m = n := by
      have := congrArg List.length (hm.1.symm.trans hn.1)
      simp at this; omega
    exact this ▸ hm
  obtain ⟨k1, k2, k3⟩ := key (ver h hn)
  obtain ⟨k1', k2', k3'⟩ := key (ver h' hn')
  rw [hc] at k1 k2 k3
  refine ⟨k1.trans k1'.symm, fun r r' hr hr' => by rw [k2 r hr, k2' r' hr'], fun hok => ?_⟩
  rw [k1] at hok
  obtain ⟨q, hq⟩ := Option.isSome_iff_exists.1 hok
  rw [k3 q hq, k3' q hq]

/-- C106 (part): the first snapshot of the newest version is the same document however the operations were grouped,
and it fails for one grouping exactly if it fails for the other.
Missing from the full statement: an empty newest version (`C106_empty_fails`), `TemporalSnapshot`
(`C106_temporalSnapshot_fails`). -/
theorem C106_snapshot_partial {m : List (Bytes × Tson)} (hw : (Tson.obj m).Wf) {s s' : St}
    (h : Grown (.obj m) s 0) (h' : Grown (.obj m) s' 0) {n n' : Nat} (hn : GapFree s.lgm n) (hn' : GapFree s'.lgm n')
    (hne : mget s.lgm.patches n ≠ some []) (hne' : mget s'.lgm.patches n' ≠ some [])
    (hc : committed s.lgm = committed s'.lgm) :
    (s.snapshot n).2.isOk = (s'.snapshot n').2.isOk ∧
    ∀ d d', (s.snapshot n).2 = .ok d → (s'.snapshot n').2 = .ok d' →
      (s.snapshot n).1.heap.view d = (s'.snapshot n').1.heap.view d' := by
  have flat : ∀ {g : Lgm} {n : Nat}, GapFree g n → committed g = opsUpTo g n := by
    intro g n hn
    have h0 : mget g.patches 0 = none := by
      cases hg : mget g.patches 0 with
      | none => rfl
      | some p => have := (hn.2 0).1 ⟨p, hg⟩; omega
    unfold committed records opsUpTo
    rw [hn.1, List.range_eq_range', List.range'_succ, List.map_flatMap]
    simp only [List.flatMap_cons, h0, List.map_nil, List.nil_append]
    congr 1
    funext v
    cases mget g.patches v <;> simp [Function.comp_def]
  obtain ⟨a1, a2⟩ := C06_snapshot_is_replay_partial hw h hn (Nat.zero_le n) (Nat.le_refl n) (.inr hne)
  obtain ⟨b1, b2⟩ := C06_snapshot_is_replay_partial hw h' hn' (Nat.zero_le n') (Nat.le_refl n') (.inr hne')
  rw [← flat hn, hc] at a1 a2
  rw [← flat hn'] at b1 b2
  cases hr : (replay (.obj m) (committed s'.lgm)).isOk with
  | false =>
    rw [a2 hr, b2 hr]
    exact ⟨rfl, by simp⟩
  | true =>
    cases hr' : replay (.obj m) (committed s'.lgm) with
    | ok t =>
      obtain ⟨d, h1, h2⟩ := a1 t hr'
      obtain ⟨d', h1', h2'⟩ := b1 t hr'
      rw [h1, h1']
      refine ⟨rfl, fun x x' hx hx' => ?_⟩
      simp only [Res.ok.injEq] at hx hx'
      subst hx hx'
      rw [h2, h2']
    | err => rw [hr'] at hr; simp [Res.isOk] at hr
    | panic => rw [hr'] at hr; simp [Res.isOk] at hr

/-- The operations of `dupLog` in one version. -/
def dupOne : St :=
  run (newLogument [] demoDoc none).1
    [.store (.patch (some [demoOp b!"a" false 5, demoOp b!"b/d" true 6])),
     .store (.patch (some [demoOp b!"a" false 7, demoOp b!"a" true 9])), .append]

theorem dupOne_reachable : Reachable dupOne := ⟨[], demoDoc, none, _, rfl⟩

example : committed dupLog.lgm = committed dupOne.lgm ∧ dupLog.lgm.version = [0, 1, 2] ∧ dupOne.lgm.version = [0, 1] ∧
    (dupOne.lgm.temporalTrack 5 9).2 =
      .ok [(1, [demoOp b!"a" false 5, demoOp b!"b/d" true 6, demoOp b!"a" true 9])] ∧
    committed (dupOne.lgm.compact b!"a").1 = [demoOp b!"a" false 5, demoOp b!"b/d" true 6, demoOp b!"a" true 9] ∧
    committed (dupOne.lgm.track 0 1).1 = committed (dupLog.lgm.track 0 2).1 ∧
    mget dupLog.lgm.patches 2 ≠ some [] ∧ mget dupOne.lgm.patches 1 ≠ some [] := by decide

example : Grown demoDoc dupLog 0 ∧ Grown demoDoc dupOne 0 :=
  ⟨.append _ 0 (.store _ 0 _ (.append _ 0 (.store _ 0 _ (.new [] none)))),
    .append _ 0 (.store _ 0 _ (.store _ 0 _ (.new [] none)))⟩

/-- C106 fails for `TemporalSnapshot`: with the same committed operations, the one grouping gives `a` the value of time 9,
the other still the one of time 5. -/
theorem C106_temporalSnapshot_fails :
    ∃ d d' t t', committed dupLog.lgm = committed dupOne.lgm ∧
      (dupLog.temporalSnapshot Oracle.plain 9).2 = .ok d ∧ (dupOne.temporalSnapshot Oracle.plain 9).2 = .ok d' ∧
      (dupLog.temporalSnapshot Oracle.plain 9).1.heap.view d = some t ∧
      (dupOne.temporalSnapshot Oracle.plain 9).1.heap.view d' = some t' ∧
      getValue t b!"/a" = .ok (.leaf (.bool false) 5) ∧ getValue t' b!"/a" = .ok (.leaf (.bool true) 9) := by
  refine ⟨_, _, _, _, by decide, rfl, rfl, rfl, rfl, ?_, ?_⟩ <;> decide

/-- C106 fails for `Snapshot` if the newest version is empty: the operations are the same, the snapshot is nil. -/
theorem C106_empty_fails :
    ∃ s' : St, Reachable s' ∧ committed s'.lgm = committed dupOne.lgm ∧ GapFree s'.lgm 2 ∧
      (s'.snapshot 2).2 = .ok .null ∧ (dupOne.snapshot 1).2 ≠ .ok .null := by
  have hr : Reachable (run dupOne [.store (.patch (some [])), .append]) :=
    ⟨[], demoDoc, none, [.store (.patch (some [demoOp b!"a" false 5, demoOp b!"b/d" true 6])),
     .store (.patch (some [demoOp b!"a" false 7, demoOp b!"a" true 9])), .append, .store (.patch (some [])), .append], rfl⟩
  refine ⟨_, hr, by decide, ?_, by decide, by decide⟩
  obtain ⟨n, hn⟩ := hr.versions
  have : n = 2 := by
    have h2 : (run dupOne [.store (.patch (some [])), .append]).lgm.version = [0, 1, 2] := by decide
    have := congrArg List.length (hn.1.symm.trans h2)
    simp at this; omega
  exact this ▸ hn.gapFree

end Verif
