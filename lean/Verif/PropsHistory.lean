import Verif.PropsReplay
/-
Property C18: the history of a path.
-/
namespace Verif

/-! ### The collecting loops -/

/-- The operations on one path, if it matches. -/
def onPath (pre k : Bytes) (ops : List Op) : List Op :=
  ops.filter fun p => hasPrefix (decode p.path) pre && decide (p.path = k)

theorem collectOps_keys (pre : Bytes) (ops : List Op) : ∀ (m : List (Bytes × List Op)) (k : Bytes),
    k ∈ mkeys (collectOps pre m ops) ↔
      k ∈ mkeys m ∨ ∃ p ∈ ops, hasPrefix (decode p.path) pre = true ∧ p.path = k := by
  induction ops with
  | nil => intro m k; simp [collectOps]
  | cons p ops ih =>
    intro m k
    simp only [collectOps, List.mem_cons, exists_eq_or_imp]
    split
    · rename_i h
      rw [ih, mem_mkeys_mset, h]
      grind
    · rename_i h
      rw [ih]
      simp [h]

theorem collectOps_get (pre : Bytes) (ops : List Op) : ∀ (m : List (Bytes × List Op)) (k : Bytes),
    (mget (collectOps pre m ops) k).getD [] = (mget m k).getD [] ++ onPath pre k ops := by
  induction ops with
  | nil => intro m k; simp [collectOps, onPath]
  | cons p ops ih =>
    intro m k
    simp only [collectOps]
    split
    · rename_i h
      rw [ih, mget_mset]
      by_cases hk : k = p.path
      · subst hk; simp [onPath, h]
      · have : ¬ p.path = k := fun e => hk e.symm
        simp [onPath, hk, this]
    · rename_i h
      rw [ih]
      simp [onPath, h]

theorem collectOps_nodup (pre : Bytes) (ops : List Op) : ∀ (m : List (Bytes × List Op)),
    (mkeys m).Nodup → (mkeys (collectOps pre m ops)).Nodup := by
  induction ops with
  | nil => intro m h; exact h
  | cons p ops ih =>
    intro m h
    simp only [collectOps]
    split
    · exact ih _ (nodup_mkeys_mset h _ _)
    · exact ih _ h

theorem collectPatches_spec (pre : Bytes) (ps : List (Nat × List Op)) : ∀ (m : List (Bytes × List Op)),
    ((mkeys m).Nodup → (mkeys (collectPatches pre m ps)).Nodup) ∧
    ∀ k, (k ∈ mkeys (collectPatches pre m ps) ↔
        k ∈ mkeys m ∨ ∃ vp ∈ ps, ∃ p ∈ vp.2, hasPrefix (decode p.path) pre = true ∧ p.path = k) ∧
      (mget (collectPatches pre m ps) k).getD [] =
        (mget m k).getD [] ++ ps.flatMap fun vp => onPath pre k vp.2 := by
  induction ps with
  | nil => intro m; simp [collectPatches]
  | cons vp ps ih =>
    intro m
    obtain ⟨v, ops⟩ := vp
    simp only [collectPatches]
    obtain ⟨h1, h2⟩ := ih (collectOps pre m ops)
    refine ⟨fun h => h1 (collectOps_nodup _ _ _ h), fun k => ⟨?_, ?_⟩⟩
    · rw [(h2 k).1, collectOps_keys]
      simp only [List.mem_cons, exists_eq_or_imp, or_assoc]
    · rw [(h2 k).2, collectOps_get, List.flatMap_cons, List.append_assoc]

/-! ### Initial values -/

/-- The entry made for the initial value. -/
def initialEntry (doc : Tson) (k : Bytes) : List Op :=
  match getValue doc k with
  | .ok .null => []
  | .ok val => [⟨.add, k, docValue val, 0⟩]
  | _ => []

theorem addInitial_spec (doc : Tson) (m : List (Bytes × List Op)) :
    (∀ r, addInitial doc m = some r →
      mkeys r = mkeys m ∧ (∀ k ∈ mkeys m, ∃ val, getValue doc k = .ok val) ∧
      ∀ k, mget r k = (mget m k).map fun l => initialEntry doc k ++ l) ∧
    (addInitial doc m = none → ∃ k ∈ mkeys m, (getValue doc k).isOk = false) := by
  induction m with
  | nil => simp [addInitial, mkeys]
  | cons kp m ih =>
    obtain ⟨key, ps⟩ := kp
    simp only [addInitial]
    cases hg : getValue doc key with
    | ok val =>
      dsimp only
      cases hA : addInitial doc m with
      | none =>
        refine ⟨by simp, fun _ => ?_⟩
        obtain ⟨k, hk, hf⟩ := ih.2 hA
        exact ⟨k, by simp [mkeys] at hk ⊢; exact Or.inr hk, hf⟩
      | some r' =>
        obtain ⟨i1, i2, i3⟩ := ih.1 r' hA
        refine ⟨fun r hr => ?_, by simp⟩
        simp only [Option.map_some, Option.some.injEq] at hr
        have hr' : r = (key, initialEntry doc key ++ ps) :: r' := by
          rw [← hr]
          unfold initialEntry
          rw [hg]
          cases val <;> simp
        subst hr'
        refine ⟨by simpa [mkeys] using i1, ?_, fun k => ?_⟩
        · intro k hk
          simp only [mkeys, List.map_cons, List.mem_cons] at hk
          rcases hk with rfl | hk
          · exact ⟨val, hg⟩
          · exact i2 k hk
        · rw [mget_cons, mget_cons]
          by_cases hk : key = k
          · subst hk; simp
          · simp [hk, i3 k]
    | err => exact ⟨by simp, fun _ => ⟨key, by simp [mkeys], by rw [hg]; rfl⟩⟩
    | panic => exact ⟨by simp, fun _ => ⟨key, by simp [mkeys], by rw [hg]; rfl⟩⟩

/-! ### C18 -/

theorem recordsOf_eq {g : Lgm} {n : Nat} (hn : g.Versions n) (v : Nat) :
    recordsOf g v = (g.patchOf v).map fun o => (v, o) := by
  have key : ∀ (vs : List Nat) (f : Nat → List Op), vs.Nodup →
      (vs.flatMap fun w => (f w).map fun o => (w, o)).filter (fun r => decide (r.1 = v)) =
      if v ∈ vs then (f v).map fun o => (v, o) else [] := by
    intro vs f hnd
    induction vs with
    | nil => rfl
    | cons w vs ih =>
      rw [List.nodup_cons] at hnd
      rw [List.flatMap_cons, List.filter_append, ih hnd.2]
      by_cases hw : w = v
      · subst hw
        simp only [List.filter_map, Function.comp_def, decide_true, hnd.1, if_false, List.append_nil,
          List.mem_cons, true_or, if_true]
        rw [List.filter_eq_self.2 (fun _ _ => rfl)]
      · have : ¬ v = w := fun e => hw e.symm
        simp [List.filter_map, Function.comp_def, hw, this]
  unfold recordsOf Lgm.patchOf
  rw [records_eq hn, key _ _ (by rw [hn.sortedKeys]; exact List.nodup_range')]
  split
  · rfl
  · rename_i hv
    rw [mem_sortedKeys] at hv
    rw [mget_eq_none.2 hv]; rfl

theorem opsOn_recordsOf {g : Lgm} {n : Nat} (hn : g.Versions n) (v : Nat) {pre k : Bytes}
    (hk : hasPrefix (decode k) pre = true) : opsOn k (recordsOf g v) = onPath pre k (g.patchOf v) := by
  rw [recordsOf_eq hn]
  unfold opsOn onPath
  simp only [List.filter_map, List.map_map, Function.comp_def, List.map_id']
  congr 1
  funext p
  by_cases hp : p.path = k
  · subst hp; simp [hk]
  · simp [hp]

theorem mem_records {g : Lgm} {n : Nat} (hn : g.Versions n) {v : Nat} {o : Op} :
    (v, o) ∈ records g ↔ o ∈ g.patchOf v := by
  have : (v, o) ∈ records g ↔ (v, o) ∈ recordsOf g v := by simp [recordsOf]
  rw [this, recordsOf_eq hn]; simp

/-- `History` up to the recorded operations: what it hands back after compaction. -/
theorem history_spec {s : St} {n : Nat} (hn : s.lgm.Versions n) (o : Oracle) (pre : Bytes) {r}
    (hr : (s.history o pre).2 = .ok r) :
    (s.lgm.compact pre).2.isOk = true ∧
    (mkeys r).Nodup ∧
    (∀ k, k ∈ mkeys r ↔ hasPrefix (decode k) pre = true ∧ ∃ x ∈ records (s.lgm.compact pre).1, x.2.path = k) ∧
    ∀ k l, mget r k = some l → ∃ doc val, s.heap.view (s.lgm.snap 0) = some doc ∧ getValue doc k = .ok val ∧
      l = (if val = .null then [] else [⟨.add, k, docValue val, 0⟩]) ++
        (mkeys (o.orderPatches (s.lgm.compact pre).1.patches)).flatMap fun v =>
          opsOn k (recordsOf (s.lgm.compact pre).1 v) := by
  have hsn : (s.lgm.compact pre).1.snap 0 = s.lgm.snap 0 := by
    rw [hn.compact_lgm pre]; rfl
  have hn' := hn.of_compact pre
  unfold St.history at hr
  rw [hn.isContinuous] at hr
  dsimp only at hr
  rcases hc : s.lgm.compact pre with ⟨g, q⟩
  rw [hc] at hr hsn hn'
  dsimp only at hsn hn'
  cases q with
  | err => simp at hr
  | panic => simp at hr
  | ok u =>
    simp only at hr
    obtain ⟨c1, c2⟩ := collectPatches_spec pre (o.orderPatches g.patches) []
    have hperm := o.orderPatches_perm g.patches
    have hkeys : ∀ k, k ∈ mkeys (collectPatches pre [] (o.orderPatches g.patches)) ↔
        hasPrefix (decode k) pre = true ∧ ∃ x ∈ records g, x.2.path = k := by
      intro k
      rw [(c2 k).1]
      simp only [mkeys, List.map_nil, List.not_mem_nil, false_or]
      constructor
      · rintro ⟨vp, hvp, p, hp, h1, rfl⟩
        have hmem := hperm.mem_iff.1 hvp
        refine ⟨h1, (vp.1, p), (mem_records hn').2 ?_, rfl⟩
        unfold Lgm.patchOf
        rw [mem_mget hn'.2.1 hmem]
        exact hp
      · rintro ⟨h1, ⟨v, p⟩, hx, rfl⟩
        have := (mem_records hn').1 hx
        unfold Lgm.patchOf at this
        cases hg : mget g.patches v with
        | none => rw [hg] at this; simp at this
        | some ps =>
          rw [hg] at this
          exact ⟨(v, ps), hperm.mem_iff.2 (mget_mem hg), p, this, h1, rfl⟩
    refine ⟨rfl, ?_⟩
    split at hr
    · rename_i hnil
      simp only [Res.ok.injEq] at hr
      subst hr
      rw [hnil] at hkeys
      refine ⟨by simp [mkeys], hkeys, by simp⟩
    · rw [hsn] at hr
      split at hr
      · simp at hr
      · rename_i doc hdoc
        split at hr
        · rename_i r' hA
          simp only [Res.ok.injEq] at hr
          subst hr
          obtain ⟨a1, a2, a3⟩ := (addInitial_spec doc _).1 _ hA
          refine ⟨by rw [a1]; exact c1 (by simp [mkeys]), fun k => by rw [a1]; exact hkeys k, fun k l hl => ?_⟩
          have hk : k ∈ mkeys r' := mget_isSome.1 ⟨l, hl⟩
          rw [a1] at hk
          obtain ⟨val, hval⟩ := a2 k hk
          refine ⟨doc, val, hdoc, hval, ?_⟩
          rw [a3] at hl
          have hpre := ((hkeys k).1 hk).1
          cases hg : mget (collectPatches pre [] (o.orderPatches g.patches)) k with
          | none => rw [hg] at hl; simp at hl
          | some l' =>
            have e := (c2 k).2
            rw [hg] at e hl
            simp only [Option.map_some, Option.some.injEq] at hl
            simp only [Option.getD_some, mget_nil, Option.getD_none, List.nil_append] at e
            rw [← hl, e]
            congr 1
            · unfold initialEntry
              rw [hval]
              cases val <;> simp
            · simp only [mkeys, List.flatMap_map]
              rw [List.flatMap_def, List.flatMap_def]
              congr 1
              apply List.map_congr_left
              intro vp hvp
              have hmem := hperm.mem_iff.1 hvp
              rw [opsOn_recordsOf hn' vp.1 hpre]
              unfold Lgm.patchOf
              rw [mem_mget hn'.2.1 hmem]
              rfl
        · simp at hr

/-- C18 (part): if `History(pre)` returns, then the log is as after `Compact(pre)`, the keys of the result are
exactly the matching paths of the log, and every path has its value in the initial snapshot (with timestamp 0)
followed by all value-changing operations on it, version by version, in the order in which the runtime
visits the versions; if that order is ascending, this is the recorded order.
Missing: nothing makes the runtime visit the versions in ascending order (`C18_order_fails`), and the
initial snapshot may show a later value (`C18_initial_value_fails`). -/
theorem C18_history_partial {s : St} (h : Reachable s) (o : Oracle) (pre : Bytes) {r : List (Bytes × List Op)}
    (hr : (s.history o pre).2 = .ok r) :
    ∃ (M : List Entry) (vs : List Nat), (s.history o pre).1 = (step s (.compact pre)).1 ∧
      unmark M = records s.lgm ∧ CompactMarking (Matches pre) M ∧
      records (s.history o pre).1.lgm = keptOf M ∧
      vs = mkeys (o.orderPatches (s.history o pre).1.lgm.patches) ∧ vs.Perm (s.lgm.version.drop 1) ∧
      (mkeys r).Nodup ∧
      (∀ path, path ∈ mkeys r ↔ Matches pre path ∧ ∃ x ∈ records s.lgm, x.2.path = path) ∧
      ∀ path l, mget r path = some l → ∃ doc val L,
        s.heap.view (s.lgm.snap 0) = some doc ∧ getValue doc path = .ok val ∧
        l = (if val = .null then [] else [⟨.add, path, docValue val, 0⟩]) ++ L ∧
        (L = vs.flatMap fun v => opsOn path ((keptOf M).filter fun x => decide (x.1 = v))) ∧
        L.Perm (opsOn path (keptOf M)) ∧
        (vs.Pairwise (· < ·) → L = opsOn path (keptOf M)) := by
  obtain ⟨n, hn⟩ := h.versions
  have hn' := hn.of_compact pre
  obtain ⟨h1, h2, h3, h4⟩ := history_spec hn o pre hr
  obtain ⟨c1, -⟩ := compact_core hn pre
  have hok : ∃ u, (s.lgm.compact pre).2 = .ok u := by
    cases hq : (s.lgm.compact pre).2 with
    | ok u => exact ⟨u, rfl⟩
    | err => rw [hq] at h1; simp [Res.isOk] at h1
    | panic => rw [hq] at h1; simp [Res.isOk] at h1
  obtain ⟨u, hu⟩ := hok
  obtain ⟨-, ck, M, m1, m2, m3⟩ := c1 u hu
  have hl := St.history_lgm hn o pre
  have hperm : (mkeys (o.orderPatches (s.lgm.compact pre).1.patches)).Perm (s.lgm.version.drop 1) := by
    refine ((o.orderPatches_perm _).map _).trans ?_
    show (mkeys _).Perm _
    rw [List.perm_ext_iff_of_nodup hn'.2.1 (by rw [hn.1]; exact List.nodup_range.sublist (List.drop_sublist _ _))]
    intro v
    rw [hn'.2.2, hn.1, List.range_eq_range', List.range'_succ]
    simp [List.mem_range'_1]
    omega
  refine ⟨M, mkeys (o.orderPatches (s.lgm.compact pre).1.patches), ?_, m1, m2, by rw [hl]; exact m3,
    by rw [hl], hperm, h2, fun path => ?_, fun path l hpl => ?_⟩
  · have e1 := St.history_heap s o pre
    rcases hH : (s.history o pre).1 with ⟨hp, g⟩
    rw [hH] at e1 hl
    simp only at e1 hl
    rw [e1, hl]; rfl
  · rw [h3, hasPrefix_matches]
    refine and_congr_right fun hm => ?_
    rw [m3, ← m1]
    constructor
    · rintro ⟨x, hx, rfl⟩
      simp only [keptOf, unmark, List.mem_map, List.mem_filter] at hx ⊢
      obtain ⟨e, ⟨he, -⟩, rfl⟩ := hx
      exact ⟨_, ⟨e, he, rfl⟩, rfl⟩
    · rintro ⟨x, hx, rfl⟩
      simp only [unmark, List.mem_map] at hx
      obtain ⟨e, he, rfl⟩ := hx
      simp only
      cases hk : lastKept M e.op.path with
      | some y =>
        obtain ⟨a, v, c, hM, hy, -⟩ := lastKept_iff.1 hk
        refine ⟨(v, y), ?_, hy⟩
        rw [hM]
        simp [keptOf, unmark]
      | none =>
        exfalso
        have hno := lastKept_none.1 hk
        obtain ⟨a, b, rfl⟩ := List.append_of_mem he
        refine hno e (by simp) ((m2 a e b rfl).2 fun _ y hy => ?_) rfl
        obtain ⟨a', v, c, rfl, hy2, -⟩ := hy
        exact absurd hy2 (hno ⟨v, y, true⟩ (by simp) rfl)
  · obtain ⟨doc, val, d1, d2, d3⟩ := h4 path l hpl
    have hall : ∀ vs : List Nat, vs = sortedKeys (s.lgm.compact pre).1.patches →
        vs.flatMap (fun v => opsOn path (recordsOf (s.lgm.compact pre).1 v)) =
        opsOn path (records (s.lgm.compact pre).1) := by
      intro vs hvs
      rw [records_eq hn', ← hvs]
      unfold opsOn
      rw [List.filter_flatMap, List.map_flatMap]
      congr 1
      funext v
      rw [recordsOf_eq hn']
      rfl
    have hp2 : ((mkeys (o.orderPatches (s.lgm.compact pre).1.patches)).flatMap fun v =>
        opsOn path (recordsOf (s.lgm.compact pre).1 v)).Perm (opsOn path (keptOf M)) := by
      rw [← m3, ← hall _ rfl]
      refine List.Perm.flatMap_right _ ?_
      exact hperm.trans (by
        rw [hn'.sortedKeys, hn.1, List.range_eq_range', List.range'_succ]; exact .refl _)
    refine ⟨doc, val, _, d1, d2, d3, ?_, hp2, fun ha => ?_⟩
    · rw [← m3]; rfl
    · rw [← m3]
      apply hall
      have e : s.lgm.version.drop 1 = sortedKeys (s.lgm.compact pre).1.patches := by
        rw [hn'.sortedKeys, hn.1, List.range_eq_range', List.range'_succ]; rfl
      rw [e] at hperm
      have hs : (sortedKeys (s.lgm.compact pre).1.patches).Pairwise (· ≤ ·) := sortedKeys_sorted _
      exact hperm.eq_of_pairwise (fun a b _ _ h1 h2 => Nat.le_antisymm h1 h2) (ha.imp Nat.le_of_lt) hs

/-- The log `/a=false | /a=false, /a=true` over `{"a": true<1>, …}`. -/
def histLog : St :=
  run (newLogument [] demoDoc none).1
    [.store (.op (demoOp b!"/a" false 5)), .append,
     .store (.patch (some [demoOp b!"/a" false 7, demoOp b!"/a" true 9, demoOp b!"/b/c" true 9])), .append]

theorem histLog_reachable : Reachable histLog := ⟨[], demoDoc, none, _, rfl⟩

example : (histLog.history Oracle.plain b!"/a").2 =
    .ok [(b!"/a", [⟨.add, b!"/a", .leaf (.bool true) 1, 0⟩, demoOp b!"/a" false 5, demoOp b!"/a" true 9])] := by
  decide

/-- A runtime that visits maps backwards. -/
def Oracle.backwards : Oracle :=
  { Oracle.plain with orderPatches := List.reverse, orderPatches_perm := List.reverse_perm }

/-- C18 fails in general: the order of the history is the runtime's order of visiting the map. -/
theorem C18_order_fails : Reachable histLog ∧
    (histLog.history Oracle.backwards b!"/a").2 =
    .ok [(b!"/a", [⟨.add, b!"/a", .leaf (.bool true) 1, 0⟩, demoOp b!"/a" true 9, demoOp b!"/a" false 5])] :=
  ⟨histLog_reachable, by decide⟩

/-- C18 fails after `Set`: the "initial" value is the current one, with the timestamp of the `Set`. -/
theorem C18_initial_value_fails :
    let s := run (newLogument [] demoDoc none).1
      [.set 0 (demoOp b!"a" false 3), .store (.op (demoOp b!"/a" true 5)), .append]
    Reachable s ∧ getValue demoDoc b!"/a" = .ok (.leaf (.bool true) 1) ∧
      (s.history Oracle.plain b!"/a").2 =
        .ok [(b!"/a", [⟨.add, b!"/a", .leaf (.bool false) 3, 0⟩, demoOp b!"/a" true 5])] :=
  ⟨⟨[], demoDoc, none, _, rfl⟩, by decide, by decide⟩

/-- C18, when `History` returns: if compaction succeeds and the initial snapshot is readable, it returns
exactly if every matching path of the log can be read in the initial snapshot; otherwise it panics. -/
theorem C18_history_returns_partial {s : St} (h : Reachable s) (o : Oracle) (pre : Bytes)
    (hok : (step s (.compact pre)).2.isOk = true) {doc : Tson}
    (hdoc : s.heap.view (s.lgm.snap 0) = some doc) :
    (∀ x ∈ records s.lgm, Matches pre x.2.path → (getValue doc x.2.path).isOk = true) ↔
      (s.history o pre).2 ≠ .panic := by
  obtain ⟨n, hn⟩ := h.versions
  have hn' := hn.of_compact pre
  constructor
  · intro hall hp
    have hsn : (s.lgm.compact pre).1.snap 0 = s.lgm.snap 0 := by
      rw [hn.compact_lgm pre]; rfl
    obtain ⟨c1, -⟩ := compact_core hn pre
    unfold St.history at hp
    rw [hn.isContinuous] at hp
    dsimp only at hp
    rcases hc : s.lgm.compact pre with ⟨g, q⟩
    rw [hc] at hp hsn hn' c1
    dsimp only at hsn hn' c1
    simp only [step, St.onLgm, hc] at hok
    cases q with
    | err => simp [Res.map, Res.isOk] at hok
    | panic => simp [Res.map, Res.isOk] at hok
    | ok u =>
      obtain ⟨-, -, M, m1, -, m3⟩ := c1 u rfl
      simp only at hp
      split at hp
      · simp at hp
      · rw [hsn, hdoc] at hp
        dsimp only at hp
        split at hp
        · simp at hp
        · rename_i hA
          obtain ⟨k, hk, hf⟩ := (addInitial_spec doc _).2 hA
          rw [((collectPatches_spec pre (o.orderPatches g.patches) []).2 k).1] at hk
          simp only [mkeys, List.map_nil, List.not_mem_nil, false_or] at hk
          obtain ⟨vp, hvp, p, hp', h1, rfl⟩ := hk
          have hmem := (o.orderPatches_perm g.patches).mem_iff.1 hvp
          have hrec : (vp.1, p) ∈ records g := (mem_records hn').2 (by
            unfold Lgm.patchOf; rw [mem_mget hn'.2.1 hmem]; exact hp')
          rw [m3] at hrec
          have : (vp.1, p) ∈ records s.lgm := by
            rw [← m1]
            simp only [keptOf, unmark, List.mem_map, List.mem_filter] at hrec ⊢
            obtain ⟨e, ⟨he, -⟩, heq⟩ := hrec
            exact ⟨e, he, heq⟩
          have := hall _ this (hasPrefix_matches.1 h1)
          simp only at this
          rw [this] at hf; cases hf
  · intro hp x hx hm
    have : ∃ r, (s.history o pre).2 = .ok r := by
      cases hq : (s.history o pre).2 with
      | ok r => exact ⟨r, rfl⟩
      | panic => exact absurd hq hp
      | err =>
        unfold St.history at hq
        rw [hn.isContinuous] at hq
        dsimp only at hq
        repeat' split at hq
        all_goals simp at hq
    obtain ⟨r, hr⟩ := this
    obtain ⟨M, vs, -, -, -, -, -, -, -, hk, hl⟩ := C18_history_partial h o pre hr
    have hkey := (hk x.2.path).2 ⟨hm, x, hx, rfl⟩
    obtain ⟨l, hl'⟩ := mget_isSome.2 hkey
    obtain ⟨doc', val, -, e1, e2, -⟩ := hl _ _ hl'
    rw [hdoc] at e1; cases e1
    rw [e2]; rfl

/-- C18 fails for a path that the initial document does not have: `History` panics. -/
theorem C18_new_path_fails :
    let s := run (newLogument [] demoDoc none).1 [.store (.op ⟨.add, b!"/z", .bool true, 5⟩), .append]
    Reachable s ∧ (step s (.compact b!"/z")).2.isOk = true ∧ (s.history Oracle.plain b!"/z").2 = .panic :=
  ⟨⟨[], demoDoc, none, _, rfl⟩, by decide, by decide⟩

example : histLog.heap.view (histLog.lgm.snap 0) = some demoDoc ∧
    (∀ x ∈ records histLog.lgm, (getValue demoDoc x.2.path).isOk = true) := by decide

end Verif
