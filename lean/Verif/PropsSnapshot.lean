import Verif.SnapLemmas
import Verif.PropsApply
/-
Properties C06-C08: snapshots are replays, snapshots of all versions are one document, Set.
-/
namespace Verif

/-! ### C06 -/

/-- The operations of `n` versions from `i` on. -/
def opsFrom (g : Lgm) (i n : Nat) : List Op := (List.range' i n).flatMap g.patchOf

theorem opsUpTo_eq (g : Lgm) (v : Nat) : opsUpTo g v = opsFrom g 1 v := by
  unfold opsUpTo opsFrom
  rw [List.flatMap_def, List.flatMap_def]
  congr 1
  apply List.map_congr_left
  intro i _
  unfold Lgm.patchOf
  cases mget g.patches i <;> rfl

theorem opsFrom_split (g : Lgm) {w v : Nat} (h : w ≤ v) :
    opsUpTo g v = opsUpTo g w ++ opsFrom g (w + 1) (v - w) := by
  rw [opsUpTo_eq, opsUpTo_eq]
  unfold opsFrom
  rw [← List.flatMap_append]
  congr 1
  have := List.range'_append_1 (s := 1) (m := w) (n := v - w)
  rw [show w + (v - w) = v by omega, Nat.add_comm 1 w] at this
  exact this.symm

theorem snapshotLoop_obj (g : Lgm) (n : Nat) : ∀ {h : Heap} {a t F}, Rep h (.obj a) t F → ∀ w i,
    ∃ G, Rep (snapshotLoop g (.obj a) h w i n).1 (.obj a) (applyPatchT t (opsFrom g i n)).1 G ∧
      (snapshotLoop g (.obj a) h w i n).2 =
        match (applyPatchT t (opsFrom g i n)).2 with
        | .ok _ => .ok (if n = 0 then w else if g.patchOf (i + n - 1) = [] then .null else .obj a)
        | _ => .panic := by
  induction n with
  | zero => intro h a t F hF w i; exact ⟨F, hF, by simp [snapshotLoop, opsFrom, applyPatchT]⟩
  | succ n ih =>
    intro h a t F hF w i
    have hops : opsFrom g i (n + 1) = g.patchOf i ++ opsFrom g (i + 1) n := by
      simp [opsFrom, List.range'_succ]
    obtain ⟨G, hG, -, -, -, hout⟩ := applyPatchLoop_obj (g.patchOf i) hF .null
    rw [hops, applyPatchT_append]
    simp only [snapshotLoop]
    change Rep (applyPatch h (.obj a) (g.patchOf i)).1 _ _ _ at hG
    change (applyPatch h (.obj a) (g.patchOf i)).2 = _ at hout
    rcases hR : applyPatch h (.obj a) (g.patchOf i) with ⟨h1, r⟩
    rw [hR] at hG hout
    rcases hT : applyPatchT t (g.patchOf i) with ⟨t1, r1⟩
    rw [hT] at hG hout
    dsimp only at hG hout
    subst hout
    cases r1 with
    | ok u =>
      simp only [Res.map]
      obtain ⟨G', hG', hout'⟩ := ih hG (if g.patchOf i = [] then .null else .obj a) (i + 1)
      refine ⟨G', hG', ?_⟩
      rw [hout']
      by_cases hn : n = 0
      · subst hn; simp
      · simp only [hn, if_false]
        have : i + 1 + n - 1 = i + (n + 1) - 1 := by omega
        rw [this]
        simp
    | err => exact ⟨G, hG, by simp [Res.map]⟩
    | panic => exact ⟨G, hG, by simp [Res.map]⟩

/-- What holds for a grown logument. -/
def Ladder (doc : Tson) (s : St) (w : Nat) : Prop :=
  ∃ n a t F, s.lgm.Versions n ∧ w ≤ n ∧ Rep s.heap (.obj a) t F ∧
    replay doc (opsUpTo s.lgm w) = .ok t ∧
    (∀ v d, mget s.lgm.snaps v = some d → v ≤ w) ∧ mget s.lgm.snaps w = some (.obj a)

theorem opsUpTo_congr {g g' : Lgm} {w : Nat} (h : ∀ i, i ≤ w → mget g'.patches i = mget g.patches i) :
    opsUpTo g' w = opsUpTo g w := by
  unfold opsUpTo
  rw [List.flatMap_def, List.flatMap_def]
  congr 1
  apply List.map_congr_left
  intro i hi
  rw [h i (by have := List.mem_range'_1.1 hi; omega)]

theorem Ladder.mono {doc : Tson} {s s' : St} {w : Nat} (h : Ladder doc s w) (hh : s'.heap = s.heap)
    (hs : s'.lgm.snaps = s.lgm.snaps)
    (hv : ∀ n, s.lgm.Versions n → ∃ n', n ≤ n' ∧ s'.lgm.Versions n' ∧
      ∀ i, i ≤ n → mget s'.lgm.patches i = mget s.lgm.patches i) :
    Ladder doc s' w := by
  obtain ⟨n, a, t, F, h1, h2, h3, h4, h5, h6⟩ := h
  obtain ⟨n', hn, hv', hp⟩ := hv n h1
  refine ⟨n', a, t, F, hv', by omega, by rw [hh]; exact h3, ?_, by rw [hs]; exact h5, by rw [hs]; exact h6⟩
  rw [opsUpTo_congr fun i hi => hp i (by omega)]
  exact h4

/-- What `Snapshot` does on a grown logument. -/
theorem Ladder.snapshot {m : List (Bytes × Tson)} (hw : (Tson.obj m).Wf) {s : St} {w n v : Nat}
    (h : Ladder (.obj m) s w) (hn : s.lgm.Versions n) (hwv : w < v) (hvn : v ≤ n)
    (hne : mget s.lgm.patches v ≠ some []) :
    (∀ t, replay (.obj m) (opsUpTo s.lgm v) = .ok t → ∃ a F,
      (s.snapshot v).2 = .ok (.obj a) ∧ Rep (s.snapshot v).1.heap (.obj a) t F ∧
      (s.snapshot v).1.lgm = { s.lgm with snaps := mset s.lgm.snaps v (.obj a) }) ∧
    ((replay (.obj m) (opsUpTo s.lgm v)).isOk = false → (s.snapshot v).2 = .panic) := by
  obtain ⟨n', a, t, F, h1, h2, h3, h4, h5, h6⟩ := h
  have hb : IsBase s.lgm v w := ⟨⟨_, h6⟩, by omega, fun b d hd _ => h5 b d hd⟩
  have hnone : mget s.lgm.snaps v = none := by
    cases hm : mget s.lgm.snaps v with
    | none => rfl
    | some d => have := h5 v d hm; omega
  have hpne : s.lgm.patchOf v ≠ [] := by
    unfold Lgm.patchOf
    obtain ⟨p, hp⟩ := (hn.gapFree.2 v).2 ⟨by omega, hvn⟩
    rw [hp]
    intro h; apply hne; rw [hp]; exact congrArg some h
  have hsnap : s.lgm.snap w = .obj a := by simp [Lgm.snap, h6]
  obtain ⟨hobj, hwf⟩ := replay_obj hw h4
  obtain ⟨m', rfl⟩ := hobj
  obtain ⟨G, hG, hout⟩ := snapshotLoop_obj s.lgm (v - w) h3 .null (w + 1)
  rw [opsFrom_split s.lgm (Nat.le_of_lt hwv), replay_append, h4]
  simp only [Res.bind]
  rw [replay_eq _ hwf]
  have hidx : w + 1 + (v - w) - 1 = v := by omega
  have hz : v - w ≠ 0 := by omega
  rw [hidx] at hout
  simp only [hz, if_false, hpne] at hout
  rcases snapshot_cases hn v with hc | ⟨d, hd, -⟩ | ⟨b, -, -, hb', -, hc⟩
  · rcases hc with ⟨-, hc | hc⟩
    · omega
    · exact absurd hb (hc w)
  · rw [hnone] at hd; simp at hd
  · have hbw : b = w := by
      have h1 := hb'.2.2 w _ h6 (by omega)
      have h2 := hb.2.2 b
      obtain ⟨d, hd⟩ := hb'.1
      have := h2 d hd hb'.2.1
      omega
    subst hbw
    rw [hc, hsnap]
    rcases hR : snapshotLoop s.lgm (.obj a) s.heap .null (b + 1) (v - b) with ⟨h', r⟩
    rw [hR] at hG hout
    dsimp only at hG hout
    subst hout
    cases hT : (applyPatchT (.obj m') (opsFrom s.lgm (b + 1) (v - b))).2 with
    | ok u =>
      refine ⟨fun t ht => ?_, fun hk => by simp [Res.map, Res.isOk] at hk⟩
      simp only [Res.map, Res.ok.injEq] at ht
      rw [ht] at hG
      exact ⟨a, G, rfl, hG, rfl⟩
    | err => exact ⟨fun t ht => by simp [Res.map] at ht, fun _ => rfl⟩
    | panic => exact ⟨fun t ht => by simp [Res.map] at ht, fun _ => rfl⟩

theorem mget_concat_ne {m : List (Nat × α)} {k : Nat} (p : α) (i : Nat) (h : i ≠ k) :
    mget (m ++ [(k, p)]) i = mget m i := by
  induction m with
  | nil => simp [mget, Ne.symm h]
  | cons q m ih => obtain ⟨k', v⟩ := q; simp only [List.cons_append, mget_cons, ih]

theorem Grown.ladder {m : List (Bytes × Tson)} (hw : (Tson.obj m).Wf) {s : St} {w : Nat}
    (h : Grown (.obj m) s w) : Ladder (.obj m) s w := by
  induction h with
  | new h ia =>
    have hv := newLogument_versions h (.obj m) ia
    obtain ⟨-, F, hF, -⟩ := store_rep h (.obj m) hw
    obtain ⟨a, ha⟩ := store_obj h m
    rw [ha] at hF
    have hs : (newLogument h (.obj m) ia).1.heap = (h.store (.obj m)).1 ∧
        (newLogument h (.obj m) ia).1.lgm.snaps = [(0, .obj a)] := by
      unfold newLogument
      dsimp only
      rw [ha]
      cases ia with
      | none => exact ⟨rfl, rfl⟩
      | some ar =>
        dsimp only
        obtain ⟨p, hp⟩ := Lgm.store_lgm
          { version := [0], current := .obj a, snaps := [(0, .obj a)], patches := [], pool := none } ar
        rw [hp]
        exact ⟨rfl, rfl⟩
    refine ⟨0, a, .obj m, F, hv, Nat.le_refl _, by rw [hs.1]; exact hF, rfl, ?_, ?_⟩
    · intro v d hd
      rw [hs.2] at hd
      by_cases h0 : v = 0
      · omega
      · simp [mget, Ne.symm h0] at hd
    · rw [hs.2]; simp [mget]
  | store s w a _ ih =>
    obtain ⟨p, hp⟩ := s.lgm.store_lgm a
    refine ih.mono rfl ?_ fun n hn => ⟨n, Nat.le_refl _, ?_, ?_⟩ <;>
      simp only [step, St.onLgm, hp]
    · exact hn
    · intros; trivial
  | append s w _ ih =>
    have hsn : (step s .append).1.lgm.snaps = s.lgm.snaps := by
      simp only [step, St.onLgm, Lgm.append]
      repeat' split
      all_goals rfl
    refine ih.mono rfl hsn fun n hn => ?_
    simp only [step, St.onLgm, hn.append]
    cases hp : s.lgm.pool with
    | none => exact ⟨n, Nat.le_refl _, hn, fun _ _ => rfl⟩
    | some p =>
      have hv := hn.of_append
      rw [hn.append, hp] at hv
      obtain ⟨k, hk⟩ := hv
      have hk' : k = n + 1 := by
        have := congrArg List.length hk.1
        simp at this; omega
      subst hk'
      exact ⟨n + 1, by omega, hk, fun i hi => mget_concat_ne _ _ (by omega)⟩
  | temporalTrack s w ti tj _ ih =>
    have hg : (s.lgm.temporalTrack ti tj).1 = s.lgm := by
      unfold Lgm.temporalTrack; repeat' split
      all_goals rfl
    refine ih.mono rfl ?_ fun n hn => ⟨n, Nat.le_refl _, ?_, ?_⟩ <;>
      simp only [step, St.onLgm, hg]
    · exact hn
    · intros; trivial
  | snapshot s w v _ hwv hne hok ih =>
    obtain ⟨n, a, t, F, h1, h2, h3, h4, h5, h6⟩ := id ih
    by_cases hv : v = w
    · subst hv
      have : s.snapshot v = (s, .ok (.obj a)) := by
        rcases snapshot_cases h1 v with ⟨-, hc | hc⟩ | ⟨d, hd, hc⟩ | ⟨b, -, -, -, hc, -⟩
        · omega
        · exact absurd ⟨⟨_, h6⟩, Nat.le_refl _, fun b d hd _ => h5 b d hd⟩ (hc v)
        · rw [h6] at hd; cases hd; exact hc
        · rw [h6] at hc; simp at hc
      simp only [step, this]
      exact ih
    · have hvn : v ≤ n := by
        rcases Nat.lt_or_ge n v with hlt | hge
        · exfalso
          simp only [step] at hok
          rcases snapshot_cases h1 v with ⟨hc, -⟩ | ⟨d, hd, -⟩ | ⟨b, -, hc, -⟩
          · rw [hc] at hok; simp [Res.map, Res.isOk] at hok
          · have := h5 v d hd; omega
          · omega
        · exact hge
      obtain ⟨c1, c2⟩ := ih.snapshot hw h1 (by omega) hvn (by rcases hne with h | h; exact absurd h hv; exact h)
      cases hr : replay (.obj m) (opsUpTo s.lgm v) with
      | ok t' =>
        obtain ⟨a', F', d1, d2, d3⟩ := c1 t' hr
        refine ⟨n, a', t', F', ?_, hvn, d2, ?_, ?_, ?_⟩
        · simp only [step, d3]; exact h1.congr rfl rfl
        · simp only [step, d3]; exact hr
        · simp only [step, d3]
          intro v' d hd
          rw [mget_mset] at hd
          by_cases hvv : v' = v
          · omega
          · simp [hvv] at hd; have := h5 v' d hd; omega
        · simp only [step, d3]; exact mget_mset_self _ _ _
      | err => have := c2 (by rw [hr]; rfl); simp only [step, this, Res.map, Res.isOk] at hok; simp at hok
      | panic => have := c2 (by rw [hr]; rfl); simp only [step, this, Res.map, Res.isOk] at hok; simp at hok

/-- C06 (part): in a logument grown from an object document by `Store`, `Append`, `TemporalTrack` and
ascending snapshots, `Snapshot(v)` is the replay of all operations of versions `1..v` on the initial
document; it panics if an operation of the replay fails.
Missing from the full statement: versions whose patch is empty (`C06_empty_patch_fails`). -/
theorem C06_snapshot_is_replay_partial {m : List (Bytes × Tson)} (hw : (Tson.obj m).Wf) {s : St} {w n v : Nat}
    (h : Grown (.obj m) s w) (hn : GapFree s.lgm n) (hwv : w ≤ v) (hvn : v ≤ n)
    (hne : v = w ∨ mget s.lgm.patches v ≠ some []) :
    (∀ t, replay (.obj m) (opsUpTo s.lgm v) = .ok t →
      ∃ d, (s.snapshot v).2 = .ok d ∧ (s.snapshot v).1.heap.view d = some t) ∧
    ((replay (.obj m) (opsUpTo s.lgm v)).isOk = false → (s.snapshot v).2 = .panic) := by
  have hl := h.ladder hw
  obtain ⟨n', a, t, F, h1, h2, h3, h4, h5, h6⟩ := id hl
  have hnn : n' = n := by
    have := h1.1.symm.trans hn.1
    have := congrArg List.length this
    simp at this; omega
  subst hnn
  by_cases hv : v = w
  · subst hv
    have : s.snapshot v = (s, .ok (.obj a)) := by
      rcases snapshot_cases h1 v with ⟨-, hc | hc⟩ | ⟨d, hd, hc⟩ | ⟨b, -, -, -, hc, -⟩
      · omega
      · exact absurd ⟨⟨_, h6⟩, Nat.le_refl _, fun b d hd _ => h5 b d hd⟩ (hc v)
      · rw [h6] at hd; cases hd; exact hc
      · rw [h6] at hc; simp at hc
    rw [this, h4]
    refine ⟨fun t' ht' => ⟨.obj a, rfl, ?_⟩, fun hk => by simp [Res.isOk] at hk⟩
    cases ht'
    exact h3.view
  · obtain ⟨c1, c2⟩ := hl.snapshot hw h1 (by omega) hvn (by rcases hne with h | h; exact absurd h hv; exact h)
    refine ⟨fun t' ht' => ?_, c2⟩
    obtain ⟨a', F', d1, d2, d3⟩ := c1 t' ht'
    exact ⟨_, d1, d2.view⟩

/-- C06 for the very first snapshot after any number of `Store` and `Append` calls. -/
theorem C06_first_snapshot_partial {m : List (Bytes × Tson)} (hw : (Tson.obj m).Wf) (h : Heap)
    (ia : Option StoreArg) (cs : List Call) (hcs : ∀ c ∈ cs, (∃ a, c = .store a) ∨ c = .append) {n v : Nat}
    (hn : GapFree (run (newLogument h (.obj m) ia).1 cs).lgm n) (hvn : v ≤ n)
    (hne : mget (run (newLogument h (.obj m) ia).1 cs).lgm.patches v ≠ some []) {t : Tson}
    (ht : replay (.obj m) (opsUpTo (run (newLogument h (.obj m) ia).1 cs).lgm v) = .ok t) :
    ∃ d, ((run (newLogument h (.obj m) ia).1 cs).snapshot v).2 = .ok d ∧
      ((run (newLogument h (.obj m) ia).1 cs).snapshot v).1.heap.view d = some t := by
  have hg : Grown (.obj m) (run (newLogument h (.obj m) ia).1 cs) 0 := by
    have : Grown (.obj m) (newLogument h (.obj m) ia).1 0 := .new h ia
    generalize (newLogument h (.obj m) ia).1 = s at this
    clear hn hne ht
    induction cs generalizing s with
    | nil => exact this
    | cons c cs ih =>
      refine ih (fun c hc => hcs c (by simp [hc])) _ ?_
      rcases hcs c (by simp) with ⟨a, rfl⟩ | rfl
      · exact .store s 0 a this
      · exact .append s 0 this
  exact (C06_snapshot_is_replay_partial hw hg hn (Nat.zero_le _) hvn (Or.inr hne)).1 t ht

theorem demo_gapFree : GapFree demo.lgm 2 := by
  obtain ⟨n, h1, -⟩ := C01_versions_gap_free demo demo_reachable
  have hv : demo.lgm.version = [0, 1, 2] := by decide
  have : n = 2 := by
    have := congrArg List.length (hv.symm.trans h1.1)
    simp at this; omega
  subst this
  exact h1

example : ∃ d, (demo.snapshot 2).2 = .ok d ∧
    (demo.snapshot 2).1.heap.view d =
      some (.obj [(b!"a", .leaf (.bool true) 9),
        (b!"b", .obj [(b!"c", .leaf (.str b!"x") 2), (b!"d", .leaf (.bool true) 6)])]) :=
  C06_first_snapshot_partial (m := [(b!"a", .leaf (.bool true) 1),
    (b!"b", .obj [(b!"c", .leaf (.str b!"x") 2)])])
    (by simp [Tson.Wf, Tson.WfF, mkeys]) [] none
    [.store (.patch (some [demoOp b!"a" false 5, demoOp b!"b/d" true 6])), .append,
     .store (.op (demoOp b!"a" true 9)), .append, .store (.op (demoOp b!"b/d" false 12))]
    (by simp) (n := 2) demo_gapFree (Nat.le_refl _) (by decide) (by decide)

/-- C06 fails for a version whose patch is empty: the replay is the initial document, `Snapshot(1)` hands
out nil. -/
theorem C06_empty_patch_fails :
    ∃ (s : St), Grown demoDoc s 0 ∧ s.lgm.version = [0, 1] ∧
      replay demoDoc (opsUpTo s.lgm 1) = .ok demoDoc ∧ (s.snapshot 1).2 = .ok .null :=
  ⟨run (newLogument [] demoDoc none).1 [.store (.patch (some [])), .append],
    .append _ 0 (.store _ 0 _ (.new [] none)), by decide, by decide, by decide⟩

/-- C06 fails if snapshots are not taken in ascending order: after `Snapshot(2)`, `Snapshot(1)` hands out
a document in which `a` has the value of version 2 at a path only version 2 writes. -/
theorem C06_descending_fails :
    ∃ (cs : List Call) (t t' : Tson) (d : HVal),
      (run (newLogument [] demoDoc none).1 cs).lgm.version = [0, 1, 2] ∧
      replay demoDoc (opsUpTo (run (newLogument [] demoDoc none).1 cs).lgm 1) = .ok t ∧
      ((step (run (newLogument [] demoDoc none).1 cs) (.snapshot 2)).1.snapshot 1).2 = .ok d ∧
      ((step (run (newLogument [] demoDoc none).1 cs) (.snapshot 2)).1.snapshot 1).1.heap.view d = some t' ∧
      getValue t b!"/a" = .ok (.leaf (.bool true) 1) ∧ getValue t' b!"/a" = .ok (.leaf (.bool false) 9) :=
  ⟨[.store (.op (demoOp b!"q" true 5)), .append, .store (.op (demoOp b!"a" false 9)), .append],
    .obj [(b!"a", .leaf (.bool true) 1), (b!"b", .obj [(b!"c", .leaf (.str b!"x") 2)]),
      (b!"q", .leaf (.bool true) 5)],
    .obj [(b!"a", .leaf (.bool false) 9), (b!"b", .obj [(b!"c", .leaf (.str b!"x") 2)]),
      (b!"q", .leaf (.bool true) 5)],
    .obj 1, by decide, by decide, by decide, by decide, by decide, by decide⟩

/-! ### C07 -/

theorem newLogument_rooted (h : Heap) (m : List (Bytes × Tson)) (ia : Option StoreArg) :
    ∃ a, Rooted (newLogument h (.obj m) ia).1.lgm a ∧
      ((Tson.obj m).Wf → HeapOk (newLogument h (.obj m) ia).1.heap a) ∧
      mget (newLogument h (.obj m) ia).1.lgm.snaps 0 = some (.obj a) := by
  obtain ⟨a, ha⟩ := store_obj h m
  have hs : (newLogument h (.obj m) ia).1.heap = (h.store (.obj m)).1 ∧
      (newLogument h (.obj m) ia).1.lgm.snaps = [(0, .obj a)] ∧
      (newLogument h (.obj m) ia).1.lgm.current = .obj a := by
    unfold newLogument
    dsimp only
    rw [ha]
    cases ia with
    | none => exact ⟨rfl, rfl, rfl⟩
    | some ar =>
      dsimp only
      obtain ⟨p, hp⟩ := Lgm.store_lgm
        { version := [0], current := .obj a, snaps := [(0, .obj a)], patches := [], pool := none } ar
      rw [hp]
      exact ⟨rfl, rfl, rfl⟩
  refine ⟨a, ⟨?_, ?_⟩, ?_, ?_⟩
  · rw [hs.2.2]; exact Or.inl rfl
  · intro v d hd
    rw [hs.2.1] at hd
    simp only [mget_cons, mget_nil] at hd
    split at hd
    · cases hd; exact Or.inl rfl
    · simp at hd
  · intro hw
    obtain ⟨-, F, hF, -⟩ := store_rep h (.obj m) hw
    rw [ha] at hF
    rw [hs.1]; exact ⟨_, F, hF⟩
  · rw [hs.2.1]; rfl

theorem run_rooted {a : Nat} (cs : List Call) : ∀ {s : St} {n : Nat}, s.lgm.Versions n → Rooted s.lgm a →
    Rooted (run s cs).lgm a ∧
    ((∀ c ∈ cs, c.own = true) → HeapOk s.heap a → HeapOk (run s cs).heap a) := by
  induction cs with
  | nil => intro s n _ hr; exact ⟨hr, fun _ h => h⟩
  | cons c cs ih =>
    intro s n hn hr
    obtain ⟨n', hn'⟩ := step_versions hn c
    have h1 := step_rooted hn hr c
    have h2 := ih hn' h1.1
    exact ⟨h2.1, fun hc hh => h2.2 (fun c hc' => hc c (by simp [hc'])) (h1.2 (hc c (by simp)) hh)⟩

theorem ReachableFrom.rooted {m : List (Bytes × Tson)} {s : St} (h : ReachableFrom (.obj m) s) :
    ∃ a, Rooted s.lgm a := by
  obtain ⟨hp, ia, cs, rfl⟩ := h
  obtain ⟨a, hr, -⟩ := newLogument_rooted hp m ia
  exact ⟨a, (run_rooted cs (newLogument_versions hp _ ia) hr).1⟩

theorem OwnReachable.rooted {m : List (Bytes × Tson)} (hw : (Tson.obj m).Wf) {s : St}
    (h : OwnReachable (.obj m) s) : ∃ a n, s.lgm.Versions n ∧ Rooted s.lgm a ∧ HeapOk s.heap a := by
  obtain ⟨hp, ia, cs, hcs, rfl⟩ := h
  obtain ⟨a, hr, hh, -⟩ := newLogument_rooted hp m ia
  have := run_rooted cs (newLogument_versions hp _ ia) hr
  obtain ⟨n, hn⟩ := run_versions (newLogument_versions hp (.obj m) ia) cs
  exact ⟨a, n, hn, this.1, this.2 hcs (hh hw)⟩

/-- C07 is violated systematically: in every state reached from an object document, the non-nil documents
stored for any two versions, and the current state, are the very same Go map.  They therefore denote the same
document, whatever happens. -/
theorem C07_all_versions_alias_violated {m : List (Bytes × Tson)} {s : St} (h : ReachableFrom (.obj m) s) :
    (∀ v w d e, mget s.lgm.snaps v = some d → mget s.lgm.snaps w = some e → d ≠ .null → e ≠ .null →
      d = e ∧ ∃ a, d = .obj a) ∧
    (∀ v d, mget s.lgm.snaps v = some d → d ≠ .null → s.lgm.current ≠ .null → d = s.lgm.current) := by
  obtain ⟨a, hr⟩ := h.rooted
  have key : ∀ {x : HVal}, RootOrNil a x → x ≠ .null → x = .obj a := by
    rintro x (rfl | rfl) hx
    · rfl
    · exact absurd rfl hx
  refine ⟨fun v w d e hd he hdn hen => ?_, fun v d hd hdn hc => ?_⟩
  · rw [key (hr.snaps v d hd) hdn, key (hr.snaps w e he) hen]; exact ⟨rfl, a, rfl⟩
  · rw [key (hr.snaps v d hd) hdn, key hr.current hc]

example : let s := run demo [.snapshot 1, .snapshot 2]
    ReachableFrom demoDoc s ∧ s.lgm.snaps = [(0, .obj 1), (1, .obj 1), (2, .obj 1)] ∧
      s.lgm.current = .obj 1 :=
  ⟨⟨[], none, [.store (.patch (some [demoOp b!"a" false 5, demoOp b!"b/d" true 6])), .append,
     .store (.op (demoOp b!"a" true 9)), .append, .store (.op (demoOp b!"b/d" false 12)),
     .snapshot 1, .snapshot 2], rfl⟩, by decide, by decide⟩

/-- C07 fails: the document stored for version 1 changes when version 2 is asked for. -/
theorem C07_later_snapshot_fails :
    ∃ (s : St) (d : HVal) (t t' : Tson), OwnReachable demoDoc s ∧
      mget s.lgm.snaps 1 = some d ∧ s.heap.view d = some t ∧
      mget (step s (.snapshot 2)).1.lgm.snaps 1 = some d ∧
      (step s (.snapshot 2)).1.heap.view d = some t' ∧
      getValue t b!"/a" = .ok (.leaf (.bool false) 5) ∧ getValue t' b!"/a" = .ok (.leaf (.bool true) 9) :=
  ⟨(step demo (.snapshot 1)).1, .obj 1,
    .obj [(b!"a", .leaf (.bool false) 5),
      (b!"b", .obj [(b!"c", .leaf (.str b!"x") 2), (b!"d", .leaf (.bool true) 6)])],
    .obj [(b!"a", .leaf (.bool true) 9),
      (b!"b", .obj [(b!"c", .leaf (.str b!"x") 2), (b!"d", .leaf (.bool true) 6)])],
    ⟨[], none, [.store (.patch (some [demoOp b!"a" false 5, demoOp b!"b/d" true 6])), .append,
     .store (.op (demoOp b!"a" true 9)), .append, .store (.op (demoOp b!"b/d" false 12)), .snapshot 1],
     by simp [Call.own], rfl⟩, by decide, by decide, by decide, by decide, by decide, by decide⟩

theorem snapshot_keeps {s : St} {n : Nat} (hn : s.lgm.Versions n) (v w : Nat) {d : HVal}
    (hd : mget s.lgm.snaps v = some d) : mget (s.snapshot w).1.lgm.snaps v = some d := by
  rcases snapshot_cases hn w with ⟨h, -⟩ | ⟨e, -, h⟩ | ⟨b, -, -, -, hnone, h⟩
  · rw [h]; exact hd
  · rw [h]; exact hd
  · rw [h]
    rcases snapshotLoop s.lgm (s.lgm.snap b) s.heap .null (b + 1) (w - b) with ⟨h', r⟩
    cases r with
    | ok t =>
      have hne : v ≠ w := by rintro rfl; rw [hd] at hnone; simp at hnone
      exact (mget_mset_ne _ _ hne).trans hd
    | err => exact hd
    | panic => exact hd

theorem temporalSnapshot_snaps {s : St} {n : Nat} (hn : s.lgm.Versions n) (o : Oracle) (t : Int) :
    (s.temporalSnapshot o t).1.lgm.snaps = s.lgm.snaps := by
  obtain ⟨g, hg, hr⟩ := s.temporalSnapshot_lgm o t
  have hgs : g.snaps = s.lgm.snaps := by
    rcases hg with rfl | rfl
    · rfl
    · rw [hn.append]; cases s.lgm.pool <;> rfl
  rcases hr with hr | ⟨v, q, -, hr⟩ <;> rw [hr, ← hgs]

theorem step_snaps {s : St} {n : Nat} (hn : s.lgm.Versions n) (c : Call) {v : Nat} {d : HVal}
    (hd : mget s.lgm.snaps v = some d) : mget (step s c).1.lgm.snaps v = some d := by
  cases c with
  | store ar =>
    obtain ⟨p, hp⟩ := s.lgm.store_lgm ar
    simp only [step, St.onLgm, hp]; exact hd
  | append =>
    simp only [step, St.onLgm, hn.append]
    cases s.lgm.pool <;> exact hd
  | set vk op =>
    simp only [step]
    rcases s.set_cases vk op with ⟨-, -, h⟩ | ⟨-, ⟨h', x, he, h⟩ | ⟨h', he, h⟩ | ⟨h', he, h⟩⟩ <;>
      (rw [h]; exact hd)
  | testSet vk op =>
    simp only [step]
    have hset : ∀ o, mget (s.set vk o).1.lgm.snaps v = some d := by
      intro o
      rcases s.set_cases vk o with ⟨-, -, h⟩ | ⟨-, ⟨h', x, he, h⟩ | ⟨h', he, h⟩ | ⟨h', he, h⟩⟩ <;>
        (rw [h]; exact hd)
    rcases testSet_passes s vk op with ⟨r, -, h1, h2⟩ | ⟨h, -⟩
    · cases r with
      | none => rw [h2 rfl]; exact hd
      | some o => rw [h1 o rfl]; exact hset o
    · rw [h]; exact hd
  | snapshot w => exact snapshot_keeps hn v w hd
  | temporalSnapshot o t => simp only [step]; rw [temporalSnapshot_snaps hn]; exact hd
  | slice vi vj =>
    simp only [step]
    unfold St.slice
    rw [hn.checkRange]
    have hsn := snapshot_keeps hn v vi hd
    cases hdc : decide (vi ≤ vj ∧ vj ≤ n) with
    | false => exact hd
    | true =>
      dsimp only
      split
      · rcases hR : St.snapshot ⟨s.heap, s.lgm⟩ vi with ⟨s', r⟩
        change s.snapshot vi = _ at hR
        rw [hR] at hsn
        cases r <;> exact hsn
      · exact hd
  | temporalSlice o ti tj =>
    simp only [step]
    unfold St.temporalSlice
    rw [hn.isContinuous]
    have hsn := temporalSnapshot_snaps hn o ti
    dsimp only
    split
    · exact hd
    · split
      · exact hd
      · split
        · split
          · exact hd
          · rcases hR : St.temporalSnapshot ⟨s.heap, s.lgm⟩ o ti with ⟨s', r⟩
            change s.temporalSnapshot o ti = _ at hR
            rw [hR] at hsn
            dsimp only at hsn
            cases r <;> (dsimp only; rw [hsn]; exact hd)
        · exact hd
  | track vi vj =>
    simp only [step, St.onLgm, hn.track_lgm]
    split <;> exact hd
  | temporalTrack ti tj =>
    simp only [step, St.onLgm, Lgm.temporalTrack]
    repeat' split
    all_goals exact hd
  | compact pre => simp only [step, St.onLgm, hn.compact_lgm]; exact hd
  | history o pre => simp only [step, St.history_lgm hn, hn.compact_lgm]; exact hd
  | environment h => exact hd


/-- C07 (part): no call ever removes or re-assigns the document reference stored for a version; in
particular a stored leaf document never changes.  Missing: the object behind the reference may be mutated
(`C07_later_snapshot_fails`). -/
theorem C07_reference_stable_partial {s : St} (h : Reachable s) {v : Nat} {d : HVal}
    (hd : mget s.lgm.snaps v = some d) (cs : List Call) :
    mget (run s cs).lgm.snaps v = some d ∧
      (∀ p ts, d = .leaf p ts → (run s cs).heap.view d = some (.leaf p ts)) := by
  have : mget (run s cs).lgm.snaps v = some d := by
    obtain ⟨n, hn⟩ := h.versions
    clear h
    induction cs generalizing s n with
    | nil => exact hd
    | cons c cs ih =>
      obtain ⟨n', hn'⟩ := step_versions hn c
      exact ih (step_snaps hn c hd) n' hn'
  refine ⟨this, ?_⟩
  rintro p ts rfl
  rfl

/-- C07 (part): calls that apply nothing (`Store`, `Append`, `Track`, `TemporalTrack`, `Compact`,
`History`) leave the document stored for every version as it is, and so does `Snapshot` of a stored
version. -/
theorem C07_passive_calls_partial {s : St} (h : Reachable s) {v : Nat} {d : HVal}
    (hd : mget s.lgm.snaps v = some d) (cs : List Call)
    (hc : ∀ c ∈ cs, c.passive = true ∨ c = .snapshot v) :
    mget (run s cs).lgm.snaps v = some d ∧ (run s cs).heap.view d = s.heap.view d := by
  obtain ⟨n, hn⟩ := h.versions
  clear h
  induction cs generalizing s n with
  | nil => exact ⟨hd, rfl⟩
  | cons c cs ih =>
    obtain ⟨n', hn'⟩ := step_versions hn c
    have hheap : (step s c).1.heap = s.heap := by
      rcases hc c (by simp) with hp | rfl
      · cases c <;> simp [Call.passive] at hp <;> first | rfl | exact St.history_heap s _ _
      · rcases snapshot_cases hn v with ⟨h, -⟩ | ⟨e, -, h⟩ | ⟨b, -, -, -, hnone, -⟩
        · simp only [step, h]
        · simp only [step, h]
        · rw [hd] at hnone; simp at hnone
    have := ih (s := (step s c).1) (step_snaps hn c hd) (fun c hc' => hc c (by simp [hc'])) n' hn'
    rw [hheap] at this
    exact this

example : let s := (step demo (.snapshot 1)).1
    Reachable s ∧ mget s.lgm.snaps 1 = some (.obj 1) ∧
    (∀ c ∈ ([.compact [], .track 0 2, .append, .snapshot 1] : List Call), c.passive = true ∨ c = .snapshot 1) :=
  ⟨demo_reachable.step _, by decide, by simp [Call.passive]⟩

/-! ### C08 -/

theorem Rep.obj_inv {h : Heap} {a t F} (hr : Rep h (.obj a) t F) : ∃ m, t = .obj m := by
  cases hr with
  | obj => exact ⟨_, rfl⟩

/-- C08 (part): on a logument whose documents are only changed through it, `Set(add/replace)` applies the
operation to the current state: if that succeeds, the current state shows the result, exactly this operation
is added to the pool and versions, patches and the map of stored snapshots are as before; if it fails, `Set`
panics, and on an error (as opposed to a panic inside) the current state is lost.
Missing: the documents stored for older versions are not protected (`C08_set_changes_versions_violated`). -/
theorem C08_set_partial {m : List (Bytes × Tson)} (hw : (Tson.obj m).Wf) {s : St}
    (h : OwnReachable (.obj m) s) (hc : s.lgm.current ≠ .null) (vk : Nat) (op : Op)
    (hk : op.kind = .add ∨ op.kind = .replace) :
    ∃ mc, s.heap.view s.lgm.current = some (.obj mc) ∧ (Tson.obj mc).Wf ∧
      (∀ t', applyDoc (.obj mc) op = .ok t' →
        (s.set vk op).2 = .ok () ∧
        (s.set vk op).1.lgm = { s.lgm with pool := some ((match s.lgm.pool with | some p => p | none => []) ++ [op]) } ∧
        (s.set vk op).1.heap.view (s.set vk op).1.lgm.current = some t') ∧
      (applyDoc (.obj mc) op = .err → (s.set vk op).2 = .panic ∧
        (s.set vk op).1.lgm = { s.lgm with current := .null }) ∧
      (applyDoc (.obj mc) op = .panic → (s.set vk op).2 = .panic ∧ (s.set vk op).1.lgm = s.lgm) := by
  obtain ⟨a, n, hn, hr, t, F, hF⟩ := h.rooted hw
  have hcur : s.lgm.current = .obj a := by
    rcases hr.current with h | h
    · exact h
    · exact absurd h hc
  obtain ⟨mc, rfl⟩ := hF.obj_inv
  obtain ⟨G, hG, -, -, -, hout⟩ := applyOperation_obj hF op
  have hpool : s.lgm.pool.getD [] = (match s.lgm.pool with | some p => p | none => []) := by
    cases s.lgm.pool <;> rfl
  refine ⟨mc, by rw [hcur]; exact hF.view, hF.wf, ?_⟩
  rw [applyDoc_eq hF.wf]
  rcases s.set_cases vk op with ⟨h1, h2, -⟩ | ⟨-, ⟨h', x, he, h⟩ | ⟨h', he, h⟩ | ⟨h', he, h⟩⟩
  · rcases hk with hk | hk
    · exact absurd hk h2
    · exact absurd hk h1
  all_goals
    rw [hcur] at he
    rw [he] at hG hout
    rw [h]
    simp only [Res.ok.injEq, reduceCtorEq, and_false, false_or, or_false] at hout
  · refine ⟨fun t' ht' => ?_, fun he => by rw [hout.1] at he; simp at he,
      fun he => by rw [hout.1] at he; simp at he⟩
    rw [hout.1] at ht'
    simp only [Res.ok.injEq] at ht'
    refine ⟨rfl, ?_, ?_⟩
    · simp only [hout.2, hcur, hpool]
    · simp only [hout.2, ← ht']; exact hG.view
  · refine ⟨fun t' ht' => by rw [hout.1] at ht'; simp at ht', fun _ => ⟨rfl, rfl⟩,
      fun he => by rw [hout.1] at he; simp at he⟩
  · refine ⟨fun t' ht' => by rw [hout.1] at ht'; simp at ht',
      fun he => by rw [hout.1] at he; simp at he, fun _ => ⟨rfl, rfl⟩⟩

/-- C08: after a successful `Set` the written leaf can be read in the current state (for a path given by keys
without '/' and '.', without an array on the way; see C24 for the exceptions). -/
theorem C08_set_read_back {m : List (Bytes × Tson)} (hw : (Tson.obj m).Wf) {s : St}
    (h : OwnReachable (.obj m) s) (hc : s.lgm.current ≠ .null) (vk : Nat) (op : Op) (p : Prim)
    (hk : op.kind = .add ∨ op.kind = .replace) (hv : Writes op.value p)
    (ks : List Bytes) (hne : ks ≠ []) (hs : ∀ k ∈ ks, bSlash ∉ k) (hd : ∀ k ∈ ks, bDot ∉ k)
    (hpath : op.path = (pointer ks).tail)
    (harr : ∀ t n l, s.heap.view s.lgm.current = some t → n < ks.length → ¬ Reaches t (ks.take n) (.arr l))
    (hok : (s.set vk op).2 = .ok ()) :
    ∃ t', (s.set vk op).1.heap.view (s.set vk op).1.lgm.current = some t' ∧
      getValue t' (pointer ks) = .ok (.leaf p op.ts) := by
  obtain ⟨mc, h1, h2, h3, h4, h5⟩ := C08_set_partial hw h hc vk op hk
  cases ha : applyDoc (.obj mc) op with
  | ok t' =>
    exact ⟨t', (h3 t' ha).2.2, C24_read_back_partial mc h2 op p ks hne hs hd hpath
      (fun n l hn => harr _ n l h1 hn) hk hv t' ha⟩
  | err => rw [(h4 ha).1] at hok; simp at hok
  | panic => rw [(h5 ha).1] at hok; simp at hok

example : OwnReachable demoDoc demo ∧ demo.lgm.current ≠ .null ∧
    (demo.set 7 (demoOp b!"b/d" false 30)).2 = .ok () ∧
    (demoOp b!"b/d" false 30).path = (pointer [b!"b", b!"d"]).tail :=
  ⟨⟨[], none, [.store (.patch (some [demoOp b!"a" false 5, demoOp b!"b/d" true 6])), .append,
     .store (.op (demoOp b!"a" true 9)), .append, .store (.op (demoOp b!"b/d" false 12))],
     by simp [Call.own], rfl⟩, by decide, by decide, by decide⟩

/-- C08: other operation kinds change nothing; the version argument never matters. -/
theorem C08_other_kinds_and_version (s : St) (vk vk' : Nat) (op : Op) :
    (op.kind ≠ .add → op.kind ≠ .replace → s.set vk op = (s, .ok ()) ∧ s.testSet vk op = (s, .ok ())) ∧
    s.set vk op = s.set vk' op ∧ s.testSet vk op = s.testSet vk' op := by
  refine ⟨fun h1 h2 => ?_, rfl, rfl⟩
  simp [St.set, St.testSet, h1, h2]

/-- C08 is violated: after a successful `Set`, every stored non-nil version shows the new state, since all
versions are the same document. -/
theorem C08_set_changes_versions_violated {m : List (Bytes × Tson)} (hw : (Tson.obj m).Wf) {s : St}
    (h : OwnReachable (.obj m) s) (hc : s.lgm.current ≠ .null) (vk : Nat) (op : Op)
    (hk : op.kind = .add ∨ op.kind = .replace) (hok : (s.set vk op).2 = .ok ())
    {v : Nat} {d : HVal} (hd : mget s.lgm.snaps v = some d) (hn : d ≠ .null) :
    ∃ t t', s.heap.view d = some t ∧ applyDoc t op = .ok t' ∧
      mget (s.set vk op).1.lgm.snaps v = some d ∧ (s.set vk op).1.heap.view d = some t' := by
  obtain ⟨mc, h1, h2, h3, h4, h5⟩ := C08_set_partial hw h hc vk op hk
  have hds : d = s.lgm.current := by
    obtain ⟨hp, ia, cs, -, hs⟩ := h
    exact (C07_all_versions_alias_violated ⟨hp, ia, cs, hs⟩).2 v d hd hn hc
  cases ha : applyDoc (.obj mc) op with
  | ok t' =>
    obtain ⟨-, h6, h7⟩ := h3 t' ha
    refine ⟨_, t', by rw [hds]; exact h1, ha, by rw [h6]; exact hd, ?_⟩
    rw [h6] at h7
    rw [hds]; exact h7
  | err => rw [(h4 ha).1] at hok; simp at hok
  | panic => rw [(h5 ha).1] at hok; simp at hok

/-- C08 fails concretely: `Set` changes the document of version 0. -/
theorem C08_version_zero_fails :
    ∃ (t t' : Tson), demo.heap.view (.obj 1) = some t ∧ mget demo.lgm.snaps 0 = some (.obj 1) ∧
      (demo.set 0 (demoOp b!"a" false 30)).1.heap.view (.obj 1) = some t' ∧
      mget (demo.set 0 (demoOp b!"a" false 30)).1.lgm.snaps 0 = some (.obj 1) ∧
      getValue t b!"/a" = .ok (.leaf (.bool true) 1) ∧ getValue t' b!"/a" = .ok (.leaf (.bool false) 30) :=
  ⟨demoDoc, .obj [(b!"a", .leaf (.bool false) 30), (b!"b", .obj [(b!"c", .leaf (.str b!"x") 2)])],
    by decide, by decide, by decide, by decide, by decide, by decide⟩

/-- C10 at the level of `Set`: an operation that fails with an error makes the whole current state nil;
every later `Set` then panics. -/
theorem C10_set_loses_state_fails :
    ∃ op : Op, (demo.set 0 op).2 = .panic ∧ (demo.set 0 op).1.lgm.current = .null ∧
      ∀ vk op', (op'.kind = .add ∨ op'.kind = .replace) → ((demo.set 0 op).1.set vk op').2 = .panic := by
  refine ⟨⟨.add, b!"a", .nil, 3⟩, by decide, by decide, ?_⟩
  intro vk op' hk
  have hcur : (demo.set 0 ⟨.add, b!"a", .nil, 3⟩).1.lgm.current = .null := by decide
  generalize (demo.set 0 ⟨.add, b!"a", .nil, 3⟩).1 = s at hcur
  rcases s.set_cases vk op' with ⟨h1, h2, -⟩ | ⟨-, ⟨h', x, he, h⟩ | ⟨h', he, h⟩ | ⟨h', he, h⟩⟩
  · rcases hk with hk | hk
    · exact absurd hk h2
    · exact absurd hk h1
  · rw [hcur, applyOperation_null] at he; simp at he
  · rw [h]
  · rw [h]

end Verif
