import Verif.PropsHistory
import Verif.PropsPointer
/-
Properties C19-C21: slices and temporal queries.
-/
namespace Verif

/-! ### C19 -/

theorem mkeys_nil_of_mget {m : List (Nat × α)} (h : ∀ v, mget m v = none) : m = [] := by
  cases m with
  | nil => rfl
  | cons p m =>
    have := h p.1
    rw [mget_cons] at this; simp at this

theorem slice_spec {s : St} {n : Nat} (hn : s.lgm.Versions n) (vi vj : Nat) :
    (¬ (vi ≤ vj ∧ vj ≤ n) → s.slice vi vj = (s, .panic)) ∧
    (vi ≤ vj → vj ≤ n → (∃ v d, vi ≤ v ∧ v ≤ vj ∧ mget s.lgm.snaps v = some d) →
      s.slice vi vj = (s, .ok ⟨mkeys (restrict s.lgm.patches [] vi vj), .null,
        restrict s.lgm.snaps .null vi vj, restrict s.lgm.patches [] vi vj, none⟩)) ∧
    (vi ≤ vj → vj ≤ n → (∀ v d, vi ≤ v → v ≤ vj → mget s.lgm.snaps v ≠ some d) →
      s.slice vi vj =
        match s.snapshot vi with
        | (s', .ok t) => (s', .ok ⟨mkeys (restrict s.lgm.patches [] vi vj), .null, [(vi, t)],
            restrict s.lgm.patches [] vi vj, none⟩)
        | (s', .err) => (s', .panic)
        | (s', .panic) => (s', .panic)) := by
  unfold St.slice
  rw [hn.checkRange]
  refine ⟨fun h => by simp [h], fun h1 h2 hex => ?_, fun h1 h2 hno => ?_⟩
  · obtain ⟨v, d, hv1, hv2, hd⟩ := hex
    have hne : restrict s.lgm.snaps .null vi vj ≠ [] := by
      intro he
      have := mget_restrict (m := s.lgm.snaps) (d := HVal.null) (vi := vi) (vj := vj) (v := v)
      rw [he, hd] at this
      simp [hv1, hv2] at this
    simp [h1, h2, hne]
  · have he : restrict s.lgm.snaps .null vi vj = [] := by
      apply mkeys_nil_of_mget
      intro v
      rw [mget_restrict]
      split
      · rename_i hv
        cases hm : mget s.lgm.snaps v with
        | none => rfl
        | some d => exact absurd hm (hno v d hv.1 hv.2)
      · rfl
    simp only [h1, h2, and_self, decide_true, he, if_true]
    rfl

/-- The slice, its versions, patches and snapshots, all read off the state after the call. -/
theorem slice_ok {s : St} {n : Nat} (hn : s.lgm.Versions n) {vi vj : Nat} {g : Lgm}
    (h : (s.slice vi vj).2 = .ok g) :
    vi ≤ vj ∧ vj ≤ n ∧ g.current = .null ∧ g.pool = none ∧
    g.version = (List.range' 1 n).filter (fun v => decide (vi ≤ v ∧ v ≤ vj)) ∧
    (∀ v, mget g.patches v = if vi ≤ v ∧ v ≤ vj then mget s.lgm.patches v else none) ∧
    (∀ v, mget g.snaps v = if vi ≤ v ∧ v ≤ vj then mget (s.slice vi vj).1.lgm.snaps v else none) ∧
    ((s.slice vi vj).1 = s ∨
      ((∀ v d, vi ≤ v → v ≤ vj → mget s.lgm.snaps v ≠ some d) ∧ (s.slice vi vj).1 = (s.snapshot vi).1 ∧
        ∃ t, (s.snapshot vi).2 = .ok t ∧ (s.slice vi vj).1.lgm.snaps = mset s.lgm.snaps vi t)) ∧
    (∃ v d, vi ≤ v ∧ v ≤ vj ∧ mget g.snaps v = some d) := by
  obtain ⟨s1, s2, s3⟩ := slice_spec hn vi vj
  by_cases hr : vi ≤ vj ∧ vj ≤ n
  · by_cases hex : ∃ v d, vi ≤ v ∧ v ≤ vj ∧ mget s.lgm.snaps v = some d
    · have := s2 hr.1 hr.2 hex
      rw [this] at h ⊢
      simp only [Res.ok.injEq] at h
      subst h
      refine ⟨hr.1, hr.2, rfl, rfl, restrict_keys_versions hn, fun v => mget_restrict, fun v => mget_restrict,
        Or.inl rfl, ?_⟩
      obtain ⟨v, d, h1, h2, h3⟩ := hex
      exact ⟨v, d, h1, h2, by rw [mget_restrict]; simp [h1, h2, h3]⟩
    · have hno : ∀ v d, vi ≤ v → v ≤ vj → mget s.lgm.snaps v ≠ some d :=
        fun v d h1 h2 h3 => hex ⟨v, d, h1, h2, h3⟩
      have := s3 hr.1 hr.2 hno
      rcases snapshot_cases hn vi with ⟨hp, -⟩ | ⟨d, hd, -⟩ | ⟨b, hb1, hb2, hb3, hb4, hb5⟩
      · rw [this, hp] at h; simp at h
      · exact absurd hd (hno vi d (Nat.le_refl _) hr.1)
      · rcases hR : snapshotLoop s.lgm (s.lgm.snap b) s.heap .null (b + 1) (vi - b) with ⟨h', r⟩
        rw [hR] at hb5
        cases r with
        | ok t =>
          simp only at hb5
          rw [hb5] at this
          simp only at this
          rw [this] at h ⊢
          simp only [Res.ok.injEq] at h
          subst h
          refine ⟨hr.1, hr.2, rfl, rfl, restrict_keys_versions hn, fun v => mget_restrict, fun v => ?_,
            Or.inr ⟨hno, by rw [hb5], t, by rw [hb5], rfl⟩, vi, t, Nat.le_refl _, hr.1, by simp [mget_cons]⟩
          rw [mget_cons, mget_mset]
          by_cases hv : vi = v
          · subst hv; simp [hr.1]
          · have hv' : ¬ v = vi := fun e => hv e.symm
            simp only [hv, hv', if_false, mget_nil]
            split
            · rename_i hv2
              cases hm : mget s.lgm.snaps v with
              | none => rfl
              | some d => exact absurd hm (hno v d hv2.1 hv2.2)
            · rfl
        | err => simp only at hb5; rw [this, hb5] at h; simp at h
        | panic => simp only at hb5; rw [this, hb5] at h; simp at h
  · rw [s1 hr] at h; simp at h

/-- C19, contents: `Slice(vi, vj)` has exactly the recorded patches of the range, exactly the snapshots stored
for the range (if there was none, the snapshot of `vi`, which is then also stored in the original), the
versions of the range except 0, no pending operations and no current state; other ranges panic. The
recorded patches of the original stay as they are (`C12_slice_keeps_log`). -/
theorem C19_slice_contents_partial {s : St} (h : Reachable s) {n vi vj : Nat} (hlast : s.lgm.version.getLast? = some n) :
    (¬ (vi ≤ vj ∧ vj ≤ n) → s.slice vi vj = (s, .panic)) ∧
    ∀ g, (s.slice vi vj).2 = .ok g →
      (g.version.Pairwise (· < ·) ∧ ∀ v, v ∈ g.version ↔ v ≠ 0 ∧ vi ≤ v ∧ v ≤ vj) ∧
      (∀ v, mget g.patches v = if vi ≤ v ∧ v ≤ vj then mget s.lgm.patches v else none) ∧
      (∀ v, mget g.snaps v = if vi ≤ v ∧ v ≤ vj then mget (s.slice vi vj).1.lgm.snaps v else none) ∧
      ((s.slice vi vj).1 = s ∨ (∀ v d, vi ≤ v → v ≤ vj → mget s.lgm.snaps v ≠ some d) ∧
        (s.slice vi vj).1 = (s.snapshot vi).1) ∧
      g.pool = none ∧ g.current = .null := by
  obtain ⟨n', hn⟩ := h.versions
  have : n' = n := by have := hn.last; rw [this] at hlast; simpa using hlast
  subst this
  refine ⟨(slice_spec hn vi vj).1, fun g hg => ?_⟩
  obtain ⟨a1, a2, a3, a4, a5, a6, a7, a8, -⟩ := slice_ok hn hg
  refine ⟨⟨?_, fun v => ?_⟩, a6, a7, ?_, a4, a3⟩
  · rw [a5]; exact List.Pairwise.filter _ List.pairwise_lt_range'
  · rw [a5]; simp only [List.mem_filter, List.mem_range'_1, decide_eq_true_eq]; omega
  · rcases a8 with h | ⟨h1, h2, -⟩
    · exact Or.inl h
    · exact Or.inr ⟨h1, h2⟩

example : dupLog.lgm.version.getLast? = some 2 ∧ (dupLog.slice 1 2).2.isOk = true ∧
    (dupLog.slice 1 2).2.map (fun g => g.version) = .ok [1, 2] := by decide

theorem filter_range'_sub {n a b : Nat} (hb : b ≤ n) (h1 : 1 ≤ a) (hab : a ≤ b) :
    (List.range' 1 n).filter (fun v => decide (a ≤ v ∧ v ≤ b)) = List.range' a (b + 1 - a) := by
  refine sorted_perm_unique ?_ ?_ ?_
  · rw [List.perm_ext_iff_of_nodup ((List.nodup_range').sublist (List.filter_sublist)) List.nodup_range']
    intro v
    simp only [List.mem_filter, List.mem_range'_1, decide_eq_true_eq]; omega
  · exact (List.Pairwise.filter _ List.pairwise_lt_range').imp Nat.le_of_lt
  · exact (List.pairwise_lt_range').imp Nat.le_of_lt

theorem isContinuous_range' {g : Lgm} {a k : Nat} (h : g.version = List.range' a k) :
    g.isContinuous = (g, true) := by
  unfold Lgm.isContinuous
  split
  · rfl
  · have hs : sortNat g.version = g.version := by
      rw [h]; exact sortNat_eq_of_sorted ((List.pairwise_lt_range').imp Nat.le_of_lt)
    have hc : consecutive g.version = true := by rw [h, consecutive_range']
    simp only [hs, hc]

theorem findLatest_exists {g : Lgm} {vi : Nat} {d : HVal} (hd : mget g.snaps vi = some d) :
    ∀ {v : Nat}, vi ≤ v → ∃ b, IsBase g v b := by
  intro v
  induction v with
  | zero =>
    intro h
    have : vi = 0 := by omega
    subst this
    exact ⟨0, ⟨d, hd⟩, Nat.le_refl _, fun b' _ _ h => h⟩
  | succ v ih =>
    intro h
    cases hm : mget g.snaps (v + 1) with
    | some e => exact ⟨v + 1, ⟨e, hm⟩, Nat.le_refl _, fun b' _ _ h => h⟩
    | none =>
      have hlt : vi ≤ v := by
        rcases Nat.lt_or_ge v vi with h' | h'
        · have : vi = v + 1 := by omega
          subst this; rw [hm] at hd; cases hd
        · exact h'
      obtain ⟨b, h1, h2, h3⟩ := ih hlt
      refine ⟨b, h1, by omega, fun b' e he hb' => h3 b' e he ?_⟩
      by_cases hb : b' = v + 1
      · subst hb; rw [hm] at he; cases he
      · omega

theorem snapshotLoop_congr {g g' : Lgm} (base : HVal) (n : Nat) : ∀ (h : Heap) (t : HVal) (i : Nat),
    (∀ j, i ≤ j → j < i + n → g.patchOf j = g'.patchOf j) →
    snapshotLoop g base h t i n = snapshotLoop g' base h t i n := by
  induction n with
  | zero => intro h t i _; rfl
  | succ n ih =>
    intro h t i hj
    simp only [snapshotLoop, hj i (Nat.le_refl _) (by omega)]
    rcases applyPatch h base (g'.patchOf i) with ⟨h', r⟩
    cases r with
    | ok t' => exact ih h' t' (i + 1) fun j h1 h2 => hj j (by omega) (by omega)
    | err => rfl
    | panic => rfl

/-- C19, answers (part): if the range reaches beyond version 0 and a snapshot of `vi` is stored (which it is if
the range had no snapshot before, or `vi` is 0), then for every version of the range
`Snapshot` on the slice has the same outcome and the same effect on the documents as on the original.
Missing: the range `0..0` (`C19_version_zero_fails`), and ranges whose oldest stored snapshot is newer than
the requested version (`C19_missing_base_violated`). -/
theorem C19_slice_answers_partial {s : St} (h : Reachable s) {vi vj : Nat} {g : Lgm}
    (hg : (s.slice vi vj).2 = .ok g) (hj : 1 ≤ vj)
    (hsn : ∃ d, mget (s.slice vi vj).1.lgm.snaps vi = some d) {v : Nat} (hv : vi ≤ v ∧ v ≤ vj) :
    let s1 := (s.slice vi vj).1
    let t := St.snapshot ⟨s1.heap, g⟩ v
    t.2 = (s1.snapshot v).2 ∧ t.1.heap = (s1.snapshot v).1.heap := by
  obtain ⟨n, hn⟩ := h.versions
  obtain ⟨a1, a2, a3, a4, a5, a6, a7, a8, -⟩ := slice_ok hn hg
  have hn1 : (s.slice vi vj).1.lgm.Versions n := by
    obtain ⟨sn, he⟩ := St.slice_lgm hn vi vj
    exact hn.congr (by rw [he]) (by rw [he])
  have hpat : (s.slice vi vj).1.lgm.patches = s.lgm.patches := by
    obtain ⟨sn, he⟩ := St.slice_lgm hn vi vj
    rw [he]
  generalize (s.slice vi vj).1 = s1 at *
  have hver : ∃ a k, g.version = List.range' a k ∧ g.version.getLast? = some vj := by
    by_cases h0 : vi = 0
    · have e : (List.range' 1 n).filter (fun v => decide (vi ≤ v ∧ v ≤ vj)) =
          (List.range' 1 n).filter (fun v => decide (1 ≤ v ∧ v ≤ vj)) := by
        apply List.filter_congr
        intro x hx
        simp only [List.mem_range'_1] at hx
        simp only [decide_eq_decide]; omega
      rw [e, filter_range'_sub a2 (Nat.le_refl _) hj] at a5
      refine ⟨_, _, a5, ?_⟩
      rw [a5, List.getLast?_range']
      simp; omega
    · rw [filter_range'_sub a2 (by omega) a1] at a5
      refine ⟨_, _, a5, ?_⟩
      rw [a5, List.getLast?_range']
      have : vj + 1 - vi ≠ 0 := by omega
      simp [this]; omega
  obtain ⟨a, k, hv1, hv2⟩ := hver
  obtain ⟨d, hd⟩ := hsn
  have hdg : mget g.snaps vi = some d := by rw [a7]; simp [a1, hd]
  have hbase : ∀ b, IsBase g v b ↔ IsBase s1.lgm v b := by
    intro b
    constructor
    · rintro ⟨⟨e, he⟩, h2, h3⟩
      rw [a7] at he
      split at he
      · rename_i hb
        refine ⟨⟨e, he⟩, h2, fun b' d' hd' hb' => ?_⟩
        by_cases hvb : vi ≤ b'
        · exact h3 b' d' (by rw [a7]; simp [hvb, hd']; omega) hb'
        · omega
      · simp at he
    · rintro ⟨⟨e, he⟩, h2, h3⟩
      have := h3 vi d hd hv.1
      refine ⟨⟨e, by rw [a7]; simp [he, this]; omega⟩, h2, fun b' d' hd' hb' => ?_⟩
      rw [a7] at hd'
      split at hd'
      · exact h3 b' d' hd' hb'
      · simp at hd'
  have hget : mget g.snaps v = mget s1.lgm.snaps v := by rw [a7]; simp [hv]
  dsimp only
  rcases snapshot_cases_of (s := ⟨s1.heap, g⟩) (isContinuous_range' hv1) hv2 v with
    ⟨-, hp⟩ | ⟨e, he, hp⟩ | ⟨b, hb1, hb2, hb3, hb4, hb5⟩
  · exfalso
    rcases hp with hp | hp
    · omega
    · -- a base exists, because `vi` is stored
      rcases findLatest_exists (g := g) hdg hv.1 with ⟨b, hb⟩
      exact hp b hb
  · rcases snapshot_cases hn1 v with ⟨-, hq⟩ | ⟨e', he', hq⟩ | ⟨b, -, -, -, hq, -⟩
    · exfalso
      rcases hq with hq | hq
      · omega
      · obtain ⟨b, hb⟩ := findLatest_exists (g := s1.lgm) hd hv.1
        exact hq b hb
    · simp only at he
      rw [hget, he'] at he; cases he
      rw [hp, hq]; exact ⟨rfl, rfl⟩
    · simp only at he
      rw [hget, hq] at he; cases he
  · simp only at hb3 hb4 hb5
    rcases snapshot_cases hn1 v with ⟨-, hq⟩ | ⟨e', he', hq⟩ | ⟨b', h1, h2, h3, h4, h5⟩
    · exfalso
      rcases hq with hq | hq
      · omega
      · exact hq b ((hbase b).1 hb3)
    · rw [hget, he'] at hb4; cases hb4
    · have hbb : b = b' := by
        have hb := (hbase b).1 hb3
        obtain ⟨x, hx⟩ := h3.1
        obtain ⟨y, hy⟩ := hb.1
        have := hb.2.2 b' x hx h3.2.1
        have := h3.2.2 b y hy hb.2.1
        omega
      subst hbb
      have hvib := hb3.2.2 vi d hdg hv.1
      have hsnap : g.snap b = s1.lgm.snap b := by
        unfold Lgm.snap; rw [a7]; simp [hvib, show b ≤ vj by omega]
      have hl := snapshotLoop_congr (g := g) (g' := s1.lgm) (s1.lgm.snap b) (v - b) s1.heap .null (b + 1)
        (fun j hj1 hj2 => by
          unfold Lgm.patchOf
          rw [a6, hpat]
          have : vi ≤ j ∧ j ≤ vj := by omega
          simp [this])
      rw [hb5, h5, hsnap, hl]
      rcases snapshotLoop s1.lgm (s1.lgm.snap b) s1.heap .null (b + 1) (v - b) with ⟨h', r⟩
      cases r <;> exact ⟨rfl, rfl⟩

example : Reachable demo ∧ (demo.slice 1 2).2.isOk = true ∧
    (∃ d, mget (demo.slice 1 2).1.lgm.snaps 1 = some d) ∧ ((demo.slice 1 2).1.snapshot 2).2.isOk = true ∧
    (demo.slice 0 2).2.isOk = true ∧ (∃ d, mget (demo.slice 0 2).1.lgm.snaps 0 = some d) :=
  ⟨demo_reachable, by decide, ⟨_, rfl⟩, by decide, by decide, ⟨_, rfl⟩⟩

/-- C19, answers, when the premise of `C19_slice_answers_partial` holds: the snapshot of `vi` is stored after the
call if the range had no snapshot, or if `vi = 0`. -/
theorem C19_start_stored_partial {s : St} (h : Reachable s) {vi vj : Nat} {g : Lgm}
    (hg : (s.slice vi vj).2 = .ok g)
    (hno : (∀ v d, vi ≤ v → v ≤ vj → mget s.lgm.snaps v ≠ some d) ∨ ∃ d, mget s.lgm.snaps vi = some d) :
    ∃ d, mget (s.slice vi vj).1.lgm.snaps vi = some d := by
  obtain ⟨n, hn⟩ := h.versions
  obtain ⟨a1, a2, a3, a4, a5, a6, a7, a8, a9⟩ := slice_ok hn hg
  rcases hno with hno | ⟨d, hd⟩
  · rcases a8 with a8 | ⟨-, -, t, -, ht⟩
    · obtain ⟨v, d, h1, h2, h3⟩ := a9
      rw [a7, a8] at h3
      simp only [h1, h2, and_self, if_true] at h3
      exact absurd h3 (hno v d h1 h2)
    · exact ⟨t, by rw [ht, mget_mset_self]⟩
  · rcases a8 with a8 | ⟨hno, -⟩
    · exact ⟨d, by rw [a8]; exact hd⟩
    · exact absurd hd (hno vi d (Nat.le_refl _) a1)

/-- C19 fails whenever the oldest stored snapshot of the range is newer than a version of the range: the slice
panics for that version, whatever the original answers. -/
theorem C19_missing_base_violated {s : St} (h : Reachable s) {vi vj w : Nat} {d : HVal} {g : Lgm}
    (hg : (s.slice vi vj).2 = .ok g) (hw : vi ≤ w ∧ w ≤ vj) (hd : mget s.lgm.snaps w = some d) {v : Nat}
    (hold : ∀ w' e, vi ≤ w' → mget s.lgm.snaps w' = some e → v < w') :
    (St.snapshot ⟨(s.slice vi vj).1.heap, g⟩ v).2 = .panic := by
  obtain ⟨n, hn⟩ := h.versions
  obtain ⟨a1, a2, a3, a4, a5, a6, a7, a8, a9⟩ := slice_ok hn hg
  have h1 : (s.slice vi vj).1 = s := by
    rcases a8 with a8 | ⟨hno, -⟩
    · exact a8
    · exact absurd hd (hno w d hw.1 hw.2)
  rw [h1] at a7 ⊢
  have hnob : ∀ b, ¬ IsBase g v b := by
    rintro b ⟨⟨e, he⟩, h2, -⟩
    rw [a7] at he
    split at he
    · rename_i hb
      have := hold b e hb.1 he; omega
    · cases he
  have hcont : ∃ a k, g.version = List.range' a k := by
    by_cases hvj : vj = 0
    · refine ⟨1, 0, ?_⟩
      rw [a5, List.range'_zero, List.filter_eq_nil_iff]
      intro x hx; simp only [List.mem_range'_1] at hx; simp; omega
    · by_cases h0 : vi = 0
      · have e : (List.range' 1 n).filter (fun v => decide (vi ≤ v ∧ v ≤ vj)) =
            (List.range' 1 n).filter (fun v => decide (1 ≤ v ∧ v ≤ vj)) := by
          apply List.filter_congr
          intro x hx
          simp only [List.mem_range'_1] at hx
          simp only [decide_eq_decide]; omega
        rw [e, filter_range'_sub a2 (Nat.le_refl _) (by omega)] at a5
        exact ⟨_, _, a5⟩
      · rw [filter_range'_sub a2 (by omega) a1] at a5
        exact ⟨_, _, a5⟩
  obtain ⟨a, k, hc⟩ := hcont
  cases hl : g.version.getLast? with
  | none =>
    unfold St.snapshot Lgm.findLatest
    simp only [isContinuous_range' hc, hl]
  | some m =>
    rcases snapshot_cases_of (s := ⟨s.heap, g⟩) (isContinuous_range' hc) hl v with
      ⟨hp, -⟩ | ⟨e, he, -⟩ | ⟨b, -, -, hb, -⟩
    · rw [hp]
    · exact absurd ⟨⟨e, he⟩, Nat.le_refl _, fun _ _ _ h => h⟩ (hnob v)
    · exact absurd hb (hnob b)

/-- C19 fails: after `Snapshot(2)`, the slice of versions 1 and 2 cannot answer version 1, the original can. -/
theorem C19_missing_base_fails :
    let s := (step demo (.snapshot 2)).1
    Reachable s ∧ (s.slice 1 2).2.map (fun g => (St.snapshot ⟨(s.slice 1 2).1.heap, g⟩ 1).2.isOk) = .ok false ∧
      (s.snapshot 1).2.isOk = true ∧ 1 ≤ 2 ∧ 2 ≤ 2 :=
  ⟨demo_reachable.step _, by decide, by decide, by decide, by decide⟩

/-- C19 fails for the range `0..0`: the slice has no version at all and panics, the original answers. -/
theorem C19_version_zero_fails :
    (demo.slice 0 0).2.map (fun g => (g.version, (St.snapshot ⟨demo.heap, g⟩ 0).2.isOk)) = .ok ([], false) ∧
      (demo.snapshot 0).2.isOk = true := by decide

/-! ### C20 -/

theorem windowPatches_spec (g : Lgm) (ti tj : Int) (vs : List Nat) :
    entries (windowPatches g ti tj vs).2 =
      (vs.flatMap fun v => (g.patchOf v).map fun o => (v, o)).filter (fun x => decide (ti ≤ x.2.ts ∧ x.2.ts ≤ tj)) ∧
    (windowPatches g ti tj vs).1 = (entries (windowPatches g ti tj vs).2).map Prod.fst ∧
    (mkeys (windowPatches g ti tj vs).2).Sublist vs ∧
    ∀ vp ∈ (windowPatches g ti tj vs).2, vp.2 ≠ [] := by
  induction vs with
  | nil => simp [windowPatches, entries, mkeys]
  | cons v vs ih =>
    obtain ⟨h1, h2, h3, h4⟩ := ih
    simp only [windowPatches]
    rw [List.flatMap_cons, List.filter_append, ← h1]
    have e : ((g.patchOf v).map fun o => (v, o)).filter (fun x => decide (ti ≤ x.2.ts ∧ x.2.ts ≤ tj)) =
        ((g.patchOf v).filter (inWindow ti tj)).map fun o => (v, o) := by
      rw [List.filter_map]; rfl
    rw [e]
    by_cases hs : (g.patchOf v).filter (inWindow ti tj) = []
    · simp only [hs, List.map_nil, List.nil_append, if_true]
      exact ⟨trivial, h2, h3.cons v, h4⟩
    · simp only [hs, if_false]
      refine ⟨?_, ?_, ?_, ?_⟩
      · simp [entries]
      · rw [h2]; simp [entries, Function.comp_def]
      · simpa [mkeys] using h3
      · intro vp hvp
        rcases List.mem_cons.1 hvp with rfl | hvp
        · exact hs
        · exact h4 vp hvp

/-- C20, contents: `TemporalSlice(ti, tj)` has exactly the recorded operations of the window, per version in
recorded order; its version list has one entry per operation.
Missing: that a version is listed once; see `C20_duplicate_versions_violated`. -/
theorem C20_temporalSlice_contents_partial {s : St} (h : Reachable s) (o : Oracle) (ti tj : Int) {g : Lgm}
    (hg : (s.temporalSlice o ti tj).2 = .ok g) :
    ti ≤ tj ∧
    entries g.patches = (records s.lgm).filter (fun x => decide (ti ≤ x.2.ts ∧ x.2.ts ≤ tj)) ∧
    (mkeys g.patches).Pairwise (· < ·) ∧ (∀ vp ∈ g.patches, vp.2 ≠ []) ∧
    g.version = (entries g.patches).map Prod.fst ∧
    g.current = .null ∧ g.pool = none := by
  obtain ⟨n, hn⟩ := h.versions
  obtain ⟨w1, w2, w3, w4⟩ := windowPatches_spec s.lgm ti tj (sortedKeys s.lgm.patches)
  have key : ti ≤ tj ∧ ∃ sn, g = ⟨(windowPatches s.lgm ti tj (sortedKeys s.lgm.patches)).1, .null, sn,
      (windowPatches s.lgm ti tj (sortedKeys s.lgm.patches)).2, none⟩ := by
    unfold St.temporalSlice at hg
    rw [hn.isContinuous] at hg
    dsimp only at hg
    split at hg
    · simp at hg
    · rename_i hle
      refine ⟨by omega, ?_⟩
      split at hg
      · simp at hg
      · split at hg
        · split at hg
          · simp at hg
          · split at hg
            · simp only [Res.ok.injEq] at hg; exact ⟨_, hg.symm⟩
            · simp at hg
            · simp at hg
        · simp only [Res.ok.injEq] at hg; exact ⟨_, hg.symm⟩
  obtain ⟨hle, sn, rfl⟩ := key
  refine ⟨hle, ?_, ?_, w4, w2, rfl, rfl⟩
  · rw [w1, records_eq hn]; rfl
  · exact List.Pairwise.sublist w3 (by rw [hn.sortedKeys]; exact List.pairwise_lt_range')

example : (demo.temporalSlice Oracle.plain 6 9).2.map (fun g => (g.version, g.patches)) =
    .ok ([1, 2], [(1, [demoOp b!"b/d" true 6]), (2, [demoOp b!"a" true 9])]) := by decide

theorem latestOf_eq (s : St) (v : Nat) (r : Int) : s.latestOf v = some r ↔ StoredTime s v r := by
  unfold St.latestOf StoredTime
  cases s.heap.view (s.lgm.snap v) with
  | none => simp
  | some t => simp [C32_newest]

theorem stored_iff {g : Lgm} {v : Nat} : Stored g v ↔ v ∈ sortedKeys g.snaps := by
  rw [mem_sortedKeys, ← mget_isSome]; rfl

theorem windowSnaps_spec (s : St) (ti tj : Int) (l : List Nat) :
    (windowSnaps s ti tj l = none ↔ ∃ v ∈ l, s.latestOf v = none) ∧
    ∀ sn, windowSnaps s ti tj l = some sn →
      sn = (l.filter fun v => (s.latestOf v).any fun r => decide (ti ≤ r ∧ r ≤ tj)).map fun v => (v, s.lgm.snap v) := by
  induction l with
  | nil => simp [windowSnaps]
  | cons v l ih =>
    obtain ⟨ih1, ih2⟩ := ih
    unfold windowSnaps
    cases hv : s.latestOf v with
    | none => simp [hv]
    | some r =>
      cases hl : windowSnaps s ti tj l with
      | none => simp [hv, ih1.1 hl]
      | some sn =>
        have h1 : ¬ ∃ v ∈ l, s.latestOf v = none := by rw [← ih1, hl]; simp
        have h2 := ih2 sn hl
        refine ⟨by simp [hv]; simpa using h1, ?_⟩
        intro sn' h
        simp only [Option.some.injEq] at h
        rw [← h]
        by_cases hr : ti ≤ r ∧ r ≤ tj
        · rw [if_pos hr, List.filter_cons_of_pos (by simp [hv, hr]), List.map_cons, h2]
        · rw [if_neg hr, List.filter_cons_of_neg (by simp [hv]; omega), h2]

theorem temporalSlice_eq {s : St} {n : Nat} (hn : s.lgm.Versions n) (o : Oracle) (ti tj : Int) :
    s.temporalSlice o ti tj =
      if tj < ti then (s, .panic) else
      match windowSnaps s ti tj (sortedKeys s.lgm.snaps) with
      | none => (s, .panic)
      | some snaps =>
        let r := windowPatches s.lgm ti tj (sortedKeys s.lgm.patches)
        let mk (sn : List (Nat × HVal)) : Lgm :=
          { version := r.1, current := .null, snaps := sn, patches := r.2, pool := none }
        if snaps = [] then
          match r.1 with
          | [] => (s, .panic)
          | start :: _ =>
            match s.temporalSnapshot o ti with
            | (s', .ok t) => (s', .ok (mk [(start, t)]))
            | (s', .err) => (s', .panic)
            | (s', .panic) => (s', .panic)
        else (s, .ok (mk snaps)) := by
  unfold St.temporalSlice
  rw [hn.isContinuous]
  rfl

/-- C20, snapshots (part): the slice has the stored snapshots whose newest timestamp lies in the window and changes
nothing; if there is none, it has one snapshot, the result of `TemporalSnapshot(ti)` under the first version of the
slice.
Missing: this snapshot need not be that of its version; a slice can fail (`C20_outcome_partial`). -/
theorem C20_snapshots_partial {s : St} (h : Reachable s) (o : Oracle) (ti tj : Int) {g : Lgm}
    (hg : (s.temporalSlice o ti tj).2 = .ok g) :
    (mkeys g.snaps).Pairwise (· < ·) ∧
    ((∃ v r, Stored s.lgm v ∧ StoredTime s v r ∧ ti ≤ r ∧ r ≤ tj) →
      (s.temporalSlice o ti tj).1 = s ∧
      ∀ v d, mget g.snaps v = some d ↔ mget s.lgm.snaps v = some d ∧ ∃ r, StoredTime s v r ∧ ti ≤ r ∧ r ≤ tj) ∧
    ((∀ v r, Stored s.lgm v → StoredTime s v r → ¬ (ti ≤ r ∧ r ≤ tj)) →
      ∃ v d, g.version.head? = some v ∧ s.temporalSnapshot o ti = ((s.temporalSlice o ti tj).1, .ok d) ∧
        g.snaps = [(v, d)]) := by
  obtain ⟨n, hn⟩ := h.versions
  rw [temporalSlice_eq hn] at hg ⊢
  obtain ⟨-, w2⟩ := windowSnaps_spec s ti tj (sortedKeys s.lgm.snaps)
  split at hg
  · simp at hg
  · rename_i hle
    rw [if_neg hle]
    cases hw : windowSnaps s ti tj (sortedKeys s.lgm.snaps) with
    | none => rw [hw] at hg; simp at hg
    | some sn =>
      rw [hw] at hg
      have hsn := w2 sn hw
      have hmem : ∀ v, v ∈ mkeys sn ↔ Stored s.lgm v ∧ ∃ r, StoredTime s v r ∧ ti ≤ r ∧ r ≤ tj := by
        intro v
        rw [hsn, stored_iff]
        simp only [mkeys, List.map_map, Function.comp_def, List.map_id', List.mem_filter, ← latestOf_eq]
        cases s.latestOf v <;> simp
      dsimp only at hg ⊢
      by_cases hnil : sn = []
      · rw [if_pos hnil] at hg ⊢
        have hnone : ∀ v r, Stored s.lgm v → StoredTime s v r → ¬ (ti ≤ r ∧ r ≤ tj) := by
          intro v r h1 h2 h3
          have := (hmem v).2 ⟨h1, r, h2, h3⟩
          rw [hnil] at this; simp [mkeys] at this
        refine ⟨?_, fun ⟨v, r, h1, h2, h3⟩ => absurd h3 (hnone v r h1 h2), fun _ => ?_⟩
        · cases hr : (windowPatches s.lgm ti tj (sortedKeys s.lgm.patches)).1 with
          | nil => rw [hr] at hg; simp at hg
          | cons start vs =>
            rw [hr] at hg
            rcases hts : s.temporalSnapshot o ti with ⟨s', r⟩
            rw [hts] at hg
            cases r <;> simp at hg
            rw [← hg]; simp [mkeys]
        · cases hr : (windowPatches s.lgm ti tj (sortedKeys s.lgm.patches)).1 with
          | nil => rw [hr] at hg; simp at hg
          | cons start vs =>
            rw [hr] at hg
            rcases hts : s.temporalSnapshot o ti with ⟨s', r⟩
            rw [hts] at hg
            cases r with
            | err => simp at hg
            | panic => simp at hg
            | ok d =>
              simp only [Res.ok.injEq] at hg
              exact ⟨start, d, by rw [← hg]; rfl, rfl, by rw [← hg]⟩
      · rw [if_neg hnil] at hg ⊢
        simp only [Res.ok.injEq] at hg
        have hgs : g.snaps = sn := by rw [← hg]
        have hkeys : mkeys sn = (sortedKeys s.lgm.snaps).filter
            fun v => (s.latestOf v).any fun r => decide (ti ≤ r ∧ r ≤ tj) := by
          rw [hsn]; simp [mkeys, Function.comp_def]
        have hsorted : (mkeys sn).Pairwise (· < ·) := by
          rw [hkeys]
          refine List.Pairwise.sublist List.filter_sublist ?_
          have h1 := sortedKeys_sorted s.lgm.snaps
          have h2 : (sortedKeys s.lgm.snaps).Nodup := (sortNat_perm _).nodup_iff.2 h.snapsOk.once
          exact (h1.and h2).imp fun ⟨a, b⟩ => Nat.lt_of_le_of_ne a b
        refine ⟨by rw [hgs]; exact hsorted, fun _ => ⟨rfl, fun v d => ?_⟩, fun hno => ?_⟩
        · rw [hgs]
          have hval : ∀ v, v ∈ mkeys sn → mget sn v = some (s.lgm.snap v) := by
            intro v hv
            refine mem_mget (hsorted.imp Nat.ne_of_lt) ?_
            rw [hkeys] at hv
            rw [hsn]
            exact List.mem_map.2 ⟨v, hv, rfl⟩
          constructor
          · intro hv
            have hk := mget_isSome.1 ⟨d, hv⟩
            obtain ⟨⟨d', hd'⟩, hr⟩ := (hmem v).1 hk
            have := hval v hk
            rw [hv] at this
            simp only [Lgm.snap, hd', Option.getD_some, Option.some.injEq] at this
            subst this
            exact ⟨hd', hr⟩
          · rintro ⟨hv, hr⟩
            rw [hval v ((hmem v).2 ⟨⟨d, hv⟩, hr⟩)]
            simp [Lgm.snap, hv]
        · exfalso
          cases hsn' : sn with
          | nil => exact hnil hsn'
          | cons p l =>
            have := (hmem p.1).1 (by rw [hsn']; simp [mkeys])
            obtain ⟨h1, r, h2, h3⟩ := this
            exact hno _ r h1 h2 h3

example : StoredTime demo 0 2 ∧
    (demo.temporalSlice Oracle.plain 0 6).2.map (fun g => g.snaps) = .ok demo.lgm.snaps ∧
    (demo.temporalSlice Oracle.plain 6 9).2.map (fun g => mkeys g.snaps) = .ok [1] :=
  ⟨(latestOf_eq _ _ _).1 (by decide), by decide, by decide⟩

/-- C20, outcome (part): `TemporalSlice(ti, tj)` returns a slice exactly if the window is not reversed, no stored
snapshot contains nil, and either some stored snapshot has its newest timestamp in the window, or some recorded
operation lies in the window and `TemporalSnapshot(ti)` succeeds; otherwise it panics.
Missing: a window without operations, or with a snapshot that cannot be built, is not sliced
(`C20_empty_window_fails`). -/
theorem C20_outcome_partial {s : St} (h : Reachable s) (o : Oracle) (ti tj : Int) :
    ((∃ g, (s.temporalSlice o ti tj).2 = .ok g) ↔
      ti ≤ tj ∧ (∀ v, Stored s.lgm v → ∃ r, StoredTime s v r) ∧
      ((∃ v r, Stored s.lgm v ∧ StoredTime s v r ∧ ti ≤ r ∧ r ≤ tj) ∨
        ((∃ x ∈ records s.lgm, ti ≤ x.2.ts ∧ x.2.ts ≤ tj) ∧ ∃ d, (s.temporalSnapshot o ti).2 = .ok d))) ∧
    ((∀ g, (s.temporalSlice o ti tj).2 ≠ .ok g) → (s.temporalSlice o ti tj).2 = .panic) := by
  obtain ⟨n, hn⟩ := h.versions
  obtain ⟨p1, p2, -, -⟩ := windowPatches_spec s.lgm ti tj (sortedKeys s.lgm.patches)
  have hops : (windowPatches s.lgm ti tj (sortedKeys s.lgm.patches)).1 = [] ↔
      ¬ ∃ x ∈ records s.lgm, ti ≤ x.2.ts ∧ x.2.ts ≤ tj := by
    have e : (sortedKeys s.lgm.patches).flatMap (fun v => (s.lgm.patchOf v).map fun o => (v, o)) = records s.lgm :=
      (records_eq hn).symm
    rw [p2, p1, e]
    simp only [List.map_eq_nil_iff, List.filter_eq_nil_iff, decide_eq_true_eq]
    exact ⟨fun h ⟨x, h1, h2⟩ => h x h1 h2, fun h x h1 h2 => h ⟨x, h1, h2⟩⟩
  rw [temporalSlice_eq hn]
  obtain ⟨w1, w2⟩ := windowSnaps_spec s ti tj (sortedKeys s.lgm.snaps)
  by_cases hle : tj < ti
  · rw [if_pos hle]
    exact ⟨⟨by simp, fun h => by omega⟩, fun _ => rfl⟩
  · rw [if_neg hle]
    cases hw : windowSnaps s ti tj (sortedKeys s.lgm.snaps) with
    | none =>
      refine ⟨⟨by simp, fun ⟨_, h2, _⟩ => ?_⟩, fun _ => rfl⟩
      obtain ⟨v, hv, hn⟩ := w1.1 hw
      obtain ⟨r, hr⟩ := h2 v (stored_iff.2 hv)
      rw [(latestOf_eq s v r).2 hr] at hn; cases hn
    | some sn =>
      have hsn := w2 sn hw
      have hall : ∀ v, Stored s.lgm v → ∃ r, StoredTime s v r := by
        intro v hv
        cases hl : s.latestOf v with
        | none => rw [w1.2 ⟨v, stored_iff.1 hv, hl⟩] at hw; cases hw
        | some r => exact ⟨r, (latestOf_eq s v r).1 hl⟩
      have hmem : ∀ v, v ∈ mkeys sn ↔ Stored s.lgm v ∧ ∃ r, StoredTime s v r ∧ ti ≤ r ∧ r ≤ tj := by
        intro v
        rw [hsn, stored_iff]
        simp only [mkeys, List.map_map, Function.comp_def, List.map_id', List.mem_filter, ← latestOf_eq]
        cases s.latestOf v <;> simp
      have hex : sn ≠ [] ↔ ∃ v r, Stored s.lgm v ∧ StoredTime s v r ∧ ti ≤ r ∧ r ≤ tj := by
        constructor
        · intro hne
          cases sn with
          | nil => exact absurd rfl hne
          | cons p l =>
            obtain ⟨h1, r, h2⟩ := (hmem p.1).1 (by simp [mkeys])
            exact ⟨p.1, r, h1, h2⟩
        · rintro ⟨v, r, h1, h2⟩ rfl
          have := (hmem v).2 ⟨h1, r, h2⟩
          simp [mkeys] at this
      dsimp only
      by_cases hnil : sn = []
      · rw [if_pos hnil]
        have hno : ¬ ∃ v r, Stored s.lgm v ∧ StoredTime s v r ∧ ti ≤ r ∧ r ≤ tj := by rw [← hex]; exact fun h => h hnil
        cases hr : (windowPatches s.lgm ti tj (sortedKeys s.lgm.patches)).1 with
        | nil =>
          refine ⟨⟨by simp, fun ⟨_, _, h3⟩ => ?_⟩, fun _ => rfl⟩
          rcases h3 with h3 | ⟨h3, -⟩
          · exact absurd h3 hno
          · exact absurd h3 (hops.1 hr)
        | cons start vs =>
          have hyes : ∃ x ∈ records s.lgm, ti ≤ x.2.ts ∧ x.2.ts ≤ tj := by
            refine Classical.byContradiction fun hc => ?_
            rw [hops.2 hc] at hr; cases hr
          rcases hts : s.temporalSnapshot o ti with ⟨s', r⟩
          cases r with
          | ok d =>
            exact ⟨⟨fun _ => ⟨by omega, hall, Or.inr ⟨hyes, d, rfl⟩⟩, fun _ => ⟨_, rfl⟩⟩, fun hc => absurd rfl (hc _)⟩
          | err =>
            refine ⟨⟨by simp, fun ⟨_, _, h3⟩ => ?_⟩, fun _ => rfl⟩
            rcases h3 with h3 | ⟨-, d, hd⟩
            · exact absurd h3 hno
            · cases hd
          | panic =>
            refine ⟨⟨by simp, fun ⟨_, _, h3⟩ => ?_⟩, fun _ => rfl⟩
            rcases h3 with h3 | ⟨-, d, hd⟩
            · exact absurd h3 hno
            · cases hd
      · rw [if_neg hnil]
        exact ⟨⟨fun _ => ⟨by omega, hall, Or.inl (hex.1 hnil)⟩, fun _ => ⟨_, rfl⟩⟩, fun hc => absurd rfl (hc _)⟩

example : (∃ x ∈ records demo.lgm, (6 : Int) ≤ x.2.ts ∧ x.2.ts ≤ 9) ∧
    (demo.temporalSnapshot Oracle.plain 6).2.isOk = true ∧ (demo.temporalSlice Oracle.plain 6 9).2.isOk = true ∧
    (demo.temporalSlice Oracle.plain 9 6).2.isOk = false := by decide

theorem consecutive_nodup (l : List Nat) (h : consecutive l = true) : l.Pairwise (· < ·) := by
  induction l with
  | nil => exact .nil
  | cons a l ih =>
    cases l with
    | nil => simp
    | cons b l =>
      simp only [consecutive, Bool.and_eq_true, beq_iff_eq] at h
      have ih := ih h.2
      rw [List.pairwise_cons] at ih ⊢
      refine ⟨fun x hx => ?_, List.pairwise_cons.2 ih⟩
      rcases List.mem_cons.1 hx with rfl | hx
      · omega
      · have := ih.1 x hx; omega

/-- A version list with a repetition makes every checking method panic. -/
theorem dup_panics {h : Heap} {g : Lgm} (hd : ¬ g.version.Nodup) (o : Oracle) (vi vj : Nat) (ti tj : Int) (pre : Bytes) :
    (step ⟨h, g⟩ (.snapshot vi)).2 = .panic ∧ (step ⟨h, g⟩ (.slice vi vj)).2 = .panic ∧
    (step ⟨h, g⟩ (.track vi vj)).2 = .panic ∧ (step ⟨h, g⟩ (.temporalSlice o ti tj)).2 = .panic ∧
    (step ⟨h, g⟩ (.compact pre)).2 = .panic ∧ (step ⟨h, g⟩ (.history o pre)).2 = .panic := by
  have hc : g.isContinuous.2 = false := by
    unfold Lgm.isContinuous
    split
    · rename_i hl
      exfalso
      apply hd
      match hv : g.version, hl with
      | [], _ => exact .nil
      | [a], _ => simp
    · cases hcs : consecutive (sortNat g.version) with
      | false => exact hcs
      | true =>
        exfalso
        apply hd
        have := (consecutive_nodup _ hcs).imp (fun h => Nat.ne_of_lt h)
        exact (sortNat_perm g.version).nodup_iff.1 this
  rcases hgc : g.isContinuous with ⟨g', b⟩
  rw [hgc] at hc
  simp only at hc
  subst hc
  simp [step, St.onLgm, St.snapshot, Lgm.findLatest, St.slice, Lgm.checkRange, Lgm.track, St.temporalSlice,
    Lgm.compact, St.history, hgc, Res.map]

/-- C20 fails whenever a version has two operations in the window: the slice lists the version twice, and every
method that checks the versions panics on the slice. -/
theorem C20_duplicate_versions_violated {s : St} (h : Reachable s) (o : Oracle) (ti tj : Int) {g : Lgm}
    (hg : (s.temporalSlice o ti tj).2 = .ok g) {v : Nat} {x y : Op} {a b c : List Op}
    (hp : mget s.lgm.patches v = some (a ++ x :: (b ++ y :: c))) (hx : ti ≤ x.ts ∧ x.ts ≤ tj)
    (hy : ti ≤ y.ts ∧ y.ts ≤ tj) :
    ¬ g.version.Nodup ∧ ∀ h o' vi vj ui uj pre,
      (step ⟨h, g⟩ (.snapshot vi)).2 = .panic ∧ (step ⟨h, g⟩ (.slice vi vj)).2 = .panic ∧
      (step ⟨h, g⟩ (.track vi vj)).2 = .panic ∧ (step ⟨h, g⟩ (.temporalSlice o' ui uj)).2 = .panic ∧
      (step ⟨h, g⟩ (.compact pre)).2 = .panic ∧ (step ⟨h, g⟩ (.history o' pre)).2 = .panic := by
  obtain ⟨-, h1, -, -, h2, -⟩ := C20_temporalSlice_contents_partial h o ti tj hg
  obtain ⟨n, hn⟩ := h.versions
  have hdup : ¬ g.version.Nodup := by
    intro hnd
    rw [h2, h1] at hnd
    have hsub : ((recordsOf s.lgm v).filter (fun x => decide (ti ≤ x.2.ts ∧ x.2.ts ≤ tj))).Sublist
        ((records s.lgm).filter (fun x => decide (ti ≤ x.2.ts ∧ x.2.ts ≤ tj))) :=
      List.Sublist.filter _ List.filter_sublist
    have := hnd.sublist (hsub.map Prod.fst)
    rw [recordsOf_eq hn] at this
    unfold Lgm.patchOf at this
    rw [hp] at this
    rw [Option.getD_some, List.map_append, List.map_cons, List.map_append, List.map_cons] at this
    rw [List.filter_append, List.filter_cons_of_pos (by simpa using hx), List.filter_append,
      List.filter_cons_of_pos (by simpa using hy), List.map_append, List.map_cons, List.map_append,
      List.map_cons] at this
    have h3 := (List.nodup_append.1 this).2.1
    exact (List.nodup_cons.1 h3).1 (by simp)
  exact ⟨hdup, fun h o' vi vj ui uj pre => dup_panics hdup o' vi vj ui uj pre⟩

example : (demo.temporalSlice Oracle.plain 5 6).2.map (fun g => g.version) = .ok [1, 1] ∧
    mget demo.lgm.patches 1 = some ([] ++ demoOp b!"a" false 5 :: ([] ++ demoOp b!"b/d" true 6 :: [])) := by decide

/-- C20, usability (part): if no version has two operations in the window and the versions with an operation in
the window have no gap, then the version list of the slice is ascending without repetition and without gap. -/
theorem C20_versions_partial {s : St} (h : Reachable s) (o : Oracle) (ti tj : Int) {g : Lgm}
    (hg : (s.temporalSlice o ti tj).2 = .ok g)
    (hone : (((records s.lgm).filter (fun x => decide (ti ≤ x.2.ts ∧ x.2.ts ≤ tj))).map Prod.fst).Nodup)
    (hgap : ∀ x ∈ records s.lgm, ∀ z ∈ records s.lgm, (ti ≤ x.2.ts ∧ x.2.ts ≤ tj) → (ti ≤ z.2.ts ∧ z.2.ts ≤ tj) →
      ∀ v, x.1 < v → v < z.1 → ∃ y ∈ records s.lgm, y.1 = v ∧ ti ≤ y.2.ts ∧ y.2.ts ≤ tj) :
    g.version.Pairwise (· < ·) ∧ g.isContinuous = (g, true) := by
  obtain ⟨-, h1, -, -, h2, -⟩ := C20_temporalSlice_contents_partial h o ti tj hg
  obtain ⟨n, hn⟩ := h.versions
  have hv : g.version = ((records s.lgm).filter (fun x => decide (ti ≤ x.2.ts ∧ x.2.ts ≤ tj))).map Prod.fst := by
    rw [h2, h1]
  have hle : g.version.Pairwise (· ≤ ·) := by
    rw [hv]
    exact List.Pairwise.sublist (List.filter_sublist.map Prod.fst) (records_sorted hn)
  have hlt : g.version.Pairwise (· < ·) := by
    rw [← hv] at hone
    exact (hle.and hone).imp (fun ⟨h1, h2⟩ => Nat.lt_of_le_of_ne h1 h2)
  refine ⟨hlt, ?_⟩
  have hcons : ∀ l : List Nat, l.Pairwise (· < ·) →
      (∀ x ∈ l, ∀ z ∈ l, ∀ v, x < v → v < z → v ∈ l) → consecutive l = true := by
    intro l
    induction l with
    | nil => intro _ _; rfl
    | cons a l ih =>
      intro hp hg
      cases l with
      | nil => rfl
      | cons b l =>
        rw [List.pairwise_cons] at hp
        simp only [consecutive, Bool.and_eq_true, beq_iff_eq]
        constructor
        · have hab := hp.1 b (by simp)
          rcases Nat.lt_or_ge (a + 1) b with hlt | hge
          · have := hg a (by simp) b (by simp) (a + 1) (by omega) hlt
            rcases List.mem_cons.1 this with h | h
            · omega
            · rcases List.mem_cons.1 h with h | h
              · omega
              · have := (List.pairwise_cons.1 hp.2).1 _ h; omega
          · omega
        · refine ih hp.2 fun x hx z hz v h1 h2 => ?_
          have := hg x (List.mem_cons_of_mem _ hx) z (List.mem_cons_of_mem _ hz) v h1 h2
          rcases List.mem_cons.1 this with rfl | h
          · have := hp.1 x hx; omega
          · exact h
  unfold Lgm.isContinuous
  split
  · rfl
  · have hs : sortNat g.version = g.version := sortNat_eq_of_sorted hle
    have hc : consecutive g.version = true := by
      refine hcons _ hlt ?_
      rw [hv]
      intro x hx z hz v h1 h2
      simp only [List.mem_map, List.mem_filter, decide_eq_true_eq] at hx hz ⊢
      obtain ⟨x, ⟨hx1, hx2⟩, rfl⟩ := hx
      obtain ⟨z, ⟨hz1, hz2⟩, rfl⟩ := hz
      obtain ⟨y, hy1, hy2, hy3⟩ := hgap x hx1 z hz1 hx2 hz2 v h1 h2
      exact ⟨y, ⟨hy1, hy3⟩, hy2⟩
    simp only [hs, hc]

example : (((records demo.lgm).filter (fun x => decide (6 ≤ x.2.ts ∧ x.2.ts ≤ 9))).map Prod.fst).Nodup ∧
    ∀ x ∈ records demo.lgm, ∀ z ∈ records demo.lgm, z.1 ≤ x.1 + 1 := by decide

/-- C20 fails: a window without operations and without stored snapshots makes `TemporalSlice` panic. -/
theorem C20_empty_window_fails : (demo.temporalSlice Oracle.plain 100 200).2 = .panic := by decide

/-- C20 fails: a version without operation in the window leaves a gap in the version list, and `Snapshot` on the
slice panics. -/
theorem C20_gap_fails :
    let s := run (newLogument [] demoDoc none).1
      [.store (.op (demoOp b!"a" false 5)), .append, .store (.op (demoOp b!"a" true 50)), .append,
       .store (.op (demoOp b!"a" false 6)), .append]
    Reachable s ∧ (s.temporalSlice Oracle.plain 5 6).2.map (fun g => (g.version, (St.snapshot ⟨s.heap, g⟩ 1).2.isOk)) =
      .ok ([1, 3], false) :=
  ⟨⟨[], demoDoc, none, _, rfl⟩, by decide⟩

end Verif
