import Verif.CompactLemmas
import Verif.PropsVersions
/-
Properties C11-C16: TemporalTrack, Track, Compact.
-/
namespace Verif

/-! ### Auxiliary facts -/

theorem records_eq {g : Lgm} {n : Nat} (h : g.Versions n) :
    records g = (sortedKeys g.patches).flatMap (fun v => ((mget g.patches v).getD []).map fun o => (v, o)) := by
  have h0 : mget g.patches 0 = none := by
    rw [mget_eq_none, h.2.2]; omega
  unfold records
  rw [h.1, h.sortedKeys, List.range_eq_range', List.range'_succ]
  simp only [List.flatMap_cons, h0, List.map_nil, List.nil_append]
  congr 1
  funext v
  cases mget g.patches v <;> rfl

theorem hasPrefix_matches {path pre : Bytes} : hasPrefix (decode path) pre = true ↔ Matches pre path := by
  unfold hasPrefix Matches
  rw [List.isPrefixOf_iff_prefix]
  constructor
  · rintro ⟨r, hr⟩; exact ⟨r, hr.symm⟩
  · rintro ⟨r, hr⟩; exact ⟨r, hr.symm⟩

theorem selWindow_ok (ti tj : Int) : SelOk (selWindow ti tj) (fun _ => False) := by
  constructor
  · intro o h; unfold selWindow at h; split at h <;> simp at h
  · intro o _ h; exact h

theorem selPrefix_ok (pre : Bytes) : SelOk (selPrefix pre) (fun path => ¬ Matches pre path) := by
  constructor
  · intro o h
    unfold selPrefix at h
    rw [← hasPrefix_matches]
    split at h
    · simp at h
    · assumption
  · intro o h
    unfold selPrefix at h
    dsimp only
    rw [← hasPrefix_matches]
    split at h
    · rename_i hp; simp [hp]
    · simp at h

theorem selAll_ok : SelOk (fun _ => .compare) (fun _ => False) :=
  ⟨fun _ h => by simp at h, fun _ _ h => h⟩

theorem Consistent.init (plain : Bytes → Prop) : Consistent plain [] [] := by
  intro path _; rfl

theorem windowMarking_iff {ti tj : Int} {M : List Entry} :
    MarkedFrom (selWindow ti tj) [] M ↔ WindowMarking ti tj M := by
  unfold MarkedFrom WindowMarking
  have : ∀ a (e : Entry), Rule (selWindow ti tj) ([] ++ a) e.op ↔
      ((ti ≤ e.op.ts ∧ e.op.ts ≤ tj) ∧ Changes a e.op) := by
    intro a e
    by_cases h : ti ≤ e.op.ts ∧ e.op.ts ≤ tj <;> simp [Rule, selWindow, inWindow, h]
  simp only [this]

theorem compactMarking_iff {pre : Bytes} {M : List Entry} :
    MarkedFrom (selPrefix pre) [] M ↔ CompactMarking (Matches pre) M := by
  unfold MarkedFrom CompactMarking
  have : ∀ a (e : Entry), Rule (selPrefix pre) ([] ++ a) e.op ↔
      (Matches pre e.op.path → Changes a e.op) := by
    intro a e
    rw [← hasPrefix_matches]
    by_cases h : hasPrefix (decode e.op.path) pre = true <;> simp [Rule, selPrefix, h]
  simp only [this]

theorem trackMarking_iff {M : List Entry} :
    MarkedFrom (fun _ => .compare) [] M ↔ CompactMarking (fun _ => True) M := by
  unfold MarkedFrom CompactMarking
  have : ∀ a (e : Entry), Rule (fun _ => .compare) ([] ++ a) e.op ↔ (True → Changes a e.op) := by
    intro a e; simp [Rule]
  simp only [this]

/-- The specification determines the marks. -/
theorem windowMarking_unique {ti tj : Int} {M N : List Entry} (h1 : WindowMarking ti tj M)
    (h2 : WindowMarking ti tj N) (hu : unmark M = unmark N) : M = N :=
  (windowMarking_iff.2 h1).unique (windowMarking_iff.2 h2) hu

/-- The specification determines the marks. -/
theorem compactMarking_unique {pre : Bytes} {M N : List Entry} (h1 : CompactMarking (Matches pre) M)
    (h2 : CompactMarking (Matches pre) N) (hu : unmark M = unmark N) : M = N :=
  (compactMarking_iff.2 h1).unique (compactMarking_iff.2 h2) hu

/-! ### C11, C12 -/

/-- C11: `TemporalTrack` returns exactly the entries of the log marked by `WindowMarking`: those inside the
window that differ from the last returned operation on the same path; grouped by version in ascending order,
without empty groups.  It panics only if two operations on one path have uncomparable values. -/
theorem C11_temporalTrack {s : St} (h : Reachable s) {ti tj : Int} (hle : ti ≤ tj) :
    (∀ r, (s.lgm.temporalTrack ti tj).2 = .ok r → ∃ M, unmark M = records s.lgm ∧ WindowMarking ti tj M ∧
      entries r = keptOf M ∧ (∀ vp ∈ r, vp.2 ≠ []) ∧ (mkeys r).Pairwise (· < ·)) ∧
    ((s.lgm.temporalTrack ti tj).2.isOk = false → HasUncomparable ((records s.lgm).map Prod.snd)) := by
  obtain ⟨n, hn⟩ := h.versions
  have hm := trackVersions_marks (g := s.lgm) (selWindow_ok ti tj) (sortedKeys s.lgm.patches) [] []
    (Consistent.init _)
  have hrec := records_eq hn
  have hlt : ¬ ti > tj := by omega
  unfold Lgm.temporalTrack
  rw [if_neg hlt]
  cases ht : trackVersions s.lgm (selWindow ti tj) [] (sortedKeys s.lgm.patches) with
  | none =>
    rw [ht] at hm
    refine ⟨by simp, fun _ => ?_⟩
    obtain ⟨y, hy, x, hx, hh⟩ := hm
    have e : (records s.lgm).map Prod.snd = (sortedKeys s.lgm.patches).flatMap s.lgm.patchOf := by
      rw [hrec, List.map_flatMap]
      congr 1
      funext v
      simp [Function.comp_def, Lgm.patchOf]
    rw [e]
    exact ⟨y, by simpa using hy, x, hx, hh⟩
  | some r =>
    rw [ht] at hm
    refine ⟨fun r' hr' => ?_, by simp [Res.isOk]⟩
    simp only [Res.ok.injEq] at hr'
    subst hr'
    obtain ⟨M, m1, m2, m3, m4, m5⟩ := hm
    refine ⟨M, by rw [hrec]; exact m1, windowMarking_iff.1 m3, m2.symm, m4, ?_⟩
    rw [hn.sortedKeys] at m5
    exact List.Pairwise.sublist m5 List.pairwise_lt_range'


/-- A log on which every track variant has something to drop: `a=false, d=true | a=false, a=true`. -/
def dupLog : St :=
  run (newLogument [] demoDoc none).1
    [.store (.patch (some [demoOp b!"a" false 5, demoOp b!"b/d" true 6])), .append,
     .store (.patch (some [demoOp b!"a" false 7, demoOp b!"a" true 9])), .append]

theorem dupLog_reachable : Reachable dupLog := ⟨[], demoDoc, none, _, rfl⟩

example : (dupLog.lgm.temporalTrack 5 9).2 =
    .ok [(1, [demoOp b!"a" false 5, demoOp b!"b/d" true 6]), (2, [demoOp b!"a" true 9])] ∧
    (dupLog.lgm.temporalTrack 6 7).2 =
      .ok [(1, [demoOp b!"b/d" true 6]), (2, [demoOp b!"a" false 7])] := by decide

/-- C11, read off the specification: returned operations lie in the window, the first operation per path in
the window is returned, and two consecutive returned operations on one path have different values. -/
theorem C11_consequences {ti tj : Int} {M : List Entry} (h : WindowMarking ti tj M) :
    (∀ e ∈ M, e.kept = true → ti ≤ e.op.ts ∧ e.op.ts ≤ tj) ∧
    (∀ a e b, M = a ++ e :: b → ti ≤ e.op.ts ∧ e.op.ts ≤ tj →
      (∀ f ∈ a, (ti ≤ f.op.ts ∧ f.op.ts ≤ tj) → f.op.path ≠ e.op.path) → e.kept = true) ∧
    (∀ a e b f c, M = a ++ e :: (b ++ f :: c) → e.kept = true → f.kept = true → e.op.path = f.op.path →
      (∀ g ∈ b, g.kept = true → g.op.path ≠ f.op.path) → ¬ SameGo e.op.value f.op.value) := by
  refine ⟨fun e he hk => ?_, fun a e b hM hw hf => ?_, fun a e b f c hM he hf hp hb => ?_⟩
  · obtain ⟨a, b, rfl⟩ := List.append_of_mem he
    exact ((h a e b rfl).1 hk).1
  · refine (h a e b hM).2 ⟨hw, fun y hy => ?_⟩
    obtain ⟨a', v, c, rfl, hy2, -⟩ := hy
    have hk := (h a' ⟨v, y, true⟩ (c ++ e :: b) (by rw [hM]; simp)).1 rfl
    exact absurd hy2 (hf ⟨v, y, true⟩ (by simp) hk.1)
  · have := ((h (a ++ e :: b) f c (by rw [hM]; simp)).1 hf).2 e.op
    refine this ⟨a, e.version, b, ?_, hp, hb⟩
    cases e
    simp only at he
    subst he
    rfl

/-- C12: `TemporalTrack` changes nothing at all, and an inverted window panics. -/
theorem C12_temporalTrack_readonly (s : St) (ti tj : Int) :
    (step s (.temporalTrack ti tj)).1 = s ∧
    (ti > tj → (s.lgm.temporalTrack ti tj).2 = .panic) := by
  constructor
  · have : (s.lgm.temporalTrack ti tj).1 = s.lgm := by
      unfold Lgm.temporalTrack; repeat' split
      all_goals rfl
    simp only [step, St.onLgm, this]
  · intro h; simp [Lgm.temporalTrack, h]

/-- C12 for `Slice`: versions, recorded patches, pool and current state stay; only a snapshot may be
added. -/
theorem C12_slice_keeps_log {s : St} (h : Reachable s) (vi vj : Nat) :
    let g := (step s (.slice vi vj)).1.lgm
    g.version = s.lgm.version ∧ g.patches = s.lgm.patches ∧ g.pool = s.lgm.pool ∧
      g.current = s.lgm.current := by
  obtain ⟨n, hn⟩ := h.versions
  obtain ⟨sn, hsn⟩ := St.slice_lgm hn vi vj
  simp only [step, hsn]
  exact ⟨trivial, trivial, trivial, trivial⟩

example : Reachable dupLog ∧ (dupLog.slice 1 2).2.isOk = true ∧ (dupLog.slice 1 2).1 ≠ dupLog :=
  ⟨dupLog_reachable, by decide, by decide⟩

/-! ### C13, C14 -/

theorem mget_map_pair [DecidableEq κ] (l : List κ) (f : κ → ν) (k : κ) :
    mget (l.map fun x => (x, f x)) k = if k ∈ l then some (f k) else none := by
  induction l with
  | nil => simp
  | cons x l ih =>
    simp only [List.map_cons, mget_cons, ih, List.mem_cons]
    by_cases h : x = k
    · simp [h]
    · simp [h, Ne.symm h]

theorem mget_restrict {m : List (Nat × α)} {d : α} {vi vj v : Nat} :
    mget (restrict m d vi vj) v = if vi ≤ v ∧ v ≤ vj then mget m v else none := by
  unfold restrict
  rw [mget_map_pair]
  simp only [List.mem_filter, mem_sortedKeys, decide_eq_true_eq]
  by_cases h : vi ≤ v ∧ v ≤ vj
  · simp only [h, and_self, and_true, if_true]
    cases hm : mget m v with
    | none => simp [mget_eq_none.1 hm]
    | some x => simp [mget_isSome.1 ⟨x, hm⟩]
  · simp [h]

theorem restrict_keys_versions {g : Lgm} {n : Nat} (hn : g.Versions n) {vi vj : Nat} :
    (mkeys (restrict g.patches [] vi vj)) = (List.range' 1 n).filter (fun v => decide (vi ≤ v ∧ v ≤ vj)) := by
  unfold restrict mkeys
  rw [hn.sortedKeys, List.map_map]
  simp [Function.comp_def]

/-- C13: `Track(vi, vj)` returns, for exactly the recorded versions in the range, the operations recorded at
the time of the call, in ascending order of versions; any other range panics and changes nothing.
(In range it can only panic on uncomparable values.) -/
theorem C13_track_range {s : St} (h : Reachable s) {n : Nat} (hg : GapFree s.lgm n) (vi vj : Nat) :
    (∀ r, (s.lgm.track vi vj).2 = .ok r → vi ≤ vj ∧ vj ≤ n ∧ (mkeys r).Pairwise (· < ·) ∧
      ∀ v, mget r v = if vi ≤ v ∧ v ≤ vj then mget s.lgm.patches v else none) ∧
    (¬ (vi ≤ vj ∧ vj ≤ n) → s.lgm.track vi vj = (s.lgm, .panic)) ∧
    (vi ≤ vj → vj ≤ n → (s.lgm.track vi vj).2.isOk = false →
      HasUncomparable ((records s.lgm).map Prod.snd)) := by
  obtain ⟨n', hn⟩ := h.versions
  have : n' = n := by
    have := congrArg List.length (hn.1.symm.trans hg.1); simpa using this
  subst this
  by_cases hr : vi ≤ vj ∧ vj ≤ n'
  · refine ⟨fun r hrr => ?_, fun hc => absurd hr hc, fun _ _ hk => ?_⟩
    · refine ⟨hr.1, hr.2, ?_⟩
      have hres : r = restrict s.lgm.patches [] vi vj := by
        unfold Lgm.track at hrr
        rw [hn.checkRange] at hrr
        simp only [hr, and_self, decide_true] at hrr
        split at hrr <;> simp at hrr
        exact hrr.symm
      subst hres
      refine ⟨?_, fun v => mget_restrict⟩
      rw [restrict_keys_versions hn]
      exact List.Pairwise.sublist List.filter_sublist List.pairwise_lt_range'
    · have hk' : ∃ ps, compactVersions (fun _ => .compare) [] s.lgm.patches
          (sortNat (mkeys (restrict s.lgm.patches [] vi vj))) = (ps, false) := by
        unfold Lgm.track at hk
        rw [hn.checkRange] at hk
        simp only [hr, and_self, decide_true] at hk
        rcases hc : compactVersions (fun _ => .compare) [] s.lgm.patches
          (sortNat (mkeys (restrict s.lgm.patches [] vi vj))) with ⟨ps, b⟩
        rw [hc] at hk
        cases b with
        | true => simp [Res.isOk] at hk
        | false => exact ⟨ps, rfl⟩
      obtain ⟨ps, hk'⟩ := hk'
      have hnd : (sortNat (mkeys (restrict s.lgm.patches [] vi vj))).Nodup := by
        refine (sortNat_perm _).nodup_iff.2 ?_
        rw [restrict_keys_versions hn]
        exact List.Nodup.sublist List.filter_sublist List.nodup_range'
      obtain ⟨-, -, h3, -⟩ := compactVersions_marks selAll_ok _ hnd [] [] _ _ _ (Consistent.init _)
        (fun v hv => (mem_restrict_keys.1 (mem_sortNat.1 hv)).1) hk'
      obtain ⟨y, hy, x, hx, hh⟩ := h3 rfl
      have e : (records s.lgm).map Prod.snd =
          (sortedKeys s.lgm.patches).flatMap fun v => (mget s.lgm.patches v).getD [] := by
        rw [records_eq hn, List.map_flatMap]
        congr 1
        funext v
        simp [Function.comp_def]
      have mono : ∀ z, z ∈ (sortNat (mkeys (restrict s.lgm.patches [] vi vj))).flatMap
          (fun v => (mget s.lgm.patches v).getD []) → z ∈ (records s.lgm).map Prod.snd := by
        intro z hz
        rw [e]
        simp only [List.mem_flatMap] at hz ⊢
        obtain ⟨v, hv, hz⟩ := hz
        exact ⟨v, mem_sortedKeys.2 (mem_restrict_keys.1 (mem_sortNat.1 hv)).1, hz⟩
      exact ⟨y, mono y (by simpa using hy), x, mono x hx, hh⟩
  · refine ⟨fun r hrr => ?_, fun _ => ?_, fun h1 h2 => absurd ⟨h1, h2⟩ hr⟩
    · exfalso
      unfold Lgm.track at hrr
      rw [hn.checkRange] at hrr
      simp [hr] at hrr
    · unfold Lgm.track
      rw [hn.checkRange]
      simp [hr]

example : (dupLog.lgm.track 2 2).2 = .ok [(2, [demoOp b!"a" false 7, demoOp b!"a" true 9])] ∧
    (dupLog.lgm.track 2 3).2 = .panic ∧ (dupLog.lgm.track 2 1).2 = .panic ∧
    (dupLog.lgm.track 0 0).2 = .ok [] := by decide

/-- C14 fails: `Track` writes the compacted patches back, so a later `Track` (and the recorded log) differs. -/
theorem C14_track_modifies_fails :
    ∃ s : St, Reachable s ∧ (s.lgm.track 1 2).1.patches ≠ s.lgm.patches ∧
      (s.lgm.track 1 2).2 = .ok [(1, [demoOp b!"a" false 5, demoOp b!"b/d" true 6]),
        (2, [demoOp b!"a" false 7, demoOp b!"a" true 9])] ∧
      ((s.lgm.track 1 2).1.track 1 2).2 = .ok [(1, [demoOp b!"a" false 5, demoOp b!"b/d" true 6]),
        (2, [demoOp b!"a" true 9])] :=
  ⟨dupLog, dupLog_reachable, by decide, by decide, by decide⟩


theorem filter_flatMap_versions (vs : List Nat) (f : Nat → List Op) (P : Nat → Bool) :
    (vs.flatMap fun v => (f v).map fun o => (v, o)).filter (fun r => P r.1) =
      (vs.filter P).flatMap fun v => (f v).map fun o => (v, o) := by
  induction vs with
  | nil => rfl
  | cons v vs ih =>
    simp only [List.flatMap_cons, List.filter_append, ih, List.filter_map, Function.comp_def]
    by_cases h : P v = true
    · have : (f v).filter (fun _ => true) = f v := List.filter_eq_self.2 fun _ _ => rfl
      simp [h, this]
    · simp [h]

theorem track_range_eq {g : Lgm} {n : Nat} (hn : g.Versions n) (vi vj : Nat) :
    sortNat (mkeys (restrict g.patches [] vi vj)) =
      (sortedKeys g.patches).filter (fun v => decide (vi ≤ v ∧ v ≤ vj)) := by
  rw [restrict_keys_versions hn, hn.sortedKeys]
  apply sortNat_eq_of_sorted
  exact List.Pairwise.sublist List.filter_sublist
    ((List.pairwise_lt_range').imp (fun h => Nat.le_of_lt h))

theorem recordsIn_eq {g : Lgm} {n : Nat} (hn : g.Versions n) (vi vj : Nat) :
    recordsIn g vi vj = ((sortedKeys g.patches).filter (fun v => decide (vi ≤ v ∧ v ≤ vj))).flatMap
      (fun v => ((mget g.patches v).getD []).map fun o => (v, o)) := by
  unfold recordsIn
  rw [records_eq hn]
  exact filter_flatMap_versions _ _ (fun v => decide (vi ≤ v ∧ v ≤ vj))

/-- C14 (part): what `Track` writes back.  Versions outside the range, the version list, snapshots, pool and
current state stay; inside the range exactly the operations that do not change the value (relative to the
last kept operation on the same path in the range) are dropped. -/
theorem C14_track_effect_partial {s : St} (h : Reachable s) {vi vj : Nat} {r : List (Nat × List Op)}
    (hr : (s.lgm.track vi vj).2 = .ok r) :
    let g' := (s.lgm.track vi vj).1
    g' = { s.lgm with patches := g'.patches } ∧
    (∀ v, ¬ (vi ≤ v ∧ v ≤ vj) → mget g'.patches v = mget s.lgm.patches v) ∧
    mkeys g'.patches = mkeys s.lgm.patches ∧
    ∃ M, unmark M = recordsIn s.lgm vi vj ∧ CompactMarking (fun _ => True) M ∧
      recordsIn g' vi vj = keptOf M := by
  obtain ⟨n, hn⟩ := h.versions
  dsimp only
  have hb : vi ≤ vj ∧ vj ≤ n := by
    refine Classical.byContradiction fun hc => ?_
    unfold Lgm.track at hr
    rw [hn.checkRange] at hr
    simp [hc] at hr
  have hlgm := hn.track_lgm vi vj
  rw [if_pos hb, track_range_eq hn] at hlgm
  have hok : (compactVersions (fun _ => .compare) [] s.lgm.patches
      ((sortedKeys s.lgm.patches).filter (fun v => decide (vi ≤ v ∧ v ≤ vj)))).2 = true := by
    unfold Lgm.track at hr
    rw [hn.checkRange] at hr
    simp only [hb, and_self, decide_true, track_range_eq hn] at hr
    split at hr
    · rename_i heq; rw [heq]
    · simp at hr
  rcases hc : compactVersions (fun _ => .compare) [] s.lgm.patches
      ((sortedKeys s.lgm.patches).filter (fun v => decide (vi ≤ v ∧ v ≤ vj))) with ⟨ps, b⟩
  rw [hc] at hok hlgm
  dsimp only at hok hlgm
  subst hok
  have hnd : ((sortedKeys s.lgm.patches).filter (fun v => decide (vi ≤ v ∧ v ≤ vj))).Nodup := by
    rw [hn.sortedKeys]; exact List.Nodup.sublist List.filter_sublist List.nodup_range'
  obtain ⟨c1, c2, -, c4⟩ := compactVersions_marks selAll_ok _ hnd [] [] _ _ _ (Consistent.init _)
    (fun v hv => mem_sortedKeys.1 (List.mem_filter.1 hv).1) hc
  obtain ⟨M, m1, m2, m3⟩ := c4 rfl
  have hn' := hn.of_track vi vj
  rw [hlgm]
  refine ⟨rfl, fun v hv => c1 v (by simp [List.mem_filter]; grind only), c2, M, ?_,
    trackMarking_iff.1 m3, ?_⟩
  · rw [recordsIn_eq hn]; exact m1
  · rw [hlgm] at hn'
    rw [recordsIn_eq hn', m2]
    have : sortedKeys ps = sortedKeys s.lgm.patches := by unfold sortedKeys; rw [c2]
    simp only [this]

theorem patches_ext {p q : List (Nat × α)} (hk : mkeys p = mkeys q) (hnd : (mkeys p).Nodup)
    (h : ∀ v, mget p v = mget q v) : p = q := by
  induction p generalizing q with
  | nil => cases q with
    | nil => rfl
    | cons y q => simp [mkeys] at hk
  | cons x p ih =>
    cases q with
    | nil => simp [mkeys] at hk
    | cons y q =>
      obtain ⟨k, a⟩ := x
      obtain ⟨k', b⟩ := y
      simp only [mkeys, List.map_cons, List.cons.injEq] at hk hnd
      obtain ⟨rfl, hk⟩ := hk
      rw [List.nodup_cons] at hnd
      have := h k
      simp only [mget_cons, if_true, Option.some.injEq] at this
      subst this
      congr 1
      refine ih hk hnd.2 fun v => ?_
      have hv := h v
      simp only [mget_cons] at hv
      by_cases hkv : k = v
      · subst hkv
        rw [mget_eq_none.2 hnd.1, mget_eq_none.2 (by unfold mkeys; rw [← hk]; exact hnd.1)]
      · simpa [hkv] using hv

/-- The patch of a version, read off the log. -/
theorem patch_of_records {g : Lgm} {n : Nat} (hn : g.Versions n) (v : Nat) :
    (mget g.patches v).getD [] = ((records g).filter fun r => r.1 == v).map Prod.snd := by
  have := filter_flatMap_versions (sortedKeys g.patches) (fun v => (mget g.patches v).getD []) (· == v)
  rw [records_eq hn, this, hn.sortedKeys]
  by_cases hv : v ∈ List.range' 1 n
  · have : (List.range' 1 n).filter (fun x => x == v) = [v] := by
      have hnd : (List.range' 1 n).Nodup := List.nodup_range'
      generalize List.range' 1 n = l at hv hnd
      induction l with
      | nil => simp at hv
      | cons x l ih =>
        rw [List.nodup_cons] at hnd
        by_cases hx : x = v
        · subst hx
          simp only [List.filter_cons, beq_self_eq_true, if_true]
          congr 1
          rw [List.filter_eq_nil_iff]
          intro y hy hyx
          simp at hyx
          subst hyx
          exact hnd.1 hy
        · simp only [List.filter_cons, beq_iff_eq, hx, if_false]
          exact ih (by simpa [Ne.symm hx] using hv) hnd.2
    rw [this]
    simp [Function.comp_def]
  · have hnone : mget g.patches v = none := by
      rw [mget_eq_none, h_mem hn v]; exact hv
    have : (List.range' 1 n).filter (fun x => x == v) = [] := by
      rw [List.filter_eq_nil_iff]
      intro y hy hyx
      simp at hyx; subst hyx; exact hv hy
    rw [this, hnone]; rfl
where
  h_mem {g : Lgm} {n : Nat} (hn : g.Versions n) (v : Nat) : v ∈ mkeys g.patches ↔ v ∈ List.range' 1 n := by
    rw [← mem_sortedKeys, hn.sortedKeys]

/-- C14 (part): `Track` is read-only on a range without repeated values. -/
theorem C14_track_readonly_partial {s : St} (h : Reachable s) {vi vj : Nat} {r : List (Nat × List Op)}
    (hr : (s.lgm.track vi vj).2 = .ok r) (hno : NoRepeats (recordsIn s.lgm vi vj)) :
    (s.lgm.track vi vj).1 = s.lgm := by
  obtain ⟨n, hn⟩ := h.versions
  obtain ⟨e1, e2, e3, M, m1, m2, m3⟩ := C14_track_effect_partial h hr
  have hn' := hn.of_track vi vj
  have hM : M = (recordsIn s.lgm vi vj).map fun r => ⟨r.1, r.2, true⟩ := by
    refine (trackMarking_iff.2 m2).unique (trackMarking_iff.2 hno) ?_
    rw [m1]; simp [unmark, Function.comp_def]
  have hrec : recordsIn (s.lgm.track vi vj).1 vi vj = recordsIn s.lgm vi vj := by
    rw [m3, hM]; simp [keptOf, unmark, Function.comp_def, List.filter_map]
  rw [e1]
  have hp : (s.lgm.track vi vj).1.patches = s.lgm.patches := by
    refine patches_ext e3 (by rw [e3]; exact hn.2.1) fun v => ?_
    by_cases hv : vi ≤ v ∧ v ≤ vj
    · have key : ∀ {g : Lgm} {n : Nat}, g.Versions n → (mget g.patches v).getD [] =
          ((recordsIn g vi vj).filter fun r => r.1 == v).map Prod.snd := by
        intro g n hg
        rw [patch_of_records hg v]
        congr 1
        unfold recordsIn
        rw [List.filter_filter]
        apply List.filter_congr
        intro x _
        by_cases hx : x.1 = v
        · simp [hx, hv]
        · simp [hx]
      have := (key hn').trans ((congrArg _ (congrArg _ hrec)).trans (key hn).symm)
      have hk : (∃ p, mget (s.lgm.track vi vj).1.patches v = some p) ↔ ∃ p, mget s.lgm.patches v = some p := by
        rw [mget_isSome, mget_isSome, e3]
      cases h1 : mget (s.lgm.track vi vj).1.patches v with
      | none =>
        cases h2 : mget s.lgm.patches v with
        | none => rfl
        | some p => rw [h1, h2] at hk; simp at hk
      | some p =>
        cases h2 : mget s.lgm.patches v with
        | none => rw [h1, h2] at hk; simp at hk
        | some q => rw [h1, h2] at this; simp at this; rw [this]
    · exact e2 v hv
  rw [hp]

theorem demo_noRepeats : NoRepeats (records demo.lgm) := by
  have hr : records demo.lgm = [(1, demoOp b!"a" false 5), (1, demoOp b!"b/d" true 6),
      (2, demoOp b!"a" true 9)] := by decide
  rw [hr]
  intro a e b h
  refine ⟨fun _ _ y hy => ?_, fun _ => ?_⟩
  · have hy' := lastKept_iff.2 hy
    match a, h with
    | [], h => simp [lastKept] at hy'
    | [_], h =>
      simp only [List.map_cons, List.map_nil, List.cons_append, List.nil_append, List.cons.injEq] at h
      obtain ⟨rfl, rfl, -⟩ := h
      simp [lastKept, demoOp] at hy'
    | [_, _], h =>
      simp only [List.map_cons, List.map_nil, List.cons_append, List.nil_append, List.cons.injEq] at h
      obtain ⟨rfl, rfl, rfl, -⟩ := h
      simp [lastKept, demoOp] at hy'
      subst hy'
      intro hc; cases hc
    | _ :: _ :: _ :: _, h => simp at h
  · have : e ∈ [(1, demoOp b!"a" false 5), (1, demoOp b!"b/d" true 6), (2, demoOp b!"a" true 9)].map
        (fun r : Nat × Op => (⟨r.1, r.2, true⟩ : Entry)) := by rw [h]; simp
    obtain ⟨x, -, rfl⟩ := List.mem_map.1 this
    rfl

example : Reachable demo ∧ (demo.lgm.track 0 2).2.isOk = true ∧ NoRepeats (recordsIn demo.lgm 0 2) :=
  ⟨demo_reachable, by decide, by
    have : recordsIn demo.lgm 0 2 = records demo.lgm := by decide
    rw [this]; exact demo_noRepeats⟩

/-! ### C15, C16 -/

theorem compact_core {g : Lgm} {n : Nat} (hn : g.Versions n) (pre : Bytes) :
    (∀ r, (g.compact pre).2 = .ok r →
      (g.compact pre).1 = { g with patches := (g.compact pre).1.patches } ∧
      mkeys (g.compact pre).1.patches = mkeys g.patches ∧
      ∃ M, unmark M = records g ∧ CompactMarking (Matches pre) M ∧
        records (g.compact pre).1 = keptOf M) ∧
    ((g.compact pre).2.isOk = false → HasUncomparable ((records g).map Prod.snd)) := by
  have hlgm := hn.compact_lgm pre
  have hn' := hn.of_compact pre
  have hnd : (sortedKeys g.patches).Nodup := by rw [hn.sortedKeys]; exact List.nodup_range'
  rcases hc : compactVersions (selPrefix pre) [] g.patches (sortedKeys g.patches) with ⟨ps, b⟩
  obtain ⟨-, c2, c3, c4⟩ := compactVersions_marks (selPrefix_ok pre) _ hnd [] [] _ _ _ (Consistent.init _)
    (fun v hv => mem_sortedKeys.1 hv) hc
  have hout : (g.compact pre).2 = if b then .ok () else .panic := by
    unfold Lgm.compact
    rw [hn.isContinuous]
    dsimp only
    rw [hc]
    cases b <;> rfl
  rw [hc] at hlgm
  dsimp only at hlgm
  rw [hlgm] at hn'
  refine ⟨fun r hr => ?_, fun hf => ?_⟩
  · have hb : b = true := by
      rw [hout] at hr; cases b with
      | true => rfl
      | false => simp at hr
    obtain ⟨M, m1, m2, m3⟩ := c4 hb
    rw [hlgm]
    refine ⟨rfl, c2, M, by rw [records_eq hn]; exact m1, compactMarking_iff.1 m3, ?_⟩
    rw [records_eq hn', m2]
    have : sortedKeys ps = sortedKeys g.patches := by unfold sortedKeys; rw [c2]
    simp only [this]
  · have hb : b = false := by
      rw [hout] at hf; cases b with
      | true => simp [Res.isOk] at hf
      | false => rfl
    obtain ⟨y, hy, x, hx, hh⟩ := c3 hb
    have e : (records g).map Prod.snd =
        (sortedKeys g.patches).flatMap fun v => (mget g.patches v).getD [] := by
      rw [records_eq hn, List.map_flatMap]
      congr 1
      funext v
      simp [Function.comp_def]
    rw [e]
    exact ⟨y, by simpa using hy, x, hx, hh⟩

/-- C15: `Compact(pre)` drops exactly the operations on matching paths that do not change the value relative
to the last kept operation on the path; every version stays; versions list, snapshots, pool, current state
and documents are untouched; it panics only on uncomparable values. -/
theorem C15_compact {s : St} (h : Reachable s) (pre : Bytes) :
    let s' := (step s (.compact pre)).1
    ((step s (.compact pre)).2.isOk = true →
      s'.heap = s.heap ∧ s'.lgm = { s.lgm with patches := s'.lgm.patches } ∧
      mkeys s'.lgm.patches = mkeys s.lgm.patches ∧
      ∃ M, unmark M = records s.lgm ∧ CompactMarking (Matches pre) M ∧ records s'.lgm = keptOf M) ∧
    ((step s (.compact pre)).2.isOk = false → HasUncomparable ((records s.lgm).map Prod.snd)) := by
  obtain ⟨n, hn⟩ := h.versions
  have := compact_core hn pre
  dsimp only
  simp only [step, St.onLgm]
  refine ⟨fun hok => ?_, fun hf => this.2 ?_⟩
  · cases hr : (s.lgm.compact pre).2 with
    | ok r => exact ⟨trivial, this.1 r hr⟩
    | err => rw [hr] at hok; simp [Res.map, Res.isOk] at hok
    | panic => rw [hr] at hok; simp [Res.map, Res.isOk] at hok
  · cases hr : (s.lgm.compact pre).2 with
    | ok r => rw [hr] at hf; simp [Res.map, Res.isOk] at hf
    | err => rfl
    | panic => rfl

example : (step dupLog (.compact b!"a")).1.lgm.patches =
    [(1, [demoOp b!"a" false 5, demoOp b!"b/d" true 6]), (2, [demoOp b!"a" true 9])] ∧
    (step dupLog (.compact b!"b")).1.lgm.patches = dupLog.lgm.patches := by decide

/-- C15, read off the specification: non-matching operations and the first operation per path are kept, and
consecutive kept operations on one matching path have different values. -/
theorem C15_consequences {pre : Bytes} {M : List Entry} (h : CompactMarking (Matches pre) M) :
    (∀ e ∈ M, ¬ Matches pre e.op.path → e.kept = true) ∧
    (∀ a e b, M = a ++ e :: b → (∀ f ∈ a, f.op.path ≠ e.op.path) → e.kept = true) ∧
    (∀ a e b f c, M = a ++ e :: (b ++ f :: c) → Matches pre f.op.path → e.kept = true → f.kept = true →
      e.op.path = f.op.path → (∀ g ∈ b, g.kept = true → g.op.path ≠ f.op.path) →
      ¬ SameGo e.op.value f.op.value) := by
  refine ⟨fun e he hk => ?_, fun a e b hM hf => ?_, fun a e b f c hM hm he hf hp hb => ?_⟩
  · obtain ⟨a, b, rfl⟩ := List.append_of_mem he
    exact (h a e b rfl).2 fun hc => absurd hc hk
  · refine (h a e b hM).2 fun _ y hy => ?_
    obtain ⟨a', v, c, rfl, hy2, -⟩ := hy
    exact absurd hy2 (hf ⟨v, y, true⟩ (by simp))
  · have := (h (a ++ e :: b) f c (by rw [hM]; simp)).1 hf hm e.op
    refine this ⟨a, e.version, b, ?_, hp, hb⟩
    cases e
    simp only at he
    subst he
    rfl

/-- C16: compacting twice is compacting once. -/
theorem C16_compact_idempotent {s : St} (h : Reachable s) (pre : Bytes)
    (hok : (step s (.compact pre)).2.isOk = true) :
    (step (step s (.compact pre)).1 (.compact pre)).1 = (step s (.compact pre)).1 ∧
    (step (step s (.compact pre)).1 (.compact pre)).2.isOk = true := by
  obtain ⟨n, hn⟩ := h.versions
  have hn' := hn.of_compact pre
  have hlgm := hn.compact_lgm pre
  have hnd : (sortedKeys s.lgm.patches).Nodup := by rw [hn.sortedKeys]; exact List.nodup_range'
  rcases hc : compactVersions (selPrefix pre) [] s.lgm.patches (sortedKeys s.lgm.patches) with ⟨ps, b⟩
  have hb : b = true := by
    simp only [step, St.onLgm, Lgm.compact] at hok
    rw [hn.isContinuous] at hok
    simp only [hc] at hok
    cases b with
    | true => rfl
    | false => simp [Res.map, Res.isOk] at hok
  subst hb
  have hk : sortedKeys ps = sortedKeys s.lgm.patches := by
    have := compactVersions_keys (selPrefix pre) [] s.lgm.patches (sortedKeys s.lgm.patches)
      (fun v hv => mem_sortedKeys.1 hv)
    rw [hc] at this
    unfold sortedKeys; rw [this]
  have hidem := compactVersions_idem (selPrefix pre) _ hnd hc ps (fun _ _ => rfl)
  simp only [step, St.onLgm]
  rw [hc] at hlgm
  dsimp only at hlgm
  rw [hlgm] at hn' ⊢
  generalize hg : ({ s.lgm with patches := ps } : Lgm) = g' at *
  have hps : g'.patches = ps := by rw [← hg]
  unfold Lgm.compact
  rw [hn'.isContinuous]
  simp only [hps, hk, hidem]
  refine ⟨?_, rfl⟩
  rw [← hg]

example : (step dupLog (.compact [])).2.isOk = true ∧ (step dupLog (.compact [])).1 ≠ dupLog := by decide

/-- C16, second half (part): on a log without repeated values whose timestamps do not decrease along a path,
`TemporalTrack` returns every operation in the window.
Missing: without the time order this fails (`C16_unordered_fails`). -/
theorem C16_track_of_compacted_partial {s : St} (h : Reachable s) {ti tj : Int} (hle : ti ≤ tj)
    (hno : NoRepeats (records s.lgm)) (ht : TimeOrdered (records s.lgm)) {r : List (Nat × List Op)}
    (hr : (s.lgm.temporalTrack ti tj).2 = .ok r) :
    entries r = (records s.lgm).filter fun x => decide (ti ≤ x.2.ts ∧ x.2.ts ≤ tj) := by
  obtain ⟨M, m1, m2, m3, -, -⟩ := (C11_temporalTrack h hle).1 r hr
  let N : List Entry := (records s.lgm).map fun x => ⟨x.1, x.2, decide (ti ≤ x.2.ts ∧ x.2.ts ≤ tj)⟩
  have hN : WindowMarking ti tj N := by
    intro a e b hab
    obtain ⟨a', c', hrec, ha, hc⟩ := List.map_eq_append_iff.1 hab
    obtain ⟨x, b', rfl, hx, hb⟩ := List.map_eq_cons_iff.1 hc
    subst hx
    simp only [decide_eq_true_eq]
    refine ⟨fun hw => ⟨hw, fun y hy => ?_⟩, fun hw => hw.1⟩
    obtain ⟨p, v, q, hpq, hyp, hq⟩ := hy
    rw [hpq] at ha
    obtain ⟨p', q1, hp1, hp2, hp3⟩ := List.map_eq_append_iff.1 ha
    obtain ⟨z, q', rfl, hz, hq2⟩ := List.map_eq_cons_iff.1 hp3
    simp only [Entry.mk.injEq, decide_eq_true_eq] at hz
    obtain ⟨rfl, rfl, hzw⟩ := hz
    -- in the all-kept marking the same operation is the last one on the path
    have := (hno (a'.map fun r => ⟨r.1, r.2, true⟩) ⟨x.1, x.2, true⟩ (b'.map fun r => ⟨r.1, r.2, true⟩)
      (by rw [hrec]; simp)).1 rfl trivial z.2
    refine this ⟨p'.map fun r => ⟨r.1, r.2, true⟩, z.1, q'.map fun r => ⟨r.1, r.2, true⟩,
      by rw [hp1]; simp, hyp, ?_⟩
    intro f hf _ hfp
    obtain ⟨u, hu, rfl⟩ := List.mem_map.1 hf
    simp only at hfp
    have ho : TimeOrdered (records s.lgm) := ht
    unfold TimeOrdered at ho
    rw [hrec, hp1, List.pairwise_append] at ho
    obtain ⟨o1, o2, o3⟩ := ho
    rw [List.pairwise_append, List.pairwise_cons] at o1
    have t1 : z.2.ts ≤ u.2.ts := o1.2.1.1 u hu (by rw [hyp, hfp])
    have t2 : u.2.ts ≤ x.2.ts := o3 u (by simp [hu]) x (by simp) hfp
    have hkept := hq ⟨u.1, u.2, decide (ti ≤ u.2.ts ∧ u.2.ts ≤ tj)⟩ (by rw [← hq2]; exact List.mem_map.2 ⟨u, hu, rfl⟩)
    simp only [decide_eq_true_eq] at hkept
    exact hkept (by omega) hfp
  have hMN : M = N := windowMarking_unique m2 hN (by rw [m1]; simp [N, unmark, Function.comp_def])
  rw [m3, hMN]
  simp [N, keptOf, unmark, List.filter_map, Function.comp_def]

example : NoRepeats (records demo.lgm) ∧ TimeOrdered (records demo.lgm) ∧
    (demo.lgm.temporalTrack 6 9).2.isOk = true :=
  ⟨demo_noRepeats, by unfold TimeOrdered; decide, by decide⟩

/-- C16, second half, fails without the time order: the log `a=true<5>, a=false<50>, a=true<6>` has no repeated
values, but `TemporalTrack(5, 6)` drops the operation of time 6. -/
theorem C16_unordered_fails :
    let s := run (newLogument [] demoDoc none).1
      [.store (.patch (some [demoOp b!"a" true 5, demoOp b!"a" false 50, demoOp b!"a" true 6])), .append]
    Reachable s ∧ (step s (.compact [])).1 = s ∧
      (s.lgm.temporalTrack 5 6).2 = .ok [(1, [demoOp b!"a" true 5])] :=
  ⟨⟨[], demoDoc, none, _, rfl⟩, by decide, by decide⟩

end Verif
