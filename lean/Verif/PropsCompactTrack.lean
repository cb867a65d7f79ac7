import Verif.PropsWindows
/-
C108: tracks of a compacted log.
-/
namespace Verif

/-! ### Compaction path by path -/

theorem opChanges_idem (l : List Op) : ∀ v, opChanges v (opChanges v l) = opChanges v l := by
  induction l with
  | nil => intro v; cases v <;> rfl
  | cons p l ih =>
    intro v
    cases v with
    | none => simp only [opChanges, ih]
    | some v =>
      simp only [opChanges]
      split
      · exact ih _
      · rename_i he
        simp only [opChanges, if_neg he, ih]

theorem opChanges_le (l : List Op) : ∀ v, (opChanges v l).length ≤ l.length := by
  induction l with
  | nil => intro v; cases v <;> simp [opChanges]
  | cons p l ih =>
    intro v
    cases v with
    | none => simp only [opChanges, List.length_cons]; have := ih (some p.value); omega
    | some v =>
      simp only [opChanges]
      split
      · have := ih (some v); simp only [List.length_cons]; omega
      · have := ih (some p.value); simp only [List.length_cons]; omega

theorem opChanges_again (l : List Op) (v : Option GVal) : opChanges none (opChanges v l) = opChanges v l := by
  cases v with
  | none => exact opChanges_idem l none
  | some v =>
    have hi := opChanges_idem l (some v)
    generalize opChanges (some v) l = X at hi
    cases X with
    | nil => rfl
    | cons x X =>
      simp only [opChanges] at hi ⊢
      split at hi
      · have := congrArg List.length hi
        have hle := opChanges_le X (some v)
        simp only [List.length_cons] at this
        omega
      · exact hi

theorem compactOps_prefix (q pre : Bytes) (l : List Op) : ∀ (latest : List (Bytes × GVal)) {ps lat},
    compactOps (selPrefix pre) latest l = some (ps, lat) →
    (Matches pre q → ps.filter (fun p => decide (p.path = q)) = opChanges (mget latest q) (l.filter fun p => decide (p.path = q))) ∧
    (¬ Matches pre q → ps.filter (fun p => decide (p.path = q)) = l.filter fun p => decide (p.path = q)) := by
  induction l with
  | nil =>
    intro latest ps lat h
    simp only [compactOps, Option.some.injEq, Prod.mk.injEq] at h
    obtain ⟨rfl, rfl⟩ := h
    exact ⟨fun _ => by cases mget latest q <;> rfl, fun _ => rfl⟩
  | cons p l ih =>
    intro latest ps lat h
    simp only [compactOps] at h
    have keep : ∀ {ps}, ((compactOps (selPrefix pre) (mset latest p.path p.value) l).map fun r => (p :: r.1, r.2)) = some (ps, lat) →
        (Matches pre q → ps.filter (fun p => decide (p.path = q)) =
          if p.path = q then p :: opChanges (some p.value) (l.filter fun p => decide (p.path = q))
          else opChanges (mget latest q) (l.filter fun p => decide (p.path = q))) ∧
        (¬ Matches pre q → ps.filter (fun p => decide (p.path = q)) = (p :: l).filter fun p => decide (p.path = q)) := by
      intro ps h
      cases hr : compactOps (selPrefix pre) (mset latest p.path p.value) l with
      | none => rw [hr] at h; simp at h
      | some r =>
        rw [hr] at h
        simp only [Option.map_some, Option.some.injEq, Prod.mk.injEq] at h
        obtain ⟨rfl, -⟩ := h
        obtain ⟨i1, i2⟩ := ih _ hr
        by_cases hq : p.path = q
        · subst hq
          rw [mget_mset_self] at i1
          rw [List.filter_cons_of_pos (by simp), List.filter_cons_of_pos (by simp), if_pos rfl]
          exact ⟨fun hm => by rw [i1 hm], fun hm => by rw [i2 hm]⟩
        · rw [mget_mset_ne _ _ (Ne.symm hq)] at i1
          rw [List.filter_cons_of_neg (by simpa using hq), List.filter_cons_of_neg (by simpa using hq), if_neg hq]
          exact ⟨i1, i2⟩
    by_cases hp : hasPrefix (decode p.path) pre = true
    · have hsel : selPrefix pre p = .compare := by simp [selPrefix, hp]
      rw [hsel] at h
      dsimp only at h
      have out : ∀ {ps : List Op}, (Matches pre q → ps.filter (fun p => decide (p.path = q)) =
          if p.path = q then p :: opChanges (some p.value) (l.filter fun p => decide (p.path = q))
          else opChanges (mget latest q) (l.filter fun p => decide (p.path = q))) →
          (∀ v, mget latest p.path = some v → GVal.goEq v p.value ≠ some true) → Matches pre q →
          ps.filter (fun p => decide (p.path = q)) = opChanges (mget latest q) ((p :: l).filter fun p => decide (p.path = q)) := by
        intro ps k1 hne hm
        rw [k1 hm]
        by_cases hq : p.path = q
        · subst hq
          rw [if_pos rfl, List.filter_cons_of_pos (by simp)]
          cases hg : mget latest p.path with
          | none => rfl
          | some v => rw [opChanges, if_neg (hne v hg)]
        · rw [if_neg hq, List.filter_cons_of_neg (by simpa using hq)]
      cases hg : mget latest p.path with
      | none =>
        rw [hg] at h
        obtain ⟨k1, k2⟩ := keep h
        exact ⟨out k1 (by simp [hg]), k2⟩
      | some v =>
        rw [hg] at h
        dsimp only at h
        cases he : GVal.goEq v p.value with
        | none => rw [he] at h; simp at h
        | some c =>
          rw [he] at h
          cases c with
          | true =>
            obtain ⟨i1, i2⟩ := ih _ h
            by_cases hq : p.path = q
            · subst hq
              rw [List.filter_cons_of_pos (by simp)]
              refine ⟨fun hm => ?_, fun hm => absurd (hasPrefix_matches.1 hp) hm⟩
              rw [i1 hm, hg, opChanges, if_pos he]
            · rw [List.filter_cons_of_neg (by simpa using hq)]
              exact ⟨i1, i2⟩
          | false =>
            obtain ⟨k1, k2⟩ := keep h
            exact ⟨out k1 (by intro w hw; rw [hg] at hw; cases hw; rw [he]; simp), k2⟩
    · have hsel : selPrefix pre p = .keep := by simp [selPrefix, hp]
      rw [hsel] at h
      dsimp only at h
      cases hr : compactOps (selPrefix pre) latest l with
      | none => rw [hr] at h; simp at h
      | some r =>
        rw [hr] at h
        simp only [Option.map_some, Option.some.injEq, Prod.mk.injEq] at h
        obtain ⟨rfl, -⟩ := h
        obtain ⟨i1, i2⟩ := ih _ hr
        by_cases hq : p.path = q
        · subst hq
          rw [List.filter_cons_of_pos (by simp), List.filter_cons_of_pos (by simp)]
          exact ⟨fun hm => absurd (hasPrefix_matches.2 hm) hp, fun hm => by rw [i2 hm]⟩
        · rw [List.filter_cons_of_neg (by simpa using hq), List.filter_cons_of_neg (by simpa using hq)]
          exact ⟨i1, i2⟩

/-- What `Compact` leaves on one path. -/
theorem compact_path {s : St} (h : Reachable s) {pre : Bytes} (hok : (s.lgm.compact pre).2.isOk = true) (q : Bytes) :
    (Matches pre q → opsOn q (records (s.lgm.compact pre).1) = opChanges none (opsOn q (records s.lgm))) ∧
    (¬ Matches pre q → opsOn q (records (s.lgm.compact pre).1) = opsOn q (records s.lgm)) := by
  obtain ⟨n, hn⟩ := h.versions
  obtain ⟨i1, -, i3⟩ := compactVersions_ungrouped (selPrefix pre) (List.range' 1 n) List.nodup_range' [] s.lgm.patches
  have hn2 := hn.of_compact pre
  rw [← hn.committed] at i1 i3
  have flt : ∀ l : List (Nat × Op), opsOn q l = (l.map Prod.snd).filter fun p => decide (p.path = q) := by
    intro l; rw [List.filter_map]; rfl
  rw [flt, flt]
  have hcom : committed (s.lgm.compact pre).1 = (List.range' 1 n).flatMap fun v =>
      (mget (compactVersions (selPrefix pre) [] s.lgm.patches (List.range' 1 n)).1 v).getD [] := by
    rw [hn2.committed]
    unfold Lgm.compact
    rw [hn.isContinuous]
    simp only [hn.sortedKeys]
    rcases compactVersions (selPrefix pre) [] s.lgm.patches (List.range' 1 n) with ⟨ps, b⟩
    cases b <;> rfl
  have hb : (compactVersions (selPrefix pre) [] s.lgm.patches (List.range' 1 n)).2 = true := by
    unfold Lgm.compact at hok
    rw [hn.isContinuous] at hok
    simp only [hn.sortedKeys] at hok
    rcases hv : compactVersions (selPrefix pre) [] s.lgm.patches (List.range' 1 n) with ⟨ps, b⟩
    rw [hv] at hok
    cases b with
    | true => rfl
    | false => simp [Res.isOk] at hok
  rw [i1] at hb
  obtain ⟨x, hx⟩ := Option.isSome_iff_exists.1 hb
  rw [i3 x hx] at hcom
  have := compactOps_prefix q pre _ _ hx
  rw [← hcom] at this
  exact this

/-! ### C108 -/

/-- C108 (part): over a window that contains all recorded times, `TemporalTrack` reports the same before and after `Compact`. -/
theorem C108_all_partial {s : St} (h : Reachable s) {pre : Bytes} (hok : (step s (.compact pre)).2.isOk = true) {a b : Int}
    (hw : ∀ p ∈ committed s.lgm, a ≤ p.ts ∧ p.ts ≤ b) {r r' : List (Nat × List Op)}
    (hr : (s.lgm.temporalTrack a b).2 = .ok r) (hr' : ((step s (.compact pre)).1.lgm.temporalTrack a b).2 = .ok r') (q : Bytes) :
    opsOn q (entries r') = opsOn q (entries r) := by
  have hok' : (s.lgm.compact pre).2.isOk = true := by
    simp only [step, St.onLgm] at hok
    cases hc : (s.lgm.compact pre).2 <;> rw [hc] at hok <;> simp_all [Res.map, Res.isOk]
  have hs' : Reachable (step s (.compact pre)).1 := h.step _
  rw [temporalTrack_path h hr, temporalTrack_path hs' hr']
  obtain ⟨c1, c2⟩ := compact_path h hok' q
  have all : ∀ {l}, (∀ p ∈ l, p ∈ opsOn q (records s.lgm)) → within a b l = l := by
    intro l hl
    unfold within
    rw [List.filter_eq_self]
    intro p hp
    have hp := hl p hp
    simp only [opsOn, List.mem_map, List.mem_filter] at hp
    obtain ⟨x, ⟨hx, -⟩, rfl⟩ := hp
    simpa using hw x.2 (List.mem_map.2 ⟨x, hx, rfl⟩)
  show opChanges none (within a b (opsOn q (records (s.lgm.compact pre).1))) = _
  by_cases hm : Matches pre q
  · rw [c1 hm, all (opChanges_sub _ _), all (fun _ h => h), opChanges_again]
  · rw [c2 hm]

/-- C108 (part): over any window, if the operations on each path are recorded in order of their times: after `Compact` the
track of a path is the same or lacks its first operation, which repeats an earlier value; paths outside the prefix keep their tracks.
Missing from the full statement: that operation (`C108_first_fails`). -/
theorem C108_window_partial {s : St} (h : Reachable s) (ht : TimeOrdered (records s.lgm)) {pre : Bytes}
    (hok : (step s (.compact pre)).2.isOk = true) {a b : Int} {r r' : List (Nat × List Op)}
    (hr : (s.lgm.temporalTrack a b).2 = .ok r) (hr' : ((step s (.compact pre)).1.lgm.temporalTrack a b).2 = .ok r') (q : Bytes) :
    opsOn q (entries r) = opsOn q (entries r') ∨
    Matches pre q ∧ ∃ x y, opsOn q (entries r) = x :: opsOn q (entries r') ∧
      (within a b (opsOn q (records s.lgm))).head? = some x ∧
      y ∈ opsOn q (records s.lgm) ∧ y.ts < a ∧ SameGo y.value x.value := by
  have hok' : (s.lgm.compact pre).2.isOk = true := by
    simp only [step, St.onLgm] at hok
    cases hc : (s.lgm.compact pre).2 <;> rw [hc] at hok <;> simp_all [Res.map, Res.isOk]
  have hab : a ≤ b := by
    unfold Lgm.temporalTrack at hr
    by_cases hle : a > b
    · simp [hle] at hr
    · omega
  have hs' : Reachable (step s (.compact pre)).1 := h.step _
  rw [temporalTrack_path h hr, temporalTrack_path hs' hr']
  obtain ⟨c1, c2⟩ := compact_path h hok' q
  show _ = opChanges none (within a b (opsOn q (records (s.lgm.compact pre).1))) ∨
    _ ∧ ∃ x y, _ = x :: opChanges none (within a b (opsOn q (records (s.lgm.compact pre).1))) ∧ _
  by_cases hm : Matches pre q
  · rw [c1 hm]
    have hs : (opsOn q (records s.lgm)).Pairwise fun x y => x.ts ≤ y.ts := by
      unfold opsOn
      rw [List.pairwise_map, List.pairwise_filter]
      refine List.Pairwise.imp ?_ ht
      intro x y hxy hx hy
      simp only [decide_eq_true_eq] at hx hy
      exact hxy (hx.trans hy.symm)
    generalize opsOn q (records s.lgm) = L at *
    -- a window around everything
    obtain ⟨lo, hi, hlo, hhi, hall⟩ : ∃ lo hi : Int, lo ≤ a ∧ b ≤ hi ∧ within lo hi L = L := by
      clear hs c1 c2
      induction L with
      | nil => exact ⟨a, b, by omega, by omega, rfl⟩
      | cons p L ih =>
        obtain ⟨lo, hi, h1, h2, h3⟩ := ih
        refine ⟨min lo p.ts, max hi p.ts, by omega, by omega, ?_⟩
        unfold within at h3 ⊢
        rw [List.filter_eq_self] at h3 ⊢
        intro x hx
        rcases List.mem_cons.1 hx with rfl | hx
        · simp only [decide_eq_true_eq]; omega
        · have := h3 x hx
          simp only [decide_eq_true_eq] at this ⊢
          omega
    have hsp := within_split hlo hhi hab L hs
    rw [hall] at hsp
    obtain ⟨A, B, e, hA, hB, eA⟩ := opChanges_inner (within lo (a - 1) L) (within a b L) (within (b + 1) hi L)
    rw [← hsp] at e
    have hin : ∀ {c d : Int} {p}, p ∈ within c d L → c ≤ p.ts ∧ p.ts ≤ d := by
      intro c d p hp
      simpa using (List.mem_filter.1 hp).2
    have f1 : within a b A = [] := by
      simp only [within, List.filter_eq_nil_iff, decide_eq_true_eq]
      intro p hp; have := hin (hA p hp); omega
    have f3 : within a b B = [] := by
      simp only [within, List.filter_eq_nil_iff, decide_eq_true_eq]
      intro p hp; have := hin (hB p hp); omega
    have f2 : within a b (opChanges (comparedAfter none (within lo (a - 1) L)) (within a b L)) =
        opChanges (comparedAfter none (within lo (a - 1) L)) (within a b L) := by
      unfold within
      rw [List.filter_eq_self]
      intro p hp
      simpa using hin (opChanges_sub _ _ p hp)
    have fin : within a b (opChanges none L) = opChanges (comparedAfter none (within lo (a - 1) L)) (within a b L) := by
      rw [e]
      have app : ∀ x y, within a b (x ++ y) = within a b x ++ within a b y := fun x y => List.filter_append x y
      rw [app, app, f1, f2, f3]; simp
    rw [fin, opChanges_again]
    cases hv : comparedAfter none (within lo (a - 1) L) with
    | none => exact .inl rfl
    | some v =>
      cases hW : within a b L with
      | nil => exact .inl rfl
      | cons x W =>
        by_cases he : GVal.goEq v x.value = some true
        · right
          rcases comparedAfter_some _ _ hv with hn | ⟨y, hy, hyv⟩
          · simp at hn
          · have hy' := hA y (eA ▸ hy)
            refine ⟨hm, x, y, ?_, rfl, (List.mem_filter.1 hy').1, ?_, ?_⟩
            · simp only [opChanges, if_pos he, opChanges_same he]
            · have := hin hy'; omega
            · rw [hyv]; exact goEq_true.1 he
        · left
          simp only [opChanges, if_neg he]
  · rw [c2 hm]; exact .inl rfl

example : (step dupLog (.compact b!"a")).2.isOk = true ∧ TimeOrdered (records dupLog.lgm) ∧
    (∀ p ∈ committed dupLog.lgm, 5 ≤ p.ts ∧ p.ts ≤ 9) ∧
    (dupLog.lgm.temporalTrack 5 9).2 = ((step dupLog (.compact b!"a")).1.lgm.temporalTrack 5 9).2 ∧
    (dupLog.lgm.temporalTrack 5 9).2.isOk = true :=
  ⟨by decide, by unfold TimeOrdered; decide, by decide, by decide, by decide⟩

/-- C108 fails for the first operation in a window: before the compaction the value of `a` at time 7 is reported, afterwards it
is not. -/
theorem C108_first_fails : Reachable dupLog ∧ (step dupLog (.compact b!"a")).2.isOk = true ∧
    (dupLog.lgm.temporalTrack 7 8).2 = .ok [(2, [demoOp b!"a" false 7])] ∧
    ((step dupLog (.compact b!"a")).1.lgm.temporalTrack 7 8).2 = .ok [] :=
  ⟨dupLog_reachable, by decide, by decide, by decide⟩

end Verif
