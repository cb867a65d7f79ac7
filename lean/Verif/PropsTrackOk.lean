import Verif.PropsHistoryTrack
/-
C107, C108, C109: when tracks over parts of a log, and of compacted logs, return.
-/
namespace Verif

/-! ### Comparisons path by path -/

/-- No comparison of the operations, each with the last one that changed the value, panics. -/
def Compares : Option GVal → List Op → Prop
  | _, [] => True
  | none, p :: l => Compares (some p.value) l
  | some v, p :: l => GVal.goEq v p.value ≠ none ∧
      (GVal.goEq v p.value = some true → Compares (some v) l) ∧ (GVal.goEq v p.value = some false → Compares (some p.value) l)

theorem Compares.append {y : List Op} (x : List Op) : ∀ {v}, Compares v (x ++ y) → Compares v x ∧ Compares (comparedAfter v x) y := by
  induction x with
  | nil => intro v h; cases v <;> exact ⟨trivial, h⟩
  | cons p x ih =>
    intro v h
    cases v with
    | none => exact ih h
    | some v =>
      obtain ⟨h1, h2, h3⟩ := h
      cases he : GVal.goEq v p.value with
      | none => exact absurd he h1
      | some c =>
        cases c with
        | true =>
          obtain ⟨i1, i2⟩ := ih (h2 he)
          exact ⟨⟨h1, fun _ => i1, fun h => by rw [he] at h; cases h⟩, by simpa only [comparedAfter, if_pos he] using i2⟩
        | false =>
          obtain ⟨i1, i2⟩ := ih (h3 he)
          have hn : ¬ GVal.goEq v p.value = some true := by rw [he]; simp
          exact ⟨⟨h1, fun h => absurd h hn, fun _ => i1⟩, by simpa only [comparedAfter, if_neg hn] using i2⟩

theorem Compares.same {v x : GVal} (h : GVal.goEq v x = some true) (l : List Op) : Compares (some v) l ↔ Compares (some x) l := by
  induction l with
  | nil => exact Iff.rfl
  | cons p l ih => simp only [Compares, goEq_trans h, ih]

theorem Compares.start {v : Option GVal} {l : List Op} (h : Compares v l) : Compares none l := by
  cases v with
  | none => exact h
  | some v =>
    cases l with
    | nil => trivial
    | cons p l =>
      obtain ⟨h1, h2, h3⟩ := h
      cases he : GVal.goEq v p.value with
      | none => exact absurd he h1
      | some c =>
        cases c with
        | true => exact (Compares.same he l).1 (h2 he)
        | false => exact h3 he

theorem Compares.changes (l : List Op) : ∀ {v}, Compares v l → Compares v (opChanges v l) := by
  induction l with
  | nil => intro v h; cases v <;> trivial
  | cons p l ih =>
    intro v h
    cases v with
    | none => exact ih h
    | some v =>
      obtain ⟨h1, h2, h3⟩ := h
      cases he : GVal.goEq v p.value with
      | none => exact absurd he h1
      | some c =>
        cases c with
        | true => simp only [opChanges, if_pos he]; exact ih (h2 he)
        | false =>
          have hn : ¬ GVal.goEq v p.value = some true := by rw [he]; simp
          simp only [opChanges, if_neg hn]
          exact ⟨h1, fun h => absurd h hn, fun _ => ih (h3 he)⟩

/-- The loop returns exactly if it compares without panic on every path. -/
theorem compactOps_isSome (sel : Op → Sel) (l : List Op) : ∀ latest : List (Bytes × GVal),
    (compactOps sel latest l).isSome = true ↔
      ∀ q, Compares (mget latest q) (l.filter fun p => decide (p.path = q ∧ sel p = .compare)) := by
  induction l with
  | nil => intro latest; simp only [compactOps, Option.isSome_some, List.filter_nil, true_iff]; intro q; cases mget latest q <;> trivial
  | cons p l ih =>
    intro latest
    have skip : sel p ≠ .compare → ∀ q, ((p :: l).filter fun p => decide (p.path = q ∧ sel p = .compare)) =
        l.filter fun p => decide (p.path = q ∧ sel p = .compare) := by
      intro hs q
      exact List.filter_cons_of_neg (by simp [hs])
    have map : ∀ x : Option (List Op × List (Bytes × GVal)), (x.map fun r => (p :: r.1, r.2)).isSome = x.isSome := by
      intro x; cases x <;> rfl
    simp only [compactOps]
    cases hs : sel p with
    | skip => simp only [skip (by rw [hs]; simp)]; exact ih _
    | keep => simp only [skip (by rw [hs]; simp), map]; exact ih _
    | compare =>
      have here : ((p :: l).filter fun x => decide (x.path = p.path ∧ sel x = .compare)) =
          p :: l.filter fun x => decide (x.path = p.path ∧ sel x = .compare) :=
        List.filter_cons_of_pos (by simp [hs])
      have there : ∀ q, p.path ≠ q → ((p :: l).filter fun x => decide (x.path = q ∧ sel x = .compare)) =
          l.filter fun x => decide (x.path = q ∧ sel x = .compare) :=
        fun q hq => List.filter_cons_of_neg (by simp [hq])
      have split : ∀ {P : Bytes → Prop}, (∀ q, P q) ↔ P p.path ∧ ∀ q, p.path ≠ q → P q := by
        intro P
        refine ⟨fun h => ⟨h _, fun q _ => h q⟩, fun h q => ?_⟩
        by_cases hq : p.path = q
        · exact hq ▸ h.1
        · exact h.2 q hq
      have keep : (compactOps sel (mset latest p.path p.value) l).isSome = true ↔
          Compares (some p.value) (l.filter fun x => decide (x.path = p.path ∧ sel x = .compare)) ∧
          ∀ q, p.path ≠ q → Compares (mget latest q) (l.filter fun x => decide (x.path = q ∧ sel x = .compare)) := by
        rw [ih, split]
        rw [mget_mset_self]
        refine and_congr_right fun _ => forall_congr' fun q => ?_
        constructor
        · intro h hq; rw [← mget_mset_ne latest p.value (Ne.symm hq)]; exact h hq
        · intro h hq; rw [mget_mset_ne latest p.value (Ne.symm hq)]; exact h hq
      have goal : (∀ q, Compares (mget latest q) ((p :: l).filter fun x => decide (x.path = q ∧ sel x = .compare))) ↔
          Compares (mget latest p.path) (p :: l.filter fun x => decide (x.path = p.path ∧ sel x = .compare)) ∧
          ∀ q, p.path ≠ q → Compares (mget latest q) (l.filter fun x => decide (x.path = q ∧ sel x = .compare)) := by
        rw [split, here]
        refine and_congr_right fun _ => forall_congr' fun q => ?_
        constructor
        · intro h hq; rw [← there q hq]; exact h hq
        · intro h hq; rw [there q hq]; exact h hq
      rw [goal]
      dsimp only
      cases hg : mget latest p.path with
      | none =>
        dsimp only
        rw [map, keep]
        exact Iff.rfl
      | some v =>
        dsimp only
        simp only [Compares]
        cases he : GVal.goEq v p.value with
        | none => simp
        | some c =>
          cases c with
          | true =>
            dsimp only
            rw [ih, split, hg]
            simp
          | false =>
            dsimp only
            rw [map, keep]
            simp

theorem filter_window (a b : Int) (q : Bytes) (l : List Op) :
    (l.filter fun p => decide (p.path = q ∧ selWindow a b p = .compare)) = within a b (l.filter fun p => decide (p.path = q)) := by
  unfold within
  rw [List.filter_filter]
  congr 1
  funext p
  by_cases h : a ≤ p.ts ∧ p.ts ≤ b <;> simp [selWindow, inWindow, h]

theorem filter_prefix (pre q : Bytes) (l : List Op) :
    (Matches pre q → (l.filter fun p => decide (p.path = q ∧ selPrefix pre p = .compare)) = l.filter fun p => decide (p.path = q)) ∧
    (¬ Matches pre q → (l.filter fun p => decide (p.path = q ∧ selPrefix pre p = .compare)) = []) := by
  constructor
  · intro hm
    refine List.filter_congr fun p _ => ?_
    by_cases hq : p.path = q
    · subst hq; simp [selPrefix, hasPrefix_matches.2 hm]
    · simp [hq]
  · intro hm
    rw [List.filter_eq_nil_iff]
    intro p _
    simp only [decide_eq_true_eq, not_and]
    rintro rfl hs
    rw [← hasPrefix_matches] at hm
    simp [selPrefix, hm] at hs

theorem opsOn_filter (q : Bytes) (l : List (Nat × Op)) : opsOn q l = (l.map Prod.snd).filter fun p => decide (p.path = q) := by
  rw [List.filter_map]; rfl

/-- When `TemporalTrack` returns. -/
theorem temporalTrack_isOk {s : St} (h : Reachable s) {a b : Int} :
    (s.lgm.temporalTrack a b).2.isOk = true ↔ a ≤ b ∧ ∀ q, Compares none (within a b (opsOn q (records s.lgm))) := by
  obtain ⟨n, hn⟩ := h.versions
  have e := trackVersions_ungrouped s.lgm (selWindow a b) (sortedKeys s.lgm.patches) []
  have hc := hn.committed
  rw [← hn.sortedKeys] at hc
  rw [show (sortedKeys s.lgm.patches).flatMap s.lgm.patchOf = _ from hc.symm] at e
  have hs : (trackVersions s.lgm (selWindow a b) [] (sortedKeys s.lgm.patches)).isSome = true ↔
      ∀ q, Compares none (within a b (opsOn q (records s.lgm))) := by
    rw [← Option.isSome_map (f := ungrouped), e, Option.isSome_map, compactOps_isSome]
    refine forall_congr' fun q => ?_
    rw [filter_window, opsOn_filter]
    exact Iff.rfl
  rw [← hs]
  unfold Lgm.temporalTrack
  by_cases hle : a > b
  · simp only [if_pos hle, Res.isOk, Bool.false_eq_true, false_iff, not_and]
    intro h; omega
  · rw [if_neg hle]
    cases trackVersions s.lgm (selWindow a b) [] (sortedKeys s.lgm.patches) with
    | none => simp [Res.isOk]
    | some r => simp [Res.isOk]; omega

/-- When `Compact` returns. -/
theorem compact_isOk {s : St} (h : Reachable s) {pre : Bytes} :
    (s.lgm.compact pre).2.isOk = true ↔ ∀ q, Matches pre q → Compares none (opsOn q (records s.lgm)) := by
  obtain ⟨n, hn⟩ := h.versions
  obtain ⟨i1, -, -⟩ := compactVersions_ungrouped (selPrefix pre) (List.range' 1 n) List.nodup_range' [] s.lgm.patches
  rw [← hn.committed] at i1
  have hs : (compactVersions (selPrefix pre) [] s.lgm.patches (List.range' 1 n)).2 = true ↔
      ∀ q, Matches pre q → Compares none (opsOn q (records s.lgm)) := by
    rw [i1, compactOps_isSome]
    refine forall_congr' fun q => ?_
    rw [opsOn_filter]
    by_cases hm : Matches pre q
    · rw [(filter_prefix pre q _).1 hm]
      exact ⟨fun h _ => h, fun h => h hm⟩
    · rw [(filter_prefix pre q _).2 hm]
      exact ⟨fun _ h => absurd h hm, fun _ => trivial⟩
  rw [← hs]
  unfold Lgm.compact
  rw [hn.isContinuous]
  simp only [hn.sortedKeys]
  rcases compactVersions (selPrefix pre) [] s.lgm.patches (List.range' 1 n) with ⟨ps, b⟩
  cases b <;> simp [Res.isOk]

theorem TimeOrdered.on {l : List (Nat × Op)} (ht : TimeOrdered l) (q : Bytes) : (opsOn q l).Pairwise fun x y => x.ts ≤ y.ts := by
  unfold opsOn
  rw [List.pairwise_map, List.pairwise_filter]
  refine List.Pairwise.imp ?_ ht
  intro x y hxy hx hy
  simp only [decide_eq_true_eq] at hx hy
  exact hxy (hx.trans hy.symm)

/-! ### C107, C108, C109 -/

/-- C107: over a log whose operations on each path are recorded in order of their times, a track over an inner window returns if
the track over the larger one does. -/
theorem C107_inner_returns_partial {s : St} (h : Reachable s) (ht : TimeOrdered (records s.lgm)) {a b a' b' : Int}
    (h1 : a' ≤ a) (h2 : a ≤ b) (h3 : b ≤ b') (hr : (s.lgm.temporalTrack a' b').2.isOk = true) :
    (s.lgm.temporalTrack a b).2.isOk = true := by
  rw [temporalTrack_isOk h] at hr ⊢
  refine ⟨h2, fun q => ?_⟩
  have := hr.2 q
  rw [within_split h1 h3 h2 _ (ht.on q)] at this
  exact ((this.append _).2.append _).1.start

/-- C108: a track over all times returns after a compaction if it does before. -/
theorem C108_all_returns {s : St} (h : Reachable s) {pre : Bytes} (hok : (step s (.compact pre)).2.isOk = true) {a b : Int}
    (hw : ∀ p ∈ committed s.lgm, a ≤ p.ts ∧ p.ts ≤ b) (hr : (s.lgm.temporalTrack a b).2.isOk = true) :
    ((step s (.compact pre)).1.lgm.temporalTrack a b).2.isOk = true := by
  have hok' : (s.lgm.compact pre).2.isOk = true := by
    simp only [step, St.onLgm] at hok
    cases hc : (s.lgm.compact pre).2 <;> rw [hc] at hok <;> simp_all [Res.map, Res.isOk]
  rw [temporalTrack_isOk h] at hr
  rw [temporalTrack_isOk (h.step _)]
  refine ⟨hr.1, fun q => ?_⟩
  have hq := hr.2 q
  show Compares none (within a b (opsOn q (records (s.lgm.compact pre).1)))
  obtain ⟨c1, c2⟩ := compact_path h hok' q
  have all : ∀ {l}, (∀ p ∈ l, p ∈ opsOn q (records s.lgm)) → within a b l = l := by
    intro l hl
    unfold within
    rw [List.filter_eq_self]
    intro p hp
    have hp := hl p hp
    simp only [opsOn, List.mem_map, List.mem_filter] at hp
    obtain ⟨x, ⟨hx, -⟩, rfl⟩ := hp
    simpa using hw x.2 (List.mem_map.2 ⟨x, hx, rfl⟩)
  by_cases hm : Matches pre q
  · rw [all (fun _ h => h)] at hq
    rw [c1 hm, all (opChanges_sub _ _)]
    exact hq.changes
  · rw [c2 hm]; exact hq

/-- C109: a track over all times returns exactly if compacting everything does; both depend on the comparisons only. -/
theorem C109_returns {s : St} (h : Reachable s) {a b : Int} (hab : a ≤ b) (hw : ∀ p ∈ committed s.lgm, a ≤ p.ts ∧ p.ts ≤ b) :
    (s.lgm.temporalTrack a b).2.isOk = (step s (.compact [])).2.isOk := by
  have e : (step s (.compact [])).2.isOk = (s.lgm.compact []).2.isOk := by
    simp only [step, St.onLgm]
    cases (s.lgm.compact []).2 <;> rfl
  rw [e, Bool.eq_iff_iff, temporalTrack_isOk h, compact_isOk h]
  have all : ∀ q, within a b (opsOn q (records s.lgm)) = opsOn q (records s.lgm) := by
    intro q
    unfold within
    rw [List.filter_eq_self]
    intro p hp
    simp only [opsOn, List.mem_map, List.mem_filter] at hp
    obtain ⟨x, ⟨hx, -⟩, rfl⟩ := hp
    simpa using hw x.2 (List.mem_map.2 ⟨x, hx, rfl⟩)
  constructor
  · rintro ⟨-, h⟩ q -
    rw [← all q]; exact h q
  · intro h
    exact ⟨hab, fun q => by rw [all q]; exact h q ⟨_, rfl⟩⟩

/-- Two arrays written at one path: everything that compares them panics. -/
def arrayLog : St :=
  run (newLogument [] demoDoc none).1
    [.store (.patch (some [⟨.replace, b!"a", .container 1 0, 5⟩, demoOp b!"a" true 6, ⟨.replace, b!"a", .container 1 1, 7⟩,
      ⟨.replace, b!"a", .container 1 2, 8⟩])), .append]

example : (arrayLog.lgm.temporalTrack 5 8).2.isOk = false ∧ (step arrayLog (.compact [])).2.isOk = false ∧
    (arrayLog.lgm.temporalTrack 5 7).2.isOk = true ∧ (arrayLog.lgm.temporalTrack 6 7).2.isOk = true ∧
    (dupLog.lgm.temporalTrack 5 9).2.isOk = true ∧ (step dupLog (.compact [])).2.isOk = true := by decide

/-- Without the order of times an inner window may panic although the larger one returns. -/
theorem C107_inner_returns_fails :
    let s := run (newLogument [] demoDoc none).1
      [.store (.patch (some [⟨.replace, b!"a", .container 1 0, 5⟩, demoOp b!"a" true 9, ⟨.replace, b!"a", .container 1 1, 6⟩])), .append]
    Reachable s ∧ (s.lgm.temporalTrack 5 9).2.isOk = true ∧ (s.lgm.temporalTrack 5 6).2.isOk = false :=
  ⟨⟨[], demoDoc, none, _, rfl⟩, by decide, by decide⟩

end Verif
