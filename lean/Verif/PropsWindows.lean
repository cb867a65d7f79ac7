import Verif.PropsGrouping
import Verif.PropsExpTrack
/-
C107: tracks over windows inside windows.
-/
namespace Verif

/-! ### Specification -/

/-- The operations of a list that lie in the window. -/
def within (a b : Int) (l : List Op) : List Op := l.filter fun p => decide (a ≤ p.ts ∧ p.ts ≤ b)

/-! ### Single paths -/

/-- The value compared with after the operations. -/
def comparedAfter : Option GVal → List Op → Option GVal
  | v, [] => v
  | none, p :: l => comparedAfter (some p.value) l
  | some v, p :: l => if GVal.goEq v p.value = some true then comparedAfter (some v) l else comparedAfter (some p.value) l

theorem opChanges_append (x y : List Op) : ∀ v, opChanges v (x ++ y) = opChanges v x ++ opChanges (comparedAfter v x) y := by
  induction x with
  | nil => intro v; cases v <;> simp [opChanges, comparedAfter]
  | cons p x ih =>
    intro v
    cases v with
    | none => simp [opChanges, comparedAfter, ih]
    | some v =>
      simp only [List.cons_append, opChanges, comparedAfter]
      split <;> simp [ih]

theorem opChanges_sub (l : List Op) : ∀ v, ∀ p ∈ opChanges v l, p ∈ l := by
  induction l with
  | nil => intro v p hp; cases v <;> simp [opChanges] at hp
  | cons q l ih =>
    intro v p hp
    cases v with
    | none =>
      simp only [opChanges, List.mem_cons] at hp ⊢
      exact hp.imp id (ih _ p)
    | some v =>
      simp only [opChanges] at hp
      split at hp
      · exact List.mem_cons_of_mem _ (ih _ p hp)
      · simp only [List.mem_cons] at hp ⊢
        exact hp.imp id (ih _ p)

theorem comparedAfter_some (l : List Op) {v : GVal} : ∀ w, comparedAfter w l = some v → w = some v ∨ ∃ y ∈ opChanges w l, y.value = v := by
  induction l with
  | nil => intro w h; cases w <;> simp [comparedAfter] at h; exact .inl (by rw [h])
  | cons p l ih =>
    intro w h
    cases w with
    | none =>
      simp only [comparedAfter] at h
      rcases ih _ h with h' | ⟨y, hy, hv⟩
      · exact .inr ⟨p, by simp [opChanges], by simpa using h'⟩
      · exact .inr ⟨y, by simp [opChanges, hy], hv⟩
    | some w =>
      simp only [comparedAfter] at h
      split at h
      · rename_i he
        rcases ih _ h with h' | ⟨y, hy, hv⟩
        · exact .inl h'
        · exact .inr ⟨y, by simpa [opChanges, he] using hy, hv⟩
      · rename_i he
        rcases ih _ h with h' | ⟨y, hy, hv⟩
        · exact .inr ⟨p, by simp [opChanges, he], by simpa using h'⟩
        · exact .inr ⟨y, by simp [opChanges, he, hy], hv⟩

theorem primGoEq_trans {p q r : Prim} (h : Prim.goEq p q = true) : Prim.goEq p r = Prim.goEq q r := by
  cases p <;> cases q <;> simp only [Prim.goEq, beq_iff_eq, Bool.false_eq_true] at h
  · subst h; rfl
  · rename_i a b
    cases r <;> simp only [Prim.goEq]
    rename_i c
    cases h1 : F64.feq a c
    · cases h2 : F64.feq b c
      · rfl
      · rw [F64.feq_trans h h2] at h1; cases h1
    · rw [F64.feq_symm] at h; rw [F64.feq_trans h h1]
  · subst h; rfl

/-- Equal values compare alike. -/
theorem goEq_trans {v x w : GVal} (h : GVal.goEq v x = some true) : GVal.goEq v w = GVal.goEq x w := by
  cases v <;> cases x <;> simp only [GVal.goEq, Option.some.injEq, beq_iff_eq, Bool.and_eq_true, Bool.false_eq_true] at h
  · rfl
  · subst h; rfl
  · rename_i a b
    cases w <;> simp only [GVal.goEq]
    rename_i c
    cases h1 : F64.feq a c
    · cases h2 : F64.feq b c
      · rfl
      · rw [F64.feq_trans h h2] at h1; cases h1
    · rw [F64.feq_symm] at h; rw [F64.feq_trans h h1]
  · subst h; rfl
  · subst h; rfl
  · obtain ⟨h, rfl⟩ := h
    cases w <;> simp only [GVal.goEq]
    rw [primGoEq_trans h]
  · obtain ⟨rfl, rfl⟩ := h; rfl
  · split at h <;> simp at h

theorem opChanges_same {v x : GVal} (h : GVal.goEq v x = some true) (l : List Op) :
    opChanges (some v) l = opChanges (some x) l := by
  induction l with
  | nil => rfl
  | cons p l ih => simp only [opChanges, goEq_trans h, ih]

/-- Looking at a part of the operations on a path adds at most the first of them. -/
theorem opChanges_inner (pre W post : List Op) : ∃ A B, opChanges none (pre ++ (W ++ post)) = A ++ (opChanges (comparedAfter none pre) W ++ B) ∧
    (∀ p ∈ A, p ∈ pre) ∧ (∀ p ∈ B, p ∈ post) ∧ A = opChanges none pre :=
  ⟨_, _, by rw [opChanges_append, opChanges_append], opChanges_sub _ _, opChanges_sub _ _, rfl⟩

theorem within_split {a b a' b' : Int} (h1 : a' ≤ a) (h2 : b ≤ b') (h3 : a ≤ b) (l : List Op)
    (hs : l.Pairwise fun x y => x.ts ≤ y.ts) :
    within a' b' l = within a' (a - 1) l ++ (within a b l ++ within (b + 1) b' l) := by
  induction l with
  | nil => rfl
  | cons p l ih =>
    rw [List.pairwise_cons] at hs
    have ih := ih hs.2
    have low : ∀ c, c ≤ p.ts → ∀ e, within e (c - 1) l = [] := by
      intro c hc e
      simp only [within, List.filter_eq_nil_iff, decide_eq_true_eq]
      intro q hq
      have := hs.1 q hq
      omega
    simp only [within, List.filter_cons] at ih low ⊢
    by_cases c1 : p.ts ≤ a - 1
    · by_cases c0 : a' ≤ p.ts
      · rw [if_pos (by simp; omega), if_pos (by simp; omega), if_neg (by simp; omega), if_neg (by simp; omega), ih]; rfl
      · rw [if_neg (by simp; omega), if_neg (by simp; omega), if_neg (by simp; omega), if_neg (by simp; omega), ih]
    · have l1 := low a (by omega) a'
      by_cases c2 : p.ts ≤ b
      · rw [if_pos (by simp; omega), if_neg (by simp; omega), if_pos (by simp; omega), if_neg (by simp; omega), ih, l1]; rfl
      · have l2 := low (b + 1) (by omega) a
        rw [show b + 1 - 1 = b by omega] at l2
        rw [l1, l2] at ih ⊢
        rw [if_neg (c := decide (a' ≤ p.ts ∧ p.ts ≤ a - 1) = true) (by simp; omega),
          if_neg (c := decide (a ≤ p.ts ∧ p.ts ≤ b) = true) (by simp; omega)]
        by_cases c3 : p.ts ≤ b'
        · rw [if_pos (by simp; omega), if_pos (by simp; omega), ih]; rfl
        · rw [if_neg (by simp; omega), if_neg (by simp; omega), ih]

/-- What is kept on one path. -/
theorem compactOps_path (q : Bytes) (a b : Int) (l : List Op) : ∀ (latest : List (Bytes × GVal)) {ps lat},
    compactOps (selWindow a b) latest l = some (ps, lat) →
    ps.filter (fun p => decide (p.path = q)) = opChanges (mget latest q) (within a b (l.filter fun p => decide (p.path = q))) := by
  induction l with
  | nil =>
    intro latest ps lat h
    simp only [compactOps, Option.some.injEq, Prod.mk.injEq] at h
    obtain ⟨rfl, rfl⟩ := h
    cases mget latest q <;> rfl
  | cons p l ih =>
    intro latest ps lat h
    have keep : ∀ {ps}, ((compactOps (selWindow a b) (mset latest p.path p.value) l).map fun r => (p :: r.1, r.2)) = some (ps, lat) →
        ps.filter (fun p => decide (p.path = q)) = if p.path = q then p :: opChanges (some p.value) (within a b (l.filter fun p => decide (p.path = q)))
          else opChanges (mget latest q) (within a b (l.filter fun p => decide (p.path = q))) := by
      intro ps h
      cases hr : compactOps (selWindow a b) (mset latest p.path p.value) l with
      | none => rw [hr] at h; simp at h
      | some r =>
        rw [hr] at h
        simp only [Option.map_some, Option.some.injEq, Prod.mk.injEq] at h
        obtain ⟨rfl, -⟩ := h
        have := ih _ hr
        by_cases hq : p.path = q
        · subst hq
          rw [mget_mset_self] at this
          rw [List.filter_cons_of_pos (by simp), this, if_pos rfl]
        · rw [mget_mset_ne _ _ (Ne.symm hq)] at this
          rw [List.filter_cons_of_neg (by simpa using hq), this, if_neg hq]
    simp only [compactOps] at h
    by_cases hw : a ≤ p.ts ∧ p.ts ≤ b
    · have hsel : selWindow a b p = .compare := by simp [selWindow, inWindow, hw]
      rw [hsel] at h
      dsimp only at h
      have hf : within a b ((p :: l).filter fun p => decide (p.path = q)) =
          if p.path = q then p :: within a b (l.filter fun p => decide (p.path = q)) else within a b (l.filter fun p => decide (p.path = q)) := by
        by_cases hq : p.path = q
        · rw [List.filter_cons_of_pos (by simpa using hq), if_pos hq]
          exact List.filter_cons_of_pos (by simpa using hw)
        · rw [List.filter_cons_of_neg (by simpa using hq), if_neg hq]
      rw [hf]
      cases hg : mget latest p.path with
      | none =>
        rw [hg] at h
        rw [keep h]
        by_cases hq : p.path = q
        · rw [if_pos hq, if_pos hq, ← hq, hg]; rfl
        · rw [if_neg hq, if_neg hq]
      | some v =>
        rw [hg] at h
        dsimp only at h
        cases he : GVal.goEq v p.value with
        | none => rw [he] at h; simp at h
        | some c =>
          rw [he] at h
          cases c with
          | true =>
            rw [ih _ h]
            by_cases hq : p.path = q
            · rw [if_pos hq, ← hq, hg, opChanges, if_pos he]
            · rw [if_neg hq]
          | false =>
            rw [keep h]
            by_cases hq : p.path = q
            · rw [if_pos hq, if_pos hq, ← hq, hg, opChanges, if_neg (by rw [he]; simp)]
            · rw [if_neg hq, if_neg hq]
    · have hsel : selWindow a b p = .skip := by simp [selWindow, inWindow, hw]
      rw [hsel] at h
      rw [ih _ h]
      congr 1
      by_cases hq : p.path = q
      · rw [List.filter_cons_of_pos (by simpa using hq)]
        exact (List.filter_cons_of_neg (by simpa using hw)).symm
      · rw [List.filter_cons_of_neg (by simpa using hq)]

/-- What `TemporalTrack` reports on one path. -/
theorem temporalTrack_path {s : St} (h : Reachable s) {a b : Int} {r : List (Nat × List Op)}
    (hr : (s.lgm.temporalTrack a b).2 = .ok r) (q : Bytes) :
    opsOn q (entries r) = opChanges none (within a b (opsOn q (records s.lgm))) := by
  obtain ⟨n, hn⟩ := h.versions
  have e := trackVersions_ungrouped s.lgm (selWindow a b) (sortedKeys s.lgm.patches) []
  have hc := hn.committed
  rw [← hn.sortedKeys] at hc
  rw [show (sortedKeys s.lgm.patches).flatMap s.lgm.patchOf = _ from hc.symm] at e
  unfold Lgm.temporalTrack at hr
  by_cases hle : a > b
  · simp [hle] at hr
  · rw [if_neg hle] at hr
    cases ht : trackVersions s.lgm (selWindow a b) [] (sortedKeys s.lgm.patches) with
    | none => rw [ht] at hr; simp at hr
    | some r' =>
      rw [ht] at hr e
      simp only [Res.ok.injEq] at hr
      subst hr
      cases hk : compactOps (selWindow a b) [] (committed s.lgm) with
      | none => rw [hk] at e; simp at e
      | some x =>
        rw [hk] at e
        simp only [Option.map_some, Option.some.injEq] at e
        have := compactOps_path q a b _ _ hk
        rw [← e] at this
        have flt : ∀ l : List (Nat × Op), opsOn q l = (l.map Prod.snd).filter fun p => decide (p.path = q) := by
          intro l; rw [List.filter_map]; rfl
        rw [flt, flt]
        exact this

/-! ### C107 -/

/-- C107 (part): if the operations on each path are recorded in order of their times, then `TemporalTrack` over a window
inside a larger one reports, path by path, what it reports over the larger window at times of the inner one, and before that
at most one operation: the first one recorded on the path in the inner window, if it repeats a value reported earlier.
Missing from the full statement: operations recorded out of order (`C107_unordered_fails`). -/
theorem C107_inner_partial {s : St} (h : Reachable s) (ht : TimeOrdered (records s.lgm)) {a b a' b' : Int}
    (h1 : a' ≤ a) (h2 : a ≤ b) (h3 : b ≤ b') {r r' : List (Nat × List Op)}
    (hr : (s.lgm.temporalTrack a b).2 = .ok r) (hr' : (s.lgm.temporalTrack a' b').2 = .ok r') (q : Bytes) :
    opsOn q (entries r) = within a b (opsOn q (entries r')) ∨
    ∃ x y, opsOn q (entries r) = x :: within a b (opsOn q (entries r')) ∧
      (within a b (opsOn q (records s.lgm))).head? = some x ∧
      y ∈ opsOn q (entries r') ∧ y.ts < a ∧ SameGo y.value x.value := by
  rw [temporalTrack_path h hr, temporalTrack_path h hr']
  have hs : (opsOn q (records s.lgm)).Pairwise fun x y => x.ts ≤ y.ts := by
    unfold opsOn
    rw [List.pairwise_map, List.pairwise_filter]
    refine List.Pairwise.imp ?_ ht
    intro x y hxy hx hy
    simp only [decide_eq_true_eq] at hx hy
    exact hxy (hx.trans hy.symm)
  rw [within_split h1 h3 h2 _ hs]
  generalize opsOn q (records s.lgm) = L at *
  obtain ⟨A, B, e, hA, hB, eA⟩ := opChanges_inner (within a' (a - 1) L) (within a b L) (within (b + 1) b' L)
  have hin : ∀ {c d : Int} {p}, p ∈ within c d L → c ≤ p.ts ∧ p.ts ≤ d := by
    intro c d p hp
    simpa using (List.mem_filter.1 hp).2
  have f1 : within a b A = [] := by
    simp only [within, List.filter_eq_nil_iff, decide_eq_true_eq]
    intro p hp; have := hin (hA p hp); omega
  have f3 : within a b B = [] := by
    simp only [within, List.filter_eq_nil_iff, decide_eq_true_eq]
    intro p hp; have := hin (hB p hp); omega
  have f2 : within a b (opChanges (comparedAfter none (within a' (a - 1) L)) (within a b L)) =
      opChanges (comparedAfter none (within a' (a - 1) L)) (within a b L) := by
    unfold within
    rw [List.filter_eq_self]
    intro p hp
    simpa using hin (opChanges_sub _ _ p hp)
  have fin : within a b (opChanges none (within a' (a - 1) L ++ (within a b L ++ within (b + 1) b' L))) =
      opChanges (comparedAfter none (within a' (a - 1) L)) (within a b L) := by
    rw [e]
    have app : ∀ x y, within a b (x ++ y) = within a b x ++ within a b y := fun x y => List.filter_append x y
    rw [app, app, f1, f2, f3]; simp
  rw [fin]
  cases hv : comparedAfter none (within a' (a - 1) L) with
  | none => exact .inl rfl
  | some v =>
    cases hW : within a b L with
    | nil => exact .inl rfl
    | cons x W =>
      by_cases he : GVal.goEq v x.value = some true
      · right
        rcases comparedAfter_some _ _ hv with hn | ⟨y, hy, hyv⟩
        · simp at hn
        · refine ⟨x, y, ?_, rfl, ?_, ?_, ?_⟩
          · simp only [opChanges, if_pos he, opChanges_same he]
          · rw [hW] at e
            rw [e, eA]; simp [hy]
          · have := hin (hA y (eA ▸ hy)); omega
          · rw [hyv]; exact goEq_true.1 he
      · left
        simp only [opChanges, if_neg he]

/-- C107 (part): cutting a window in two loses nothing: the changes over the whole window are those of the first part followed by
those of the second, of which the first may be superfluous. -/
theorem C107_cut_partial {s : St} (h : Reachable s) (ht : TimeOrdered (records s.lgm)) {a b c : Int}
    (h1 : a ≤ c) (h2 : c < b) {r r1 r2 : List (Nat × List Op)}
    (hr : (s.lgm.temporalTrack a b).2 = .ok r) (hr1 : (s.lgm.temporalTrack a c).2 = .ok r1)
    (hr2 : (s.lgm.temporalTrack (c + 1) b).2 = .ok r2) (q : Bytes) :
    ∃ l, opsOn q (entries r) = opsOn q (entries r1) ++ l ∧ (opsOn q (entries r2) = l ∨ ∃ x, opsOn q (entries r2) = x :: l) := by
  have e2 := C107_inner_partial h ht (a := c + 1) (b := b) (a' := a) (b' := b) (by omega) (by omega) (by omega) hr2 hr q
  refine ⟨within (c + 1) b (opsOn q (entries r)), ?_, e2.imp id fun ⟨x, _, hx, _⟩ => ⟨x, hx⟩⟩
  rw [temporalTrack_path h hr, temporalTrack_path h hr1]
  have hs : (opsOn q (records s.lgm)).Pairwise fun x y => x.ts ≤ y.ts := by
    unfold opsOn
    rw [List.pairwise_map, List.pairwise_filter]
    refine List.Pairwise.imp ?_ ht
    intro x y hxy hx hy
    simp only [decide_eq_true_eq] at hx hy
    exact hxy (hx.trans hy.symm)
  generalize opsOn q (records s.lgm) = L at *
  have e := within_split (a' := a) (a := c + 1) (b := b) (b' := b) (by omega) (by omega) (by omega) L hs
  have hin : ∀ {c d : Int} {p}, p ∈ within c d L → c ≤ p.ts ∧ p.ts ≤ d := by
    intro c d p hp
    simpa using (List.mem_filter.1 hp).2
  have e3 : within (b + 1) b L = [] := by
    simp only [within, List.filter_eq_nil_iff, decide_eq_true_eq]
    intro p _; omega
  rw [e3, List.append_nil, show c + 1 - 1 = c by omega] at e
  rw [e, opChanges_append]
  have app : ∀ x y, within (c + 1) b (x ++ y) = within (c + 1) b x ++ within (c + 1) b y := fun x y => List.filter_append x y
  rw [app]
  have f1 : within (c + 1) b (opChanges none (within a c L)) = [] := by
    simp only [within, List.filter_eq_nil_iff, decide_eq_true_eq]
    intro p hp; have := hin (opChanges_sub _ _ p hp); omega
  have f2 : within (c + 1) b (opChanges (comparedAfter none (within a c L)) (within (c + 1) b L)) =
      opChanges (comparedAfter none (within a c L)) (within (c + 1) b L) := by
    unfold within
    rw [List.filter_eq_self]
    intro p hp
    simpa using hin (opChanges_sub _ _ p hp)
  rw [f1, f2]; rfl

example : TimeOrdered (records dupLog.lgm) ∧
    (dupLog.lgm.temporalTrack 5 9).2 = .ok [(1, [demoOp b!"a" false 5, demoOp b!"b/d" true 6]), (2, [demoOp b!"a" true 9])] ∧
    (dupLog.lgm.temporalTrack 5 6).2 = .ok [(1, [demoOp b!"a" false 5, demoOp b!"b/d" true 6])] ∧
    (dupLog.lgm.temporalTrack 7 9).2 = .ok [(2, [demoOp b!"a" false 7, demoOp b!"a" true 9])] := by
  refine ⟨by unfold TimeOrdered; decide, by decide, by decide, by decide⟩

/-- Operations on one path recorded out of order. -/
def lateLog : St :=
  run (newLogument [] demoDoc none).1
    [.store (.patch (some [demoOp b!"a" false 5, demoOp b!"a" true 20, demoOp b!"a" false 6])), .append]

/-- C107 fails for operations recorded out of order: the operation of time 6 is reported over the window 5 to 20, but not
over the window 5 to 6. -/
theorem C107_unordered_fails : Reachable lateLog ∧
    (∃ r, (lateLog.lgm.temporalTrack 5 20).2 = .ok r ∧ demoOp b!"a" false 6 ∈ ungrouped r) ∧
    ∃ r, (lateLog.lgm.temporalTrack 5 6).2 = .ok r ∧ demoOp b!"a" false 6 ∉ ungrouped r :=
  ⟨⟨[], demoDoc, none, _, rfl⟩, ⟨_, rfl, by decide⟩, _, rfl, by decide⟩

end Verif
