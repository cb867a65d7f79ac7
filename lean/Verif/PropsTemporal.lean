import Verif.PropsSlice
/-
Property C21: TemporalSnapshot.
-/
namespace Verif

/-! ### The selection loop -/

theorem pickLatest_spec (t : Int) (ops : List Op) : ∀ (m : List (Bytes × Op)) (done : List Op),
    (mkeys m).Nodup → (∀ k o, mget m k = some o → o.path = k) → LatestPerPath t done (m.map Prod.snd) →
    let r := pickLatest t m ops
    (mkeys r).Nodup ∧ (∀ k o, mget r k = some o → o.path = k) ∧ LatestPerPath t (done ++ ops) (r.map Prod.snd) := by
  induction ops with
  | nil => intro m done h1 h2 h3; simp only [pickLatest, List.append_nil]; exact ⟨h1, h2, h3⟩
  | cons p ops ih =>
    intro m done h1 h2 h3
    have hmem : ∀ {m : List (Bytes × Op)}, (mkeys m).Nodup → ∀ o, o ∈ m.map Prod.snd ↔ ∃ k, mget m k = some o := by
      intro m hm o
      constructor
      · intro h
        obtain ⟨⟨k, o'⟩, h', rfl⟩ := List.mem_map.1 h
        exact ⟨k, mem_mget hm h'⟩
      · rintro ⟨k, h⟩
        exact List.mem_map.2 ⟨_, mget_mem h, rfl⟩
    have honce : ∀ {m : List (Bytes × Op)}, (mkeys m).Nodup → (∀ k o, mget m k = some o → o.path = k) →
        ((m.map Prod.snd).map Op.path).Nodup := by
      intro m hm hp
      have : (m.map Prod.snd).map Op.path = mkeys m := by
        rw [List.map_map]
        apply List.map_congr_left
        rintro ⟨k, o⟩ h
        exact hp k o (mem_mget hm h)
      rw [this]; exact hm
    simp only [pickLatest]
    have hstep : done ++ p :: ops = (done ++ [p]) ++ ops := by simp
    rw [hstep]
    -- storing `p` when nothing better is known
    have hset : p.ts ≤ t → (∀ e, mget m p.path = some e → e.ts ≤ p.ts) →
        (mkeys (mset m p.path p)).Nodup ∧ (∀ k o, mget (mset m p.path p) k = some o → o.path = k) ∧
        LatestPerPath t (done ++ [p]) ((mset m p.path p).map Prod.snd) := by
      intro hp he
      have n1 := nodup_mkeys_mset h1 p.path p
      have n2 : ∀ k o, mget (mset m p.path p) k = some o → o.path = k := by
        intro k o ho
        rw [mget_mset] at ho
        split at ho
        · rename_i hk; cases ho; exact hk.symm
        · exact h2 k o ho
      refine ⟨n1, n2, ?_, ?_, honce n1 n2⟩
      · intro o ho
        obtain ⟨k, hk⟩ := (hmem n1 o).1 ho
        rw [mget_mset] at hk
        split at hk
        · cases hk
          refine ⟨by simp, hp, fun o' ho' hpath hts => ?_⟩
          rcases List.mem_append.1 ho' with ho' | ho'
          · obtain ⟨o2, ho2, hpath2⟩ := h3.cover o' ho' hts
            have hl := h3.latest o2 ho2
            obtain ⟨k2, hk2⟩ := (hmem h1 o2).1 ho2
            have := h2 k2 o2 hk2
            have hk3 : mget m p.path = some o2 := by rw [← hpath, ← hpath2, this]; exact hk2
            have := he o2 hk3
            have := hl.2.2 o' ho' hpath2.symm hts
            omega
          · simp at ho'; subst ho'; omega
        · rename_i hne
          have ho2 := (hmem h1 o).2 ⟨k, hk⟩
          have hl := h3.latest o ho2
          refine ⟨List.mem_append_left _ hl.1, hl.2.1, fun o' ho' hpath hts => ?_⟩
          rcases List.mem_append.1 ho' with ho' | ho'
          · exact hl.2.2 o' ho' hpath hts
          · simp at ho'; subst ho'
            exact absurd ((h2 k o hk).symm.trans hpath.symm) hne
      · intro o' ho' hts
        rcases List.mem_append.1 ho' with ho' | ho'
        · obtain ⟨o2, ho2, hpath2⟩ := h3.cover o' ho' hts
          obtain ⟨k2, hk2⟩ := (hmem h1 o2).1 ho2
          by_cases hk : k2 = p.path
          · refine ⟨p, (hmem n1 p).2 ⟨p.path, mget_mset_self _ _ _⟩, ?_⟩
            rw [← hpath2, h2 k2 o2 hk2, hk]
          · exact ⟨o2, (hmem n1 o2).2 ⟨k2, by rw [mget_mset_ne _ _ hk]; exact hk2⟩, hpath2⟩
        · simp at ho'; subst ho'
          exact ⟨o', (hmem n1 o').2 ⟨o'.path, mget_mset_self _ _ _⟩, rfl⟩
    split
    · rename_i hp
      cases hg : mget m p.path with
      | none =>
        obtain ⟨n1, n2, n3⟩ := hset hp (by rw [hg]; simp)
        exact ih _ _ n1 n2 n3
      | some e =>
        dsimp only
        split
        · rename_i hgt
          obtain ⟨n1, n2, n3⟩ := hset hp (by rw [hg]; intro e' he'; cases he'; omega)
          exact ih _ _ n1 n2 n3
        · rename_i hgt
          refine ih _ _ h1 h2 ⟨?_, ?_, h3.once⟩
          · intro o ho
            have hl := h3.latest o ho
            refine ⟨List.mem_append_left _ hl.1, hl.2.1, fun o' ho' hpath hts => ?_⟩
            rcases List.mem_append.1 ho' with ho' | ho'
            · exact hl.2.2 o' ho' hpath hts
            · simp at ho'; subst ho'
              obtain ⟨k, hk⟩ := (hmem h1 o).1 ho
              rw [hpath, h2 k o hk, hk] at hg
              cases hg; omega
          · intro o' ho' hts
            rcases List.mem_append.1 ho' with ho' | ho'
            · exact h3.cover o' ho' hts
            · simp at ho'; subst ho'
              exact ⟨e, (hmem h1 e).2 ⟨_, hg⟩, h2 _ _ hg⟩
    · rename_i hp
      refine ih _ _ h1 h2 ⟨?_, ?_, h3.once⟩
      · intro o ho
        have hl := h3.latest o ho
        refine ⟨List.mem_append_left _ hl.1, hl.2.1, fun o' ho' hpath hts => ?_⟩
        rcases List.mem_append.1 ho' with ho' | ho'
        · exact hl.2.2 o' ho' hpath hts
        · simp at ho'; subst ho'; omega
      · intro o' ho' hts
        rcases List.mem_append.1 ho' with ho' | ho'
        · exact h3.cover o' ho' hts
        · simp at ho'; subst ho'; omega

theorem LatestPerPath.perm {t : Int} {ops ops' sel sel' : List Op} (h : LatestPerPath t ops sel)
    (h1 : ops.Perm ops') (h2 : sel'.Perm sel) : LatestPerPath t ops' sel' where
  latest o ho := by
    have := h.latest o (h2.mem_iff.1 ho)
    exact ⟨h1.mem_iff.1 this.1, this.2.1, fun o' ho' => this.2.2 o' (h1.mem_iff.2 ho')⟩
  cover o ho hts := by
    obtain ⟨o', ho', hp⟩ := h.cover o (h1.mem_iff.2 ho) hts
    exact ⟨o', h2.mem_iff.2 ho', hp⟩
  once := ((h2.map _).nodup_iff).2 h.once

theorem temporalApply_spec (s : St) (o : Oracle) (t : Int) (v : Nat) (base : HVal) {d : HVal}
    (h : (s.temporalApply o t v base).2 = .ok d) :
    ∃ sel, LatestPerPath t (s.lgm.patchOf (v + 1)) sel ∧
      (s.temporalApply o t v base).1.heap = (applyPatch s.heap base sel).1 ∧
      (applyPatch s.heap base sel).2 = .ok d := by
  have h0 : LatestPerPath t [] (([] : List (Bytes × Op)).map Prod.snd) := ⟨by simp, by simp, by simp⟩
  obtain ⟨-, -, h3⟩ := pickLatest_spec t (o.sortOps (s.lgm.patchOf (v + 1))) [] [] (by simp [mkeys]) (by simp) h0
  refine ⟨(o.orderOps (pickLatest t [] (o.sortOps (s.lgm.patchOf (v + 1))))).map Prod.snd,
    h3.perm (by simpa using o.sortOps_perm _) ((o.orderOps_perm _).map _), ?_⟩
  unfold St.temporalApply at h ⊢
  dsimp only at h ⊢
  generalize hr : applyPatch s.heap base
    ((o.orderOps (pickLatest t [] (o.sortOps (s.lgm.patchOf (v + 1))))).map Prod.snd) = r at h ⊢
  obtain ⟨h', r⟩ := r
  cases r with
  | ok t' => exact ⟨rfl, h⟩
  | err => simp at h
  | panic => simp at h

/-- What `temporalApply` leaves recorded for the version it reads. -/
theorem temporalApply_patch (s : St) (o : Oracle) (t : Int) (v : Nat) (base : HVal) :
    ((s.temporalApply o t v base).1.lgm.patchOf (v + 1)).Perm (s.lgm.patchOf (v + 1)) := by
  rcases St.temporalApply_lgm s o t v base with h | ⟨q, h1, h2⟩
  · rw [h]
  · rw [h2]
    simp only [Lgm.patchOf, mget_mset_self, h1, Option.getD_some]
    exact o.sortOps_perm q

/-- What `TemporalSnapshot` does. -/
theorem temporalSnapshot_spec (s : St) (o : Oracle) (t : Int) {d : HVal}
    (h : (s.temporalSnapshot o t).2 = .ok d) :
    ∃ v0 vs v last, s.lgm.version = v0 :: vs ∧ s.lgm.version.getLast? = some last ∧
      chooseVersion s t v0 (sortedKeys s.lgm.snaps) = some v ∧
      ((last ≤ v ∧ s.lgm.pool = none ∧ s.temporalSnapshot o t = (s, .ok (s.lgm.snap v))) ∨
       ∃ sel, LatestPerPath t ((s.temporalSnapshot o t).1.lgm.patchOf (v + 1)) sel ∧
        (s.temporalSnapshot o t).1.heap = (applyPatch s.heap (s.lgm.snap v) sel).1 ∧
        (applyPatch s.heap (s.lgm.snap v) sel).2 = .ok d) := by
  unfold St.temporalSnapshot at h ⊢
  cases hv : s.lgm.version with
  | nil => rw [hv] at h; simp at h
  | cons v0 vs =>
    rw [hv] at h
    dsimp only at h ⊢
    cases hc : chooseVersion s t v0 (sortedKeys s.lgm.snaps) with
    | none => rw [hc] at h; simp at h
    | some v =>
      rw [hc] at h
      dsimp only at h ⊢
      obtain ⟨last, hl⟩ : ∃ last, (v0 :: vs).getLast? = some last := by
        cases hx : (v0 :: vs).getLast? with
        | none => simp at hx
        | some x => exact ⟨x, rfl⟩
      refine ⟨v0, vs, v, last, rfl, hl, hc, ?_⟩
      rw [hl] at h
      simp only [hl] at h ⊢
      split at h
      · rename_i hge
        rw [if_pos hge]
        cases hp : s.lgm.pool with
        | none => rw [hp] at h; exact Or.inl ⟨hge, rfl, rfl⟩
        | some p =>
          rw [hp] at h
          dsimp only at h ⊢
          obtain ⟨sel, a, b, c⟩ := temporalApply_spec _ _ _ _ _ h
          exact Or.inr ⟨sel, a.perm (temporalApply_patch _ _ _ _ _).symm (.refl _), b, c⟩
      · rename_i hge
        rw [if_neg hge]
        obtain ⟨sel, a, b, c⟩ := temporalApply_spec _ _ _ _ _ h
        exact Or.inr ⟨sel, a.perm (temporalApply_patch _ _ _ _ _).symm (.refl _), b, c⟩

/-- C21, the selection (part): whatever order the runtime chooses, `TemporalSnapshot(t)` applies to the snapshot
of one stored version `v` exactly one latest operation per path of the next version, up to time `t`; if there is
no next version and nothing is pending, the snapshot itself is returned.
Missing: the operations of other versions are not looked at (`C21_one_version_only_fails`). -/
theorem C21_selection_partial (s : St) (o : Oracle) (t : Int) {d : HVal}
    (h : (s.temporalSnapshot o t).2 = .ok d) :
    ∃ v, d = s.lgm.snap v ∨
      ∃ sel, LatestPerPath t ((s.temporalSnapshot o t).1.lgm.patchOf (v + 1)) sel ∧
        (applyPatch s.heap (s.lgm.snap v) sel).2 = .ok d := by
  obtain ⟨v0, vs, v, last, -, -, -, ⟨-, -, h'⟩ | ⟨sel, h1, -, h3⟩⟩ := temporalSnapshot_spec s o t h
  · rw [h'] at h; cases h; exact ⟨v, Or.inl rfl⟩
  · exact ⟨v, Or.inr ⟨sel, h1, h3⟩⟩

example : (demo.temporalSnapshot Oracle.plain 5).2.isOk = true ∧
    (demo.temporalSnapshot Oracle.plain 5).1 ≠ demo := by decide

/-! ### The base version -/

theorem chooseVersion_mem (s : St) (t : Int) (l : List Nat) : ∀ cur v, chooseVersion s t cur l = some v →
    v = cur ∨ v ∈ l := by
  induction l with
  | nil => intro cur v h; simp only [chooseVersion, Option.some.injEq] at h; exact Or.inl h.symm
  | cons x l ih =>
    intro cur v h
    simp only [chooseVersion] at h
    split at h
    · simp at h
    · split at h
      · rcases ih _ _ h with h | h
        · exact Or.inr (by simp [h])
        · exact Or.inr (by simp [h])
      · simp at h; exact Or.inl h.symm

theorem chooseVersion_last (s : St) (t : Int) (l : List Nat) (hl : ∀ x ∈ l, ∀ r, s.latestOf x = some r → r ≤ t) :
    ∀ cur v, chooseVersion s t cur l = some v → v = l.getLast?.getD cur := by
  induction l with
  | nil => intro cur v h; simp only [chooseVersion, Option.some.injEq] at h; exact h.symm
  | cons x l ih =>
    intro cur v h
    simp only [chooseVersion] at h
    split at h
    · simp at h
    · rename_i r hr
      rw [if_pos (hl x (by simp) r hr)] at h
      rw [ih (fun y hy => hl y (by simp [hy])) _ _ h]
      simp [List.getLast?_cons]

theorem chooseVersion_split (s : St) (t : Int) (l : List Nat) : ∀ cur v, chooseVersion s t cur l = some v →
    ∃ pre suf, l = pre ++ suf ∧ v = pre.getLast?.getD cur ∧
      (∀ x ∈ pre, ∃ r, s.latestOf x = some r ∧ r ≤ t) ∧
      (∀ y, suf.head? = some y → ∃ r, s.latestOf y = some r ∧ t < r) := by
  induction l with
  | nil =>
    intro cur v h
    simp only [chooseVersion, Option.some.injEq] at h
    exact ⟨[], [], rfl, h.symm, by simp, by simp⟩
  | cons x l ih =>
    intro cur v h
    simp only [chooseVersion] at h
    split at h
    · simp at h
    · rename_i r hr
      split at h
      · rename_i hle
        obtain ⟨pre, suf, h1, h2, h3, h4⟩ := ih _ _ h
        refine ⟨x :: pre, suf, by rw [h1]; rfl, by rw [h2, List.getLast?_cons]; rfl, ?_, h4⟩
        intro y hy
        rcases List.mem_cons.1 hy with rfl | hy
        · exact ⟨r, hr, hle⟩
        · exact h3 y hy
      · rename_i hle
        simp only [Option.some.injEq] at h
        refine ⟨[], x :: l, rfl, h.symm, by simp, ?_⟩
        intro y hy
        simp at hy; subst hy
        exact ⟨r, hr, by omega⟩

theorem chooseVersion_base (s : St) (t : Int) {v0 : Nat} (h0 : s.lgm.version.head? = some v0) {v : Nat}
    (h : chooseVersion s t v0 (sortedKeys s.lgm.snaps) = some v) : BaseVersion s t v := by
  obtain ⟨pre, suf, h1, h2, h3, h4⟩ := chooseVersion_split s t _ _ _ h
  have hst : ∀ x, Stored s.lgm x ↔ x ∈ pre ∨ x ∈ suf := by
    intro x; rw [stored_iff, h1, List.mem_append]
  have hsort := sortedKeys_sorted s.lgm.snaps
  rw [h1, List.pairwise_append] at hsort
  have hsuf : ∀ x ∈ suf, ∃ y r, y ∈ suf ∧ y ≤ x ∧ StoredTime s y r ∧ t < r := by
    intro x hx
    cases suf with
    | nil => simp at hx
    | cons y suf =>
      obtain ⟨r, hr, hlt⟩ := h4 y rfl
      refine ⟨y, r, by simp, ?_, (latestOf_eq s y r).1 hr, hlt⟩
      rcases List.mem_cons.1 hx with rfl | hx
      · exact Nat.le_refl _
      · exact (List.pairwise_cons.1 hsort.2.1).1 x hx
  cases hp : pre.getLast? with
  | none =>
    right
    rw [hp] at h2
    have hpre : pre = [] := List.getLast?_eq_none_iff.1 hp
    subst hpre
    refine ⟨by rw [h2]; exact h0, fun x hx => ?_⟩
    obtain ⟨y, r, hy, hle, hr, hlt⟩ := hsuf x (by simpa using (hst x).1 hx)
    exact ⟨y, r, (hst y).2 (Or.inr hy), hle, hr, hlt⟩
  | some w =>
    left
    rw [hp] at h2
    simp only [Option.getD_some] at h2
    subst h2
    have hv : v ∈ pre := List.mem_of_getLast? hp
    have hgt : ∀ y ∈ suf, ∀ r, StoredTime s y r → t < r → v < y := by
      intro y hy r hr hlt
      have hle := hsort.2.2 v hv y hy
      rcases Nat.lt_or_ge v y with h | h
      · exact h
      · have e : y = v := by omega
        subst e
        obtain ⟨r', hr', hle'⟩ := h3 y hv
        rw [(latestOf_eq s y r).2 hr] at hr'
        cases hr'; omega
    refine ⟨(hst v).2 (Or.inl hv), ?_, ?_⟩
    · intro x hx hxv
      rcases (hst x).1 hx with hx | hx
      · obtain ⟨r, hr, hle⟩ := h3 x hx
        exact ⟨r, (latestOf_eq s x r).1 hr, hle⟩
      · obtain ⟨y, r, hy, hyx, hr, hlt⟩ := hsuf x hx
        have := hgt y hy r hr hlt
        omega
    · intro x hx hxv
      rcases (hst x).1 hx with hx | hx
      · have : x ≤ v := by
          obtain ⟨pre', rfl⟩ : ∃ pre', pre = pre' ++ [v] := by
            obtain ⟨h, he⟩ := List.getLast?_eq_some_iff.1 hp
            exact ⟨h, he⟩
          rcases List.mem_append.1 hx with hx | hx
          · exact (List.pairwise_append.1 hsort.1).2.2 x hx v (by simp)
          · simp at hx; omega
        omega
      · obtain ⟨y, r, hy, hyx, hr, hlt⟩ := hsuf x hx
        exact ⟨y, r, (hst y).2 (Or.inr hy), hgt y hy r hr hlt, hyx, hr, hlt⟩

/-- C21, what is considered (part): `TemporalSnapshot(t)` starts from the snapshot of the version given by
`BaseVersion`.  If that is the latest version and nothing is pending, it returns that snapshot and changes nothing.
Otherwise it considers exactly the operations recorded for the next version, or, from the latest version, exactly the
pending operations, which it commits as the next version; it applies one latest operation per path up to time `t`,
and leaves the considered operations recorded under the next version, possibly in another order.
Missing: operations of later versions are not considered (`C21_one_version_only_fails`). -/
theorem C21_considered_partial {s : St} (h : Reachable s) (o : Oracle) (t : Int) {n : Nat} (hn : GapFree s.lgm n)
    {d : HVal} (hd : (s.temporalSnapshot o t).2 = .ok d) :
    ∃ v, BaseVersion s t v ∧
      ((v = n ∧ s.lgm.pool = none ∧ s.temporalSnapshot o t = (s, .ok (s.lgm.snap v))) ∨
       ∃ ops ops' sel,
        ((v < n ∧ mget s.lgm.patches (v + 1) = some ops ∧ (s.temporalSnapshot o t).1.lgm.pool = s.lgm.pool) ∨
         (v = n ∧ s.lgm.pool = some ops ∧ (s.temporalSnapshot o t).1.lgm.pool = none)) ∧
        LatestPerPath t ops sel ∧ applyPatch s.heap (s.lgm.snap v) sel = ((s.temporalSnapshot o t).1.heap, .ok d) ∧
        mget (s.temporalSnapshot o t).1.lgm.patches (v + 1) = some ops' ∧ ops'.Perm ops) := by
  obtain ⟨m, hm⟩ := h.versions
  have hmn : m = n := by
    have := hm.1.symm.trans hn.1
    have := congrArg List.length this
    simp at this; omega
  subst hmn
  obtain ⟨-, -, hex⟩ := C01_stored_snapshots s h hn
  have hver : s.lgm.version = 0 :: (List.range m).map (· + 1) := by rw [hm.1, List.range_succ_eq_map]
  have hv0 : s.lgm.version.head? = some 0 := by rw [hver]; rfl
  unfold St.temporalSnapshot at hd ⊢
  rw [hm.last, hver] at hd ⊢
  dsimp only at hd ⊢
  cases hc : chooseVersion s t 0 (sortedKeys s.lgm.snaps) with
  | none => rw [hc] at hd; simp at hd
  | some v =>
    rw [hc] at hd
    dsimp only at hd ⊢
    have hb := chooseVersion_base s t hv0 hc
    have hvn : v ≤ m := by
      rcases hb with ⟨⟨d, hd⟩, -⟩ | ⟨h', -⟩
      · exact hex v d hd
      · rw [hv0] at h'; simp at h'; omega
    have hfin : ∀ (s' : St) ops, s'.heap = s.heap → mget s'.lgm.patches (v + 1) = some ops →
        (s'.temporalApply o t v (s.lgm.snap v)).2 = .ok d →
        (s'.temporalApply o t v (s.lgm.snap v)).1.lgm.pool = s'.lgm.pool ∧
        ∃ ops' sel, LatestPerPath t ops sel ∧
        applyPatch s.heap (s.lgm.snap v) sel = ((s'.temporalApply o t v (s.lgm.snap v)).1.heap, .ok d) ∧
        mget (s'.temporalApply o t v (s.lgm.snap v)).1.lgm.patches (v + 1) = some ops' ∧ ops'.Perm ops := by
      intro s' ops hh hp hd
      obtain ⟨sel, a, b, c⟩ := temporalApply_spec s' o t v _ hd
      have hpo : s'.lgm.patchOf (v + 1) = ops := by simp [Lgm.patchOf, hp]
      rw [hpo] at a
      rw [hh] at b c
      have hap : applyPatch s.heap (s.lgm.snap v) sel =
          ((s'.temporalApply o t v (s.lgm.snap v)).1.heap, .ok d) := by rw [b, ← c]
      rcases St.temporalApply_lgm s' o t v (s.lgm.snap v) with h | ⟨q, h1, h2⟩
      · rw [h]; exact ⟨rfl, ops, sel, a, hap, hp, .refl _⟩
      · rw [h2]
        rw [hp] at h1; cases h1
        exact ⟨rfl, _, sel, a, hap, mget_mset_self _ _ _, o.sortOps_perm ops⟩
    refine ⟨v, hb, ?_⟩
    by_cases hge : v ≥ m
    · have hvm : v = m := by omega
      subst hvm
      rw [if_pos hge] at hd ⊢
      cases hp : s.lgm.pool with
      | none => left; exact ⟨rfl, rfl, rfl⟩
      | some p =>
        right
        rw [hp] at hd
        dsimp only at hd ⊢
        have happ : s.lgm.append.1 = { s.lgm with patches := s.lgm.patches ++ [(v + 1, p)], version := List.range (v + 2), pool := none } := by
          rw [hm.append, hp]
        have hnone : v + 1 ∉ mkeys s.lgm.patches := by rw [hm.2.2]; omega
        have hq : mget s.lgm.append.1.patches (v + 1) = some p := by
          rw [happ]
          refine mem_mget ?_ (by simp)
          simp only [mkeys, List.map_append, List.map_cons, List.map_nil]
          rw [List.nodup_append]
          refine ⟨hm.2.1, by simp, ?_⟩
          intro a ha b hb
          simp at hb; subst hb
          exact fun e => hnone (e ▸ ha)
        obtain ⟨hpool, ops', sel, r1, r2, r3, r4⟩ := hfin ⟨s.heap, s.lgm.append.1⟩ p rfl hq hd
        refine ⟨p, ops', sel, Or.inr ⟨rfl, rfl, ?_⟩, r1, r2, r3, r4⟩
        rw [hpool]; simp only [happ]
    · right
      rw [if_neg hge] at hd ⊢
      obtain ⟨ops, hq⟩ := mget_isSome.2 ((hm.2.2 (v + 1)).2 ⟨by omega, by omega⟩)
      obtain ⟨hpool, ops', sel, r1, r2, r3, r4⟩ := hfin s ops rfl hq hd
      exact ⟨ops, ops', sel, Or.inl ⟨by omega, hq, hpool⟩, r1, r2, r3, r4⟩

/-- From the latest version: the pending operation is committed and applied. -/
example : let s := (step demo (.snapshot 2)).1
    Reachable s ∧ GapFree s.lgm 2 ∧ (s.temporalSnapshot Oracle.plain 20).2.isOk = true ∧
    s.lgm.pool = some [demoOp b!"b/d" false 12] ∧
    (s.temporalSnapshot Oracle.plain 20).1.lgm.patchOf 3 = [demoOp b!"b/d" false 12] ∧
    (s.temporalSnapshot Oracle.plain 20).1.lgm.pool = none := by
  refine ⟨demo_reachable.step _, ?_, by decide, by decide, by decide, by decide⟩
  obtain ⟨n, h, -⟩ := C01_versions_gap_free _ (demo_reachable.step (.snapshot 2))
  have hv : (step demo (.snapshot 2)).1.lgm.version = [0, 1, 2] := by decide
  have : n = 2 := by
    have := congrArg List.length h.1
    rw [hv] at this; simp at this; omega
  subst this
  exact h

theorem Grown.rooted {m : List (Bytes × Tson)} {s : St} {w : Nat} (h : Grown (.obj m) s w) :
    ∃ a n, s.lgm.Versions n ∧ Rooted s.lgm a := by
  induction h with
  | new h ia =>
    obtain ⟨a, hr, -⟩ := newLogument_rooted h m ia
    exact ⟨a, 0, newLogument_versions h _ ia, hr⟩
  | store s w ar _ ih =>
    obtain ⟨a, n, hn, hr⟩ := ih
    obtain ⟨n', hn'⟩ := step_versions hn (.store ar)
    exact ⟨a, n', hn', (step_rooted hn hr _).1⟩
  | append s w _ ih =>
    obtain ⟨a, n, hn, hr⟩ := ih
    obtain ⟨n', hn'⟩ := step_versions hn .append
    exact ⟨a, n', hn', (step_rooted hn hr _).1⟩
  | temporalTrack s w ti tj _ ih =>
    obtain ⟨a, n, hn, hr⟩ := ih
    obtain ⟨n', hn'⟩ := step_versions hn (.temporalTrack ti tj)
    exact ⟨a, n', hn', (step_rooted hn hr _).1⟩
  | snapshot s w v _ _ _ _ ih =>
    obtain ⟨a, n, hn, hr⟩ := ih
    obtain ⟨n', hn'⟩ := step_versions hn (.snapshot v)
    exact ⟨a, n', hn', (step_rooted hn hr _).1⟩

theorem getLast?_of_sorted_max {l : List Nat} (hs : l.Pairwise (· ≤ ·)) {w : Nat} (hw : w ∈ l)
    (hm : ∀ x ∈ l, x ≤ w) (d : Nat) : l.getLast?.getD d = w := by
  induction l generalizing d with
  | nil => simp at hw
  | cons x l ih =>
    rw [List.pairwise_cons] at hs
    rw [List.getLast?_cons]
    simp only [Option.getD_some]
    rcases List.mem_cons.1 hw with rfl | hw
    · cases l with
      | nil => rfl
      | cons y l =>
        have h1 := hs.1 y (by simp)
        have h2 := hm y (by simp)
        have : w = y := by omega
        subst this
        exact ih hs.2 (by simp) (fun z hz => hm z (by simp only [List.mem_cons] at hz ⊢; exact Or.inr hz)) _
    · exact ih hs.2 hw (fun z hz => hm z (by simp [hz])) _

/-- On a grown logument whose newest snapshot is not newer than `t`, that snapshot is the base. -/
theorem Grown.base {m : List (Bytes × Tson)} (hw : (Tson.obj m).Wf) {s : St} {w : Nat} (h : Grown (.obj m) s w)
    {t : Tson} (ht : replay (.obj m) (opsUpTo s.lgm w) = .ok t) {tsk : Int}
    (hbase : w = 0 ∨ (0 ≤ tsk ∧ ∀ ts, LeafTime ts t → ts ≤ tsk)) {v : Nat}
    (hv : chooseVersion s tsk 0 (sortedKeys s.lgm.snaps) = some v) :
    v = w ∧ ∃ a F, s.lgm.snap v = .obj a ∧ Rep s.heap (.obj a) t F := by
  obtain ⟨n, a, t', F, h1, h2, h3, h4, h5, h6⟩ := h.ladder hw
  rw [ht] at h4; cases h4
  have hvw : v = w := by
    rcases hbase with rfl | ⟨h0, hts⟩
    · rcases chooseVersion_mem _ _ _ _ _ hv with h | h
      · exact h
      · obtain ⟨d, hd⟩ := mget_isSome.2 (mem_sortedKeys.1 h)
        have := h5 v d hd; omega
    · obtain ⟨b, n', hn', hr⟩ := h.rooted
      have hab : b = a := by
        rcases hr.snaps w _ h6 with h | h
        · cases h; rfl
        · cases h
      subst hab
      have hlat : ∀ x ∈ sortedKeys s.lgm.snaps, ∀ r, s.latestOf x = some r → r ≤ tsk := by
        intro x _ r hx
        unfold St.latestOf at hx
        rcases hr.snap x with hs | hs
        · rw [hs, h3.view] at hx
          dsimp only at hx
          obtain ⟨m', rfl⟩ := (replay_obj hw ht).1
          exact ((C32_latest_timestamp _).2.2 r (by simp) hx).2 tsk h0 hts
        · rw [hs] at hx
          have hvn : Heap.view s.heap .null = some .null := rfl
          rw [hvn] at hx
          simp [getLatestTimestamp] at hx
      rw [chooseVersion_last _ _ _ hlat _ _ hv]
      refine getLast?_of_sorted_max (sortedKeys_sorted _) (mem_sortedKeys.2 (mget_isSome.1 ⟨_, h6⟩)) ?_ _
      intro x hx
      obtain ⟨d, hd⟩ := mget_isSome.2 (mem_sortedKeys.1 hx)
      exact h5 x d hd
  subst hvw
  exact ⟨rfl, a, F, by simp [Lgm.snap, h6], h3⟩

/-! ### Effect of independent operations -/

theorem HoldsAt.reaches {t ks x} (h : HoldsAt t ks x) :
    (∀ p ts, x = some (p, ts) → Reaches t ks (.leaf p ts)) ∧ (x = none → ∀ u, ¬ Reaches t ks u) := by
  induction h with
  | here m k x hm =>
    constructor
    · rintro p ts rfl
      exact .member _ _ _ _ _ hm (.here _)
    · rintro rfl u hu
      cases hu with
      | member _ _ _ c _ h1 => rw [hm] at h1; cases h1
  | down m k c ks x hm _ ih =>
    constructor
    · intro p ts hx
      exact .member _ _ _ _ _ hm (ih.1 p ts hx)
    · intro hx u hu
      cases hu with
      | member _ _ _ c' _ h1 h2 => rw [hm] at h1; cases h1; exact ih.2 hx u h2

theorem reaches_obj {m : List (Bytes × Tson)} {k : Bytes} {ks : List Bytes} {u : Tson} :
    Reaches (.obj m) (k :: ks) u ↔ ∃ c, mget m k = some c ∧ Reaches c ks u := by
  constructor
  · intro h; cases h with
    | member _ _ _ c _ h1 h2 => exact ⟨c, h1, h2⟩
  · rintro ⟨c, h1, h2⟩; exact .member _ _ _ _ _ h1 h2

/-- An operation on a path without indices changes nothing at independent locations. -/
theorem applyT_frame_indep {op : Op} (ps : List Bytes) (hp : ∀ seg ∈ ps, atoi seg = none) : ∀ {m qs o t'},
    Independent ps qs → applyT (.obj m) ps op = (o, .ok t') → ∀ u, Reaches t' qs u ↔ Reaches (.obj m) qs u := by
  induction ps with
  | nil => intro m qs o t' hi; exact absurd List.nil_prefix hi.1
  | cons k ps ih =>
    intro m qs o t' hi ha u
    obtain ⟨m', rfl⟩ := applyT_obj_res ha
    cases qs with
    | nil => exact absurd List.nil_prefix hi.2
    | cons k' qs =>
      rw [reaches_obj, reaches_obj]
      by_cases hk : k' = k
      · subst hk
        have hi' : Independent ps qs := ⟨fun h => hi.1 (by simpa using h), fun h => hi.2 (by simpa using h)⟩
        cases ps with
        | nil => exact absurd List.nil_prefix hi'.1
        | cons p ps =>
          have ih' := fun {m o t'} => ih (fun seg hs => hp seg (by simp only [List.mem_cons] at hs ⊢; exact Or.inr hs)) (m := m) (qs := qs) (o := o) (t' := t') hi'
          have hat : atoi p = none := hp p (by simp)
          have hA : ∀ mb, assignFieldT m k' (applyT (.obj mb) (p :: ps) op) = (o, .ok (.obj m')) →
              ((∃ c, mget m' k' = some c ∧ Reaches c qs u) ↔ Reaches (.obj mb) qs u) := by
            intro mb h
            rcases hR : applyT (.obj mb) (p :: ps) op with ⟨o', r⟩
            rw [hR] at h
            cases r with
            | ok c' =>
              simp only [assignFieldT, Prod.mk.injEq, Res.ok.injEq, Tson.obj.injEq] at h
              rw [← h.2, mget_mset_self]
              have := ih' hR u
              simp [this]
            | err => simp [assignFieldT] at h
            | panic => simp [assignFieldT] at h
          have hqs : ∃ q qs', qs = q :: qs' := by
            cases qs with
            | nil => exact absurd List.nil_prefix hi'.2
            | cons q qs' => exact ⟨_, _, rfl⟩
          have hempty : ¬ Reaches (.obj []) qs u := by
            obtain ⟨q, qs', rfl⟩ := hqs
            rw [reaches_obj]; simp [mget]
          rw [applyT] at ha
          dsimp only at ha
          rw [hat] at ha
          dsimp only at ha
          cases hg : mget m k' with
          | none =>
            rw [hg] at ha
            dsimp only at ha
            split at ha
            · rw [hA [] ha]; simp [hempty]
            · simp at ha
          | some c =>
            rw [hg] at ha
            cases c with
            | leaf p' ts => simp at ha
            | obj mb => rw [hA mb ha]; simp
            | arr l => simp at ha
            | null =>
              dsimp only at ha
              split at ha
              · rw [hA [] ha]
                obtain ⟨q, qs', rfl⟩ := hqs
                simp only [hempty, Option.some.injEq, exists_eq_left', false_iff]
                intro h; cases h
              · simp at ha
      · rw [mget_other_member m k ps op k' hk ha]

/-- Operations on pairwise independent paths: each leaves its value, the rest is untouched. -/
theorem applyPatchT_independent (sel : List Op) : ∀ {m t'}, (∀ o ∈ sel, SimpleOp o) →
    sel.Pairwise (fun a b => Independent (writeParts a.path) (writeParts b.path)) →
    applyPatchT (.obj m) sel = (t', .ok ()) →
    (∀ o ∈ sel, ∀ x, Leaves o x → HoldsAt t' (writeParts o.path) x) ∧
    ∀ qs, (∀ o ∈ sel, Independent (writeParts o.path) qs) → ∀ u, Reaches t' qs u ↔ Reaches (.obj m) qs u := by
  have stays : ∀ (sel : List Op) {m t'} qs x, (∀ o ∈ sel, Independent (writeParts o.path) qs) →
      HoldsAt (.obj m) qs x → applyPatchT (.obj m) sel = (t', .ok ()) → HoldsAt t' qs x := by
    intro sel
    induction sel with
    | nil => intro m t' qs x _ h ha; simp only [applyPatchT, Prod.mk.injEq] at ha; rw [← ha.1]; exact h
    | cons p sel ih =>
      intro m t' qs x hi h ha
      simp only [applyPatchT] at ha
      rcases hT : applyOpT (.obj m) p with ⟨o', r⟩
      rw [hT] at ha
      cases r with
      | ok t1 =>
        obtain ⟨m1, rfl⟩ := applyT_obj_res hT
        have := applyT_obj_ok _ _ _ _ _ hT
        subst this
        exact ih qs x (fun o ho => hi o (by simp [ho])) (h.frame p (hi p (by simp)) hT) ha
      | err => simp at ha
      | panic => simp at ha
  induction sel with
  | nil =>
    intro m t' _ _ ha
    simp only [applyPatchT, Prod.mk.injEq] at ha
    rw [← ha.1]
    exact ⟨by simp, fun _ _ _ => Iff.rfl⟩
  | cons p sel ih =>
    intro m t' hs hpw ha
    rw [List.pairwise_cons] at hpw
    simp only [applyPatchT] at ha
    rcases hT : applyOpT (.obj m) p with ⟨o', r⟩
    rw [hT] at ha
    cases r with
    | ok t1 =>
      obtain ⟨m1, rfl⟩ := applyT_obj_res hT
      have := applyT_obj_ok _ _ _ _ _ hT
      subst this
      obtain ⟨i1, i2⟩ := ih (fun o ho => hs o (by simp [ho])) hpw.2 ha
      refine ⟨?_, ?_⟩
      · intro o ho x hx
        rcases List.mem_cons.1 ho with rfl | ho
        · refine stays sel _ _ (fun q hq => ?_)
            (applyT_holds hx _ (split_ne_nil' _) (hs o (by simp)).2 hT) ha
          have := hpw.1 q hq
          exact ⟨this.2, this.1⟩
        · exact i1 o ho x hx
      · intro qs hq u
        rw [i2 qs (fun o ho => hq o (by simp [ho])) u]
        exact applyT_frame_indep _ (hs p (by simp)).2 (hq p (by simp)) hT u
    | err => simp at ha
    | panic => simp at ha

/-- C21 (part): let the newest snapshot `w` of a grown logument be the replay `t` of versions `1..w`, not newer
than `tsk`.  If the operations of version `w + 1` are plain, on equal or independent paths, and some are not
later than `tsk`, then the document returned by `TemporalSnapshot(tsk)` has, at the path of every operation up to
`tsk` that is later than the others on its path, the value of that operation (nothing after a remove), and is
`t` at all locations independent of these paths; whatever the runtime's orders are.
Missing: operations of versions after `w + 1` (`C21_one_version_only_fails`); nothing to apply
(`C21_nothing_selected_fails`); equal timestamps (`C21_tie_fails`); values written after `tsk` and already
present in the shared documents (`C21_later_value_fails`). -/
theorem C21_latest_values_partial {m : List (Bytes × Tson)} (hw : (Tson.obj m).Wf) {s : St} {w : Nat}
    (hg : Grown (.obj m) s w) {t : Tson} (ht : replay (.obj m) (opsUpTo s.lgm w) = .ok t) {tsk : Int}
    (hbase : w = 0 ∨ (0 ≤ tsk ∧ ∀ ts, LeafTime ts t → ts ≤ tsk)) (o : Oracle) {d : HVal}
    (hd : (s.temporalSnapshot o tsk).2 = .ok d) {ops : List Op}
    (hops : mget (s.temporalSnapshot o tsk).1.lgm.patches (w + 1) = some ops) (hL : SimpleLog ops)
    (hsome : ∃ p ∈ ops, p.ts ≤ tsk) :
    ∃ t', (s.temporalSnapshot o tsk).1.heap.view d = some t' ∧
      (∀ p ∈ ops, p.ts ≤ tsk → (∀ p' ∈ ops, p'.path = p.path → p'.ts ≤ tsk → p' ≠ p → p'.ts < p.ts) →
        (p.kind ≠ .remove → ∀ x, Writes p.value x → Reaches t' (writeParts p.path) (.leaf x p.ts)) ∧
        (p.kind = .remove → ∀ u, ¬ Reaches t' (writeParts p.path) u)) ∧
      ∀ qs, (∀ p ∈ ops, p.ts ≤ tsk → Independent (writeParts p.path) qs) →
        ∀ u, Reaches t' qs u ↔ Reaches t qs u := by
  have hpo : (s.temporalSnapshot o tsk).1.lgm.patchOf (w + 1) = ops := by simp [Lgm.patchOf, hops]
  obtain ⟨n, a0, t0, F0, h1, h2, -, -, -, -⟩ := hg.ladder hw
  obtain ⟨v0, vs, v, last, e1, e2, e3, e4⟩ := temporalSnapshot_spec s o tsk hd
  have hv0 : v0 = 0 := by
    have := h1.1
    rw [e1, List.range_eq_range', List.range'_succ] at this
    exact (List.cons.inj this).1
  subst hv0
  obtain ⟨rfl, a, F, hs, hr⟩ := hg.base hw ht hbase e3
  obtain ⟨p0, hp0, hp0t⟩ := hsome
  rcases e4 with ⟨c1, c2, c3⟩ | ⟨sel, c1, c2, c3⟩
  · exfalso
    rw [c3] at hops
    dsimp only at hops
    have hl : last = n := by have := h1.last; rw [e2] at this; simpa using this
    have := (h1.gapFree.2 (v + 1)).1 ⟨_, hops⟩
    omega
  · rw [hpo] at c1
    obtain ⟨ps0, hps0, hpath0⟩ := c1.cover p0 hp0 hp0t
    have hne : sel ≠ [] := by rintro rfl; simp at hps0
    obtain ⟨mt, rfl⟩ := (replay_obj hw ht).1
    obtain ⟨G, hG, -, -, -, hout⟩ := applyPatchLoop_obj sel hr .null
    unfold applyPatch at c2 c3
    rw [hs] at c2 c3
    rw [c3] at hout
    simp only [hne, if_false] at hout
    rcases hT : applyPatchT (.obj mt) sel with ⟨t', r⟩
    rw [hT] at hout hG
    cases r with
    | err => simp [Res.map] at hout
    | panic => simp [Res.map] at hout
    | ok u =>
      simp only [Res.map, Res.ok.injEq] at hout
      subst hout
      have hsim : ∀ o ∈ sel, SimpleOp o := fun q hq => hL.1 q (c1.latest q hq).1
      have hpw : sel.Pairwise (fun a b => Independent (writeParts a.path) (writeParts b.path)) := by
        have h := c1.once
        rw [List.Nodup, List.pairwise_map] at h
        refine h.imp_of_mem fun {x y} hx hy hxy => ?_
        exact (hL.2 x (c1.latest x hx).1 y (c1.latest y hy).1).resolve_left hxy
      obtain ⟨f1, f2⟩ := applyPatchT_independent sel hsim hpw hT
      refine ⟨t', by rw [c2]; exact hG.view, ?_, ?_⟩
      · intro p hp hpt hlast
        have hmem : p ∈ sel := by
          obtain ⟨q, hq, hqp⟩ := c1.cover p hp hpt
          obtain ⟨l1, l2, l3⟩ := c1.latest q hq
          by_cases hqe : q = p
          · exact hqe ▸ hq
          · have := hlast q l1 hqp l2 hqe
            have := l3 p hp hqp.symm hpt
            omega
        constructor
        · intro hk x hx
          rcases (hL.1 p hp).1 with ⟨hk', -⟩ | ⟨hk', -⟩
          · exact (f1 p hmem _ (Or.inl ⟨hk', x, hx, rfl⟩)).reaches.1 _ _ rfl
          · exact absurd hk' hk
        · intro hk
          exact (f1 p hmem none (Or.inr ⟨hk, rfl⟩)).reaches.2 rfl
      · intro qs hq u
        exact f2 qs (fun p hp => hq p (c1.latest p hp).1 (c1.latest p hp).2.1) u

/-- The premises of `C21_latest_values_partial` are met with a base after version 0, a replaced and a removed path. -/
def timeLog : St :=
  run (newLogument [] demoDoc none).1
    [.store (.op (demoOp b!"a" false 5)), .append, .snapshot 1,
     .store (.patch (some [demoOp b!"a" true 9, demoOp b!"q" true 8, demoOp b!"a" false 7, ⟨.remove, b!"b/c", .nil, 8⟩,
       demoOp b!"q" false 20])), .append]

theorem timeLog_grown : Grown demoDoc timeLog 1 :=
  .append _ _ (.store _ _ _ (.snapshot _ 0 1 (.append _ _ (.store _ _ _ (.new [] none))) (by decide) (by decide) (by decide)))

example : demoDoc.Wf ∧
    replay demoDoc (opsUpTo timeLog.lgm 1) =
      .ok (.obj [(b!"a", .leaf (.bool false) 5), (b!"b", .obj [(b!"c", .leaf (.str b!"x") 2)])]) ∧
    (timeLog.temporalSnapshot Oracle.plain 10).2.isOk = true ∧
    (∃ (ops : List Op), mget (timeLog.temporalSnapshot Oracle.plain 10).1.lgm.patches 2 = some ops ∧ SimpleLog ops ∧
      (∃ p ∈ ops, p.ts ≤ 10) ∧ (∃ p ∈ ops, ¬ p.ts ≤ 10)) := by
  refine ⟨by simp [demoDoc, Tson.Wf, Tson.WfF, mkeys], by decide, by decide, _, rfl, ?_, by decide, by decide⟩
  refine ⟨?_, ?_⟩
  · intro o ho
    have : o = demoOp b!"a" false 7 ∨ o = demoOp b!"q" true 8 ∨ o = ⟨.remove, b!"b/c", .nil, 8⟩ ∨
        o = demoOp b!"a" true 9 ∨ o = demoOp b!"q" false 20 := by
      revert o; decide
    rcases this with rfl | rfl | rfl | rfl | rfl
    · exact ⟨Or.inl ⟨Or.inr rfl, _, .bool _⟩, by decide⟩
    · exact ⟨Or.inl ⟨Or.inr rfl, _, .bool _⟩, by decide⟩
    · exact ⟨Or.inr ⟨rfl, rfl⟩, by decide⟩
    · exact ⟨Or.inl ⟨Or.inr rfl, _, .bool _⟩, by decide⟩
    · exact ⟨Or.inl ⟨Or.inr rfl, _, .bool _⟩, by decide⟩
  · unfold Independent
    decide

example : ∀ ts, LeafTime ts (.obj [(b!"a", .leaf (.bool false) 5), (b!"b", .obj [(b!"c", .leaf (.str b!"x") 2)])]) →
    ts ≤ 10 := by
  intro ts h
  have := ((C32_latest_timestamp _).2.2 5 (by simp) (by decide)).1.2 ts h
  omega

/-- C21 fails: only the version after the base is looked at; `a` is written at 9 in version 2, but the value of
time 10 is that of time 5. -/
theorem C21_one_version_only_fails :
    Reachable demo ∧ ∃ t, (demo.temporalSnapshot Oracle.plain 10).2.bind (fun d =>
      (demo.temporalSnapshot Oracle.plain 10).1.heap.view d |>.elim .panic .ok) = .ok t ∧
      (∃ x ∈ records demo.lgm, x.2 = demoOp b!"a" true 9) ∧
      getValue t b!"/a" = .ok (.leaf (.bool false) 5) :=
  ⟨demo_reachable, _, rfl, by decide, by decide⟩

/-- C21 fails: with no operation up to `t`, the result is nil instead of the initial document. -/
theorem C21_nothing_selected_fails :
    (demo.temporalSnapshot Oracle.plain 3).2 = .ok .null ∧ (∀ x ∈ records demo.lgm, 3 < x.2.ts) := by decide

/-- A runtime whose unstable sort reverses equal elements. -/
def Oracle.unstable : Oracle :=
  { Oracle.plain with
    sortOps := fun l => Oracle.plain.sortOps l.reverse
    sortOps_perm := fun l => (Oracle.plain.sortOps_perm _).trans (List.reverse_perm l)
    sortOps_sorted := fun _ => Oracle.plain.sortOps_sorted _ }

/-- C21 fails for two operations with the same path and timestamp: the value depends on the runtime's sort. -/
theorem C21_tie_fails :
    let s := run (newLogument [] demoDoc none).1
      [.store (.patch (some [demoOp b!"a" false 5, demoOp b!"a" true 5])), .append]
    let value (o : Oracle) : Res Tson := (s.temporalSnapshot o 7).2.bind fun d =>
      ((s.temporalSnapshot o 7).1.heap.view d |>.elim .panic .ok : Res Tson).bind fun t => getValue t b!"/a"
    Reachable s ∧ value Oracle.plain = .ok (.leaf (.bool false) 5) ∧
      value Oracle.unstable = .ok (.leaf (.bool true) 5) :=
  ⟨⟨[], demoDoc, none, _, rfl⟩, by decide, by decide⟩

/-- C21 fails after `Snapshot(1)`: the result for time 5 contains the value written at time 6. -/
theorem C21_later_value_fails :
    let s := (step demo (.snapshot 1)).1
    Reachable s ∧ (s.temporalSnapshot Oracle.plain 5).2.bind (fun d =>
      ((s.temporalSnapshot Oracle.plain 5).1.heap.view d |>.elim .panic .ok : Res Tson).bind fun t =>
        getValue t b!"/b/d") = .ok (.leaf (.bool true) 6) :=
  ⟨demo_reachable.step _, by decide⟩

end Verif
