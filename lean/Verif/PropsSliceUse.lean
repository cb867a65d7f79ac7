import Verif.PropsSlice
/-
C105: working with slices.
-/
namespace Verif

/-! ### Restrictions of restrictions -/

theorem mkeys_restrict {m : List (Nat × α)} {d : α} {i j : Nat} :
    mkeys (restrict m d i j) = (sortedKeys m).filter fun v => decide (i ≤ v ∧ v ≤ j) := by
  simp [restrict, mkeys, Function.comp_def]

/-- The restriction depends only on the entries of the range. -/
theorem restrict_congr {m m' : List (Nat × α)} {d : α} {i j : Nat} (h : (mkeys m).Nodup) (h' : (mkeys m').Nodup)
    (he : ∀ v, i ≤ v → v ≤ j → mget m v = mget m' v) : restrict m d i j = restrict m' d i j := by
  have hk : ((sortedKeys m).filter fun v => decide (i ≤ v ∧ v ≤ j)) = (sortedKeys m').filter fun v => decide (i ≤ v ∧ v ≤ j) := by
    refine sorted_perm_unique ?_ ((sortedKeys_sorted m).filter _) ((sortedKeys_sorted m').filter _)
    have nd : ∀ {x : List (Nat × α)}, (mkeys x).Nodup → ((sortedKeys x).filter fun v => decide (i ≤ v ∧ v ≤ j)).Nodup :=
      fun hx => ((sortNat_perm _).nodup_iff.2 hx).sublist List.filter_sublist
    rw [List.perm_ext_iff_of_nodup (nd h) (nd h')]
    intro v
    simp only [List.mem_filter, mem_sortedKeys, decide_eq_true_eq]
    constructor
    · rintro ⟨h1, h2⟩
      refine ⟨?_, h2⟩
      rw [← mget_isSome] at h1 ⊢
      rwa [← he v h2.1 h2.2]
    · rintro ⟨h1, h2⟩
      refine ⟨?_, h2⟩
      rw [← mget_isSome] at h1 ⊢
      rwa [he v h2.1 h2.2]
  unfold restrict
  rw [hk]
  apply List.map_congr_left
  intro v hv
  simp only [List.mem_filter, decide_eq_true_eq] at hv
  rw [he v hv.2.1 hv.2.2]

theorem restrict_nodup {m : List (Nat × α)} {d : α} {i j : Nat} (h : (mkeys m).Nodup) : (mkeys (restrict m d i j)).Nodup := by
  rw [mkeys_restrict]
  exact ((sortNat_perm _).nodup_iff.2 h).sublist List.filter_sublist

theorem compactVersions_congr (sel : Op → Sel) (vs : List Nat) : ∀ (latest : List (Bytes × GVal)) (m m' : List (Nat × List Op)), vs.Nodup →
    (∀ v ∈ vs, mget m v = mget m' v) → (compactVersions sel latest m vs).2 = (compactVersions sel latest m' vs).2 := by
  induction vs with
  | nil => intro _ _ _ _ _; rfl
  | cons v vs ih =>
    intro latest m m' hn h
    rw [List.nodup_cons] at hn
    simp only [compactVersions, h v (by simp)]
    split
    · rfl
    · refine ih _ _ _ hn.2 fun w hw => ?_
      have hne : w ≠ v := fun e => hn.1 (e ▸ hw)
      rw [mget_mset_ne _ _ hne, mget_mset_ne _ _ hne, h w (by simp [hw])]

/-! ### The versions of a slice -/

theorem slice_versions {s : St} {n : Nat} (hn : s.lgm.Versions n) {vi vj : Nat} {g : Lgm} (hg : (s.slice vi vj).2 = .ok g) (hj : 1 ≤ vj) :
    ∃ a k, g.version = List.range' a k ∧ g.version.getLast? = some vj := by
  obtain ⟨a1, a2, a3, a4, a5, -⟩ := slice_ok hn hg
  by_cases h0 : vi = 0
  · have e : (List.range' 1 n).filter (fun v => decide (vi ≤ v ∧ v ≤ vj)) = (List.range' 1 n).filter (fun v => decide (1 ≤ v ∧ v ≤ vj)) := by
      apply List.filter_congr
      intro x hx
      simp only [List.mem_range'_1] at hx
      simp only [decide_eq_decide]; omega
    rw [e, filter_range'_sub a2 (Nat.le_refl _) hj] at a5
    refine ⟨_, _, a5, ?_⟩
    rw [a5, List.getLast?_range']
    simp; omega
  · rw [filter_range'_sub a2 (by omega) a1] at a5
    refine ⟨_, _, a5, ?_⟩
    rw [a5, List.getLast?_range']
    have : vj + 1 - vi ≠ 0 := by omega
    simp [this]; omega

/-- The patches and snapshots of a slice, as lists. -/
theorem slice_maps {s : St} (h : Reachable s) {vi vj : Nat} {g : Lgm} (hg : (s.slice vi vj).2 = .ok g) :
    g.patches = restrict s.lgm.patches [] vi vj ∧ (mkeys g.snaps).Nodup := by
  obtain ⟨n, hn⟩ := h.versions
  obtain ⟨s1, s2, s3⟩ := slice_spec hn vi vj
  have hs := (C01_stored_snapshots s h hn.gapFree).1
  by_cases hr : vi ≤ vj ∧ vj ≤ n
  · by_cases hex : ∃ v d, vi ≤ v ∧ v ≤ vj ∧ mget s.lgm.snaps v = some d
    · rw [s2 hr.1 hr.2 hex] at hg
      cases hg
      exact ⟨rfl, restrict_nodup hs⟩
    · rw [s3 hr.1 hr.2 (fun v d h1 h2 h3 => hex ⟨v, d, h1, h2, h3⟩)] at hg
      split at hg
      · cases hg; exact ⟨rfl, by simp [mkeys]⟩
      · cases hg
      · cases hg
  · rw [s1 hr] at hg; cases hg

theorem slice_check {s : St} {n : Nat} (hn : s.lgm.Versions n) {vi vj : Nat} {g : Lgm} (hg : (s.slice vi vj).2 = .ok g) (hj : 1 ≤ vj)
    {wi wj : Nat} (h1 : wi ≤ wj) (h2 : wj ≤ vj) : g.checkRange wi wj = (g, true) := by
  obtain ⟨a, k, hv1, hv2⟩ := slice_versions hn hg hj
  unfold Lgm.checkRange
  rw [isContinuous_range' hv1]
  simp only [hv2]
  have : wi ≤ wj ∧ wi ≤ vj ∧ wj ≤ vj := by omega
  simp [this]

/-! ### C105 -/

/-- **C105**, the part about `Slice`.  If a snapshot of the first version is stored (after `Slice` it is, unless the range had only
newer ones), then a slice of a slice is the slice of the original.  Missing: ranges whose oldest stored snapshot is newer than `vi`
(`C19_missing_base_violated`), the range `0..0` (`C19_version_zero_fails`), `Set` (`C105_set_fails`) and `TemporalTrack`
(`C105_temporalTrack_fails`). -/
theorem C105_slice_partial {s : St} (h : Reachable s) {vi vj : Nat} {g : Lgm} (hg : (s.slice vi vj).2 = .ok g) (hj : 1 ≤ vj)
    (hsn : ∃ d, mget (s.slice vi vj).1.lgm.snaps vi = some d) {wi wj : Nat} (hwi : vi ≤ wi) (hw : wi ≤ wj) (hwj : wj ≤ vj) :
    let s1 := (s.slice vi vj).1
    let t := St.slice ⟨s1.heap, g⟩ wi wj
    t.2 = (s1.slice wi wj).2 ∧ t.1.heap = (s1.slice wi wj).1.heap := by
  obtain ⟨n, hn⟩ := h.versions
  have hans := C19_slice_answers_partial h hg hj hsn (v := wi) ⟨hwi, by omega⟩
  obtain ⟨a1, a2, a3, a4, a5, a6, a7, a8, -⟩ := slice_ok hn hg
  obtain ⟨m1, m2⟩ := slice_maps h hg
  have hc := slice_check hn hg hj hw hwj
  have hr1 : Reachable (s.slice vi vj).1 := by
    have := h.step (.slice vi vj)
    simpa only [step] using this
  have hn1 : (s.slice vi vj).1.lgm.Versions n := by
    obtain ⟨sn, he⟩ := St.slice_lgm hn vi vj
    exact hn.congr (by rw [he]) (by rw [he])
  have hpat : (s.slice vi vj).1.lgm.patches = s.lgm.patches := by
    obtain ⟨sn, he⟩ := St.slice_lgm hn vi vj
    rw [he]
  have hs1 := (C01_stored_snapshots _ hr1 hn1.gapFree).1
  generalize (s.slice vi vj).1 = s1 at *
  have e1 : restrict g.patches [] wi wj = restrict s1.lgm.patches [] wi wj := by
    rw [hpat, m1]
    refine restrict_congr (restrict_nodup hn.2.1) hn.2.1 fun v h1 h2 => ?_
    rw [mget_restrict, if_pos (by omega)]
  have e2 : restrict g.snaps .null wi wj = restrict s1.lgm.snaps .null wi wj := by
    refine restrict_congr m2 hs1 fun v h1 h2 => ?_
    rw [a7, if_pos (by omega)]
  dsimp only at hans ⊢
  unfold St.slice
  simp only [hc, hn1.checkRange]
  have : wi ≤ wj ∧ wj ≤ n := by omega
  simp only [this, and_self, decide_true, e1, e2]
  split
  · obtain ⟨h1, h2⟩ := hans
    rcases hA : St.snapshot ⟨s1.heap, g⟩ wi with ⟨tA, rA⟩
    rcases hB : St.snapshot ⟨s1.heap, s1.lgm⟩ wi with ⟨tB, rB⟩
    have hB' : s1.snapshot wi = (tB, rB) := hB
    rw [hA, hB'] at h1 h2
    simp only at h1 h2
    subst h1
    cases rA <;> exact ⟨rfl, h2⟩
  · exact ⟨rfl, rfl⟩

/-- **C105**, the part about `Track`: for every range inside that of a slice, it returns on the slice what it returns on the original. -/
theorem C105_track_partial {s : St} (h : Reachable s) {vi vj : Nat} {g : Lgm} (hg : (s.slice vi vj).2 = .ok g) (hj : 1 ≤ vj)
    {wi wj : Nat} (hwi : vi ≤ wi) (hw : wi ≤ wj) (hwj : wj ≤ vj) : (g.track wi wj).2 = (s.lgm.track wi wj).2 := by
  obtain ⟨n, hn⟩ := h.versions
  obtain ⟨a1, a2, a3, a4, a5, a6, a7, a8, -⟩ := slice_ok hn hg
  obtain ⟨m1, -⟩ := slice_maps h hg
  have e1 : restrict g.patches [] wi wj = restrict s.lgm.patches [] wi wj := by
    rw [m1]
    refine restrict_congr (restrict_nodup hn.2.1) hn.2.1 fun v h1 h2 => ?_
    rw [mget_restrict, if_pos (by omega)]
  unfold Lgm.track
  rw [slice_check hn hg hj hw hwj, hn.checkRange]
  have : wi ≤ wj ∧ wj ≤ n := by omega
  simp only [this, and_self, decide_true, e1]
  have key := compactVersions_congr (fun _ => .compare) (sortNat (mkeys (restrict s.lgm.patches [] wi wj))) [] g.patches s.lgm.patches
    ((sortNat_perm _).nodup_iff.2 (restrict_nodup hn.2.1)) (by
      intro v hv
      rw [mem_sortNat, mem_restrict_keys] at hv
      rw [a6, if_pos (by omega)])
  rcases hA : compactVersions (fun _ => .compare) [] g.patches (sortNat (mkeys (restrict s.lgm.patches [] wi wj))) with ⟨pA, bA⟩
  rcases hB : compactVersions (fun _ => .compare) [] s.lgm.patches (sortNat (mkeys (restrict s.lgm.patches [] wi wj))) with ⟨pB, bB⟩
  rw [hA, hB] at key
  simp only at key
  subst key
  cases bA <;> rfl

/-- **C105**, growing: what is stored in a slice becomes the version after its last one, whatever the original has recorded as that version. -/
theorem C105_append {s : St} (h : Reachable s) {vi vj : Nat} {g : Lgm} (hg : (s.slice vi vj).2 = .ok g) (hj : 1 ≤ vj) {a : StoreArg} {l : List Op}
    (ha : a.resolve = .ok (some l)) :
    (g.store a).2 = .ok () ∧ (g.store a).1.append.2 = .ok () ∧ (g.store a).1.append.1.version = g.version ++ [vj + 1] ∧
    (∀ v, mget (g.store a).1.append.1.patches v = if v = vj + 1 then some l else mget g.patches v) ∧
    (g.store a).1.append.1.snaps = g.snaps := by
  obtain ⟨n, hn⟩ := h.versions
  obtain ⟨a1, a2, a3, a4, a5, a6, a7, a8, -⟩ := slice_ok hn hg
  obtain ⟨b, k, hv1, hv2⟩ := slice_versions hn hg hj
  have e : g.store a = ({ g with pool := some l }, .ok ()) := by
    unfold Lgm.store
    rw [ha, a4]
  have hgrown : Lgm.isGrown { g with pool := some l } = true := by
    unfold Lgm.isGrown
    dsimp only
    rw [hv1]
    split
    · rfl
    · rename_i hk
      rw [List.length_range'] at hk ⊢
      rw [List.getElem?_range' (by omega), List.getElem?_range' (by omega)]
      simp; omega
  have hnone : mget g.patches (vj + 1) = none := by rw [a6, if_neg (by omega)]
  have e2 : Lgm.append { g with pool := some l } =
      ({ g with patches := mset g.patches (vj + 1) l, version := g.version ++ [vj + 1], pool := none }, .ok ()) := by
    unfold Lgm.append
    rw [if_neg (by rw [hgrown]; decide)]
    simp only [hv2, hnone]
  rw [e, e2]
  refine ⟨rfl, rfl, rfl, fun v => ?_, rfl⟩
  by_cases hv : v = vj + 1
  · rw [hv, if_pos rfl, mget_mset_self]
  · rw [if_neg hv, mget_mset_ne _ _ hv]

/-! ### Set -/

theorem set_null {s : St} (h : s.lgm.current = .null) (vk : Nat) (op : Op) (hk : op.kind = .add ∨ op.kind = .replace) :
    (s.set vk op).2 = .panic ∧ (s.set vk op).1.lgm = s.lgm := by
  have hp : ∃ p ps, writeParts op.path = p :: ps := by
    cases hw : writeParts op.path with
    | nil => exact absurd hw (split_ne_nil _ _)
    | cons p ps => exact ⟨p, ps, rfl⟩
  obtain ⟨p, ps, hp⟩ := hp
  have ha : applyOperation s.heap s.lgm.current op = (s.heap, .err) := by
    unfold applyOperation
    rw [hp, h]
    unfold applyTraverse
    rfl
  have hn : ¬ (op.kind ≠ .replace ∧ op.kind ≠ .add) := by
    rintro ⟨h1, h2⟩
    rcases hk with hk | hk
    · exact h2 hk
    · exact h1 hk
  unfold St.set
  rw [if_neg hn, ha]
  refine ⟨rfl, ?_⟩
  simp only
  rw [← h]

theorem cont_current (g : Lgm) : g.isContinuous.1.current = g.current := by
  unfold Lgm.isContinuous
  split <;> rfl

theorem check_current (g : Lgm) (i j : Nat) : (g.checkRange i j).1.current = g.current := by
  unfold Lgm.checkRange
  have := cont_current g
  split
  · rename_i e; rw [e] at this; exact this
  · rename_i e
    rw [e] at this
    split <;> exact this

theorem latest_current (g : Lgm) (v : Nat) : (g.findLatest v).1.current = g.current := by
  unfold Lgm.findLatest
  have := cont_current g
  split
  · rename_i e; rw [e] at this; exact this
  · rename_i e
    rw [e] at this
    split
    · exact this
    · split
      · exact this
      · dsimp only
        split
        · exact this
        · split <;> exact this

theorem snapshot_current (s : St) (v : Nat) : (s.snapshot v).1.lgm.current = s.lgm.current := by
  unfold St.snapshot
  have := latest_current s.lgm v
  split
  · rename_i e; rw [e] at this; exact this
  · rename_i e; rw [e] at this; exact this
  · rename_i e
    rw [e] at this
    split
    · exact this
    · exact this
    · split <;> exact this

theorem append_current (g : Lgm) : g.append.1.current = g.current := by
  unfold Lgm.append
  repeat' split
  all_goals rfl

theorem temporalSnapshot_current (s : St) (o : Oracle) (t : Int) : (s.temporalSnapshot o t).1.lgm.current = s.lgm.current := by
  obtain ⟨g, hg, hr⟩ := s.temporalSnapshot_lgm o t
  have he : g.current = s.lgm.current := by
    rcases hg with rfl | rfl
    · rfl
    · exact append_current _
  rcases hr with hr | ⟨v, q, -, h2⟩
  · rw [hr, he]
  · rw [h2]; exact he

theorem compact_current (g : Lgm) (pre : Bytes) : (g.compact pre).1.current = g.current := by
  unfold Lgm.compact
  have := cont_current g
  split
  · rename_i e; rw [e] at this; exact this
  · rename_i e
    rw [e] at this
    split <;> exact this

theorem slice_current (s : St) (i j : Nat) : (s.slice i j).1.lgm.current = s.lgm.current := by
  unfold St.slice
  have hc := check_current s.lgm i j
  split
  · rename_i e; rw [e] at hc; exact hc
  · rename_i g e
    rw [e] at hc
    dsimp only
    split
    · have := snapshot_current ⟨s.heap, g⟩ i
      split <;> rename_i e' <;> rw [e'] at this <;> exact this.trans hc
    · exact hc

theorem temporalSlice_current (s : St) (o : Oracle) (ti tj : Int) : (s.temporalSlice o ti tj).1.lgm.current = s.lgm.current := by
  unfold St.temporalSlice
  have hc := cont_current s.lgm
  split
  · rename_i e; rw [e] at hc; exact hc
  · rename_i g e
    rw [e] at hc
    split
    · exact hc
    · split
      · exact hc
      · dsimp only
        split
        · split
          · exact hc
          · have := temporalSnapshot_current ⟨s.heap, g⟩ o ti
            split <;> rename_i e' <;> rw [e'] at this <;> exact this.trans hc
        · exact hc

theorem history_current (s : St) (o : Oracle) (pre : Bytes) : (s.history o pre).1.lgm.current = s.lgm.current := by
  unfold St.history
  have hc := cont_current s.lgm
  split
  · rename_i e; rw [e] at hc; exact hc
  · rename_i g e
    rw [e] at hc
    have h2 := compact_current g pre
    split
    · rename_i g' e'
      rw [e'] at h2
      dsimp only
      split
      · exact h2.trans hc
      · split
        · exact h2.trans hc
        · split <;> exact h2.trans hc
    · rename_i g' r e'
      rw [e'] at h2
      exact h2.trans hc

theorem track_current (g : Lgm) (i j : Nat) : (g.track i j).1.current = g.current := by
  unfold Lgm.track
  have := check_current g i j
  split
  · rename_i e; rw [e] at this; exact this
  · rename_i e
    rw [e] at this
    dsimp only
    split <;> exact this

/-- Without a current document, no call gives the logument one. -/
theorem step_null {s : St} (h : s.lgm.current = .null) (c : Call) : (step s c).1.lgm.current = .null := by
  have hset : ∀ vk op, (s.set vk op).1.lgm.current = .null := by
    intro vk op
    by_cases hk : op.kind = .add ∨ op.kind = .replace
    · rw [(set_null h vk op hk).2]; exact h
    · unfold St.set
      rw [if_pos ⟨fun e => hk (.inr e), fun e => hk (.inl e)⟩]
      exact h
  cases c with
  | store a =>
    simp only [step, St.onLgm, Lgm.store]
    repeat' split
    all_goals exact h
  | append => exact (append_current _).trans h
  | set vk op => exact hset vk op
  | testSet vk op =>
    simp only [step, St.testSet]
    repeat' split
    all_goals first | exact h | exact hset _ _
  | snapshot v => exact (snapshot_current s v).trans h
  | temporalSnapshot o t => exact (temporalSnapshot_current s o t).trans h
  | slice i j => exact (slice_current s i j).trans h
  | temporalSlice o i j => exact (temporalSlice_current s o i j).trans h
  | track i j => exact (track_current _ i j).trans h
  | temporalTrack i j =>
    simp only [step, St.onLgm, Lgm.temporalTrack]
    repeat' split
    all_goals exact h
  | compact pre => exact (compact_current _ pre).trans h
  | history o pre => exact (history_current s o pre).trans h
  | environment hp => exact h

theorem run_null (cs : List Call) : ∀ {s : St}, s.lgm.current = .null → (run s cs).lgm.current = .null := by
  induction cs with
  | nil => exact fun h => h
  | cons c cs ih => exact fun h => ih (step_null h c)

/-- **C105**, violated for every slice: whatever is done with a slice, `Set` panics for every operation that it should apply. -/
theorem C105_set_fails {s : St} {g : Lgm} (hg : (∃ vi vj, (s.slice vi vj).2 = .ok g) ∨ ∃ o ti tj, (s.temporalSlice o ti tj).2 = .ok g)
    (h : Heap) (cs : List Call) (vk : Nat) (op : Op) (hk : op.kind = .add ∨ op.kind = .replace) :
    ((run ⟨h, g⟩ cs).set vk op).2 = .panic := by
  refine (set_null (run_null cs ?_) vk op hk).1
  rcases hg with ⟨vi, vj, hg⟩ | ⟨o, ti, tj, hg⟩
  · unfold St.slice at hg
    split at hg
    · cases hg
    · dsimp only at hg
      split at hg
      · split at hg
        · cases hg; rfl
        · cases hg
        · cases hg
      · cases hg; rfl
  · unfold St.temporalSlice at hg
    split at hg
    · cases hg
    · split at hg
      · cases hg
      · split at hg
        · cases hg
        · dsimp only at hg
          split at hg
          · split at hg
            · cases hg
            · split at hg
              · cases hg; rfl
              · cases hg
              · cases hg
          · cases hg; rfl

/-- **C105**, the same for a logument that is no slice: after one `Set` with an error, `Set` panics for ever. -/
theorem C105_dead_fails {s : St} {vk : Nat} {op : Op} (hk : op.kind = .add ∨ op.kind = .replace)
    (he : (applyOperation s.heap s.lgm.current op).2 = .err) (cs : List Call) (vk' : Nat) (op' : Op) (hk' : op'.kind = .add ∨ op'.kind = .replace) :
    ((run (s.set vk op).1 cs).set vk' op').2 = .panic := by
  refine (set_null (run_null cs ?_) vk' op' hk').1
  unfold St.set
  have hn : ¬ (op.kind ≠ .replace ∧ op.kind ≠ .add) := by
    rintro ⟨h1, h2⟩
    rcases hk with hk | hk
    · exact h2 hk
    · exact h1 hk
  rw [if_neg hn]
  rcases ha : applyOperation s.heap s.lgm.current op with ⟨h, r⟩
  rw [ha] at he
  simp only at he
  subst he
  rfl

/-! ### Examples -/

/-- A slice of a slice. -/
example : (demo.slice 0 2).2.isOk = true ∧ (mget (demo.slice 0 2).1.lgm.snaps 0).isSome = true ∧
    (demo.slice 0 2).2.map (fun g => (St.slice ⟨demo.heap, g⟩ 1 2).2.map (fun g => g.version)) = .ok (.ok [1, 2]) := by decide

/-- `Track` on a slice. -/
example : (demo.slice 1 2).2.map (fun g => ((g.track 2 2).2)) = .ok (demo.lgm.track 2 2).2 := by decide

/-- An operation that fails with an error: nil is no value. -/
example : (applyOperation demo.heap demo.lgm.current ⟨.add, b!"a", .nil, 3⟩).2 = .err := by decide

/-- **C105**, violated: `TemporalTrack` on a slice reports an operation that it does not report for the original, as the value before the slice is unknown. -/
theorem C105_temporalTrack_fails :
    let s := run (newLogument [] demoDoc none).1 [.store (.op (demoOp b!"a" false 5)), .append, .store (.op (demoOp b!"a" false 9)), .append]
    (s.lgm.temporalTrack 0 20).2 = .ok [(1, [demoOp b!"a" false 5])] ∧
    (s.slice 2 2).2.map (fun g => (g.temporalTrack 0 20).2) = .ok (.ok [(2, [demoOp b!"a" false 9])]) := by decide

end Verif
