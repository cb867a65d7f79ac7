import Verif.Logument
/-
Lemmas about the version bookkeeping of `Verif.Logument`.
-/
namespace Verif

/-! ### Sorting version numbers -/

theorem insertNat_perm (x : Nat) (l : List Nat) : (insertNat x l).Perm (x :: l) := by
  induction l with
  | nil => exact .refl _
  | cons y l ih =>
    by_cases h : x ≤ y
    · simp [insertNat, h]
    · simp only [insertNat, h, if_false]
      exact (List.Perm.cons y ih).trans (List.Perm.swap x y l)

theorem sortNat_perm (l : List Nat) : (sortNat l).Perm l := by
  induction l with
  | nil => exact .refl _
  | cons x l ih => exact (insertNat_perm x _).trans (List.Perm.cons x ih)

theorem insertNat_sorted (x : Nat) (l : List Nat) (h : l.Pairwise (· ≤ ·)) :
    (insertNat x l).Pairwise (· ≤ ·) := by
  induction l with
  | nil => simp [insertNat]
  | cons y l ih =>
    rw [List.pairwise_cons] at h
    by_cases hx : x ≤ y
    · simp only [insertNat, hx, if_true]
      refine List.pairwise_cons.2 ⟨?_, List.pairwise_cons.2 h⟩
      intro z hz
      rcases List.mem_cons.1 hz with rfl | hz
      · exact hx
      · have := h.1 z hz; omega
    · simp only [insertNat, hx, if_false]
      refine List.pairwise_cons.2 ⟨?_, ih h.2⟩
      intro z hz
      rcases List.mem_cons.1 ((insertNat_perm x l).mem_iff.1 hz) with rfl | hz
      · omega
      · exact h.1 z hz

theorem sortNat_sorted (l : List Nat) : (sortNat l).Pairwise (· ≤ ·) := by
  induction l with
  | nil => exact .nil
  | cons x l ih => exact insertNat_sorted x _ ih

theorem mem_sortNat {l : List Nat} {x : Nat} : x ∈ sortNat l ↔ x ∈ l := (sortNat_perm l).mem_iff

theorem sortNat_eq_of_sorted {l : List Nat} (h : l.Pairwise (· ≤ ·)) : sortNat l = l := by
  induction l with
  | nil => rfl
  | cons x l ih =>
    rw [List.pairwise_cons] at h
    simp only [sortNat, ih h.2]
    cases l with
    | nil => rfl
    | cons y l => simp [insertNat, h.1 y (by simp)]

theorem sorted_perm_unique {l₁ l₂ : List Nat} (hp : l₁.Perm l₂) (h₁ : l₁.Pairwise (· ≤ ·))
    (h₂ : l₂.Pairwise (· ≤ ·)) : l₁ = l₂ := by
  induction l₁ generalizing l₂ with
  | nil => exact (List.nil_perm.1 hp).symm
  | cons x l₁ ih =>
    cases l₂ with
    | nil => exact absurd hp.length_eq (by simp)
    | cons y l₂ =>
      rw [List.pairwise_cons] at h₁ h₂
      have hxy : x = y := by
        have hx : x ∈ y :: l₂ := hp.mem_iff.1 (by simp)
        have hy : y ∈ x :: l₁ := hp.mem_iff.2 (by simp)
        rcases List.mem_cons.1 hx with hx | hx
        · exact hx
        · rcases List.mem_cons.1 hy with hy | hy
          · exact hy.symm
          · have := h₂.1 x hx; have := h₁.1 y hy; omega
      subst hxy
      rw [ih ((List.perm_cons x).1 hp) h₁.2 h₂.2]

theorem range_sorted (n : Nat) : (List.range n).Pairwise (· ≤ ·) :=
  (List.pairwise_lt_range).imp (fun h => Nat.le_of_lt h)

theorem sortNat_range (n : Nat) : sortNat (List.range n) = List.range n :=
  sortNat_eq_of_sorted (range_sorted n)

theorem consecutive_range' (a n : Nat) : consecutive (List.range' a n) = true := by
  induction n generalizing a with
  | zero => rfl
  | succ n ih =>
    cases n with
    | zero => rfl
    | succ n =>
      have := ih (a + 1)
      simp only [List.range'_succ] at this ⊢
      simp only [consecutive, beq_self_eq_true, Bool.true_and]
      exact this

theorem consecutive_range (n : Nat) : consecutive (List.range n) = true := by
  rw [List.range_eq_range']; exact consecutive_range' 0 n

theorem mem_sortedKeys {m : List (Nat × α)} {v : Nat} : v ∈ sortedKeys m ↔ v ∈ mkeys m := mem_sortNat

theorem sortedKeys_sorted (m : List (Nat × α)) : (sortedKeys m).Pairwise (· ≤ ·) := sortNat_sorted _

/-! ### The version invariant -/

/-- Versions are `0..n`, and a patch is recorded for exactly the versions `1..n`. -/
def Lgm.Versions (g : Lgm) (n : Nat) : Prop :=
  g.version = List.range (n + 1) ∧ (mkeys g.patches).Nodup ∧
    ∀ v, v ∈ mkeys g.patches ↔ 1 ≤ v ∧ v ≤ n

theorem getLast?_range_succ (n : Nat) : (List.range (n + 1)).getLast? = some n := by
  simp [List.range_succ]

theorem Lgm.Versions.last {g : Lgm} {n : Nat} (h : g.Versions n) : g.version.getLast? = some n := by
  rw [h.1, getLast?_range_succ]

theorem Lgm.Versions.isContinuous {g : Lgm} {n : Nat} (h : g.Versions n) :
    g.isContinuous = (g, true) := by
  unfold Lgm.isContinuous
  split
  · rfl
  · have hs : sortNat g.version = g.version := by rw [h.1, sortNat_range]
    have hc : consecutive g.version = true := by rw [h.1, consecutive_range]
    simp only [hs, hc]

theorem Lgm.Versions.isGrown {g : Lgm} {n : Nat} (h : g.Versions n) : g.isGrown = true := by
  unfold Lgm.isGrown
  split
  · rfl
  · rename_i hlen
    rw [h.1] at hlen ⊢
    simp at hlen
    simp only [List.length_range]
    rw [List.getElem?_range (by omega), List.getElem?_range (by omega)]
    simp; omega

theorem Lgm.Versions.sortedKeys {g : Lgm} {n : Nat} (h : g.Versions n) :
    sortedKeys g.patches = List.range' 1 n := by
  refine sorted_perm_unique ?_ (sortNat_sorted _) ?_
  · refine (sortNat_perm _).trans ?_
    rw [List.perm_ext_iff_of_nodup h.2.1 List.nodup_range']
    intro v
    rw [h.2.2]; simp; omega
  · exact (List.pairwise_lt_range').imp (fun h => Nat.le_of_lt h)

theorem Lgm.Versions.append {g : Lgm} {n : Nat} (h : g.Versions n) :
    g.append = match g.pool with
      | none => (g, .ok ())
      | some p => ({ g with patches := g.patches ++ [(n + 1, p)], version := List.range (n + 2),
                            pool := none }, .ok ()) := by
  unfold Lgm.append
  rw [h.isGrown]
  simp only [Bool.true_eq_false, if_false]
  cases hp : g.pool with
  | none => rfl
  | some p =>
    simp only [h.last]
    have hnone : mget g.patches (n + 1) = none := by
      rw [mget_eq_none, h.2.2]; omega
    simp only [hnone]
    have hset : mset g.patches (n + 1) p = g.patches ++ [(n + 1, p)] := by
      have hk := mget_eq_none.1 hnone
      clear h hnone hp
      generalize g.patches = m at hk ⊢
      induction m with
      | nil => rfl
      | cons q m ih =>
        obtain ⟨k, v⟩ := q
        simp [mkeys] at hk
        have hne : k ≠ n + 1 := fun e => hk.1 e.symm
        simp [mset, hne]
        exact ih (by simpa [mkeys] using hk.2)
    rw [hset, h.1, ← List.range_succ]

theorem Lgm.Versions.of_append {g : Lgm} {n : Nat} (h : g.Versions n) :
    ∃ m, g.append.1.Versions m := by
  rw [h.append]
  cases hp : g.pool with
  | none => exact ⟨n, h⟩
  | some p =>
    refine ⟨n + 1, rfl, ?_, ?_⟩
    · simp only [mkeys, List.map_append, List.map_cons, List.map_nil]
      rw [List.nodup_append]
      refine ⟨h.2.1, by simp, ?_⟩
      intro a ha b hb
      simp at hb; subst hb
      have := (h.2.2 a).1 ha
      omega
    · intro v
      have := h.2.2 v
      simp only [mkeys] at this
      simp only [mkeys, List.map_append, List.map_cons, List.map_nil, List.mem_append, this]
      simp; omega

theorem mkeys_mset_mem {m : List (Nat × α)} {v : Nat} (h : v ∈ mkeys m) (p : α) :
    mkeys (mset m v p) = mkeys m := by
  rw [mkeys_mset]; simp [h]

theorem Lgm.Versions.congr {g g' : Lgm} {n : Nat} (h : g.Versions n) (hv : g'.version = g.version)
    (hp : mkeys g'.patches = mkeys g.patches) : g'.Versions n := by
  refine ⟨by rw [hv]; exact h.1, by rw [hp]; exact h.2.1, ?_⟩
  intro v; rw [hp]; exact h.2.2 v

theorem compactVersions_keys (sel : Op → Sel) (latest) (patches : List (Nat × List Op)) (vs : List Nat)
    (h : ∀ v ∈ vs, v ∈ mkeys patches) :
    mkeys (compactVersions sel latest patches vs).1 = mkeys patches := by
  induction vs generalizing latest patches with
  | nil => rfl
  | cons v vs ih =>
    unfold compactVersions
    cases hc : compactOps sel latest ((mget patches v).getD []) with
    | none => rfl
    | some r =>
      obtain ⟨ps, latest'⟩ := r
      have hk : mkeys (mset patches v ps) = mkeys patches := mkeys_mset_mem (h v (by simp)) ps
      dsimp only
      rw [ih latest' _ (fun w hw => by rw [hk]; exact h w (by simp [hw])), hk]

theorem mem_restrict_keys {m : List (Nat × α)} {d : α} {vi vj v : Nat} :
    v ∈ mkeys (restrict m d vi vj) ↔ v ∈ mkeys m ∧ vi ≤ v ∧ v ≤ vj := by
  have e : mkeys (restrict m d vi vj) = (sortedKeys m).filter fun v => decide (vi ≤ v ∧ v ≤ vj) := by
    simp [restrict, mkeys, Function.comp_def]
  rw [e, List.mem_filter, decide_eq_true_eq, mem_sortedKeys]

theorem Lgm.Versions.checkRange {g : Lgm} {n : Nat} (h : g.Versions n) (vi vj : Nat) :
    g.checkRange vi vj = (g, decide (vi ≤ vj ∧ vj ≤ n)) := by
  unfold Lgm.checkRange
  rw [h.isContinuous]
  simp only [h.last]
  congr 1
  rw [decide_eq_decide]; omega

theorem Lgm.findLatest_fst {g : Lgm} {n : Nat} (h : g.Versions n) (v : Nat) :
    (g.findLatest v).1 = g := by
  unfold Lgm.findLatest
  rw [h.isContinuous]
  simp only [h.last]
  split
  · rfl
  · split
    · rfl
    · split <;> rfl

theorem St.snapshot_lgm {s : St} {n : Nat} (h : s.lgm.Versions n) (v : Nat) :
    ∃ sn, (s.snapshot v).1.lgm = { s.lgm with snaps := sn } := by
  unfold St.snapshot
  have := Lgm.findLatest_fst h v
  rcases hfl : s.lgm.findLatest v with ⟨g, r⟩
  rw [hfl] at this
  dsimp only at this
  subst this
  cases r with
  | err => exact ⟨s.lgm.snaps, rfl⟩
  | panic => exact ⟨s.lgm.snaps, rfl⟩
  | ok p =>
    obtain ⟨b, base⟩ := p
    dsimp only
    split
    · exact ⟨s.lgm.snaps, rfl⟩
    · exact ⟨s.lgm.snaps, rfl⟩
    · split
      · exact ⟨s.lgm.snaps, rfl⟩
      · exact ⟨_, rfl⟩

theorem St.set_lgm (s : St) (vk : Nat) (op : Op) :
    ∃ c p, (s.set vk op).1.lgm = { s.lgm with current := c, pool := p } := by
  unfold St.set
  split
  · exact ⟨s.lgm.current, s.lgm.pool, rfl⟩
  · split
    · exact ⟨_, _, rfl⟩
    · exact ⟨.null, s.lgm.pool, rfl⟩
    · exact ⟨s.lgm.current, s.lgm.pool, rfl⟩

theorem St.testSet_lgm (s : St) (vk : Nat) (op : Op) :
    ∃ c p, (s.testSet vk op).1.lgm = { s.lgm with current := c, pool := p } := by
  have hid : ∃ c p, s.lgm = { s.lgm with current := c, pool := p } :=
    ⟨s.lgm.current, s.lgm.pool, rfl⟩
  unfold St.testSet
  split
  · exact hid
  · split
    · exact s.set_lgm vk op
    · split
      · exact hid
      · split
        · exact hid
        · split
          · exact hid
          · exact s.set_lgm vk _
          · split
            · exact hid
            · exact s.set_lgm vk op

theorem St.temporalApply_lgm (s : St) (o : Oracle) (t : Int) (v : Nat) (base : HVal) :
    (s.temporalApply o t v base).1.lgm = s.lgm ∨
    ∃ q, mget s.lgm.patches (v + 1) = some q ∧
      (s.temporalApply o t v base).1.lgm =
        { s.lgm with patches := mset s.lgm.patches (v + 1) (o.sortOps q) } := by
  unfold St.temporalApply
  cases hq : mget s.lgm.patches (v + 1) with
  | none =>
    left
    dsimp only
    split <;> rfl
  | some q =>
    right
    refine ⟨q, rfl, ?_⟩
    simp only [Lgm.patchOf, hq, Option.getD_some]
    split <;> rfl

/-- The logument after `TemporalSnapshot`: as before, or after an `Append`, possibly with one
recorded patch re-sorted. -/
theorem St.temporalSnapshot_lgm (s : St) (o : Oracle) (t : Int) :
    ∃ g, (g = s.lgm ∨ g = s.lgm.append.1) ∧
      ((s.temporalSnapshot o t).1.lgm = g ∨
       ∃ v q, mget g.patches v = some q ∧
        (s.temporalSnapshot o t).1.lgm = { g with patches := mset g.patches v (o.sortOps q) }) := by
  unfold St.temporalSnapshot
  split
  · exact ⟨_, Or.inl rfl, Or.inl rfl⟩
  · split
    · exact ⟨_, Or.inl rfl, Or.inl rfl⟩
    · rename_i v _
      dsimp only
      split
      · exact ⟨_, Or.inl rfl, Or.inl rfl⟩
      · split
        · split
          · exact ⟨_, Or.inl rfl, Or.inl rfl⟩
          · refine ⟨_, Or.inr rfl, ?_⟩
            rcases St.temporalApply_lgm ⟨s.heap, s.lgm.append.1⟩ o t v (s.lgm.snap v) with h | ⟨q, h1, h2⟩
            · exact Or.inl h
            · exact Or.inr ⟨_, q, h1, h2⟩
        · refine ⟨_, Or.inl rfl, ?_⟩
          rcases St.temporalApply_lgm s o t v (s.lgm.snap v) with h | ⟨q, h1, h2⟩
          · exact Or.inl h
          · exact Or.inr ⟨_, q, h1, h2⟩

theorem St.temporalSnapshot_versions {s : St} {n : Nat} (h : s.lgm.Versions n) (o : Oracle) (t : Int) :
    ∃ m, (s.temporalSnapshot o t).1.lgm.Versions m := by
  obtain ⟨g, hg, hr⟩ := s.temporalSnapshot_lgm o t
  have hgv : ∃ m, g.Versions m := by
    rcases hg with rfl | rfl
    · exact ⟨n, h⟩
    · exact h.of_append
  obtain ⟨m, hm⟩ := hgv
  rcases hr with hr | ⟨v, q, h1, h2⟩
  · exact ⟨m, by rw [hr]; exact hm⟩
  · refine ⟨m, ?_⟩
    rw [h2]
    exact hm.congr rfl (mkeys_mset_mem (mget_isSome.1 ⟨q, h1⟩) _)

theorem Lgm.store_lgm (g : Lgm) (a : StoreArg) : ∃ p, (g.store a).1 = { g with pool := p } := by
  unfold Lgm.store
  split
  · split
    · exact ⟨_, rfl⟩
    · exact ⟨_, rfl⟩
  · exact ⟨g.pool, rfl⟩
  · exact ⟨g.pool, rfl⟩

theorem Lgm.Versions.compact_lgm {g : Lgm} {n : Nat} (h : g.Versions n) (pre : Bytes) :
    (g.compact pre).1 =
      { g with patches := (compactVersions (selPrefix pre) [] g.patches (Verif.sortedKeys g.patches)).1 } := by
  unfold Lgm.compact
  rw [h.isContinuous]
  dsimp only
  rcases compactVersions (selPrefix pre) [] g.patches (Verif.sortedKeys g.patches) with ⟨ps, b⟩
  cases b <;> rfl

theorem Lgm.Versions.track_lgm {g : Lgm} {n : Nat} (h : g.Versions n) (vi vj : Nat) :
    (g.track vi vj).1 = if vi ≤ vj ∧ vj ≤ n then
      { g with patches := (compactVersions (fun _ => .compare) [] g.patches
        (sortNat (mkeys (restrict g.patches [] vi vj)))).1 } else g := by
  unfold Lgm.track
  rw [h.checkRange]
  by_cases hr : vi ≤ vj ∧ vj ≤ n
  · simp only [hr, and_self, decide_true, if_true]
    rcases compactVersions (fun _ => .compare) [] g.patches
      (sortNat (mkeys (restrict g.patches [] vi vj))) with ⟨ps, b⟩
    cases b <;> rfl
  · simp only [hr, decide_false, if_false]

theorem Lgm.Versions.of_compact {g : Lgm} {n : Nat} (h : g.Versions n) (pre : Bytes) :
    (g.compact pre).1.Versions n := by
  rw [h.compact_lgm]
  exact h.congr rfl (compactVersions_keys _ _ _ _ fun v hv => mem_sortedKeys.1 hv)

theorem Lgm.Versions.of_track {g : Lgm} {n : Nat} (h : g.Versions n) (vi vj : Nat) :
    (g.track vi vj).1.Versions n := by
  rw [h.track_lgm]
  split
  · exact h.congr rfl (compactVersions_keys _ _ _ _ fun v hv =>
      (mem_restrict_keys.1 (mem_sortNat.1 hv)).1)
  · exact h

theorem St.history_lgm {s : St} {n : Nat} (h : s.lgm.Versions n) (o : Oracle) (pre : Bytes) :
    (s.history o pre).1.lgm = (s.lgm.compact pre).1 := by
  unfold St.history
  rw [h.isContinuous]
  dsimp only
  rcases s.lgm.compact pre with ⟨g, r⟩
  cases r with
  | ok u =>
    dsimp only
    split
    · rfl
    · split
      · rfl
      · split <;> rfl
  | err => rfl
  | panic => rfl

theorem St.history_heap (s : St) (o : Oracle) (pre : Bytes) : (s.history o pre).1.heap = s.heap := by
  unfold St.history
  split
  · rfl
  · split
    · dsimp only
      split
      · rfl
      · split
        · rfl
        · split <;> rfl
    · rfl

theorem St.slice_lgm {s : St} {n : Nat} (h : s.lgm.Versions n) (vi vj : Nat) :
    ∃ sn, (s.slice vi vj).1.lgm = { s.lgm with snaps := sn } := by
  have hid : ∃ sn, s.lgm = { s.lgm with snaps := sn } := ⟨s.lgm.snaps, rfl⟩
  unfold St.slice
  rw [h.checkRange]
  by_cases hr : vi ≤ vj ∧ vj ≤ n
  · simp only [hr, and_self, decide_true]
    split
    · obtain ⟨sn, hsn⟩ := St.snapshot_lgm h vi
      split <;> rename_i heq <;> (refine ⟨sn, ?_⟩; rw [← hsn, heq])
    · exact hid
  · simp only [hr, decide_false]
    exact hid

/-- The logument after `TemporalSlice`: unchanged or as after `TemporalSnapshot`. -/
theorem St.temporalSlice_lgm {s : St} {n : Nat} (h : s.lgm.Versions n) (o : Oracle) (tsi tsj : Int) :
    (s.temporalSlice o tsi tsj).1 = s ∨
      (s.temporalSlice o tsi tsj).1 = (s.temporalSnapshot o tsi).1 := by
  unfold St.temporalSlice
  rw [h.isContinuous]
  dsimp only
  split
  · exact Or.inl rfl
  · split
    · exact Or.inl rfl
    · split
      · split
        · exact Or.inl rfl
        · right
          split <;> rename_i heq <;> rw [heq]
      · exact Or.inl rfl

/-- Every call keeps the version invariant. -/
theorem step_versions {s : St} {n : Nat} (h : s.lgm.Versions n) (c : Call) :
    ∃ m, (step s c).1.lgm.Versions m := by
  cases c with
  | store a =>
    obtain ⟨p, hp⟩ := s.lgm.store_lgm a
    exact ⟨n, by simp only [step, St.onLgm, hp]; exact h.congr rfl rfl⟩
  | append => exact h.of_append
  | set vk op =>
    obtain ⟨c, p, hp⟩ := s.set_lgm vk op
    exact ⟨n, by simp only [step, hp]; exact h.congr rfl rfl⟩
  | testSet vk op =>
    obtain ⟨c, p, hp⟩ := s.testSet_lgm vk op
    exact ⟨n, by simp only [step, hp]; exact h.congr rfl rfl⟩
  | snapshot v =>
    obtain ⟨sn, hp⟩ := s.snapshot_lgm h v
    exact ⟨n, by simp only [step, hp]; exact h.congr rfl rfl⟩
  | temporalSnapshot o t => exact St.temporalSnapshot_versions h o t
  | slice vi vj =>
    obtain ⟨sn, hp⟩ := s.slice_lgm h vi vj
    exact ⟨n, by simp only [step, hp]; exact h.congr rfl rfl⟩
  | temporalSlice o tsi tsj =>
    rcases St.temporalSlice_lgm h o tsi tsj with hs | hs
    · exact ⟨n, by simp only [step, hs]; exact h⟩
    · simp only [step, hs]; exact St.temporalSnapshot_versions h o tsi
  | track vi vj => exact ⟨n, h.of_track vi vj⟩
  | temporalTrack tsi tsj =>
    refine ⟨n, ?_⟩
    simp only [step, St.onLgm, Lgm.temporalTrack]
    split
    · exact h
    · split <;> exact h
  | compact pre => exact ⟨n, h.of_compact pre⟩
  | history o pre =>
    refine ⟨n, ?_⟩
    simp only [step, St.history_lgm h o pre]
    exact h.of_compact pre
  | environment h' => exact ⟨n, h⟩

theorem run_versions {s : St} {n : Nat} (h : s.lgm.Versions n) (cs : List Call) :
    ∃ m, (run s cs).lgm.Versions m := by
  induction cs generalizing s n with
  | nil => exact ⟨n, h⟩
  | cons c cs ih =>
    obtain ⟨m, hm⟩ := step_versions h c
    exact ih hm

theorem newLogument_versions (h : Heap) (doc : Tson) (ia : Option StoreArg) :
    (newLogument h doc ia).1.lgm.Versions 0 := by
  have h0 : Lgm.Versions (Lgm.mk [0] (h.store doc).2 [(0, (h.store doc).2)] [] none) 0 := ⟨rfl, by simp [mkeys], by simp [mkeys]; omega⟩
  unfold newLogument
  cases ia with
  | none => exact h0
  | some a =>
    dsimp only
    obtain ⟨p, hp⟩ := Lgm.store_lgm
      (Lgm.mk [0] (h.store doc).2 [(0, (h.store doc).2)] [] none) a
    rw [hp]
    exact h0.congr rfl rfl

end Verif
