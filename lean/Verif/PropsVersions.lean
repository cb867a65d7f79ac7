import Verif.LogLemmas
import Verif.SpecLog
/-
Properties C01-C05 and C09: version bookkeeping, the operation pool, the base snapshot, TestSet.
-/
namespace Verif

theorem Reachable.versions {s : St} (h : Reachable s) : ∃ n, s.lgm.Versions n := by
  obtain ⟨hp, doc, ia, cs, rfl⟩ := h
  exact run_versions (newLogument_versions hp doc ia) cs

theorem Reachable.step {s : St} (h : Reachable s) (c : Call) : Reachable (step s c).1 := by
  obtain ⟨hp, doc, ia, cs, rfl⟩ := h
  refine ⟨hp, doc, ia, cs ++ [c], ?_⟩
  generalize (newLogument hp doc ia).1 = s0
  induction cs generalizing s0 with
  | nil => rfl
  | cons d cs ih => exact ih _

theorem Lgm.Versions.gapFree {g : Lgm} {n : Nat} (h : g.Versions n) : GapFree g n :=
  ⟨h.1, fun v => by rw [mget_isSome]; exact h.2.2 v⟩

/-! ### A concrete log used as an example -/

/-- Insertion of an operation by timestamp. -/
def insertOp (x : Op) : List Op → List Op
  | [] => [x]
  | y :: l => if x.ts ≤ y.ts then x :: y :: l else y :: insertOp x l

/-- Sorting operations by timestamp. -/
def sortOp : List Op → List Op
  | [] => []
  | x :: l => insertOp x (sortOp l)

theorem insertOp_perm (x : Op) (l : List Op) : (insertOp x l).Perm (x :: l) := by
  induction l with
  | nil => exact .refl _
  | cons y l ih =>
    by_cases h : x.ts ≤ y.ts
    · simp [insertOp, h]
    · simp only [insertOp, h, if_false]
      exact (List.Perm.cons y ih).trans (List.Perm.swap x y l)

theorem insertOp_sorted (x : Op) (l : List Op) (h : l.Pairwise (fun a b => a.ts ≤ b.ts)) :
    (insertOp x l).Pairwise (fun a b => a.ts ≤ b.ts) := by
  induction l with
  | nil => simp [insertOp]
  | cons y l ih =>
    rw [List.pairwise_cons] at h
    by_cases hx : x.ts ≤ y.ts
    · simp only [insertOp, hx, if_true]
      refine List.pairwise_cons.2 ⟨?_, List.pairwise_cons.2 h⟩
      intro z hz
      rcases List.mem_cons.1 hz with rfl | hz
      · exact hx
      · have := h.1 z hz; omega
    · simp only [insertOp, hx, if_false]
      refine List.pairwise_cons.2 ⟨?_, ih h.2⟩
      intro z hz
      rcases List.mem_cons.1 ((insertOp_perm x l).mem_iff.1 hz) with rfl | hz
      · omega
      · exact h.1 z hz

/-- One possible runtime. -/
def Oracle.plain : Oracle where
  sortOps := sortOp
  sortOps_perm l := by
    induction l with
    | nil => exact .refl _
    | cons x l ih => exact (insertOp_perm x _).trans (List.Perm.cons x ih)
  sortOps_sorted l := by
    induction l with
    | nil => exact .nil
    | cons x l ih => exact insertOp_sorted x _ ih
  orderOps l := l
  orderOps_perm _ := .refl _
  orderPatches l := l
  orderPatches_perm _ := .refl _

/-- `{"a": true<1>, "b": {"c": "x"<2>}}` -/
def demoDoc : Tson :=
  .obj [(b!"a", .leaf (.bool true) 1), (b!"b", .obj [(b!"c", .leaf (.str b!"x") 2)])]

/-- `replace a := v` at time `ts`. -/
def demoOp (path : Bytes) (v : Bool) (ts : Int) : Op := ⟨.replace, path, .bool v, ts⟩

/-- Two versions recorded (two operations and one operation), one operation pending. -/
def demo : St :=
  run (newLogument [] demoDoc none).1
    [.store (.patch (some [demoOp b!"a" false 5, demoOp b!"b/d" true 6])), .append,
     .store (.op (demoOp b!"a" true 9)), .append, .store (.op (demoOp b!"b/d" false 12))]

theorem demo_reachable : Reachable demo := ⟨[], demoDoc, none, _, rfl⟩

/-! ### C01 -/

/-- C01: in every reachable state the versions are gap-free with patches for exactly `1..n`,
`Append` never fails and the continuity check always succeeds. -/
theorem C01_versions_gap_free (s : St) (h : Reachable s) :
    ∃ n, GapFree s.lgm n ∧ s.lgm.append.2 = .ok () ∧ s.lgm.isContinuous = (s.lgm, true) := by
  obtain ⟨n, hn⟩ := h.versions
  refine ⟨n, hn.gapFree, ?_, hn.isContinuous⟩
  rw [hn.append]
  cases s.lgm.pool <;> rfl

example : GapFree demo.lgm 2 ∧ demo.lgm.version = [0, 1, 2] ∧ demo.lgm.append.2 = .ok () := by
  obtain ⟨n, h1, h2, h3⟩ := C01_versions_gap_free demo demo_reachable
  have hv : demo.lgm.version = [0, 1, 2] := by decide
  have : n = 2 := by
    have := congrArg List.length h1.1
    rw [hv] at this; simp at this; omega
  subst this
  exact ⟨h1, hv, h2⟩

/-- A later state is reached by further calls (also after a panic), and stays gap-free. -/
example : (step demo (.snapshot 7)).2.isOk = false ∧ Reachable (step demo (.snapshot 7)).1 :=
  ⟨by decide, demo_reachable.step _⟩

/-- Snapshots are stored for existing versions only, once per version, and always for version 0. -/
structure SnapsOk (g : Lgm) : Prop where
  once : (mkeys g.snaps).Nodup
  zero : 0 ∈ mkeys g.snaps
  exist : ∀ v ∈ mkeys g.snaps, v ∈ g.version

theorem SnapsOk.congr {g g' : Lgm} (h : SnapsOk g) (hs : g'.snaps = g.snaps)
    (hv : ∀ v ∈ g.version, v ∈ g'.version) : SnapsOk g' :=
  ⟨by rw [hs]; exact h.once, by rw [hs]; exact h.zero, fun v hm => hv v (h.exist v (by rw [← hs]; exact hm))⟩

theorem SnapsOk.mset {g : Lgm} (h : SnapsOk g) {v : Nat} (hv : v ∈ g.version) (d : HVal) :
    SnapsOk { g with snaps := mset g.snaps v d } := by
  refine ⟨nodup_mkeys_mset h.once v d, ?_, ?_⟩
  · rw [mkeys_mset]; split
    · exact h.zero
    · exact List.mem_append_left _ h.zero
  · intro w hw
    rw [mkeys_mset] at hw
    split at hw
    · exact h.exist w hw
    · rcases List.mem_append.1 hw with hw | hw
      · exact h.exist w hw
      · simp at hw; subst hw; exact hv

theorem SnapsOk.append {g : Lgm} {n : Nat} (hn : g.Versions n) (h : SnapsOk g) : SnapsOk g.append.1 := by
  rw [hn.append]
  cases g.pool with
  | none => exact h
  | some p =>
    refine h.congr rfl fun v hv => ?_
    rw [hn.1] at hv
    simp only [List.mem_range] at hv ⊢
    omega

theorem snapshot_snapsOk {s : St} {n : Nat} (hn : s.lgm.Versions n) (h : SnapsOk s.lgm) (v : Nat) :
    SnapsOk (s.snapshot v).1.lgm := by
  unfold St.snapshot
  have hf := Lgm.findLatest_fst hn v
  have hle : ∀ p, (s.lgm.findLatest v).2 = .ok p → v ≤ n := by
    intro p hp
    unfold Lgm.findLatest at hp
    rw [hn.isContinuous] at hp
    simp only [hn.last] at hp
    split at hp
    · simp at hp
    · omega
  rcases hfl : s.lgm.findLatest v with ⟨g, r⟩
  rw [hfl] at hf hle
  dsimp only at hf hle
  subst hf
  cases r with
  | err => exact h
  | panic => exact h
  | ok p =>
    obtain ⟨b, base⟩ := p
    have hv : v ∈ s.lgm.version := by
      rw [hn.1, List.mem_range]; have := hle _ rfl; omega
    dsimp only
    split
    · exact h
    · exact h
    · split
      · exact h
      · exact h.mset hv _

theorem temporalSnapshot_snapsOk {s : St} {n : Nat} (hn : s.lgm.Versions n) (h : SnapsOk s.lgm) (o : Oracle)
    (t : Int) : SnapsOk (s.temporalSnapshot o t).1.lgm := by
  obtain ⟨g, hg, hr⟩ := s.temporalSnapshot_lgm o t
  have hgo : SnapsOk g := by
    rcases hg with rfl | rfl
    · exact h
    · exact h.append hn
  rcases hr with hr | ⟨v, q, -, h2⟩
  · rw [hr]; exact hgo
  · rw [h2]; exact hgo.congr rfl fun _ h => h

theorem step_snapsOk {s : St} {n : Nat} (hn : s.lgm.Versions n) (h : SnapsOk s.lgm) (c : Call) :
    SnapsOk (step s c).1.lgm := by
  cases c with
  | store a =>
    obtain ⟨p, hp⟩ := s.lgm.store_lgm a
    simp only [step, St.onLgm, hp]; exact h.congr rfl fun _ h => h
  | append => exact h.append hn
  | set vk op =>
    obtain ⟨c, p, hp⟩ := s.set_lgm vk op
    simp only [step, hp]; exact h.congr rfl fun _ h => h
  | testSet vk op =>
    obtain ⟨c, p, hp⟩ := s.testSet_lgm vk op
    simp only [step, hp]; exact h.congr rfl fun _ h => h
  | snapshot v => exact snapshot_snapsOk hn h v
  | temporalSnapshot o t => exact temporalSnapshot_snapsOk hn h o t
  | slice vi vj =>
    simp only [step]
    unfold St.slice
    rw [hn.checkRange]
    have hsn := snapshot_snapsOk hn h vi
    cases decide (vi ≤ vj ∧ vj ≤ n) with
    | false => exact h
    | true =>
      dsimp only
      split
      · rcases hR : St.snapshot ⟨s.heap, s.lgm⟩ vi with ⟨s', r⟩
        change s.snapshot vi = _ at hR
        rw [hR] at hsn
        cases r <;> exact hsn
      · exact h
  | temporalSlice o ti tj =>
    rcases St.temporalSlice_lgm hn o ti tj with hs | hs
    · simp only [step, hs]; exact h
    · simp only [step, hs]; exact temporalSnapshot_snapsOk hn h o ti
  | track vi vj =>
    simp only [step, St.onLgm, hn.track_lgm]
    split
    · exact h.congr rfl fun _ h => h
    · exact h
  | temporalTrack ti tj =>
    simp only [step, St.onLgm, Lgm.temporalTrack]
    repeat' split
    all_goals exact h
  | compact pre => simp only [step, St.onLgm, hn.compact_lgm]; exact h.congr rfl fun _ h => h
  | history o pre => simp only [step, St.history_lgm hn, hn.compact_lgm]; exact h.congr rfl fun _ h => h
  | environment h' => exact h

theorem Reachable.snapsOk {s : St} (h : Reachable s) : SnapsOk s.lgm := by
  obtain ⟨hp, doc, ia, cs, rfl⟩ := h
  have h0 : SnapsOk (newLogument hp doc ia).1.lgm := by
    have hb : SnapsOk (Lgm.mk [0] (hp.store doc).2 [(0, (hp.store doc).2)] [] none) :=
      ⟨by simp [mkeys], by simp [mkeys], by simp [mkeys]⟩
    unfold newLogument
    cases ia with
    | none => exact hb
    | some a =>
      dsimp only
      obtain ⟨p, hp'⟩ := Lgm.store_lgm (Lgm.mk [0] (hp.store doc).2 [(0, (hp.store doc).2)] [] none) a
      rw [hp']
      exact hb.congr rfl fun _ h => h
  have hn0 := newLogument_versions hp doc ia
  generalize (newLogument hp doc ia).1 = s at h0 hn0
  generalize 0 = n at hn0
  induction cs generalizing s n with
  | nil => exact h0
  | cons c cs ih =>
    obtain ⟨m, hm⟩ := step_versions hn0 c
    exact ih _ (step_snapsOk hn0 h0 c) _ hm

/-- C01, snapshots: in every reachable state the versions that have a stored snapshot are existing versions, none is
stored twice, and version 0 always has one. -/
theorem C01_stored_snapshots (s : St) (h : Reachable s) {n : Nat} (hn : GapFree s.lgm n) :
    (mkeys s.lgm.snaps).Nodup ∧ (∃ d, mget s.lgm.snaps 0 = some d) ∧
      ∀ v d, mget s.lgm.snaps v = some d → v ≤ n := by
  have hs := h.snapsOk
  refine ⟨hs.once, mget_isSome.2 hs.zero, fun v d hd => ?_⟩
  have := hs.exist v (mget_isSome.1 ⟨d, hd⟩)
  rw [hn.1, List.mem_range] at this
  omega

example : Reachable (step demo (.snapshot 1)).1 ∧ mkeys (step demo (.snapshot 1)).1.lgm.snaps = [0, 1] :=
  ⟨demo_reachable.step _, by decide⟩

/-! ### C02 -/

theorem recorded_eq (g : Lgm) : recorded g = g.version.flatMap g.patchOf ++ g.pool.getD [] := by
  unfold recorded
  congr 1
  · congr 1
    funext v
    unfold Lgm.patchOf
    cases mget g.patches v <;> rfl
  · cases g.pool <;> rfl

theorem flatMap_append_patch {m : List (Nat × List Op)} {n : Nat} {p : List Op}
    (h : ∀ v, v ∈ mkeys m → v ≤ n) :
    (List.range (n + 2)).flatMap (fun v => (mget (m ++ [(n + 1, p)]) v).getD []) =
      (List.range (n + 1)).flatMap (fun v => (mget m v).getD []) ++ p := by
  have hget : ∀ v, mget (m ++ [(n + 1, p)]) v =
      if v = n + 1 then (match mget m v with | some q => some q | none => some p) else mget m v := by
    intro v
    clear h
    induction m with
    | nil => by_cases hv : v = n + 1 <;> simp [mget, hv, Ne.symm]
    | cons q m ih =>
      obtain ⟨k, w⟩ := q
      simp only [List.cons_append, mget]
      by_cases hk : k = v
      · simp [hk]
      · simp [hk, ih]
  rw [List.range_succ, List.flatMap_append]
  congr 1
  · rw [List.flatMap_def, List.flatMap_def]
    congr 1
    apply List.map_congr_left
    intro v hv
    have hlt : v ≠ n + 1 := by
      have := List.mem_range.1 hv
      omega
    rw [hget]; simp [hlt]
  · have hn : mget m (n + 1) = none := by
      rw [mget_eq_none]
      intro hm
      have := h _ hm
      omega
    simp [hget, hn]

theorem recorded_append {g : Lgm} {n : Nat} (h : g.Versions n) : recorded g.append.1 = recorded g := by
  rw [h.append]
  cases hp : g.pool with
  | none => rfl
  | some p =>
    rw [recorded_eq, recorded_eq]
    simp only [Option.getD_none, hp, Option.getD_some, List.append_nil]
    unfold Lgm.patchOf
    rw [h.1]
    exact flatMap_append_patch fun v hv => ((h.2.2 v).1 hv).2

theorem recorded_congr {g g' : Lgm} (h1 : g'.version = g.version) (h2 : g'.patches = g.patches)
    (h3 : g'.pool = g.pool) : recorded g' = recorded g := by
  simp [recorded, h1, h2, h3]

theorem recorded_pool {g : Lgm} (p : Option (List Op)) (l : List Op)
    (hp : p.getD [] = g.pool.getD [] ++ l) : recorded { g with pool := p } = recorded g ++ l := by
  rw [recorded_eq, recorded_eq]
  simp only [hp, ← List.append_assoc]
  rfl

theorem StoreArg.operations_resolve (a : StoreArg) {p} (h : a.resolve = .ok p) :
    p.getD [] = a.operations := by
  cases a with
  | text r =>
    cases r with
    | ok q => cases q <;> simp_all [StoreArg.resolve, StoreArg.operations] <;> subst h <;> rfl
    | err => simp [StoreArg.resolve] at h
    | panic => simp [StoreArg.resolve] at h
  | patch q => cases q <;> simp_all [StoreArg.resolve, StoreArg.operations] <;> subst h <;> rfl
  | patches ps =>
    simp only [StoreArg.resolve, Res.ok.injEq] at h
    subst h
    unfold StoreArg.operations
    split
    · rename_i hf; exact hf.symm
    · rfl
  | op o => simp [StoreArg.resolve] at h; subst h; rfl
  | ops q => cases q <;> simp_all [StoreArg.resolve, StoreArg.operations] <;> subst h <;> rfl
  | other => simp [StoreArg.resolve] at h

theorem Lgm.store_ok {g : Lgm} {a : StoreArg} (h : (g.store a).2 = .ok ()) :
    ∃ p, (g.store a).1 = { g with pool := p } ∧ p.getD [] = g.pool.getD [] ++ a.operations := by
  unfold Lgm.store at h ⊢
  cases hr : a.resolve with
  | ok p =>
    have := a.operations_resolve hr
    cases hq : g.pool with
    | none => exact ⟨p, by simp, by simp [this]⟩
    | some q => exact ⟨some (q ++ p.getD []), by simp, by simp [this]⟩
  | err => rw [hr] at h; simp at h
  | panic => rw [hr] at h; simp at h

theorem Lgm.store_fail {g : Lgm} {a : StoreArg} (h : (g.store a).2.isOk = false) :
    (g.store a).1 = g := by
  unfold Lgm.store at h ⊢
  cases hr : a.resolve with
  | ok p =>
    rw [hr] at h
    cases hq : g.pool <;> rw [hq] at h <;> simp [Res.isOk] at h
  | err => rfl
  | panic => rfl

theorem St.set_cases (s : St) (vk : Nat) (op : Op) :
    (op.kind ≠ .replace ∧ op.kind ≠ .add ∧ s.set vk op = (s, .ok ())) ∨
    ((op.kind = .replace ∨ op.kind = .add) ∧
      ((∃ h v, applyOperation s.heap s.lgm.current op = (h, .ok v) ∧ s.set vk op =
        (⟨h, { s.lgm with current := v, pool := some (s.lgm.pool.getD [] ++ [op]) }⟩, .ok ())) ∨
      (∃ h, applyOperation s.heap s.lgm.current op = (h, .err) ∧ s.set vk op =
        (⟨h, { s.lgm with current := .null }⟩, .panic)) ∨
      (∃ h, applyOperation s.heap s.lgm.current op = (h, .panic) ∧ s.set vk op =
        (⟨h, s.lgm⟩, .panic)))) := by
  unfold St.set
  by_cases hk : op.kind ≠ .replace ∧ op.kind ≠ .add
  · left; exact ⟨hk.1, hk.2, by simp [hk]⟩
  · right
    refine ⟨?_, ?_⟩
    · by_cases h1 : op.kind = .replace
      · exact Or.inl h1
      · right; exact Classical.byContradiction fun h2 => hk ⟨h1, h2⟩
    · simp only [hk, if_false]
      rcases happ : applyOperation s.heap s.lgm.current op with ⟨h, r⟩
      cases r with
      | ok v => left; exact ⟨h, v, rfl, rfl⟩
      | err => right; left; exact ⟨h, rfl, rfl⟩
      | panic => right; right; exact ⟨h, rfl, rfl⟩

theorem set_recorded (s : St) (vk : Nat) (op : Op) :
    ((s.set vk op).2 = .ok () → (op.kind = .add ∨ op.kind = .replace) →
      recorded (s.set vk op).1.lgm = recorded s.lgm ++ [op]) ∧
    ((s.set vk op).2 = .ok () → op.kind ≠ .add → op.kind ≠ .replace →
      recorded (s.set vk op).1.lgm = recorded s.lgm) ∧
    ((s.set vk op).2.isOk = false → recorded (s.set vk op).1.lgm = recorded s.lgm) := by
  rcases s.set_cases vk op with ⟨h1, h2, h3⟩ | ⟨h1, ⟨h, v, -, h3⟩ | ⟨h, -, h3⟩ | ⟨h, -, h3⟩⟩
  · rw [h3]
    exact ⟨fun _ hk => by rcases hk with hk | hk <;> contradiction, fun _ _ _ => rfl, fun _ => rfl⟩
  · rw [h3]
    refine ⟨fun _ _ => ?_, fun _ ha hr => ?_, fun hf => by simp [Res.isOk] at hf⟩
    · rw [← recorded_pool _ [op] (by simp : (some (s.lgm.pool.getD [] ++ [op])).getD [] = _)]
      exact recorded_congr rfl rfl rfl
    · rcases h1 with h1 | h1 <;> contradiction
  · rw [h3]; exact ⟨by simp, by simp, fun _ => recorded_congr rfl rfl rfl⟩
  · rw [h3]; exact ⟨by simp, by simp, fun _ => rfl⟩

theorem leafCompareValue_iff (doc : Tson) (path : Bytes) (v : Tson) (value : GVal)
    (h : getValue doc path = .ok v) : leafCompareValue v value = true ↔ SameValueAt doc path value := by
  unfold SameValueAt
  rw [h]
  constructor
  · intro hc
    unfold leafCompareValue at hc
    split at hc
    · left; exact ⟨_, _, _, rfl, rfl, by simpa using hc⟩
    · right; left; exact ⟨_, _, _, rfl, rfl, hc⟩
    · right; right; exact ⟨_, _, _, rfl, rfl, by simpa using hc⟩
    · simp at hc
  · rintro (⟨a, b, ts, h1, rfl, h2⟩ | ⟨a, b, ts, h1, rfl, h2⟩ | ⟨a, b, ts, h1, rfl, h2⟩) <;>
      (cases h1; simp [leafCompareValue, h2])

theorem latestDoc_eq (s : St) {last : Nat} (h : s.lgm.version.getLast? = some last) :
    latestDoc s = s.heap.view (s.lgm.snap last) := by
  unfold latestDoc
  rw [h]
  dsimp only
  unfold Lgm.snap
  cases mget s.lgm.snaps last with
  | none => rfl
  | some d => rfl

/-- The operation passed on by `TestSet`, and the resulting call of `Set`. -/
theorem testSet_passes (s : St) (vk : Nat) (op : Op) :
    (∃ r, TestSetPasses s op r ∧
      (∀ o, r = some o → s.testSet vk op = s.set vk o) ∧ (r = none → s.testSet vk op = (s, .ok ()))) ∨
    (s.testSet vk op = (s, .panic) ∧ ∀ r, ¬ TestSetPasses s op r) := by
  unfold St.testSet
  by_cases hk : op.kind ≠ .replace ∧ op.kind ≠ .add
  · left
    exact ⟨none, .ignored hk.2 hk.1, by simp, fun _ => by simp [hk]⟩
  · simp only [hk, if_false]
    by_cases ha : op.kind = .add
    · left
      exact ⟨some op, .add ha, fun o ho => by cases ho; simp [ha], by simp⟩
    · simp only [ha, if_false]
      have hr : op.kind = .replace := Classical.byContradiction fun h2 => hk ⟨h2, ha⟩
      cases hl : s.lgm.version.getLast? with
      | none =>
        right
        have hld : latestDoc s = none := by unfold latestDoc; rw [hl]
        exact ⟨rfl, fun r hp => by cases hp <;> simp_all⟩
      | some last =>
        dsimp only
        have hld := latestDoc_eq s hl
        cases hv : s.heap.view (s.lgm.snap last) with
        | none =>
          right
          rw [hv] at hld
          exact ⟨rfl, fun r hp => by cases hp <;> simp_all⟩
        | some doc =>
          rw [hv] at hld
          dsimp only
          cases hg : getValue doc op.path with
          | panic =>
            right
            refine ⟨rfl, fun r hp => ?_⟩
            cases hp <;> simp_all [SameValueAt]
          | err =>
            left
            exact ⟨_, .missing doc hr hld hg, fun o ho => by cases ho; rfl, by simp⟩
          | ok v =>
            left
            dsimp only
            have hiff := leafCompareValue_iff doc op.path v op.value hg
            by_cases hc : leafCompareValue v op.value = true
            · exact ⟨none, .same doc hr hld (hiff.1 hc), by simp, fun _ => by simp [hc]⟩
            · refine ⟨some op, .changed doc v hr hld hg (fun h => hc (hiff.2 h)), ?_, by simp⟩
              intro o ho; cases ho; simp [hc]

theorem testSetPasses_kind {s : St} {op o : Op} (h : TestSetPasses s op (some o)) :
    o.kind = .add ∨ o.kind = .replace := by
  cases h with
  | add h => exact Or.inl h
  | missing => exact Or.inl rfl
  | changed _ _ h => exact Or.inr h

theorem testSetPasses_unique {s : St} {op : Op} {r r' : Option Op} (h : TestSetPasses s op r)
    (h' : TestSetPasses s op r') : r = r' := by
  cases h <;> cases h' <;> first
    | rfl
    | (exfalso; grind)
    | (exfalso; unfold SameValueAt at *; grind)

theorem map_isOk {r : Res α} (f : α → β) : (r.map f).isOk = r.isOk := by cases r <;> rfl

theorem ok_of_map {r : Res Unit} {f : Unit → β} {b : β} (h : r.map f = .ok b) : r = .ok () := by
  cases r <;> simp at h <;> rfl

theorem step_recorded_fail {s : St} (hs : ∃ n, s.lgm.Versions n) {c : Call} (hc : c.plain = true)
    (h : (step s c).2.isOk = false) : recorded (step s c).1.lgm = recorded s.lgm := by
  obtain ⟨n, hn⟩ := hs
  cases c with
  | store a =>
    simp only [step, St.onLgm, map_isOk] at h ⊢
    rw [Lgm.store_fail h]
  | append => exact recorded_append hn
  | set vk op => simp only [step, map_isOk] at h ⊢; exact (set_recorded s vk op).2.2 h
  | testSet vk op =>
    simp only [step, map_isOk] at h ⊢
    rcases testSet_passes s vk op with ⟨r, hr, h1, h2⟩ | ⟨hp, -⟩
    · cases r with
      | none => rw [h2 rfl]
      | some o => rw [h1 o rfl] at h ⊢; exact (set_recorded s vk o).2.2 h
    · rw [hp]
  | snapshot v =>
    obtain ⟨sn, hsn⟩ := s.snapshot_lgm hn v
    simp only [step, hsn]; rfl
  | slice vi vj =>
    obtain ⟨sn, hsn⟩ := s.slice_lgm hn vi vj
    simp only [step, hsn]; rfl
  | temporalTrack ti tj =>
    simp only [step, St.onLgm, Lgm.temporalTrack]
    split
    · rfl
    · split <;> rfl
  | environment h => rfl
  | _ => simp [Call.plain] at hc

theorem step_recorded_ok {s : St} (hs : ∃ n, s.lgm.Versions n) {c : Call} {r : Ret} {l : List Op}
    (h : (step s c).2 = .ok r) (ha : Accepts s c l) :
    recorded (step s c).1.lgm = recorded s.lgm ++ l := by
  obtain ⟨n, hn⟩ := hs
  cases ha with
  | store a =>
    simp only [step, St.onLgm] at h ⊢
    obtain ⟨p, h1, h2⟩ := Lgm.store_ok (ok_of_map h)
    rw [h1]; exact recorded_pool _ _ h2
  | set vk op hk => exact (set_recorded s vk op).1 (ok_of_map h) hk
  | setIgnored vk op h1 h2 =>
    rw [List.append_nil]; exact (set_recorded s vk op).2.1 (ok_of_map h) h1 h2
  | testSet vk op r hr =>
    rcases testSet_passes s vk op with ⟨r', hr', h1, h2⟩ | ⟨hp, -⟩
    · cases testSetPasses_unique hr hr'
      cases r with
      | none => simp only [step, h2 rfl]; simp
      | some o =>
        simp only [step] at h ⊢
        rw [h1 o rfl] at h ⊢
        exact (set_recorded s vk o).1 (ok_of_map h) (testSetPasses_kind hr)
    · simp [step, hp] at h
  | append => rw [List.append_nil]; exact recorded_append hn
  | snapshot v =>
    obtain ⟨sn, hsn⟩ := s.snapshot_lgm hn v
    simp only [step, hsn, List.append_nil]; rfl
  | slice vi vj =>
    obtain ⟨sn, hsn⟩ := s.slice_lgm hn vi vj
    simp only [step, hsn, List.append_nil]; rfl
  | temporalTrack ti tj =>
    rw [List.append_nil]
    simp only [step, St.onLgm, Lgm.temporalTrack]
    split
    · rfl
    · split <;> rfl
  | environment h => rw [List.append_nil]; rfl

theorem accepts_total (s : St) (c : Call) (hc : c.plain = true) (h : (step s c).2.isOk = true) :
    ∃ l, Accepts s c l := by
  cases c with
  | store a => exact ⟨_, .store a⟩
  | append => exact ⟨_, .append⟩
  | set vk op =>
    by_cases h1 : op.kind = .add
    · exact ⟨_, .set vk op (Or.inl h1)⟩
    · by_cases h2 : op.kind = .replace
      · exact ⟨_, .set vk op (Or.inr h2)⟩
      · exact ⟨_, .setIgnored vk op h1 h2⟩
  | testSet vk op =>
    rcases testSet_passes s vk op with ⟨r, hr, -⟩ | ⟨hp, -⟩
    · exact ⟨_, .testSet vk op r hr⟩
    · simp [step, hp, Res.isOk] at h
  | snapshot v => exact ⟨_, .snapshot v⟩
  | slice vi vj => exact ⟨_, .slice vi vj⟩
  | temporalTrack ti tj => exact ⟨_, .temporalTrack ti tj⟩
  | environment hp => exact ⟨_, .environment hp⟩
  | _ => simp [Call.plain] at hc

/-- C02: over any history of calls that neither compact nor re-sort the log, exactly the accepted
operations are recorded, in order and once each: the record only grows by the accepted list. -/
theorem C02_no_operation_lost (s : St) (hs : Reachable s) (cs : List Call)
    (hc : ∀ c ∈ cs, c.plain = true) :
    (∃ l, AcceptsAll s cs l) ∧
    ∀ l, AcceptsAll s cs l → recorded (run s cs).lgm = recorded s.lgm ++ l := by
  induction cs generalizing s with
  | nil =>
    refine ⟨⟨_, .nil s⟩, ?_⟩
    intro l hl; cases hl; simp [run]
  | cons c cs ih =>
    have hc1 := hc c (by simp)
    obtain ⟨⟨l', hl'⟩, ih2⟩ := ih _ (hs.step c) (fun d hd => hc d (by simp [hd]))
    constructor
    · cases hr : (step s c).2 with
      | ok r =>
        obtain ⟨l, hl⟩ := accepts_total s c hc1 (by rw [hr]; rfl)
        exact ⟨_, .ok s c cs r l l' hr hl hl'⟩
      | err => exact ⟨_, .fail s c cs l' (by rw [hr]; rfl) hl'⟩
      | panic => exact ⟨_, .fail s c cs l' (by rw [hr]; rfl) hl'⟩
    · intro l hl
      cases hl with
      | ok _ _ _ r l l' hr ha hrest =>
        simp only [run]
        rw [ih2 _ hrest, step_recorded_ok hs.versions hr ha, List.append_assoc]
      | fail _ _ _ l' hf hrest =>
        simp only [run]
        rw [ih2 _ hrest, step_recorded_fail hs.versions hc1 hf]

/-- C02 for a whole program: starting from a new logument without initial patches. -/
theorem C02_from_start (h : Heap) (doc : Tson) (cs : List Call) (hc : ∀ c ∈ cs, c.plain = true)
    (l : List Op) (hl : AcceptsAll (newLogument h doc none).1 cs l) :
    recorded (run (newLogument h doc none).1 cs).lgm = l := by
  have := (C02_no_operation_lost (newLogument h doc none).1 ⟨h, doc, none, [], rfl⟩ cs hc).2 l hl
  rw [this]
  rfl

example : recorded demo.lgm =
    [demoOp b!"a" false 5, demoOp b!"b/d" true 6, demoOp b!"a" true 9, demoOp b!"b/d" false 12] := by
  decide

example : recorded (run demo [.set 0 (demoOp b!"a" true 20), .set 0 ⟨.test, b!"a", .nil, 3⟩, .append,
      .testSet 0 (demoOp b!"z" true 21)]).lgm =
    recorded demo.lgm ++ [demoOp b!"a" true 20, ⟨.add, b!"z", .bool true, 21⟩] := by
  decide

/-! ### C03 -/

/-- C03: `Append` with pending operations creates exactly the next version from exactly the pending
list, empties the pool and touches nothing else; without pending operations it changes nothing;
an immediately following `Append` changes nothing. -/
theorem C03_append_commits_pool (s : St) (hs : Reachable s) (n : Nat) (hn : GapFree s.lgm n) :
    (s.lgm.pool = none → step s .append = (s, .ok .unit)) ∧
    (∀ p, s.lgm.pool = some p →
      (step s .append).2 = .ok .unit ∧
      GapFree (step s .append).1.lgm (n + 1) ∧
      mget (step s .append).1.lgm.patches (n + 1) = some p ∧
      (∀ v, v ≠ n + 1 → mget (step s .append).1.lgm.patches v = mget s.lgm.patches v) ∧
      (step s .append).1.lgm.pool = none ∧
      (step s .append).1.lgm.snaps = s.lgm.snaps ∧
      (step s .append).1.lgm.current = s.lgm.current ∧
      (step s .append).1.heap = s.heap) ∧
    step (step s .append).1 .append = ((step s .append).1, .ok .unit) := by
  obtain ⟨m, hm⟩ := hs.versions
  have hmn : m = n := by
    have := congrArg List.length (hm.1.symm.trans hn.1)
    simp at this; exact this
  subst hmn
  have happ := hm.append
  refine ⟨?_, ?_, ?_⟩
  · intro hp
    rw [hp] at happ
    simp [step, St.onLgm, happ]
  · intro p hp
    rw [hp] at happ
    obtain ⟨k, hk⟩ := hm.of_append
    rw [happ] at hk
    have hkm : k = m + 1 := by
      have := congrArg List.length hk.1
      simp at this; omega
    subst hkm
    simp only [step, St.onLgm, happ]
    have hnone : mget s.lgm.patches (m + 1) = none := by
      rw [mget_eq_none, hm.2.2]; omega
    have hset : mset s.lgm.patches (m + 1) p = s.lgm.patches ++ [(m + 1, p)] := by
      have h1 : (s.lgm.append).1.patches = mset s.lgm.patches (m + 1) p := by
        unfold Lgm.append
        rw [hm.isGrown, hp, hm.last]
        simp [hnone]
      rw [← h1, happ]
    refine ⟨rfl, hk.gapFree, ?_, ?_, trivial, trivial, trivial, trivial⟩
    · rw [← hset, mget_mset_self]
    · intro v hv
      rw [← hset, mget_mset_ne _ _ hv]
  · have hpool : (step s .append).1.lgm.pool = none := by
      simp only [step, St.onLgm, happ]
      cases hp : s.lgm.pool with
      | none => exact hp
      | some p => rfl
    obtain ⟨k, hk⟩ := (hs.step .append).versions
    have h2 := hk.append
    rw [hpool] at h2
    generalize (step s .append).1 = s' at *
    simp [step, St.onLgm, h2]

example : demo.lgm.pool = some [demoOp b!"b/d" false 12] ∧ GapFree demo.lgm 2 ∧
    mget (step demo .append).1.lgm.patches 3 = some [demoOp b!"b/d" false 12] := by
  refine ⟨by decide, ?_, by decide⟩
  obtain ⟨n, h1, -⟩ := C01_versions_gap_free demo demo_reachable
  have hv : demo.lgm.version = [0, 1, 2] := by decide
  have : n = 2 := by
    have := congrArg List.length h1.1
    rw [hv] at this; simp at this; omega
  exact this ▸ h1

/-- The last two versions, if there are two, follow each other. -/
def GrownEnd (g : Lgm) : Prop := ∀ l a b, g.version = l ++ [a, b] → b = a + 1

theorem grownEnd_iff (g : Lgm) : g.isGrown = true ↔ GrownEnd g := by
  unfold Lgm.isGrown GrownEnd
  by_cases hl : g.version.length ≤ 1
  · rw [if_pos hl]
    refine ⟨fun _ l a b h => ?_, fun _ => rfl⟩
    rw [h] at hl
    simp at hl
  · rw [if_neg hl]
    obtain ⟨l, a, b, h⟩ : ∃ l a b, g.version = l ++ [a, b] := by
      rcases List.eq_nil_or_concat g.version with h | ⟨l, b, h⟩
      · rw [h] at hl; simp at hl
      · rcases List.eq_nil_or_concat l with h' | ⟨l', a, h'⟩
        · rw [h, h'] at hl; simp at hl
        · exact ⟨l', a, b, by rw [h, h']; simp⟩
    have e1 : (g.version[g.version.length - 1]?).getD 0 = b := by rw [h]; simp
    have e2 : (g.version[g.version.length - 1 - 1]?).getD 0 = a := by rw [h]; simp
    simp only [e1, e2, beq_iff_eq]
    refine ⟨fun hb l' a' b' h' => ?_, fun hh => hh l a b h⟩
    rw [h] at h'
    have := List.append_inj' h' rfl
    simp at this
    omega

/-- C03 without any assumption on the logument: `Append` fails with an error exactly if the last two versions do not
follow each other or patches of the next version exist while the pool is not nil; it panics exactly if there are
patches to commit but no version; when it does not succeed, the logument is unchanged; with an empty pool nothing
happens; otherwise the pool becomes the patches of the next version, and nothing else changes. -/
theorem C03_append_any (g : Lgm) :
    (g.append.2 = .err ↔ ¬ GrownEnd g ∨ ∃ p l n q, g.pool = some p ∧ g.version = l ++ [n] ∧ mget g.patches (n + 1) = some q) ∧
    (g.append.2 = .panic ↔ g.pool ≠ none ∧ g.version = []) ∧
    (g.append.2 ≠ .ok () → g.append.1 = g) ∧
    (g.append.2 = .ok () → g.pool = none → g.append.1 = g) ∧
    (∀ p, g.append.2 = .ok () → g.pool = some p → ∃ l n, g.version = l ++ [n] ∧ g.append.1.version = l ++ [n, n + 1] ∧
      g.append.1.pool = none ∧ mget g.append.1.patches (n + 1) = some p ∧
      (∀ k, k ≠ n + 1 → mget g.append.1.patches k = mget g.patches k) ∧
      g.append.1.snaps = g.snaps ∧ g.append.1.current = g.current) := by
  have hg := grownEnd_iff g
  unfold Lgm.append
  cases hgr : g.isGrown with
  | false =>
    have hn : ¬ GrownEnd g := fun h => by rw [← hg, hgr] at h; cases h
    refine ⟨by simp [hn], ?_, by simp, by simp, by simp⟩
    refine ⟨by simp, fun h => absurd ?_ hn⟩
    intro l a b e
    rw [h.2] at e
    simp at e
  | true =>
    have hn : GrownEnd g := hg.1 hgr
    cases hp : g.pool with
    | none => simp [hn]
    | some p =>
      rcases List.eq_nil_or_concat g.version with hv | ⟨l, n, hv⟩
      · simp [hv, hn]
      · have hv : g.version = l ++ [n] := by rw [hv]; simp
        have hlast : g.version.getLast? = some n := by rw [hv]; simp
        simp only [hlast]
        have hne : g.version ≠ [] := by rw [hv]; simp
        have hu : ∀ l' n', g.version = l' ++ [n'] → n' = n := by
          intro l' n' h'
          rw [hv] at h'
          have := List.append_inj' h' rfl
          simp at this
          omega
        cases hq : mget g.patches (n + 1) with
        | some q =>
          refine ⟨?_, by simp [hne], by simp, by simp, by simp⟩
          simp only [Bool.true_eq_false, if_false, true_iff]
          exact .inr ⟨p, l, n, q, rfl, hv, hq⟩
        | none =>
          refine ⟨?_, by simp [hne], by simp, by simp, ?_⟩
          · simp only [Bool.true_eq_false, if_false]
            refine ⟨fun h => absurd h (by simp), ?_⟩
            rintro (h | ⟨p', l', n', q, -, h', hq'⟩)
            · exact absurd hn h
            · rw [hu l' n' h', hq] at hq'; cases hq'
          · intro p' _ hp'
            cases hp'
            refine ⟨l, n, hv, ?_⟩
            simp only [Bool.true_eq_false, if_false]
            refine ⟨by rw [hv]; simp, trivial, mget_mset_self .., fun k hk => mget_mset_ne _ _ hk, trivial, trivial⟩

/-- All cases occur. -/
example : (Lgm.append ⟨[0, 2], .null, [], [], some []⟩).2 = .err ∧ (Lgm.append ⟨[3], .null, [], [(4, [])], some []⟩).2 = .err ∧
    (Lgm.append ⟨[], .null, [], [], some []⟩).2 = .panic ∧ (Lgm.append ⟨[5], .null, [], [], some []⟩).2 = .ok () := by decide

/-! ### C04 -/

/-- C04: a successful `Store` appends exactly the given operations, in order, however they are
packaged, and changes nothing but the pool; an unsuccessful one changes nothing. -/
theorem C04_store_appends (s : St) (a : StoreArg) :
    ((step s (.store a)).2 = .ok .unit →
      ∃ p, (step s (.store a)).1 = ⟨s.heap, { s.lgm with pool := p }⟩ ∧
        p.getD [] = s.lgm.pool.getD [] ++ a.operations) ∧
    ((step s (.store a)).2.isOk = false → (step s (.store a)).1 = s) := by
  constructor
  · intro h
    obtain ⟨p, h1, h2⟩ := Lgm.store_ok (ok_of_map h)
    exact ⟨p, by simp [step, St.onLgm, h1], h2⟩
  · intro h
    simp only [step, St.onLgm, map_isOk] at h ⊢
    rw [Lgm.store_fail h]

/-- C04: for a non-empty list of operations all packagings leave exactly the same logument:
one by one, as one patch, as an operation slice, or split arbitrarily. -/
theorem C04_packaging_irrelevant (s : St) (ps : List (List Op)) (h : ps.flatten ≠ []) :
    run s (ps.flatten.map fun o => .store (.op o)) = (step s (.store (.patch (some ps.flatten)))).1 ∧
    (step s (.store (.patches ps))).1 = (step s (.store (.patch (some ps.flatten)))).1 ∧
    (step s (.store (.ops (some ps.flatten)))).1 = (step s (.store (.patch (some ps.flatten)))).1 ∧
    run s (ps.map fun p => .store (.patch (some p))) = (step s (.store (.patch (some ps.flatten)))).1 := by
  have one : ∀ (l : List Op) (s : St), l ≠ [] →
      run s (l.map fun o => .store (.op o)) = (step s (.store (.patch (some l)))).1 := by
    intro l
    induction l with
    | nil => intro s h; exact absurd rfl h
    | cons o l ih =>
      intro s _
      cases l with
      | nil => rfl
      | cons o' l =>
        simp only [List.map_cons, run] at ih ⊢
        rw [ih _ (by simp)]
        cases hp : s.lgm.pool <;>
          simp [step, St.onLgm, Lgm.store, StoreArg.resolve, hp]
  have split : ∀ (ps : List (List Op)) (s : St), ps.flatten ≠ [] →
      run s (ps.map fun p => .store (.patch (some p))) = (step s (.store (.patch (some ps.flatten)))).1 := by
    intro ps
    induction ps with
    | nil => intro s h; exact absurd rfl h
    | cons p ps ih =>
      intro s _
      simp only [List.map_cons, run]
      by_cases hf : ps.flatten = []
      · have hstay : ∀ (qs : List (List Op)) (s : St) q, qs.flatten = [] → s.lgm.pool = some q →
            run s (qs.map fun p => .store (.patch (some p))) = s := by
          intro qs
          induction qs with
          | nil => intros; rfl
          | cons q' qs ihq =>
            intro s q hq hpool
            simp at hq
            simp only [List.map_cons, run]
            have : (step s (.store (.patch (some q')))).1 = s := by
              obtain ⟨hp, ⟨a, b, c, d, e⟩⟩ := s
              dsimp only at hpool
              subst hpool
              simp [step, St.onLgm, Lgm.store, StoreArg.resolve, hq.1]
            rw [this]
            exact ihq s q (by simpa using hq.2) hpool
        have hpool : ∃ q, (step s (.store (.patch (some p)))).1.lgm.pool = some q := by
          cases hp : s.lgm.pool <;> simp [step, St.onLgm, Lgm.store, StoreArg.resolve, hp]
        obtain ⟨q, hq⟩ := hpool
        rw [hstay ps _ q hf hq]
        simp [hf]
      · rw [ih _ hf]
        cases hp : s.lgm.pool <;>
          simp [step, St.onLgm, Lgm.store, StoreArg.resolve, hp]
  refine ⟨one _ s h, ?_, rfl, split ps s h⟩
  simp only [step, St.onLgm, Lgm.store, StoreArg.resolve, h, if_false]

example : ([[demoOp b!"a" true 1], [], [demoOp b!"a" false 2, demoOp b!"b" true 3]] : List (List Op)).flatten
    ≠ [] := by decide

/-- C04 boundary: for *no* operations the packaging matters.  `Store(Patch{})` marks an empty patch
as pending, so the next `Append` creates an (empty) version; `Store([]Patch{})` does not. -/
theorem C04_empty_packaging_fails :
    (run (newLogument [] demoDoc none).1 [.store (.patch (some [])), .append]).lgm.version = [0, 1] ∧
    (run (newLogument [] demoDoc none).1 [.store (.patches []), .append]).lgm.version = [0] := by
  decide

/-! ### C05 -/

theorem searchGreater_sorted (l : List Nat) (hs : l.Pairwise (· ≤ ·)) (v : Nat) :
    (searchGreater l v = 0 ∧ ∀ x ∈ l, v < x) ∨
    (∃ b, 0 < searchGreater l v ∧ l[searchGreater l v - 1]? = some b ∧ b ≤ v ∧ b ∈ l ∧
      ∀ x ∈ l, x ≤ v → x ≤ b) := by
  induction l with
  | nil => left; simp [searchGreater]
  | cons y l ih =>
    rw [List.pairwise_cons] at hs
    by_cases hy : v < y
    · left
      refine ⟨by simp [searchGreater, List.findIdx_cons, hy], ?_⟩
      intro x hx
      rcases List.mem_cons.1 hx with rfl | hx
      · exact hy
      · have := hs.1 x hx; omega
    · right
      have hsg : searchGreater (y :: l) v = searchGreater l v + 1 := by
        simp [searchGreater, List.findIdx_cons, hy]
      rcases ih hs.2 with ⟨h0, h1⟩ | ⟨b, h0, h1, h2, h3, h4⟩
      · refine ⟨y, by omega, ?_, by omega, by simp, ?_⟩
        · rw [hsg, h0]; rfl
        · intro x hx hxv
          rcases List.mem_cons.1 hx with rfl | hx
          · omega
          · have := h1 x hx; omega
      · refine ⟨b, by omega, ?_, h2, by simp [h3], ?_⟩
        · rw [hsg]
          simp only [Nat.add_sub_cancel]
          obtain ⟨k, hk⟩ : ∃ k, searchGreater l v = k + 1 := ⟨searchGreater l v - 1, by omega⟩
          rw [hk] at h1 ⊢
          simpa using h1
        · intro x hx hxv
          rcases List.mem_cons.1 hx with rfl | hx
          · exact hs.1 b h3
          · exact h4 x hx hxv

theorem findLatest_spec_of {g : Lgm} {n : Nat} (hc : g.isContinuous = (g, true))
    (hlast : g.version.getLast? = some n) (v : Nat) :
    (v > n → g.findLatest v = (g, .panic)) ∧
    (v ≤ n → (∀ b, ¬ IsBase g v b) → g.findLatest v = (g, .err)) ∧
    (v ≤ n → ∀ b, IsBase g v b → g.findLatest v = (g, .ok (b, g.snap b))) := by
  unfold Lgm.findLatest
  rw [hc]
  simp only [hlast]
  refine ⟨fun hv => by simp [hv], ?_, ?_⟩
  · intro hv hb
    have : ¬ v > n := by omega
    simp only [this, if_false]
    rcases searchGreater_sorted (sortedKeys g.snaps) (sortedKeys_sorted _) v with ⟨h0, -⟩ | ⟨b, -, -, h2, h3, h4⟩
    · simp [h0]
    · refine absurd ⟨mget_isSome.2 (mem_sortedKeys.1 h3), h2, ?_⟩ (hb b)
      intro b' d hd hb'
      exact h4 b' (mem_sortedKeys.2 (mget_isSome.1 ⟨d, hd⟩)) hb'
  · intro hv b hb
    have : ¬ v > n := by omega
    simp only [this, if_false]
    have hmem : b ∈ sortedKeys g.snaps := mem_sortedKeys.2 (mget_isSome.1 hb.1)
    rcases searchGreater_sorted (sortedKeys g.snaps) (sortedKeys_sorted _) v with ⟨-, h1⟩ | ⟨c, h0, h1, h2, h3, h4⟩
    · have := h1 b hmem; have := hb.2.1; omega
    · have hbc : b = c := by
        have h5 := h4 b hmem hb.2.1
        obtain ⟨d, hd⟩ := mget_isSome.2 (mem_sortedKeys.1 h3)
        have h6 := hb.2.2 c d hd h2
        omega
      subst hbc
      have : searchGreater (sortedKeys g.snaps) v ≠ 0 := by omega
      simp only [this, if_false, h1]

theorem findLatest_spec {g : Lgm} {n : Nat} (h : g.Versions n) (v : Nat) :
    (v > n → g.findLatest v = (g, .panic)) ∧
    (v ≤ n → (∀ b, ¬ IsBase g v b) → g.findLatest v = (g, .err)) ∧
    (v ≤ n → ∀ b, IsBase g v b → g.findLatest v = (g, .ok (b, g.snap b))) :=
  findLatest_spec_of h.isContinuous h.last v

/-- C05: the base used for version `v` is the newest stored snapshot not newer than `v`
(`findLatest`); a stored snapshot is returned as is and nothing changes; a version beyond the
latest one, or older than every stored snapshot, panics and nothing changes. -/
theorem C05_base_snapshot (s : St) (hs : Reachable s) (n : Nat) (hn : GapFree s.lgm n) (v : Nat) :
    (v ≤ n → ∀ b d, IsBase s.lgm v b → mget s.lgm.snaps b = some d →
      s.lgm.findLatest v = (s.lgm, .ok (b, d))) ∧
    (v ≤ n → ∀ d, mget s.lgm.snaps v = some d → s.snapshot v = (s, .ok d)) ∧
    (n < v → s.snapshot v = (s, .panic)) ∧
    ((∀ b d, mget s.lgm.snaps b = some d → v < b) → s.snapshot v = (s, .panic)) := by
  obtain ⟨m, hm⟩ := hs.versions
  have hmn : m = n := by
    have := congrArg List.length (hm.1.symm.trans hn.1)
    simp at this; exact this
  subst hmn
  obtain ⟨f1, f2, f3⟩ := findLatest_spec hm v
  refine ⟨?_, ?_, ?_, ?_⟩
  · intro hv b d hb hd
    rw [f3 hv b hb]; simp [Lgm.snap, hd]
  · intro hv d hd
    have hb : IsBase s.lgm v v := ⟨⟨d, hd⟩, Nat.le_refl _, fun _ _ _ h => h⟩
    unfold St.snapshot
    rw [f3 hv v hb]
    simp [Lgm.snap, hd]
  · intro hv
    unfold St.snapshot
    rw [f1 hv]
  · intro hall
    unfold St.snapshot
    by_cases hv : v ≤ m
    · rw [f2 hv]
      intro b hb
      obtain ⟨d, hd⟩ := hb.1
      have := hall b d hd; have := hb.2.1; omega
    · rw [f1 (by omega)]

/-- After `Snapshot(1)` the base for version 2 is 1 (not 0). -/
example : (IsBase (step demo (.snapshot 1)).1.lgm 2 1) ∧
    ((step demo (.snapshot 1)).1.lgm.findLatest 2).2 =
      .ok (1, (step demo (.snapshot 1)).1.lgm.snap 1) := by
  have hs : (step demo (.snapshot 1)).1.lgm.snaps = [(0, .obj 1), (1, .obj 1)] := by decide
  refine ⟨⟨⟨_, by rw [hs]; rfl⟩, by omega, ?_⟩, by decide⟩
  intro b' d hd hb
  rw [hs] at hd
  have := mget_mem hd
  simp at this
  omega

/-! ### C09 -/

/-- C09: `TestSet` either fails without any change (no readable latest document), or passes exactly
the operation described by `TestSetPasses` to `Set`, or changes nothing at all. -/
theorem C09_testSet_decision (s : St) (vk : Nat) (op : Op) :
    (∀ o, TestSetPasses s op (some o) → s.testSet vk op = s.set vk o) ∧
    (TestSetPasses s op none → s.testSet vk op = (s, .ok ())) ∧
    ((∀ r, ¬ TestSetPasses s op r) → s.testSet vk op = (s, .panic)) := by
  rcases testSet_passes s vk op with ⟨r, hr, h1, h2⟩ | ⟨hp, nope⟩
  · refine ⟨?_, ?_, fun h => absurd hr (h r)⟩
    · intro o ho
      exact h1 o (testSetPasses_unique hr ho)
    · intro ho
      exact h2 (testSetPasses_unique hr ho)
  · exact ⟨fun o ho => absurd ho (nope _), fun ho => absurd ho (nope _), fun _ => hp⟩

/-- With a snapshot of the latest version: the same value is recognised, a new value is passed on, a
missing path becomes an `add` (the path of a read starts with "/"). -/
example : let s := (step demo (.snapshot 2)).1
    TestSetPasses s (demoOp b!"/a" true 30) none ∧
    TestSetPasses s (demoOp b!"/a" false 30) (some (demoOp b!"/a" false 30)) ∧
    TestSetPasses s (demoOp b!"/q" false 30) (some ⟨.add, b!"/q", .bool false, 30⟩) := by
  refine ⟨?_, ?_, ?_⟩
  · exact .same (.obj [(b!"a", .leaf (.bool true) 9),
      (b!"b", .obj [(b!"c", .leaf (.str b!"x") 2), (b!"d", .leaf (.bool true) 6)])]) rfl (by decide)
      (Or.inr (Or.inr ⟨true, true, 9, by decide, rfl, rfl⟩))
  · refine .changed (.obj [(b!"a", .leaf (.bool true) 9),
      (b!"b", .obj [(b!"c", .leaf (.str b!"x") 2), (b!"d", .leaf (.bool true) 6)])])
      (.leaf (.bool true) 9) rfl (by decide) (by decide) ?_
    rintro (⟨a, b, ts, h1, h2, -⟩ | ⟨a, b, ts, h1, h2, -⟩ | ⟨a, b, ts, h1, h2, h3⟩)
    · cases h2
    · cases h2
    · cases h2
      cases (show getValue _ b!"/a" = .ok (.leaf (.bool true) 9) from by decide).symm.trans h1
      cases h3
  · exact .missing (.obj [(b!"a", .leaf (.bool true) 9),
      (b!"b", .obj [(b!"c", .leaf (.str b!"x") 2), (b!"d", .leaf (.bool true) 6)])]) rfl (by decide)
      (by decide)

end Verif
