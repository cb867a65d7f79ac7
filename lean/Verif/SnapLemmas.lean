import Verif.ApplyLemmas
import Verif.PropsVersions
import Verif.SpecReplay
/-
Lemmas about snapshots of object documents.
-/
namespace Verif

/-- A successful operation on an object returns the object itself (same reference). -/
theorem applyTraverse_obj_ok (h : Heap) (a : Nat) (parts : List Bytes) (op : Op) (h' : Heap) (v : HVal)
    (he : applyTraverse h (.obj a) parts op = (h', .ok v)) : v = .obj a := by
  have hA : ∀ part R, assignField a part (.obj a) R = (h', .ok v) → v = .obj a := by
    rintro part ⟨o', r⟩ h; cases r <;> simp [assignField] at h; rw [← h.2]
  unfold applyTraverse at he
  dsimp only at he
  repeat' split at he
  all_goals first
    | exact hA _ _ he
    | (simp only [Prod.mk.injEq, Res.ok.injEq, reduceCtorEq, and_false] at he; try exact he.2.symm)

theorem applyOperation_null (h : Heap) (op : Op) : applyOperation h .null op = (h, .err) := by
  unfold applyOperation
  cases hw : writeParts op.path with
  | nil => exact absurd hw (split_ne_nil' _)
  | cons p rest => rfl

/-- The reference `a` or nil. -/
def RootOrNil (a : Nat) (v : HVal) : Prop := v = .obj a ∨ v = .null

theorem applyPatchLoop_root {a : Nat} {base : HVal} (hb : RootOrNil a base) (ops : List Op) :
    ∀ {h : Heap} {w h' v}, RootOrNil a w → applyPatchLoop h base w ops = (h', .ok v) → RootOrNil a v := by
  induction ops with
  | nil =>
    intro h w h' v hw he
    simp only [applyPatchLoop, Prod.mk.injEq, Res.ok.injEq] at he
    rw [← he.2]; exact hw
  | cons op ops ih =>
    intro h w h' v hw he
    simp only [applyPatchLoop] at he
    rcases hR : applyOperation h base op with ⟨h1, r⟩
    rw [hR] at he
    cases r with
    | ok t =>
      refine ih ?_ he
      rcases hb with rfl | rfl
      · left; exact applyTraverse_obj_ok _ _ _ _ _ _ hR
      · rw [applyOperation_null] at hR; simp at hR
    | err => simp at he
    | panic => simp at he

theorem applyPatch_root {a : Nat} {base : HVal} (hb : RootOrNil a base) {ops : List Op} {h h' : Heap} {v}
    (he : applyPatch h base ops = (h', .ok v)) : RootOrNil a v :=
  applyPatchLoop_root hb ops (Or.inr rfl) he

theorem applyPatch_null (h : Heap) (ops : List Op) :
    applyPatch h .null ops = if ops = [] then (h, .ok .null) else (h, .err) := by
  cases ops with
  | nil => rfl
  | cons op ops => simp [applyPatch, applyPatchLoop, applyOperation_null]

/-- The object at `a` is a document without sharing. -/
def HeapOk (h : Heap) (a : Nat) : Prop := ∃ t F, Rep h (.obj a) t F

theorem applyPatch_heapOk {a : Nat} {base : HVal} (hb : RootOrNil a base) {h : Heap} (hh : HeapOk h a)
    (ops : List Op) : HeapOk (applyPatch h base ops).1 a := by
  rcases hb with rfl | rfl
  · obtain ⟨t, F, hF⟩ := hh
    obtain ⟨G, hG, -⟩ := applyPatchLoop_obj ops hF .null
    exact ⟨_, G, hG⟩
  · rw [applyPatch_null]; split <;> exact hh

theorem applyOperation_heapOk {a : Nat} {base : HVal} (hb : RootOrNil a base) {h : Heap} (hh : HeapOk h a)
    (op : Op) : HeapOk (applyOperation h base op).1 a := by
  rcases hb with rfl | rfl
  · obtain ⟨t, F, hF⟩ := hh
    obtain ⟨G, hG, -⟩ := applyOperation_obj hF op
    exact ⟨_, G, hG⟩
  · rw [applyOperation_null]; exact hh

theorem snapshotLoop_root {a : Nat} {base : HVal} (hb : RootOrNil a base) (g : Lgm) (n : Nat) :
    ∀ {h : Heap} {t i h' v}, RootOrNil a t → snapshotLoop g base h t i n = (h', .ok v) → RootOrNil a v := by
  induction n with
  | zero =>
    intro h t i h' v ht he
    simp only [snapshotLoop, Prod.mk.injEq, Res.ok.injEq] at he
    rw [← he.2]; exact ht
  | succ n ih =>
    intro h t i h' v ht he
    simp only [snapshotLoop] at he
    rcases hR : applyPatch h base (g.patchOf i) with ⟨h1, r⟩
    rw [hR] at he
    cases r with
    | ok t => exact ih (applyPatch_root hb hR) he
    | err => simp at he
    | panic => simp at he

theorem snapshotLoop_heapOk {a : Nat} {base : HVal} (hb : RootOrNil a base) (g : Lgm) (n : Nat) :
    ∀ {h : Heap} {t i}, HeapOk h a → HeapOk (snapshotLoop g base h t i n).1 a := by
  induction n with
  | zero => intro h t i hh; exact hh
  | succ n ih =>
    intro h t i hh
    have h2 := applyPatch_heapOk hb hh (g.patchOf i)
    simp only [snapshotLoop]
    rcases hR : applyPatch h base (g.patchOf i) with ⟨h1, r⟩
    rw [hR] at h2
    cases r with
    | ok t => exact ih h2
    | err => exact h2
    | panic => exact h2

/-- All document references of the logument are `a` or nil. -/
structure Rooted (g : Lgm) (a : Nat) : Prop where
  current : RootOrNil a g.current
  snaps : ∀ v d, mget g.snaps v = some d → RootOrNil a d

theorem Rooted.snap {g : Lgm} {a : Nat} (h : Rooted g a) (v : Nat) : RootOrNil a (g.snap v) := by
  unfold Lgm.snap
  cases hv : mget g.snaps v with
  | none => right; rfl
  | some d => exact h.snaps v d hv

theorem Rooted.congr {g g' : Lgm} {a : Nat} (h : Rooted g a) (h1 : g'.current = g.current)
    (h2 : g'.snaps = g.snaps) : Rooted g' a :=
  ⟨by rw [h1]; exact h.current, by rw [h2]; exact h.snaps⟩

theorem Rooted.mset {g : Lgm} {a : Nat} (h : Rooted g a) (v : Nat) {d : HVal} (hd : RootOrNil a d) :
    Rooted { g with snaps := mset g.snaps v d } a := by
  refine ⟨h.current, fun v' d' hv => ?_⟩
  rw [mget_mset] at hv
  by_cases hvv : v' = v
  · simp [hvv] at hv; subst hv; exact hd
  · simp [hvv] at hv; exact h.snaps v' d' hv

/-- One snapshot call, given the base. -/
theorem snapshot_cases_of {s : St} {n : Nat} (hc : s.lgm.isContinuous = (s.lgm, true))
    (hlast : s.lgm.version.getLast? = some n) (v : Nat) :
    (s.snapshot v = (s, .panic) ∧ (n < v ∨ ∀ b, ¬ IsBase s.lgm v b)) ∨
    (∃ d, mget s.lgm.snaps v = some d ∧ s.snapshot v = (s, .ok d)) ∨
    (∃ b, b < v ∧ v ≤ n ∧ IsBase s.lgm v b ∧ mget s.lgm.snaps v = none ∧
      s.snapshot v =
        match snapshotLoop s.lgm (s.lgm.snap b) s.heap .null (b + 1) (v - b) with
        | (h, .ok t) => (⟨h, { s.lgm with snaps := mset s.lgm.snaps v t }⟩, .ok t)
        | (h, .err) => (⟨h, s.lgm⟩, .panic)
        | (h, .panic) => (⟨h, s.lgm⟩, .panic)) := by
  obtain ⟨f1, f2, f3⟩ := findLatest_spec_of hc hlast v
  by_cases hv : v ≤ n
  · by_cases hb : ∃ b, IsBase s.lgm v b
    · obtain ⟨b, hb⟩ := hb
      have hf := f3 hv b hb
      by_cases hbv : b = v
      · right; left
        subst hbv
        obtain ⟨d, hd⟩ := hb.1
        refine ⟨d, hd, ?_⟩
        unfold St.snapshot
        rw [hf]
        simp [Lgm.snap, hd]
      · right; right
        have hnone : mget s.lgm.snaps v = none := by
          cases hm : mget s.lgm.snaps v with
          | none => rfl
          | some d => have := hb.2.2 v d hm (Nat.le_refl _); have := hb.2.1; omega
        refine ⟨b, by have := hb.2.1; omega, hv, hb, hnone, ?_⟩
        unfold St.snapshot
        rw [hf]
        simp only [ne_eq, hbv, not_false_eq_true, if_true, hnone]
        rcases snapshotLoop s.lgm (s.lgm.snap b) s.heap .null (b + 1) (v - b) with ⟨h, r⟩
        cases r <;> rfl
    · refine Or.inl ⟨?_, Or.inr fun b h => hb ⟨b, h⟩⟩
      unfold St.snapshot
      rw [f2 hv (fun b h => hb ⟨b, h⟩)]
  · refine Or.inl ⟨?_, Or.inl (by omega)⟩
    unfold St.snapshot
    rw [f1 (by omega)]

theorem snapshot_cases {s : St} {n : Nat} (hn : s.lgm.Versions n) (v : Nat) :
    (s.snapshot v = (s, .panic) ∧ (n < v ∨ ∀ b, ¬ IsBase s.lgm v b)) ∨
    (∃ d, mget s.lgm.snaps v = some d ∧ s.snapshot v = (s, .ok d)) ∨
    (∃ b, b < v ∧ v ≤ n ∧ IsBase s.lgm v b ∧ mget s.lgm.snaps v = none ∧
      s.snapshot v =
        match snapshotLoop s.lgm (s.lgm.snap b) s.heap .null (b + 1) (v - b) with
        | (h, .ok t) => (⟨h, { s.lgm with snaps := mset s.lgm.snaps v t }⟩, .ok t)
        | (h, .err) => (⟨h, s.lgm⟩, .panic)
        | (h, .panic) => (⟨h, s.lgm⟩, .panic)) :=
  snapshot_cases_of hn.isContinuous hn.last v

theorem snapshot_rooted {s : St} {n a : Nat} (hn : s.lgm.Versions n) (hr : Rooted s.lgm a) (v : Nat) :
    Rooted (s.snapshot v).1.lgm a ∧ (∀ d, (s.snapshot v).2 = .ok d → RootOrNil a d) ∧
    (HeapOk s.heap a → HeapOk (s.snapshot v).1.heap a) := by
  rcases snapshot_cases hn v with ⟨h, -⟩ | ⟨d, hd, h⟩ | ⟨b, -, -, -, -, h⟩
  · rw [h]; exact ⟨hr, by simp, id⟩
  · rw [h]; exact ⟨hr, fun d' hd' => (by cases hd'; exact hr.snaps v d hd), id⟩
  · rw [h]
    have h1 := fun h' t => snapshotLoop_root (hr.snap b) s.lgm (v - b) (h := s.heap) (t := .null)
      (i := b + 1) (h' := h') (v := t) (Or.inr rfl)
    have h2 := snapshotLoop_heapOk (hr.snap b) s.lgm (v - b) (h := s.heap) (t := .null) (i := b + 1)
    rcases hR : snapshotLoop s.lgm (s.lgm.snap b) s.heap .null (b + 1) (v - b) with ⟨h', r⟩
    rw [hR] at h1 h2
    cases r with
    | ok t =>
      have ht := h1 h' t rfl
      exact ⟨hr.mset v ht, fun d hd => (by cases hd; exact ht), h2⟩
    | err => exact ⟨hr, by simp, h2⟩
    | panic => exact ⟨hr, by simp, h2⟩

theorem set_rooted {s : St} {a : Nat} (hr : Rooted s.lgm a) (vk : Nat) (op : Op) :
    Rooted (s.set vk op).1.lgm a ∧ (HeapOk s.heap a → HeapOk (s.set vk op).1.heap a) := by
  have hh := fun hk => applyOperation_heapOk hr.current (h := s.heap) hk op
  rcases s.set_cases vk op with ⟨-, -, h⟩ | ⟨-, ⟨h', v, he, h⟩ | ⟨h', he, h⟩ | ⟨h', he, h⟩⟩
  · rw [h]; exact ⟨hr, id⟩
  · rw [h]
    rw [he] at hh
    refine ⟨⟨?_, hr.snaps⟩, hh⟩
    rcases hr.current with hc | hc
    · rw [hc] at he; left; exact applyTraverse_obj_ok _ _ _ _ _ _ he
    · rw [hc, applyOperation_null] at he; simp at he
  · rw [h]; rw [he] at hh; exact ⟨⟨Or.inr rfl, hr.snaps⟩, hh⟩
  · rw [h]; rw [he] at hh; exact ⟨hr, hh⟩

theorem testSet_rooted {s : St} {a : Nat} (hr : Rooted s.lgm a) (vk : Nat) (op : Op) :
    Rooted (s.testSet vk op).1.lgm a ∧ (HeapOk s.heap a → HeapOk (s.testSet vk op).1.heap a) := by
  rcases testSet_passes s vk op with ⟨r, -, h1, h2⟩ | ⟨h, -⟩
  · cases r with
    | none => rw [h2 rfl]; exact ⟨hr, id⟩
    | some o => rw [h1 o rfl]; exact set_rooted hr vk o
  · rw [h]; exact ⟨hr, id⟩

theorem temporalApply_rooted {s : St} {a : Nat} (hr : Rooted s.lgm a) (o : Oracle) (t : Int) (v : Nat)
    (base : HVal) (hb : RootOrNil a base) :
    Rooted (s.temporalApply o t v base).1.lgm a ∧
    (∀ d, (s.temporalApply o t v base).2 = .ok d → RootOrNil a d) ∧
    (HeapOk s.heap a → HeapOk (s.temporalApply o t v base).1.heap a) := by
  unfold St.temporalApply
  dsimp only
  have hh := fun hk => applyPatch_heapOk hb (h := s.heap) hk
    ((o.orderOps (pickLatest t [] (o.sortOps (s.lgm.patchOf (v + 1))))).map Prod.snd)
  have h1 := fun h' d => applyPatch_root hb (h := s.heap) (h' := h') (v := d)
    (ops := (o.orderOps (pickLatest t [] (o.sortOps (s.lgm.patchOf (v + 1))))).map Prod.snd)
  rcases hR : applyPatch s.heap base
    ((o.orderOps (pickLatest t [] (o.sortOps (s.lgm.patchOf (v + 1))))).map Prod.snd) with ⟨h', r⟩
  rw [hR] at hh h1
  have hg : Rooted (match mget s.lgm.patches (v + 1) with
    | some _ => { s.lgm with patches := mset s.lgm.patches (v + 1) (o.sortOps (s.lgm.patchOf (v + 1))) }
    | none => s.lgm) a := by
    split
    · exact hr.congr rfl rfl
    · exact hr
  cases r with
  | ok d => exact ⟨hg, fun d' hd' => (by cases hd'; exact h1 h' d rfl), hh⟩
  | err => exact ⟨hg, by simp, hh⟩
  | panic => exact ⟨hg, by simp, hh⟩

theorem append_rooted {g : Lgm} {a : Nat} (hr : Rooted g a) : Rooted g.append.1 a := by
  unfold Lgm.append
  repeat' split
  all_goals first | exact hr | exact hr.congr rfl rfl

theorem temporalSnapshot_rooted {s : St} {a : Nat} (hr : Rooted s.lgm a) (o : Oracle) (t : Int) :
    Rooted (s.temporalSnapshot o t).1.lgm a ∧
    (∀ d, (s.temporalSnapshot o t).2 = .ok d → RootOrNil a d) ∧
    (HeapOk s.heap a → HeapOk (s.temporalSnapshot o t).1.heap a) := by
  unfold St.temporalSnapshot
  split
  · exact ⟨hr, by simp, id⟩
  · split
    · exact ⟨hr, by simp, id⟩
    · dsimp only
      rename_i v _
      split
      · exact ⟨hr, by simp, id⟩
      · split
        · split
          · exact ⟨hr, fun d hd => (by cases hd; exact hr.snap v), id⟩
          · exact temporalApply_rooted (s := ⟨s.heap, s.lgm.append.1⟩) (append_rooted hr) o t v _ (hr.snap v)
        · exact temporalApply_rooted hr o t v _ (hr.snap v)

theorem step_rooted {s : St} {a n : Nat} (hn : s.lgm.Versions n) (hr : Rooted s.lgm a) (c : Call) :
    Rooted (step s c).1.lgm a ∧ (c.own = true → HeapOk s.heap a → HeapOk (step s c).1.heap a) := by
  cases c with
  | store ar =>
    obtain ⟨p, hp⟩ := s.lgm.store_lgm ar
    refine ⟨?_, fun _ h => h⟩
    simp only [step, St.onLgm, hp]
    exact hr.congr rfl rfl
  | append => exact ⟨append_rooted hr, fun _ h => h⟩
  | set vk op => have := set_rooted hr vk op; exact ⟨this.1, fun _ => this.2⟩
  | testSet vk op => have := testSet_rooted hr vk op; exact ⟨this.1, fun _ => this.2⟩
  | snapshot v => have := snapshot_rooted hn hr v; exact ⟨this.1, fun _ => this.2.2⟩
  | temporalSnapshot o t => have := temporalSnapshot_rooted hr o t; exact ⟨this.1, fun _ => this.2.2⟩
  | slice vi vj =>
    simp only [step]
    unfold St.slice
    rw [hn.checkRange]
    have hsn := snapshot_rooted hn hr vi
    cases hd : decide (vi ≤ vj ∧ vj ≤ n) with
    | false => exact ⟨hr, fun _ h => h⟩
    | true =>
      dsimp only
      split
      · rcases hR : St.snapshot ⟨s.heap, s.lgm⟩ vi with ⟨s', r⟩
        change s.snapshot vi = _ at hR
        rw [hR] at hsn
        cases r <;> exact ⟨hsn.1, fun _ => hsn.2.2⟩
      · exact ⟨hr, fun _ h => h⟩
  | temporalSlice o ti tj =>
    simp only [step]
    unfold St.temporalSlice
    rw [hn.isContinuous]
    have hsn := temporalSnapshot_rooted hr o ti
    dsimp only
    split
    · exact ⟨hr, fun _ h => h⟩
    · split
      · exact ⟨hr, fun _ h => h⟩
      · split
        · split
          · exact ⟨hr, fun _ h => h⟩
          · rcases hR : St.temporalSnapshot ⟨s.heap, s.lgm⟩ o ti with ⟨s', r⟩
            change s.temporalSnapshot o ti = _ at hR
            rw [hR] at hsn
            cases r <;> exact ⟨hsn.1, fun _ => hsn.2.2⟩
        · exact ⟨hr, fun _ h => h⟩
  | track vi vj =>
    refine ⟨?_, fun _ h => h⟩
    simp only [step, St.onLgm, hn.track_lgm]
    split
    · exact hr.congr rfl rfl
    · exact hr
  | temporalTrack ti tj =>
    refine ⟨?_, fun _ h => h⟩
    simp only [step, St.onLgm, Lgm.temporalTrack]
    repeat' split
    all_goals exact hr
  | compact pre =>
    refine ⟨?_, fun _ h => h⟩
    simp only [step, St.onLgm, hn.compact_lgm]
    exact hr.congr rfl rfl
  | history o pre =>
    refine ⟨?_, fun _ h => ?_⟩
    · simp only [step, St.history_lgm hn, hn.compact_lgm]; exact hr.congr rfl rfl
    · simp only [step, St.history_heap]; exact h
  | environment h => exact ⟨hr, fun hc => by simp [Call.own] at hc⟩

end Verif
