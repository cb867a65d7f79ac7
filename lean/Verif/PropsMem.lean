import Verif.MemLemmas
import Verif.PropsVersions
/-
C95: whose operations a logument keeps.
-/
namespace Verif

/-! ### Patches are values as long as the caller keeps off the arrays -/

theorem mem_run (cs : List MCall) : ∀ {m : MSt}, m.Own → ∀ {n : Nat}, m.load.lgm.Versions n → CarefulRun m cs →
    (mrun m cs).Own ∧ (mrun m cs).load = run m.load (mcalls m cs) ∧ mouts m cs = vouts m.load (mcalls m cs) := by
  induction cs with
  | nil => intro m ho n _ _; exact ⟨ho, rfl, rfl⟩
  | cons c cs ih =>
    intro m ho n hn hc
    obtain ⟨h1, h2⟩ := mem_step ho hn hc.1
    cases hl : c.load m.arrs with
    | none =>
      rw [hl] at h2
      simp only at h2
      obtain ⟨i1, i2, i3⟩ := ih h1 (by rw [h2]; exact hn) hc.2
      simp only [mrun, mcalls, mouts, hl, Option.toList_none, List.nil_append, List.map_nil]
      rw [h2] at i2 i3
      exact ⟨i1, i2, i3⟩
    | some c' =>
      rw [hl] at h2
      simp only at h2
      obtain ⟨n', hn'⟩ := step_versions hn c'
      obtain ⟨i1, i2, i3⟩ := ih h1 (by rw [h2.1]; exact hn') hc.2
      simp only [mrun, mcalls, mouts, hl, Option.toList_some, List.map_cons, List.map_nil, List.cons_append,
        List.nil_append, run, vouts]
      rw [h2.1] at i2 i3
      exact ⟨i1, i2, by rw [h2.2, i3]⟩

theorem mnew_own (h : Heap) (A : Arrs) (doc : Tson) : (mnew h A doc).Own :=
  ⟨by simp [mnew, mkeys], by simp [mnew], by simp [mnew], by simp [mnew], by simp [mnew]⟩

theorem mnew_load (h : Heap) (A : Arrs) (doc : Tson) : (mnew h A doc).load = (newLogument h doc none).1 := rfl

/-- C95 (proved part): a logument's patches are slices of arrays, which `Store` may share with the caller.  As long as
the caller gives the logument no array it already has and writes to none of its arrays, every history is as if
patches were values: the same documents, versions, patches and pool, and the same results, whatever the capacities
the runtime chooses.  Throughout, each version and the pool have an array of their own. -/
theorem C95_values_partial (h : Heap) (A : Arrs) (doc : Tson) (cs : List MCall)
    (hc : CarefulRun (mnew h A doc) cs) :
    (mrun (mnew h A doc) cs).Own ∧
    (mrun (mnew h A doc) cs).load = run (newLogument h doc none).1 (mcalls (mnew h A doc) cs) ∧
    mouts (mnew h A doc) cs = vouts (newLogument h doc none).1 (mcalls (mnew h A doc) cs) := by
  obtain ⟨h1, h2, h3⟩ := mem_run cs (mnew_own h A doc) (n := 0)
    (by rw [mnew_load]; exact newLogument_versions h doc none) hc
  rw [mnew_load] at h2 h3
  exact ⟨h1, h2, h3⟩

/-! ### The logument writes only to arrays it holds -/

/-- From one state to the next, arrays the logument does not hold stay, and it takes none of them, except `ex`. -/
def Frame (ex : Nat → Prop) (m m' : MSt) : Prop :=
  ∀ a, a < m.arrs.length → ¬ m.Holds a → ¬ ex a →
    a < m'.arrs.length ∧ m'.arrs.arr a = m.arrs.arr a ∧ ¬ m'.Holds a

theorem Frame.refl (ex : Nat → Prop) (m : MSt) : Frame ex m m := fun _ h1 h2 _ => ⟨h1, rfl, h2⟩

theorem Frame.trans {ex : Nat → Prop} {m m' m'' : MSt} (h : Frame ex m m') (h' : Frame ex m' m'') : Frame ex m m'' := by
  intro a h1 h2 h3
  obtain ⟨k1, k2, k3⟩ := h a h1 h2 h3
  obtain ⟨l1, l2, l3⟩ := h' a k1 k3 h3
  exact ⟨l1, by rw [l2, k2], l3⟩

/-- A state with the same arrays and slices. -/
theorem Frame.same {ex : Nat → Prop} {m m' : MSt} (h1 : m'.arrs = m.arrs) (h2 : m'.log.patches = m.log.patches)
    (h3 : m'.log.pool = m.log.pool) : Frame ex m m' := by
  intro a k1 k2 _
  unfold MSt.Holds at k2 ⊢
  rw [h1, h2, h3]
  exact ⟨k1, rfl, k2⟩

theorem goAppend_frame (A : Arrs) (s : Sl) (xs : List Op) (k : Nat) {a : Nat} (h : a < A.length) (hs : s.addr ≠ a) :
    a < (goAppend A s xs k).1.length ∧ (goAppend A s xs k).1.arr a = A.arr a ∧ (goAppend A s xs k).2.addr ≠ a := by
  unfold goAppend
  split
  · exact ⟨by rw [Arrs.length_write]; exact h, A.write_ne (Ne.symm hs) _ _, hs⟩
  · refine ⟨Nat.lt_of_lt_of_le h (extends_make _ _ _).1, (extends_make _ _ _).2 a h, ?_⟩
    rw [(make_ok _ _ _).2.2]
    omega

theorem frame_pool {ex : Nat → Prop} {m : MSt} {A : Arrs} {p : Option Sl}
    (h : ∀ a, a < m.arrs.length → ¬ m.Holds a → ¬ ex a →
      a < A.length ∧ A.arr a = m.arrs.arr a ∧ ∀ s, p = some s → s.addr ≠ a) : Frame ex m (m.withPool A p) := by
  intro a h1 h2 h3
  obtain ⟨k1, k2, k3⟩ := h a h1 h2 h3
  refine ⟨k1, k2, ?_⟩
  rintro (⟨v, s, hs, ha⟩ | ⟨s, hs, ha⟩)
  · exact h2 (Or.inl ⟨v, s, hs, ha⟩)
  · exact k3 s hs ha

theorem frame_store (m : MSt) (x : MArg) (k : Nat) :
    Frame ((MCall.store x k).Touches m.arrs) m (m.store x k).1 := by
  have hg : ∀ a, a < m.arrs.length → ¬ (MCall.store x k).Touches m.arrs a →
      a < (x.get m.arrs k).1.length ∧ (x.get m.arrs k).1.arr a = m.arrs.arr a ∧
        ∀ s, (x.get m.arrs k).2 = some s → s.addr ≠ a := by
    have hm : ∀ xs j, ∀ a, a < m.arrs.length → a < (m.arrs.make xs j).1.length ∧
        (m.arrs.make xs j).1.arr a = m.arrs.arr a ∧ ∀ s, some (m.arrs.make xs j).2 = some s → s.addr ≠ a := by
      intro xs j a ha
      refine ⟨Nat.lt_of_lt_of_le ha (extends_make _ _ _).1, (extends_make _ _ _).2 a ha, ?_⟩
      intro s hs; cases hs
      rw [(make_ok _ _ _).2.2]; omega
    intro a ha ht
    cases x with
    | text r =>
      cases r with
      | ok l =>
        cases l with
        | none => exact ⟨ha, rfl, by simp [MArg.get]⟩
        | some l => exact hm l k a ha
      | err => exact ⟨ha, rfl, by simp [MArg.get]⟩
      | panic => exact ⟨ha, rfl, by simp [MArg.get]⟩
    | patch s =>
      refine ⟨ha, rfl, ?_⟩
      intro t hs
      simp only [MArg.get] at hs
      subst hs
      exact ht
    | patches l =>
      simp only [MArg.get]
      split
      · exact ⟨ha, rfl, by simp⟩
      · exact hm _ k a ha
    | op o => exact hm [o] 0 a ha
    | ops s =>
      refine ⟨ha, rfl, ?_⟩
      intro t hs
      simp only [MArg.get] at hs
      subst hs
      exact ht
    | other => exact ⟨ha, rfl, by simp [MArg.get]⟩
  unfold MSt.store
  cases (x.load m.arrs).resolve with
  | err => exact .refl _ _
  | panic => exact .refl _ _
  | ok u =>
    dsimp only
    cases hq : m.log.pool with
    | none => exact frame_pool fun a h1 h2 h3 => hg a h1 h3
    | some q =>
      apply frame_pool
      intro a h1 h2 h3
      obtain ⟨k1, k2, -⟩ := hg a h1 h3
      have hqa : q.addr ≠ a := fun e => h2 (Or.inr ⟨q, hq, e⟩)
      obtain ⟨l1, l2, l3⟩ := goAppend_frame (x.get m.arrs k).1 q (opsOf (x.get m.arrs k).1 (x.get m.arrs k).2) k k1 hqa
      exact ⟨l1, by rw [l2, k2], by intro s hs; cases hs; exact l3⟩

theorem frame_append (ex : Nat → Prop) (m : MSt) : Frame ex m m.append.1 := by
  unfold MSt.append
  split
  · exact .refl _ _
  · cases hq : m.log.pool with
    | none => exact .refl _ _
    | some p =>
      dsimp only
      cases m.log.version.getLast? with
      | none => exact .refl _ _
      | some last =>
        dsimp only
        cases mget m.log.patches (last + 1) with
        | some s => exact .refl _ _
        | none =>
          intro a h1 h2 _
          refine ⟨h1, rfl, ?_⟩
          rintro (⟨v, s, hs, ha⟩ | ⟨s, hs, ha⟩)
          · simp only at hs
            rw [mget_mset] at hs
            split at hs
            · cases hs; exact h2 (Or.inr ⟨p, hq, ha⟩)
            · exact h2 (Or.inl ⟨v, s, hs, ha⟩)
          · simp at hs

theorem frame_set (ex : Nat → Prop) (m : MSt) (op : Op) (k : Nat) : Frame ex m (m.set op k).1 := by
  have hadd : ∀ m : MSt, Frame ex m (m.addOp op k) := by
    intro m
    unfold MSt.addOp
    cases hq : m.log.pool with
    | none =>
      apply frame_pool
      intro a h1 _ _
      refine ⟨Nat.lt_of_lt_of_le h1 (extends_make _ _ _).1, (extends_make _ _ _).2 a h1, ?_⟩
      intro s hs; cases hs
      rw [(make_ok _ _ _).2.2]; omega
    | some q =>
      apply frame_pool
      intro a h1 h2 _
      obtain ⟨l1, l2, l3⟩ := goAppend_frame m.arrs q [op] k h1 fun e => h2 (Or.inr ⟨q, hq, e⟩)
      exact ⟨l1, l2, by intro s hs; cases hs; exact l3⟩
  unfold MSt.set
  split
  · exact .refl _ _
  · rcases applyOperation m.heap m.log.current op with ⟨h, r⟩
    cases r with
    | ok v => exact Frame.trans (m' := { m with heap := h, log := { m.log with current := v } }) (.same rfl rfl rfl) (hadd _)
    | err => exact .same rfl rfl rfl
    | panic => exact .same rfl rfl rfl

theorem frame_testSet (ex : Nat → Prop) (m : MSt) (op : Op) (k : Nat) : Frame ex m (m.testSet op k).1 := by
  unfold MSt.testSet
  repeat' split
  all_goals first | exact .refl _ _ | exact frame_set ex m _ k

theorem frame_temporalApply (ex : Nat → Prop) (m : MSt) (o : Oracle) (t : Int) (v : Nat) (base : HVal) :
    Frame ex m (m.temporalApply o t v base).1 := by
  have hA : ∀ h', Frame ex m ⟨h', (match mget m.log.patches (v + 1) with
      | some s => m.arrs.write s.addr s.off (o.sortOps (m.load.lgm.patchOf (v + 1)))
      | none => m.arrs), m.log⟩ := by
    intro h'
    cases hs : mget m.log.patches (v + 1) with
    | none => exact .same rfl rfl rfl
    | some s =>
      intro a h1 h2 _
      exact ⟨by rw [Arrs.length_write]; exact h1,
        Arrs.write_ne _ (fun e => h2 (Or.inl ⟨v + 1, s, hs, e.symm⟩)) _ _, h2⟩
  unfold MSt.temporalApply
  dsimp only
  generalize (o.orderOps (pickLatest t [] (o.sortOps (m.load.lgm.patchOf (v + 1))))).map Prod.snd = latest
  rcases applyPatch m.heap base latest with ⟨h', r⟩
  cases r <;> exact hA h'

theorem frame_temporalSnapshot (ex : Nat → Prop) (m : MSt) (o : Oracle) (t : Int) :
    Frame ex m (m.temporalSnapshot o t).1 := by
  unfold MSt.temporalSnapshot
  repeat' split
  all_goals first
    | exact .refl _ _
    | exact frame_temporalApply ex m o t _ _
    | exact (frame_append ex m).trans (frame_temporalApply ex _ o t _ _)

theorem frame_keep (ex : Nat → Prop) (m : MSt) (s : St) : Frame ex m (m.keep s) := .same rfl rfl rfl

theorem frame_temporalSlice (ex : Nat → Prop) (m : MSt) (o : Oracle) (ti tj : Int) :
    Frame ex m (m.temporalSlice o ti tj).1 := by
  unfold MSt.temporalSlice
  rcases m.load.lgm.isContinuous with ⟨g, b⟩
  cases b with
  | false => exact frame_keep ex m _
  | true =>
    dsimp only
    split
    · exact frame_keep ex m _
    · split
      · exact frame_keep ex m _
      · split
        · split
          · exact frame_keep ex m _
          · have hT := (frame_keep ex m ⟨m.heap, g⟩).trans (frame_temporalSnapshot ex (m.keep ⟨m.heap, g⟩) o ti)
            rcases hr : (m.keep ⟨m.heap, g⟩).temporalSnapshot o ti with ⟨m', w⟩
            rw [hr] at hT
            cases w <;> exact hT
        · exact frame_keep ex m _

/-- The compacting loops: the versions gone through get new arrays, the others keep theirs. -/
theorem compactMem_frame (sel : Op → Sel) (vs : List Nat) : ∀ (latest) (A : Arrs) (ps : List (Nat × Sl)),
    Extends A (compactMem sel latest A ps vs).1.1 ∧
    ∀ v s, mget (compactMem sel latest A ps vs).1.2 v = some s →
      A.length ≤ s.addr ∨ mget ps v = some s ∧ ((compactMem sel latest A ps vs).2 = true → v ∉ vs) := by
  induction vs with
  | nil => intro latest A ps; exact ⟨.refl A, fun v s h => Or.inr ⟨h, by simp⟩⟩
  | cons w vs ih =>
    intro latest A ps
    simp only [compactMem]
    cases compactOps sel latest (opsOf A (mget ps w)) with
    | none => exact ⟨.refl A, fun v s h => Or.inr ⟨h, by simp⟩⟩
    | some r =>
      dsimp only
      obtain ⟨out, lat⟩ := r
      dsimp only
      have he := extends_make A out ((opsOf A (mget ps w)).length - out.length)
      have hd := (make_ok A out ((opsOf A (mget ps w)).length - out.length)).2.2
      obtain ⟨i1, i2⟩ := ih lat (A.make out ((opsOf A (mget ps w)).length - out.length)).1
        (mset ps w (A.make out ((opsOf A (mget ps w)).length - out.length)).2)
      refine ⟨he.trans i1, fun v s h => ?_⟩
      rcases i2 v s h with h' | ⟨h1, h2⟩
      · exact Or.inl (Nat.le_trans he.1 h')
      · rw [mget_mset] at h1
        split at h1
        · cases h1; exact Or.inl (Nat.le_of_eq hd.symm)
        · rename_i hne
          exact Or.inr ⟨h1, fun hb hm => by
            rcases List.mem_cons.1 hm with e | hm
            · exact hne e
            · exact h2 hb hm⟩

theorem frame_compactMem (ex : Nat → Prop) (sel : Op → Sel) (m : MSt) (vs : List Nat) :
    Frame ex m { m with arrs := (compactMem sel [] m.arrs m.log.patches vs).1.1,
                        log := { m.log with patches := (compactMem sel [] m.arrs m.log.patches vs).1.2 } } := by
  obtain ⟨h1, h2⟩ := compactMem_frame sel vs [] m.arrs m.log.patches
  intro a k1 k2 _
  refine ⟨Nat.lt_of_lt_of_le k1 h1.1, h1.2 a k1, ?_⟩
  rintro (⟨v, s, hs, ha⟩ | ⟨s, hs, ha⟩)
  · rcases h2 v s hs with h | ⟨h, -⟩
    · omega
    · exact k2 (Or.inl ⟨v, s, h, ha⟩)
  · exact k2 (Or.inr ⟨s, hs, ha⟩)

theorem frame_track (ex : Nat → Prop) (m : MSt) (vi vj : Nat) : Frame ex m (m.track vi vj).1 := by
  unfold MSt.track
  rcases m.load.lgm.checkRange vi vj with ⟨g, b⟩
  cases b with
  | false => exact frame_keep ex m _
  | true =>
    dsimp only
    have hT := (frame_keep ex m ⟨m.heap, g⟩).trans (frame_compactMem ex (fun _ => .compare) (m.keep ⟨m.heap, g⟩)
      (sortNat (mkeys (restrict (m.keep ⟨m.heap, g⟩).log.patches default vi vj))))
    rcases hr : compactMem (fun _ => .compare) [] (m.keep ⟨m.heap, g⟩).arrs (m.keep ⟨m.heap, g⟩).log.patches
      (sortNat (mkeys (restrict (m.keep ⟨m.heap, g⟩).log.patches default vi vj))) with ⟨⟨A, ps⟩, b⟩
    rw [hr] at hT
    cases b <;> exact hT

theorem frame_compact (ex : Nat → Prop) (m : MSt) (pre : Bytes) : Frame ex m (m.compact pre).1 := by
  unfold MSt.compact
  rcases m.load.lgm.isContinuous with ⟨g, b⟩
  cases b with
  | false => exact frame_keep ex m _
  | true =>
    dsimp only
    have hT := (frame_keep ex m ⟨m.heap, g⟩).trans (frame_compactMem ex (selPrefix pre) (m.keep ⟨m.heap, g⟩)
      (sortedKeys (m.keep ⟨m.heap, g⟩).log.patches))
    rcases hr : compactMem (selPrefix pre) [] (m.keep ⟨m.heap, g⟩).arrs (m.keep ⟨m.heap, g⟩).log.patches
      (sortedKeys (m.keep ⟨m.heap, g⟩).log.patches) with ⟨⟨A, ps⟩, b⟩
    rw [hr] at hT
    cases b <;> exact hT

theorem frame_history (ex : Nat → Prop) (m : MSt) (o : Oracle) (pre : Bytes) : Frame ex m (m.history o pre).1 := by
  unfold MSt.history
  rcases m.load.lgm.isContinuous with ⟨g, b⟩
  cases b with
  | false => exact frame_keep ex m _
  | true =>
    dsimp only
    have hT := (frame_keep ex m ⟨m.heap, g⟩).trans (frame_compact ex (m.keep ⟨m.heap, g⟩) pre)
    rcases hr : (m.keep ⟨m.heap, g⟩).compact pre with ⟨m', w⟩
    rw [hr] at hT
    cases w with
    | err => exact hT
    | panic => exact hT
    | ok u =>
      dsimp only
      repeat' split
      all_goals exact hT

theorem frame_step (m : MSt) (c : MCall) : Frame (c.Touches m.arrs) m (mstep m c).1 := by
  cases c with
  | store a k => exact frame_store m a k
  | append => exact frame_append _ m
  | set vk op k => exact frame_set _ m op k
  | testSet vk op k => exact frame_testSet _ m op k
  | snapshot v => exact frame_keep _ m _
  | temporalSnapshot o t => exact frame_temporalSnapshot _ m o t
  | slice vi vj => exact frame_keep _ m _
  | temporalSlice o ti tj => exact frame_temporalSlice _ m o ti tj
  | track vi vj => exact frame_track _ m vi vj
  | temporalTrack ti tj => exact frame_keep _ m _
  | compact pre => exact frame_compact _ m pre
  | history o pre => exact frame_history _ m o pre
  | caller B =>
    intro a h1 h2 h3
    simp only [MCall.Touches, not_or, Nat.not_le, ne_eq, Decidable.not_not] at h3
    exact ⟨h3.1, h3.2, h2⟩

/-- C95: in every history, careful or not, the logument neither writes to nor takes an array that it does not hold
and that is not given to it; so a slice of the caller that is not given away shows the same operations afterwards. -/
theorem C95_frame (m : MSt) (cs : List MCall) (a : Nat) (h : a < m.arrs.length) (hh : ¬ m.Holds a)
    (ht : ¬ TouchedIn a m cs) :
    (mrun m cs).arrs.arr a = m.arrs.arr a ∧ ¬ (mrun m cs).Holds a := by
  suffices H : a < (mrun m cs).arrs.length ∧ (mrun m cs).arrs.arr a = m.arrs.arr a ∧ ¬ (mrun m cs).Holds a from H.2
  induction cs generalizing m with
  | nil => exact ⟨h, rfl, hh⟩
  | cons c cs ih =>
    simp only [TouchedIn, not_or] at ht
    obtain ⟨k1, k2, k3⟩ := frame_step m c a h hh ht.1
    obtain ⟨l1, l2, l3⟩ := ih _ k1 k3 ht.2
    exact ⟨l1, by rw [← k2]; exact l2, l3⟩

/-- C95: `Track` hands out the arrays the logument had, and takes new ones: whatever is done to the logument
afterwards, the patches handed out stay, unless they are given back to it or the caller changes them. -/
theorem C95_track (m : MSt) (ho : m.Own) {n : Nat} (hn : m.load.lgm.Versions n) (vi vj : Nat) {l : List (Nat × Sl)}
    (hr : (mstep m (.track vi vj)).2 = .ok (.track l)) (cs : List MCall)
    (ht : ∀ x ∈ l, ¬ TouchedIn x.2.addr (mstep m (.track vi vj)).1 cs) :
    ∀ x ∈ l, x.2.ops (mrun (mstep m (.track vi vj)).1 cs).arrs = x.2.ops m.arrs := by
  intro x hx
  have key : x.2.Ok m.arrs ∧ Extends m.arrs (mstep m (.track vi vj)).1.arrs ∧
      ¬ (mstep m (.track vi vj)).1.Holds x.2.addr := by
    simp only [mstep, MSt.track, hn.checkRange] at hr ⊢
    by_cases hv : vi ≤ vj ∧ vj ≤ n
    · simp only [hv, and_self, decide_true, keep_self] at hr ⊢
      obtain ⟨h1, h2⟩ := compactMem_frame (fun _ => .compare)
        (sortNat (mkeys (restrict m.log.patches default vi vj))) [] m.arrs m.log.patches
      rcases hC : compactMem (fun _ => .compare) [] m.arrs m.log.patches
        (sortNat (mkeys (restrict m.log.patches default vi vj))) with ⟨⟨A, ps⟩, b⟩
      rw [hC] at h1 h2 hr
      cases b with
      | false => simp at hr
      | true =>
        simp only [Res.ok.injEq, MRet.track.injEq] at hr
        subst hr
        have hk : x.1 ∈ mkeys (restrict m.log.patches default vi vj) := List.mem_map.2 ⟨x, hx, rfl⟩
        have hm : x.1 ∈ mkeys m.log.patches := (mem_restrict_keys.1 hk).1
        obtain ⟨s, hs⟩ := mget_isSome.2 hm
        have hx2 : x.2 = s := by
          unfold restrict at hx
          obtain ⟨w, -, rfl⟩ := List.mem_map.1 hx
          simp [hs]
        have hok := ho.ok _ _ hs
        rw [hx2]
        refine ⟨hok, h1, ?_⟩
        rintro (⟨v, t, hvt, ha⟩ | ⟨p, hp, ha⟩)
        · have hlt := hok.lt
          rcases h2 v t hvt with h | ⟨h, hno⟩
          · omega
          · have : v = x.1 := ho.apart v x.1 t s h hs ha
            subst this
            exact hno rfl (mem_sortNat.2 hk)
        · exact ho.poolApart _ _ _ hs hp ha.symm
    · simp only [hv, decide_false] at hr
      simp at hr
  obtain ⟨k1, k2, k3⟩ := key
  have hlt := Nat.lt_of_lt_of_le k1.lt k2.1
  have := (C95_frame _ cs _ hlt k3 (ht x hx)).1
  unfold Sl.ops
  rw [this, k2.2 _ k1.lt]

/-! ### What goes wrong otherwise -/

/-- The caller's arrays: one operation with room for another, and two operations, the later first. -/
def memArrs : Arrs := [[demoOp b!"a" false 5, zeroOp], [demoOp b!"a" false 9, demoOp b!"b/d" true 7]]

/-- The operations a version is recorded with. -/
def MSt.recorded (m : MSt) (v : Nat) : List Op := opsOf m.arrs (mget m.log.patches v)

/-- C95 (the code violates it): `Store` keeps the caller's slice and `append`s to it in place.  The caller stores the
same slice for two versions and writes to nothing; what is stored for version 2 then replaces an operation already
recorded for version 1. -/
theorem C95_reuse_fails :
    let p := MArg.patch (some ⟨0, 0, 1, 2⟩)
    let m := mrun (mnew [] memArrs demoDoc) [.store p 0, .store (.op (demoOp b!"b/d" true 6)) 0, .append]
    let m' := mrun m [.store p 0, .store (.op (demoOp b!"b/d" false 8)) 0]
    m.recorded 1 = [demoOp b!"a" false 5, demoOp b!"b/d" true 6] ∧
    m'.recorded 1 = [demoOp b!"a" false 5, demoOp b!"b/d" false 8] := by decide

/-- C95 (the code violates it): a slice stored for two versions is one array: `TemporalSnapshot`, which sorts the patch
of version 1, reorders version 2 as well, and the caller's slice. -/
theorem C95_sort_fails :
    let p : Sl := ⟨1, 0, 2, 2⟩
    let m := mrun (mnew [] memArrs demoDoc) [.store (.patch (some p)) 0, .append, .store (.patch (some p)) 0, .append]
    let m' := mrun m [.temporalSnapshot Oracle.plain 3]
    m.recorded 2 = [demoOp b!"a" false 9, demoOp b!"b/d" true 7] ∧
    m'.recorded 2 = [demoOp b!"b/d" true 7, demoOp b!"a" false 9] ∧
    p.ops m'.arrs = [demoOp b!"b/d" true 7, demoOp b!"a" false 9] := by decide

/-- C95 (the code violates it): the logument handed out by `Slice` has the arrays of the logument sliced: a
`TemporalSnapshot` of the slice reorders a version recorded there. -/
theorem C95_slice_fails :
    let m := mrun (mnew [] memArrs demoDoc) [.store (.patch (some ⟨1, 0, 2, 2⟩)) 0, .append]
    ∃ g, (mstep m (.slice 0 1)).2 = .ok (.slice g) ∧
      let m' := (mstep ⟨(mstep m (.slice 0 1)).1.heap, (mstep m (.slice 0 1)).1.arrs, g⟩ (.temporalSnapshot Oracle.plain 3)).1
      m.recorded 1 = [demoOp b!"a" false 9, demoOp b!"b/d" true 7] ∧
      opsOf m'.arrs (mget m.log.patches 1) = [demoOp b!"b/d" true 7, demoOp b!"a" false 9] :=
  ⟨_, rfl, by decide⟩

/-- A careful history in which arrays are shared with the caller, grow in place and move. -/
def memCalls : List MCall :=
  [.store (.patch (some ⟨0, 0, 1, 2⟩)) 0, .store (.op (demoOp b!"b/d" true 6)) 3, .set 0 (demoOp b!"a" true 7) 2, .append,
   .store (.ops (some ⟨1, 0, 2, 2⟩)) 0, .append, .temporalSnapshot Oracle.plain 3, .track 1 2,
   .store (.patches [some ⟨1, 0, 2, 2⟩]) 0]

/-- Then the caller clears the arrays it had before. -/
def memCaller : MCall :=
  .caller (((mrun (mnew [] memArrs demoDoc) memCalls).arrs.write 0 0 [zeroOp, zeroOp]).write 1 0 [zeroOp, zeroOp])

/-- A test for `Careful`. -/
def carefulB (m : MSt) : MCall → Bool
  | .store (.patch (some s)) _ | .store (.ops (some s)) _ =>
    decide (s.addr < m.arrs.length ∧ s.len ≤ s.cap ∧ s.off + s.cap ≤ (m.arrs.arr s.addr).length) &&
      ((m.log.patches.map Prod.snd ++ m.log.pool.toList).all fun t => decide (s.addr ≠ t.addr))
  | .caller B => decide (m.arrs.length ≤ B.length) &&
      ((m.log.patches.map Prod.snd ++ m.log.pool.toList).all fun t => decide (B.arr t.addr = m.arrs.arr t.addr))
  | _ => true

theorem careful_of {m : MSt} {c : MCall} (h : carefulB m c = true) : Careful m c := by
  have hmem : ∀ {q : Sl → Bool}, ((m.log.patches.map Prod.snd ++ m.log.pool.toList).all q = true) →
      (∀ v t, mget m.log.patches v = some t → q t = true) ∧ ∀ t, m.log.pool = some t → q t = true := by
    intro q hq
    rw [List.all_eq_true] at hq
    refine ⟨fun v t ht => hq t (List.mem_append_left _ (List.mem_map.2 ⟨(v, t), mget_mem ht, rfl⟩)), fun t ht => ?_⟩
    exact hq t (List.mem_append_right _ (by simp [ht]))
  have hap : ∀ s : Sl, (decide (s.addr < m.arrs.length ∧ s.len ≤ s.cap ∧ s.off + s.cap ≤ (m.arrs.arr s.addr).length) &&
      ((m.log.patches.map Prod.snd ++ m.log.pool.toList).all fun t => decide (s.addr ≠ t.addr))) = true → s.Apart m := by
    intro s hs
    rw [Bool.and_eq_true, decide_eq_true_eq] at hs
    obtain ⟨h1, h2⟩ := hmem hs.2
    exact ⟨⟨hs.1.1, hs.1.2.1, hs.1.2.2⟩, fun v t ht => of_decide_eq_true (h1 v t ht), fun t ht => of_decide_eq_true (h2 t ht)⟩
  unfold carefulB at h
  split at h
  · exact hap _ h
  · exact hap _ h
  · rw [Bool.and_eq_true, decide_eq_true_eq] at h
    obtain ⟨h1, h2⟩ := hmem h.2
    exact ⟨h.1, fun v t ht => of_decide_eq_true (h1 v t ht), fun t ht => of_decide_eq_true (h2 t ht)⟩
  · rename_i hn1 hn2 hn3
    unfold Careful
    split
    · exact absurd rfl (hn1 _ _)
    · exact absurd rfl (hn2 _ _)
    · exact absurd rfl (hn3 _)
    · trivial

/-- A test for `CarefulRun`. -/
def carefulRunB (m : MSt) : List MCall → Bool
  | [] => true
  | c :: cs => carefulB m c && carefulRunB (mstep m c).1 cs

theorem carefulRun_of {m : MSt} {cs : List MCall} (h : carefulRunB m cs = true) : CarefulRun m cs := by
  induction cs generalizing m with
  | nil => trivial
  | cons c cs ih =>
    simp only [carefulRunB, Bool.and_eq_true] at h
    exact ⟨careful_of h.1, ih h.2⟩

/-- The history meets the hypothesis of `C95_values_partial`. -/
example : CarefulRun (mnew [] memArrs demoDoc) (memCalls ++ [memCaller]) := carefulRun_of (by decide)

/-- What it records: the caller clearing its arrays changes nothing. -/
example :
    let m := mrun (mnew [] memArrs demoDoc) (memCalls ++ [memCaller])
    m.recorded 1 = [demoOp b!"a" false 5, demoOp b!"b/d" true 6, demoOp b!"a" true 7] ∧
    m.recorded 2 = [demoOp b!"a" false 9] ∧
    m.load.lgm.pool = some [demoOp b!"a" false 9, demoOp b!"b/d" true 7] := by decide

/-- The hypotheses of `C95_frame`: array 0 is the caller's while only array 1 is given away. -/
example : ¬ (mnew [] memArrs demoDoc).Holds 0 ∧
    ¬ TouchedIn 0 (mnew [] memArrs demoDoc) [.store (.patch (some ⟨1, 0, 2, 2⟩)) 0, .append, .compact b!"a"] := by
  simp [MSt.Holds, mnew, TouchedIn, MCall.Touches]

/-- The hypotheses of `C95_track`: two versions are handed out, the logument goes on. -/
example :
    let m := mrun (mnew [] memArrs demoDoc) (memCalls.take 7)
    (∃ l, (mstep m (.track 1 2)).2 = .ok (.track l) ∧ l.map (fun x => x.2.addr) = [3, 1]) ∧
    ∀ x ∈ [3, 1], ¬ TouchedIn x (mstep m (.track 1 2)).1 [.store (.op (demoOp b!"a" true 11)) 0, .append, .compact []] := by
  refine ⟨⟨_, rfl, rfl⟩, fun x _ => ?_⟩
  simp [TouchedIn, MCall.Touches]

end Verif
