import Verif.SpecOne
import Verif.PropsSnapshot
/-
C94: a logument made from an object document is one document with flags.
-/
namespace Verif

/-! ### The logument of a machine -/

/-- The state a machine stands for. -/
def Stands (a : Nat) (s : St) (o : OneDoc) : Prop := (∃ F, Rep s.heap (.obj a) o.doc F) ∧ s.lgm = o.lgm a

/-- What holds for the loguments machines stand for. -/
structure Fine (a : Nat) (o : OneDoc) : Prop where
  versions : (o.lgm a).Versions o.last
  snaps : SnapsOk (o.lgm a)
  first : mget o.snaps 0 = some true

theorem mget_refs (a : Nat) (m : List (Nat × Bool)) (v : Nat) :
    mget (m.map fun x => (x.1, refTo a x.2)) v = (mget m v).map (refTo a) := by
  induction m with
  | nil => rfl
  | cons p m ih => obtain ⟨k, b⟩ := p; simp only [List.map_cons, mget_cons]; split <;> simp [*]

theorem mkeys_refs (a : Nat) (m : List (Nat × Bool)) : mkeys (m.map fun x => (x.1, refTo a x.2)) = mkeys m := by
  simp [mkeys]

theorem mset_refs (a : Nat) (m : List (Nat × Bool)) (v : Nat) (b : Bool) :
    mset (m.map fun x => (x.1, refTo a x.2)) v (refTo a b) = (mset m v b).map fun x => (x.1, refTo a x.2) := by
  induction m with
  | nil => rfl
  | cons p m ih => obtain ⟨k, c⟩ := p; simp only [List.map_cons, mset]; split <;> simp [*]

theorem restrict_refs (a : Nat) (m : List (Nat × Bool)) (i j : Nat) :
    restrict (m.map fun x => (x.1, refTo a x.2)) .null i j =
      (restrict m false i j).map fun x => (x.1, refTo a x.2) := by
  unfold restrict sortedKeys
  rw [mkeys_refs, List.map_map]
  apply List.map_congr_left
  intro v _
  simp only [Function.comp, mget_refs]
  cases mget m v <;> rfl

theorem lgm_snap (a : Nat) (o : OneDoc) (v : Nat) : (o.lgm a).snap v = refTo a (o.holds v) := by
  unfold Lgm.snap OneDoc.holds
  simp only [OneDoc.lgm, mget_refs]
  cases mget o.snaps v <;> rfl

theorem lgm_patchOf (a : Nat) (o : OneDoc) (v : Nat) : (o.lgm a).patchOf v = o.ops v := rfl

theorem refTo_true (a : Nat) : refTo a true = .obj a := rfl
theorem refTo_false (a : Nat) : refTo a false = .null := rfl

theorem view_ref {a : Nat} {h : Heap} {t : Tson} {F} (hr : Rep h (.obj a) t F) (b : Bool) :
    h.view (refTo a b) = some (if b then t else .null) := by
  cases b with
  | true => simpa [refTo] using hr.view
  | false => simp [refTo, Heap.view, Heap.read]

theorem applyOperation_nil (h : Heap) (op : Op) : applyOperation h .null op = (h, .err) := by
  unfold applyOperation
  cases hp : writeParts op.path with
  | nil => exact absurd hp (split_ne_nil' _)
  | cons p ps => exact applyTraverse_null _ _ _ _

/-! ### The calls one by one -/

theorem one_store {a : Nat} {h : Heap} {o : OneDoc} {F} (hr : Rep h (.obj a) o.doc F) (x : StoreArg) :
    Stands a (step ⟨h, o.lgm a⟩ (.store x)).1 (o.store x).1 ∧
      (step ⟨h, o.lgm a⟩ (.store x)).2 = (o.store x).2.map (OneRet.ret a) := by
  simp only [step, St.onLgm, Lgm.store, OneDoc.store]
  cases x.resolve with
  | ok p =>
    cases hp : o.pool <;> simp only [OneDoc.lgm, hp] <;> exact ⟨⟨⟨F, hr⟩, rfl⟩, rfl⟩
  | err => exact ⟨⟨⟨F, hr⟩, rfl⟩, rfl⟩
  | panic => exact ⟨⟨⟨F, hr⟩, rfl⟩, rfl⟩

theorem one_append_lgm {a : Nat} {o : OneDoc} (hf : Fine a o) :
    (o.lgm a).append = (o.append.lgm a, .ok ()) := by
  rw [hf.versions.append]
  unfold OneDoc.append
  cases hp : o.pool <;> simp only [OneDoc.lgm, hp]

theorem one_append {a : Nat} {h : Heap} {o : OneDoc} {F} (hr : Rep h (.obj a) o.doc F) (hf : Fine a o) :
    Stands a (step ⟨h, o.lgm a⟩ .append).1 o.append ∧ (step ⟨h, o.lgm a⟩ .append).2 = .ok .unit := by
  simp only [step, St.onLgm, one_append_lgm hf]
  refine ⟨⟨⟨F, ?_⟩, rfl⟩, rfl⟩
  unfold OneDoc.append
  cases o.pool <;> exact hr

theorem one_set {a : Nat} {h : Heap} {o : OneDoc} {F} (hr : Rep h (.obj a) o.doc F) (vk : Nat) (op : Op) :
    Stands a (St.set ⟨h, o.lgm a⟩ vk op).1 (o.set op).1 ∧
      (St.set ⟨h, o.lgm a⟩ vk op).2.map (fun _ => Ret.unit) = (o.set op).2.map (OneRet.ret a) := by
  unfold St.set OneDoc.set
  by_cases hk : op.kind = .replace ∨ op.kind = .add
  · have hk' : ¬ (op.kind ≠ .replace ∧ op.kind ≠ .add) := by
      rcases hk with hk | hk <;> simp [hk]
    rw [if_neg hk', if_pos hk]
    have hc : (o.lgm a).current = refTo a o.live := rfl
    simp only [hc]
    by_cases hl : o.live = true
    · rw [if_pos hl, hl, refTo_true]
      obtain ⟨G, hG, -, -, -, hout⟩ := applyOperation_obj hr op
      rcases hT : applyOpT o.doc op with ⟨t, r⟩
      rcases hH : applyOperation h (.obj a) op with ⟨h', w⟩
      rw [hT, hH] at hG hout
      simp only at hG hout
      rcases hout with ⟨rfl, rfl⟩ | ⟨rfl, rfl⟩ | ⟨rfl, rfl⟩
      · exact ⟨⟨⟨G, hG⟩, by simp [OneDoc.lgm, hl, refTo]⟩, rfl⟩
      · exact ⟨⟨⟨G, hG⟩, by simp [OneDoc.lgm, refTo]⟩, rfl⟩
      · exact ⟨⟨⟨G, hG⟩, by simp [OneDoc.lgm, hl]⟩, rfl⟩
    · rw [if_neg hl]
      simp only [Bool.not_eq_true] at hl
      rw [hl, refTo_false, applyOperation_nil]
      exact ⟨⟨⟨F, hr⟩, by simp [OneDoc.lgm, hl, refTo]⟩, rfl⟩
  · have hk' : op.kind ≠ .replace ∧ op.kind ≠ .add := ⟨fun h => hk (Or.inl h), fun h => hk (Or.inr h)⟩
    rw [if_pos hk', if_neg hk]
    exact ⟨⟨⟨F, hr⟩, rfl⟩, rfl⟩

theorem one_testSet {a : Nat} {h : Heap} {o : OneDoc} {F} (hr : Rep h (.obj a) o.doc F) (hf : Fine a o)
    (vk : Nat) (op : Op) :
    Stands a (St.testSet ⟨h, o.lgm a⟩ vk op).1 (o.testSet op).1 ∧
      (St.testSet ⟨h, o.lgm a⟩ vk op).2.map (fun _ => Ret.unit) = (o.testSet op).2.map (OneRet.ret a) := by
  unfold St.testSet OneDoc.testSet
  by_cases hk : op.kind = .replace
  · rw [if_neg (by simp [hk]), if_neg (by simp [hk]), if_pos hk]
    simp only [hf.versions.last, lgm_snap, view_ref hr]
    cases getValue (if o.holds o.last = true then o.doc else .null) op.path with
    | ok v =>
      dsimp only
      split
      · exact ⟨⟨⟨F, hr⟩, rfl⟩, rfl⟩
      · exact one_set hr vk op
    | err => exact one_set hr vk _
    | panic => exact ⟨⟨⟨F, hr⟩, rfl⟩, rfl⟩
  · rw [if_neg hk]
    by_cases hk2 : op.kind = .add
    · rw [if_neg (by simp [hk2]), if_pos hk2]
      exact one_set hr vk op
    · rw [if_pos ⟨hk, hk2⟩]
      have : o.set op = (o, .ok .unit) := by
        unfold OneDoc.set
        rw [if_neg (by rintro (h | h); exact hk h; exact hk2 h)]
      rw [this]
      exact ⟨⟨⟨F, hr⟩, rfl⟩, rfl⟩

/-! ### Snapshots -/

theorem foldl_max (l : List Nat) : ∀ m, m ≤ l.foldl max m ∧ (∀ x ∈ l, x ≤ l.foldl max m) ∧
    (l.foldl max m = m ∨ l.foldl max m ∈ l) := by
  induction l with
  | nil => intro m; simp
  | cons y l ih =>
    intro m
    obtain ⟨h1, h2, h3⟩ := ih (max m y)
    simp only [List.foldl_cons]
    refine ⟨by omega, ?_, ?_⟩
    · intro x hx
      rcases List.mem_cons.1 hx with rfl | hx
      · omega
      · exact h2 x hx
    · rcases h3 with h3 | h3
      · rcases Nat.le_total m y with h | h
        · right; rw [h3, Nat.max_eq_right h]; simp
        · left; rw [h3, Nat.max_eq_left h]
      · right; exact List.mem_cons_of_mem _ h3

theorem greatest_spec {l : List Nat} {v : Nat} (hm : v ∈ l) (h : ∀ x ∈ l, x ≤ v) : greatest l = v := by
  obtain ⟨-, h2, h3⟩ := foldl_max l 0
  have := h2 v hm
  rcases h3 with h3 | h3
  · unfold greatest; omega
  · have := h _ h3; unfold greatest; omega

/-- The loop over versions from nil: nil if there are no operations, a panic otherwise. -/
theorem snapshotLoop_nil (g : Lgm) (h : Heap) (n : Nat) : ∀ w i,
    snapshotLoop g .null h w i n =
      if opsFrom g i n = [] then (h, .ok (if n = 0 then w else .null)) else (h, .panic) := by
  induction n with
  | zero => intro w i; simp [snapshotLoop, opsFrom]
  | succ n ih =>
    intro w i
    have ho : opsFrom g i (n + 1) = g.patchOf i ++ opsFrom g (i + 1) n := by
      simp [opsFrom, List.range'_succ]
    rw [snapshotLoop, ho]
    cases hp : g.patchOf i with
    | nil =>
      simp only [applyPatch, applyPatchLoop, List.nil_append]
      rw [ih]
      by_cases he : opsFrom g (i + 1) n = []
      · simp [he]
      · simp [he]
    | cons op ps =>
      simp [applyPatch, applyPatchLoop, applyOperation_nil]

theorem one_snapshot {a : Nat} {h : Heap} {o : OneDoc} {F} (hr : Rep h (.obj a) o.doc F) (hf : Fine a o) (v : Nat) :
    Stands a (St.snapshot ⟨h, o.lgm a⟩ v).1 (o.snapshot v).1 ∧
      (St.snapshot ⟨h, o.lgm a⟩ v).2 = (o.snapshot v).2.map (refTo a) := by
  unfold OneDoc.snapshot
  by_cases hl : o.last < v
  · rw [if_pos hl]
    have : St.snapshot ⟨h, o.lgm a⟩ v = (⟨h, o.lgm a⟩, .panic) := by
      obtain ⟨f1, -, -⟩ := findLatest_spec_of hf.versions.isContinuous hf.versions.last v
      unfold St.snapshot
      rw [f1 hl]
    rw [this]
    exact ⟨⟨⟨F, hr⟩, rfl⟩, rfl⟩
  · rw [if_neg hl]
    rcases snapshot_cases (s := ⟨h, o.lgm a⟩) hf.versions v with ⟨-, hc | hc⟩ | ⟨d, hd, hc⟩ | ⟨b, hb, hvn, hbase, hnone, hc⟩
    · exact absurd hc hl
    · exfalso
      -- version 0 is stored, so there is a base
      have hz : 0 ∈ (mkeys o.snaps).filter fun x => decide (x ≤ v) := by
        simp only [List.mem_filter, decide_eq_true_eq, Nat.zero_le, and_true]
        exact mget_isSome.1 ⟨_, hf.first⟩
      obtain ⟨-, h2, h3⟩ := foldl_max ((mkeys o.snaps).filter fun x => decide (x ≤ v)) 0
      refine hc (greatest ((mkeys o.snaps).filter fun x => decide (x ≤ v))) ⟨?_, ?_, ?_⟩
      · have : greatest ((mkeys o.snaps).filter fun x => decide (x ≤ v)) ∈
            (mkeys o.snaps).filter fun x => decide (x ≤ v) := by
          rcases h3 with h3 | h3
          · unfold greatest; rw [h3]; exact hz
          · exact h3
        rw [mget_isSome, OneDoc.lgm, mkeys_refs]
        exact (List.mem_filter.1 this).1
      · rcases h3 with h3 | h3
        · unfold greatest; rw [h3]; exact Nat.zero_le _
        · unfold greatest; simpa using (List.mem_filter.1 h3).2
      · intro b' d hd hbv
        have := mget_isSome.1 ⟨d, hd⟩
        rw [OneDoc.lgm, mkeys_refs] at this
        exact h2 b' (List.mem_filter.2 ⟨this, by simpa using hbv⟩)
    · rw [hc]
      have hd : (mget o.snaps v).map (refTo a) = some d := by rw [← mget_refs]; exact hd
      cases hm : mget o.snaps v with
      | none => rw [hm] at hd; simp at hd
      | some b =>
        rw [hm] at hd; simp at hd; subst hd
        exact ⟨⟨⟨F, hr⟩, rfl⟩, rfl⟩
    · rw [hc]
      have hm : mget o.snaps v = none := by
        have : (mget o.snaps v).map (refTo a) = none := by rw [← mget_refs]; exact hnone
        simpa using this
      rw [hm]
      have hw : greatest ((mkeys o.snaps).filter fun x => decide (x ≤ v)) = b := by
        obtain ⟨⟨d, hd⟩, h2, h3⟩ := hbase
        refine greatest_spec ?_ ?_
        · have := mget_isSome.1 ⟨d, hd⟩
          rw [OneDoc.lgm, mkeys_refs] at this
          exact List.mem_filter.2 ⟨this, by simpa using h2⟩
        · intro x hx
          obtain ⟨hx1, hx2⟩ := List.mem_filter.1 hx
          have : x ∈ mkeys (o.lgm a).snaps := by rw [OneDoc.lgm, mkeys_refs]; exact hx1
          obtain ⟨e, he⟩ := mget_isSome.2 this
          exact h3 x e he (by simpa using hx2)
      have hops : (List.range' (b + 1) (v - b)).flatMap o.ops = opsFrom (o.lgm a) (b + 1) (v - b) := rfl
      simp only [hw, hops, lgm_snap]
      have hpos : v - b ≠ 0 := by omega
      by_cases hh : o.holds b = true
      · simp only [hh, if_true, refTo_true]
        obtain ⟨G, hG, hout⟩ := snapshotLoop_obj (o.lgm a) (v - b) hr .null (b + 1)
        rcases hT : applyPatchT o.doc (opsFrom (o.lgm a) (b + 1) (v - b)) with ⟨t, r⟩
        rcases hL : snapshotLoop (o.lgm a) (.obj a) h .null (b + 1) (v - b) with ⟨h', w⟩
        rw [hT, hL] at hG hout
        simp only at hG hout
        cases r with
        | ok u =>
          have hv : b + 1 + (v - b) - 1 = v := by omega
          simp only [hpos, if_false, hv, lgm_patchOf] at hout
          subst hout
          have hw : (if o.ops v = [] then HVal.null else .obj a) = refTo a (decide (o.ops v ≠ [])) := by
            by_cases hp : o.ops v = [] <;> simp [hp, refTo]
          rw [hw]
          exact ⟨⟨⟨G, hG⟩, by simp [OneDoc.lgm, mset_refs]⟩, rfl⟩
        | err => subst hout; exact ⟨⟨⟨G, hG⟩, rfl⟩, rfl⟩
        | panic => subst hout; exact ⟨⟨⟨G, hG⟩, rfl⟩, rfl⟩
      · simp only [Bool.not_eq_true] at hh
        simp only [hh, refTo_false, snapshotLoop_nil]
        by_cases he : opsFrom (o.lgm a) (b + 1) (v - b) = []
        · simp only [he, if_true, hpos, if_false, Bool.false_eq_true]
          exact ⟨⟨⟨F, hr⟩, by simp only [OneDoc.lgm, ← mset_refs]; rfl⟩, rfl⟩
        · simp only [he, if_false, Bool.false_eq_true]
          exact ⟨⟨⟨F, hr⟩, rfl⟩, rfl⟩

/-! ### Snapshots by time -/

theorem one_latestOf {a : Nat} {h : Heap} {o : OneDoc} {F} (hr : Rep h (.obj a) o.doc F) (v : Nat) :
    St.latestOf ⟨h, o.lgm a⟩ v = if o.holds v then getLatestTimestamp o.doc else none := by
  unfold St.latestOf
  simp only [lgm_snap, view_ref hr]
  split <;> rfl

theorem holds_all {o : OneDoc} (ha : (o.snaps.all fun x => x.2) = true) {v : Nat} (hv : v ∈ mkeys o.snaps) :
    o.holds v = true := by
  obtain ⟨b, hb⟩ := mget_isSome.2 hv
  have := List.all_eq_true.1 ha _ (mget_mem hb)
  unfold OneDoc.holds
  rw [hb]; exact this

theorem holds_all_iff {o : OneDoc} (hn : (mkeys o.snaps).Nodup) :
    (o.snaps.all fun x => x.2) = true ↔ ∀ v ∈ mkeys o.snaps, o.holds v = true := by
  refine ⟨fun h v hv => holds_all h hv, fun h => List.all_eq_true.2 fun x hx => ?_⟩
  have h1 := h x.1 (List.mem_map.2 ⟨x, hx, rfl⟩)
  unfold OneDoc.holds at h1
  rw [mem_mget hn (v := x.2) hx] at h1
  exact h1

theorem choose_all {s : St} {t : Int} (l : List Nat) (h : ∀ v ∈ l, ∃ r, s.latestOf v = some r ∧ r ≤ t) :
    ∀ cur, chooseVersion s t cur l = some (l.getLast?.getD cur) := by
  induction l with
  | nil => intro cur; rfl
  | cons x l ih =>
    intro cur
    obtain ⟨r, h1, h2⟩ := h x (by simp)
    simp only [chooseVersion, h1, if_pos h2]
    rw [ih (fun v hv => h v (by simp [hv])) x]
    cases l with
    | nil => rfl
    | cons y l => simp [List.getLast?_cons]

theorem choose_none {s : St} {t : Int} (l : List Nat)
    (h : ∀ v ∈ l, s.latestOf v = none ∨ ∃ r, s.latestOf v = some r ∧ r ≤ t) (hn : ∃ v ∈ l, s.latestOf v = none) :
    ∀ cur, chooseVersion s t cur l = none := by
  induction l with
  | nil => simp at hn
  | cons x l ih =>
    intro cur
    rcases h x (by simp) with h1 | ⟨r, h1, h2⟩
    · simp only [chooseVersion, h1]
    · simp only [chooseVersion, h1, if_pos h2]
      refine ih (fun v hv => h v (by simp [hv])) ?_ x
      obtain ⟨v, hv, hv'⟩ := hn
      rcases List.mem_cons.1 hv with rfl | hv
      · rw [h1] at hv'; simp at hv'
      · exact ⟨v, hv, hv'⟩

theorem sorted_getLast {l : List Nat} (hs : l.Pairwise (· ≤ ·)) {x : Nat} (hx : l.getLast? = some x) :
    ∀ y ∈ l, y ≤ x := by
  intro y hy
  obtain ⟨ys, rfl⟩ := List.getLast?_eq_some_iff.1 hx
  rw [List.pairwise_append] at hs
  rcases List.mem_append.1 hy with hy | hy
  · exact hs.2.2 y hy x (by simp)
  · simp at hy; omega

theorem sortedKeys_zero {m : List (Nat × Bool)} (h0 : 0 ∈ mkeys m) : ∃ l, sortedKeys m = 0 :: l := by
  have hm := mem_sortedKeys.2 h0
  have hs := sortedKeys_sorted m
  cases hl : sortedKeys m with
  | nil => rw [hl] at hm; simp at hm
  | cons x l =>
    rw [hl] at hm hs
    rcases List.mem_cons.1 hm with rfl | hm
    · exact ⟨l, rfl⟩
    · have := (List.pairwise_cons.1 hs).1 0 hm
      exact ⟨l, by rw [Nat.le_zero.1 this]⟩

theorem sortedKeys_lgm (a : Nat) (o : OneDoc) : sortedKeys (o.lgm a).snaps = sortedKeys o.snaps := by
  unfold sortedKeys
  rw [OneDoc.lgm, mkeys_refs]

theorem Fine.zero {a : Nat} {o : OneDoc} (hf : Fine a o) : 0 ∈ mkeys o.snaps := mget_isSome.1 ⟨_, hf.first⟩

theorem Fine.once {a : Nat} {o : OneDoc} (hf : Fine a o) : (mkeys o.snaps).Nodup := by
  have := hf.snaps.once
  rwa [OneDoc.lgm, mkeys_refs] at this

theorem Fine.le {a : Nat} {o : OneDoc} (hf : Fine a o) {v : Nat} (hv : v ∈ mkeys o.snaps) : v ≤ o.last := by
  have := hf.snaps.exist v (by rw [OneDoc.lgm, mkeys_refs]; exact hv)
  have : v ∈ List.range (o.last + 1) := this
  have := List.mem_range.1 this
  omega

theorem one_base {a : Nat} {h : Heap} {o : OneDoc} {F} (hr : Rep h (.obj a) o.doc F) (hf : Fine a o) (t : Int) :
    chooseVersion ⟨h, o.lgm a⟩ t 0 (sortedKeys (o.lgm a).snaps) = o.base t ∧
      ∀ v, o.base t = some v → o.holds v = true ∧ v ∈ mkeys o.snaps := by
  have h0 : o.holds 0 = true := by unfold OneDoc.holds; rw [hf.first]; rfl
  obtain ⟨l, hl⟩ := sortedKeys_zero hf.zero
  have hlast : ∀ x, (sortedKeys o.snaps).getLast? = some x → x ∈ mkeys o.snaps ∧ greatest (mkeys o.snaps) = x := by
    intro x hx
    have hm : x ∈ mkeys o.snaps := mem_sortedKeys.1 (List.mem_of_getLast? hx)
    exact ⟨hm, greatest_spec hm fun y hy => sorted_getLast (sortedKeys_sorted _) hx y (mem_sortedKeys.2 hy)⟩
  obtain ⟨x, hx⟩ : ∃ x, (sortedKeys o.snaps).getLast? = some x := by
    rw [hl]; exact ⟨_, List.getLast?_cons ..⟩
  rw [sortedKeys_lgm]
  unfold OneDoc.base
  cases hL : getLatestTimestamp o.doc with
  | none =>
    refine ⟨?_, by simp⟩
    rw [hl]
    simp only [chooseVersion, one_latestOf hr, h0, if_true, hL]
  | some lts =>
    dsimp only
    by_cases ht : t < lts
    · rw [if_pos ht]
      refine ⟨?_, fun v hv => ?_⟩
      · rw [hl]
        simp only [chooseVersion, one_latestOf hr, h0, if_true, hL]
        rw [if_neg (by omega)]
      · cases hv; exact ⟨h0, hf.zero⟩
    · rw [if_neg ht]
      by_cases ha : (o.snaps.all fun x => x.2) = true
      · rw [if_pos ha]
        refine ⟨?_, fun v hv => ?_⟩
        · rw [choose_all, hx, (hlast x hx).2]; rfl
          intro v hv
          exact ⟨lts, by rw [one_latestOf hr, holds_all ha (mem_sortedKeys.1 hv), if_pos rfl, hL], by omega⟩
        · cases hv
          rw [(hlast x hx).2]
          exact ⟨holds_all ha (hlast x hx).1, (hlast x hx).1⟩
      · rw [if_neg ha]
        refine ⟨choose_none _ ?_ ?_ 0, by simp⟩
        · intro v hv
          rw [one_latestOf hr]
          split
          · exact Or.inr ⟨lts, hL, by omega⟩
          · exact Or.inl rfl
        · rw [holds_all_iff hf.once] at ha
          refine Classical.byContradiction fun hc => ha fun v hv => ?_
          refine Classical.byContradiction fun hc' => hc ⟨v, mem_sortedKeys.2 hv, ?_⟩
          rw [one_latestOf hr, if_neg hc']

/-- The second half, on a machine with a version after the base. -/
theorem one_temporalApply {a : Nat} {h : Heap} {o : OneDoc} {F} (hr : Rep h (.obj a) o.doc F)
    (hv : (o.lgm a).Versions o.last) (r : Oracle) (t : Int) {v : Nat} (hl : v + 1 ≤ o.last) :
    let sorted := r.sortOps (o.ops (v + 1))
    let chosen := (r.orderOps (pickLatest t [] sorted)).map Prod.snd
    let o' : OneDoc × Res Bool := match applyPatchT o.doc chosen with
      | (t, .ok _) => ({ o with patches := mset o.patches (v + 1) sorted, doc := t }, .ok (decide (chosen ≠ [])))
      | (t, _) => ({ o with patches := mset o.patches (v + 1) sorted, doc := t }, .panic)
    Stands a (St.temporalApply ⟨h, o.lgm a⟩ r t v (.obj a)).1 o'.1 ∧
      (St.temporalApply ⟨h, o.lgm a⟩ r t v (.obj a)).2 = o'.2.map (refTo a) := by
  intro sorted chosen o'
  obtain ⟨q, hq⟩ := mget_isSome.2 ((hv.2.2 (v + 1)).2 ⟨by omega, hl⟩)
  have hq : mget o.patches (v + 1) = some q := hq
  obtain ⟨G, hG, -, -, -, hout⟩ := applyPatchLoop_obj chosen hr .null
  have happ : applyPatch h (.obj a) chosen = applyPatchLoop h (.obj a) .null chosen := rfl
  have hp : (o.lgm a).patches = o.patches := rfl
  unfold St.temporalApply
  simp only [lgm_patchOf, hp, hq]
  change Stands a (match applyPatch h (.obj a) chosen with
      | (h, .ok t) => (⟨h, { o.lgm a with patches := mset o.patches (v + 1) sorted }⟩, .ok t)
      | (h, .err) => (⟨h, { o.lgm a with patches := mset o.patches (v + 1) sorted }⟩, .panic)
      | (h, .panic) => (⟨h, { o.lgm a with patches := mset o.patches (v + 1) sorted }⟩, .panic) : St × Res HVal).1 o'.1 ∧
    (match applyPatch h (.obj a) chosen with
      | (h, .ok t) => (⟨h, { o.lgm a with patches := mset o.patches (v + 1) sorted }⟩, .ok t)
      | (h, .err) => (⟨h, { o.lgm a with patches := mset o.patches (v + 1) sorted }⟩, .panic)
      | (h, .panic) => (⟨h, { o.lgm a with patches := mset o.patches (v + 1) sorted }⟩, .panic) : St × Res HVal).2 =
      o'.2.map (refTo a)
  rw [happ]
  have ho : o' = match applyPatchT o.doc chosen with
      | (t, .ok _) => ({ o with patches := mset o.patches (v + 1) sorted, doc := t }, .ok (decide (chosen ≠ [])))
      | (t, _) => ({ o with patches := mset o.patches (v + 1) sorted, doc := t }, .panic) := rfl
  rw [ho]
  clear ho happ
  clear_value o' chosen sorted
  rcases hT : applyPatchT o.doc chosen with ⟨t', w⟩
  rcases hH : applyPatchLoop h (.obj a) .null chosen with ⟨h', w'⟩
  rw [hT, hH] at hG hout
  simp only at hG hout
  subst hout
  cases w with
  | ok u =>
    refine ⟨⟨⟨G, hG⟩, rfl⟩, ?_⟩
    simp only [Res.map]
    by_cases hc : chosen = [] <;> simp [hc, refTo]
  | err => exact ⟨⟨⟨G, hG⟩, rfl⟩, rfl⟩
  | panic => exact ⟨⟨⟨G, hG⟩, rfl⟩, rfl⟩

theorem one_temporalSnapshot {a : Nat} {h : Heap} {o : OneDoc} {F} (hr : Rep h (.obj a) o.doc F) (hf : Fine a o)
    (r : Oracle) (t : Int) :
    Stands a (St.temporalSnapshot ⟨h, o.lgm a⟩ r t).1 (o.temporalSnapshot r t).1 ∧
      (St.temporalSnapshot ⟨h, o.lgm a⟩ r t).2 = (o.temporalSnapshot r t).2.map (refTo a) := by
  obtain ⟨hb, hh⟩ := one_base hr hf t
  have hver : (o.lgm a).version = 0 :: List.range' 1 o.last := by
    change List.range (o.last + 1) = _
    rw [List.range_eq_range', List.range'_succ]
  unfold St.temporalSnapshot OneDoc.temporalSnapshot
  simp only [hver]
  rw [hb]
  cases hB : o.base t with
  | none => exact ⟨⟨⟨F, hr⟩, rfl⟩, rfl⟩
  | some v =>
    obtain ⟨hv, hm⟩ := hh v hB
    have hlast : (0 :: List.range' 1 o.last).getLast? = some o.last := by rw [← hver]; exact hf.versions.last
    simp only [hlast, lgm_snap, hv, refTo_true]
    have hpool : (o.lgm a).pool = o.pool := rfl
    have hle := hf.le hm
    by_cases hge : o.last ≤ v
    · simp only [hpool, ge_iff_le, hge, if_true, true_and]
      cases hp : o.pool with
      | none => simp only [if_true]; exact ⟨⟨⟨F, hr⟩, rfl⟩, rfl⟩
      | some p =>
        have hA : o.append.doc = o.doc := by unfold OneDoc.append; rw [hp]
        have hn : o.append.last = o.last + 1 := by unfold OneDoc.append; rw [hp]
        have hvers : (o.append.lgm a).Versions o.append.last := by
          obtain ⟨m, hm⟩ := hf.versions.of_append
          rw [one_append_lgm hf] at hm
          have : o.append.last = m := by
            have h1 : List.range (o.append.last + 1) = List.range (m + 1) := hm.1
            have := congrArg List.length h1
            simpa using this
          rw [this]; exact hm
        have := one_temporalApply (by rw [hA]; exact hr) hvers r t (v := v) (by omega)
        simp only [one_append_lgm hf, reduceCtorEq, if_false]
        exact this
    · simp only [hge, if_false, false_and]
      exact one_temporalApply hr hf.versions r t (by omega)

/-! ### Slices -/

theorem one_slice {a : Nat} {h : Heap} {o : OneDoc} {F} (hr : Rep h (.obj a) o.doc F) (hf : Fine a o) (vi vj : Nat) :
    Stands a (St.slice ⟨h, o.lgm a⟩ vi vj).1 (o.slice vi vj).1 ∧
      (St.slice ⟨h, o.lgm a⟩ vi vj).2.map Ret.lgm = (o.slice vi vj).2.map (OneRet.ret a) := by
  unfold St.slice OneDoc.slice
  rw [hf.versions.checkRange]
  by_cases hc : vi ≤ vj ∧ vj ≤ o.last
  · simp only [hc, and_self, decide_true, if_true]
    have hs : restrict (o.lgm a).snaps .null vi vj =
        (restrict o.snaps false vi vj).map fun x => (x.1, refTo a x.2) := restrict_refs a o.snaps vi vj
    have hp : (o.lgm a).patches = o.patches := rfl
    simp only [hs, hp]
    cases hR : restrict o.snaps false vi vj with
    | nil =>
      simp only [List.map_nil, if_true]
      obtain ⟨h1, h2⟩ := one_snapshot hr hf vi
      rcases hS : St.snapshot ⟨h, o.lgm a⟩ vi with ⟨s', w⟩
      rcases hO : o.snapshot vi with ⟨o', w'⟩
      rw [hS, hO] at h1 h2
      simp only at h1 h2
      subst h2
      cases w' <;> exact ⟨h1, rfl⟩
    | cons x l =>
      simp only [List.map_cons, reduceCtorEq, if_false]
      exact ⟨⟨⟨F, hr⟩, rfl⟩, rfl⟩
  · simp only [hc, decide_false, if_false]
    exact ⟨⟨⟨F, hr⟩, rfl⟩, rfl⟩

theorem windowPatches_only (g : Lgm) (ti tj : Int) (l : List Nat) :
    windowPatches g ti tj l = windowPatches (onlyPatches g.patches) ti tj l := by
  induction l with
  | nil => rfl
  | cons v l ih => simp only [windowPatches, ih]; rfl

theorem trackVersions_only (g : Lgm) (sel : Op → Sel) (l : List Nat) : ∀ latest,
    trackVersions g sel latest l = trackVersions (onlyPatches g.patches) sel latest l := by
  induction l with
  | nil => intro latest; rfl
  | cons v l ih =>
    intro latest
    have : (onlyPatches g.patches).patchOf v = g.patchOf v := rfl
    simp only [trackVersions, this]
    cases compactOps sel latest (g.patchOf v) with
    | none => rfl
    | some r => obtain ⟨ps, lt⟩ := r; simp only [ih lt]

theorem windowSnaps_none {s : St} {ti tj : Int} (l : List Nat) (h : ∃ v ∈ l, s.latestOf v = none) :
    windowSnaps s ti tj l = none := by
  induction l with
  | nil => simp at h
  | cons x l ih =>
    obtain ⟨v, hv, hn⟩ := h
    simp only [windowSnaps]
    rcases List.mem_cons.1 hv with rfl | hv
    · rw [hn]
    · rw [ih ⟨v, hv, hn⟩]
      cases s.latestOf x <;> rfl

theorem windowSnaps_all {s : St} {ti tj lts : Int} {a : Nat} (l : List Nat)
    (h : ∀ v ∈ l, s.latestOf v = some lts ∧ s.lgm.snap v = .obj a) :
    windowSnaps s ti tj l = some (if ti ≤ lts ∧ lts ≤ tj then l.map fun v => (v, .obj a) else []) := by
  induction l with
  | nil => simp [windowSnaps]
  | cons x l ih =>
    obtain ⟨h1, h2⟩ := h x (by simp)
    simp only [windowSnaps, h1, h2, ih fun v hv => h v (by simp [hv])]
    split <;> simp

theorem one_temporalSlice {a : Nat} {h : Heap} {o : OneDoc} {F} (hr : Rep h (.obj a) o.doc F) (hf : Fine a o)
    (r : Oracle) (ti tj : Int) :
    Stands a (St.temporalSlice ⟨h, o.lgm a⟩ r ti tj).1 (o.temporalSlice r ti tj).1 ∧
      (St.temporalSlice ⟨h, o.lgm a⟩ r ti tj).2.map Ret.lgm = (o.temporalSlice r ti tj).2.map (OneRet.ret a) := by
  unfold St.temporalSlice OneDoc.temporalSlice
  rw [hf.versions.isContinuous]
  dsimp only
  by_cases ht : tj < ti
  · rw [if_pos ht, if_pos ht]
    exact ⟨⟨⟨F, hr⟩, rfl⟩, rfl⟩
  · rw [if_neg ht, if_neg ht, sortedKeys_lgm]
    have h0 : o.holds 0 = true := by unfold OneDoc.holds; rw [hf.first]; rfl
    cases hL : getLatestTimestamp o.doc with
    | none =>
      rw [windowSnaps_none _ ⟨0, mem_sortedKeys.2 hf.zero, by rw [one_latestOf hr, if_pos h0, hL]⟩]
      exact ⟨⟨⟨F, hr⟩, rfl⟩, rfl⟩
    | some lts =>
      dsimp only
      by_cases ha : (o.snaps.all fun x => x.2) = true
      · rw [if_pos ha]
        have hall : ∀ v ∈ sortedKeys o.snaps, St.latestOf ⟨h, o.lgm a⟩ v = some lts ∧ (o.lgm a).snap v = .obj a := by
          intro v hv
          have := holds_all ha (mem_sortedKeys.1 hv)
          exact ⟨by rw [one_latestOf hr, if_pos this, hL], by rw [lgm_snap, this]; rfl⟩
        rw [windowSnaps_all _ hall]
        rw [hf.versions.sortedKeys, windowPatches_only]
        have hp : (o.lgm a).patches = o.patches := rfl
        rw [hp]
        by_cases hw : ti ≤ lts ∧ lts ≤ tj
        · have hne : ((sortedKeys o.snaps).map fun v => (v, HVal.obj a)) ≠ [] := by
            obtain ⟨l, hl⟩ := sortedKeys_zero hf.zero
            rw [hl]; simp
          simp only [if_pos hw, if_neg hne]
          refine ⟨⟨⟨F, hr⟩, rfl⟩, ?_⟩
          simp only [Res.map, OneRet.ret, List.map_map]
          rfl
        · simp only [if_neg hw, if_true]
          cases hV : (windowPatches (onlyPatches o.patches) ti tj (List.range' 1 o.last)).1 with
          | nil => exact ⟨⟨⟨F, hr⟩, rfl⟩, rfl⟩
          | cons start vs =>
            dsimp only
            obtain ⟨h1, h2⟩ := one_temporalSnapshot hr hf r ti
            rcases hS : St.temporalSnapshot ⟨h, o.lgm a⟩ r ti with ⟨s', w⟩
            rcases hO : o.temporalSnapshot r ti with ⟨o', w'⟩
            rw [hS, hO] at h1 h2
            simp only at h1 h2
            subst h2
            cases w' <;> exact ⟨h1, rfl⟩
      · rw [if_neg ha]
        have hn : ∃ v ∈ sortedKeys o.snaps, St.latestOf ⟨h, o.lgm a⟩ v = none := by
          rw [holds_all_iff hf.once] at ha
          refine Classical.byContradiction fun hc => ha fun v hv => ?_
          refine Classical.byContradiction fun hc' => hc ⟨v, mem_sortedKeys.2 hv, ?_⟩
          rw [one_latestOf hr, if_neg hc']
        rw [windowSnaps_none _ hn]
        exact ⟨⟨⟨F, hr⟩, rfl⟩, rfl⟩

/-! ### The log alone -/

theorem one_track {a : Nat} {h : Heap} {o : OneDoc} {F} (hr : Rep h (.obj a) o.doc F) (hf : Fine a o) (vi vj : Nat) :
    Stands a (step ⟨h, o.lgm a⟩ (.track vi vj)).1 (o.track vi vj).1 ∧
      (step ⟨h, o.lgm a⟩ (.track vi vj)).2 = (o.track vi vj).2.map (OneRet.ret a) := by
  simp only [step, St.onLgm]
  unfold Lgm.track OneDoc.track
  rw [hf.versions.checkRange]
  by_cases hc : vi ≤ vj ∧ vj ≤ o.last
  · simp only [hc, and_self, decide_true, if_true]
    have hp : (o.lgm a).patches = o.patches := rfl
    rw [hp]
    rcases compactVersions (fun _ => .compare) [] o.patches (sortNat (mkeys (restrict o.patches [] vi vj))) with ⟨ps, b⟩
    cases b <;> exact ⟨⟨⟨F, hr⟩, rfl⟩, rfl⟩
  · simp only [hc, decide_false, if_false]
    exact ⟨⟨⟨F, hr⟩, rfl⟩, rfl⟩

theorem one_temporalTrack {a : Nat} {h : Heap} {o : OneDoc} {F} (hr : Rep h (.obj a) o.doc F) (hf : Fine a o)
    (ti tj : Int) :
    Stands a (step ⟨h, o.lgm a⟩ (.temporalTrack ti tj)).1 o ∧
      (step ⟨h, o.lgm a⟩ (.temporalTrack ti tj)).2 = (o.temporalTrack ti tj).map (OneRet.ret a) := by
  simp only [step, St.onLgm]
  unfold Lgm.temporalTrack OneDoc.temporalTrack
  by_cases ht : tj < ti
  · rw [if_pos ht, if_pos ht]
    exact ⟨⟨⟨F, hr⟩, rfl⟩, rfl⟩
  · rw [if_neg ht, if_neg ht, hf.versions.sortedKeys, trackVersions_only]
    have hp : (o.lgm a).patches = o.patches := rfl
    rw [hp]
    cases trackVersions (onlyPatches o.patches) (selWindow ti tj) [] (List.range' 1 o.last) <;>
      exact ⟨⟨⟨F, hr⟩, rfl⟩, rfl⟩

theorem one_compact {a : Nat} {o : OneDoc} (hf : Fine a o) (pre : Bytes) :
    (o.lgm a).compact pre = ((o.compact pre).1.lgm a, (o.compact pre).2) := by
  unfold Lgm.compact OneDoc.compact
  rw [hf.versions.isContinuous]
  dsimp only
  rw [hf.versions.sortedKeys]
  have hp : (o.lgm a).patches = o.patches := rfl
  rw [hp]
  rcases compactVersions (selPrefix pre) [] o.patches (List.range' 1 o.last) with ⟨ps, b⟩
  cases b <;> rfl

theorem one_history {a : Nat} {h : Heap} {o : OneDoc} {F} (hr : Rep h (.obj a) o.doc F) (hf : Fine a o)
    (r : Oracle) (pre : Bytes) :
    Stands a (step ⟨h, o.lgm a⟩ (.history r pre)).1 (o.history r pre).1 ∧
      (step ⟨h, o.lgm a⟩ (.history r pre)).2 = (o.history r pre).2.map (OneRet.ret a) := by
  simp only [step]
  unfold St.history OneDoc.history
  rw [hf.versions.isContinuous]
  dsimp only
  rw [one_compact hf]
  have hd : (o.compact pre).1.doc = o.doc := rfl
  have hh : (o.compact pre).1.holds 0 = true := by
    have : (o.compact pre).1.holds 0 = o.holds 0 := rfl
    rw [this]; unfold OneDoc.holds; rw [hf.first]; rfl
  rcases hC : o.compact pre with ⟨o', w⟩
  rw [hC] at hd hh
  simp only at hd hh
  have hr' : Rep h (.obj a) o'.doc F := by rw [hd]; exact hr
  cases w with
  | ok u =>
    dsimp only
    have hp : (o'.lgm a).patches = o'.patches := rfl
    rw [hp, lgm_snap, hh, view_ref hr']
    by_cases he : collectPatches pre [] (r.orderPatches o'.patches) = []
    · rw [if_pos he, he]
      exact ⟨⟨⟨F, hr'⟩, rfl⟩, rfl⟩
    · rw [if_neg he]
      simp only [if_true]
      cases addInitial o'.doc (collectPatches pre [] (r.orderPatches o'.patches)) <;>
        exact ⟨⟨⟨F, hr'⟩, rfl⟩, rfl⟩
  | err => exact ⟨⟨⟨F, hr'⟩, rfl⟩, rfl⟩
  | panic => exact ⟨⟨⟨F, hr'⟩, rfl⟩, rfl⟩

/-! ### All calls -/

theorem map_doc (a : Nat) (r : Res Bool) :
    (r.map (refTo a)).map Ret.doc = (r.map OneRet.doc).map (OneRet.ret a) := by cases r <;> rfl

theorem one_step {a : Nat} {s : St} {o : OneDoc} (hs : Stands a s o) (hf : Fine a o) {c : Call}
    (hc : c.own = true) :
    Stands a (step s c).1 (o.step c).1 ∧ (step s c).2 = (o.step c).2.map (OneRet.ret a) := by
  obtain ⟨h, g⟩ := s
  obtain ⟨⟨F, hr⟩, rfl⟩ := hs
  have hr : Rep h (.obj a) o.doc F := hr
  cases c with
  | store x => exact one_store hr x
  | append => exact one_append hr hf
  | set vk op => exact one_set hr vk op
  | testSet vk op => exact one_testSet hr hf vk op
  | snapshot v =>
    obtain ⟨h1, h2⟩ := one_snapshot hr hf v
    simp only [step, OneDoc.step]
    exact ⟨h1, by rw [h2]; exact map_doc a _⟩
  | temporalSnapshot r t =>
    obtain ⟨h1, h2⟩ := one_temporalSnapshot hr hf r t
    simp only [step, OneDoc.step]
    exact ⟨h1, by rw [h2]; exact map_doc a _⟩
  | slice vi vj => exact one_slice hr hf vi vj
  | temporalSlice r ti tj => exact one_temporalSlice hr hf r ti tj
  | track vi vj => exact one_track hr hf vi vj
  | temporalTrack ti tj => exact one_temporalTrack hr hf ti tj
  | compact pre =>
    simp only [step, St.onLgm, OneDoc.step, one_compact hf]
    exact ⟨⟨⟨F, hr⟩, rfl⟩, by cases (o.compact pre).2 <;> rfl⟩
  | history r pre => exact one_history hr hf r pre
  | environment h' => simp [Call.own] at hc

theorem refTo_inj {a : Nat} {b : Bool} (h : refTo a b = .obj a) : b = true := by
  cases b <;> simp [refTo] at h ⊢

theorem one_fine {a : Nat} {s : St} {o o' : OneDoc} (hs : Stands a s o) (hf : Fine a o) {c : Call}
    (hs' : Stands a (step s c).1 o') : Fine a o' := by
  have hv : s.lgm.Versions o.last := by rw [hs.2]; exact hf.versions
  obtain ⟨m, hm⟩ := step_versions hv c
  have hk := step_snapsOk hv (by rw [hs.2]; exact hf.snaps) c
  have h0 : mget s.lgm.snaps 0 = some (.obj a) := by
    rw [hs.2]
    change mget (o.snaps.map fun x => (x.1, refTo a x.2)) 0 = _
    rw [mget_refs, hf.first]; rfl
  have h1 := step_snaps hv c h0
  rw [hs'.2] at hm hk h1
  have : o'.last = m := by
    have h1 : List.range (o'.last + 1) = List.range (m + 1) := hm.1
    have := congrArg List.length h1
    simpa using this
  refine ⟨by rw [this]; exact hm, hk, ?_⟩
  have h1 : mget (o'.snaps.map fun x => (x.1, refTo a x.2)) 0 = _ := h1
  rw [mget_refs] at h1
  cases hg : mget o'.snaps 0 with
  | none => rw [hg] at h1; simp at h1
  | some b =>
    rw [hg] at h1
    simp only [Option.map_some, Option.some.injEq] at h1
    rw [refTo_inj h1]

theorem one_run {a : Nat} (cs : List Call) : ∀ {s : St} {o : OneDoc}, Stands a s o → Fine a o →
    (∀ c ∈ cs, c.own = true) → Stands a (run s cs) (o.run cs) ∧ Fine a (o.run cs) := by
  induction cs with
  | nil => intro s o hs hf _; exact ⟨hs, hf⟩
  | cons c cs ih =>
    intro s o hs hf hc
    have h1 := (one_step hs hf (hc c (by simp))).1
    exact ih h1 (one_fine hs hf h1) fun c hc' => hc c (by simp [hc'])

theorem one_new (h : Heap) {m : List (Bytes × Tson)} (hw : (Tson.obj m).Wf) (ia : Option StoreArg) :
    ∃ a, Stands a (newLogument h (.obj m) ia).1 (OneDoc.new (.obj m) ia) ∧ Fine a (OneDoc.new (.obj m) ia) := by
  obtain ⟨a, ha⟩ := store_obj h m
  obtain ⟨-, F, hF, -⟩ := store_rep h (.obj m) hw
  rw [ha] at hF
  refine ⟨a, ?_⟩
  let o : OneDoc := ⟨.obj m, true, [(0, true)], 0, [], none⟩
  have hs : Stands a ⟨(h.store (.obj m)).1, o.lgm a⟩ o := ⟨⟨F, hF⟩, rfl⟩
  have hf : Fine a o := ⟨⟨rfl, by simp [o, OneDoc.lgm, mkeys], by simp [o, OneDoc.lgm, mkeys]; omega⟩,
    ⟨by simp [o, OneDoc.lgm, mkeys], by simp [o, OneDoc.lgm, mkeys], by simp [o, OneDoc.lgm, mkeys]⟩, rfl⟩
  have hg : (Lgm.mk [0] (h.store (.obj m)).2 [(0, (h.store (.obj m)).2)] [] none) = o.lgm a := by rw [ha]; rfl
  cases ia with
  | none =>
    unfold newLogument OneDoc.new
    dsimp only
    rw [hg]; exact ⟨hs, hf⟩
  | some x =>
    have h1 := (one_step hs hf (c := .store x) rfl).1
    have h2 := one_fine hs hf h1
    have h3 : (newLogument h (.obj m) (some x)).1 = (step ⟨(h.store (.obj m)).1, o.lgm a⟩ (.store x)).1 := by
      unfold newLogument
      dsimp only
      rw [hg]; rfl
    rw [h3]
    exact ⟨h1, h2⟩

/-- C94: for every well-formed object document, every heap and every history of calls on the logument, the
logument is a machine with a single document.  The current state and all stored snapshots are that document or
nil, exactly as the machine says; the document is the machine's; and every further call returns what the machine
returns, in success, error and panic alike. -/
theorem C94_one_document (h : Heap) {m : List (Bytes × Tson)} (hw : (Tson.obj m).Wf) (ia : Option StoreArg) :
    ∃ a, ∀ cs : List Call, (∀ c ∈ cs, c.own = true) →
      (run (newLogument h (.obj m) ia).1 cs).lgm = ((OneDoc.new (.obj m) ia).run cs).lgm a ∧
      (run (newLogument h (.obj m) ia).1 cs).heap.view (.obj a) = some ((OneDoc.new (.obj m) ia).run cs).doc ∧
      ∀ c : Call, c.own = true →
        (step (run (newLogument h (.obj m) ia).1 cs) c).2 =
          (((OneDoc.new (.obj m) ia).run cs).step c).2.map (OneRet.ret a) := by
  obtain ⟨a, hs, hf⟩ := one_new h hw ia
  refine ⟨a, fun cs hcs => ?_⟩
  obtain ⟨h1, h2⟩ := one_run cs hs hf hcs
  obtain ⟨F, hF⟩ := h1.1
  exact ⟨h1.2, hF.view, fun c hc => (one_step h1 h2 hc).2⟩

/-- What a logument does depends on its document, not on where the document lies: two loguments made from the
same document on different heaps give the same results for the same calls, up to the address of the document. -/
theorem C94_anywhere (h h' : Heap) {m : List (Bytes × Tson)} (hw : (Tson.obj m).Wf) (ia : Option StoreArg) :
    ∃ a a', ∀ cs : List Call, (∀ c ∈ cs, c.own = true) →
      (run (newLogument h (.obj m) ia).1 cs).heap.view (.obj a) =
        (run (newLogument h' (.obj m) ia).1 cs).heap.view (.obj a') ∧
      ∀ c : Call, c.own = true → ∃ r : Res OneRet,
        (step (run (newLogument h (.obj m) ia).1 cs) c).2 = r.map (OneRet.ret a) ∧
        (step (run (newLogument h' (.obj m) ia).1 cs) c).2 = r.map (OneRet.ret a') := by
  obtain ⟨a, ha⟩ := C94_one_document h hw ia
  obtain ⟨a', ha'⟩ := C94_one_document h' hw ia
  refine ⟨a, a', fun cs hcs => ?_⟩
  obtain ⟨-, h2, h3⟩ := ha cs hcs
  obtain ⟨-, h2', h3'⟩ := ha' cs hcs
  exact ⟨by rw [h2, h2'], fun c hc => ⟨_, h3 c hc, h3' c hc⟩⟩

/-! ### Only given operations are applied -/

/-- All the operations a call brings satisfy `P`. -/
def Call.Gives (P : Op → Prop) : Call → Prop
  | .store a => ∀ l, a.resolve = .ok (some l) → ∀ op ∈ l, P op
  | .set _ op => P op
  | .testSet _ op => P op ∧ P { op with kind := .add }
  | _ => True

/-- All the operations of the log satisfy `P`. -/
def LogOf (P : Op → Prop) (o : OneDoc) : Prop :=
  (∀ l, o.pool = some l → ∀ op ∈ l, P op) ∧ ∀ x ∈ o.patches, ∀ op ∈ x.2, P op

theorem mset_ops_all {P : Op → Prop} {m : List (Nat × List Op)} (hm : ∀ x ∈ m, ∀ op ∈ x.2, P op) (v : Nat) {l : List Op}
    (hl : ∀ op ∈ l, P op) : ∀ x ∈ mset m v l, ∀ op ∈ x.2, P op := by
  induction m with
  | nil =>
    intro x hx
    simp only [mset, List.mem_singleton] at hx
    subst hx; exact hl
  | cons y m ih =>
    obtain ⟨k, q⟩ := y
    simp only [mset]
    split
    · intro x hx
      rcases List.mem_cons.1 hx with rfl | hx
      · exact hl
      · exact hm x (by simp [hx])
    · intro x hx
      rcases List.mem_cons.1 hx with rfl | hx
      · exact hm _ (by simp)
      · exact ih (fun x hx => hm x (by simp [hx])) x hx

theorem getD_all {P : Op → Prop} {m : List (Nat × List Op)} (hm : ∀ x ∈ m, ∀ op ∈ x.2, P op) (v : Nat) :
    ∀ op ∈ (mget m v).getD [], P op := by
  cases hv : mget m v with
  | none => simp
  | some l => exact hm _ (mget_mem hv)

theorem compactOps_all {P : Op → Prop} (sel : Op → Sel) (ops : List Op) : ∀ {latest out lat},
    (∀ op ∈ ops, P op) → compactOps sel latest ops = some (out, lat) → ∀ op ∈ out, P op := by
  induction ops with
  | nil => intro latest out lat _ h; simp only [compactOps, Option.some.injEq, Prod.mk.injEq] at h; simp [← h.1]
  | cons p ops ih =>
    intro latest out lat hP h
    have hP' : ∀ op ∈ ops, P op := fun op hop => hP op (by simp [hop])
    have hk : ∀ {lt}, (compactOps sel lt ops).map (fun r => (p :: r.1, r.2)) = some (out, lat) →
        ∀ op ∈ out, P op := by
      intro lt h
      cases hc : compactOps sel lt ops with
      | none => rw [hc] at h; simp at h
      | some r =>
        rw [hc] at h
        simp only [Option.map_some, Option.some.injEq, Prod.mk.injEq] at h
        obtain ⟨rfl, -⟩ := h
        intro op hop
        rcases List.mem_cons.1 hop with rfl | hop
        · exact hP _ (by simp)
        · exact ih hP' (out := r.1) (lat := r.2) hc op hop
    simp only [compactOps] at h
    split at h
    · exact ih hP' h
    · exact hk h
    · split at h
      · exact hk h
      · split at h
        · simp at h
        · exact ih hP' h
        · exact hk h

theorem compactVersions_all {P : Op → Prop} (sel : Op → Sel) (vs : List Nat) : ∀ {latest} {m : List (Nat × List Op)},
    (∀ x ∈ m, ∀ op ∈ x.2, P op) → ∀ x ∈ (compactVersions sel latest m vs).1, ∀ op ∈ x.2, P op := by
  induction vs with
  | nil => intro latest m hm; exact hm
  | cons v vs ih =>
    intro latest m hm
    simp only [compactVersions]
    cases hc : compactOps sel latest ((mget m v).getD []) with
    | none => exact hm
    | some r =>
      obtain ⟨ps, lat⟩ := r
      exact ih (mset_ops_all hm v (compactOps_all sel _ (getD_all hm v) hc))

theorem pickLatest_all {P : Op → Prop} (t : Int) (ops : List Op) : ∀ {m : List (Bytes × Op)},
    (∀ x ∈ m, P x.2) → (∀ op ∈ ops, P op) → ∀ x ∈ pickLatest t m ops, P x.2 := by
  induction ops with
  | nil => intro m hm _; exact hm
  | cons p ops ih =>
    intro m hm hP
    have hP' : ∀ op ∈ ops, P op := fun op hop => hP op (by simp [hop])
    have hset : ∀ x ∈ mset m p.path p, P x.2 := by
      clear ih hP'
      induction m with
      | nil =>
        intro x hx
        simp only [mset, List.mem_singleton] at hx
        subst hx; exact hP _ (by simp)
      | cons y m ihm =>
        intro x hx
        simp only [mset] at hx
        split at hx
        · rcases List.mem_cons.1 hx with rfl | hx
          · exact hP _ (by simp)
          · exact hm x (by simp [hx])
        · rcases List.mem_cons.1 hx with rfl | hx
          · exact hm _ (by simp)
          · exact ihm (fun x hx => hm x (by simp [hx])) x hx
    simp only [pickLatest]
    split
    · split
      · exact ih hset hP'
      · split
        · exact ih hset hP'
        · exact ih hm hP'
    · exact ih hm hP'

theorem OneDoc.append_all {P : Op → Prop} {o : OneDoc} (h : LogOf P o) :
    LogOf P o.append ∧ o.append.doc = o.doc := by
  unfold OneDoc.append
  cases hp : o.pool with
  | none => exact ⟨h, rfl⟩
  | some p =>
    refine ⟨⟨by simp, fun x hx => ?_⟩, rfl⟩
    rcases List.mem_append.1 hx with hx | hx
    · exact h.2 x hx
    · simp only [List.mem_singleton] at hx
      subst hx
      exact h.1 p hp

/-- The document after a call is the document before with operations satisfying `P` applied, and these are still
the only operations in the log. -/
def Applies (P : Op → Prop) (o o' : OneDoc) : Prop :=
  LogOf P o' ∧ ∃ l, (∀ op ∈ l, P op) ∧ o'.doc = (applyPatchT o.doc l).1

theorem Applies.none {P : Op → Prop} {o o' : OneDoc} (h : LogOf P o') (hd : o'.doc = o.doc) : Applies P o o' :=
  ⟨h, [], by simp, hd⟩

theorem applyPatchT_one (t : Tson) (op : Op) : (applyPatchT t [op]).1 = (applyOpT t op).1 := by
  simp only [applyPatchT]
  rcases applyOpT t op with ⟨t', r⟩
  cases r <;> rfl

theorem set_applies {P : Op → Prop} {o : OneDoc} (h : LogOf P o) {op : Op} (hp : P op) : Applies P o (o.set op).1 := by
  have hd := applyPatchT_one o.doc op
  unfold OneDoc.set
  split
  · split
    · rcases hT : applyOpT o.doc op with ⟨t, r⟩
      rw [hT] at hd
      have hw : ∀ op' ∈ [op], P op' := by simpa using hp
      cases r with
      | ok u =>
        refine ⟨⟨?_, h.2⟩, [op], hw, hd.symm⟩
        intro l hl op' hop
        simp only [Option.some.injEq] at hl
        subst hl
        rcases List.mem_append.1 hop with hop | hop
        · cases hq : o.pool with
          | none => rw [hq] at hop; simp at hop
          | some q => rw [hq] at hop; exact h.1 q hq op' hop
        · exact hw op' hop
      | err => exact ⟨h, [op], hw, hd.symm⟩
      | panic => exact ⟨h, [op], hw, hd.symm⟩
    · exact .none h rfl
  · exact .none h rfl

theorem snapshot_applies {P : Op → Prop} {o : OneDoc} (h : LogOf P o) (v : Nat) : Applies P o (o.snapshot v).1 := by
  unfold OneDoc.snapshot
  dsimp only
  split
  · exact .none h rfl
  · split
    · exact .none h rfl
    · split
      · have hl : ∀ op ∈ (List.range' (greatest ((mkeys o.snaps).filter fun x => decide (x ≤ v)) + 1)
            (v - greatest ((mkeys o.snaps).filter fun x => decide (x ≤ v)))).flatMap o.ops, P op := by
          intro op hop
          obtain ⟨i, -, hi⟩ := List.mem_flatMap.1 hop
          exact getD_all h.2 i op hi
        split
        · rename_i t _ hT
          exact ⟨h, _, hl, by rw [hT]⟩
        · rename_i t _ _ hT
          exact ⟨h, _, hl, by rw [hT]⟩
      · split
        · exact .none h rfl
        · exact .none h rfl

theorem temporal_applies {P : Op → Prop} {o : OneDoc} (h : LogOf P o) (r : Oracle) (t : Int) :
    Applies P o (o.temporalSnapshot r t).1 := by
  unfold OneDoc.temporalSnapshot
  split
  · exact .none h rfl
  · rename_i v _
    split
    · exact .none h rfl
    · obtain ⟨h1, h2⟩ := OneDoc.append_all h
      have h1 : LogOf P (if o.last ≤ v then o.append else o) := by split <;> assumption
      have h2 : (if o.last ≤ v then o.append else o).doc = o.doc := by
        split
        · exact h2
        · rfl
      dsimp only
      generalize (if o.last ≤ v then o.append else o) = o' at h1 h2 ⊢
      have hs : ∀ op ∈ r.sortOps (o'.ops (v + 1)), P op := fun op hop =>
        getD_all h1.2 (v + 1) op ((r.sortOps_perm _).mem_iff.1 hop)
      have hc : ∀ op ∈ (r.orderOps (pickLatest t [] (r.sortOps (o'.ops (v + 1))))).map Prod.snd, P op := by
        intro op hop
        obtain ⟨x, hx, rfl⟩ := List.mem_map.1 hop
        exact pickLatest_all t _ (by simp) hs x ((r.orderOps_perm _).mem_iff.1 hx)
      have hl := mset_ops_all h1.2 (v + 1) hs
      split
      · rename_i hT
        exact ⟨⟨h1.1, hl⟩, _, hc, by rw [← h2, hT]⟩
      · rename_i hT
        exact ⟨⟨h1.1, hl⟩, _, hc, by rw [← h2, hT]⟩

theorem step_applies {P : Op → Prop} {o : OneDoc} (h : LogOf P o) {c : Call} (hc : c.Gives P) :
    Applies P o (o.step c).1 := by
  cases c with
  | store a =>
    simp only [OneDoc.step, OneDoc.store]
    cases hr : a.resolve with
    | err => exact .none h rfl
    | panic => exact .none h rfl
    | ok p =>
      refine .none ⟨?_, h.2⟩ rfl
      have hp : ∀ op ∈ p.getD [], P op := by
        cases p with
        | none => simp
        | some l => exact hc l hr
      cases hq : o.pool with
      | none => intro l hl; dsimp only at hl; subst hl; exact hc l hr
      | some q =>
        intro l hl op hop
        simp only [Option.some.injEq] at hl
        subst hl
        rcases List.mem_append.1 hop with hop | hop
        · exact h.1 q hq op hop
        · exact hp op hop
  | append => exact .none (OneDoc.append_all h).1 (OneDoc.append_all h).2
  | set vk op => exact set_applies h hc
  | testSet vk op =>
    simp only [OneDoc.step, OneDoc.testSet]
    split
    · split
      · exact .none h rfl
      · exact set_applies h hc.2
      · split
        · exact .none h rfl
        · exact set_applies h hc.1
    · exact set_applies h hc.1
  | snapshot v => exact snapshot_applies h v
  | temporalSnapshot r t => exact temporal_applies h r t
  | slice vi vj =>
    have hs := snapshot_applies h vi
    simp only [OneDoc.step, OneDoc.slice]
    split
    · split
      · rcases hS : o.snapshot vi with ⟨o', w⟩
        rw [hS] at hs
        cases w <;> exact hs
      · exact .none h rfl
    · exact .none h rfl
  | temporalSlice r ti tj =>
    have hs := temporal_applies h r ti
    simp only [OneDoc.step, OneDoc.temporalSlice]
    split
    · exact .none h rfl
    · split
      · exact .none h rfl
      · split
        · split
          · exact .none h rfl
          · split
            · exact .none h rfl
            · rcases hS : o.temporalSnapshot r ti with ⟨o', w⟩
              rw [hS] at hs
              cases w <;> exact hs
        · exact .none h rfl
  | track vi vj =>
    simp only [OneDoc.step, OneDoc.track]
    split
    · exact .none ⟨h.1, compactVersions_all _ _ h.2⟩ rfl
    · exact .none h rfl
  | temporalTrack ti tj => exact .none h rfl
  | compact pre => exact .none ⟨h.1, compactVersions_all _ _ h.2⟩ rfl
  | history r pre =>
    have h' : LogOf P (o.compact pre).1 := ⟨h.1, compactVersions_all _ _ h.2⟩
    have hd : (o.compact pre).1.doc = o.doc := rfl
    simp only [OneDoc.step, OneDoc.history]
    rcases hC : o.compact pre with ⟨o', w⟩
    rw [hC] at h' hd
    cases w <;> exact .none h' hd
  | environment h' => exact .none h rfl

/-- The document with batches of operations applied one after the other; a batch stops at its first failing
operation, which may already have changed the document. -/
def applyBatches (t : Tson) (bs : List (List Op)) : Tson := bs.foldl (fun t l => (applyPatchT t l).1) t

theorem run_applies {P : Op → Prop} (cs : List Call) : ∀ {o : OneDoc}, LogOf P o → (∀ c ∈ cs, c.Gives P) →
    ∃ bs, (∀ l ∈ bs, ∀ op ∈ l, P op) ∧ (o.run cs).doc = applyBatches o.doc bs := by
  induction cs with
  | nil => intro o _ _; exact ⟨[], by simp, rfl⟩
  | cons c cs ih =>
    intro o h hc
    obtain ⟨h1, l, hl, hd⟩ := step_applies h (hc c (by simp))
    obtain ⟨bs, hb, he⟩ := ih h1 fun c hc' => hc c (by simp [hc'])
    refine ⟨l :: bs, ?_, ?_⟩
    · intro l' hl'
      rcases List.mem_cons.1 hl' with rfl | hl'
      · exact hl
      · exact hb l' hl'
    · change (OneDoc.run (o.step c).1 cs).doc = applyBatches (applyPatchT o.doc l).1 bs
      rw [he, hd]

/-- C94: the document is at all times the initial one with operations applied that the caller has given: stored
(at the start or later) or set; `TestSet` may turn a replacement into an addition.  The calls make up nothing. -/
theorem C94_only_given (h : Heap) {m : List (Bytes × Tson)} (hw : (Tson.obj m).Wf) (ia : Option StoreArg)
    (P : Op → Prop) (hia : ∀ x, ia = some x → (Call.store x).Gives P) :
    ∃ a, ∀ cs : List Call, (∀ c ∈ cs, c.own = true ∧ c.Gives P) →
      ∃ bs : List (List Op), (∀ l ∈ bs, ∀ op ∈ l, P op) ∧
        (run (newLogument h (.obj m) ia).1 cs).heap.view (.obj a) = some (applyBatches (.obj m) bs) ∧
        ∀ v d, mget (run (newLogument h (.obj m) ia).1 cs).lgm.snaps v = some d → d = .obj a ∨ d = .null := by
  obtain ⟨a, ha⟩ := C94_one_document h hw ia
  refine ⟨a, fun cs hcs => ?_⟩
  obtain ⟨h1, h2, -⟩ := ha cs fun c hc => (hcs c hc).1
  have h0 : LogOf P (OneDoc.new (.obj m) ia) ∧ (OneDoc.new (.obj m) ia).doc = .obj m := by
    have hb : LogOf P ⟨.obj m, true, [(0, true)], 0, [], none⟩ := ⟨by simp, by simp⟩
    cases ia with
    | none => exact ⟨hb, rfl⟩
    | some x =>
      have := step_applies hb (hia x rfl)
      refine ⟨this.1, ?_⟩
      simp only [OneDoc.new, OneDoc.store]
      cases x.resolve <;> rfl
  obtain ⟨bs, hb, he⟩ := run_applies cs h0.1 fun c hc => (hcs c hc).2
  refine ⟨bs, hb, by rw [h2, he, h0.2], ?_⟩
  intro v d hd
  rw [h1] at hd
  have hd : mget (((OneDoc.new (.obj m) ia).run cs).snaps.map fun x => (x.1, refTo a x.2)) v = some d := hd
  rw [mget_refs] at hd
  cases hg : mget ((OneDoc.new (.obj m) ia).run cs).snaps v with
  | none => rw [hg] at hd; simp at hd
  | some b =>
    rw [hg] at hd
    simp only [Option.map_some, Option.some.injEq] at hd
    subst hd
    cases b
    · exact Or.inr rfl
    · exact Or.inl rfl

/-! ### Examples -/

/-- The calls of the example log, then snapshots of version 2 and of version 1. -/
def demoCalls : List Call :=
  [.store (.patch (some [demoOp b!"a" false 5, demoOp b!"b/d" true 6])), .append,
   .store (.op (demoOp b!"a" true 9)), .append, .snapshot 2, .store (.patch (some [])), .append]

example : (Tson.obj [(b!"a", .leaf (.bool true) 1), (b!"b", .obj [(b!"c", .leaf (.str b!"x") 2)])]).Wf ∧
    ∀ c ∈ demoCalls, c.own = true := by
  refine ⟨by simp [Tson.Wf, Tson.WfF, mkeys], by decide⟩

/-- The machine after these calls: the document is the one of version 2. -/
example : ((OneDoc.new demoDoc none).run demoCalls).doc =
    .obj [(b!"a", .leaf (.bool true) 9), (b!"b", .obj [(b!"c", .leaf (.str b!"x") 2), (b!"d", .leaf (.bool true) 6)])] ∧
    ((OneDoc.new demoDoc none).run demoCalls).snaps = [(0, true), (2, true)] ∧
    ((OneDoc.new demoDoc none).run demoCalls).last = 3 := by decide

/-- A snapshot of version 1 then hands out the document, changed; one of version 3, without operations, nil. -/
example : (((OneDoc.new demoDoc none).run demoCalls).snapshot 1).2 = .ok true ∧
    getValue (((OneDoc.new demoDoc none).run demoCalls).snapshot 1).1.doc b!"/a" = .ok (.leaf (.bool false) 5) ∧
    (((OneDoc.new demoDoc none).run demoCalls).snapshot 3).2 = .ok false ∧
    (((OneDoc.new demoDoc none).run demoCalls).snapshot 4).2 = .panic := by decide

/-- Operations on `a` and below `b` were given; they are the only ones applied. -/
example : ∀ c ∈ demoCalls, c.own = true ∧ c.Gives fun op => op.path = b!"a" ∨ op.path = b!"b/d" := by
  intro c hc
  simp only [demoCalls, List.mem_cons, List.not_mem_nil, or_false] at hc
  rcases hc with rfl | rfl | rfl | rfl | rfl | rfl | rfl <;>
    simp [Call.own, Call.Gives, StoreArg.resolve, demoOp]

end Verif
