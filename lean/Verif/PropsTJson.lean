import Verif.TJsonLemmas
/-
Properties C48-C54: the TJSON store of the experiments.
-/
namespace Verif

/-! ### C48: periods as texts -/

/-- **C48.**  Within `int64`, a period is read back from its text exactly if neither bound is negative. -/
theorem C48_period_partial {s e : Int} (hs : s ≤ maxInt64) (he : e ≤ maxInt64) :
    parsePeriod (fmtPeriod s e) = (s, e) ↔ 0 ≤ s ∧ 0 ≤ e := by
  constructor
  · intro h
    by_cases hn : s < 0 ∨ e < 0
    · rw [parse_fmt_neg hn] at h
      simp only [Prod.mk.injEq] at h; omega
    · omega
  · exact fun h => parse_fmt h.1 h.2 hs he

example : parsePeriod (fmtPeriod 17 9000) = (17, 9000) := (C48_period_partial (by decide) (by decide)).2 (by decide)

/-- **C48, refuted in general.**  A period with a negative bound is read as the period from 0 to 0, so that a value that was
valid only before time 0 is reported as valid at time 0. -/
theorem C48_negative_fails {s e : Int} (h : s < 0 ∨ e < 0) :
    parsePeriod (fmtPeriod s e) = (0, 0) ∧ ∀ v, Covers ⟨fmtPeriod s e, v⟩ 0 := by
  have := parse_fmt_neg h
  exact ⟨this, fun v => by simp [Covers, this]⟩

example : Covers ⟨fmtPeriod (-9) (-4), .null⟩ 0 := (C48_negative_fails (by decide)).2 _

/-! ### C49: AddItem -/

/-- **C49.**  `AddItem` with a path of at least two segments adds one version, with the period and the value, at the end of
the versions of that path, and changes the versions of no other path. -/
theorem C49_add_partial (d : TDoc) (path : Bytes) (s e : Int) (v : Js) (h : bDot ∈ path) (ks : List Bytes) :
    versionsAt (tAddItem d path s e v) ks =
      versionsAt d ks ++ if ks = split bDot path then [⟨fmtPeriod s e, v⟩] else [] := by
  rw [versionsAt_addItem]
  have hl : 2 ≤ (split bDot path).length := by
    rw [split_length]; have := List.count_pos_iff.2 h; omega
  by_cases hk : ks = split bDot path
  · subst hk; simp [hl]
  · simp [hk]

example : versionsAt (tAddItem [] b!"a.b" 1 2 (.bool true)) [b!"a", b!"b"] = [⟨b!"1-2", .bool true⟩] := by rfl

/-- **C49, refuted for paths of one segment.**  The value is not recorded anywhere. -/
theorem C49_single_fails (d : TDoc) (path : Bytes) (s e : Int) (v : Js) (h : bDot ∉ path) (ks : List Bytes) :
    versionsAt (tAddItem d path s e v) ks = versionsAt d ks := by
  rw [versionsAt_addItem, split_of_not_mem _ _ h]
  have : ¬ (ks = [path] ∧ 2 ≤ ks.length) := by rintro ⟨rfl, h⟩; simp at h
  rw [if_neg this, List.append_nil]

/-- **C49.**  Items are never lost: after `AddItem` the path, all its prefixes and everything that existed exist. -/
theorem C49_exists (d : TDoc) (path : Bytes) (s e : Int) (v : Js) (h : bDot ∈ path) :
    (tItemAt (tAddItem d path s e v) (split bDot path)).isSome = true := by
  have := C49_add_partial d path s e v h (split bDot path)
  simp only [if_true, versionsAt] at this
  cases hi : tItemAt (tAddItem d path s e v) (split bDot path) with
  | some it => rfl
  | none => rw [hi] at this; simp at this

/-! ### C50: TemporalTrack -/

/-- **C50.**  `TemporalTrack` is an error exactly if there is no item for the path.  Otherwise it returns the versions of
the path whose period meets the window, each as often as recorded, in the order of their starts. -/
theorem C50_track (o : TOracle) (d : TDoc) (path : Bytes) (s e : Int) :
    (tTrack o d path s e = .err ↔ tItemAt d (split bDot path) = none) ∧
    tTrack o d path s e ≠ .panic ∧
    ∀ l, tTrack o d path s e = .ok l →
      l.Perm ((versionsAt d (split bDot path)).filter fun v =>
        decide ((parsePeriod v.period).1 ≤ e ∧ s ≤ (parsePeriod v.period).2)) ∧
      l.Pairwise fun a b => (parsePeriod a.period).1 ≤ (parsePeriod b.period).1 := by
  simp only [tTrack, versionsAt]
  cases tItemAt d (split bDot path) with
  | none => simp
  | some it =>
    refine ⟨by simp, by simp, ?_⟩
    rintro l ⟨⟩
    exact ⟨o.sortVersions_perm _, o.sortVersions_sorted _⟩

/-- A version is returned exactly if it is recorded and some time of the window lies between its bounds, provided the
bounds are not reversed. -/
theorem C50_mem (o : TOracle) (d : TDoc) (path : Bytes) {s e : Int} (hse : s ≤ e) {l : List TVersion}
    (h : tTrack o d path s e = .ok l) {v : TVersion} (hv : (parsePeriod v.period).1 ≤ (parsePeriod v.period).2) :
    v ∈ l ↔ v ∈ versionsAt d (split bDot path) ∧ ∃ t, s ≤ t ∧ t ≤ e ∧ Covers v t := by
  rw [((C50_track o d path s e).2.2 l h).1.mem_iff, List.mem_filter, decide_eq_true_eq]
  refine and_congr Iff.rfl ⟨?_, ?_⟩
  · rintro ⟨h1, h2⟩
    by_cases hc : s ≤ (parsePeriod v.period).1
    · exact ⟨(parsePeriod v.period).1, hc, h1, Int.le_refl _, hv⟩
    · exact ⟨s, Int.le_refl _, hse, by omega, h2⟩
  · rintro ⟨t, h1, h2, h3, h4⟩; exact ⟨by omega, by omega⟩

/-! A runtime for the examples: insertion sort. -/

/-- Insertion by a key. [example of `sort.Slice`, exp/tjson.go:226, 281] -/
def insBy (f : α → Int) (a : α) : List α → List α
  | [] => [a]
  | b :: l => if f a ≤ f b then a :: b :: l else b :: insBy f a l

/-- Insertion sort by a key. [example of `sort.Slice`, exp/tjson.go:226, 281] -/
def isortBy (f : α → Int) : List α → List α
  | [] => []
  | a :: l => insBy f a (isortBy f l)

theorem insBy_perm (f : α → Int) (a : α) (l : List α) : (insBy f a l).Perm (a :: l) := by
  induction l with
  | nil => exact List.Perm.refl _
  | cons b l ih =>
    simp only [insBy]; split
    · exact List.Perm.refl _
    · exact (List.Perm.cons b ih).trans (List.Perm.swap a b l)

theorem isortBy_perm (f : α → Int) (l : List α) : (isortBy f l).Perm l := by
  induction l with
  | nil => exact List.Perm.refl _
  | cons a l ih => exact (insBy_perm f a _).trans (ih.cons a)

theorem insBy_sorted (f : α → Int) (a : α) (l : List α) (h : l.Pairwise fun a b => f a ≤ f b) :
    (insBy f a l).Pairwise fun a b => f a ≤ f b := by
  induction l with
  | nil => simp [insBy]
  | cons b l ih =>
    have h1 := (List.pairwise_cons.1 h).1
    have h2 := (List.pairwise_cons.1 h).2
    simp only [insBy]; split
    · rename_i hab
      refine List.pairwise_cons.2 ⟨?_, h⟩
      intro c hc
      rcases List.mem_cons.1 hc with rfl | hc
      · exact hab
      · have := h1 c hc; omega
    · rename_i hab
      refine List.pairwise_cons.2 ⟨?_, ih h2⟩
      intro c hc
      rcases List.mem_cons.1 ((insBy_perm f a l).mem_iff.1 hc) with rfl | hc
      · omega
      · exact h1 c hc

theorem isortBy_sorted (f : α → Int) (l : List α) : (isortBy f l).Pairwise fun a b => f a ≤ f b := by
  induction l with
  | nil => simp [isortBy]
  | cons a l ih => exact insBy_sorted f a _ ih

/-- A runtime that keeps the order of equal keys. [exp/tjson.go:226, 281, 335] -/
def tStable : TOracle where
  sortVersions := isortBy fun v => (parsePeriod v.period).1
  sortVersions_perm := isortBy_perm _
  sortVersions_sorted := isortBy_sorted _
  sortPatches := isortBy fun p => p.ts
  sortPatches_perm := isortBy_perm _
  sortPatches_sorted := isortBy_sorted _
  order := id
  order_perm := fun _ => List.Perm.refl _

/-- A runtime that reverses the order of equal keys. [exp/tjson.go:226, 281, 335] -/
def tReverse : TOracle where
  sortVersions := fun l => isortBy (fun v => (parsePeriod v.period).1) l.reverse
  sortVersions_perm := fun l => (isortBy_perm _ _).trans l.reverse_perm
  sortVersions_sorted := fun _ => isortBy_sorted _ _
  sortPatches := fun l => isortBy (fun p => p.ts) l.reverse
  sortPatches_perm := fun l => (isortBy_perm _ _).trans l.reverse_perm
  sortPatches_sorted := fun _ => isortBy_sorted _ _
  order := List.reverse
  order_perm := fun l => l.reverse_perm

/-- Two versions of one path, for the examples. [exp/tjson.go:40-90] -/
def tDemo : TDoc :=
  tAddItem (tAddItem [] b!"car.speed" 10 19 (.bool true)) b!"car.speed" 20 29 (.bool false)

example : tTrack tStable tDemo b!"car.speed" 15 25 = .ok [⟨b!"10-19", .bool true⟩, ⟨b!"20-29", .bool false⟩] := by rfl

example : ⟨b!"10-19", .bool true⟩ ∈ [(⟨b!"10-19", .bool true⟩ : TVersion), ⟨b!"20-29", .bool false⟩] :=
  (C50_mem tStable tDemo b!"car.speed" (s := 15) (e := 25) (by decide) rfl (by decide)).2
    ⟨List.mem_cons_self, 15, by decide, by decide, by decide⟩

/-- **C50, refuted for reversed bounds.**  A value replaced at the time it was set has a period that contains no time
(5 to 4), but is returned for windows around it. -/
theorem C50_empty_fails : ∃ d v, versionsAt d [b!"a", b!"b"] = [v] ∧ (∀ t, ¬ Covers v t) ∧
    tTrack tStable d b!"a.b" 3 8 = .ok [v] := by
  refine ⟨tAddItem [] b!"a.b" 5 4 (.bool true), ⟨b!"5-4", .bool true⟩, rfl, ?_, rfl⟩
  intro t
  have : parsePeriod b!"5-4" = (5, 4) := by decide
  simp only [Covers, this]; omega

/-! ### C51: FindEvents -/

/-- **C51.**  `FindEvents` returns, in ascending order, the starts of the versions of the path that meet the window and
satisfy the predicate; it is an error exactly if there is no item for the path. -/
theorem C51_events (o : TOracle) (d : TDoc) (path : Bytes) (s e : Int) (pred : Js → Bool) :
    (tFindEvents o d path s e pred = .err ↔ tItemAt d (split bDot path) = none) ∧
    tFindEvents o d path s e pred ≠ .panic ∧
    ∀ l, tFindEvents o d path s e pred = .ok l →
      l.Perm (((versionsAt d (split bDot path)).filter fun v =>
        decide ((parsePeriod v.period).1 ≤ e ∧ s ≤ (parsePeriod v.period).2) && pred v.data).map
          fun v => (parsePeriod v.period).1) ∧
      l.Pairwise (· ≤ ·) := by
  simp only [tFindEvents, tTrack, versionsAt]
  cases tItemAt d (split bDot path) with
  | none => simp
  | some it =>
    refine ⟨by simp, by simp, ?_⟩
    rintro l ⟨⟩
    refine ⟨?_, ?_⟩
    · refine List.Perm.map _ ?_
      have := (o.sortVersions_perm (it.versions.filter fun v =>
        decide ((parsePeriod v.period).1 ≤ e ∧ s ≤ (parsePeriod v.period).2))).filter fun v => pred v.data
      rw [List.filter_filter] at this
      refine this.trans (List.Perm.of_eq ?_)
      congr 1; funext v; exact Bool.and_comm _ _
    · rw [List.pairwise_map]
      exact (o.sortVersions_sorted _).filter _

example : tFindEvents tStable tDemo b!"car.speed" 15 25 (fun j => jsEq j (.bool false)) = .ok [20] := by rfl

/-! ### C52: TemporalSnapshot -/

/-- The value shown for a list of versions: of the first version covering the time, otherwise of the last one.
[exp/tjson.go:121-131] -/
def Shown (vs : List TVersion) (t : Int) (j : Js) : Prop :=
  (∃ v, vs.find? (fun v => decide (Covers v t)) = some v ∧ v.data = j) ∨
  ((∀ v ∈ vs, ¬ Covers v t) ∧ ∃ v, vs.getLast? = some v ∧ v.data = j)

theorem Shown.pick {vs : List TVersion} {t : Int} {j : Js} (h : Shown vs t j) : pickVersion t none vs = some j := by
  rw [pickVersion_spec]
  rcases h with ⟨v, h1, rfl⟩ | ⟨h1, v, h2, rfl⟩
  · rw [h1]
  · have : vs.find? (fun v => decide (Covers v t)) = none := by
      rw [List.find?_eq_none]; intro v hv; simpa using h1 v hv
    rw [this, h2]

theorem item_of_versions {d : TDoc} {ks : List Bytes} (h : versionsAt d ks ≠ []) :
    ∃ it, tItemAt d ks = some it ∧ it.versions = versionsAt d ks := by
  simp only [versionsAt] at h ⊢
  cases hi : tItemAt d ks with
  | none => simp [hi] at h
  | some it => exact ⟨it, rfl, rfl⟩

theorem Shown.ne_nil {vs : List TVersion} {t : Int} {j : Js} (h : Shown vs t j) : vs ≠ [] := by
  rintro rfl
  rcases h with ⟨v, h1, _⟩ | ⟨_, v, h2, _⟩ <;> simp_all

/-- The versions of a path do not hide what is below: there are none, or an object is shown. [exp/tjson.go:141-171] -/
def Passes (d : TDoc) (t : Int) (ks : List Bytes) : Prop :=
  versionsAt d ks = [] ∨ ∃ m, Shown (versionsAt d ks) t (.obj m)

theorem Passes.through {d : TDoc} {t : Int} {ks : List Bytes} (h : Passes d t ks) : Through t (versionsAt d ks) :=
  h.imp id fun ⟨m, hm⟩ => ⟨m, hm.pick⟩

theorem Shown.of_pick {vs : List TVersion} {t : Int} {j : Js} (h : pickVersion t none vs = some j) : Shown vs t j := by
  rw [pickVersion_spec] at h
  cases hf : vs.find? (fun v => decide (Covers v t)) with
  | some v => rw [hf] at h; exact .inl ⟨v, hf, Option.some.inj h⟩
  | none =>
    rw [hf] at h
    refine .inr ⟨fun v hv => by simpa using List.find?_eq_none.1 hf v hv, ?_⟩
    cases hl : vs.getLast? with
    | none => rw [hl] at h; cases h
    | some v => rw [hl] at h; exact ⟨v, rfl, Option.some.inj h⟩

/-- **C52.**  Where no prefix of the path hides it, `TemporalSnapshot` shows at the path the value of the first version
covering the time; if there is none, of the last version recorded. -/
theorem C52_snapshot_partial {d : TDoc} (hw : d.Wf) {t : Int} {ks : List Bytes} {j : Js}
    (hp : ∀ ks₁ ks₂, ks = ks₁ ++ ks₂ → ks₁ ≠ [] → ks₂ ≠ [] → Passes d t ks₁)
    (hs : Shown (versionsAt d ks) t j) (hn : j ≠ .null) (ho : ∀ m, j ≠ .obj m) :
    (tSnapshot d t).at? ks = some j := by
  obtain ⟨it, hi, hv⟩ := item_of_versions hs.ne_nil
  have hl := snap_leaf (t := t) (it := it) (by rw [hv]; exact hs.pick) ho
  have := tSnapshot_at hw (t := t) hi (fun a b e h1 h2 => (hp a b e h1 h2).through) (by rw [hl]; exact hn)
  rw [this, hl]

/-- **C52.**  Nothing is invented: a value shown (other than nil and objects) is shown by the versions of a prefix of the
path, in the value of which it is found. -/
theorem C52_only {d : TDoc} (hw : d.Wf) {t : Int} {ks : List Bytes} {j : Js} (hn : j ≠ .null) (ho : ∀ m, j ≠ .obj m)
    (h : (tSnapshot d t).at? ks = some j) :
    ∃ ks₁ ks₂ w, ks = ks₁ ++ ks₂ ∧ Shown (versionsAt d ks₁) t w ∧ w.at? ks₂ = some j := by
  obtain ⟨ks₁, ks₂, w, e, h1, h2⟩ := tSnapshot_only hw hn ho h
  exact ⟨ks₁, ks₂, w, e, .of_pick h1, h2⟩

/-- The documents that `AddItem` and `FromTSONPatches` make are maps of maps. -/
theorem C52_wf (o : TOracle) (now : Int) (ps : List TPatch) :
    TDoc.Wf (fromPatches o now ps) ∧ ∀ d path s e v, TDoc.Wf d → TDoc.Wf (tAddItem d path s e v) :=
  ⟨wf_fromPatches o now ps, fun _ path s e v h => wf_tAddItem h path s e v⟩

/-- **C52.**  An object value is shown member by member; members that have an item of their own are shown from there. -/
theorem C52_members_partial {d : TDoc} (hw : d.Wf) {t : Int} {ks : List Bytes} {m : List (Bytes × Js)}
    (hp : ∀ ks₁ ks₂, ks = ks₁ ++ ks₂ → ks₁ ≠ [] → ks₂ ≠ [] → Passes d t ks₁)
    (hs : Shown (versionsAt d ks) t (.obj m)) :
    ∃ m', (tSnapshot d t).at? ks = some (.obj m') ∧
      ∀ k, tItemAt d (ks ++ [k]) = none → mget m' k = mget m k := by
  obtain ⟨it, hi, hv⟩ := item_of_versions hs.ne_nil
  have hl := snap_obj (t := t) (it := it) (by rw [hv]; exact hs.pick)
  have := tSnapshot_at hw (t := t) hi (fun a b e h1 h2 => (hp a b e h1 h2).through) (by rw [hl]; simp)
  refine ⟨_, by rw [this, hl], ?_⟩
  intro k hk
  refine mget_foldl_mset (mget_tSnapF_none ?_) m
  have hat : ∀ (ks : List Bytes) (c : TItem), c.at? ks = some it → c.at? (ks ++ [k]) = none →
      mget it.children k = none := by
    intro ks
    induction ks with
    | nil =>
      intro c h1 h2
      simp only [TItem.at?, Option.some.injEq] at h1; subst h1
      simp only [List.nil_append, TItem.at?] at h2
      cases hc : mget c.children k with
      | none => rfl
      | some _ => rw [hc] at h2; simp at h2
    | cons k' ks ih =>
      intro c h1 h2
      simp only [List.cons_append, TItem.at?] at h1 h2
      cases hc : mget c.children k' with
      | none => rw [hc] at h1; simp at h1
      | some c' => rw [hc] at h1 h2; exact ih c' h1 h2
  cases ks with
  | nil => simp [tItemAt] at hi
  | cons k' ks =>
    simp only [List.cons_append, tItemAt] at hi hk
    cases hc : mget d k' with
    | none => rw [hc] at hi; simp at hi
    | some c' => rw [hc] at hi hk; exact hat ks c' hi hk

example : (tSnapshot tDemo 15).at? [b!"car", b!"speed"] = some (.bool true) :=
  C52_snapshot_partial (d := tDemo) (wf_tAddItem (wf_tAddItem (d := []) ⟨by simp [mkeys], by simp⟩ _ _ _ _) _ _ _ _)
    (j := .bool true)
    (by
      intro ks₁ ks₂ h h1 h2
      match ks₁, ks₂, h with
      | [_], [_], h => simp only [List.singleton_append, List.cons.injEq] at h; rw [← h.1]; exact .inl rfl
      | _ :: _ :: r, _ :: _, h => simp at h)
    (Or.inl ⟨_, rfl, rfl⟩) (by simp) (by simp)

example : ∃ ks₁ ks₂ w, [b!"car", b!"speed"] = ks₁ ++ ks₂ ∧ Shown (versionsAt tDemo ks₁) 25 w ∧
    w.at? ks₂ = some (.bool false) :=
  C52_only (d := tDemo) (wf_tAddItem (wf_tAddItem (d := []) ⟨by simp [mkeys], by simp⟩ _ _ _ _) _ _ _ _) (by simp) (by simp)
    (by rfl)

/-- **C52, refuted in general.**  A value is shown before it was ever valid, and after its last period. -/
theorem C52_outside_fails : ∃ d, versionsAt d [b!"a", b!"b"] = [⟨b!"10-20", .bool true⟩] ∧
    (tSnapshot d 5).at? [b!"a", b!"b"] = some (.bool true) ∧
    (tSnapshot d 30).at? [b!"a", b!"b"] = some (.bool true) :=
  ⟨tAddItem [] b!"a.b" 10 20 (.bool true), rfl, rfl, rfl⟩

/-- **C52, refuted in general.**  A value recorded for a prefix of the path hides the values below it. -/
theorem C52_prefix_fails : ∃ d, versionsAt d [b!"a", b!"b", b!"c"] = [⟨b!"10-20", .bool true⟩] ∧
    (tSnapshot d 15).at? [b!"a", b!"b", b!"c"] = none :=
  ⟨tAddItem (tAddItem [] b!"a.b.c" 10 20 (.bool true)) b!"a.b" 10 20 (.bool false), rfl, rfl⟩

/-! ### C53: FromTSONPatches -/

/-- **C53.**  The periods of a path are disjoint and ascending. -/
theorem C53_disjoint_partial (o : TOracle) {now : Int} {ps : List TPatch} {q : Bytes} (hg : GoodTimes ps) (h0 : 0 ≤ now)
    (h1 : now ≤ maxInt64) (hq : bDot ∈ q) :
    (versionsAt (fromPatches o now ps) (split bDot q)).Pairwise
      fun a b => (parsePeriod a.period).2 < (parsePeriod b.period).1 := by
  have hl : 2 ≤ (split bDot q).length := by
    rw [split_length]; have := List.count_pos_iff.2 hq; omega
  rw [versionsAt_fromPatches o now ps hl]
  have hx := perInv_sorted o hg q
  refine pairwise_map_of (pers_disj hx) ?_
  intro a ha b hb h
  rw [parse_pers hg h0 h1 hx ha, parse_pers hg h0 h1 hx hb]
  exact h

/-- **C53.**  Up to the time of the conversion, a version covers a time exactly if a value is in force then, and it is that
value (`reflect.DeepEqual`).  The value in force is that after the patches up to the time, in the order in which they were
sorted.  Together with `C53_disjoint_partial` the version is unique. -/
theorem C53_inForce_partial (o : TOracle) {now : Int} {ps : List TPatch} {q : Bytes} (hg : GoodTimes ps) (h0 : 0 ≤ now)
    (h1 : now ≤ maxInt64) (hq : bDot ∈ q) {t : Int} (ht : t ≤ now) :
    match inForce q t (o.sortPatches ps) none with
    | some w => ∃ v ∈ versionsAt (fromPatches o now ps) (split bDot q), Covers v t ∧ SameValue v.data w
    | none => ∀ v ∈ versionsAt (fromPatches o now ps) (split bDot q), ¬ Covers v t := by
  have hl : 2 ≤ (split bDot q).length := by
    rw [split_length]; have := List.count_pos_iff.2 hq; omega
  rw [versionsAt_fromPatches o now ps hl]
  have hx := perInv_sorted o hg q
  have hv := hx.val t
  generalize inForce q t (o.sortPatches ps) none = r at hv
  cases r with
  | none =>
    intro v hm
    obtain ⟨a, ha, rfl⟩ := List.mem_map.1 hm
    simp only [Covers, parse_pers hg h0 h1 hx ha]
    rcases mem_pers.1 ha with ha | ⟨v, s, e, rfl⟩
    · exact hv.1 a ha
    · have := hv.2 v s e; simp only; omega
  | some w =>
    rcases hv with ⟨a, ha, hat, hw⟩ | ⟨v, s, e, hst, hw⟩
    · have hm : a ∈ pers now _ := mem_pers.2 (Or.inl ha)
      exact ⟨_, List.mem_map.2 ⟨a, hm, rfl⟩, by simp only [Covers, parse_pers hg h0 h1 hx hm]; exact hat, hw⟩
    · have hm : (⟨s, now, v⟩ : Per) ∈ pers now _ := mem_pers.2 (Or.inr ⟨v, s, e, rfl⟩)
      exact ⟨_, List.mem_map.2 ⟨_, hm, rfl⟩, by simp only [Covers, parse_pers hg h0 h1 hx hm]; exact ⟨hst, ht⟩, hw⟩

theorem inForce_sorted_governs (o : TOracle) {ps : List TPatch} {q : Bytes} {t : Int} {p : TPatch}
    (h : Governs ps q t p) : inForce q t (o.sortPatches ps) none = if p.Sets then some p.value else none :=
  inForce_governs h.on h.le _ (o.sortPatches_sorted ps) ((o.sortPatches_perm ps).mem_iff.2 h.mem)
    (fun p' hp' => h.latest p' ((o.sortPatches_perm ps).mem_iff.1 hp')) none

/-- **C53.**  If one patch is the latest for the path at a time, then, for every sort, exactly its value is in force: a
patch that sets gives its value, after a removal no version covers the time. -/
theorem C53_latest_partial (o : TOracle) {now : Int} {ps : List TPatch} {q : Bytes} (hg : GoodTimes ps) (h0 : 0 ≤ now)
    (h1 : now ≤ maxInt64) (hq : bDot ∈ q) {t : Int} (ht : t ≤ now) {p : TPatch} (hp : Governs ps q t p) :
    (p.Sets → (∃ v ∈ versionsAt (fromPatches o now ps) (split bDot q), Covers v t) ∧
      ∀ v ∈ versionsAt (fromPatches o now ps) (split bDot q), Covers v t → SameValue v.data p.value) ∧
    (¬ p.Sets → ∀ v ∈ versionsAt (fromPatches o now ps) (split bDot q), ¬ Covers v t) := by
  have h := C53_inForce_partial o hg h0 h1 hq ht
  have hd := C53_disjoint_partial o hg h0 h1 hq
  rw [inForce_sorted_governs o hp] at h
  refine ⟨?_, ?_⟩
  · intro hS
    simp only [hS, if_true] at h
    obtain ⟨v, hv, hc, hw⟩ := h
    refine ⟨⟨v, hv, hc⟩, ?_⟩
    intro v' hv' hc'
    rw [covers_unique hd hv' hv hc' hc]; exact hw
  · intro hS
    simpa only [hS, if_false] using h

/-- **C53.**  Before the first patch for a path nothing covers a time. -/
theorem C53_before_partial (o : TOracle) {now : Int} {ps : List TPatch} {q : Bytes} (hg : GoodTimes ps) (h0 : 0 ≤ now)
    (h1 : now ≤ maxInt64) (hq : bDot ∈ q) {t : Int} (ht : t ≤ now) (hp : ∀ p ∈ ps, p.On q → t < p.ts) :
    ∀ v ∈ versionsAt (fromPatches o now ps) (split bDot q), ¬ Covers v t := by
  have h := C53_inForce_partial o hg h0 h1 hq ht
  rw [inForce_none (o.sortPatches ps) (fun p hm => hp p ((o.sortPatches_perm ps).mem_iff.1 hm))] at h
  exact h

theorem scalar_of_same {d v : Js} (h : SameValue d v) (hn : v ≠ .null) (ho : ∀ m, v ≠ .obj m) :
    d ≠ .null ∧ ∀ m, d ≠ .obj m := by
  rcases h with rfl | h
  · exact ⟨hn, ho⟩
  · refine ⟨?_, ?_⟩
    · rintro rfl; cases v <;> simp [jsEq] at h hn
    · rintro m rfl; cases v <;> simp [jsEq] at h; exact ho _ rfl

/-- A version converted from patches holds the value of a patch for its path. -/
theorem versionsAt_value (o : TOracle) {now : Int} {ps : List TPatch} (hg : GoodTimes ps) {ks : List Bytes}
    (hks : ∀ k ∈ ks, bDot ∉ k) {v : TVersion} (hv : v ∈ versionsAt (fromPatches o now ps) ks) :
    ∃ p ∈ ps, tPath p.path = joinWith bDot ks ∧ p.Sets ∧ v.data = p.value := by
  match ks, hks, hv with
  | [], _, hv => simp [versionsAt, tItemAt] at hv
  | [k], _, hv => rw [versionsAt_single] at hv; simp at hv
  | k :: k2 :: ks, hks, hv =>
    have hs := split_joinWith bDot (k :: k2 :: ks) (by simp) hks
    have hv' := versionsAt_fromPatches o now ps (q := joinWith bDot (k :: k2 :: ks)) (by rw [hs]; simp)
    rw [hs] at hv'
    rw [hv'] at hv
    obtain ⟨a, ha, rfl⟩ := List.mem_map.1 hv
    have hx := perInv_sorted o hg (joinWith bDot (k :: k2 :: ks))
    rcases mem_pers.1 ha with ha | ⟨v, s, e, rfl⟩
    · obtain ⟨p, hp, h1, h2, _, h3⟩ := hx.start a ha
      exact ⟨p, (o.sortPatches_perm ps).mem_iff.1 hp, h1, h2, h3⟩
    · obtain ⟨p, hp, h1, h2, _, h3⟩ := hx.cur v s e
      exact ⟨p, (o.sortPatches_perm ps).mem_iff.1 hp, h1, h2, h3⟩

theorem shown_of_ne_nil (vs : List TVersion) (t : Int) (h : vs ≠ []) : ∃ v ∈ vs, Shown vs t v.data := by
  cases hf : vs.find? (fun v => decide (Covers v t)) with
  | some v => exact ⟨v, List.mem_of_find?_eq_some hf, .inl ⟨v, hf, rfl⟩⟩
  | none =>
    cases hl : vs.getLast? with
    | none => exact absurd (List.getLast?_eq_none_iff.1 hl) h
    | some v =>
      exact ⟨v, List.mem_of_getLast? hl, .inr ⟨fun v hv => by simpa using List.find?_eq_none.1 hf v hv, v, hl, rfl⟩⟩

/-- **C53, end to end.**  Up to the time of the conversion, a snapshot of the converted patches shows at a path the value
of the latest patch for it (here for values other than nil and objects, and if all values set at a prefix of the path are
objects). -/
theorem C53_snapshot_partial (o : TOracle) {now : Int} {ps : List TPatch} {q : Bytes} (hg : GoodTimes ps) (h0 : 0 ≤ now)
    (h1 : now ≤ maxInt64) (hq : bDot ∈ q) {t : Int} (ht : t ≤ now) {p : TPatch} (hp : Governs ps q t p) (hS : p.Sets)
    (hpre : ∀ p' ∈ ps, ∀ r, tPath p'.path ++ bDot :: r = q → p'.Sets → ∃ m, p'.value = .obj m)
    (hn : p.value ≠ .null) (ho : ∀ m, p.value ≠ .obj m) :
    ∃ j, (tSnapshot (fromPatches o now ps) t).at? (split bDot q) = some j ∧ SameValue j p.value := by
  obtain ⟨⟨v, hv, hc⟩, hall⟩ := (C53_latest_partial o hg h0 h1 hq ht hp).1 hS
  have hsome : ((versionsAt (fromPatches o now ps) (split bDot q)).find? fun v => decide (Covers v t)).isSome = true := by
    rw [List.find?_isSome]; exact ⟨v, hv, by simpa using hc⟩
  obtain ⟨w, hw⟩ := Option.isSome_iff_exists.1 hsome
  have hwm := List.mem_of_find?_eq_some hw
  have hwc : Covers w t := by simpa using List.find?_some hw
  have hsame := hall w hwm hwc
  obtain ⟨hn', ho'⟩ := scalar_of_same hsame hn ho
  refine ⟨w.data, C52_snapshot_partial (wf_fromPatches o now ps) ?_ (Or.inl ⟨w, hw, rfl⟩) hn' ho', hsame⟩
  intro ks₁ ks₂ e hne₁ hne₂
  have hns := split_no_sep bDot q
  by_cases hemp : versionsAt (fromPatches o now ps) ks₁ = []
  · exact .inl hemp
  · obtain ⟨x, hx, hsh⟩ := shown_of_ne_nil _ t hemp
    obtain ⟨p', hp', e1, hS', e2⟩ := versionsAt_value o hg (fun k hk => hns k (by rw [e]; simp [hk])) hx
    obtain ⟨m, hm⟩ := hpre p' hp' (joinWith bDot ks₂)
      (by rw [e1, ← joinWith_append bDot ks₁ ks₂ hne₁ hne₂, ← e, joinWith_split]) hS'
    exact .inr ⟨m, by rw [e2, hm] at hsh; exact hsh⟩

/-- Three patches for one path, for the examples. [exp/exp_scenario.go:52-57] -/
def tPatches : List TPatch :=
  [⟨b!"replace", b!"/car/speed", .bool false, 20⟩, ⟨b!"add", b!"/car/speed", .bool true, 10⟩,
   ⟨b!"remove", b!"car.speed", .null, 30⟩]

theorem tPatches_good : GoodTimes tPatches := by
  constructor <;> simp [tPatches, maxInt64]

example : versionsAt (fromPatches tStable 100 tPatches) [b!"car", b!"speed"] =
    [⟨b!"10-19", .bool true⟩, ⟨b!"20-29", .bool false⟩] := by rfl

theorem tPatches_governs : Governs tPatches b!"car.speed" 25 ⟨b!"replace", b!"/car/speed", .bool false, 20⟩ where
  mem := by simp [tPatches]
  on := by decide
  le := by decide
  latest := by simp [tPatches]

example : (∃ v ∈ versionsAt (fromPatches tReverse 100 tPatches) (split bDot b!"car.speed"), Covers v 25) :=
  ((C53_latest_partial tReverse tPatches_good (by decide) (by decide) (by decide) (by decide) tPatches_governs).1
    (by decide)).1

example : ∃ j, (tSnapshot (fromPatches tReverse 100 tPatches) 25).at? (split bDot b!"car.speed") = some j ∧
    SameValue j (.bool false) :=
  C53_snapshot_partial tReverse tPatches_good (by decide) (by decide) (by decide) (by decide) tPatches_governs (by decide)
    (by
      intro p hp r h
      exfalso
      have hl := congrArg List.length h
      simp only [tPatches, List.mem_cons, List.not_mem_nil, or_false] at hp
      rcases hp with rfl | rfl | rfl <;> simp [tPath, show (99 : UInt8) ≠ bSlash by decide] at hl)
    (by simp) (by simp)

/-- Initial patches as `generateInitialPatches` makes them: the map, twice, its members, and a later reading. -/
def tInitial : List TPatch :=
  [⟨b!"add", b!"car.door", .obj [(b!"left", .bool true), (b!"right", .bool true)], 0⟩,
   ⟨b!"add", b!"car.door.left", .bool true, 0⟩,
   ⟨b!"add", b!"car.door", .obj [(b!"left", .bool true), (b!"right", .bool true)], 0⟩,
   ⟨b!"add", b!"car.door.right", .bool true, 0⟩, ⟨b!"replace", b!"/car/door/left", .bool false, 20⟩]

theorem tInitial_good : GoodTimes tInitial where
  nonneg := by simp [tInitial]
  int64 := by simp [tInitial, maxInt64]
  zero := by
    refine List.Pairwise.imp_of_mem (R := fun _ _ => True) ?_ (List.pairwise_of_forall fun _ _ => trivial)
    intro a b ha hb _
    simp only [tInitial, List.mem_cons, List.not_mem_nil, or_false] at ha hb
    rcases ha with rfl | rfl | rfl | rfl | rfl <;> rcases hb with rfl | rfl | rfl | rfl | rfl <;>
      first
      | exact fun _ _ h => absurd h (by decide)
      | exact fun _ _ _ => ⟨by decide, by decide, rfl, rfl⟩
      | exact fun h _ _ => absurd h (by decide)
      | exact fun _ h _ => absurd h (by decide)

example : ∃ j, (tSnapshot (fromPatches tReverse 100 tInitial) 25).at? (split bDot b!"car.door.left") = some j ∧
    SameValue j (.bool false) :=
  C53_snapshot_partial tReverse tInitial_good (by decide) (by decide) (by decide) (by decide)
    (p := ⟨b!"replace", b!"/car/door/left", .bool false, 20⟩)
    ⟨by simp [tInitial], by decide, by decide, by
      intro p hp h _
      simp only [tInitial, List.mem_cons, List.not_mem_nil, or_false] at hp
      rcases hp with rfl | rfl | rfl | rfl | rfl <;>
        first | exact .inr (by decide) | exact .inl rfl | exact absurd h (by decide)⟩
    (by decide)
    (by
      intro p hp r h _
      have hl := congrArg List.length h
      simp only [tInitial, List.mem_cons, List.not_mem_nil, or_false] at hp
      rcases hp with rfl | rfl | rfl | rfl | rfl
      · exact ⟨_, rfl⟩
      · simp [tPath, show (99 : UInt8) ≠ bSlash by decide] at hl
      · exact ⟨_, rfl⟩
      · simp [tPath, show (99 : UInt8) ≠ bSlash by decide] at hl
      · simp [tPath] at hl)
    (by simp) (by simp)

/-- **C53, refuted at time 0.**  If a value set at time 0 is replaced at time 0 (initial patches have time 0, and so has the
first step of a scenario), the text of its period is not readable and the old value is the one reported for time 0. -/
theorem C53_zero_fails : ∃ ps, ps = [⟨b!"add", b!"a.b", .bool false, 0⟩, ⟨b!"replace", b!"a.b", .bool true, 0⟩] ∧
    inForce b!"a.b" 0 (tStable.sortPatches ps) none = some (.bool true) ∧
    versionsAt (fromPatches tStable 100 ps) [b!"a", b!"b"] = [⟨b!"0--1", .bool false⟩, ⟨b!"0-100", .bool true⟩] ∧
    (tSnapshot (fromPatches tStable 100 ps) 0).at? [b!"a", b!"b"] = some (.bool false) :=
  ⟨_, rfl, rfl, rfl, rfl⟩

/-- **C53, refuted for equal times.**  Which of two values set at the same time is in force depends on the unstable sort. -/
theorem C53_tie_fails : ∃ ps : List TPatch, (∀ p ∈ ps, p.ts = 5) ∧
    (tSnapshot (fromPatches tStable 100 ps) 5).at? [b!"a", b!"b"] = some (.bool false) ∧
    (tSnapshot (fromPatches tReverse 100 ps) 5).at? [b!"a", b!"b"] = some (.bool true) :=
  ⟨[⟨b!"add", b!"a.b", .bool true, 5⟩, ⟨b!"add", b!"a.b", .bool false, 5⟩], by decide, rfl, rfl⟩

/-- **C53, refuted for removed values.**  After its removal a value is still shown, and also before it was added. -/
theorem C53_removed_fails : inForce b!"car.speed" 50 (tStable.sortPatches tPatches) none = none ∧
    (tSnapshot (fromPatches tStable 100 tPatches) 50).at? [b!"car", b!"speed"] = some (.bool false) ∧
    inForce b!"car.speed" 5 (tStable.sortPatches tPatches) none = none ∧
    (tSnapshot (fromPatches tStable 100 tPatches) 5).at? [b!"car", b!"speed"] = some (.bool false) :=
  ⟨rfl, rfl, rfl, rfl⟩

/-- **C53, refuted for paths of one segment.**  No version is recorded for them and no snapshot shows them. -/
theorem C53_single_fails (o : TOracle) (now : Int) (ps : List TPatch) (k : Bytes) :
    versionsAt (fromPatches o now ps) [k] = [] := versionsAt_single o now ps k

/-! ### C54: paths -/

theorem map_slash_join (segs : List Bytes) (h : ∀ k ∈ segs, bSlash ∉ k) :
    (joinWith bSlash segs).map (fun c => if c = bSlash then bDot else c) = joinWith bDot segs := by
  have hk : ∀ k : Bytes, bSlash ∉ k → k.map (fun c => if c = bSlash then bDot else c) = k := by
    intro k hk
    induction k with
    | nil => rfl
    | cons c k ih =>
      have hc : c ≠ bSlash := fun e => hk (by simp [e])
      have := ih (fun e => hk (by simp [e]))
      simp only [List.map_cons, hc, if_false, this]
  induction segs with
  | nil => rfl
  | cons a l ih =>
    cases l with
    | nil => simpa [joinWith] using hk a (h a (by simp))
    | cons b l =>
      simp only [joinWith, List.map_append, List.map_cons, if_true, hk a (h a (by simp))]
      rw [ih (fun k hk' => h k (by simp [hk']))]

/-- **C54.**  The pointer with the given segments becomes the path with the same segments, provided no segment contains a
dot or a slash. -/
theorem C54_path_partial (segs : List Bytes) (hne : segs ≠ []) (h : ∀ k ∈ segs, bSlash ∉ k ∧ bDot ∉ k) :
    split bDot (tPath (bSlash :: joinWith bSlash segs)) = segs := by
  simp only [tPath, if_true]
  rw [map_slash_join segs (fun k hk => (h k hk).1), split_joinWith bDot segs hne (fun k hk => (h k hk).2)]

/-- **C54.**  Under the same condition different pointers become different paths. -/
theorem C54_injective_partial {a b : List Bytes} (ha : a ≠ []) (hb : b ≠ []) (ha' : ∀ k ∈ a, bSlash ∉ k ∧ bDot ∉ k)
    (hb' : ∀ k ∈ b, bSlash ∉ k ∧ bDot ∉ k)
    (h : tPath (bSlash :: joinWith bSlash a) = tPath (bSlash :: joinWith bSlash b)) : a = b := by
  have := congrArg (split bDot) h
  rwa [C54_path_partial a ha ha', C54_path_partial b hb hb'] at this

example : split bDot (tPath b!"/car/speed") = [b!"car", b!"speed"] :=
  C54_path_partial [b!"car", b!"speed"] (by simp) (by decide)

/-- **C54, refuted in general.**  A member whose name contains a dot is confused with a path, and escapes are not decoded:
the values of two different members are recorded as versions of one. -/
theorem C54_collision_fails : tPath b!"/a.b" = tPath b!"/a/b" ∧ tPath b!"/a~1b" ≠ tPath b!"/a/b" ∧
    versionsAt (fromPatches tStable 100
      [⟨b!"add", b!"/a/b", .bool true, 5⟩, ⟨b!"add", b!"/a.b", .bool false, 7⟩]) [b!"a", b!"b"] =
      [⟨b!"5-6", .bool true⟩, ⟨b!"7-100", .bool false⟩] :=
  ⟨rfl, by decide, rfl⟩

/-! ### C55: events of converted patches -/

/-- **C55.**  Every event found in converted patches is the time of a patch that sets the path to a value satisfying the
predicate, not after the window. -/
theorem C55_sound_partial (o : TOracle) {now : Int} {ps : List TPatch} {q : Bytes} (hg : GoodTimes ps) (h0 : 0 ≤ now)
    (h1 : now ≤ maxInt64) (hq : bDot ∈ q) {s e : Int} {pred : Js → Bool} {l : List Int}
    (h : tFindEvents o (fromPatches o now ps) q s e pred = .ok l) :
    ∀ r ∈ l, r ≤ e ∧ ∃ p ∈ ps, tPath p.path = q ∧ p.Sets ∧ p.ts = r ∧ pred p.value = true := by
  intro r hr
  rw [((C51_events o _ q s e pred).2.2 l h).1.mem_iff] at hr
  have hl : 2 ≤ (split bDot q).length := by
    rw [split_length]; have := List.count_pos_iff.2 hq; omega
  have hx := perInv_sorted o hg q
  obtain ⟨v, hv, rfl⟩ := List.mem_map.1 hr
  obtain ⟨hv, hc⟩ := List.mem_filter.1 hv
  rw [versionsAt_fromPatches o now ps hl] at hv
  obtain ⟨a, ha, rfl⟩ := List.mem_map.1 hv
  have hpp := parse_pers hg h0 h1 hx ha
  simp only [Bool.and_eq_true, decide_eq_true_eq, hpp] at hc
  simp only [hpp]
  refine ⟨hc.1.1, ?_⟩
  have hm : ∀ p, p ∈ o.sortPatches ps → p ∈ ps := fun p hp => (o.sortPatches_perm ps).mem_iff.1 hp
  rcases mem_pers.1 ha with ha | ⟨v, s', e', rfl⟩
  · obtain ⟨p, hp, h1, h2, h3, h4⟩ := hx.start a ha
    exact ⟨p, hm p hp, h1, h2, h3.symm, by rw [← h4]; exact hc.2⟩
  · obtain ⟨p, hp, h1, h2, h3, h4⟩ := hx.cur v s' e'
    exact ⟨p, hm p hp, h1, h2, h3.symm, by rw [← h4]; exact hc.2⟩

/-- **C55.**  If at some time of the window (and before the conversion) the value in force satisfies the predicate, an event
not after that time is found. -/
theorem C55_complete_partial (o : TOracle) {now : Int} {ps : List TPatch} {q : Bytes} (hg : GoodTimes ps) (h0 : 0 ≤ now)
    (h1 : now ≤ maxInt64) (hq : bDot ∈ q) {s e : Int} {pred : Js → Bool} {l : List Int}
    (h : tFindEvents o (fromPatches o now ps) q s e pred = .ok l)
    (hpred : ∀ a b, SameValue a b → pred a = pred b) {t : Int} (hs : s ≤ t) (he : t ≤ e) (ht : t ≤ now) {w : Js}
    (hw : inForce q t (o.sortPatches ps) none = some w) (hpw : pred w = true) : ∃ r ∈ l, r ≤ t := by
  have hf := C53_inForce_partial o hg h0 h1 hq ht
  rw [hw] at hf
  obtain ⟨v, hv, hc, hsame⟩ := hf
  refine ⟨(parsePeriod v.period).1, ?_, hc.1⟩
  rw [((C51_events o _ q s e pred).2.2 l h).1.mem_iff]
  refine List.mem_map.2 ⟨v, List.mem_filter.2 ⟨hv, ?_⟩, rfl⟩
  simp only [Bool.and_eq_true, decide_eq_true_eq]
  simp only [Covers] at hc
  exact ⟨⟨by omega, by omega⟩, by rw [hpred _ _ hsame]; exact hpw⟩

/-- The value is `false`; a predicate for the examples. [predicate of exp/tjson.go:237] -/
def isFalse : Js → Bool
  | .bool b => !b
  | _ => false

example : tFindEvents tStable (fromPatches tStable 100 tPatches) b!"car.speed" 22 40 isFalse = .ok [20] := by rfl

example : ∃ r ∈ [(20 : Int)], r ≤ 25 :=
  C55_complete_partial tStable (s := 22) (e := 40) (pred := isFalse) tPatches_good (by decide) (by decide) (by decide)
    (q := b!"car.speed") (now := 100) rfl
    (by
      rintro a b (rfl | h)
      · rfl
      · cases a <;> cases b <;> simp [jsEq, isFalse] at h ⊢; exact h)
    (t := 25) (by decide) (by decide) (by decide) (w := .bool false) rfl rfl

/-- **C55, refuted in general.**  Events are reported that lie before the window (the value was set earlier and is still in
force), and a value that was replaced at the time it was set, and so was never in force, is reported too. -/
theorem C55_window_fails :
    tFindEvents tStable (fromPatches tStable 100 tPatches) b!"car.speed" 22 40 isFalse = .ok [20] ∧
    tFindEvents tStable (fromPatches tStable 100
      [⟨b!"add", b!"a.b", .bool false, 5⟩, ⟨b!"replace", b!"a.b", .bool true, 5⟩]) b!"a.b" 1 9 isFalse = .ok [5] :=
  ⟨rfl, rfl⟩

end Verif
