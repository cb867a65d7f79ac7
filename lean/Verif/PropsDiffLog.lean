import Verif.PropsDiffApply
import Verif.PropsReplayArr
import Verif.PropsSnapshot
/-
Property C110: a logument that is fed with the differences between successive documents.
-/
namespace Verif

/-! ### Specification -/

/-- Store and append one patch after the other.  [internal/logument/logument.go:130-167, 192-212] -/
def feed (ps : List (List Op)) : List Call := ps.flatMap fun p => [.store (.patch (some p)), .append]

/-- The patches are the differences, with the leading separator of each path dropped, along a series of documents
from `m` to `n`; successive documents differ, have plain keys, and only arrays of leaves of the same length differ.
[internal/tsonpatch/tsonpatch.go:124-131] -/
inductive Differences (m : List (Bytes × Tson)) : List (List Op) → List (Bytes × Tson) → Prop
  | none : Differences m [] m
  | next (ps n k ops) : Differences m ps n → (Tson.obj n).Wf → (Tson.obj k).Wf → PlainDoc (.obj n) → PlainDoc (.obj k) →
      FlatArrays false (.obj n) (.obj k) → generatePatch (.obj n) (.obj k) = .ok ops → ops ≠ [] →
      (∀ o ∈ ops.map stripSlash, ElemOp o) → Differences m (ps ++ [ops.map stripSlash]) k

/-! ### Lemmas -/

theorem SamePrim.trans {p q r : Prim} (h : SamePrim p q) (h' : SamePrim q r) : SamePrim p r := by
  rcases h with rfl | ⟨a, b, rfl, rfl, e⟩
  · exact h'
  · rcases h' with rfl | ⟨b', c, hb, rfl, e'⟩
    · exact Or.inr ⟨a, b, rfl, rfl, e⟩
    · cases hb
      exact Or.inr ⟨a, c, rfl, rfl, F64.feq_trans e e'⟩

theorem SameVals.trans {t u : Tson} (h : SameVals t u) : ∀ {w}, SameVals u w → SameVals t w := by
  induction h with
  | null => intro w h; exact h
  | leaf p q a b h =>
    intro w h'
    cases h' with
    | leaf _ r _ c e => exact .leaf _ _ _ _ (h.trans e)
  | obj m m' h1 h2 ih =>
    intro w h'
    have hw := h'
    cases h' with
    | obj _ m'' e1 e2 =>
      refine .obj _ _ (fun k => (h1 k).trans (e1 k)) fun k c c'' hc hc'' => ?_
      obtain ⟨c', hc', e⟩ := hw.get hc''
      exact ih k c c' hc hc' e
  | arr l l' h1 h2 ih =>
    intro w h'
    cases h' with
    | arr _ l'' e1 e2 =>
      refine .arr _ _ (h1.trans e1) fun i c c'' hc hc'' => ?_
      have hi : i < l'.length := by
        have := (List.getElem?_eq_some_iff.1 hc).1
        omega
      have hc' : l'[i]? = some l'[i] := List.getElem?_eq_getElem hi
      exact ih i c _ hc hc' (e2 i _ _ hc' hc'')

/-- The same operations on two documents with the same values. -/
theorem SameVals.replayIn (ops : List Op) : ∀ {m m' : List (Bytes × Tson)} {t : Tson}, (∀ o ∈ ops, ElemOp o) →
    (Tson.obj m).Wf → (Tson.obj m').Wf → SameVals (.obj m) (.obj m') → replay (.obj m) ops = .ok t →
    ∃ u, replay (.obj m') ops = .ok u ∧ SameVals t u := by
  induction ops with
  | nil =>
    intro m m' t _ _ _ hs h
    simp only [replay, Res.ok.injEq] at h
    subst h
    exact ⟨_, rfl, hs⟩
  | cons op ops ih =>
    intro m m' t hel hw hw' hs h
    simp only [replay, applyDoc_eq hw, applyDoc_eq hw'] at h ⊢
    rcases hT : applyOpT (.obj m) op with ⟨o, r⟩
    rw [hT] at h
    cases r with
    | err => simp [Res.bind] at h
    | panic => simp [Res.bind] at h
    | ok t1 =>
      obtain ⟨o', u1, hU, hs1⟩ := SameVals.applyIn _ (split_ne_nil' op.path) (hel op (by simp)).plainAt hs hT
      have hU' : applyOpT (.obj m') op = (o', .ok u1) := hU
      obtain ⟨m1, rfl⟩ := applyT_obj_res hT
      obtain ⟨m2, rfl⟩ := applyT_obj_res hU
      rw [hU']
      exact ih (fun o ho => hel o (by simp [ho])) (applyOpT_wf hw op (by rw [hT])) (applyOpT_wf hw' op (by rw [hU'])) hs1 h

theorem Differences.replay {m n : List (Bytes × Tson)} {ps : List (List Op)} (h : Differences m ps n)
    (hw : (Tson.obj m).Wf) : ∃ t, Verif.replay (.obj m) ps.flatten = .ok t ∧ SameVals t (.obj n) := by
  induction h with
  | none => exact ⟨_, rfl, .refl _⟩
  | next ps n k ops _ h1 h2 h3 h4 h5 h6 h7 h8 ih =>
    obtain ⟨t, ht, hs⟩ := ih
    obtain ⟨⟨mt, rfl⟩, hwt⟩ := replay_obj hw ht
    obtain ⟨u, hu, hsu⟩ := C31_stripped_partial h1 h2 h3 h4 h5 h6 h7
    rw [C27_sequential n h1 _ (by simpa using h7)] at hu
    obtain ⟨u', hu', hs'⟩ := SameVals.replayIn _ h8 h1 hwt hs.symm hu
    refine ⟨u', ?_, hs'.symm.trans hsu⟩
    rw [List.flatten_append, replay_append, ht]
    simpa [Res.bind] using hu'

theorem Differences.last_ne {m n : List (Bytes × Tson)} {ps : List (List Op)} (h : Differences m ps n) :
    ps.getLast? ≠ some [] := by
  cases h with
  | none => simp
  | next ps n k ops _ h1 h2 h3 h4 h5 h6 h7 h8 => simpa using h7

theorem run_concat (s : St) (a b : List Call) : run s (a ++ b) = run (run s a) b := by
  induction a generalizing s with
  | nil => rfl
  | cons c a ih => exact ih _

/-- What a logument holds that was fed with patches. -/
def Fed (g : Lgm) (ps : List (List Op)) : Prop :=
  g.Versions ps.length ∧ g.pool = none ∧ ∀ i, i < ps.length → mget g.patches (i + 1) = ps[i]?

theorem Fed.next {s : St} {ps : List (List Op)} (h : Fed s.lgm ps) (hs : Reachable s) (p : List Op) :
    Fed (run s [.store (.patch (some p)), .append]).lgm (ps ++ [p]) := by
  obtain ⟨h1, h2, h3⟩ := h
  have hst : (step s (.store (.patch (some p)))).1 = ⟨s.heap, { s.lgm with pool := some p }⟩ := by
    simp [step, St.onLgm, Lgm.store, StoreArg.resolve, h2]
  have hv : Lgm.Versions { s.lgm with pool := some p } ps.length := h1
  have hr : Reachable ⟨s.heap, { s.lgm with pool := some p }⟩ := by
    obtain ⟨a, b, c, d, rfl⟩ := hs
    refine ⟨a, b, c, d ++ [.store (.patch (some p))], ?_⟩
    rw [run_concat, ← hst]; rfl
  obtain ⟨-, e2, -⟩ := C03_append_commits_pool _ hr _ hv.gapFree
  obtain ⟨-, -, f3, f4, f5, -⟩ := e2 p rfl
  have hv' : ∃ m, (step ⟨s.heap, { s.lgm with pool := some p }⟩ .append).1.lgm.Versions m := hv.of_append
  have hrun : run s [.store (.patch (some p)), .append] = (step ⟨s.heap, { s.lgm with pool := some p }⟩ .append).1 := by
    simp only [run, hst]
  obtain ⟨-, e2, -⟩ := C03_append_commits_pool _ hr _ hv.gapFree
  obtain ⟨-, g2, -⟩ := e2 p rfl
  rw [hrun]
  obtain ⟨m, hm⟩ := hv'
  have hmm : m = ps.length + 1 := by
    have := congrArg List.length (hm.1.symm.trans g2.1)
    simp at this; exact this
  subst hmm
  refine ⟨by simpa using hm, f5, fun i hi => ?_⟩
  by_cases hil : i = ps.length
  · subst hil; rw [f3]; simp
  · have hlt : i < ps.length := by simp at hi; omega
    rw [f4 _ (by omega)]
    exact (h3 i hlt).trans (by rw [List.getElem?_append_left hlt])

theorem feed_fed (ps : List (List Op)) :
    ∀ (qs : List (List Op)) (s : St), Reachable s → Fed s.lgm qs → Fed (run s (feed ps)).lgm (qs ++ ps) := by
  induction ps with
  | nil => intro qs s _ hf; simpa [feed, run] using hf
  | cons p ps ih =>
    intro qs s hs hf
    have := ih (qs ++ [p]) (run s [.store (.patch (some p)), .append]) (by
      obtain ⟨a, b, c, d, rfl⟩ := hs
      exact ⟨a, b, c, d ++ [.store (.patch (some p)), .append], by rw [run_concat]⟩) (hf.next hs p)
    rw [← run_concat] at this
    simpa [feed] using this

theorem fed_new (h : Heap) (doc : Tson) (ps : List (List Op)) :
    Fed (run (newLogument h doc none).1 (feed ps)).lgm ps := by
  have := feed_fed ps [] (newLogument h doc none).1 ⟨h, doc, none, [], rfl⟩
    ⟨⟨rfl, by simp [newLogument, mkeys], fun v => by simp [newLogument, mkeys]; omega⟩, rfl, by simp⟩
  simpa using this

theorem Fed.opsUpTo {g : Lgm} {ps : List (List Op)} (h : Fed g ps) : ∀ v, v ≤ ps.length →
    Verif.opsUpTo g v = (ps.take v).flatten := by
  intro v
  induction v with
  | zero => intro _; simp [Verif.opsUpTo]
  | succ v ih =>
    intro hv
    have e := ih (by omega)
    unfold Verif.opsUpTo at e ⊢
    rw [List.range'_concat, List.flatMap_append, e]
    have hg := h.2.2 v (by omega)
    rw [List.getElem?_eq_getElem (by omega)] at hg
    have ht : ps.take (v + 1) = ps.take v ++ [ps[v]] := by
      rw [List.take_add_one, List.getElem?_eq_getElem (by omega : v < ps.length)]; rfl
    rw [ht, List.flatten_append]
    simp only [List.flatMap_cons, List.flatMap_nil, List.append_nil, Nat.one_mul, Nat.add_comm 1 v, hg,
      List.flatten_cons, List.flatten_nil]

theorem feed_calls (ps : List (List Op)) : ∀ c ∈ feed ps, (∃ a, c = .store a) ∨ c = .append := by
  intro c hc
  simp only [feed, List.mem_flatMap, List.mem_cons, List.not_mem_nil, or_false] at hc
  obtain ⟨p, -, rfl | rfl⟩ := hc
  · exact Or.inl ⟨_, rfl⟩
  · exact Or.inr rfl

theorem feed_grown (h : Heap) (doc : Tson) (ps : List (List Op)) :
    Grown doc (run (newLogument h doc none).1 (feed ps)) 0 := by
  have : Grown doc (newLogument h doc none).1 0 := .new h none
  have hc := feed_calls ps
  generalize (newLogument h doc none).1 = s at this
  generalize feed ps = cs at hc
  induction cs generalizing s with
  | nil => exact this
  | cons c cs ih =>
    refine ih _ ?_ (fun c hc' => hc c (by simp [hc']))
    rcases hc c (by simp) with ⟨a, rfl⟩ | rfl
    · exact .store s 0 a this
    · exact .append s 0 this

/-! ### C110 -/

/-- C110, for patches with the leading separator of each path dropped: a logument of the first document that is fed
with the differences along a series of documents shows at each version the values of that version's document.
Missing: the patches as generated (`C110_generated_violated`), and the documents `Differences` leaves out. -/
theorem C110_snapshot_partial {m n : List (Bytes × Tson)} (hw : (Tson.obj m).Wf) (h : Heap) (ps : List (List Op))
    {v : Nat} (hv : v ≤ ps.length) (hd : Differences m (ps.take v) n) :
    ∃ d t, ((run (newLogument h (.obj m) none).1 (feed ps)).snapshot v).2 = .ok d ∧
      ((run (newLogument h (.obj m) none).1 (feed ps)).snapshot v).1.heap.view d = some t ∧ SameVals t (.obj n) := by
  have hf := fed_new h (.obj m) ps
  obtain ⟨t, ht, hs⟩ := hd.replay hw
  rw [← hf.opsUpTo v hv] at ht
  have hne : mget (run (newLogument h (.obj m) none).1 (feed ps)).lgm.patches v ≠ some [] := by
    cases v with
    | zero =>
      intro hc
      have := (hf.1.gapFree.2 0).1 ⟨_, hc⟩
      omega
    | succ v =>
      rw [hf.2.2 v (by omega)]
      have := hd.last_ne
      rw [List.getLast?_take] at this
      simp only [Nat.add_one_ne_zero, if_false, Nat.add_sub_cancel] at this
      rw [List.getElem?_eq_getElem (by omega)] at this ⊢
      simpa using this
  obtain ⟨d, h1, h2⟩ := C06_first_snapshot_partial hw h none (feed ps) (feed_calls ps) hf.1.gapFree hv hne ht
  exact ⟨d, t, h1, h2, hs⟩

/-- C110 is violated for the patches as generated: for any two object documents that differ and have no member with
an empty name, the logument of the first that was fed with the generated patch does not show the second. -/
theorem C110_generated_violated {m n : List (Bytes × Tson)} (ha : (Tson.obj m).Wf) (hb : (Tson.obj n).Wf)
    (hm : ([] : Bytes) ∉ mkeys m) (hn : ([] : Bytes) ∉ mkeys n) {ops : List Op}
    (hg : generatePatch (.obj m) (.obj n) = .ok ops) (hne : ops ≠ []) (h : Heap) {d : HVal} {t : Tson}
    (hd : ((run (newLogument h (.obj m) none).1 (feed [ops])).snapshot 1).2 = .ok d)
    (ht : ((run (newLogument h (.obj m) none).1 (feed [ops])).snapshot 1).1.heap.view d = some t) :
    ¬ EqDoc false t (.obj n) := by
  have hf := fed_new h (.obj m) [ops]
  have ho := hf.opsUpTo 1 (by simp)
  have hp : mget (run (newLogument h (.obj m) none).1 (feed [ops])).lgm.patches 1 ≠ some [] := by
    rw [hf.2.2 0 (by simp)]; simpa using hne
  have C := C06_snapshot_is_replay_partial ha (feed_grown h (.obj m) [ops]) hf.1.gapFree (Nat.zero_le 1) (by simp)
    (Or.inr hp)
  rw [ho] at C
  simp only [List.take_succ_cons, List.take_nil, List.flatten_cons, List.flatten_nil, List.append_nil] at C
  cases hr : Verif.replay (.obj m) ops with
  | ok t0 =>
    obtain ⟨d', e1, e2⟩ := C.1 t0 hr
    rw [hd] at e1
    cases e1
    rw [ht] at e2
    cases e2
    exact C31_generated_patch_violated ha hb hm hn hg hne (by rw [C27_sequential m ha ops hne]; exact hr)
  | err => rw [C.2 (by rw [hr]; rfl)] at hd; cases hd
  | panic => rw [C.2 (by rw [hr]; rfl)] at hd; cases hd

/-- Three documents, the differences between them, and what the fed logument shows. -/
def serA : List (Bytes × Tson) := [(b!"a", .leaf (.bool true) 1), (b!"b", .leaf (.str b!"x") 2)]
def serB : List (Bytes × Tson) := [(b!"a", .leaf (.bool false) 3), (b!"b", .leaf (.str b!"x") 2), (b!"c", .leaf (.str b!"z") 4)]
def serC : List (Bytes × Tson) := [(b!"a", .leaf (.bool false) 3), (b!"c", .leaf (.str b!"w") 5)]
def serAB : List Op := [⟨.replace, b!"/a", .bool false, 3⟩, ⟨.add, b!"/c", .str b!"z", 4⟩]
def serBC : List Op := [⟨.replace, b!"/c", .str b!"w", 5⟩, ⟨.remove, b!"/b", .nil, 2⟩]

theorem flat_of_leaves {m n : List (Bytes × Tson)} (h : ∀ x ∈ m, ∃ p ts, x.2 = .leaf p ts) :
    FlatArrays false (.obj m) (.obj n) := by
  intro ks l k h1 _
  cases ks with
  | nil => cases h1
  | cons c ks =>
    obtain ⟨v, hv, h1⟩ := reaches_obj.1 h1
    obtain ⟨p, ts, e⟩ := h _ (mget_mem hv)
    dsimp only at e
    subst e
    cases h1

theorem serA_wf : (Tson.obj serA).Wf := by simp [serA, Tson.Wf, Tson.WfF, mkeys]
theorem serB_wf : (Tson.obj serB).Wf := by simp [serB, Tson.Wf, Tson.WfF, mkeys]
theorem serC_wf : (Tson.obj serC).Wf := by simp [serC, Tson.Wf, Tson.WfF, mkeys]

theorem ser_differences : Differences serA [serAB.map stripSlash, serBC.map stripSlash] serC := by
  refine .next [serAB.map stripSlash] serB serC serBC (.next [] serA serB serAB .none serA_wf serB_wf
    (.of_check (by decide)) (.of_check (by decide)) (flat_of_leaves (by simp [serA])) (by decide) (by decide) ?_)
    serB_wf serC_wf (.of_check (by decide)) (.of_check (by decide)) (flat_of_leaves (by simp [serB]))
    (by decide) (by decide) ?_
  all_goals
    intro o ho
    simp only [serAB, serBC, List.map_cons, List.map_nil, List.mem_cons, List.not_mem_nil, or_false] at ho
    rcases ho with rfl | rfl
  · exact Or.inl ⟨by decide, ⟨_, .bool _⟩, by decide⟩
  · exact Or.inl ⟨by decide, ⟨_, .str _⟩, by decide⟩
  · exact Or.inl ⟨by decide, ⟨_, .str _⟩, by decide⟩
  · exact Or.inr ⟨by decide, by decide, by decide⟩

example : ∃ d t, ((run (newLogument [] (.obj serA) none).1 (feed [serAB.map stripSlash, serBC.map stripSlash])).snapshot
      2).2 = .ok d ∧
    ((run (newLogument [] (.obj serA) none).1 (feed [serAB.map stripSlash, serBC.map stripSlash])).snapshot
      2).1.heap.view d = some t ∧ SameVals t (.obj serC) :=
  C110_snapshot_partial serA_wf [] _ (v := 2) (by decide) ser_differences

/-- The generated patch as it is: the snapshot writes below an empty name. -/
example : ∃ d, ((run (newLogument [] (.obj serA) none).1 (feed [serAB])).snapshot 1).2 = .ok d ∧
    ((run (newLogument [] (.obj serA) none).1 (feed [serAB])).snapshot 1).1.heap.view d =
      some (.obj (serA ++ [([], .obj [(b!"a", .leaf (.bool false) 3), (b!"c", .leaf (.str b!"z") 4)])])) :=
  ⟨.obj 0, by decide, by decide⟩

end Verif
