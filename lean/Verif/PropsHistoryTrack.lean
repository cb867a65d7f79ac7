import Verif.PropsCompactTrack
import Verif.PropsHistory
/-
C109: histories and tracks.
-/
namespace Verif

/-! ### Specification -/

/-- The list of a path in a history without the entry for the initial value. -/
def ListedAs (r : List (Bytes × List Op)) (q : Bytes) (L : List Op) : Prop :=
  ∃ i l, mget r q = some l ∧ l = i ++ L ∧ (i = [] ∨ ∃ v, i = [⟨.add, q, v, 0⟩])

/-! ### C109 -/

/-- What `History` lists for a path. -/
theorem history_path {s : St} (h : Reachable s) (o : Oracle) {pre : Bytes} {r : List (Bytes × List Op)}
    (hr : (s.history o pre).2 = .ok r) {q : Bytes} (hq : q ∈ mkeys r) :
    Matches pre q ∧ (s.history o pre).1 = (step s (.compact pre)).1 ∧ (s.lgm.compact pre).2.isOk = true ∧
    ∃ L, ListedAs r q L ∧ L.Perm (opChanges none (opsOn q (records s.lgm))) ∧
      ((mkeys (o.orderPatches (s.history o pre).1.lgm.patches)).Pairwise (· < ·) → L = opChanges none (opsOn q (records s.lgm))) := by
  obtain ⟨n, hn⟩ := h.versions
  have hok := (history_spec hn o pre hr).1
  obtain ⟨M, vs, e1, -, -, e2, rfl, -, -, e3, e4⟩ := C18_history_partial h o pre hr
  have hm := ((e3 q).1 hq).1
  obtain ⟨l, hl⟩ := mget_isSome.2 hq
  obtain ⟨doc, val, L, -, -, d3, -, d5, d6⟩ := e4 q l hl
  have hc := (compact_path h hok q).1 hm
  have hrec : records (s.history o pre).1.lgm = records (s.lgm.compact pre).1 := by rw [e1]; rfl
  rw [← e2, hrec, hc] at d5 d6
  refine ⟨hm, e1, hok, L, ⟨_, l, hl, d3, ?_⟩, d5, d6⟩
  split
  · exact .inl rfl
  · exact .inr ⟨_, rfl⟩

/-- C109 (part): what `History` lists for a path, apart from the initial value, are the operations that `TemporalTrack` reports
for it over a window containing all recorded times; in the same order if the runtime visits the versions in ascending order.
Missing from the full statement: other orders (`C109_order_fails`); paths the initial document does not have (`C109_new_path_fails`). -/
theorem C109_track_partial {s : St} (h : Reachable s) (o : Oracle) {pre : Bytes} {r : List (Bytes × List Op)}
    (hr : (s.history o pre).2 = .ok r) {a b : Int} (hw : ∀ p ∈ committed s.lgm, a ≤ p.ts ∧ p.ts ≤ b)
    {r' : List (Nat × List Op)} (hr' : (s.lgm.temporalTrack a b).2 = .ok r') {q : Bytes} (hq : q ∈ mkeys r) :
    ∃ L, ListedAs r q L ∧ L.Perm (opsOn q (entries r')) ∧
      ((mkeys (o.orderPatches (s.history o pre).1.lgm.patches)).Pairwise (· < ·) → L = opsOn q (entries r')) := by
  obtain ⟨-, -, -, L, h1, h2, h3⟩ := history_path h o hr hq
  have e : opsOn q (entries r') = opChanges none (opsOn q (records s.lgm)) := by
    rw [temporalTrack_path h hr']
    congr 1
    unfold within
    rw [List.filter_eq_self]
    intro p hp
    simp only [opsOn, List.mem_map, List.mem_filter] at hp
    obtain ⟨x, ⟨hx, -⟩, rfl⟩ := hp
    simpa using hw x.2 (List.mem_map.2 ⟨x, hx, rfl⟩)
  rw [e]
  exact ⟨L, h1, h2, h3⟩

/-- C109: every matching path that a track over all times reports has a history, and only those. -/
theorem C109_paths {s : St} (h : Reachable s) (o : Oracle) {pre : Bytes} {r : List (Bytes × List Op)}
    (hr : (s.history o pre).2 = .ok r) {a b : Int} (hw : ∀ p ∈ committed s.lgm, a ≤ p.ts ∧ p.ts ≤ b)
    {r' : List (Nat × List Op)} (hr' : (s.lgm.temporalTrack a b).2 = .ok r') (q : Bytes) :
    q ∈ mkeys r ↔ Matches pre q ∧ opsOn q (entries r') ≠ [] := by
  obtain ⟨-, -, -, -, -, -, -, -, -, e3, -⟩ := C18_history_partial h o pre hr
  have e : opsOn q (entries r') = opChanges none (opsOn q (records s.lgm)) := by
    rw [temporalTrack_path h hr']
    congr 1
    unfold within
    rw [List.filter_eq_self]
    intro p hp
    simp only [opsOn, List.mem_map, List.mem_filter] at hp
    obtain ⟨x, ⟨hx, -⟩, rfl⟩ := hp
    simpa using hw x.2 (List.mem_map.2 ⟨x, hx, rfl⟩)
  rw [e3 q, e]
  refine and_congr_right fun _ => ?_
  constructor
  · rintro ⟨x, hx, hxq⟩ hnil
    have hmem : x.2 ∈ opsOn q (records s.lgm) := List.mem_map.2 ⟨x, List.mem_filter.2 ⟨hx, by simpa using hxq⟩, rfl⟩
    cases hL : opsOn q (records s.lgm) with
    | nil => rw [hL] at hmem; simp at hmem
    | cons y L => rw [hL] at hnil; simp [opChanges] at hnil
  · intro hne
    cases hL : opsOn q (records s.lgm) with
    | nil => rw [hL] at hne; simp [opChanges] at hne
    | cons y L =>
      have hmem : y ∈ opsOn q (records s.lgm) := by rw [hL]; simp
      simp only [opsOn, List.mem_map, List.mem_filter, decide_eq_true_eq] at hmem
      obtain ⟨x, ⟨hx, hxq⟩, -⟩ := hmem
      exact ⟨x, hx, hxq⟩

/-- C109 (part): a history asked for again, with whatever the runtime's orders are, lists the same operations for each path. -/
theorem C109_again_partial {s : St} (h : Reachable s) (o o' : Oracle) {pre : Bytes} {r r' : List (Bytes × List Op)}
    (hr : (s.history o pre).2 = .ok r) (hr' : ((s.history o pre).1.history o' pre).2 = .ok r') {q : Bytes} (hq : q ∈ mkeys r)
    (hq' : q ∈ mkeys r') :
    ∃ L L', ListedAs r q L ∧ ListedAs r' q L' ∧ L.Perm L' := by
  obtain ⟨hm, e1, hok, L, h1, h2, -⟩ := history_path h o hr hq
  have hs' : Reachable (s.history o pre).1 := by rw [e1]; exact h.step _
  obtain ⟨-, -, -, L', h1', h2', -⟩ := history_path hs' o' hr' hq'
  refine ⟨L, L', h1, h1', h2.trans (List.Perm.trans ?_ h2'.symm)⟩
  have hrec : records (s.history o pre).1.lgm = records (s.lgm.compact pre).1 := by rw [e1]; rfl
  rw [hrec, (compact_path h hok q).1 hm, opChanges_idem]

example : (∀ p ∈ committed histLog.lgm, 0 ≤ p.ts ∧ p.ts ≤ 100) ∧ (histLog.lgm.temporalTrack 0 100).2.isOk = true ∧
    (histLog.history Oracle.plain b!"/a").2.isOk = true ∧
    ((histLog.history Oracle.plain b!"/a").1.history Oracle.backwards b!"/a").2.isOk = true ∧
    (mkeys (Oracle.plain.orderPatches (histLog.history Oracle.plain b!"/a").1.lgm.patches)).Pairwise (· < ·) := by decide

/-- C109 fails if the runtime visits the versions in another order: the operations are listed in another order than in the
track. -/
theorem C109_order_fails : ∃ r r', Reachable histLog ∧ (histLog.history Oracle.backwards b!"/a").2 = .ok r ∧
    (histLog.lgm.temporalTrack 0 100).2 = .ok r' ∧
    mget r b!"/a" = some [⟨.add, b!"/a", .leaf (.bool true) 1, 0⟩, demoOp b!"/a" true 9, demoOp b!"/a" false 5] ∧
    opsOn b!"/a" (entries r') = [demoOp b!"/a" false 5, demoOp b!"/a" true 9] :=
  ⟨_, _, histLog_reachable, rfl, rfl, by decide, by decide⟩

/-- C109 fails for a path that the initial document does not have: the track reports the operation, `History` panics. -/
theorem C109_new_path_fails :
    let s := run (newLogument [] demoDoc none).1 [.store (.op ⟨.add, b!"/z", .bool true, 5⟩), .append]
    Reachable s ∧ (s.lgm.temporalTrack 0 100).2 = .ok [(1, [⟨.add, b!"/z", .bool true, 5⟩])] ∧
      (s.history Oracle.plain b!"/z").2 = .panic :=
  ⟨⟨[], demoDoc, none, _, rfl⟩, by decide, by decide⟩

end Verif
