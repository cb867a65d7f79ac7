import Verif.SpecExpStore
import Verif.PropsTemporal
import Verif.PropsOutcome
import Verif.PropsExpStore
import Verif.JsonImport
/-
C68: the logument of the temporal experiments and the sequence of its queries.
-/
namespace Verif

/-! ### One operation on a member of an object -/

theorem hasNull_mset {m : List (Bytes × Tson)} {k : Bytes} {c : Tson} (h : HasNull (.obj (mset m k c))) :
    HasNull c ∨ HasNull (.obj m) := by
  cases h with
  | obj _ k' c' hm h =>
    rcases mem_mset hm with h' | h'
    · left; rw [show c' = c from (Prod.mk.inj h').2] at h; exact h
    · exact .inr (.obj _ _ _ h' h)

theorem mem_mdel {m : List (Bytes × ν)} {k : Bytes} {e : Bytes × ν} (h : e ∈ mdel m k) : e ∈ m := by
  induction m with
  | nil => exact h
  | cons a m ih =>
    unfold mdel at h
    split at h
    · exact List.mem_cons_of_mem _ (ih h)
    · rcases List.mem_cons.1 h with h | h
      · simp [h]
      · exact List.mem_cons_of_mem _ (ih h)

theorem reaches_noindex {t : Tson} {k : Bytes} {ks : List Bytes} {u : Tson} (hk : atoi k = none) (h : Reaches t (k :: ks) u) :
    ∃ m c, t = .obj m ∧ mget m k = some c ∧ Reaches c ks u := by
  cases h with
  | member m _ _ c _ h1 h2 => exact ⟨m, c, rfl, h1, h2⟩
  | element _ _ _ i _ _ h1 => rw [hk] at h1; cases h1

theorem applyT_member {op : Op} (hs : SimpleOp op) (k : Bytes) : ∀ (ks : List Bytes) (m n : List (Bytes × Tson)),
    (∀ seg ∈ ks ++ [k], atoi seg = none) → Reaches (.obj m) ks (.obj n) →
    ∃ m', applyT (.obj m) (ks ++ [k]) op = (.obj m', .ok (.obj m')) ∧
      (HasNull (.obj m') → HasNull (.obj m)) ∧
      ∀ qs n', ¬ (ks ++ [k]) <+: qs → Reaches (.obj m) qs (.obj n') → ∃ n'', Reaches (.obj m') qs (.obj n'')
  | [], m, n, _, _ => by
    have hother : ∀ m' : List (Bytes × Tson), (∀ k', k' ≠ k → mget m' k' = mget m k') →
        ∀ qs n', ¬ ([] ++ [k]) <+: qs → Reaches (.obj m) qs (.obj n') → ∃ n'', Reaches (.obj m') qs (.obj n'') := by
      intro m' hm' qs n' hq h
      cases qs with
      | nil => exact ⟨m', .here _⟩
      | cons k' qs =>
        have hk : k' ≠ k := by rintro rfl; exact hq (by simp)
        obtain ⟨c, h1, h2⟩ := reaches_obj.1 h
        exact ⟨n', reaches_obj.2 ⟨c, by rw [hm' k' hk, h1], h2⟩⟩
    rcases hs.1 with ⟨hk, p, hp⟩ | ⟨hk, -⟩
    · have hc : op.kind.cls = .set := by rcases hk with h | h <;> rw [h] <;> rfl
      have hv : opVal op.value = .prim p := by generalize op.value = v at hp; cases hp <;> rfl
      refine ⟨mset m k (.leaf p op.ts), ?_, ?_, hother _ fun k' hk' => mget_mset_ne _ _ hk'⟩
      · simp only [List.nil_append, applyT, hc, hv]
      · intro h
        rcases hasNull_mset h with h | h
        · cases h
        · exact h
    · have hc : op.kind.cls = .remove := by rw [hk]; rfl
      refine ⟨mdel m k, ?_, ?_, hother _ fun k' hk' => mget_mdel_ne _ hk'⟩
      · simp only [List.nil_append, applyT, hc]
      · intro h
        cases h with
        | obj _ k' c' hm h => exact .obj _ _ _ (mem_mdel hm) h
  | a :: ks, m, n, hat, hr => by
    obtain ⟨m0, c, h0, hg, hc⟩ := reaches_noindex (hat a (by simp)) hr
    cases h0
    have hcobj : ∃ mc, c = .obj mc := by
      cases ks with
      | nil => cases hc; exact ⟨n, rfl⟩
      | cons b ks =>
        obtain ⟨m0, _, h0, -⟩ := reaches_noindex (hat b (by simp)) hc
        exact ⟨m0, h0⟩
    obtain ⟨mc, rfl⟩ := hcobj
    obtain ⟨mc', h1, h2, h3⟩ := applyT_member hs k ks mc n (fun seg h => hat seg (by simp at h ⊢; exact .inr h)) hc
    refine ⟨mset m a (.obj mc'), ?_, ?_, ?_⟩
    · obtain ⟨b, l, hb⟩ : ∃ b l, ks ++ [k] = b :: l := by cases ks <;> exact ⟨_, _, rfl⟩
      rw [List.cons_append, hb, applyT]
      simp only [hg]
      rw [← hb, h1]; rfl
    · intro h
      rcases hasNull_mset h with h | h
      · exact .obj _ _ _ (mget_mem hg) (h2 h)
      · exact h
    · intro qs n' hq h
      cases qs with
      | nil => exact ⟨_, .here _⟩
      | cons k' qs =>
        obtain ⟨c, e1, e2⟩ := reaches_obj.1 h
        by_cases hk : k' = a
        · subst hk
          rw [hg] at e1; cases e1
          obtain ⟨n'', h'⟩ := h3 qs n' (fun h => hq (by simpa using h)) e2
          exact ⟨n'', reaches_obj.2 ⟨_, mget_mset_self _ _ _, h'⟩⟩
        · exact ⟨n', reaches_obj.2 ⟨c, by rw [mget_mset_ne _ _ hk, e1], e2⟩⟩

/-- Selected operations on members of objects all succeed. -/
theorem applyPatchT_members {all : List Op} (hL : SimpleLog all) : ∀ (sel : List Op) (m : List (Bytes × Tson)),
    (∀ p ∈ sel, p ∈ all) → MembersOf (.obj m) all →
    ∃ m', applyPatchT (.obj m) sel = (.obj m', .ok ()) ∧ MembersOf (.obj m') all ∧ (HasNull (.obj m') → HasNull (.obj m))
  | [], m, _, hm => ⟨m, rfl, hm, id⟩
  | p :: sel, m, hsub, hm => by
    have hp : p ∈ all := hsub p (by simp)
    obtain ⟨ks, k, hk⟩ : ∃ ks k, writeParts p.path = ks ++ [k] := by
      have hne : writeParts p.path ≠ [] := split_ne_nil' _
      exact ⟨_, _, (List.dropLast_concat_getLast hne).symm⟩
    obtain ⟨n, hn⟩ := hm p hp ks k hk
    have hs := hL.1 p hp
    obtain ⟨m1, h1, h2, h3⟩ := applyT_member hs k ks m n (by rw [← hk]; exact hs.2) hn
    have hm1 : MembersOf (.obj m1) all := by
      intro q hq qs k' hqk
      obtain ⟨n', hn'⟩ := hm q hq qs k' hqk
      refine h3 qs n' (fun hpre => ?_) hn'
      rw [← hk] at hpre
      rcases hL.2 p hp q hq with he | hi
      · have hlen := hpre.length_le
        rw [he, hqk] at hlen
        simp at hlen
        omega
      · exact hi.1 (hpre.trans (by rw [hqk]; exact List.prefix_append _ _))
    obtain ⟨m', e1, e2, e3⟩ := applyPatchT_members hL sel m1 (fun q hq => hsub q (by simp [hq])) hm1
    refine ⟨m', ?_, e2, fun h => h2 (e3 h)⟩
    simp only [applyPatchT, applyOpT, hk, h1]
    exact e1

/-! ### The sequence of queries -/

/-- State of the logument between queries: the document in place, the operations pending or recorded as version 1, and
what the document looks like after the query at `last`. -/
structure Queried (doc : Tson) (ops : List Op) (s : St) (last : Option Int) : Prop where
  doc : ∃ a m F, s.lgm.snaps = [(0, .obj a)] ∧ Rep s.heap (.obj a) (.obj m) F ∧ ¬ HasNull (.obj m) ∧ MembersOf (.obj m) ops ∧
    ∀ ks, (∀ p ∈ ops, ∀ t, last = some t → p.ts ≤ t → Independent (writeParts p.path) ks) →
      ∀ x, Reaches (.obj m) ks x ↔ Reaches doc ks x
  recorded : (s.lgm.version = [0] ∧ s.lgm.patches = [] ∧ s.lgm.pool = some ops) ∨
    (s.lgm.version = [0, 1] ∧ ∃ l, s.lgm.patches = [(1, l)] ∧ l.Perm ops ∧ l.Pairwise (fun a b => a.ts ≤ b.ts))

theorem Queried.latest {doc : Tson} {ops : List Op} {s : St} {last : Option Int} (h : Queried doc ops s last) :
    ∃ r, s.latestOf 0 = some r := by
  obtain ⟨a, m, F, h1, h2, h3, -⟩ := h.doc
  unfold St.latestOf Lgm.snap
  rw [h1]
  simp only [mget, if_true, Option.getD_some]
  rw [h2.view]
  dsimp only
  cases hl : getLatestTimestamp (.obj m) with
  | some r => exact ⟨r, rfl⟩
  | none => exact absurd ((C32_latest_timestamp _).1.1 hl) h3

theorem Queried.base {doc : Tson} {ops : List Op} {s : St} {last : Option Int} (h : Queried doc ops s last) (o : Oracle)
    (t : Int) {a : Nat} (ha : s.lgm.snaps = [(0, .obj a)]) :
    ∃ g l, s.temporalSnapshot o t = St.temporalApply ⟨s.heap, g⟩ o t 0 (.obj a) ∧ g.snaps = [(0, .obj a)] ∧ g.version = [0, 1] ∧
      g.patches = [(1, l)] ∧ l.Perm ops := by
  obtain ⟨r, hr⟩ := h.latest
  have hk : sortedKeys s.lgm.snaps = [0] := by rw [ha]; rfl
  have hv : chooseVersion s t 0 (sortedKeys s.lgm.snaps) = some 0 := by
    rw [hk]; simp only [chooseVersion, hr]; split <;> rfl
  have hsn : s.lgm.snap 0 = .obj a := by simp [Lgm.snap, ha, mget]
  rcases h.recorded with ⟨h1, h2, h3⟩ | ⟨h1, l, h2, h3, -⟩
  · refine ⟨s.lgm.append.1, ops, ?_, ?_, ?_, ?_, .refl _⟩
    · simp only [St.temporalSnapshot, h1, hv, hsn, h3, List.getLast?_singleton, Nat.le_refl, ge_iff_le, if_true]
    all_goals simp [Lgm.append, Lgm.isGrown, h1, h2, h3, ha, mset]
  · refine ⟨s.lgm, l, ?_, ha, h1, h2, h3⟩
    simp [St.temporalSnapshot, h1, hv, hsn]

/-- One query. -/
theorem Queried.query {doc : Tson} {ops : List Op} {s : St} {last : Option Int} (h : Queried doc ops s last) (hL : SimpleLog ops)
    (o : Oracle) {t : Int} (ht : ∀ t', last = some t' → t' ≤ t) :
    ∃ s' d u, s.temporalSnapshot o t = (s', .ok d) ∧ s'.heap.view d = some u ∧ Queried doc ops s' (some t) ∧
      LooksAt doc ops t u := by
  obtain ⟨a, m, F, ha, hrep, hnull, hmem, hframe⟩ := h.doc
  obtain ⟨g, l, hb, g1, g2, g3, g4⟩ := h.base o t ha
  rw [hb]
  have h0 : LatestPerPath t [] (([] : List (Bytes × Op)).map Prod.snd) := ⟨by simp, by simp, by simp⟩
  have hpo : g.patchOf 1 = l := by simp [Lgm.patchOf, g3, mget]
  obtain ⟨-, -, h3⟩ := pickLatest_spec t (o.sortOps l) [] [] (by simp [mkeys]) (by simp) h0
  have hsel : LatestPerPath t ops ((o.orderOps (pickLatest t [] (o.sortOps l))).map Prod.snd) :=
    h3.perm (by simpa using (o.sortOps_perm l).trans g4) ((o.orderOps_perm _).map _)
  obtain ⟨sel, hse⟩ : ∃ sel, sel = (o.orderOps (pickLatest t [] (o.sortOps l))).map Prod.snd := ⟨_, rfl⟩
  rw [← hse] at hsel
  obtain ⟨m', e1, e2, e3⟩ := applyPatchT_members hL sel m (fun p hp => (hsel.latest p hp).1) hmem
  obtain ⟨G, hG, -, -, -, hout⟩ := applyPatchLoop_obj sel hrep .null
  rw [e1] at hG hout
  simp only [Res.map] at hout hG
  have hpw : sel.Pairwise (fun a b => Independent (writeParts a.path) (writeParts b.path)) := by
    have h := hsel.once
    rw [List.Nodup, List.pairwise_map] at h
    refine h.imp_of_mem fun {x y} hx hy hxy => ?_
    exact (hL.2 x (hsel.latest x hx).1 y (hsel.latest y hy).1).resolve_left hxy
  obtain ⟨f1, f2⟩ := applyPatchT_independent sel (fun p hp => hL.1 p (hsel.latest p hp).1) hpw e1
  have hfr : ∀ ks, (∀ p ∈ ops, p.ts ≤ t → Independent (writeParts p.path) ks) →
      ∀ x, Reaches (.obj m') ks x ↔ Reaches doc ks x := by
    intro ks hks x
    rw [f2 ks (fun p hp => hks p (hsel.latest p hp).1 (hsel.latest p hp).2.1) x]
    exact hframe ks (fun p hp t' ht' hle => hks p hp (Int.le_trans hle (ht t' ht'))) x
  refine ⟨⟨(applyPatchLoop s.heap (.obj a) .null sel).1, { g with patches := [(1, o.sortOps l)] }⟩,
    if sel = [] then .null else .obj a, if sel = [] then .null else .obj m', ?_, ?_, ⟨⟨a, m', G, g1, hG, fun h => hnull (e3 h), e2, ?_⟩,
      by exact .inr ⟨g2, _, rfl, (o.sortOps_perm l).trans g4, o.sortOps_sorted l⟩⟩, ?_⟩
  · unfold St.temporalApply
    dsimp only
    rw [hpo, ← hse]
    rcases hA : applyPatch s.heap (.obj a) sel with ⟨h', r⟩
    have hA' : applyPatchLoop s.heap (.obj a) .null sel = (h', r) := hA
    rw [hA'] at hout ⊢
    dsimp only at hout
    subst hout
    dsimp only
    rw [g3]
    simp [mget, mset]
  · dsimp only
    split
    · rfl
    · exact hG.view
  · intro ks hks x
    exact hfr ks (fun p hp hle => hks p hp t rfl hle) x
  · have hin : ∀ p ∈ ops, p.ts ≤ t → (∀ p' ∈ ops, p'.path = p.path → p'.ts ≤ t → p' ≠ p → p'.ts < p.ts) → p ∈ sel := by
      intro p hp hpt hlast
      obtain ⟨q, hq, hqp⟩ := hsel.cover p hp hpt
      obtain ⟨l1, l2, l3⟩ := hsel.latest q hq
      by_cases hqe : q = p
      · exact hqe ▸ hq
      · have := hlast q l1 hqp l2 hqe
        have := l3 p hp hqp.symm hpt
        omega
    have hne : ∀ p ∈ ops, p.ts ≤ t → sel ≠ [] := by
      rintro p hp hpt rfl
      obtain ⟨_, hq, _⟩ := hsel.cover p hp hpt
      simp at hq
    refine ⟨?_, ?_, ?_, ?_⟩
    · intro hall
      rw [if_pos]
      cases sel with
      | nil => rfl
      | cons p sel =>
        have := hsel.latest p (by simp)
        have := hall p this.1
        omega
    · intro p hp hpt hlast hk x hx
      rw [if_neg (hne p hp hpt)]
      rcases (hL.1 p hp).1 with ⟨hk', -⟩ | ⟨hk', -⟩
      · exact (f1 p (hin p hp hpt hlast) _ (Or.inl ⟨hk', x, hx, rfl⟩)).reaches.1 _ _ rfl
      · exact absurd hk' hk
    · intro p hp hpt hlast hk x
      rw [if_neg (hne p hp hpt)]
      exact (f1 p (hin p hp hpt hlast) none (Or.inr ⟨hk, rfl⟩)).reaches.2 rfl x
    · rintro ⟨p, hp, hpt⟩ ks hks x
      rw [if_neg (hne p hp hpt)]
      exact hfr ks hks x

theorem Queried.queries {doc : Tson} {ops : List Op} (hL : SimpleLog ops) : ∀ (qs : List (Oracle × Int)) {s : St} {last : Option Int},
    Queried doc ops s last → (∀ t', last = some t' → ∀ q ∈ qs, t' ≤ q.2) → qs.Pairwise (fun a b => a.2 ≤ b.2) →
    (s.queries qs).2.length = qs.length ∧
    ∀ (i : Nat) (q : Oracle × Int), qs[i]? = some q → ∃ u, (s.queries qs).2[i]? = some (.ok (some u)) ∧ LooksAt doc ops q.2 u
  | [], _, _, _, _, _ => ⟨rfl, by simp⟩
  | q :: qs, s, last, h, ht, hpw => by
    rw [List.pairwise_cons] at hpw
    obtain ⟨s', d, u, e1, e2, e3, e4⟩ := h.query hL q.1 (t := q.2) (fun t' ht' => ht t' ht' q (by simp))
    obtain ⟨i1, i2⟩ := Queried.queries hL qs e3 (fun t' ht' q' hq' => by cases ht'; exact hpw.1 q' hq') hpw.2
    have hq : (s.queries (q :: qs)).2 = .ok (some u) :: (s'.queries qs).2 := by simp [St.queries, e1, e2]
    rw [hq]
    refine ⟨by simp [i1], ?_⟩
    intro i q' hi
    cases i with
    | zero => simp at hi; subst hi; exact ⟨u, rfl, e4⟩
    | succ i => simpa using i2 i q' (by simpa using hi)

/-- After a query, the operations are recorded as version 1, in the order of their times. -/
theorem Queried.recorded_after {doc : Tson} {ops : List Op} (hL : SimpleLog ops) : ∀ (qs : List (Oracle × Int)) {s : St} {last : Option Int},
    Queried doc ops s last → (∀ t', last = some t' → ∀ q ∈ qs, t' ≤ q.2) → qs.Pairwise (fun a b => a.2 ≤ b.2) →
    (qs ≠ [] ∨ s.lgm.version = [0, 1]) →
    ∃ l, (s.queries qs).1.lgm.patches = [(1, l)] ∧ l.Perm ops ∧ l.Pairwise (fun a b => a.ts ≤ b.ts)
  | [], s, _, h, _, _, hv => by
    rcases h.recorded with ⟨h1, -⟩ | ⟨-, h2⟩
    · rw [h1] at hv; simp at hv
    · exact h2
  | q :: qs, s, last, h, ht, hpw, _ => by
    rw [List.pairwise_cons] at hpw
    obtain ⟨a, m, F, ha, -⟩ := h.doc
    obtain ⟨g, l, hb, g1, g2, g3, g4⟩ := h.base q.1 q.2 ha
    obtain ⟨s', d, u, e1, e2, e3, e4⟩ := h.query hL q.1 (t := q.2) (fun t' ht' => ht t' ht' q (by simp))
    have hv' : s'.lgm.version = [0, 1] := by
      rw [hb] at e1
      have := congrArg (fun x => x.1.lgm.version) e1
      rw [← this]
      simp only [St.temporalApply, g3, mget]
      repeat' split
      all_goals first | exact g2 | contradiction
    have hq : (s.queries (q :: qs)).1 = (s'.queries qs).1 := by simp [St.queries, e1]
    rw [hq]
    exact Queried.recorded_after hL qs e3 (fun t' ht' q' hq' => by cases ht'; exact hpw.1 q' hq') hpw.2 (.inr hv')

theorem queried_new (h : Heap) {m : List (Bytes × Tson)} (hw : (Tson.obj m).Wf) (hn : ¬ HasNull (.obj m)) {ops : List Op}
    (hm : MembersOf (.obj m) ops) : Queried (.obj m) ops (newLogument h (.obj m) (some (.ops (some ops)))).1 none := by
  obtain ⟨a, ha⟩ := store_obj h m
  obtain ⟨-, F, hF, -⟩ := store_rep h (.obj m) hw
  refine ⟨⟨a, m, F, ?_, ?_, hn, hm, fun ks _ x => Iff.rfl⟩, .inl ⟨rfl, rfl, rfl⟩⟩
  · simp [newLogument, Lgm.store, StoreArg.resolve, ha]
  · rw [ha] at hF
    exact hF

/-- **C68.**  A sequence of temporal snapshots at ascending times on the logument of the experiments: no query panics, and
each shows what the document looks like at its time, whatever the runtime's choices are. -/
theorem C68_queries_partial (h : Heap) {m : List (Bytes × Tson)} (hw : (Tson.obj m).Wf) (hn : ¬ HasNull (.obj m)) {ops : List Op}
    (hL : SimpleLog ops) (hm : MembersOf (.obj m) ops) {qs : List (Oracle × Int)} (hq : qs.Pairwise (fun a b => a.2 ≤ b.2)) :
    ((newLogument h (.obj m) (some (.ops (some ops)))).1.queries qs).2.length = qs.length ∧
    ∀ (i : Nat) (q : Oracle × Int), qs[i]? = some q →
      ∃ u, ((newLogument h (.obj m) (some (.ops (some ops)))).1.queries qs).2[i]? = some (.ok (some u)) ∧
        LooksAt (.obj m) ops q.2 u :=
  Queried.queries hL qs (queried_new h hw hn hm) (by simp) hq

/-! ### C69: both stores agree -/

theorem nullFree_hasNull (t : Tson) : NullFree t → ¬ HasNull (sortT t) := by
  induction t using Tson.induction with
  | null => intro h; exact h.elim
  | leaf p ts => intro _ h; cases h
  | obj m ih =>
    intro h h'
    rw [sortT] at h'
    cases h' with
    | obj _ k c hm hc =>
      have := (sortM_perm _).mem_iff.1 hm
      rw [sortTF_eq] at this
      obtain ⟨e, he, h2⟩ := List.mem_map.1 this
      cases h2
      exact ih e he ((nullFreeF_iff m).1 h e he) hc
  | arr l ih =>
    intro h h'
    rw [sortT] at h'
    cases h' with
    | arr _ c hm hc =>
      rw [sortTL_eq] at hm
      obtain ⟨e, he, h2⟩ := List.mem_map.1 hm
      cases h2
      exact ih e he ((nullFreeL_iff l).1 h e he) hc

theorem plainJsonF_mem {m : List (Bytes × Js)} (h : PlainJsonF m) {e : Bytes × Js} (he : e ∈ m) : PlainJson e.2 := by
  induction m with
  | nil => simp at he
  | cons a m ih =>
    obtain ⟨k, v⟩ := a
    rcases List.mem_cons.1 he with rfl | he
    · exact h.2.1
    · exact ih h.2.2 he

theorem plainJsonL_mem {l : List Js} (h : PlainJsonL l) {v : Js} (hv : v ∈ l) : PlainJson v := by
  induction l with
  | nil => simp at hv
  | cons a l ih =>
    rcases List.mem_cons.1 hv with rfl | hv
    · exact h.1
    · exact ih h.2 hv

theorem plain_inside {d : Js} {ks : List Bytes} {w : Js} (h : Js.Inside d ks w) : PlainJson d → PlainJson w := by
  induction h with
  | here => exact id
  | member hm _ ih => exact fun hd => ih (plainJsonF_mem hd.2 hm)
  | element hl _ ih => exact fun hd => ih (plainJsonL_mem hd (List.mem_of_getElem? hl))

theorem goodDoc_of_plain {d : Js} (hk : GoodKeys d) (hp : PlainJson d) : GoodDoc d where
  keys ks w h k hk' := ⟨(hk ks w h k hk').1, (hk ks w h k hk').2.1, (hk ks w h k hk').2.2.1⟩
  unique ks m h := (plain_inside h hp).1
  numbers ks f h := by
    obtain ⟨_, _, _, _, rfl⟩ := plain_inside h hp
    simp

theorem at_inside : ∀ {d : Js} {ks : List Bytes} {w : Js}, d.at? ks = some w → Js.Inside d ks w
  | d, [], w, h => by simp only [Js.at?, Option.some.injEq] at h; subst h; exact .here _
  | .obj m, k :: ks, w, h => by
    simp only [Js.at?, Option.bind_eq_some_iff] at h
    obtain ⟨c, h1, h2⟩ := h
    exact .member (mget_mem h1) (at_inside h2)
  | .null, _ :: _, _, h | .bool _, _ :: _, _, h | .num _, _ :: _, _, h | .int _, _ :: _, _, h | .str _, _ :: _, _, h
  | .arr _, _ :: _, _, h => by simp [Js.at?] at h

theorem at_append : ∀ {d : Js} (ks : List Bytes) {ks' : List Bytes}, d.at? (ks ++ ks') = (d.at? ks).bind fun c => c.at? ks'
  | d, [], _ => by simp [Js.at?]
  | .obj m, k :: ks, ks' => by
    simp only [List.cons_append, Js.at?]
    cases mget m k with
    | none => rfl
    | some c => exact at_append ks
  | .null, _ :: _, _ | .bool _, _ :: _, _ | .num _, _ :: _, _ | .int _, _ :: _, _ | .str _, _ :: _, _
  | .arr _, _ :: _, _ => by simp [Js.at?]

theorem stamp_reaches : ∀ {d : Js} {ks : List Bytes} {w : Js}, PlainJson d → d.at? ks = some w →
    Reaches (sortT (stampT d)) ks (sortT (stampT w))
  | d, [], w, _, h => by simp only [Js.at?, Option.some.injEq] at h; subst h; exact .here _
  | .obj m, k :: ks, w, hp, h => by
    simp only [Js.at?, Option.bind_eq_some_iff] at h
    obtain ⟨c, h1, h2⟩ := h
    rw [stampT, sortT, sortTF_eq, stampTF_eq]
    refine .member _ _ _ (sortT (stampT c)) _ ?_ (stamp_reaches (plainJsonF_mem hp.2 (mget_mem h1)) h2)
    rw [mget_sortM, mget_mapV, mget_mapV, h1]
    · rfl
    · rw [mkeys, mapV, mapV, List.map_map, List.map_map]; exact hp.1
  | .null, _ :: _, _, _, h | .bool _, _ :: _, _, _, h | .num _, _ :: _, _, _, h | .int _, _ :: _, _, _, h
  | .str _, _ :: _, _, _, h | .arr _, _ :: _, _, _, h => by simp [Js.at?] at h

theorem decode_of_not_mem : ∀ s : Bytes, bTilde ∉ s → decode s = s
  | [], _ => rfl
  | [c], _ => rfl
  | c :: d :: r, h => by
    have hc : c ≠ bTilde := fun e => h (by simp [e])
    rw [decode, if_neg (fun e => hc e.1), if_neg (fun e => hc e.1), decode_of_not_mem (d :: r) (fun e => h (by simp at e ⊢; exact .inr e))]

theorem mem_joinWith {c sep : UInt8} : ∀ {ks : List Bytes}, c ∈ joinWith sep ks → c = sep ∨ ∃ k ∈ ks, c ∈ k
  | [], h => by simp [joinWith] at h
  | [k], h => .inr ⟨k, by simp, h⟩
  | k :: k' :: ks, h => by
    simp only [joinWith, List.mem_append, List.mem_cons] at h
    rcases h with h | h | h
    · exact .inr ⟨k, by simp, h⟩
    · exact .inl h
    · rcases mem_joinWith h with h | ⟨x, hx, h⟩
      · exact .inl h
      · exact .inr ⟨x, by simp [List.mem_cons.1 hx], h⟩

theorem dots_joinWith : ∀ {ks : List Bytes}, (∀ k ∈ ks, bDot ∉ k) → dotsToSlashes (joinWith bDot ks) = joinWith bSlash ks
  | [], _ => rfl
  | [k], h => dotsToSlashes_of_not_mem k (h k (by simp))
  | k :: k' :: ks, h => by
    have h1 := dotsToSlashes_of_not_mem k (h k (by simp))
    have h2 := dots_joinWith (ks := k' :: ks) fun x hx => h x (by simp [List.mem_cons.1 hx])
    simp only [joinWith, dotsToSlashes, List.map_append, List.map_cons, if_true] at h1 h2 ⊢
    rw [h1, h2]

/-- The segments of a dotted path. -/
theorem writeParts_joinWith {ks : List Bytes} (hne : ks ≠ []) (h : ∀ k ∈ ks, bDot ∉ k ∧ bSlash ∉ k ∧ bTilde ∉ k) :
    writeParts (joinWith bDot ks) = ks := by
  unfold writeParts
  rw [decode_of_not_mem, dots_joinWith fun k hk => (h k hk).1, split_joinWith bSlash ks hne fun k hk => (h k hk).2.1]
  intro hm
  rcases mem_joinWith hm with h' | ⟨k, hk, h'⟩
  · exact absurd h' (by decide)
  · exact (h k hk).2.2 h'

/-- Nothing lies below a sensor. -/
theorem SensorAt.prefix {m : List (Bytes × Js)} {ks ks' : List Bytes} {w w' : Js} (h : SensorAt m ks w) (h' : SensorAt m ks' w')
    (hp : ks <+: ks') : ks = ks' := by
  obtain ⟨r, rfl⟩ := hp
  have := h'.found
  rw [at_append, h.found] at this
  simp only [Option.bind_some] at this
  cases r with
  | nil => simp
  | cons k r =>
    have ha := h.atom
    cases w <;> first | exact ha.elim | simp [Js.at?] at this

theorem SensorAt.ne_nil {m : List (Bytes × Js)} {ks : List Bytes} {w : Js} (h : SensorAt m ks w) : ks ≠ [] := by
  rintro rfl
  have := h.found
  simp only [Js.at?, Option.some.injEq] at this
  have ha := h.atom
  rw [← this] at ha
  exact ha

theorem SensorAt.keys {m : List (Bytes × Js)} (hk : GoodKeys (.obj m)) {ks : List Bytes} {w : Js} (h : SensorAt m ks w) :
    ∀ k ∈ ks, k ≠ [] ∧ bDot ∉ k ∧ bSlash ∉ k ∧ bTilde ∉ k := hk ks w (at_inside h.found)

theorem SensorReadings.from0 {m : List (Bytes × Js)} {rs : List TPatch} (h : SensorReadings m rs) : ReadingsFrom0 m rs :=
  fun r hr => ⟨(h r hr).1, Int.le_of_lt (h r hr).2.1, (h r hr).2.2⟩

theorem sensorReadings_simple {m : List (Bytes × Js)} (hk : GoodKeys (.obj m)) {rs : List TPatch} (hrs : ReadingsFrom0 m rs) :
    SimpleLog (rs.map TPatch.toOp) := by
  constructor
  · intro o ho
    obtain ⟨r, hr, rfl⟩ := List.mem_map.1 ho
    obtain ⟨h1, -, -, h4, h5, ks, w, h6, h7⟩ := hrs r hr
    refine ⟨.inl ⟨?_, ?_⟩, ?_⟩
    · rcases h1 with h | h
      · left; simp only [TPatch.toOp, POp.toOp, h]; rfl
      · right; simp only [TPatch.toOp, POp.toOp, h]; rfl
    · simp only [TPatch.toOp, POp.toOp]
      revert h4 h5
      cases r.value <;> intro h4 h5 <;> first | exact h4.elim | exact absurd rfl h5 | skip
      · exact ⟨_, .bool _⟩
      · exact ⟨_, .num _⟩
      · exact ⟨_, .str _⟩
    · simp only [TPatch.toOp, POp.toOp, h7]
      rw [writeParts_joinWith h6.ne_nil fun k hk' => (h6.keys hk k hk').2]
      exact h6.names
  · intro o ho o' ho'
    obtain ⟨r, hr, rfl⟩ := List.mem_map.1 ho
    obtain ⟨r', hr', rfl⟩ := List.mem_map.1 ho'
    obtain ⟨-, -, -, -, -, ks, w, h6, h7⟩ := hrs r hr
    obtain ⟨-, -, -, -, -, ks', w', h6', h7'⟩ := hrs r' hr'
    simp only [TPatch.toOp, POp.toOp, h7, h7']
    rw [writeParts_joinWith h6.ne_nil fun k hk' => (h6.keys hk k hk').2,
      writeParts_joinWith h6'.ne_nil fun k hk' => (h6'.keys hk k hk').2]
    by_cases he : ks = ks'
    · exact .inl (by rw [he])
    · exact .inr ⟨fun h => he (h6.prefix h6' h), fun h => he (h6'.prefix h6 h).symm⟩

theorem sensorReadings_members {m : List (Bytes × Js)} (hk : GoodKeys (.obj m)) (hp : PlainJson (.obj m)) {rs : List TPatch}
    (hrs : ReadingsFrom0 m rs) : MembersOf (sortT (stampT (.obj m))) (rs.map TPatch.toOp) := by
  intro o ho ks0 k hw
  obtain ⟨r, hr, rfl⟩ := List.mem_map.1 ho
  obtain ⟨-, -, -, -, -, ks, w, h6, h7⟩ := hrs r hr
  simp only [TPatch.toOp, POp.toOp, h7] at hw
  rw [writeParts_joinWith h6.ne_nil fun k hk' => (h6.keys hk k hk').2] at hw
  subst hw
  have hf := h6.found
  rw [at_append, Option.bind_eq_some_iff] at hf
  obtain ⟨c, h1, h2⟩ := hf
  have hr := stamp_reaches hp h1
  cases c with
  | obj n => exact ⟨_, hr⟩
  | _ => simp [Js.at?] at h2

theorem stamp_prim {w : Js} (hp : PlainJson w) (ha : w.IsAtom) : ∃ p, w = primJs p ∧ sortT (stampT w) = .leaf p (-1) := by
  cases w with
  | null => exact hp.elim
  | int _ => exact hp.elim
  | obj _ => exact ha.elim
  | arr _ => exact ha.elim
  | bool b => exact ⟨.bool b, rfl, rfl⟩
  | num f => exact ⟨.num f, rfl, rfl⟩
  | str b => exact ⟨.str b, rfl, rfl⟩

/-- **C69.**  The logument and the TJSON store of the experiments, asked at ascending times not before the first reading,
show the same value for every sensor (inside at least one map) whose readings up to that time have different times. -/
theorem C69_agree_partial (h : Heap) (o : TOracle) {now : Int} (h0 : 0 ≤ now) (h1 : now ≤ maxInt64) {doc m : List (Bytes × Js)}
    (hm : jsTransform (.obj doc) = .obj m) (hk : GoodKeys (.obj m)) (hp : PlainJson (.obj m)) (hdep : (Js.obj m).depth < 10000)
    {rs : List TPatch} (hrs : SensorReadings m rs) {ps : List TPatch} (hps : ps.Perm (createInitialPatches doc ++ rs))
    {qs : List (Oracle × Int)} (hq : qs.Pairwise (fun a b => a.2 ≤ b.2))
    (hqt : ∀ q ∈ qs, q.2 ≤ now ∧ ∃ r ∈ rs, r.ts ≤ q.2) :
    ∃ s, createLogument h doc rs = .ok s ∧ (s.queries qs).2.length = qs.length ∧
      ∀ (i : Nat) (q : Oracle × Int), qs[i]? = some q → ∃ u, (s.queries qs).2[i]? = some (.ok (some u)) ∧
        ∀ ks w, SensorAt m ks w → 2 ≤ ks.length →
          ((∀ r ∈ rs, r.path = joinWith bDot ks → q.2 < r.ts) ∨ ∃ r, Governs rs (joinWith bDot ks) q.2 r) →
          Agree u (tSnapshot (fromPatches o now ps) q.2) ks := by
  have hL := sensorReadings_simple hk hrs.from0
  have hM := sensorReadings_members hk hp hrs.from0
  have hd := goodDoc_of_plain hk hp
  refine ⟨_, by rw [createLogument, hm, fromJson_plain hp trivial hdep], ?_⟩
  have hC := C68_queries_partial h (sortT_wf _ (stampT_wf _ hp)) (nullFree_hasNull _ (stampT_clean _ hp).2) hL hM hq
  refine ⟨hC.1, fun i q hi => ?_⟩
  obtain ⟨u, hu, hlook⟩ := hC.2 i q hi
  refine ⟨u, hu, fun ks w hsen hlen hcase => ?_⟩
  obtain ⟨hqn, r0, hr0, hr0t⟩ := hqt q (List.mem_of_getElem? hi)
  have hread : Readings rs := fun r hr => ⟨(hrs r hr).1, (hrs r hr).2.1, (hrs r hr).2.2.1⟩
  have hpath : ∀ r ∈ rs, ∀ {ks' w'}, SensorAt m ks' w' → r.path = joinWith bDot ks' → tPath r.path = joinWith bDot ks' := by
    intro r _ ks' w' hs' he
    rw [he]; exact tPath_joinWith fun k hk' => (hs'.keys hk k hk').2.2.1
  have hon : ∀ r ∈ rs, tPath r.path = joinWith bDot ks → r.path = joinWith bDot ks := by
    intro r hr he
    obtain ⟨-, -, -, -, -, ks', w', h6, h7⟩ := hrs r hr
    rw [hpath r hr h6 h7] at he
    rw [h7, he]
  have hpre : ∀ r ∈ rs, ∀ ks₁ ks₂, ks = ks₁ ++ ks₂ → ks₂ ≠ [] → tPath r.path ≠ joinWith bDot ks₁ := by
    intro r hr ks₁ ks₂ he hne hj
    obtain ⟨-, -, -, -, -, ks', w', h6, h7⟩ := hrs r hr
    rw [hpath r hr h6 h7] at hj
    have := joinWith_inj (fun k hk' => ⟨(h6.keys hk k hk').1, (h6.keys hk k hk').2.1⟩)
      (fun k hk' => ⟨(hsen.keys hk k (by rw [he]; simp [hk'])).1, (hsen.keys hk k (by rw [he]; simp [hk'])).2.1⟩) hj
    subst this
    have := h6.prefix hsen (by rw [he]; exact List.prefix_append _ _)
    rw [he] at this
    have := congrArg List.length this
    simp at this
    exact hne this
  have hplain := plain_inside (at_inside hsen.found) hp
  obtain ⟨p0, hw0, hst⟩ := stamp_prim hplain hsen.atom
  have hq0 : 0 ≤ q.2 := by have := (hrs r0 hr0).2.1; omega
  have hwn : w ≠ .null := by rintro rfl; exact hplain.elim
  obtain ⟨c1, c2⟩ := C67_store_partial o h0 h1 hm hd hread hps (at_inside hsen.found) hsen.atom hwn hlen hpre hq0 hqn
  rcases hcase with hno | ⟨r, hgov⟩
  · obtain ⟨j, hj, hsame⟩ := c1 fun r hr he => hno r hr (hon r hr he)
    refine ⟨p0, -1, j, ?_, hj, hw0 ▸ hsame⟩
    rw [hlook.others ⟨r0.toOp, List.mem_map.2 ⟨r0, hr0, rfl⟩, hr0t⟩ ks ?_]
    · have := stamp_reaches hp hsen.found
      rwa [hst] at this
    · intro p hp' hpt
      obtain ⟨r, hr, rfl⟩ := List.mem_map.1 hp'
      obtain ⟨-, -, -, -, -, ks', w', h6, h7⟩ := hrs r hr
      simp only [TPatch.toOp, POp.toOp, h7] at hpt ⊢
      rw [writeParts_joinWith h6.ne_nil fun k hk' => (h6.keys hk k hk').2]
      have hne : ks' ≠ ks := by
        rintro rfl
        have := hno r hr h7
        omega
      exact ⟨fun h => hne (h6.prefix hsen h), fun h => hne (hsen.prefix h6 h).symm⟩
  · obtain ⟨h1', h2', h3', h4', h5', ks', w', h6', h7'⟩ := hrs r hgov.mem
    have hrp := hon r hgov.mem hgov.on.1
    have hval : ∃ p, r.value = primJs p ∧ Writes r.toOp.value p := by
      simp only [TPatch.toOp, POp.toOp]
      revert h4' h5'
      cases r.value <;> intro h4 h5 <;> first | exact h4.elim | exact absurd rfl h5 | skip
      · exact ⟨.bool _, rfl, .bool _⟩
      · exact ⟨.num _, rfl, .num _⟩
      · exact ⟨.str _, rfl, .str _⟩
    obtain ⟨p, hpv, hpw⟩ := hval
    obtain ⟨j, hj, hsame⟩ := c2 r hgov h5' (by rw [hpv]; cases p <;> simp [primJs])
    refine ⟨p, r.ts, j, ?_, hj, hpv ▸ hsame⟩
    have hwr := hlook.written r.toOp (List.mem_map.2 ⟨r, hgov.mem, rfl⟩) hgov.le ?_ ?_ p hpw
    · have hpe : writeParts r.toOp.path = ks := by
        show writeParts r.path = ks
        rw [hrp, writeParts_joinWith hsen.ne_nil fun k hk' => (hsen.keys hk k hk').2]
      rwa [hpe] at hwr
    · intro p' hp' hpe hpt hpne
      obtain ⟨r', hr', rfl⟩ := List.mem_map.1 hp'
      have hpe' : r'.path = r.path := hpe
      have hon' : r'.On (joinWith bDot ks) := ⟨by rw [hpe']; exact hgov.on.1, .inl (hrs r' hr').1⟩
      rcases hgov.latest r' hr' hon' hpt with he | hlt
      · exact absurd (by rw [he]) hpne
      · exact hlt
    · rcases h1' with h | h <;> simp only [TPatch.toOp, POp.toOp, h] <;> decide

/-! ### Examples and refutations -/

/-- A document with two members, for the examples. -/
def runDoc : List (Bytes × Tson) :=
  [(b!"car", .obj [(b!"on", .leaf (.bool true) (-1)), (b!"name", .leaf (.str b!"x") (-1))])]

/-- Operations on both. -/
def runOps : List Op :=
  [⟨.replace, b!"car.on", .bool false, 20⟩, ⟨.replace, b!"car.name", .str b!"y", 28⟩, ⟨.remove, b!"car.on", .nil, 40⟩]

theorem runOps_simple : SimpleLog runOps := by
  refine ⟨?_, ?_⟩
  · intro o ho
    simp only [runOps, List.mem_cons, List.not_mem_nil, or_false] at ho
    rcases ho with rfl | rfl | rfl
    · exact ⟨.inl ⟨.inr rfl, _, .bool _⟩, by decide⟩
    · exact ⟨.inl ⟨.inr rfl, _, .str _⟩, by decide⟩
    · exact ⟨.inr ⟨rfl, rfl⟩, by decide⟩
  · unfold Independent
    decide

theorem runOps_members : MembersOf (.obj runDoc) runOps := by
  intro o ho ks k he
  have : ks = [b!"car"] := by
    simp only [runOps, List.mem_cons, List.not_mem_nil, or_false] at ho
    have h1 : writeParts b!"car.on" = [b!"car"] ++ [b!"on"] := by decide
    have h2 : writeParts b!"car.name" = [b!"car"] ++ [b!"name"] := by decide
    rcases ho with rfl | rfl | rfl
    · rw [h1] at he; exact ((List.append_inj' he rfl).1).symm
    · rw [h2] at he; exact ((List.append_inj' he rfl).1).symm
    · rw [h1] at he; exact ((List.append_inj' he rfl).1).symm
  subst this
  exact ⟨_, .member _ _ _ _ _ rfl (.here _)⟩

theorem runDoc_null : ¬ HasNull (.obj runDoc) := by
  rw [← (C32_latest_timestamp _).1]; decide

example : (Tson.obj runDoc).Wf ∧ ¬ HasNull (.obj runDoc) ∧ SimpleLog runOps ∧ MembersOf (.obj runDoc) runOps :=
  ⟨by simp [runDoc, Tson.Wf, Tson.WfF, mkeys], runDoc_null, runOps_simple, runOps_members⟩

/-- The answers at 10, 25, 30 and 50: nil before the first operation. -/
example : ((newLogument [] (.obj runDoc) (some (.ops (some runOps)))).1.queries
      [(Oracle.plain, 10), (Oracle.unstable, 25), (Oracle.plain, 30), (Oracle.plain, 50)]).2 =
    [.ok (some .null),
     .ok (some (.obj [(b!"car", .obj [(b!"on", .leaf (.bool false) 20), (b!"name", .leaf (.str b!"x") (-1))])])),
     .ok (some (.obj [(b!"car", .obj [(b!"on", .leaf (.bool false) 20), (b!"name", .leaf (.str b!"y") 28)])])),
     .ok (some (.obj [(b!"car", .obj [(b!"name", .leaf (.str b!"y") 28)])]))] := by decide +kernel

/-- **C68, refuted before the first operation.**  The answer is nil instead of the document. -/
theorem C68_before_fails : (∀ p ∈ runOps, 10 < p.ts) ∧
    ((newLogument [] (.obj runDoc) (some (.ops (some runOps)))).1.queries [(Oracle.plain, 10)]).2 = [.ok (some .null)] := by
  decide

/-- **C68, refuted for descending times.**  After a query for time 30, the answer for time 25 has the value of time 28. -/
theorem C68_descending_fails :
    ((newLogument [] (.obj runDoc) (some (.ops (some runOps)))).1.queries [(Oracle.plain, 30), (Oracle.plain, 25)]).2[1]? =
      some (.ok (some (.obj [(b!"car", .obj [(b!"on", .leaf (.bool false) 20), (b!"name", .leaf (.str b!"y") 28)])]))) := by
  decide +kernel

/-- **C68, refuted for answers that are kept.**  The document returned for time 25 is changed by the query for time 30. -/
theorem C68_kept_fails :
    let s := (newLogument [] (.obj runDoc) (some (.ops (some runOps)))).1
    let s1 := s.temporalSnapshot Oracle.plain 25
    let s2 := s1.1.temporalSnapshot Oracle.plain 30
    ∃ d, s1.2 = .ok d ∧ s1.1.heap.view d ≠ s2.1.heap.view d := by
  refine ⟨_, rfl, ?_⟩
  decide +kernel

theorem storeDoc_sensor : SensorAt [(b!"car", .obj [(b!"on", .bool true), (b!"name", .str b!"x")])] [b!"car", b!"on"] (.bool true) :=
  ⟨rfl, trivial, by decide⟩

theorem storeDoc_keys : GoodKeys (.obj [(b!"car", .obj [(b!"on", .bool true), (b!"name", .str b!"x")])]) := by
  intro ks w h k hk
  rcases storeDoc_inside h with ⟨rfl, _⟩ | ⟨rfl, _⟩ | ⟨rfl, _⟩ | ⟨rfl, _⟩ <;>
    simp only [List.mem_cons, List.not_mem_nil, or_false] at hk
  · subst hk; decide
  · rcases hk with rfl | rfl <;> decide
  · rcases hk with rfl | rfl <;> decide

theorem storeDoc_plain : PlainJson (.obj [(b!"car", .obj [(b!"on", .bool true), (b!"name", .str b!"x")])]) := by
  simp only [PlainJson, PlainJsonF, and_true, true_and]
  exact ⟨by decide, by repeat first | exact .nil | refine .ascii (by decide) ?_, by decide,
    by repeat first | exact .nil | refine .ascii (by decide) ?_, by repeat first | exact .nil | refine .ascii (by decide) ?_,
    by repeat first | exact .nil | refine .ascii (by decide) ?_⟩

theorem storeReadings_sensor : SensorReadings [(b!"car", .obj [(b!"on", .bool true), (b!"name", .str b!"x")])] storeReadings := by
  intro r hr
  simp only [storeReadings, List.mem_cons, List.not_mem_nil, or_false] at hr
  rcases hr with rfl | rfl
  · exact ⟨by decide, by decide, by decide, trivial, by simp, _, _, storeDoc_sensor, rfl⟩
  · exact ⟨by decide, by decide, by decide, trivial, by simp, _, _, storeDoc_sensor, rfl⟩

/-- The hypotheses of `C69_agree_partial` hold for a document with two sensors, readings and queries. -/
example : ∃ s, createLogument [] storeDoc storeReadings = .ok s ∧
    ∃ u, (s.queries [(Oracle.plain, 25)]).2[0]? = some (.ok (some u)) ∧
      Agree u (tSnapshot (fromPatches tReverse 100 (storeReadings ++ createInitialPatches storeDoc)) 25) [b!"car", b!"on"] := by
  obtain ⟨s, h1, -, h3⟩ := C69_agree_partial [] tReverse (now := 100) (by decide) (by decide) storeDoc_eq storeDoc_keys storeDoc_plain (by decide)
    storeReadings_sensor
    (List.perm_append_comm (l₁ := storeReadings)) (qs := [(Oracle.plain, 25)]) (by simp) (by
      intro q hq
      simp only [List.mem_singleton] at hq
      subst hq
      exact ⟨by decide, _, List.mem_cons_self .., by decide⟩)
  obtain ⟨u, h4, h5⟩ := h3 0 _ rfl
  refine ⟨s, h1, u, h4, h5 _ _ storeDoc_sensor (by decide) (.inr ⟨⟨b!"replace", b!"car.on", .bool false, 20⟩, ?_⟩)⟩
  refine ⟨by simp [storeReadings], by decide, by decide, ?_⟩
  intro p hp _ hle
  simp only [storeReadings, List.mem_cons, List.not_mem_nil, or_false] at hp
  rcases hp with rfl | rfl
  · exact .inl rfl
  · exact absurd hle (by decide)

/-- **C69, refuted before the first reading.**  The TJSON store shows the initial value, the logument nil. -/
theorem C69_before_fails : ∃ s, createLogument [] storeDoc storeReadings = .ok s ∧
    (s.queries [(Oracle.plain, 10)]).2 = [.ok (some .null)] ∧
    (tSnapshot (fromPatches tStable 100 (createInitialPatches storeDoc ++ storeReadings)) 10).at? [b!"car", b!"on"] =
      some (.bool true) :=
  ⟨_, rfl, by decide +kernel, rfl⟩

/-- **C69, refuted for readings at time 0.**  The logument shows the reading; the TJSON store may show the initial value
instead. -/
theorem C69_zero_fails :
    let r : TPatch := ⟨b!"replace", b!"car.on", .bool false, 0⟩
    ∃ s, createLogument [] storeDoc [r] = .ok s ∧
    (s.queries [(Oracle.plain, 50)]).2 =
      [.ok (some (.obj [(b!"car", .obj [(b!"name", .leaf (.str b!"x") (-1)), (b!"on", .leaf (.bool false) 0)])]))] ∧
    (tSnapshot (fromPatches tReverse 100 (createInitialPatches storeDoc ++ [r])) 50).at? [b!"car", b!"on"] = some (.bool true) :=
  ⟨_, rfl, by decide +kernel, rfl⟩

end Verif
