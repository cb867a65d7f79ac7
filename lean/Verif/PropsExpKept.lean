import Verif.PropsExpAll
import Verif.PropsPatchText
import Verif.PropsVssPatch
/-
The results of the temporal experiments can be written and read: an invariant of the documents of the logument and one of the
TJSON store.  Used by C92.
-/
namespace Verif

/-! ### Documents of the logument -/

/-- A document that is written and read back without loss, with a bound on its depth. -/
structure KeptDoc (n : Nat) (t : Tson) : Prop where
  wf : t.Wf
  clean : Clean t
  nullFree : NullFree t
  nesting : nesting t ≤ n

theorem kept_obj {n : Nat} {m : List (Bytes × Tson)} :
    KeptDoc (n + 1) (.obj m) ↔ (mkeys m).Nodup ∧ ∀ e ∈ m, ValidUtf8 e.1 ∧ KeptDoc n e.2 := by
  constructor
  · intro h
    refine ⟨h.wf.1, fun e he => ?_⟩
    obtain ⟨c1, c2⟩ := (cleanF_iff m).1 h.clean e he
    have hn := h.nesting
    rw [Verif.nesting] at hn
    exact ⟨c1, (Tson.wfF_iff m).1 h.wf.2 e he, c2, (nullFreeF_iff m).1 h.nullFree e he, (nestingF_le (n := n)).1 (by omega) e he⟩
  · rintro ⟨h1, h2⟩
    refine ⟨⟨h1, (Tson.wfF_iff m).2 fun e he => (h2 e he).2.wf⟩, (cleanF_iff m).2 fun e he => ⟨(h2 e he).1, (h2 e he).2.clean⟩,
      (nullFreeF_iff m).2 fun e he => (h2 e he).2.nullFree, ?_⟩
    have := (nestingF_le (n := n)).2 fun e he => (h2 e he).2.nesting
    rw [Verif.nesting]
    omega

theorem kept_leaf {n : Nat} {p : Prim} {ts : Int} (hp : CleanPrim p) (h1 : -9007199254740992 ≤ ts) (h2 : ts ≤ 9007199254740992) (hn : 1 ≤ n) :
    KeptDoc n (.leaf p ts) := ⟨trivial, ⟨hp, h1, h2⟩, trivial, hn⟩

theorem kept_mset {n : Nat} {m : List (Bytes × Tson)} (h : KeptDoc (n + 1) (.obj m)) {k : Bytes} (hk : ValidUtf8 k) {c : Tson} (hc : KeptDoc n c) :
    KeptDoc (n + 1) (.obj (mset m k c)) := by
  rw [kept_obj] at h ⊢
  refine ⟨nodup_mkeys_mset h.1 _ _, fun e he => ?_⟩
  rcases mem_mset he with rfl | he
  · exact ⟨hk, hc⟩
  · exact h.2 e he

/-- A reading that can be written: a primitive value, a time of at most 53 bits, and keys that are valid UTF-8. -/
structure GoodOp (n : Nat) (op : Op) : Prop where
  kind : op.kind = .add ∨ op.kind = .replace
  value : ∃ p, Writes op.value p ∧ CleanPrim p
  time : -9007199254740992 ≤ op.ts ∧ op.ts ≤ 9007199254740992
  keys : ∀ k ∈ writeParts op.path, ValidUtf8 k
  depth : (writeParts op.path).length + 1 ≤ n

theorem writes_unique {v : GVal} {p q : Prim} (h : Writes v p) (h' : Writes v q) : p = q := by cases h <;> cases h' <;> rfl

theorem applyT_kept {op : Op} (hs : SimpleOp op) {N : Nat} (hg : GoodOp N op) : ∀ (ks : List Bytes) (k : Bytes) (n : Nat) (m : List (Bytes × Tson)) (l : List (Bytes × Tson)),
    (∀ seg ∈ ks ++ [k], atoi seg = none ∧ ValidUtf8 seg) → Reaches (.obj m) ks (.obj l) → ks.length + 2 ≤ n → KeptDoc n (.obj m) →
    KeptDoc n (applyT (.obj m) (ks ++ [k]) op).1
  | [], k, n, m, l, hat, _, hn, hf => by
    obtain ⟨p, hp, hc⟩ := hg.value
    have hcls : op.kind.cls = .set := by rcases hg.kind with h | h <;> rw [h] <;> rfl
    have hv : opVal op.value = .prim p := by generalize op.value = v at hp; cases hp <;> rfl
    simp only [List.nil_append, applyT, hcls, hv]
    obtain ⟨n, rfl⟩ : ∃ i, n = i + 1 := ⟨n - 1, by omega⟩
    simp only [List.length_nil] at hn
    exact kept_mset hf (hat k (by simp)).2 (kept_leaf hc hg.time.1 hg.time.2 (by omega))
  | a :: ks, k, n, m, l, hat, hr, hn, hf => by
    obtain ⟨m0, c, h0, hget, hc⟩ := reaches_noindex (hat a (by simp)).1 hr
    cases h0
    have hcobj : ∃ mc, c = .obj mc := by
      cases ks with
      | nil => cases hc; exact ⟨l, rfl⟩
      | cons b ks =>
        obtain ⟨m0, _, h0, -⟩ := reaches_noindex (hat b (by simp)).1 hc
        exact ⟨m0, h0⟩
    obtain ⟨mc, rfl⟩ := hcobj
    obtain ⟨n, rfl⟩ : ∃ i, n = i + 1 := ⟨n - 1, by omega⟩
    rw [List.length_cons] at hn
    have hi := applyT_kept hs hg ks k n mc l (fun seg h => hat seg (by simp at h ⊢; exact .inr h)) hc (by omega)
      ((kept_obj.1 hf).2 _ (mget_mem hget)).2
    obtain ⟨mc', h1, -⟩ := applyT_member hs k ks mc l
      (fun seg h => (hat seg (by simp at h ⊢; exact .inr h)).1) hc
    rw [h1] at hi
    obtain ⟨b, r, hb⟩ : ∃ b r, ks ++ [k] = b :: r := by cases ks <;> exact ⟨_, _, rfl⟩
    rw [List.cons_append, hb, applyT]
    simp only [hget]
    rw [← hb, h1]
    exact kept_mset hf (hat a (by simp)).2 hi

theorem applyPatchT_kept {all : List Op} (hL : SimpleLog all) {n : Nat} (hg : ∀ p ∈ all, GoodOp n p) : ∀ (sel : List Op) (m : List (Bytes × Tson)),
    (∀ p ∈ sel, p ∈ all) → MembersOf (.obj m) all → KeptDoc n (.obj m) → KeptDoc n (applyPatchT (.obj m) sel).1
  | [], m, _, _, hf => hf
  | p :: sel, m, hsub, hm, hf => by
    have hp : p ∈ all := hsub p (by simp)
    obtain ⟨ks, k, hk⟩ : ∃ ks k, writeParts p.path = ks ++ [k] := by
      have hne : writeParts p.path ≠ [] := split_ne_nil' _
      exact ⟨_, _, (List.dropLast_concat_getLast hne).symm⟩
    obtain ⟨l, hl⟩ := hm p hp ks k hk
    have hs := hL.1 p hp
    have hd := (hg p hp).depth
    rw [hk, List.length_append] at hd
    have h1 := applyT_kept hs (hg p hp) ks k n m l (fun seg h => by rw [← hk] at h; exact ⟨hs.2 seg h, (hg p hp).keys seg h⟩) hl
      (by simpa using hd) hf
    obtain ⟨m1, e1, e2, -⟩ := applyPatchT_members hL [p] m (fun q hq => by rw [List.mem_singleton.1 hq]; exact hp) hm
    obtain ⟨m2, f1, -⟩ := applyT_member hs k ks m l (by rw [← hk]; exact hs.2) hl
    have e : m2 = m1 := by
      have := e1
      simp only [applyPatchT, applyOpT, hk, f1] at this
      exact (Tson.obj.inj (Prod.mk.inj this).1)
    subst e
    rw [f1] at h1
    have := applyPatchT_kept hL hg sel m2 (fun q hq => hsub q (by simp [hq])) e2 h1
    simp only [applyPatchT, applyOpT, hk, f1]
    exact this

/-- The document of the logument between queries. -/
def KeptSt (n : Nat) (s : St) : Prop := ∀ a t, s.lgm.snaps = [(0, .obj a)] → s.heap.view (.obj a) = some t → KeptDoc n t

theorem KeptSt.query {doc : Tson} {ops : List Op} {s : St} {last : Option Int} (h : Queried doc ops s last) (hL : SimpleLog ops) {n : Nat}
    (hg : ∀ p ∈ ops, GoodOp n p) (hs : KeptSt n s) (o : Oracle) (t : Int) {s' : St} {d : HVal} (hq : s.temporalSnapshot o t = (s', .ok d)) :
    KeptSt n s' ∧ ∀ u, s'.heap.view d = some u → u = .null ∨ KeptDoc n u := by
  obtain ⟨a, m, F, ha, hrep, hnull, hmem, -⟩ := h.doc
  have hk := hs a _ ha hrep.view
  obtain ⟨g, l, hb, g1, g2, g3, g4⟩ := h.base o t ha
  rw [hb] at hq
  have h0 : LatestPerPath t [] (([] : List (Bytes × Op)).map Prod.snd) := ⟨by simp, by simp, by simp⟩
  have hpo : g.patchOf 1 = l := by simp [Lgm.patchOf, g3, mget]
  obtain ⟨-, -, h3⟩ := pickLatest_spec t (o.sortOps l) [] [] (by simp [mkeys]) (by simp) h0
  have hsel : LatestPerPath t ops ((o.orderOps (pickLatest t [] (o.sortOps l))).map Prod.snd) :=
    h3.perm (by simpa using (o.sortOps_perm l).trans g4) ((o.orderOps_perm _).map _)
  obtain ⟨sel, hse⟩ : ∃ sel, sel = (o.orderOps (pickLatest t [] (o.sortOps l))).map Prod.snd := ⟨_, rfl⟩
  rw [← hse] at hsel
  have hsub : ∀ p ∈ sel, p ∈ ops := fun p hp => (hsel.latest p hp).1
  obtain ⟨m', e1, -⟩ := applyPatchT_members hL sel m hsub hmem
  have hk' := applyPatchT_kept hL hg sel m hsub hmem hk
  obtain ⟨G, hG, -, -, -, hout⟩ := applyPatchLoop_obj sel hrep .null
  rw [e1] at hG hout hk'
  simp only [Res.map] at hout hG hk'
  have hst : St.temporalApply ⟨s.heap, g⟩ o t 0 (.obj a) =
      (⟨(applyPatchLoop s.heap (.obj a) .null sel).1, { g with patches := [(1, o.sortOps l)] }⟩, .ok (if sel = [] then .null else .obj a)) := by
    unfold St.temporalApply
    dsimp only
    rw [hpo, ← hse]
    rcases hA : applyPatch s.heap (.obj a) sel with ⟨h', r⟩
    have hA' : applyPatchLoop s.heap (.obj a) .null sel = (h', r) := hA
    rw [hA'] at hout ⊢
    dsimp only at hout
    subst hout
    dsimp only
    rw [g3]
    simp [mget, mset]
  rw [hst] at hq
  obtain ⟨rfl, hd⟩ := Prod.mk.inj hq
  have hd := Res.ok.inj hd
  subst hd
  refine ⟨fun b u hb hu => ?_, fun u hu => ?_⟩
  · dsimp only at hb hu
    rw [g1] at hb
    have : a = b := by simpa using hb
    subst this
    rw [hG.view] at hu
    rw [← Option.some.inj hu]
    exact hk'
  · dsimp only at hu
    split at hu
    · left
      exact (Option.some.inj hu).symm
    · rw [hG.view] at hu
      right
      rw [← Option.some.inj hu]
      exact hk'

theorem KeptSt.queries {doc : Tson} {ops : List Op} (hL : SimpleLog ops) {n : Nat} (hg : ∀ p ∈ ops, GoodOp n p) :
    ∀ (qs : List (Oracle × Int)) {s : St} {last : Option Int}, Queried doc ops s last → KeptSt n s →
    (∀ t', last = some t' → ∀ q ∈ qs, t' ≤ q.2) → qs.Pairwise (fun a b => a.2 ≤ b.2) →
    ∀ u, .ok (some u) ∈ (s.queries qs).2 → u = .null ∨ KeptDoc n u
  | [], _, _, _, _, _, _, u, hu => by simp [St.queries] at hu
  | q :: qs, s, last, h, hk, ht, hpw, u, hu => by
    rw [List.pairwise_cons] at hpw
    obtain ⟨s', d, v, e1, e2, e3, e4⟩ := h.query hL q.1 (t := q.2) (fun t' ht' => ht t' ht' q (by simp))
    obtain ⟨k1, k2⟩ := KeptSt.query h hL hg hk q.1 q.2 e1
    have hq : (s.queries (q :: qs)).2 = .ok (some v) :: (s'.queries qs).2 := by simp [St.queries, e1, e2]
    rw [hq] at hu
    rcases List.mem_cons.1 hu with hu | hu
    · have := Option.some.inj (Res.ok.inj hu)
      subst this
      exact k2 _ e2
    · exact KeptSt.queries hL hg qs e3 k1 (fun t' ht' q' hq' => by cases ht'; exact hpw.1 q' hq') hpw.2 u hu

theorem keptSt_new (h : Heap) {m : List (Bytes × Tson)} {n : Nat} (hm : KeptDoc n (.obj m)) (ops : List Op) :
    KeptSt n (newLogument h (.obj m) (some (.ops (some ops)))).1 := by
  intro b t hb ht
  obtain ⟨a, ha⟩ := store_obj h m
  obtain ⟨-, F, hF, -⟩ := store_rep h (.obj m) hm.wf
  have e : (newLogument h (.obj m) (some (.ops (some ops)))).1.lgm.snaps = [(0, .obj a)] := by
    simp [newLogument, Lgm.store, StoreArg.resolve, ha]
  rw [e] at hb
  have : a = b := by simpa using hb
  subst this
  rw [ha] at hF
  have := hF.view
  have e' : (newLogument h (.obj m) (some (.ops (some ops)))).1.heap.view (.obj a) = some (.obj m) := this
  rw [e'] at ht
  rw [← Option.some.inj ht]
  exact hm

/-- Readings whose values and times are written without loss. -/
def KeptReadings (rs : List TPatch) : Prop := ∀ r ∈ rs, PlainScalar r.value ∧ r.ts ≤ 9007199254740992

theorem inside_bounds {d : Js} {ks : List Bytes} {w : Js} (h : Js.Inside d ks w) : PlainJson d → (∀ k ∈ ks, ValidUtf8 k) ∧ ks.length + w.depth ≤ d.depth := by
  induction h with
  | here j => exact fun _ => ⟨by simp, by simp⟩
  | @member m k c ks w hm _ ih =>
    intro hd
    obtain ⟨i1, i2⟩ := ih (plainJsonF_mem hd.2 hm)
    have hv := ((plainJsonF_iff m).1 hd.2 _ hm).1
    have := depthF_le.1 (Nat.le_refl (Js.depthF m)) _ hm
    rw [Js.depth, List.length_cons]
    refine ⟨fun x hx => ?_, by dsimp only at this; omega⟩
    rcases List.mem_cons.1 hx with rfl | hx
    · exact hv
    · exact i1 x hx
  | @element l i c ks w hl _ ih =>
    intro hd
    obtain ⟨i1, i2⟩ := ih (plainJsonL_mem hd (List.mem_of_getElem? hl))
    have := depthL_le.1 (Nat.le_refl (Js.depthL l)) _ (List.mem_of_getElem? hl)
    rw [Js.depth, List.length_cons]
    refine ⟨fun x hx => ?_, by omega⟩
    rcases List.mem_cons.1 hx with rfl | hx
    · exact valid_digits i
    · exact i1 x hx

theorem goodOp_reading {m : List (Bytes × Js)} (hk : GoodKeys (.obj m)) (hp : PlainJson (.obj m)) {rs : List TPatch} (hrs : ReadingsFrom0 m rs)
    (hpl : KeptReadings rs) : ∀ o ∈ rs.map TPatch.toOp, GoodOp ((Js.obj m).depth + 1) o := by
  intro o ho
  obtain ⟨r, hr, rfl⟩ := List.mem_map.1 ho
  obtain ⟨h1, h2, -, -, -, ks, w, h6, h7⟩ := hrs r hr
  obtain ⟨p1, p2⟩ := hpl r hr
  obtain ⟨b1, b2⟩ := inside_bounds (at_inside h6.found) hp
  have hw : writeParts r.toOp.path = ks := by
    simp only [TPatch.toOp, POp.toOp, h7]
    exact writeParts_joinWith h6.ne_nil fun k hk' => (h6.keys hk k hk').2
  refine ⟨(sensorReadings_simple hk hrs).1 _ ho |>.1 |> fun h => ?_, ?_, ?_, by rw [hw]; exact b1, by rw [hw]; omega⟩
  · rcases h with h | h
    · exact h.1
    · exfalso
      rcases h1 with e | e <;> simp only [TPatch.toOp, POp.toOp, e] at h <;> exact absurd h.1 (by decide)
  · rcases plainScalar_cases p1 with ⟨b, e⟩ | ⟨f, e, hf⟩ | ⟨s, e, hs⟩
    · exact ⟨.bool b, by simp only [TPatch.toOp, POp.toOp, e]; exact .bool b, trivial⟩
    · exact ⟨.num f, by simp only [TPatch.toOp, POp.toOp, e]; exact .num f, hf⟩
    · exact ⟨.str s, by simp only [TPatch.toOp, POp.toOp, e]; exact .str s, hs⟩
  · show _ ≤ r.ts ∧ r.ts ≤ _
    omega

theorem sortT_nullFree (t : Tson) : NullFree t → NullFree (sortT t) := by
  induction t using Tson.induction with
  | null => exact id
  | leaf p ts => exact id
  | obj m ih =>
    intro h
    rw [sortT, sortTF_eq]
    refine (nullFreeF_iff _).2 fun p hp => ?_
    obtain ⟨q, hq, rfl⟩ := mem_sorted hp
    exact ih q hq ((nullFreeF_iff m).1 h q hq)
  | arr l ih =>
    intro h
    rw [sortT, sortTL_eq]
    refine (nullFreeL_iff _).2 fun v hv => ?_
    obtain ⟨w, hw, rfl⟩ := List.mem_map.1 hv
    exact ih w hw ((nullFreeL_iff l).1 h w hw)

/-- The snapshots of the logument are documents that are written and read without loss. -/
theorem snapshots_kept (h : Heap) {doc m : List (Bytes × Js)} (hm : jsTransform (.obj doc) = .obj m) (hk : GoodKeys (.obj m))
    (hp : PlainJson (.obj m)) (hdep : (Js.obj m).depth < 10000) {rs : List TPatch} (hrs : ReadingsFrom0 m rs) (hpl : KeptReadings rs)
    {qs : List (Oracle × Int)} (hq : qs.Pairwise (fun a b => a.2 ≤ b.2)) {s : St} (hs : createLogument h doc rs = .ok s) :
    ∀ u, .ok (some u) ∈ (s.queries qs).2 → u = .null ∨ KeptDoc ((Js.obj m).depth + 1) u := by
  rw [createLogument, hm, fromJson_plain hp trivial hdep] at hs
  have hs := Res.ok.inj hs
  subst hs
  have hM := sensorReadings_members hk hp hrs
  obtain ⟨m0, e⟩ : ∃ m0, sortT (stampT (.obj m)) = .obj m0 := by rw [stampT, sortT]; exact ⟨_, rfl⟩
  have h1 := sortT_wf _ (stampT_wf _ hp)
  have h2 := nullFree_hasNull _ (stampT_clean _ hp).2
  have h3 := sortT_clean _ (stampT_clean _ hp).1
  have h4 := sortT_nesting (stampT (.obj m))
  have h5 := stampT_nesting (.obj m)
  have h6 := sortT_nullFree _ (stampT_clean _ hp).2
  rw [e] at h1 h2 h3 h4 h6 hM ⊢
  exact KeptSt.queries (sensorReadings_simple hk hrs) (goodOp_reading hk hp hrs hpl) qs (queried_new h h1 h2 hM)
    (keptSt_new h ⟨h1, h3, h6, by omega⟩ _) (fun _ h => by cases h) hq

/-! ### The TJSON store -/

/-- A version that is written without loss. -/
def KeptVersion (n : Nat) (v : TVersion) : Prop := ValidUtf8 v.period ∧ PlainJson v.data ∧ v.data.depth ≤ n

theorem valid_itoa (n : Int) : ValidUtf8 (itoa n) := by
  unfold itoa
  split
  · exact valid_append (s := [45]) (.ascii (by decide) .nil) (valid_digits _)
  · exact valid_digits _

theorem valid_period (s e : Int) : ValidUtf8 (fmtPeriod s e) :=
  valid_append (valid_itoa s) (valid_append (s := [45]) (.ascii (by decide) .nil) (valid_itoa e))

/-- The items of a store whose snapshots are written and read without loss and have a bounded depth. -/
def KeptItems : Nat → List (Bytes × TItem) → Prop
  | 0, cs => cs = []
  | n + 1, cs => (mkeys cs).Nodup ∧ ∀ e ∈ cs, ValidUtf8 e.1 ∧ (∀ v ∈ e.2.versions, KeptVersion n v) ∧ KeptItems n e.2.children

theorem keptItems_nil (n : Nat) : KeptItems n [] := by
  cases n with
  | zero => exact rfl
  | succ n => exact ⟨List.nodup_nil, by simp⟩

theorem addAt_kept {period : Bytes} (hper : ValidUtf8 period) {v : Js} (hv : PlainJson v) : ∀ (ks : List Bytes) (n : Nat) (it : TItem), (∀ k ∈ ks, ValidUtf8 k) → ks.length + v.depth ≤ n →
    (∀ x ∈ it.versions, KeptVersion n x) → KeptItems n it.children →
    (∀ x ∈ (it.addAt period v ks).versions, KeptVersion n x) ∧ KeptItems n (it.addAt period v ks).children
  | [], n, it, _, _, h1, h2 => by rw [TItem.addAt]; exact ⟨h1, h2⟩
  | k :: ks, n, .mk p vs cs, hk, hn, h1, h2 => by
    obtain ⟨n, rfl⟩ : ∃ i, n = i + 1 := ⟨n - 1, by rw [List.length_cons] at hn; omega⟩
    rw [List.length_cons] at hn
    have hc : (∀ x ∈ ((mget cs k).getD (.mk period [] [])).versions, KeptVersion n x) ∧
        KeptItems n ((mget cs k).getD (.mk period [] [])).children := by
      cases hg : mget cs k with
      | none => exact ⟨by simp [TItem.versions], keptItems_nil n⟩
      | some c => exact (h2.2 _ (mget_mem hg)).2
    obtain ⟨p', vs', cs', e⟩ : ∃ p' vs' cs', (mget cs k).getD (.mk period [] []) = .mk p' vs' cs' := by
      cases (mget cs k).getD (.mk period [] []) with
      | mk a b c => exact ⟨a, b, c, rfl⟩
    rw [e] at hc
    have hset : ∀ c : TItem, (∀ x ∈ c.versions, KeptVersion n x) → KeptItems n c.children → KeptItems (n + 1) (mset cs k c) := by
      intro c c1 c2
      refine ⟨nodup_mkeys_mset h2.1 _ _, fun x hx => ?_⟩
      rcases mem_mset hx with rfl | hx
      · exact ⟨hk k (by simp), c1, c2⟩
      · exact h2.2 x hx
    cases ks with
    | nil =>
      simp only [TItem.addAt, e]
      refine ⟨h1, hset _ (fun x hx => ?_) hc.2⟩
      rcases List.mem_append.1 hx with hx | hx
      · exact hc.1 x hx
      · rw [List.mem_singleton.1 hx]
        rw [List.length_nil] at hn
        exact ⟨hper, hv, by show v.depth ≤ n; omega⟩
    | cons k' ks' =>
      rw [TItem.addAt, e]
      dsimp only
      obtain ⟨i1, i2⟩ := addAt_kept hper hv (k' :: ks') n (.mk p' vs' cs') (fun x hx => hk x (List.mem_cons_of_mem _ hx)) (by omega) hc.1 hc.2
      exact ⟨h1, hset _ i1 i2⟩

/-- A path and a value that the store can keep. -/
def KeptEntry (n : Nat) (path : Bytes) (v : Js) : Prop :=
  (∀ k ∈ split bDot path, ValidUtf8 k) ∧ PlainJson v ∧ (split bDot path).length + v.depth ≤ n

theorem tAddItem_kept {n : Nat} {d : TDoc} (hd : KeptItems n d) {path : Bytes} {v : Js} (h : KeptEntry n path v) (s e : Int) :
    KeptItems n (tAddItem d path s e v) := by
  obtain ⟨h1, h2, h3⟩ := h
  unfold tAddItem
  cases hs : split bDot path with
  | nil => exact hd
  | cons k ks =>
    rw [hs] at h1 h3
    rw [List.length_cons] at h3
    dsimp only
    obtain ⟨n, rfl⟩ : ∃ i, n = i + 1 := ⟨n - 1, by omega⟩
    have hc : (∀ x ∈ ((mget d k).getD (.mk (fmtPeriod s e) [] [])).versions, KeptVersion n x) ∧
        KeptItems n ((mget d k).getD (.mk (fmtPeriod s e) [] [])).children := by
      cases hg : mget d k with
      | none => exact ⟨by simp [TItem.versions], keptItems_nil n⟩
      | some c => exact (hd.2 _ (mget_mem hg)).2
    obtain ⟨i1, i2⟩ := addAt_kept (valid_period s e) h2 ks n _ (fun x hx => h1 x (List.mem_cons_of_mem _ hx)) (by omega) hc.1 hc.2
    refine ⟨nodup_mkeys_mset hd.1 _ _, fun x hx => ?_⟩
    rcases mem_mset hx with rfl | hx
    · exact ⟨h1 k (by simp), i1, i2⟩
    · exact hd.2 x hx

theorem fromPatches_kept (o : TOracle) (now : Int) {n : Nat} {ps : List TPatch} (h : ∀ p ∈ ps, KeptEntry n (tPath p.path) p.value) :
    KeptItems n (fromPatches o now ps) := by
  have step : ∀ (ps : List TPatch) (st : TDoc × List (Bytes × (Js × Int))), (∀ p ∈ ps, KeptEntry n (tPath p.path) p.value) →
      KeptItems n st.1 → (∀ e ∈ st.2, KeptEntry n e.1 e.2.1) →
      KeptItems n (ps.foldl tStep st).1 ∧ ∀ e ∈ (ps.foldl tStep st).2, KeptEntry n e.1 e.2.1 := by
    intro ps
    induction ps with
    | nil => intro st _ h1 h2; exact ⟨h1, h2⟩
    | cons p ps ih =>
      intro st hp h1 h2
      rw [List.foldl_cons]
      have hset : ∀ e ∈ mset st.2 (tPath p.path) (p.value, p.ts), KeptEntry n e.1 e.2.1 := by
        intro e he
        rcases mem_mset he with rfl | he
        · exact hp p (by simp)
        · exact h2 e he
      have : KeptItems n (tStep st p).1 ∧ ∀ e ∈ (tStep st p).2, KeptEntry n e.1 e.2.1 := by
        unfold tStep
        split
        · cases hg : mget st.2 (tPath p.path) with
          | none => exact ⟨h1, hset⟩
          | some x =>
            obtain ⟨v, s⟩ := x
            dsimp only
            split
            · exact ⟨h1, h2⟩
            · exact ⟨tAddItem_kept h1 (h2 _ (mget_mem hg)) _ _, hset⟩
        · split
          · cases hg : mget st.2 (tPath p.path) with
            | none => exact ⟨h1, h2⟩
            | some x =>
              obtain ⟨v, s⟩ := x
              exact ⟨tAddItem_kept h1 (h2 _ (mget_mem hg)) _ _, fun e he => h2 e (mem_mdel he)⟩
          · exact ⟨h1, h2⟩
      exact ih _ (fun q hq => hp q (List.mem_cons_of_mem _ hq)) this.1 this.2
  have close : ∀ (l : List (Bytes × (Js × Int))) (d : TDoc), (∀ e ∈ l, KeptEntry n e.1 e.2.1) → KeptItems n d → KeptItems n (l.foldl (tClose now) d) := by
    intro l
    induction l with
    | nil => intro d _ h; exact h
    | cons e l ih =>
      intro d h1 h2
      rw [List.foldl_cons]
      exact ih _ (fun x hx => h1 x (List.mem_cons_of_mem _ hx)) (tAddItem_kept h2 (h1 e (by simp)) _ _)
  obtain ⟨s1, s2⟩ := step (o.sortPatches ps) ([], []) (fun p hp => h p ((o.sortPatches_perm ps).subset hp)) (keptItems_nil n) (by simp)
  exact close _ _ (fun e he => s2 e ((o.order_perm _).subset he)) s1

theorem pickVersion_mem (t : Int) {P : Js → Prop} : ∀ (vs : List TVersion) (last : Option Js), (∀ d, last = some d → P d) → (∀ v ∈ vs, P v.data) →
    ∀ d, pickVersion t last vs = some d → P d
  | [], last, h, _, d, hd => h d hd
  | v :: vs, last, h, hv, d, hd => by
    unfold pickVersion at hd
    split at hd
    · rw [← Option.some.inj hd]; exact hv v (by simp)
    · exact pickVersion_mem t vs _ (fun x hx => by rw [← Option.some.inj hx]; exact hv v (by simp)) (fun x hx => hv x (List.mem_cons_of_mem _ hx)) d hd

theorem tSnapF_keys (t : Int) : ∀ cs : List (Bytes × TItem), (mkeys (tSnapF t cs)).Sublist (mkeys cs)
  | [] => by rw [tSnapF]; exact .slnil
  | (k, it) :: cs => by
    have := tSnapF_keys t cs
    rw [tSnapF]
    split
    · exact this.cons _
    · exact this.cons_cons _

theorem tSnapF_mem (t : Int) {e : Bytes × Js} : ∀ cs : List (Bytes × TItem), e ∈ tSnapF t cs → ∃ it, (e.1, it) ∈ cs ∧ it.snap t = e.2 ∧ e.2 ≠ .null
  | [], h => by rw [tSnapF] at h; cases h
  | (k, it) :: cs, h => by
    rw [tSnapF] at h
    split at h
    · obtain ⟨x, h1, h2⟩ := tSnapF_mem t cs h
      exact ⟨x, List.mem_cons_of_mem _ h1, h2⟩
    · rename_i hne
      rcases List.mem_cons.1 h with rfl | h
      · exact ⟨it, by simp, rfl, hne⟩
      · obtain ⟨x, h1, h2⟩ := tSnapF_mem t cs h
        exact ⟨x, List.mem_cons_of_mem _ h1, h2⟩

/-- Members of a plain map of bounded depth. -/
def KeptMembers (n : Nat) (m : List (Bytes × Js)) : Prop := (mkeys m).Nodup ∧ ∀ e ∈ m, ValidUtf8 e.1 ∧ PlainJson e.2 ∧ e.2.depth + 1 ≤ n

theorem keptMembers_obj {n : Nat} {m : List (Bytes × Js)} (hn : 1 ≤ n) : KeptMembers n m ↔ PlainJson (.obj m) ∧ (Js.obj m).depth ≤ n := by
  have hdep : (Js.obj m).depth ≤ n ↔ ∀ p ∈ m, p.2.depth + 1 ≤ n := by
    rw [Js.depth]
    have := depthF_le (m := m) (n := n - 1)
    constructor
    · intro h p hp
      have := this.1 (by omega) p hp
      omega
    · intro h
      have := this.2 (fun p hp => by have := h p hp; omega)
      omega
  rw [hdep]
  constructor
  · rintro ⟨h1, h2⟩
    exact ⟨⟨h1, (plainJsonF_iff m).2 fun e he => ⟨(h2 e he).1, (h2 e he).2.1⟩⟩, fun e he => (h2 e he).2.2⟩
  · rintro ⟨h1, h2⟩
    exact ⟨h1.1, fun e he => ⟨((plainJsonF_iff m).1 h1.2 e he).1, ((plainJsonF_iff m).1 h1.2 e he).2, h2 e he⟩⟩

theorem keptMembers_fold {n : Nat} : ∀ (l m : List (Bytes × Js)), KeptMembers n m → (∀ e ∈ l, ValidUtf8 e.1 ∧ PlainJson e.2 ∧ e.2.depth + 1 ≤ n) →
    KeptMembers n (l.foldl (fun m e => mset m e.1 e.2) m)
  | [], m, h, _ => h
  | e :: l, m, h, hl => by
    rw [List.foldl_cons]
    refine keptMembers_fold l _ ⟨nodup_mkeys_mset h.1 _ _, fun x hx => ?_⟩ fun x hx => hl x (List.mem_cons_of_mem _ hx)
    rcases mem_mset hx with rfl | hx
    · exact hl e (by simp)
    · exact h.2 x hx

theorem tSnapF_kept (t : Int) : ∀ (n : Nat) (cs : List (Bytes × TItem)), KeptItems n cs → KeptMembers n (tSnapF t cs)
  | 0, cs, h => by
    rw [show cs = [] from h, tSnapF]
    exact ⟨List.nodup_nil, by simp⟩
  | n + 1, cs, h => by
    refine ⟨(tSnapF_keys t cs).nodup h.1, fun e he => ?_⟩
    obtain ⟨it, h1, h2, h3⟩ := tSnapF_mem t cs he
    obtain ⟨hv, hx, hc⟩ := h.2 _ h1
    refine ⟨hv, ?_⟩
    obtain ⟨p, vs, ch⟩ := it
    have ih := tSnapF_kept t n ch hc
    suffices PlainJson e.2 ∧ e.2.depth ≤ n by exact ⟨this.1, by omega⟩
    rw [← h2] at h3 ⊢
    rw [TItem.snap] at h3 ⊢
    split
    · rename_i k
      rw [if_pos k] at h3
      exact absurd rfl h3
    · rename_i k
      rw [if_neg k] at h3
      have hp := pickVersion_mem t (P := fun d => PlainJson d ∧ d.depth ≤ n) vs none (fun _ h => by cases h) fun v h => (hx v h).2
      split
      · rename_i m hm
        have hm' := hp _ hm
        have hn1 : 1 ≤ n := by have := hm'.2; rw [Js.depth] at this; omega
        exact (keptMembers_obj hn1).1 (keptMembers_fold _ _ ((keptMembers_obj hn1).2 hm') ih.2)
      · rename_i d _ hm
        exact hp _ hm
      · rename_i hm
        rw [hm] at h3
        dsimp only at h3
        split
        · rename_i k'
          rw [if_pos k'] at h3
          exact absurd rfl h3
        · rename_i k'
          have hn1 : 1 ≤ n := by
            cases hl : tSnapF t ch with
            | nil => rw [hl] at k'; exact absurd rfl k'
            | cons a l => have := (ih.2 a (by rw [hl]; simp)).2.2; omega
          exact (keptMembers_obj hn1).1 ih

theorem tSnapshot_kept {n : Nat} (hn : 1 ≤ n) {d : TDoc} (h : KeptItems n d) (t : Int) : PlainJson (tSnapshot d t) ∧ (tSnapshot d t).depth ≤ n :=
  (keptMembers_obj hn).1 (tSnapF_kept t n d h)

theorem recorded_kept {w u : Js} (h : Recorded w u) (hw : PlainJson w) : PlainJson u ∧ u.depth ≤ w.depth := by
  cases h with
  | atom _ => exact ⟨hw, Nat.le_refl _⟩
  | @map n _ =>
    refine ⟨⟨(List.Sublist.map _ List.filter_sublist).nodup hw.1, (plainJsonF_iff _).2 fun e he => (plainJsonF_iff n).1 hw.2 e (List.mem_filter.1 he).1⟩, ?_⟩
    rw [Js.depth, Js.depth]
    have := (depthF_le (m := n.filter fun e => decide e.2.IsPrim)).2 fun e he => depthF_le.1 (Nat.le_refl (Js.depthF n)) e (List.mem_filter.1 he).1
    omega

/-- The store of the experiments. -/
theorem store_kept (o : TOracle) (now : Int) {m : List (Bytes × Js)} (hk : GoodKeys (.obj m)) (hp : PlainJson (.obj m)) {rs ps : List TPatch}
    (hrs : ReadingsFrom0 m rs) (hpl : KeptReadings rs) (hps : ps.Perm (initialPatches [] (.obj m) ++ rs)) :
    KeptItems ((Js.obj m).depth + 1) (fromPatches o now ps) := by
  refine fromPatches_kept o now fun p hpp => ?_
  rcases List.mem_append.1 (hps.subset hpp) with hi | hr
  · obtain ⟨ks, w, u, h1, h2, rfl⟩ := (initial_iff (goodDoc_of_plain hk hp) p).1 hi
    obtain ⟨b1, b2⟩ := inside_bounds h1 hp
    obtain ⟨r1, r2⟩ := recorded_kept h2 (plain_inside h1 hp)
    show KeptEntry _ (tPath (joinWith bDot ks)) u
    rw [tPath_joinWith fun k hk' => (hk ks w h1 k hk').2.2.1]
    cases ks with
    | nil => exact ⟨by simp [joinWith, split]; exact .nil, r1, by simp [joinWith, split]; simp at b2; omega⟩
    | cons k ks =>
      unfold KeptEntry
      rw [split_joinWith bDot _ (by simp) fun x hx => (hk _ w h1 x hx).2.1]
      exact ⟨b1, r1, by omega⟩
  · obtain ⟨-, -, -, -, -, ks, w, h6, h7⟩ := hrs p hr
    obtain ⟨p1, -⟩ := hpl p hr
    obtain ⟨b1, b2⟩ := inside_bounds (at_inside h6.found) hp
    have hg := h6.keys hk
    rw [h7, tPath_joinWith fun k hk' => (hg k hk').2.2.1]
    unfold KeptEntry
    rw [split_joinWith bDot _ h6.ne_nil fun x hx => (hg x hx).2.1]
    refine ⟨b1, p1.1, ?_⟩
    have : p.value.depth = 0 := by
      rcases plainScalar_cases p1 with ⟨b, e⟩ | ⟨f, e, hf⟩ | ⟨s, e, hs⟩ <;> rw [e] <;> rfl
    omega

theorem itemAt_kept : ∀ (ks : List Bytes) {n : Nat} {it it' : TItem}, (∀ v ∈ it.versions, KeptVersion n v) → KeptItems n it.children →
    it.at? ks = some it' → ∀ v ∈ it'.versions, KeptVersion n v
  | [], n, it, it', h1, _, h => by
    simp only [TItem.at?, Option.some.injEq] at h
    subst h
    exact h1
  | k :: ks, n, it, it', _, h2, h => by
    simp only [TItem.at?, Option.bind_eq_some_iff] at h
    obtain ⟨c, e1, e2⟩ := h
    cases n with
    | zero => rw [show it.children = [] from h2] at e1; cases e1
    | succ n =>
      obtain ⟨-, c1, c2⟩ := h2.2 _ (mget_mem e1)
      intro v hv
      have := itemAt_kept ks c1 c2 e2 v hv
      exact ⟨this.1, this.2.1, Nat.le_succ_of_le this.2.2⟩

theorem tTrack_kept {n : Nat} {d : TDoc} (h : KeptItems n d) {o : TOracle} {path : Bytes} {s e : Int} {B : List TVersion}
    (ht : tTrack o d path s e = .ok B) : ∀ v ∈ B, KeptVersion n v := by
  unfold tTrack at ht
  cases hi : tItemAt d (split bDot path) with
  | none => rw [hi] at ht; cases ht
  | some it =>
    rw [hi] at ht
    have ht := Res.ok.inj ht
    subst ht
    intro v hv
    have hv := (List.mem_filter.1 ((o.sortVersions_perm _).subset hv)).1
    cases hs : split bDot path with
    | nil => rw [hs] at hi; cases hi
    | cons k ks =>
      rw [hs] at hi
      simp only [tItemAt, Option.bind_eq_some_iff] at hi
      obtain ⟨c, e1, e2⟩ := hi
      cases n with
      | zero => rw [show d = [] from h] at e1; cases e1
      | succ n =>
        obtain ⟨-, c1, c2⟩ := h.2 _ (mget_mem e1)
        have := itemAt_kept ks c1 c2 e2 v hv
        exact ⟨this.1, this.2.1, Nat.le_succ_of_le this.2.2⟩

end Verif
