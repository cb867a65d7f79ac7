import Verif.ExpSnaps
import Verif.PropsExpSaved
/-
C93: one saved snapshot per reading.
-/
namespace Verif

/-! ### The same document has the same leaves -/

theorem docRelF_get {R : Prim → Int → Prim → Int → Prop} {n : List (Bytes × Tson)} : ∀ {m : List (Bytes × Tson)} {k : Bytes} {c : Tson},
    DocRelF R m n → mget m k = some c → ∃ w, mget n k = some w ∧ DocRel R c w
  | [], _, _, _, h => by simp [mget] at h
  | (k', v) :: m, k, c, hr, h => by
    rw [DocRelF] at hr
    rw [mget] at h
    split at h
    · next e => subst e; cases h; exact hr.1
    · exact docRelF_get hr.2 h

theorem docRelL_get {R : Prim → Int → Prim → Int → Prop} : ∀ {l l' : List Tson} {i : Nat} {c : Tson},
    DocRelL R l l' → l[i]? = some c → ∃ w, l'[i]? = some w ∧ DocRel R c w
  | [], _, _, _, _, h => by simp at h
  | v :: l, [], _, _, hr, _ => by simp [DocRelL] at hr
  | v :: l, w :: l', 0, c, hr, h => by
    rw [DocRelL] at hr
    simp only [List.getElem?_cons_zero, Option.some.injEq] at h
    subst h
    exact ⟨w, rfl, hr.1⟩
  | v :: l, w :: l', i + 1, c, hr, h => by
    rw [DocRelL] at hr
    rw [List.getElem?_cons_succ] at h ⊢
    exact docRelL_get hr.2 h

theorem sameDoc_leaf {a : Tson} {ks : List Bytes} {x : Tson} (h : Reaches a ks x) : ∀ {p : Prim} {ts : Int}, x = .leaf p ts →
    ∀ {b : Tson}, SameDoc a b → Reaches b ks (.leaf p ts) := by
  induction h with
  | here t =>
    rintro p ts rfl b hs
    cases b <;> simp only [SameDoc, DocRel] at hs
    obtain ⟨rfl, rfl⟩ := hs
    exact .here _
  | member m k ks c t hm _ ih =>
    intro p ts e b hs
    cases b <;> simp only [SameDoc, DocRel] at hs
    obtain ⟨w, h1, h2⟩ := docRelF_get hs.2 hm
    exact .member _ _ _ _ _ h1 (ih e h2)
  | element l k ks i c t hk hl _ ih =>
    intro p ts e b hs
    cases b <;> simp only [SameDoc, DocRel] at hs
    obtain ⟨w, h1, h2⟩ := docRelL_get hs hl
    exact .element _ _ _ _ _ _ hk h1 (ih e h2)

/-! ### What a snapshot shows -/

/-- The document shows at a sensor the last of some readings with its time, or the value at the beginning without a time. -/
def ShowsSensor (u : Tson) (ks : List Bytes) (w : Js) (L : List TPatch) : Prop :=
  ∃ p, Reaches u ks (.leaf p ((L.getLast?.map TPatch.ts).getD (-1))) ∧ primJs p = valueAfter w L

/-- The document after some readings. -/
structure AfterReadings (m : List (Bytes × Js)) (doc : Tson) (rs : List TPatch) (u : Tson) : Prop where
  sensors : ∀ ks w, SensorAt m ks w → ShowsSensor u ks w (patchesOn rs (joinWith bDot ks))
  others : ∀ ks, (∀ r ∈ rs, Independent (writeParts r.path) ks) → ∀ p ts, Reaches u ks (.leaf p ts) ↔ Reaches doc ks (.leaf p ts)

theorem patchesOn_concat (rs : List TPatch) (p : TPatch) (q : Bytes) :
    patchesOn (rs ++ [p]) q = if p.path = q then patchesOn rs q ++ [p] else patchesOn rs q := by
  unfold patchesOn
  rw [List.filter_append]
  by_cases h : p.path = q <;> simp [h]

theorem SensorAt.independent {m : List (Bytes × Js)} {ks ks' : List Bytes} {w w' : Js} (h : SensorAt m ks w) (h' : SensorAt m ks' w')
    (hne : ks ≠ ks') : Independent ks ks' :=
  ⟨fun hp => hne (h.prefix h' hp), fun hp => hne (h'.prefix h hp).symm⟩

theorem reading_op {r : TPatch} (h1 : r.Sets) (h : PlainScalar r.value) :
    ∃ p, Leaves r.toOp (some (p, r.ts)) ∧ primJs p = r.value := by
  have hk : r.toOp.kind = .add ∨ r.toOp.kind = .replace := by
    rcases h1 with e | e <;> simp only [TPatch.toOp, POp.toOp, e]
    · left; rfl
    · right; rfl
  rcases plainScalar_cases h with ⟨b, e⟩ | ⟨f, e, hf⟩ | ⟨s, e, hs⟩
  · exact ⟨.bool b, .inl ⟨hk, _, by simp only [TPatch.toOp, POp.toOp, e]; exact .bool b, rfl⟩, e.symm⟩
  · exact ⟨.num f, .inl ⟨hk, _, by simp only [TPatch.toOp, POp.toOp, e]; exact .num f, rfl⟩, e.symm⟩
  · exact ⟨.str s, .inl ⟨hk, _, by simp only [TPatch.toOp, POp.toOp, e]; exact .str s, rfl⟩, e.symm⟩

/-- One more reading. -/
theorem AfterReadings.step {m : List (Bytes × Js)} (hk : GoodKeys (.obj m)) {all : List TPatch} (hrs : ReadingsFrom0 m all)
    (hpl : KeptReadings all) {doc : Tson} {rs : List TPatch} {mm : List (Bytes × Tson)} (h : AfterReadings m doc rs (.obj mm)) {r : TPatch}
    (hr : r ∈ all) {u : Tson} (ha : applyPatchT (.obj mm) [r.toOp] = (u, .ok ())) : AfterReadings m doc (rs ++ [r]) u := by
  obtain ⟨h1, h2, -, h4, h5, ks, w, h6, h7⟩ := hrs r hr
  have hsimple := (sensorReadings_simple hk hrs).1 _ (List.mem_map_of_mem hr)
  obtain ⟨a1, a2⟩ := applyPatchT_independent [r.toOp] (by simpa using hsimple) (by simp) ha
  have hw : writeParts r.toOp.path = ks := by
    simp only [TPatch.toOp, POp.toOp, h7]
    exact writeParts_joinWith h6.ne_nil fun k hk' => (h6.keys hk k hk').2
  have hw' : writeParts r.path = ks := hw
  obtain ⟨p, hp1, hp2⟩ := reading_op h1 (hpl r hr).1
  have hold := (a1 _ (by simp) _ hp1).reaches.1 _ _ rfl
  rw [hw] at hold
  refine ⟨fun ks' w' hs => ?_, fun ks' hi p' ts' => ?_⟩
  · rw [patchesOn_concat]
    by_cases e : r.path = joinWith bDot ks'
    · rw [if_pos e]
      have : ks = ks' := joinWith_inj (fun k hk' => ⟨(h6.keys hk k hk').1, (h6.keys hk k hk').2.1⟩)
        (fun k hk' => ⟨(hs.keys hk k hk').1, (hs.keys hk k hk').2.1⟩) (h7.symm.trans e)
      subst this
      refine ⟨p, by simpa using hold, by simp [valueAfter, hp2]⟩
    · rw [if_neg e]
      obtain ⟨q, q1, q2⟩ := h.sensors ks' w' hs
      refine ⟨q, (a2 ks' (fun o ho => ?_) _).2 q1, q2⟩
      rw [List.mem_singleton.1 ho, hw]
      exact h6.independent hs fun e' => e (by rw [h7, e'])
  · rw [a2 ks' (fun o ho => ?_), h.others ks' (fun x hx => hi x (by simp [hx]))]
    rw [List.mem_singleton.1 ho]
    exact hi r (by simp)

theorem AfterReadings.same {m : List (Bytes × Js)} {doc : Tson} {rs : List TPatch} {u u' : Tson} (h : AfterReadings m doc rs u)
    (hs : SameDoc u u') (hs' : SameDoc u' u) : AfterReadings m doc rs u' := by
  refine ⟨fun ks w hk => ?_, fun ks hi p ts => ?_⟩
  · obtain ⟨p, h1, h2⟩ := h.sensors ks w hk
    exact ⟨p, sameDoc_leaf h1 rfl hs, h2⟩
  · rw [← h.others ks hi p ts]
    exact ⟨fun hx => sameDoc_leaf hx rfl hs', fun hx => sameDoc_leaf hx rfl hs⟩

/-! ### The files -/

theorem snapshotName_inj {i j : Nat} (h : snapshotName i = snapshotName j) : i = j := by
  unfold snapshotName jsonName at h
  rw [List.append_assoc, List.append_assoc] at h
  exact natDigits_injective (List.append_cancel_right (List.append_cancel_left h))

/-- A file with a document. -/
def FileShows (dir : Dir) (n : Nat) (P : Tson → Prop) : Prop :=
  ∃ b u, mget dir (snapshotName n) = some b ∧ fromCompatibleText b = .ok u ∧ P u

theorem save_shows (dir : Dir) (n : Nat) {N : Nat} (hN : N ≤ 10000) {t : Tson} (ht : KeptDoc N t) :
    (∃ b u, mget (dir.save (snapshotName n) (snapshotText (.ok (some t)))) (snapshotName n) = some b ∧ fromCompatibleText b = .ok u ∧
      SameDoc t u ∧ SameDoc u t) ∧
    ∀ k, k ≠ snapshotName n → mget (dir.save (snapshotName n) (snapshotText (.ok (some t)))) k = mget dir k := by
  obtain ⟨b, u, h1, h2, h3, h4⟩ := doc_back hN ht
  refine ⟨⟨appendIndent 2 .out 0 false b, u, ?_, h2, h3, h4⟩, fun k hk => by rw [mget_save, if_neg hk]⟩
  rw [mget_save, if_pos rfl]
  simp only [snapshotText, h1, indented, Res.map]

theorem loop_files {m : List (Bytes × Js)} (hk : GoodKeys (.obj m)) {all : List TPatch} (hrs : ReadingsFrom0 m all)
    (hpl : KeptReadings all) {N : Nat} (hN : N ≤ 10000) (hg : ∀ o ∈ all.map TPatch.toOp, GoodOp N o) (doc : Tson) :
    ∀ (l done : List TPatch) (h : Heap) (a : Nat) (mm : List (Bytes × Tson)) (F : Nat → Prop) (dir : Dir), all = done ++ l →
    Rep h (.obj a) (.obj mm) F → MembersOf (.obj mm) (all.map TPatch.toOp) → KeptDoc N (.obj mm) → AfterReadings m doc done (.obj mm) →
    ∃ dir', snapshotsLoop h (.obj a) done.length l dir = (dir', .ok ()) ∧
      (∀ k, (∀ i, done.length < i → i ≤ all.length → k ≠ snapshotName i) → mget dir' k = mget dir k) ∧
      ∀ i, done.length < i → i ≤ all.length → FileShows dir' i (AfterReadings m doc (all.take i))
  | [], done, h, a, mm, F, dir, he, _, _, _, _ => by
    refine ⟨dir, rfl, fun _ _ => rfl, fun i h1 h2 => ?_⟩
    rw [he, List.append_nil] at h2
    omega
  | r :: l, done, h, a, mm, F, dir, he, hrep, hmem, hkept, hafter => by
    have hr : r ∈ all := by rw [he]; simp
    have hro : r.toOp ∈ all.map TPatch.toOp := List.mem_map_of_mem hr
    have hL := sensorReadings_simple hk hrs
    have hsub : ∀ p ∈ [r.toOp], p ∈ all.map TPatch.toOp := by intro p hp; rw [List.mem_singleton.1 hp]; exact hro
    obtain ⟨m1, e1, e2, -⟩ := applyPatchT_members hL [r.toOp] mm hsub hmem
    have hk1 := applyPatchT_kept hL hg [r.toOp] mm hsub hmem hkept
    obtain ⟨G, hG, -, -, -, hout⟩ := applyPatchLoop_obj [r.toOp] hrep .null
    rw [e1] at hG hout hk1
    simp only [Res.map, List.cons_ne_nil, if_false] at hout hG hk1
    have ha1 := hafter.step hk hrs hpl hr e1
    obtain ⟨h', hh⟩ : ∃ h', applyPatch h (.obj a) [r.toOp] = (h', .ok (.obj a)) := ⟨_, Prod.ext rfl hout⟩
    have hh1 : (applyPatchLoop h (.obj a) .null [r.toOp]).1 = h' := congrArg Prod.fst hh
    rw [hh1] at hG
    rw [snapshotsLoop, hh]
    dsimp only
    rw [hG.view]
    obtain ⟨⟨b, u, s1, s2, s3, s4⟩, s5⟩ := save_shows dir (done.length + 1) hN hk1
    obtain ⟨dir', d1, d2, d3⟩ := loop_files hk hrs hpl hN hg doc l (done ++ [r]) h' a m1 G
      (dir.save (snapshotName (done.length + 1)) (snapshotText (.ok (some (.obj m1))))) (by simp [he]) hG e2 hk1 ha1
    rw [List.length_append, List.length_singleton] at d1 d2 d3
    refine ⟨dir', d1, fun k hk' => ?_, fun i hi hi' => ?_⟩
    · rw [d2 k fun i h1 h2 => hk' i (by omega) h2]
      exact s5 k (hk' _ (by omega) (by rw [he]; simp))
    · by_cases hi1 : i = done.length + 1
      · subst hi1
        refine ⟨b, u, ?_, s2, ?_⟩
        · rw [d2 _ fun i h1 h2 e => ?_]
          · exact s1
          · have := snapshotName_inj e
            omega
        · have : all.take (done.length + 1) = done ++ [r] := by
            rw [he, List.take_length_add_append]; rfl
          rw [this]
          exact ha1.same s3 s4
      · exact d3 i (by omega) hi'

/-- **C93.**  For a vehicle document and readings of its sensors, `CreateSnapshot` writes a file for the beginning and one after each
reading, and touches no other file.  The n-th file is read back as a document that shows at each sensor the last of the first n readings
on it with its time, or the value at the beginning; all else is as in the document at the beginning. -/
theorem C93_files_partial (h : Heap) {doc m : List (Bytes × Js)} (hm : jsTransform (.obj doc) = .obj m) (hk : GoodKeys (.obj m))
    (hp : PlainJson (.obj m)) (hdep : (Js.obj m).depth < 10000) {rs : List TPatch} (hrs : ReadingsFrom0 m rs) (hpl : KeptReadings rs)
    (dir : Dir) :
    ∃ dir' t, createSnapshots h doc rs dir = (dir', .ok ()) ∧ fromJson (.obj m) = .ok t ∧
      (∀ k, (∀ i ≤ rs.length, k ≠ snapshotName i) → mget dir' k = mget dir k) ∧
      FileShows dir' 0 (SameDoc t) ∧
      ∀ i ≤ rs.length, FileShows dir' i (AfterReadings m t (rs.take i)) := by
  have hM := sensorReadings_members hk hp hrs
  obtain ⟨m0, e⟩ : ∃ m0, sortT (stampT (.obj m)) = .obj m0 := by rw [stampT, sortT]; exact ⟨_, rfl⟩
  have h1 := sortT_wf _ (stampT_wf _ hp)
  have h3 := sortT_clean _ (stampT_clean _ hp).1
  have h4 := sortT_nesting (stampT (.obj m))
  have h5 := stampT_nesting (.obj m)
  have h6 := sortT_nullFree _ (stampT_clean _ hp).2
  have hsens : ∀ ks w, SensorAt m ks w → ShowsSensor (sortT (stampT (.obj m))) ks w [] := by
    intro ks w hs
    have hr := stamp_reaches hp hs.found
    obtain ⟨p, p1, p2⟩ := stamp_prim (plain_inside (at_inside hs.found) hp) hs.atom
    rw [p2] at hr
    exact ⟨p, hr, p1.symm⟩
  unfold createSnapshots
  rw [hm, fromJson_plain hp trivial hdep]
  rw [e] at h1 h3 h4 h6 hM hsens ⊢
  have hkept : KeptDoc ((Js.obj m).depth + 1) (.obj m0) := ⟨h1, h3, h6, by omega⟩
  obtain ⟨a, ha⟩ := store_obj h m0
  obtain ⟨-, F, hF, -⟩ := store_rep h (.obj m0) h1
  rw [ha] at hF
  obtain ⟨⟨b, u, s1, s2, s3, s4⟩, s5⟩ := save_shows dir 0 (show (Js.obj m).depth + 1 ≤ 10000 by omega) hkept
  have hafter : AfterReadings m (.obj m0) [] (.obj m0) := ⟨hsens, fun _ _ _ _ => Iff.rfl⟩
  obtain ⟨dir', d1, d2, d3⟩ := loop_files hk hrs hpl (show (Js.obj m).depth + 1 ≤ 10000 by omega) (goodOp_reading hk hp hrs hpl) (.obj m0)
    rs [] _ a m0 F (dir.save (snapshotName 0) (snapshotText (.ok (some (.obj m0))))) rfl hF hM hkept hafter
  have hz : mget dir' (snapshotName 0) = some b := by
    rw [d2 _ fun i h1 h2 e => ?_]
    · exact s1
    · have := snapshotName_inj e
      simp at h1
      omega
  refine ⟨dir', .obj m0, ?_, rfl, fun k hk' => ?_, ⟨b, u, hz, s2, s3⟩, fun i hi => ?_⟩
  · dsimp only
    rw [ha]
    exact d1
  · rw [d2 k fun i _ h2 => hk' i h2]
    exact s5 k (hk' 0 (by omega))
  · by_cases hi0 : i = 0
    · subst hi0
      exact ⟨b, u, hz, s2, hafter.same s3 s4⟩
    · exact d3 i (by simp; omega) hi

/-! ### The same as the snapshots of the logument -/

theorem take_upTo (t : Int) : ∀ {rs : List TPatch}, rs.Pairwise (fun a b => a.ts ≤ b.ts) →
    rs.take (rs.countP fun r => decide (r.ts ≤ t)) = rs.filter fun r => decide (r.ts ≤ t)
  | [], _ => rfl
  | r :: rs, h => by
    rw [List.pairwise_cons] at h
    by_cases hr : r.ts ≤ t
    · rw [List.countP_cons_of_pos (by simpa using hr), List.filter_cons_of_pos (by simpa using hr), List.take_succ_cons, take_upTo t h.2]
    · have hn : ∀ x ∈ rs, ¬ (decide (x.ts ≤ t) = true) := fun x hx k => by
        have := h.1 x hx
        simp only [decide_eq_true_eq] at k
        omega
      rw [List.countP_cons_of_neg (by simpa using hr), List.filter_cons_of_neg (by simpa using hr), List.countP_eq_zero.2 hn,
        List.filter_eq_nil_iff.2 hn]
      rfl

theorem primJs_inj {p q : Prim} (h : primJs p = primJs q) : p = q := by
  cases p <;> cases q <;> simp_all [primJs]

/-- **C93, the logument.**  For readings in the order of time, what the logument returns for a time not before the first reading is,
for each sensor with readings at different times, what is in the file after the last reading up to that time: the same value with the same
time. -/
theorem C93_logument_partial (h : Heap) {doc m : List (Bytes × Js)} (hm : jsTransform (.obj doc) = .obj m) (hk : GoodKeys (.obj m))
    (hp : PlainJson (.obj m)) (hdep : (Js.obj m).depth < 10000) {rs : List TPatch} (hrs : ReadingsFrom0 m rs) (hpl : KeptReadings rs)
    (hasc : rs.Pairwise fun a b => a.ts ≤ b.ts) (dir : Dir) {qs : List (Oracle × Int)} (hq : qs.Pairwise (fun a b => a.2 ≤ b.2))
    (hqt : ∀ q ∈ qs, ∃ r ∈ rs, r.ts ≤ q.2) :
    ∃ dir' s, createSnapshots h doc rs dir = (dir', .ok ()) ∧ createLogument h doc rs = .ok s ∧ (s.queries qs).2.length = qs.length ∧
      ∀ (i : Nat) (q : Oracle × Int), qs[i]? = some q → ∃ u, (s.queries qs).2[i]? = some (.ok (some u)) ∧
        FileShows dir' (rs.countP fun r => decide (r.ts ≤ q.2)) fun u' =>
          ∀ ks w, SensorAt m ks w → (patchesOn rs (joinWith bDot ks)).Pairwise (fun a b => a.ts < b.ts) →
            ∃ p ts, Reaches u ks (.leaf p ts) ∧ Reaches u' ks (.leaf p ts) := by
  obtain ⟨dir', t, h1, -, -, -, h2⟩ := C93_files_partial h hm hk hp hdep hrs hpl dir
  have hL := sensorReadings_simple hk hrs
  have hM := sensorReadings_members hk hp hrs
  refine ⟨dir', _, h1, by rw [createLogument, hm, fromJson_plain hp trivial hdep], ?_⟩
  have hC := C68_queries_partial h (sortT_wf _ (stampT_wf _ hp)) (nullFree_hasNull _ (stampT_clean _ hp).2) hL hM hq
  refine ⟨hC.1, fun i q hi => ?_⟩
  obtain ⟨u, hu, hlook⟩ := hC.2 i q hi
  obtain ⟨b, u', f1, f2, f3⟩ := h2 _ (List.countP_le_length (p := fun r : TPatch => decide (r.ts ≤ q.2)))
  rw [take_upTo _ hasc] at f3
  refine ⟨u, hu, b, u', f1, f2, fun ks w hsen hpw => ?_⟩
  obtain ⟨p, p1, p2⟩ := looks_value hk hp hrs hlook (hqt q (List.mem_of_getElem? hi)) hsen ⟨List.Perm.refl _, hpw⟩
  obtain ⟨p', p3, p4⟩ := f3.sensors ks w hsen
  have e : patchesOn (rs.filter fun r => decide (r.ts ≤ q.2)) (joinWith bDot ks) =
      (rs.filter fun r => decide (r.path = joinWith bDot ks)).filter fun r => decide (r.ts ≤ q.2) := by
    unfold patchesOn
    rw [List.filter_filter, List.filter_filter]
    exact List.filter_congr fun r _ => Bool.and_comm _ _
  rw [e] at p3 p4
  have : p = p' := primJs_inj (p2.trans p4.symm)
  subst this
  exact ⟨p, _, p1, p3⟩

/-! ### Simulated drives -/

/-- What a simulated drive records is in the order of time and is written without loss. -/
theorem recorded_order {dur : Nat} (hdur : dur ≤ 2 ^ 53) {d : Draws} {scenario : Bytes} {r₀ r : Trip} (o : Ended dur d scenario r₀ r) :
    KeptReadings r.sim.tsonPatches ∧ r.sim.tsonPatches.Pairwise fun a b => a.ts ≤ b.ts := by
  refine ⟨fun q hq => ?_, o.ordered.sublist o.kept⟩
  obtain ⟨-, a1, a2, a3, -⟩ := o.readings q (o.kept.subset hq)
  exact ⟨a3, by omega⟩

/-- **C93, whole.**  The document and the patches saved by a simulated drive, handed to `CreateSnapshot`: it writes a file for the
beginning and one after each recorded patch.  The n-th shows for each sensor of the vehicle the last of the first n patches on it, or its
value at the beginning, and the same as the logument for every time from the first patch on. -/
theorem C93_drive_partial (h : Heap) {dur : Nat} (hdur : dur ≤ 2 ^ 53) {d : Draws} (hd : d.Good) (hclk : d.Clock) {scenario : Bytes}
    (hs : scenario ∈ scenarioNames) {ds : List (Bytes × Dir)} {t : Civil}
    (ht : t.Valid) (hds : UpTo ds t) (out : Dir) :
    ∃ r₀ r doc dir out', Trip.start d scenario = .ok r₀ ∧ experiment dur d scenario = .ok (some r) ∧
      r₀.vehicle.map SensorData.path = vssSensors.map VssSensor.path ∧
      latestDir (saveExperiment ds t r₀ r) = some (t.name, dir) ∧ dir.loadPatches = .ok r.sim.tsonPatches ∧ dir.loadDoc = .ok doc ∧
      createSnapshots h doc r.sim.tsonPatches out = (out', .ok ()) ∧
      (∀ k, (∀ i ≤ r.sim.tsonPatches.length, k ≠ snapshotName i) → mget out' k = mget out k) ∧
      (∀ i ≤ r.sim.tsonPatches.length, FileShows out' i fun u =>
        ∀ s ∈ r₀.vehicle, ShowsSensor u (split bDot s.path) s.value (patchesOn (r.sim.tsonPatches.take i) s.path)) ∧
      ∀ qs : List (Oracle × Int), qs.Pairwise (fun a b => a.2 ≤ b.2) → (∀ q ∈ qs, ∃ r' ∈ r.sim.tsonPatches, r'.ts ≤ q.2) →
        ∃ s, createLogument h doc r.sim.tsonPatches = .ok s ∧ (s.queries qs).2.length = qs.length ∧
          ∀ (i : Nat) (q : Oracle × Int), qs[i]? = some q → ∃ u, (s.queries qs).2[i]? = some (.ok (some u)) ∧
            FileShows out' (r.sim.tsonPatches.countP fun r => decide (r.ts ≤ q.2)) fun u' =>
              ∀ s ∈ r₀.vehicle, ∃ p ts, Reaches u (split bDot s.path) (.leaf p ts) ∧ Reaches u' (split bDot s.path) (.leaf p ts) := by
  obtain ⟨r₀, r, doc, m, dir, h1, h2, hpath, h3, h4, h5, H⟩ := C87_handed_partial hdur hd hclk hs ht hds
  obtain ⟨r₀', r', o⟩ := ended hdur hd hs
  obtain rfl : r₀ = r₀' := by have := o.first.start; rw [h1] at this; cases this; rfl
  obtain rfl : r = r' := by have := o.runs; rw [h2] at this; cases this; rfl
  obtain ⟨k1, k2⟩ := recorded_order hdur o
  obtain ⟨out', tt, f1, -, f2, -, f3⟩ := C93_files_partial h H.plain H.keys H.values H.depth H.readings k1 out
  refine ⟨r₀, r, doc, dir, out', h1, h2, hpath, h3, h4, h5, f1, f2, fun i hi => ?_, fun qs hq hqt => ?_⟩
  · obtain ⟨b, u, g1, g2, g3⟩ := f3 i hi
    refine ⟨b, u, g1, g2, fun s hsm => ?_⟩
    have := g3.sensors _ _ (H.sensors s hsm).1
    rwa [joinWith_split] at this
  · obtain ⟨out'', s, e1, e2, e3, e4⟩ := C93_logument_partial h H.plain H.keys H.values H.depth H.readings k1 k2 out hq hqt
    obtain rfl : out'' = out' := by rw [f1] at e1; exact (Prod.mk.inj e1).1.symm
    refine ⟨s, e2, e3, fun i q hi => ?_⟩
    obtain ⟨u, u1, b, u', u2, u3, u4⟩ := e4 i q hi
    refine ⟨u, u1, b, u', u2, u3, fun s hsm => u4 _ _ (H.sensors s hsm).1 ?_⟩
    rw [joinWith_split]
    exact (H.sensors s hsm).2.2.1.ascending

/-! ### Readings that cannot be applied, examples -/

/-- A patch on a place that is not in the document ends the program; the files before it stay. -/
theorem C93_place_fails : ∃ (doc : List (Bytes × Js)) (rs : List TPatch) (dir : Dir), createSnapshots [] doc rs [] = (dir, .panic) ∧
    rs.length = 2 ∧ mkeys dir = [b!"snapshot_0.json", b!"snapshot_1.json"] :=
  ⟨[(b!"V", .obj [(b!"S", .num (dec 5 1))])], [⟨b!"replace", b!"V.S", .num (dec 6 1), 5⟩, ⟨b!"replace", b!"V.S.x", .num (dec 6 1), 6⟩],
    [(b!"snapshot_0.json", b!"{\n  \"V\": {\n    \"S\": {\n      \"value\": 5,\n      \"timestamp\": -1\n    }\n  }\n}"),
      (b!"snapshot_1.json", b!"{\n  \"V\": {\n    \"S\": {\n      \"value\": 6,\n      \"timestamp\": 5\n    }\n  }\n}")],
    by decide +kernel, rfl, rfl⟩

theorem zeroReadings_kept : KeptReadings zeroReadings := by
  intro r hr
  simp only [zeroReadings, List.mem_cons, List.not_mem_nil, or_false] at hr
  rcases hr with rfl | rfl | rfl <;> exact ⟨⟨⟨_, _, _, _, rfl⟩, trivial⟩, by decide⟩

/-- The hypotheses of `C93_files_partial` hold: after two readings, the file shows the second one. -/
example : ∃ dir, createSnapshots [] speedDoc zeroReadings [] = (dir, .ok ()) ∧
    FileShows dir 2 fun u => ∃ p, Reaches u [b!"car", b!"speed"] (.leaf p 60) ∧ primJs p = .num (F64.ofInt 20) := by
  obtain ⟨dir, t, h1, -, -, -, h2⟩ := C93_files_partial [] speedDoc_eq speedDoc_keys speedDoc_plain (by decide) zeroReadings_from
    zeroReadings_kept []
  obtain ⟨b, u, f1, f2, f3⟩ := h2 2 (by decide)
  exact ⟨dir, h1, b, u, f1, f2, f3.sensors _ _ speedDoc_sensor⟩

/-- The hypotheses of `C93_logument_partial` hold: at time 65, the logument shows what is in the third file. -/
example : ∃ dir s u, createSnapshots [] speedDoc zeroReadings [] = (dir, .ok ()) ∧ createLogument [] speedDoc zeroReadings = .ok s ∧
    (s.queries [(Oracle.plain, 25), (Oracle.plain, 65)]).2[1]? = some (.ok (some u)) ∧
    FileShows dir 2 fun u' => ∃ p ts, Reaches u [b!"car", b!"speed"] (.leaf p ts) ∧ Reaches u' [b!"car", b!"speed"] (.leaf p ts) := by
  obtain ⟨dir, s, h1, h2, -, h3⟩ := C93_logument_partial [] speedDoc_eq speedDoc_keys speedDoc_plain (by decide) zeroReadings_from
    zeroReadings_kept (by decide) [] (qs := [(Oracle.plain, 25), (Oracle.plain, 65)]) (by decide) (by
      intro q hq
      simp only [List.mem_cons, List.not_mem_nil, or_false] at hq
      rcases hq with rfl | rfl <;> exact ⟨speedAt 60 0, by simp [zeroReadings], by decide⟩)
  obtain ⟨u, h4, b, u', f1, f2, f3⟩ := h3 1 _ rfl
  exact ⟨dir, s, u, h1, h2, h4, b, u', f1, f2, f3 _ _ speedDoc_sensor (by decide)⟩

/-- The hypotheses of `C93_drive_partial` hold: an hour of the mixed scenario. -/
example : ∃ r₀ r doc out, Trip.start halfDraws b!"mixed_scenario" = .ok r₀ ∧ experiment 3600000 halfDraws b!"mixed_scenario" = .ok (some r) ∧
    createSnapshots [] doc r.sim.tsonPatches [] = (out, .ok ()) ∧
    FileShows out 0 fun u => ∀ s ∈ r₀.vehicle, ShowsSensor u (split bDot s.path) s.value [] := by
  obtain ⟨r₀, r, doc, dir, out, h1, h2, -, -, -, -, h3, -, h4, -⟩ := C93_drive_partial [] (dur := 3600000) (by decide) halfDraws_good
    halfDraws_clock (scenario := b!"mixed_scenario") (by decide) someTime_valid upTo_some []
  exact ⟨r₀, r, doc, out, h1, h2, h3, h4 0 (by omega)⟩

end Verif
