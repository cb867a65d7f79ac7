import Verif.JsonIndentRead
import Verif.PropsExpTemporal
/-
C87: the files between the simulation and the temporal experiments.
-/
namespace Verif

/-! ### Patches -/

/-- A patch that can be written: the numbers of its value are finite, and integers have 64 bits. -/
structure TPatch.Writable (p : TPatch) : Prop where
  finite : p.value.finite = true
  ints : IntsOk p.value
  depth : p.value.depth ≤ 9998
  ts : minInt64 ≤ p.ts ∧ p.ts ≤ maxInt64

/-- A patch as read from the file. -/
def readBack (p : TPatch) : TPatch := ⟨sanitize p.op, sanitize p.path, decAny (sanT (ordAny p.value)), p.ts⟩

/-- The indented text of a patch. -/
def patchInd (d : Nat) (p : TPatch) : Bytes :=
  indObj 2 d [(b!"op", jsonStr p.op), (b!"path", jsonStr p.path), (b!"value", indText 2 (d + 1) (ordAny p.value)), (b!"timestamp", itoa p.ts)]

/-- The text of a patch. -/
def patchTree (p : TPatch) : Bytes :=
  123 :: (joinMembers [(b!"op", jsonStr p.op), (b!"path", jsonStr p.path), (b!"value", treeText (ordAny p.value)), (b!"timestamp", itoa p.ts)] ++ [125])

theorem TPatch.Writable.json {p : TPatch} (h : p.Writable) : p.json = .ok (patchTree p) := by
  unfold TPatch.json marshalAny
  rw [if_pos h.finite, anyText_ord, Res.map]
  have e1 : jsonStr b!"op" = b!"\"op\"" := by decide +kernel
  have e2 : jsonStr b!"path" = b!"\"path\"" := by decide +kernel
  have e3 : jsonStr b!"value" = b!"\"value\"" := by decide +kernel
  have e4 : jsonStr b!"timestamp" = b!"\"timestamp\"" := by decide +kernel
  simp only [patchTree, joinMembers, e1, e2, e3, e4, List.append_assoc, List.cons_append, List.nil_append]

theorem jsonStr_opens (k : Bytes) : Opens (jsonStr k) := ⟨34, _, rfl, by decide, by decide, by decide⟩

theorem itoa_ne_nil (n : Int) : itoa n ≠ [] := by
  obtain ⟨c, r, e, -⟩ := itoa_head n
  rw [e]
  exact List.cons_ne_nil _ _

theorem TPatch.Writable.indents {p : TPatch} (h : p.Writable) : Indents 2 (patchTree p) fun d => patchInd d p := by
  have hg := goodJs_ord p.value h.ints h.finite
  exact indents_obj [(b!"op", jsonStr p.op, fun _ => jsonStr p.op), (b!"path", jsonStr p.path, fun _ => jsonStr p.path),
    (b!"value", treeText (ordAny p.value), fun d => indText 2 d (ordAny p.value)), (b!"timestamp", itoa p.ts, fun _ => itoa p.ts)] (by
      intro x hx
      simp only [List.mem_cons, List.not_mem_nil, or_false] at hx
      rcases hx with rfl | rfl | rfl | rfl
      · exact indents_jsonStr _
      · exact indents_jsonStr _
      · exact indents_tree _ hg
      · exact indents_quiet (itoa_ne_nil _) (quiet_itoa _))

theorem textReads_jsonStr (k : Bytes) : TextReads (jsonStr k) (.str (sanitize k)) := (litReads_json k).text

theorem TPatch.Writable.reads {p : TPatch} (h : p.Writable) (d : Nat) : ∃ jt, TextReads (patchInd d p) jt ∧ jt.depth ≤ 9999 ∧
    decodeOp jt = .ok ⟨sanitize p.op, sanitize p.path, .any (decAny (sanT (ordAny p.value))), p.ts⟩ := by
  obtain ⟨jv, h1, h2, h3⟩ := indReads (ordAny p.value) (goodJs_ord p.value h.ints h.finite) (d + 1)
  have hd : jv.depth ≤ 9998 := by rw [h3]; exact (sanT_ordAny_depth _ _).2 h.depth
  have e1 : sanitize b!"op" = b!"op" := by decide +kernel
  have e2 : sanitize b!"path" = b!"path" := by decide +kernel
  have e3 : sanitize b!"value" = b!"value" := by decide +kernel
  have e4 : sanitize b!"timestamp" = b!"timestamp" := by decide +kernel
  have g := textReads_obj (iw := 2) d [(b!"op", jsonStr p.op, .str (sanitize p.op)), (b!"path", jsonStr p.path, .str (sanitize p.path)),
    (b!"value", indText 2 (d + 1) (ordAny p.value), jv),
    (b!"timestamp", itoa p.ts, .num (decide (p.ts < 0)) (natDigits p.ts.natAbs) none none)] (by
      intro x hx
      simp only [List.mem_cons, List.not_mem_nil, or_false] at hx
      rcases hx with rfl | rfl | rfl | rfl
      · exact textReads_jsonStr _
      · exact textReads_jsonStr _
      · exact h1
      · exact textReads_itoa _)
  simp only [List.map_cons, List.map_nil, e1, e2, e3, e4] at g
  refine ⟨_, g, ?_, decodeFields_op4 h2 h.ts⟩
  simp only [Jt.depth, Jt.depthF]
  omega

theorem decodeOps_list {d : Nat} : ∀ r : List (TPatch × Jt), (∀ x ∈ r, TextReads (patchInd d x.1) x.2 ∧ x.2.depth ≤ 9999 ∧
    decodeOp x.2 = .ok ⟨sanitize x.1.op, sanitize x.1.path, .any (decAny (sanT (ordAny x.1.value))), x.1.ts⟩) →
    Jt.depthL (r.map fun x => x.2) ≤ 9999 ∧ decodeOps (r.map fun x => x.2) =
      .ok ((r.map Prod.fst).map fun p => ⟨sanitize p.op, sanitize p.path, .any (decAny (sanT (ordAny p.value))), p.ts⟩)
  | [], _ => ⟨by rw [List.map_nil, Jt.depthL]; omega, rfl⟩
  | x :: r, h => by
    obtain ⟨-, h2, h3⟩ := h x (by simp)
    obtain ⟨g1, g2⟩ := decodeOps_list r fun y hy => h y (by simp [hy])
    constructor
    · rw [List.map_cons, Jt.depthL]; omega
    · rw [List.map_cons, decodeOps, h3, g2]; rfl

theorem jsonList_writable : ∀ {ps : List TPatch}, (∀ p ∈ ps, p.Writable) → jsonList TPatch.json ps = .ok (ps.map patchTree)
  | [], _ => rfl
  | p :: ps, h => by
    rw [jsonList, (h p (by simp)).json, jsonList_writable fun q hq => h q (by simp [hq])]
    rfl

/-- **C87, patches.**  The patches written by the simulation and read by the temporal experiments are the same, up to invalid
UTF-8, the order of members, and the numbers of integers: times are read exactly. -/
theorem C87_patches_partial {ps : List TPatch} (h : ∀ p ∈ ps, p.Writable) :
    ∃ s, indented (jsonSlice TPatch.json ps) = .ok s ∧ readPatches s = .ok (ps.map readBack) := by
  obtain ⟨r, e, hr⟩ := exists_pairs (l := ps) (P := fun p jt => TextReads (patchInd 1 p) jt ∧ jt.depth ≤ 9999 ∧
    decodeOp jt = .ok ⟨sanitize p.op, sanitize p.path, .any (decAny (sanT (ordAny p.value))), p.ts⟩) fun p hp => (h p hp).reads 1
  obtain ⟨g1, g2⟩ := decodeOps_list r hr
  have hopen : ∀ p ∈ ps, Opens (patchTree p) ∧ Opens (patchInd 1 p) := fun p _ =>
    ⟨⟨123, _, rfl, by decide, by decide, by decide⟩, ⟨123, _, rfl, by decide, by decide, by decide⟩⟩
  have hi := indents_arr (ps.map fun p => (patchTree p, fun d => patchInd d p)) (by
    intro x hx
    obtain ⟨p, hp, rfl⟩ := List.mem_map.1 hx
    exact ⟨(h p hp).indents, (hopen p hp).1⟩) 0 false []
  simp only [List.map_map, List.append_nil, Bool.false_eq_true, if_false, List.nil_append, appendIndent] at hi
  have hread := textReads_arr (iw := 2) 0 (r.map fun x => (patchInd 1 x.1, x.2)) (by
    intro x hx
    obtain ⟨y, hy, rfl⟩ := List.mem_map.1 hx
    exact ⟨(hr y hy).1, (hopen y.1 (by rw [← e]; exact List.mem_map_of_mem hy)).2⟩)
  simp only [List.map_map] at hread
  refine ⟨indArr 2 0 (ps.map (patchInd 1)), ?_, ?_⟩
  · rw [jsonSlice, jsonList_writable h, indented, Res.map, Res.map]
    exact congrArg Res.ok hi
  · rw [readPatches, unmarshalPatch, ← e, List.map_map, show patchInd 1 ∘ Prod.fst = (Prod.fst ∘ fun x : TPatch × Jt => (patchInd 1 x.1, x.2)) from rfl,
      readText_of hread (by
        rw [Jt.depth, show (r.map ((fun x => x.2) ∘ fun x => (patchInd 1 x.1, x.2))) = r.map (fun x => x.2) from rfl]
        omega)]
    dsimp only
    rw [show (r.map ((fun x => x.2) ∘ fun x => (patchInd 1 x.1, x.2))) = r.map (fun x => x.2) from rfl, g2]
    simp only [Res.map, Option.getD_some, List.map_map]
    rfl

/-! ### Documents -/

variable {P : Int → Prop}

theorem PlainScalar.ord {v : Js} (h : PlainScalar v) : ordAny v = v ∧ sanT v = v ∧ IntsOk v ∧ v.finite = true := by
  rcases plainScalar_cases h with ⟨b, rfl⟩ | ⟨f, rfl, ⟨a, b, c, d, rfl⟩⟩ | ⟨s, rfl, hs⟩
  · exact ⟨by simp [ordAny], by simp [sanT], by simp [IntsOk], by simp [Js.finite]⟩
  · exact ⟨by simp [ordAny], by simp [sanT], by simp [IntsOk], by simp [Js.finite]⟩
  · exact ⟨by simp [ordAny], by simp [sanT, sanitize_valid hs], by simp [IntsOk], by simp [Js.finite]⟩

theorem Stamped.insert {n : Nat} {c c' : Js} (h : Stamped P (n + 1) c c') {k : Bytes} (hk : NameKey k) {x x' : Js} (hx : Stamped P n x x') :
    ∀ m m', c = .obj m → c' = .obj m' → k ∉ mkeys m' → Stamped P (n + 1) (.obj (insertM (k, x) m)) (.obj (insertM (k, x') m')) := by
  generalize hn : n + 1 = N at h
  induction h with
  | leaf n v ts mm hv hP hm => intro m m' _ e; exact absurd e (hv.dec.2.2.2.2 m')
  | nil n' =>
    intro m m' e e' _
    cases e; cases e'; cases hn
    exact .cons n k x x' [] [] hk (by simp [mkeys]) hx (.nil n)
  | cons n₁ k₁ c c' m m' hk₁ hn₁ h1 h2 ih1 ih2 =>
    intro m₂ m₂' e e' hnot
    cases e; cases e'
    obtain rfl : n = n₁ := by omega
    have hnot' : k ≠ k₁ ∧ k ∉ mkeys m' := by
      constructor
      · rintro rfl; exact hnot (by simp [mkeys])
      · intro h; exact hnot (List.mem_cons_of_mem _ h)
    rw [insertM, insertM]
    by_cases hkk : bytesLe k k₁ = true
    · rw [if_pos hkk, if_pos hkk]
      exact .cons n k x x' _ _ hk hnot hx (.cons n k₁ c c' m m' hk₁ hn₁ h1 h2)
    · rw [if_neg hkk, if_neg hkk]
      refine .cons n k₁ c c' _ _ hk₁ (fun hm => ?_) h1 (ih2 rfl m m' rfl rfl hnot'.2)
      have := ((insertM_perm (k, x') m').map Prod.fst).subset hm
      rcases List.mem_cons.1 this with h | h
      · exact hnot'.1 h.symm
      · exact hn₁ h

/-- The document with sorted members. -/
theorem Stamped.sorted {n : Nat} {c c' : Js} (h : Stamped P n c c') : Stamped P n (ordAny c) (ordAny c') := by
  induction h with
  | leaf n v ts mm hv hP hm =>
    rw [hv.ord.1]
    refine .leaf n v ts _ hv hP (.inr ?_)
    have h1 : ordAny (.int ts) = .int ts := by simp [ordAny]
    rcases hm with rfl | rfl
    · rw [ordAnyF, ordAnyF, ordAnyF, hv.ord.1, h1]; rfl
    · rw [ordAnyF, ordAnyF, ordAnyF, hv.ord.1, h1]; rfl
  | nil n => exact .nil n
  | cons n k c c' m m' hk hn h1 h2 ih1 ih2 =>
    rw [ordAny, ordAny, ordAnyF, ordAnyF, sortM, sortM]
    rw [ordAny, ordAny] at ih2
    refine ih2.insert hk ih1 _ _ rfl rfl fun h => hn ?_
    have := ((sortM_perm (ordAnyF m')).map Prod.fst).subset h
    rw [ordAnyF_eq] at this
    rw [← mkeys_mapV ordAny m']
    exact this

/-- Everything in the document is valid. -/
theorem Stamped.valid {n : Nat} {c c' : Js} (h : Stamped P n c c') (hP : ∀ ts, P ts → ts.natAbs < 2 ^ 64) :
    sanT c = c ∧ IntsOk c ∧ c.finite = true ∧ c.depth ≤ n + 1 := by
  induction h with
  | leaf n v ts mm hv hts hm =>
    obtain ⟨-, h2, h3, h4⟩ := hv.ord
    have h5 := hv.dec.2.2.2.1
    have h6 := hP ts hts
    have e1 : sanitize b!"value" = b!"value" := by decide +kernel
    have e2 : sanitize b!"timestamp" = b!"timestamp" := by decide +kernel
    have e3 : sanT (.int ts) = .int ts := by simp [sanT]
    have e4 : IntsOk (.int ts) := h6
    have e5 : (Js.int ts).finite = true := rfl
    have e6 : (Js.int ts).depth = 0 := by simp [Js.depth]
    rcases hm with rfl | rfl
    · refine ⟨by simp only [sanT, sanTF, e1, e2, h2], ⟨h3, e4, trivial⟩, by simp only [Js.finite, Js.finiteF, h4]; rfl, ?_⟩
      simp only [Js.depth, Js.depthF, h5]; omega
    · refine ⟨by simp only [sanT, sanTF, e1, e2, h2], ⟨e4, h3, trivial⟩, by simp only [Js.finite, Js.finiteF, h4]; rfl, ?_⟩
      simp only [Js.depth, Js.depthF, h5]; omega
  | nil n => exact ⟨rfl, trivial, rfl, by simp only [Js.depth, Js.depthF]; omega⟩
  | cons n k c c' m m' hk hn h1 h2 ih1 ih2 =>
    obtain ⟨a1, a2, a3, a4⟩ := ih1
    obtain ⟨b1, b2, b3, b4⟩ := ih2
    rw [sanT, Js.obj.injEq] at b1
    rw [Js.finite] at b3
    rw [Js.depth] at b4
    refine ⟨by rw [sanT, sanTF, a1, b1, sanitize_valid hk.2.2.1], ⟨a2, b2⟩, by rw [Js.finite, Js.finiteF, a3, b3]; rfl, ?_⟩
    rw [Js.depth, Js.depthF]
    omega

/-- Sorting keeps what is found. -/
theorem at?_ord : ∀ (ks : List Bytes) {j w : Js}, PlainJson j → j.at? ks = some w → (ordAny j).at? ks = some (ordAny w)
  | [], j, w, _, h => by
    rw [at?_nil] at h ⊢
    cases h
    rfl
  | k :: ks, j, w, hp, h => by
    cases j with
    | obj m =>
      rw [at?_cons] at h
      rw [ordAny, at?_cons, mget_sortM (by rw [ordAnyF_eq, mkeys_mapV]; exact hp.1), ordAnyF_eq, mget_mapV]
      cases hg : mget m k with
      | none => rw [hg] at h; cases h
      | some x =>
        rw [hg] at h
        exact at?_ord ks ((plainJsonF_iff _).1 hp.2 _ (mget_mem hg)).2 h
    | _ => simp only [Js.at?] at h; cases h


/-! ### Directories -/

theorem mget_save (dir : Dir) (name : Bytes) (s : Res Bytes) (k : Bytes) :
    mget (dir.save name s) k = if k = name then (match indented s with | .ok b => some b | _ => mget dir k) else mget dir k := by
  unfold Dir.save
  cases indented s with
  | ok b =>
    by_cases h : k = name
    · subst h
      simp only [if_true, mget_mset_self]
    · simp only [if_neg h, mget_mset_ne _ _ h]
  | _ => simp

theorem nodup_save {dir : Dir} (h : (mkeys dir).Nodup) (name : Bytes) (s : Res Bytes) : (mkeys (dir.save name s)).Nodup := by
  unfold Dir.save
  split
  · exact nodup_mkeys_mset h _ _
  · exact h

theorem loadFiles_one {s : Bytes} {ps : List TPatch} (hs : readPatches s = .ok ps) : ∀ fs : List (Bytes × Bytes), (mkeys fs).Nodup →
    (mget fs b!"all_tson_patches.json" = some s → loadFiles fs = .ok ps) ∧ (b!"all_tson_patches.json" ∉ mkeys fs → loadFiles fs = .ok [])
  | [], _ => ⟨nofun, fun _ => rfl⟩
  | (k, v) :: fs, hn => by
    obtain ⟨hn1, hn2⟩ := List.nodup_cons.1 (show (k :: mkeys fs).Nodup from hn)
    obtain ⟨i1, i2⟩ := loadFiles_one hs fs hn2
    rw [mget_cons, loadFiles]
    by_cases hk : k = b!"all_tson_patches.json"
    · rw [if_pos hk, if_pos hk]
      refine ⟨fun e => ?_, fun h => absurd (by rw [← hk]; simp [mkeys]) h⟩
      cases e
      rw [hs, i2 (hk ▸ hn1)]
      simp only [Res.bind, Res.map, List.append_nil]
    · rw [if_neg hk, if_neg hk]
      exact ⟨i1, fun h => i2 fun h' => h (List.mem_cons_of_mem _ h')⟩

/-- The data the experiments need are in the files of a directory after a run. -/
theorem saveRun_load {dir : Dir} (hn : (mkeys dir).Nodup) {r₀ r : Trip} {s₁ s₂ : Bytes} {ps : List TPatch} {doc : List (Bytes × Js)}
    (h1 : indented (marshalAny (.obj r₀.sim.json)) = .ok s₁) (h2 : unmarshalText s₁ = .ok (.obj doc))
    (h3 : indented (jsonSlice TPatch.json r.sim.tsonPatches) = .ok s₂) (h4 : readPatches s₂ = .ok ps) :
    (dir.saveRun r₀ r).loadPatches = .ok ps ∧ (dir.saveRun r₀ r).loadDoc = .ok doc := by
  have hn' : (mkeys (dir.saveRun r₀ r)).Nodup :=
    nodup_save (nodup_save (nodup_save (nodup_save (nodup_save (nodup_save hn _ _) _ _) _ _) _ _) _ _) _ _
  constructor
  · unfold Dir.loadPatches
    refine (loadFiles_one h4 _ (sortM_nodup hn')).1 ?_
    rw [mget_sortM hn', Dir.saveRun, mget_save, if_pos rfl, h3]
  · unfold Dir.loadDoc
    have : mget (dir.saveRun r₀ r) b!"initial_json.json" = some s₁ := by
      rw [Dir.saveRun, mget_save, if_neg (by decide), mget_save, if_neg (by decide), mget_save, if_neg (by decide), mget_save, if_neg (by decide),
        mget_save, if_neg (by decide), mget_save, if_pos rfl, h1]
    rw [this]
    dsimp only
    rw [h2]

/-! ### The latest directory -/

theorem getLast_sorted {α : Type} {l : List (Bytes × α)} (hs : l.Pairwise fun a b => bytesLe a.1 b.1 = true) (hn : (mkeys l).Nodup) {x : Bytes × α}
    (hx : x ∈ l) (hle : ∀ y ∈ l, bytesLe y.1 x.1 = true) : l.getLast? = some x := by
  obtain ⟨a, b, rfl⟩ := List.append_of_mem hx
  cases b with
  | nil => simp
  | cons y b =>
    have h1 := (List.pairwise_cons.1 (List.pairwise_append.1 hs).2.1).1 y (by simp)
    have h2 := hle y (by simp)
    have e : x.1 = y.1 := bytesLe_antisymm h1 h2
    rw [mkeys, List.map_append, List.nodup_append] at hn
    exact absurd e (by
      have := (List.nodup_cons.1 hn.2.1).1
      intro e'
      exact this (by rw [e']; simp))

theorem latest_mem {ds : List (Bytes × Dir)} (hn : (mkeys ds).Nodup) {name : Bytes} {dir : Dir} (hs : isStamp name = true)
    (hg : mget ds name = some dir) (hle : ∀ d ∈ ds, isStamp d.1 = true → bytesLe d.1 name = true) : latestDir ds = some (name, dir) := by
  unfold latestDir
  have hnf : (mkeys (ds.filter fun d => isStamp d.1)).Nodup := hn.sublist (List.filter_sublist.map _)
  refine getLast_sorted (sortM_sorted _) (sortM_nodup hnf) ?_ ?_
  · exact (sortM_perm _).mem_iff.2 (List.mem_filter.2 ⟨mget_mem hg, hs⟩)
  · intro y hy
    obtain ⟨h1, h2⟩ := List.mem_filter.1 ((sortM_perm _).mem_iff.1 hy)
    exact hle y h1 h2

end Verif
