import Verif.SpecVss
import Verif.JsonImport
/-
Properties C71 to C73: the catalogue without descriptions, its leaf nodes, and building nested maps from leaf nodes.
-/
namespace Verif

/-! ### Paths -/

theorem jsAt_nil {d v : Js} : JsAt d [] v ↔ d = v := by
  constructor
  · intro h; cases h; rfl
  · rintro rfl; exact .here _

theorem jsAt_cons {d v : Js} {k : Bytes} {ks : List Bytes} :
    JsAt d (k :: ks) v ↔ ∃ m w, d = .obj m ∧ mget m k = some w ∧ JsAt w ks v := by
  constructor
  · intro h; cases h with | step m _ w _ _ h h' => exact ⟨m, w, rfl, h, h'⟩
  · rintro ⟨m, w, rfl, h, h'⟩; exact .step m k w ks v h h'

theorem NodupKeys.member {m : List (Bytes × Js)} (h : NodupKeys (.obj m)) {k : Bytes} {v : Js} (hv : mget m k = some v) :
    NodupKeys v := fun ks n hn => h (k :: ks) n (.step m k v ks _ hv hn)

theorem NodupKeys.root {m : List (Bytes × Js)} (h : NodupKeys (.obj m)) : (mkeys m).Nodup := h [] m (.here _)

theorem KeysAre.member {P : Bytes → Prop} {m : List (Bytes × Js)} (h : KeysAre P (.obj m)) {k : Bytes} {v : Js}
    (hv : mget m k = some v) : KeysAre P v := fun ks n hn => h (k :: ks) n (.step m k v ks _ hv hn)

theorem ChildrenAlone.member {m : List (Bytes × Js)} (h : ChildrenAlone (.obj m)) {k : Bytes} {v : Js}
    (hv : mget m k = some v) : ChildrenAlone v := fun ks n hn => h (k :: ks) n (.step m k v ks _ hv hn)

theorem isMap_iff {v : Js} : v.isMap = true ↔ IsMap v := by
  cases v <;> simp [Js.isMap, IsMap]

/-! ### Removing keys -/

theorem removeF_mget (keys : List Bytes) (del : Bool) (m : List (Bytes × Js)) (k : Bytes) :
    mget (removeF keys del m) k = if del = true ∧ k ∈ keys then none else (mget m k).map (removeT keys) := by
  induction m with
  | nil => simp [removeF, mget]
  | cons p m ih =>
    obtain ⟨k', v⟩ := p
    simp only [removeF]
    by_cases h : del = true ∧ k' ∈ keys
    · rw [if_pos h, ih]
      by_cases h' : del = true ∧ k ∈ keys
      · rw [if_pos h', if_pos h']
      · have : k' ≠ k := by rintro rfl; exact h' h
        rw [if_neg h', if_neg h', mget_cons, if_neg this]
    · rw [if_neg h, mget_cons, mget_cons, ih]
      by_cases hk : k' = k
      · subst hk; simp [h]
      · simp only [hk, if_false]

open Classical in
/-- The members of a map after `removeKeys`. -/
theorem removeT_obj (keys : List Bytes) (m : List (Bytes × Js)) :
    ∃ n, removeT keys (.obj m) = .obj n ∧ ∀ k, mget n k =
      if (¬ ∀ p ∈ m, IsMap p.2) ∧ k ∈ keys then none else (mget m k).map (removeT keys) := by
  rw [removeT]
  by_cases h : (m.all fun p => p.2.isMap) = true
  · rw [if_pos h]
    refine ⟨_, rfl, fun k => ?_⟩
    have h' : ∀ p ∈ m, IsMap p.2 := fun p hp => isMap_iff.1 (List.all_eq_true.1 h p hp)
    rw [removeF_mget, if_neg (by simp), if_neg (fun hc => hc.1 h')]
  · rw [if_neg h]
    refine ⟨_, rfl, fun k => ?_⟩
    have h' : ¬ ∀ p ∈ m, IsMap p.2 := fun hc => h (List.all_eq_true.2 fun p hp => isMap_iff.2 (hc p hp))
    rw [removeF_mget]
    simp only [true_and, h', not_false_eq_true]

theorem removeT_isMap (keys : List Bytes) (v : Js) : IsMap (removeT keys v) ↔ IsMap v := by
  cases v with
  | obj m => obtain ⟨n, h, -⟩ := removeT_obj keys m; rw [h]; simp [IsMap]
  | _ => simp [removeT, IsMap]

theorem Survives.nil (keys : List Bytes) (d : Js) : Survives keys d [] := by
  intro pre k post m h; simp at h

theorem survives_cons {keys : List Bytes} {m : List (Bytes × Js)} {k : Bytes} {w : Js} {ks : List Bytes}
    (hw : mget m k = some w) :
    Survives keys (.obj m) (k :: ks) ↔ (k ∈ keys → ∀ p ∈ m, IsMap p.2) ∧ Survives keys w ks := by
  constructor
  · intro h
    refine ⟨fun hk => h [] k ks m rfl hk (.here _), fun pre k' post n e hk' hn => ?_⟩
    exact h (k :: pre) k' post n (by rw [e]; rfl) hk' (.step m k w pre _ hw hn)
  · rintro ⟨h1, h2⟩ pre k' post n e hk' hn
    cases pre with
    | nil =>
      simp only [List.nil_append, List.cons.injEq] at e
      obtain ⟨rfl, rfl⟩ := e
      rw [jsAt_nil] at hn; cases hn
      exact h1 hk'
    | cons a pre =>
      simp only [List.cons_append, List.cons.injEq] at e
      obtain ⟨rfl, rfl⟩ := e
      rw [jsAt_cons] at hn
      obtain ⟨_, w', e, hw', hn⟩ := hn
      cases e
      rw [hw] at hw'; cases hw'
      exact h2 pre k' post n rfl hk' hn

theorem removeT_at (keys : List Bytes) (ks : List Bytes) : ∀ (d r : Js),
    JsAt (removeT keys d) ks r ↔ Survives keys d ks ∧ ∃ v, JsAt d ks v ∧ r = removeT keys v := by
  induction ks with
  | nil =>
    intro d r
    rw [jsAt_nil]
    constructor
    · rintro rfl; exact ⟨.nil _ _, d, .here _, rfl⟩
    · rintro ⟨-, v, h, rfl⟩; rw [jsAt_nil] at h; rw [h]
  | cons k ks ih =>
    intro d r
    cases d with
    | obj m =>
      obtain ⟨n, hn, hg⟩ := removeT_obj keys m
      rw [hn, jsAt_cons]
      constructor
      · rintro ⟨_, w, e, hw, h⟩
        cases e
        rw [hg] at hw
        split at hw
        · cases hw
        · rename_i hc
          rw [Option.map_eq_some_iff] at hw
          obtain ⟨w', hw', rfl⟩ := hw
          rw [ih] at h
          obtain ⟨h1, v, h2, h3⟩ := h
          refine ⟨(survives_cons hw').2 ⟨fun hk => ?_, h1⟩, v, .step m k w' ks v hw' h2, h3⟩
          exact Classical.byContradiction fun hx => hc ⟨hx, hk⟩
      · rintro ⟨h1, v, h2, h3⟩
        rw [jsAt_cons] at h2
        obtain ⟨_, w, e, hw, h2⟩ := h2
        cases e
        rw [survives_cons hw] at h1
        refine ⟨n, removeT keys w, rfl, ?_, (ih _ _).2 ⟨h1.2, v, h2, h3⟩⟩
        rw [hg, if_neg (fun hc => hc.1 (h1.1 hc.2)), hw]; rfl
    | _ =>
      simp only [removeT]
      rw [jsAt_cons]
      constructor
      · rintro ⟨_, _, e, _⟩; cases e
      · rintro ⟨_, v, h, _⟩; rw [jsAt_cons] at h; obtain ⟨_, _, e, _⟩ := h; cases e

theorem removeF_idem (keys : List Bytes) (m : List (Bytes × Js))
    (h : ∀ p ∈ m, removeT keys (removeT keys p.2) = removeT keys p.2) (del del' : Bool) (hd : del' = true → del = true) :
    removeF keys del' (removeF keys del m) = removeF keys del m := by
  induction m with
  | nil => simp [removeF]
  | cons p m ih =>
    obtain ⟨k, v⟩ := p
    rw [List.forall_mem_cons] at h
    simp only [removeF]
    by_cases hk : del = true ∧ k ∈ keys
    · rw [if_pos hk]; exact ih h.2
    · rw [if_neg hk, removeF, if_neg (fun hc => hk ⟨hd hc.1, hc.2⟩), ih h.2, h.1]

theorem removeF_allMaps (keys : List Bytes) (m : List (Bytes × Js)) (h : (m.all fun p => p.2.isMap) = true) :
    ((removeF keys false m).all fun p => p.2.isMap) = true := by
  induction m with
  | nil => rfl
  | cons p m ih =>
    obtain ⟨k, v⟩ := p
    simp only [List.all_cons, Bool.and_eq_true] at h
    simp only [removeF]
    rw [if_neg (by simp), List.all_cons, Bool.and_eq_true]
    exact ⟨isMap_iff.2 ((removeT_isMap keys v).2 (isMap_iff.1 h.1)), ih h.2⟩

theorem removeT_idem (keys : List Bytes) (d : Js) : removeT keys (removeT keys d) = removeT keys d := by
  induction d using Js.induction with
  | obj m ih =>
    rw [removeT]
    by_cases h : (m.all fun p => p.2.isMap) = true
    · rw [if_pos h, removeT, if_pos (removeF_allMaps keys m h), removeF_idem keys m ih _ _ (by simp)]
    · rw [if_neg h, removeT]
      split <;> rw [removeF_idem keys m ih _ _ (by simp)]
  | _ => rfl

/-- C71: a value that is not a map is still there exactly if every key of the list on the way to it belongs to a map with
only maps as members. -/
theorem C71_values {keys : List Bytes} {d r : Js} (h : removeKeys keys d = .ok r) {ks : List Bytes} {v : Js}
    (hv : ¬ IsMap v) : JsAt r ks v ↔ JsAt d ks v ∧ Survives keys d ks := by
  have hr : r = removeT keys d := by
    cases d <;> simp only [removeKeys] at h <;> cases h; rfl
  subst hr
  rw [removeT_at]
  constructor
  · rintro ⟨h1, w, h2, rfl⟩
    rw [removeT_isMap] at hv
    have : removeT keys w = w := by
      cases w with
      | obj m => exact absurd ⟨m, rfl⟩ hv
      | _ => rfl
    rw [this]; exact ⟨h2, h1⟩
  · rintro ⟨h1, h2⟩
    refine ⟨h2, v, h1, ?_⟩
    cases v with
    | obj m => exact absurd ⟨m, rfl⟩ hv
    | _ => rfl

/-- C71: the same for maps (whose members are described by these two theorems again). -/
theorem C71_maps {keys : List Bytes} {d r : Js} (h : removeKeys keys d = .ok r) {ks : List Bytes} :
    (∃ v, IsMap v ∧ JsAt r ks v) ↔ (∃ v, IsMap v ∧ JsAt d ks v) ∧ Survives keys d ks := by
  have hr : r = removeT keys d := by
    cases d <;> simp only [removeKeys] at h <;> cases h; rfl
  subst hr
  constructor
  · rintro ⟨v, hm, hv⟩
    rw [removeT_at] at hv
    obtain ⟨h1, w, h2, rfl⟩ := hv
    exact ⟨⟨w, (removeT_isMap keys w).1 hm, h2⟩, h1⟩
  · rintro ⟨⟨v, hm, hv⟩, h⟩
    exact ⟨removeT keys v, (removeT_isMap keys v).2 hm, (removeT_at _ _ _ _).2 ⟨h, v, hv, rfl⟩⟩

/-- C71: removing the keys again changes nothing. -/
theorem C71_idempotent {keys : List Bytes} {d r : Js} (h : removeKeys keys d = .ok r) : removeKeys keys r = .ok r := by
  cases d with
  | obj m =>
    simp only [removeKeys] at h
    cases h
    obtain ⟨n, hn, -⟩ := removeT_obj keys m
    have := removeT_idem keys (.obj m)
    rw [hn] at this ⊢
    simp only [removeKeys, this]
  | _ => simp [removeKeys] at h

/-- C71: data that is not a map (so also nil, for a file that cannot be read) ends the program with a panic. -/
theorem C71_panics (keys : List Bytes) (d : Js) : (removeKeys keys d = .panic ↔ ¬ IsMap d) ∧ removeKeys keys d ≠ .err := by
  cases d <;> simp [removeKeys, IsMap]

/-- A small catalogue: the branch `B` has a member called `type`, which must not be lost. -/
def vssCat : Js := .obj [(b!"V", .obj [(b!"description", .str b!"x"), (b!"type", .str b!"branch"),
  (b!"children", .obj [(b!"S", .obj [(b!"datatype", .str b!"float"), (b!"uuid", .str b!"1")]),
    (b!"type", .obj [(b!"datatype", .str b!"string")])])])]

/-- The catalogue without descriptions. -/
def vssCat' : Js := .obj [(b!"V", .obj [(b!"children", .obj [(b!"S", .obj [(b!"datatype", .str b!"float")]),
    (b!"type", .obj [(b!"datatype", .str b!"string")])])])]

example : newVss vssCat = .ok vssCat' ∧ ¬ IsMap (.str b!"string") ∧
    JsAt vssCat [b!"V", b!"children", b!"type", b!"datatype"] (.str b!"string") := by
  refine ⟨by rfl, by simp [IsMap], ?_⟩
  refine .step _ _ _ _ _ rfl (.step _ _ _ _ _ rfl (.step _ _ _ _ _ rfl (.step _ _ _ _ _ rfl (.here _))))

/-- C71: a key of the list can remain, in a map with only maps as members. -/
theorem C71_key_remains_fails : newVss (.obj [(b!"comment", .obj [(b!"a", .bool true)])]) =
    .ok (.obj [(b!"comment", .obj [(b!"a", .bool true)])]) := by rfl

/-! ### Leaf nodes -/

/-- The end of a dotted name. -/
def dotExt (ks : List Bytes) : Bytes := ((ks.filter fun k => k ≠ b!"children").map fun k => bDot :: k).flatten

theorem fullKey_ext {name : Bytes} (h : name ≠ []) (k : Bytes) (ks : List Bytes) :
    fullKey name k ≠ [] ∧ fullKey name k ++ dotExt ks = name ++ dotExt (k :: ks) := by
  by_cases hk : k = b!"children"
  · subst hk; simp [fullKey, h, dotExt]
  · simp [fullKey, h, hk, dotExt]

theorem isVssLeaf_iff {m : List (Bytes × Js)} : IsVssLeaf (.obj m) ↔ (mget m b!"timestamp").isSome = true := by
  rw [Option.isSome_iff_exists, mget_isSome]
  constructor
  · intro h; exact h m rfl
  · rintro h _ e; cases e; exact h

theorem jsLeaf_nil {d v : Js} : JsLeaf d [] v ↔ d = v ∧ IsVssLeaf d := by
  constructor
  · intro h; cases h with | here _ h => exact ⟨rfl, h⟩
  · rintro ⟨rfl, h⟩; exact .here _ h

theorem jsLeaf_cons {d v : Js} {k : Bytes} {ks : List Bytes} :
    JsLeaf d (k :: ks) v ↔ ∃ m w, d = .obj m ∧ b!"timestamp" ∉ mkeys m ∧ mget m k = some w ∧ JsLeaf w ks v := by
  constructor
  · intro h; cases h with | step m _ w _ _ h0 h h' => exact ⟨m, w, rfl, h0, h, h'⟩
  · rintro ⟨m, w, rfl, h0, h, h'⟩; exact .step m k w ks v h0 h h'

theorem leafMembers_iff (parent : Bytes) (m : List (Bytes × Js)) (x : Bytes × Js) :
    x ∈ leafMembers parent m ↔ ∃ p ∈ m, x ∈ leafNode (fullKey parent p.1) p.2 := by
  induction m with
  | nil => simp [leafMembers]
  | cons p m ih => obtain ⟨k, v⟩ := p; simp [leafMembers, ih]

theorem leafNode_iff (d : Js) : ∀ {name : Bytes}, name ≠ [] → NodupKeys d → ∀ n v,
    (n, v) ∈ leafNode name d ↔ ∃ ks, JsLeaf d ks v ∧ n = name ++ dotExt ks := by
  induction d using Js.induction with
  | obj m ih =>
    intro name hne hn n v
    rw [leafNode]
    by_cases ht : (mget m b!"timestamp").isSome = true
    · rw [if_pos ht]
      simp only [List.mem_singleton, Prod.mk.injEq]
      constructor
      · rintro ⟨rfl, rfl⟩; exact ⟨[], .here _ (isVssLeaf_iff.2 ht), by simp [dotExt]⟩
      · rintro ⟨ks, h, rfl⟩
        cases ks with
        | nil => rw [jsLeaf_nil] at h; exact ⟨by simp [dotExt], h.1.symm⟩
        | cons k ks =>
          rw [jsLeaf_cons] at h
          obtain ⟨_, w, e, h0, -⟩ := h
          cases e
          rw [Option.isSome_iff_exists, mget_isSome] at ht
          exact absurd ht h0
    · rw [if_neg ht, leafMembers_iff]
      have h0 : b!"timestamp" ∉ mkeys m := by rwa [Option.isSome_iff_exists, mget_isSome] at ht
      constructor
      · rintro ⟨p, hp, h⟩
        have hv := mem_mget hn.root (show (p.1, p.2) ∈ m from hp)
        rw [ih p hp (fullKey_ext hne p.1 []).1 (hn.member hv)] at h
        obtain ⟨ks, h, rfl⟩ := h
        exact ⟨p.1 :: ks, .step m p.1 p.2 ks v h0 hv h, (fullKey_ext hne p.1 ks).2⟩
      · rintro ⟨ks, h, rfl⟩
        cases ks with
        | nil => rw [jsLeaf_nil, isVssLeaf_iff] at h; exact absurd h.2 ht
        | cons k ks =>
          rw [jsLeaf_cons] at h
          obtain ⟨_, w, e, -, hw, h⟩ := h
          cases e
          refine ⟨(k, w), mget_mem hw, ?_⟩
          rw [ih _ (mget_mem hw) (fullKey_ext hne k []).1 (hn.member hw)]
          exact ⟨ks, h, (fullKey_ext hne k ks).2.symm⟩
  | _ =>
    intro name _ _ n v
    rw [leafNode]
    · simp only [List.mem_singleton, Prod.mk.injEq]
      constructor
      · rintro ⟨rfl, rfl⟩; exact ⟨[], .here _ (by intro m e; cases e), by simp [dotExt]⟩
      · rintro ⟨ks, h, rfl⟩
        cases ks with
        | nil => rw [jsLeaf_nil] at h; exact ⟨by simp [dotExt], h.1.symm⟩
        | cons k ks => rw [jsLeaf_cons] at h; obtain ⟨_, _, e, _⟩ := h; cases e
    · intro m e; cases e

/-- C72: the leaf nodes are the leaves of the data, each with its dotted name. -/
theorem C72_exact {d : Js} (hm : IsMap d) (hn : NodupKeys d) (hne : ∀ m, d = .obj m → [] ∉ mkeys m) (n : Bytes) (v : Js) :
    (n, v) ∈ leafNodes d ↔ ∃ ks, JsLeaf d ks v ∧ n = leafName ks := by
  obtain ⟨m, rfl⟩ := hm
  have hne := hne m rfl
  simp only [leafNodes]
  rw [leafNode]
  by_cases ht : (mget m b!"timestamp").isSome = true
  · rw [if_pos ht]
    simp only [List.mem_singleton, Prod.mk.injEq]
    constructor
    · rintro ⟨rfl, rfl⟩; exact ⟨[], .here _ (isVssLeaf_iff.2 ht), rfl⟩
    · rintro ⟨ks, h, rfl⟩
      cases ks with
      | nil => rw [jsLeaf_nil] at h; exact ⟨rfl, h.1.symm⟩
      | cons k ks =>
        rw [jsLeaf_cons] at h
        obtain ⟨_, w, e, h0, -⟩ := h
        cases e
        rw [Option.isSome_iff_exists, mget_isSome] at ht
        exact absurd ht h0
  · rw [if_neg ht, leafMembers_iff]
    have h0 : b!"timestamp" ∉ mkeys m := by rwa [Option.isSome_iff_exists, mget_isSome] at ht
    have hf : ∀ k, fullKey [] k = k := fun k => by simp [fullKey]
    constructor
    · rintro ⟨p, hp, h⟩
      have hv := mem_mget hn.root (show (p.1, p.2) ∈ m from hp)
      have hk : p.1 ≠ [] := fun e => hne (List.mem_map.2 ⟨p, hp, e⟩)
      rw [hf, leafNode_iff p.2 hk (hn.member hv)] at h
      obtain ⟨ks, h, rfl⟩ := h
      exact ⟨p.1 :: ks, .step m p.1 p.2 ks v h0 hv h, rfl⟩
    · rintro ⟨ks, h, rfl⟩
      cases ks with
      | nil => rw [jsLeaf_nil, isVssLeaf_iff] at h; exact absurd h.2 ht
      | cons k ks =>
        rw [jsLeaf_cons] at h
        obtain ⟨_, w, e, -, hw, h⟩ := h
        cases e
        have hk : k ≠ [] := fun e => hne (mget_isSome.1 ⟨w, e ▸ hw⟩)
        refine ⟨(k, w), mget_mem hw, ?_⟩
        rw [hf, leafNode_iff w hk (hn.member hw)]
        exact ⟨ks, h, rfl⟩

theorem before_dot {k k' e e' : Bytes} (hk : bDot ∉ k) (hk' : bDot ∉ k') (he : e = [] ∨ e.head? = some bDot)
    (he' : e' = [] ∨ e'.head? = some bDot) (h : k ++ e = k' ++ e') : k = k' := by
  have key : ∀ {k e : Bytes}, bDot ∉ k → (e = [] ∨ e.head? = some bDot) → (k ++ e).takeWhile (fun c => c ≠ bDot) = k := by
    intro k e hk he
    rw [List.takeWhile_append_of_pos]
    · rcases he with rfl | he
      · simp
      · cases e with
        | nil => simp
        | cons c e => simp only [List.head?_cons, Option.some.injEq] at he; subst he; simp
    · intro c hc
      simp only [ne_eq, decide_not, Bool.not_eq_eq_eq_not, Bool.not_true, decide_eq_false_iff_not]
      rintro rfl; exact hk hc
  rw [← key hk he, h, key hk' he']

theorem dotExt_head (ks : List Bytes) : dotExt ks = [] ∨ (dotExt ks).head? = some bDot := by
  unfold dotExt
  cases ks.filter fun k => k ≠ b!"children" with
  | nil => exact .inl rfl
  | cons k l => exact .inr rfl

theorem leafMembers_nodup {parent pre : Bytes} (m : List (Bytes × Js)) (hp : ∀ k ∈ mkeys m, fullKey parent k = pre ++ k)
    (hk : ∀ k ∈ mkeys m, DotKey k) (hn : (mkeys m).Nodup)
    (hsub : ∀ p ∈ m, ((leafNode (fullKey parent p.1) p.2).map (·.1)).Nodup)
    (hform : ∀ p ∈ m, ∀ x ∈ leafNode (fullKey parent p.1) p.2, ∃ ks, x.1 = fullKey parent p.1 ++ dotExt ks) :
    ((leafMembers parent m).map (·.1)).Nodup := by
  induction m with
  | nil => simp [leafMembers]
  | cons p m ih =>
    obtain ⟨k, v⟩ := p
    simp only [mkeys, List.map_cons, List.forall_mem_cons, List.nodup_cons] at hp hk hn hsub hform
    simp only [leafMembers, List.map_append]
    rw [List.nodup_append]
    refine ⟨hsub.1, ih hp.2 hk.2 hn.2 hsub.2 hform.2, ?_⟩
    intro a ha b hb hab
    subst hab
    obtain ⟨x, hx, rfl⟩ := List.mem_map.1 ha
    obtain ⟨y, hy, e⟩ := List.mem_map.1 hb
    rw [leafMembers_iff] at hy
    obtain ⟨q, hq, hy⟩ := hy
    obtain ⟨ks, h1⟩ := hform.1 x hx
    obtain ⟨ks', h2⟩ := hform.2 q hq y hy
    have hqk : q.1 ∈ m.map (·.1) := List.mem_map.2 ⟨q, hq, rfl⟩
    rw [h1, h2, hp.1, hp.2 _ hqk, List.append_assoc, List.append_assoc, List.append_cancel_left_eq] at e
    have := before_dot (hk.2 _ hqk).2 hk.1.2 (dotExt_head _) (dotExt_head _) e
    exact hn.1 (this ▸ hqk)

theorem leafNode_nodup (d : Js) : ∀ {name : Bytes}, name ≠ [] → NodupKeys d → KeysAre DotKey d → ChildrenAlone d →
    ((leafNode name d).map (·.1)).Nodup := by
  induction d using Js.induction with
  | obj m ih =>
    intro name hne hn hk hc
    rw [leafNode]
    split
    · simp
    · by_cases hch : b!"children" ∈ mkeys m
      · have hl := hc [] m (.here _) hch
        match m, hl with
        | [(k, v)], _ =>
          simp only [mkeys, List.map_cons, List.map_nil, List.mem_singleton] at hch
          subst hch
          have hv : mget [(b!"children", v)] b!"children" = some v := rfl
          simp only [leafMembers, List.append_nil]
          exact ih _ List.mem_cons_self (fullKey_ext hne _ []).1 (hn.member hv) (hk.member hv) (hc.member hv)
      · refine leafMembers_nodup (pre := name ++ [bDot]) m (fun k hkm => ?_) (hk [] m (.here _)) hn.root (fun p hp => ?_)
          fun p hp x hx => ?_
        · have : k ≠ b!"children" := by rintro rfl; exact hch hkm
          simp [fullKey, hne, this]
        · have hv := mem_mget hn.root (show (p.1, p.2) ∈ m from hp)
          exact ih p hp (fullKey_ext hne _ []).1 (hn.member hv) (hk.member hv) (hc.member hv)
        · have hv := mem_mget hn.root (show (p.1, p.2) ∈ m from hp)
          obtain ⟨ks, -, e⟩ := (leafNode_iff p.2 (fullKey_ext hne _ []).1 (hn.member hv) x.1 x.2).1 hx
          exact ⟨ks, e⟩
  | _ =>
    intro name _ _ _ _
    rw [leafNode]
    · simp
    · intro m e; cases e

/-- C72: the names are all different, if the keys have no dots and `children` has no neighbours. -/
theorem C72_distinct_partial {d : Js} (hn : NodupKeys d) (hk : KeysAre DotKey d) (hc : ChildrenAlone d) :
    ((leafNodes d).map (·.1)).Nodup := by
  cases d with
  | obj m =>
    simp only [leafNodes]
    rw [leafNode]
    split
    · simp
    · refine leafMembers_nodup (pre := []) m (fun k hkm => by simp [fullKey]) (hk [] m (.here _)) hn.root (fun p hp => ?_)
        fun p hp x hx => ?_
      all_goals
        have hv := mem_mget hn.root (show (p.1, p.2) ∈ m from hp)
        have hf : fullKey [] p.1 = p.1 := by simp [fullKey]
        have hne : p.1 ≠ [] := (hk [] m (.here _) p.1 (List.mem_map.2 ⟨p, hp, rfl⟩)).1
      · rw [hf]; exact leafNode_nodup p.2 hne (hn.member hv) (hk.member hv) (hc.member hv)
      · rw [hf] at hx ⊢
        obtain ⟨ks, -, e⟩ := (leafNode_iff p.2 hne (hn.member hv) x.1 x.2).1 hx
        exact ⟨ks, e⟩
  | _ => simp [leafNodes]

example : leafNodes vssCat' = [(b!"V.S.datatype", .str b!"float"), (b!"V.type.datatype", .str b!"string")] := by rfl

/-- C72: with a neighbour of `children` two leaves can get the same name. -/
theorem C72_distinct_fails : leafNodes (.obj [(b!"V", .obj [(b!"S", .bool true), (b!"children", .obj [(b!"S", .bool false)])])]) =
    [(b!"V.S", .bool true), (b!"V.S", .bool false)] := by rfl

/-- C72: a member called `timestamp` hides its neighbours. -/
theorem C72_timestamp_fails : leafNodes (.obj [(b!"V", .obj [(b!"timestamp", .obj [(b!"S", .bool true)]), (b!"S", .bool true)])]) =
    [(b!"V", .obj [(b!"timestamp", .obj [(b!"S", .bool true)]), (b!"S", .bool true)])] := by rfl

/-! ### Building nested maps -/

theorem JsLeaf.isLeaf {d v : Js} {ks : List Bytes} (h : JsLeaf d ks v) : IsVssLeaf v := by
  induction h with
  | here _ h => exact h
  | step _ _ _ _ _ _ _ _ ih => exact ih

theorem jsLeaf_empty (ks : List Bytes) (v : Js) : ¬ JsLeaf (.obj []) ks v := by
  intro h
  cases ks with
  | nil => rw [jsLeaf_nil] at h; have := h.2 [] rfl; simp [mkeys] at this
  | cons a r =>
    rw [jsLeaf_cons] at h
    obtain ⟨_, _, e, -, hx, _⟩ := h
    cases e; cases hx

/-- No leaf lies below another. -/
theorem JsLeaf.prefix_free {d v : Js} {ks : List Bytes} (h : JsLeaf d ks v) : ∀ {ks' : List Bytes} {v' : Js},
    JsLeaf d ks' v' → ks' <+: ks → ks' = ks ∧ v' = v := by
  induction h with
  | here v hv =>
    intro ks' v' h' hp
    rw [List.prefix_nil] at hp
    subst hp
    rw [jsLeaf_nil] at h'
    exact ⟨rfl, h'.1.symm⟩
  | step m k w ks v h0 hw _ ih =>
    intro ks' v' h' hp
    cases ks' with
    | nil => rw [jsLeaf_nil] at h'; exact absurd (h'.2 m rfl) h0
    | cons k' ks' =>
      rw [List.cons_prefix_cons] at hp
      obtain ⟨rfl, hp⟩ := hp
      rw [jsLeaf_cons] at h'
      obtain ⟨_, w', e, -, hw', h'⟩ := h'
      cases e
      rw [hw] at hw'; cases hw'
      obtain ⟨rfl, rfl⟩ := ih h' hp
      exact ⟨rfl, rfl⟩

/-- Maps inside the data that are not leaves have members. -/
inductive Branching : Js → Prop
  | leaf (v : Js) : IsVssLeaf v → Branching v
  | obj (m : List (Bytes × Js)) : m ≠ [] → b!"timestamp" ∉ mkeys m → (∀ k v, mget m k = some v → Branching v) → Branching (.obj m)

theorem branching_of_noEmpty (d : Js) : (∀ ks, ¬ JsAt d ks (.obj [])) → Branching d := by
  induction d using Js.induction with
  | obj m ih =>
    intro h
    by_cases ht : b!"timestamp" ∈ mkeys m
    · exact .leaf _ fun n e => by cases e; exact ht
    · refine .obj m (fun e => h [] (by rw [e]; exact .here _)) ht fun k v hv => ih _ (mget_mem hv) fun ks hks => ?_
      exact h (k :: ks) (.step m k v ks _ hv hks)
  | _ => intro _; exact .leaf _ (by intro m e; cases e)

/-- The part can be a key of the built map. -/
def PlainPart (k : Bytes) : Prop := k ≠ b!"timestamp" ∧ isBracketed k = false

theorem mkeys_mset_iff {m : List (Bytes × Js)} {k : Bytes} {v : Js} {x : Bytes} :
    x ∈ mkeys (mset m k v) ↔ x = k ∨ x ∈ mkeys m := by
  rw [← mget_isSome, ← mget_isSome, mget_mset]
  by_cases h : x = k
  · simp [h]
  · simp [h]

/-- The leaves after a leaf is set in a map. -/
theorem leaf_mset {m : List (Bytes × Js)} (h0 : b!"timestamp" ∉ mkeys m) {k : Bytes} (hk : k ≠ b!"timestamp") (w : Js)
    (ks : List Bytes) (v : Js) : JsLeaf (.obj (mset m k w)) ks v ↔
      ∃ k' r, ks = k' :: r ∧ (k' = k ∧ JsLeaf w r v ∨ k' ≠ k ∧ JsLeaf (.obj m) ks v) := by
  have h0' : b!"timestamp" ∉ mkeys (mset m k w) := by
    rw [mkeys_mset_iff]; rintro (h | h)
    · exact hk h.symm
    · exact h0 h
  cases ks with
  | nil =>
    rw [jsLeaf_nil]
    constructor
    · rintro ⟨-, h⟩; exact absurd (h _ rfl) h0'
    · rintro ⟨k', r, e, -⟩; cases e
  | cons k' r =>
    rw [jsLeaf_cons]
    constructor
    · rintro ⟨_, x, e, -, hx, h⟩
      cases e
      refine ⟨k', r, rfl, ?_⟩
      rw [mget_mset] at hx
      by_cases hkk : k' = k
      · rw [if_pos hkk] at hx; cases hx; exact .inl ⟨hkk, h⟩
      · rw [if_neg hkk] at hx; exact .inr ⟨hkk, .step m k' x r v h0 hx h⟩
    · rintro ⟨_, _, e, h⟩
      cases e
      rcases h with ⟨rfl, h⟩ | ⟨hkk, h⟩
      · exact ⟨_, w, rfl, h0', mget_mset_self _ _ _, h⟩
      · rw [jsLeaf_cons] at h
        obtain ⟨_, x, e, -, hx, h⟩ := h
        cases e
        exact ⟨_, x, rfl, h0', by rw [mget_mset_ne _ _ hkk]; exact hx, h⟩

theorem branching_mset {m : List (Bytes × Js)} (hg : ∀ k v, mget m k = some v → Branching v) {k : Bytes} {w : Js} (hw : Branching w) :
    ∀ k' v, mget (mset m k w) k' = some v → Branching v := by
  intro k' v h
  rw [mget_mset] at h
  by_cases hk : k' = k
  · rw [if_pos hk] at h; cases h; exact hw
  · rw [if_neg hk] at h; exact hg k' v h

/-- Writing a leaf to a place that is not above or below another leaf. -/
theorem buildNested_leaf {value : Js} (hv : IsVssLeaf value) (ks : List Bytes) : ∀ (m : List (Bytes × Js)), ks ≠ [] →
    (∀ k ∈ ks, PlainPart k) → b!"timestamp" ∉ mkeys m → (∀ k v, mget m k = some v → Branching v) →
    (∀ ks' v', JsLeaf (.obj m) ks' v' → ¬ ks' <+: ks ∧ ¬ ks <+: ks') →
    ∃ n, buildNested m value ks = .ok n ∧ n ≠ [] ∧ b!"timestamp" ∉ mkeys n ∧ (∀ k v, mget n k = some v → Branching v) ∧
      ∀ ks' v', JsLeaf (.obj n) ks' v' ↔ JsLeaf (.obj m) ks' v' ∨ ks' = ks ∧ v' = value := by
  induction ks with
  | nil => intro m h; exact absurd rfl h
  | cons k ks ih =>
    intro m _ hpl h0 hg hfree
    rw [List.forall_mem_cons] at hpl
    have hk := hpl.1.1
    have ts_mset : ∀ w, b!"timestamp" ∉ mkeys (mset m k w) := by
      intro w; rw [mkeys_mset_iff]; rintro (h | h)
      · exact hk h.symm
      · exact h0 h
    have ne_mset : ∀ w, mset m k w ≠ [] := by
      intro w e
      have := mget_mset_self m k w
      rw [e] at this; cases this
    rw [buildNested, if_neg (by rw [hpl.1.2]; simp)]
    by_cases hks : ks = []
    · subst hks
      rw [if_pos rfl]
      refine ⟨_, rfl, ne_mset _, ts_mset _, branching_mset hg (.leaf _ hv), fun ks' v' => ?_⟩
      rw [leaf_mset h0 hk]
      constructor
      · rintro ⟨k', r, rfl, h | h⟩
        · obtain ⟨rfl, h⟩ := h
          cases r with
          | nil => rw [jsLeaf_nil] at h; exact .inr ⟨rfl, h.1.symm⟩
          | cons a r =>
            rw [jsLeaf_cons] at h
            obtain ⟨n, _, e, hn, _⟩ := h
            exact absurd (hv n e) hn
        · exact .inl h.2
      · rintro (h | ⟨rfl, rfl⟩)
        · cases ks' with
          | nil => rw [jsLeaf_nil] at h; exact absurd (h.2 m rfl) h0
          | cons k' r =>
            refine ⟨k', r, rfl, .inr ⟨?_, h⟩⟩
            rintro rfl
            exact (hfree _ _ h).2 (by simp)
        · exact ⟨k, [], rfl, .inl ⟨rfl, .here _ hv⟩⟩
    · rw [if_neg hks]
      -- the leaves after the recursive call
      have finish : ∀ (n n' : List (Bytes × Js)), n' ≠ [] → b!"timestamp" ∉ mkeys n' → (∀ k v, mget n' k = some v → Branching v) →
          (∀ ks' v', JsLeaf (.obj n') ks' v' ↔ JsLeaf (.obj n) ks' v' ∨ ks' = ks ∧ v' = value) →
          (∀ r v', JsLeaf (.obj m) (k :: r) v' ↔ JsLeaf (.obj n) r v') →
          mset m k (.obj n') ≠ [] ∧ b!"timestamp" ∉ mkeys (mset m k (.obj n')) ∧
            (∀ k' v, mget (mset m k (.obj n')) k' = some v → Branching v) ∧
            ∀ ks' v', JsLeaf (.obj (mset m k (.obj n'))) ks' v' ↔ JsLeaf (.obj m) ks' v' ∨ ks' = k :: ks ∧ v' = value := by
        intro n n' hn1 hn2 hn3 hn4 hmn
        refine ⟨ne_mset _, ts_mset _, branching_mset hg (.obj n' hn1 hn2 hn3), fun ks' v' => ?_⟩
        rw [leaf_mset h0 hk]
        constructor
        · rintro ⟨k', r, rfl, h | h⟩
          · obtain ⟨rfl, h⟩ := h
            rw [hn4] at h
            rcases h with h | ⟨rfl, rfl⟩
            · exact .inl ((hmn r v').2 h)
            · exact .inr ⟨rfl, rfl⟩
          · exact .inl h.2
        · rintro (h | ⟨rfl, rfl⟩)
          · cases ks' with
            | nil => rw [jsLeaf_nil] at h; exact absurd (h.2 m rfl) h0
            | cons k' r =>
              refine ⟨k', r, rfl, ?_⟩
              by_cases hkk : k' = k
              · subst hkk; exact .inl ⟨rfl, (hn4 r v').2 (.inl ((hmn r v').1 h))⟩
              · exact .inr ⟨hkk, h⟩
          · exact ⟨k, ks, rfl, .inl ⟨rfl, (hn4 ks v').2 (.inr ⟨rfl, rfl⟩)⟩⟩
      cases hm : mget m k with
      | none =>
        have hnil : ∀ ks' v', ¬ JsLeaf (.obj []) ks' v' := jsLeaf_empty
        obtain ⟨n', e, h1, h2, h3, h4⟩ := ih [] hks hpl.2 (by simp [mkeys]) (by intro k v h; cases h)
          (fun ks' v' h => absurd h (hnil ks' v'))
        simp only [e]
        refine ⟨_, rfl, finish [] n' h1 h2 h3 h4 fun r v' => ?_⟩
        constructor
        · intro h
          rw [jsLeaf_cons] at h
          obtain ⟨_, _, e, -, hx, _⟩ := h
          cases e; rw [hm] at hx; cases hx
        · intro h; exact absurd h (hnil _ _)
      | some x =>
        have hx : ¬ IsVssLeaf x := by
          intro hl
          exact (hfree [k] x (.step m k x [] x h0 hm (.here x hl))).1 (by simp)
        cases x with
        | obj n =>
          have hnt : b!"timestamp" ∉ mkeys n := fun h => hx fun n' e => by cases e; exact h
          have hmn : ∀ r v', JsLeaf (.obj m) (k :: r) v' ↔ JsLeaf (.obj n) r v' := by
            intro r v'
            rw [jsLeaf_cons]
            constructor
            · rintro ⟨_, w, e, -, hw, h⟩
              cases e; rw [hm] at hw; cases hw; exact h
            · intro h; exact ⟨m, _, rfl, h0, hm, h⟩
          have hgn : ∀ k v, mget n k = some v → Branching v := by
            have := hg k _ hm
            cases this with
            | leaf _ h => exact absurd h hx
            | obj _ _ _ h => exact h
          obtain ⟨n', e, h1, h2, h3, h4⟩ := ih n hks hpl.2 hnt hgn fun ks' v' h => by
            have := hfree _ _ ((hmn ks' v').2 h)
            simpa [List.cons_prefix_cons] using this
          simp only [e]
          exact ⟨_, rfl, finish n n' h1 h2 h3 h4 hmn⟩
        | _ => exact absurd (by intro m e; cases e) hx

theorem buildAll_leaves (L : List (List Bytes × Js)) : ∀ (m : List (Bytes × Js)),
    (∀ x ∈ L, x.1 ≠ [] ∧ (∀ k ∈ x.1, PlainPart k ∧ bDot ∉ k) ∧ IsVssLeaf x.2) →
    L.Pairwise (fun x y => ¬ x.1 <+: y.1 ∧ ¬ y.1 <+: x.1) → b!"timestamp" ∉ mkeys m → (∀ k v, mget m k = some v → Branching v) →
    (∀ x ∈ L, ∀ ks' v', JsLeaf (.obj m) ks' v' → ¬ ks' <+: x.1 ∧ ¬ x.1 <+: ks') →
    ∃ n, buildAll m (L.map fun x => (joinWith bDot x.1, x.2)) = .ok n ∧ b!"timestamp" ∉ mkeys n ∧
      (∀ k v, mget n k = some v → Branching v) ∧
      ∀ ks' v', JsLeaf (.obj n) ks' v' ↔ JsLeaf (.obj m) ks' v' ∨ (ks', v') ∈ L := by
  induction L with
  | nil => intro m _ _ h0 hg _; exact ⟨m, rfl, h0, hg, by simp⟩
  | cons x L ih =>
    obtain ⟨ks, v⟩ := x
    intro m hL hP h0 hg hfree
    rw [List.forall_mem_cons] at hL hfree
    rw [List.pairwise_cons] at hP
    obtain ⟨hne, hks, hv⟩ := hL.1
    obtain ⟨n, e, -, h1, h2, h3⟩ := buildNested_leaf hv ks m hne (fun k hk => (hks k hk).1) h0 hg hfree.1
    obtain ⟨n', e', h1', h2', h3'⟩ := ih n hL.2 hP.2 h1 h2 fun y hy ks' v' h => by
      rw [h3] at h
      rcases h with h | ⟨rfl, rfl⟩
      · exact hfree.2 y hy ks' v' h
      · exact ⟨(hP.1 y hy).1, (hP.1 y hy).2⟩
    refine ⟨n', ?_, h1', h2', fun ks' v' => ?_⟩
    · simp only [List.map_cons, buildAll]
      rw [split_joinWith bDot ks hne fun k hk => (hks k hk).2, e]
      exact e'
    · rw [h3', h3, List.mem_cons, Prod.mk.injEq, or_assoc]

theorem branching_leaf {a : Js} (h : Branching a) : ∃ ks v, JsLeaf a ks v := by
  induction h with
  | leaf v h => exact ⟨[], v, .here v h⟩
  | obj m hne h0 _ ih =>
    cases m with
    | nil => exact absurd rfl hne
    | cons p m =>
      obtain ⟨k, v⟩ := p
      obtain ⟨ks, x, h⟩ := ih k v (by simp [mget])
      exact ⟨k :: ks, x, .step _ k v ks x h0 (by simp [mget]) h⟩

/-- Maps with the same leaves are the same. -/
theorem sameTree_of_leaves (a : Js) : ∀ b : Js, Branching a → Branching b → (∀ ks v, JsLeaf a ks v ↔ JsLeaf b ks v) → SameTree a b := by
  have key : ∀ {m n : List (Bytes × Js)}, (∀ k v, mget m k = some v → Branching v) → b!"timestamp" ∉ mkeys m →
      (∀ ks v, JsLeaf (.obj m) ks v → JsLeaf (.obj n) ks v) → ∀ k, (mget m k).isSome = true → (mget n k).isSome = true := by
    intro m n hg h0 hh k hs
    obtain ⟨v, hv⟩ := Option.isSome_iff_exists.1 hs
    obtain ⟨ks, x, hl⟩ := branching_leaf (hg k v hv)
    have := hh _ _ (.step m k v ks x h0 hv hl)
    rw [jsLeaf_cons] at this
    obtain ⟨_, w, e, -, hw, -⟩ := this
    cases e; rw [hw]; rfl
  induction a using Js.induction with
  | obj m ih =>
    intro b ha hb hh
    by_cases hl : IsVssLeaf (.obj m)
    · have := (hh [] _).1 (.here _ hl)
      rw [jsLeaf_nil] at this
      rw [this.1]; exact .same _
    · have h0 : b!"timestamp" ∉ mkeys m := fun h => hl fun n e => by cases e; exact h
      have hbl : ¬ IsVssLeaf b := by
        intro h
        have := (hh [] _).2 (.here _ h)
        rw [jsLeaf_nil] at this
        exact hl this.2
      cases ha with
      | leaf _ h => exact absurd h hl
      | obj _ hne _ hg =>
        cases hb with
        | leaf _ h => exact absurd h hbl
        | obj n hne' h0' hg' =>
          refine .obj m n (fun k => ?_) fun k v w hv hw => ih _ (mget_mem hv) w (hg k v hv) (hg' k w hw) fun ks x => ?_
          · rw [Bool.eq_iff_iff]
            exact ⟨key hg h0 (fun ks v => (hh ks v).1) k, key hg' h0' (fun ks v => (hh ks v).2) k⟩
          · have := hh (k :: ks) x
            rw [jsLeaf_cons, jsLeaf_cons] at this
            constructor
            · intro h
              obtain ⟨_, w', e, -, hw', h'⟩ := this.1 ⟨m, v, rfl, h0, hv, h⟩
              cases e; rw [hw] at hw'; cases hw'; exact h'
            · intro h
              obtain ⟨_, w', e, -, hw', h'⟩ := this.2 ⟨n, w, rfl, h0', hw, h⟩
              cases e; rw [hv] at hw'; cases hw'; exact h'
  | _ =>
    intro b _ _ hh
    have := (hh [] _).1 (.here _ (by intro m e; cases e))
    rw [jsLeaf_nil] at this
    rw [this.1]; exact .same _

theorem leafName_join (ks : List Bytes) (h : ∀ k ∈ ks, k ≠ b!"children") : leafName ks = joinWith bDot ks := by
  have key : ∀ (ks : List Bytes) (k : Bytes), k ++ (ks.map fun k => bDot :: k).flatten = joinWith bDot (k :: ks) := by
    intro ks
    induction ks with
    | nil => intro k; simp [joinWith]
    | cons a ks ih => intro k; simp [joinWith, ← ih]
  cases ks with
  | nil => rfl
  | cons k ks =>
    rw [List.forall_mem_cons] at h
    have : ks.filter (fun k => decide (k ≠ b!"children")) = ks := by
      rw [List.filter_eq_self]; intro a ha; simpa using h.2 a ha
    rw [leafName, this, key]

theorem JsLeaf.keys {P : Bytes → Prop} {d v : Js} {ks : List Bytes} (h : JsLeaf d ks v) : KeysAre P d →
    ∀ k ∈ ks, P k ∧ k ≠ b!"timestamp" := by
  induction h with
  | here => intro _; simp
  | step m k w ks v h0 hw _ ih =>
    intro hk
    rw [List.forall_mem_cons]
    have hm := mget_isSome.1 ⟨w, hw⟩
    refine ⟨⟨hk [] m (.here _) k hm, ?_⟩, ih (hk.member hw)⟩
    rintro rfl; exact h0 hm

theorem BuildKey.bracket {k : Bytes} (h : BuildKey k) : isBracketed k = false := by
  have := h.2.2
  unfold isBracketed
  by_cases h1 : k.head? = some 91
  · have : k.getLast? ≠ some 93 := fun h2 => this ⟨h1, h2⟩
    simp [this]
  · simp [h1]

/-- C73: building nested maps from the leaf nodes, in whatever order, gives the data back. -/
theorem C73_roundtrip_partial {m : List (Bytes × Js)} (hn : NodupKeys (.obj m)) (hk : KeysAre BuildKey (.obj m))
    (ht : b!"timestamp" ∉ mkeys m) (he : NoEmptyMap (.obj m)) {L : List (Bytes × Js)} (hL : L.Perm (leafNodes (.obj m))) :
    ∃ n, buildAll [] L = .ok n ∧ SameTree (.obj n) (.obj m) := by
  have hdk : KeysAre DotKey (.obj m) := fun ks n h k hkn => (hk ks n h k hkn).1
  have hex := C72_exact ⟨m, rfl⟩ hn (fun n e => by cases e; intro h; exact (hk [] m (.here _) _ h).1.1 rfl)
  have hdis := C72_distinct_partial hn hdk (fun ks n h hc => absurd rfl (hk ks n h _ hc).2.1)
  -- the leaf nodes with their paths
  have hsplit : ∀ x ∈ L, JsLeaf (.obj m) (split bDot x.1) x.2 ∧ x.1 = joinWith bDot (split bDot x.1) := by
    intro x hx
    obtain ⟨ks, h, e⟩ := (hex x.1 x.2).1 (hL.subset hx)
    have hkk := h.keys hk
    rw [leafName_join ks fun k hk => (hkk k hk).1.2.1] at e
    have hne : ks ≠ [] := by
      rintro rfl
      rw [jsLeaf_nil] at h
      exact ht (h.2 m rfl)
    have : split bDot x.1 = ks := by rw [e]; exact split_joinWith bDot ks hne fun k hk => (hkk k hk).1.1.2
    rw [this]; exact ⟨h, e⟩
  have hmap : L = (L.map fun x => (split bDot x.1, x.2)).map fun x => (joinWith bDot x.1, x.2) := by
    rw [List.map_map]
    conv => lhs; rw [← List.map_id L]
    apply List.map_congr_left
    intro x hx
    simp only [id, Function.comp]
    rw [← (hsplit x hx).2]
  have hLn : (L.map (·.1)).Nodup := (hL.map _).nodup_iff.2 hdis
  have hnil : ∀ ks v, ¬ JsLeaf (.obj []) ks v := jsLeaf_empty
  obtain ⟨n, e, h0, hg, hl⟩ := buildAll_leaves (L.map fun x => (split bDot x.1, x.2)) [] (by
      intro y hy
      obtain ⟨x, hx, rfl⟩ := List.mem_map.1 hy
      have h := (hsplit x hx).1
      refine ⟨split_ne_nil _ _, fun k hkk => ?_, h.isLeaf⟩
      have := h.keys hk k hkk
      exact ⟨⟨this.2, this.1.bracket⟩, this.1.1.2⟩) (by
      rw [List.pairwise_map]
      refine List.Pairwise.imp_of_mem (R := fun x y : Bytes × Js => x.1 ≠ y.1) ?_ (List.pairwise_map.1 hLn)
      intro x y hx hy hne
      have h1 := hsplit x hx
      have h2 := hsplit y hy
      constructor
      · intro hp
        have := (h2.1.prefix_free h1.1 hp).1
        exact hne (by rw [h1.2, h2.2, this])
      · intro hp
        have := (h1.1.prefix_free h2.1 hp).1
        exact hne (by rw [h1.2, h2.2, this])) (by simp [mkeys]) (by intro k v h; cases h)
      (fun x _ ks' v' h => absurd h (hnil _ _))
  rw [← hmap] at e
  refine ⟨n, e, ?_⟩
  have hll : ∀ ks v, JsLeaf (.obj n) ks v ↔ JsLeaf (.obj m) ks v := by
    intro ks v
    rw [hl]
    constructor
    · rintro (h | h)
      · exact absurd h (hnil _ _)
      · obtain ⟨x, hx, e⟩ := List.mem_map.1 h
        cases e
        exact (hsplit x hx).1
    · intro h
      refine .inr (List.mem_map.2 ⟨(leafName ks, v), hL.symm.subset ((hex _ _).2 ⟨ks, h, rfl⟩), ?_⟩)
      have hkk := h.keys hk
      have hne : ks ≠ [] := by
        rintro rfl
        rw [jsLeaf_nil] at h
        exact ht (h.2 m rfl)
      simp only [Prod.mk.injEq, and_true]
      rw [leafName_join ks fun k hk => (hkk k hk).1.2.1]
      exact split_joinWith bDot ks hne fun k hk => (hkk k hk).1.1.2
  cases m with
  | nil =>
    cases n with
    | nil => exact .same _
    | cons p n =>
      exfalso
      obtain ⟨k, v⟩ := p
      have hgv := hg k v (by simp [mget])
      obtain ⟨ks, x, h⟩ := branching_leaf hgv
      exact hnil _ _ ((hll _ _).1 (.step _ k v ks x h0 (by simp [mget]) h))
  | cons p m' =>
    have hgm : Branching (.obj (p :: m')) := .obj _ (by simp) ht fun k v hv =>
      branching_of_noEmpty v fun ks hks => by
        have := he (k :: ks) (.step _ k v ks _ hv hks)
        cases this
    have hnn : n ≠ [] := by
      rintro rfl
      obtain ⟨k, v⟩ := p
      have hgv : Branching v := by
        cases hgm with
        | leaf _ h => exact absurd (h _ rfl) ht
        | obj _ _ _ h => exact h k v (by simp [mget])
      obtain ⟨ks, x, h⟩ := branching_leaf hgv
      exact hnil _ _ ((hll _ _).2 (.step _ k v ks x ht (by simp [mget]) h))
    exact sameTree_of_leaves _ _ (.obj n hnn h0 hg) hgm hll

/-- The example: a leaf with a timestamp, a plain leaf, two levels. -/
def vssData : List (Bytes × Js) :=
  [(b!"V", .obj [(b!"S", .obj [(b!"value", .int 3), (b!"timestamp", .int 7)]), (b!"T", .bool true)]), (b!"W", .str b!"x")]

example : leafNodes (.obj vssData) =
    [(b!"V.S", .obj [(b!"value", .int 3), (b!"timestamp", .int 7)]), (b!"V.T", .bool true), (b!"W", .str b!"x")] := by rfl

example : ∃ n, buildAll [] (leafNodes (.obj vssData)).reverse = .ok n ∧
    n = [(b!"W", .str b!"x"), (b!"V", .obj [(b!"T", .bool true), (b!"S", .obj [(b!"value", .int 3), (b!"timestamp", .int 7)])])] :=
  ⟨_, rfl, rfl⟩

theorem jsAt_cases {m : List (Bytes × Js)} {ks : List Bytes} {v : Js} (h : JsAt (.obj m) ks v) :
    v = .obj m ∧ ks = [] ∨ ∃ p ∈ m, ∃ r, ks = p.1 :: r ∧ JsAt p.2 r v := by
  cases h with
  | here => exact .inl ⟨rfl, rfl⟩
  | step _ k w ks _ hw h => exact .inr ⟨(k, w), mget_mem hw, ks, rfl, h⟩

theorem jsAt_vssData {ks : List Bytes} {m : List (Bytes × Js)} (h : JsAt (.obj vssData) ks (.obj m)) :
    m = vssData ∨ m = [(b!"S", .obj [(b!"value", .int 3), (b!"timestamp", .int 7)]), (b!"T", .bool true)] ∨
      m = [(b!"value", .int 3), (b!"timestamp", .int 7)] := by
  have flat : ∀ {v : Js} {r : List Bytes}, (∀ m, v ≠ .obj m) → ¬ JsAt v r (.obj m) := by
    intro v r hv h
    cases h with
    | here => exact hv m rfl
    | step => exact hv _ rfl
  rcases jsAt_cases h with ⟨e, -⟩ | ⟨p, hp, r, -, h⟩
  · cases e; exact .inl rfl
  simp only [vssData, List.mem_cons, List.not_mem_nil, or_false] at hp
  rcases hp with rfl | rfl
  · rcases jsAt_cases h with ⟨e, -⟩ | ⟨p, hp, r, -, h⟩
    · cases e; exact .inr (.inl rfl)
    simp only [List.mem_cons, List.not_mem_nil, or_false] at hp
    rcases hp with rfl | rfl
    · rcases jsAt_cases h with ⟨e, -⟩ | ⟨p, hp, r, -, h⟩
      · cases e; exact .inr (.inr rfl)
      simp only [List.mem_cons, List.not_mem_nil, or_false] at hp
      rcases hp with rfl | rfl <;> exact absurd h (flat (by intro m e; cases e))
    · exact absurd h (flat (by intro m e; cases e))
  · exact absurd h (flat (by intro m e; cases e))

example : NodupKeys (.obj vssData) ∧ KeysAre BuildKey (.obj vssData) ∧ b!"timestamp" ∉ mkeys vssData ∧
    NoEmptyMap (.obj vssData) ∧ ChildrenAlone (.obj vssData) := by
  refine ⟨fun ks m h => ?_, fun ks m h => ?_, by decide, fun ks h => ?_, fun ks m h => ?_⟩
  · rcases jsAt_vssData h with rfl | rfl | rfl <;> decide
  · unfold BuildKey DotKey
    rcases jsAt_vssData h with rfl | rfl | rfl <;> decide
  · rcases jsAt_vssData h with e | e | e <;> cases e
  · rcases jsAt_vssData h with rfl | rfl | rfl <;> exact fun h => absurd h (by decide)

/-- C73: an empty map is lost. -/
theorem C73_empty_fails : buildAll [] (leafNodes (.obj [(b!"V", .obj []), (b!"W", .bool true)])) = .ok [(b!"W", .bool true)] := by
  rfl

/-- C73: `children` does not come back. -/
theorem C73_children_fails : buildAll [] (leafNodes (.obj [(b!"V", .obj [(b!"children", .obj [(b!"S", .bool true)])])])) =
    .ok [(b!"V", .obj [(b!"S", .bool true)])] := by rfl

/-- C73: a key with a dot becomes two maps. -/
theorem C73_dot_fails : buildAll [] (leafNodes (.obj [(b!"V.S", .bool true)])) =
    .ok [(b!"V", .obj [(b!"S", .bool true)])] := by rfl

end Verif
