import Verif.SpecExpStore
import Verif.PropsExpQuery
import Verif.PropsTJson
import Verif.JsonTrip
/-
C67: the TJSON store of the temporal experiments.
-/
namespace Verif

/-! ### The initial patches, once more -/

theorem Js.Inside.trans {d : Js} {ks : List Bytes} {c : Js} (h : Js.Inside d ks c) :
    ∀ {ks' w}, Js.Inside c ks' w → Js.Inside d (ks ++ ks') w := by
  induction h with
  | here => exact fun h => h
  | member hm _ ih => exact fun h => .member hm (ih h)
  | element hl _ ih => exact fun h => .element hl (ih h)

theorem Js.Inside.split {d : Js} : ∀ {ks₁ ks₂ : List Bytes} {w : Js}, Js.Inside d (ks₁ ++ ks₂) w →
    ∃ c, Js.Inside d ks₁ c ∧ Js.Inside c ks₂ w := by
  intro ks₁
  induction ks₁ generalizing d with
  | nil => exact fun h => ⟨d, .here d, h⟩
  | cons k ks₁ ih =>
    intro ks₂ w h
    rw [List.cons_append] at h
    cases h with
    | member hm h =>
      obtain ⟨c, h1, h2⟩ := ih h
      exact ⟨c, .member hm h1, h2⟩
    | element hl h =>
      obtain ⟨c, h1, h2⟩ := ih h
      exact ⟨c, .element hl h1, h2⟩

theorem mem_unique {m : List (Bytes × ν)} (h : (mkeys m).Nodup) {k : Bytes} {a b : ν} (ha : (k, a) ∈ m) (hb : (k, b) ∈ m) :
    a = b := by
  induction m with
  | nil => simp at ha
  | cons e m ih =>
    simp only [mkeys, List.map_cons, List.nodup_cons] at h
    rcases List.mem_cons.1 ha with ha' | ha' <;> rcases List.mem_cons.1 hb with hb' | hb'
    · have := ha'.trans hb'.symm; exact (Prod.mk.inj this).2
    · exact absurd (List.mem_map.2 ⟨_, hb', rfl⟩) (by rw [← ha'] at h; exact h.1)
    · exact absurd (List.mem_map.2 ⟨_, ha', rfl⟩) (by rw [← hb'] at h; exact h.1)
    · exact ih h.2 ha' hb'

theorem Js.Inside.unique {d : Js} : ∀ {ks : List Bytes} {w w' : Js},
    (∀ ks m, Js.Inside d ks (.obj m) → (mkeys m).Nodup) → Js.Inside d ks w → Js.Inside d ks w' → w = w' := by
  intro ks
  induction ks generalizing d with
  | nil => intro w w' _ h h'; cases h; cases h'; rfl
  | cons k ks ih =>
    intro w w' hu h h'
    cases h with
    | member hm h =>
      cases h' with
      | member hm' h' =>
        have := mem_unique (hu [] _ (.here _)) hm hm'
        subst this
        exact ih (fun ks₁ m h1 => hu (k :: ks₁) m (.member hm h1)) h h'
    | element hl h =>
      generalize hk : natDigits _ = k' at h'
      cases h' with
      | element hl' h' =>
        have := natDigits_injective hk
        subst this
        rw [hl] at hl'
        cases hl'
        exact ih (fun ks₁ m h1 => hu (_ :: ks₁) m (.element hl h1)) h h'

theorem joinWith_inj {a b : List Bytes} (ha : ∀ k ∈ a, k ≠ [] ∧ bDot ∉ k) (hb : ∀ k ∈ b, k ≠ [] ∧ bDot ∉ k)
    (h : joinWith bDot a = joinWith bDot b) : a = b := by
  have nonempty : ∀ l : List Bytes, (∀ k ∈ l, k ≠ [] ∧ bDot ∉ k) → joinWith bDot l = [] → l = [] := by
    intro l hl h
    match l, hl, h with
    | [], _, _ => rfl
    | [k], hl, h => exact absurd h (hl k (by simp)).1
    | k :: k' :: l, _, h => simp [joinWith] at h
  by_cases ea : a = []
  · subst ea; exact (nonempty b hb h.symm).symm
  · by_cases eb : b = []
    · subst eb; exact nonempty a ha h
    · rw [← split_joinWith bDot a ea (fun k hk => (ha k hk).2), h, split_joinWith bDot b eb (fun k hk => (hb k hk).2)]

/-- A path joined with dots is not changed. -/
theorem tPath_joinWith {ks : List Bytes} (h : ∀ k ∈ ks, bSlash ∉ k) : tPath (joinWith bDot ks) = joinWith bDot ks := by
  have hs : bSlash ∉ joinWith bDot ks := by
    intro hm
    have : ∀ l : List Bytes, bSlash ∈ joinWith bDot l → ∃ k ∈ l, bSlash ∈ k := by
      intro l
      induction l with
      | nil => intro h; simp [joinWith] at h
      | cons a l ih =>
        intro h
        cases l with
        | nil => exact ⟨a, by simp, by simpa [joinWith] using h⟩
        | cons b l =>
          simp only [joinWith, List.mem_append, List.mem_cons] at h
          rcases h with h | h | h
          · exact ⟨a, by simp, h⟩
          · exact absurd h (by decide)
          · obtain ⟨k, hk, h'⟩ := ih h
            exact ⟨k, by simp [List.mem_cons.1 hk], h'⟩
    obtain ⟨k, hk, h'⟩ := this ks hm
    exact h k hk h'
  have hmap : ∀ s : Bytes, bSlash ∉ s → s.map (fun c => if c = bSlash then bDot else c) = s := by
    intro s
    induction s with
    | nil => intro _; rfl
    | cons c s ih =>
      intro h
      have hc : c ≠ bSlash := fun e => h (by simp [e])
      simp only [List.map_cons, hc, if_false, ih (fun e => h (by simp [e]))]
  unfold tPath
  cases hj : joinWith bDot ks with
  | nil => rfl
  | cons c r =>
    have hc : c ≠ bSlash := fun e => hs (by rw [hj, e]; simp)
    simp only [hc, if_false]
    exact hmap _ (by rw [← hj]; exact hs)

theorem jsEq_recorded {d : Js} (hd : GoodDoc d) {ks : List Bytes} {w u : Js} (hi : Js.Inside d ks w) (hr : Recorded w u) :
    jsEq u u = true := by
  have atom : ∀ ks' v, Js.Inside d ks' v → v.IsAtom → jsEq v v = true := by
    intro ks' v hv ha
    cases v with
    | num f => simpa [jsEq] using F64.feq_refl_of_ne_nan (hd.numbers _ _ hv)
    | obj _ => exact ha.elim
    | arr _ => exact ha.elim
    | _ => simp [jsEq]
  cases hr with
  | atom ha => exact atom _ _ hi ha
  | @map n hne =>
    have hn := hd.unique _ _ hi
    rw [jsEq, Bool.and_eq_true]
    refine ⟨by simp, (jsEqF_iff _ _).2 fun p hp => ?_⟩
    have hp' := List.mem_filter.1 hp
    refine ⟨p.2, ?_, atom _ _ (hi.trans (.member hp'.1 (.here _))) ?_⟩
    · have hsub : (mkeys (n.filter fun e => decide e.2.IsPrim)).Nodup :=
        ((List.filter_sublist (l := n)).map Prod.fst).nodup hn
      obtain ⟨v, hv⟩ := mget_isSome.2 (List.mem_map.2 ⟨p, hp, rfl⟩ : p.1 ∈ mkeys (n.filter fun e => decide e.2.IsPrim))
      rw [hv, mem_unique hsub (mget_mem hv) hp]
    · have : p.2.IsPrim := by simpa using hp'.2
      revert this
      cases p.2 <;> simp [Js.IsPrim, Js.IsAtom]

/-- The initial patches of a good document. -/
theorem initial_iff {m : List (Bytes × Js)} (hd : GoodDoc (.obj m)) (p : TPatch) :
    p ∈ initialPatches [] (.obj m) ↔
      ∃ ks w u, Js.Inside (.obj m) ks w ∧ Recorded w u ∧ p = ⟨b!"add", joinWith bDot ks, u, 0⟩ :=
  C63_patches_partial (fun e he => (hd.keys [e.1] e.2 (.member he (.here _)) e.1 (by simp)).1) p

theorem initial_path {m : List (Bytes × Js)} (hd : GoodDoc (.obj m)) {p : TPatch} {ks : List Bytes}
    (hks : ∀ k ∈ ks, k ≠ [] ∧ bDot ∉ k) (hp : p ∈ initialPatches [] (.obj m)) (hpath : tPath p.path = joinWith bDot ks) :
    ∃ w u, Js.Inside (.obj m) ks w ∧ Recorded w u ∧ p = ⟨b!"add", joinWith bDot ks, u, 0⟩ := by
  obtain ⟨ks', w, u, hi, hr, rfl⟩ := (initial_iff hd p).1 hp
  have hk := hd.keys _ _ hi
  rw [tPath_joinWith fun k hk' => (hk k hk').2.2] at hpath
  have := joinWith_inj (fun k hk' => ⟨(hk k hk').1, (hk k hk').2.1⟩) hks hpath
  subst this
  exact ⟨w, u, hi, hr, rfl⟩

theorem recorded_unique {w u u' : Js} (h : Recorded w u) (h' : Recorded w u') : u = u' := by
  cases h with
  | atom ha =>
    cases h' with
    | atom _ => rfl
    | map _ => exact ha.elim
  | map _ =>
    cases h' with
    | atom ha => exact ha.elim
    | map _ => rfl

/-! ### C67 -/

/-- Initial patches and readings have good times. -/
theorem experiment_good {m : List (Bytes × Js)} (hd : GoodDoc (.obj m)) {rs : List TPatch} (hrs : Readings rs)
    {ps : List TPatch} (hps : ps.Perm (initialPatches [] (.obj m) ++ rs)) : GoodTimes ps := by
  have hmem : ∀ p ∈ ps, (p ∈ initialPatches [] (.obj m) ∧ p.ts = 0) ∨ (p ∈ rs ∧ 0 < p.ts ∧ p.ts ≤ maxInt64) := by
    intro p hp
    rcases List.mem_append.1 (hps.mem_iff.1 hp) with h | h
    · refine .inl ⟨h, ?_⟩
      obtain ⟨_, _, _, _, _, rfl⟩ := (initial_iff hd p).1 h; rfl
    · exact .inr ⟨h, (hrs p h).2⟩
  refine ⟨?_, ?_, ?_⟩
  · intro p hp
    rcases hmem p hp with ⟨_, h⟩ | ⟨_, h⟩ <;> omega
  · intro p hp
    rcases hmem p hp with ⟨_, h⟩ | ⟨_, h⟩
    · rw [h]; decide
    · exact h.2
  · refine List.Pairwise.imp_of_mem (R := fun _ _ => True) ?_ (List.pairwise_of_forall fun _ _ => trivial)
    intro a b ha hb _ ha0 hb0 hpath
    rcases hmem a ha with ⟨ha', _⟩ | ⟨_, h⟩
    · rcases hmem b hb with ⟨hb', _⟩ | ⟨_, h⟩
      · obtain ⟨ks, w, u, hi, hr, rfl⟩ := (initial_iff hd a).1 ha'
        have hk := hd.keys _ _ hi
        dsimp only at hpath
        rw [tPath_joinWith fun k hk' => (hk k hk').2.2] at hpath
        obtain ⟨w', u', hi', hr', rfl⟩ :=
          initial_path hd (fun k hk' => ⟨(hk k hk').1, (hk k hk').2.1⟩) hb' hpath.symm
        have := hi.unique hd.unique hi'
        subst this
        have := recorded_unique hr hr'
        subst this
        exact ⟨.inl rfl, .inl rfl, jsEq_recorded hd hi hr, jsEq_recorded hd hi hr⟩
      · omega
    · omega

/-- **C67.**  In the store made from the initial document and the readings, a snapshot at `t` shows for every sensor the
value of its latest reading up to `t`, and its initial value as long as there is none; whatever the sorts do with equal
times.  (For sensors of at least two segments; nil and object values are not shown as such.) -/
theorem C67_store_partial (o : TOracle) {now : Int} (h0 : 0 ≤ now) (h1 : now ≤ maxInt64) {doc m : List (Bytes × Js)}
    (hm : jsTransform (.obj doc) = .obj m) (hd : GoodDoc (.obj m)) {rs : List TPatch} (hrs : Readings rs)
    {ps : List TPatch} (hps : ps.Perm (createInitialPatches doc ++ rs)) {ks : List Bytes} {w : Js}
    (hi : Js.Inside (.obj m) ks w) (hw : w.IsAtom) (hn : w ≠ .null) (hl : 2 ≤ ks.length)
    (hpre : ∀ r ∈ rs, ∀ ks₁ ks₂, ks = ks₁ ++ ks₂ → ks₂ ≠ [] → tPath r.path ≠ joinWith bDot ks₁)
    {t : Int} (ht0 : 0 ≤ t) (ht : t ≤ now) :
    ((∀ r ∈ rs, tPath r.path = joinWith bDot ks → t < r.ts) →
      ∃ j, (tSnapshot (fromPatches o now ps) t).at? ks = some j ∧ SameValue j w) ∧
    (∀ r, Governs rs (joinWith bDot ks) t r → r.value ≠ .null → (∀ n, r.value ≠ .obj n) →
      ∃ j, (tSnapshot (fromPatches o now ps) t).at? ks = some j ∧ SameValue j r.value) := by
  rw [createInitialPatches, hm] at hps
  have hk := hd.keys _ _ hi
  have hk' : ∀ k ∈ ks, k ≠ [] ∧ bDot ∉ k := fun k hk' => ⟨(hk k hk').1, (hk k hk').2.1⟩
  have hne : ks ≠ [] := by rintro rfl; simp at hl
  have hs := split_joinWith bDot ks hne fun k hk' => (hk k hk').2.1
  have hq : bDot ∈ joinWith bDot ks := by
    match ks, hl with
    | a :: b :: l, _ => simp [joinWith]
  have hg := experiment_good hd hrs hps
  have hw' : ∀ n, w ≠ .obj n := by rintro n rfl; exact hw
  have hprefix : ∀ p' ∈ ps, ∀ r, tPath p'.path ++ bDot :: r = joinWith bDot ks → p'.Sets → ∃ m, p'.value = .obj m := by
    intro p' hp' r he _
    have hsp : tPath p'.path ++ bDot :: r = joinWith bDot (split bDot (tPath p'.path) ++ split bDot r) := by
      rw [joinWith_append _ _ _ (split_ne_nil _ _) (split_ne_nil _ _), joinWith_split, joinWith_split]
    have hks : ks = split bDot (tPath p'.path) ++ split bDot r := by
      rw [← hs, ← he, hsp]
      refine split_joinWith bDot _ (by simp [split_ne_nil]) fun k hk => ?_
      rcases List.mem_append.1 hk with hk | hk
      · exact split_no_sep _ _ k hk
      · exact split_no_sep _ _ k hk
    rcases List.mem_append.1 (hps.mem_iff.1 hp') with h | h
    · obtain ⟨w', u, hi', hr, hpe⟩ := initial_path hd (ks := split bDot (tPath p'.path))
        (fun k hk => hk' k (by rw [hks]; simp [hk])) h (joinWith_split _ _).symm
      rw [hks] at hi
      obtain ⟨c, hc, hcw⟩ := hi.split
      have := hc.unique hd.unique hi'
      subst this
      cases hr with
      | map _ => exact ⟨_, congrArg TPatch.value hpe⟩
      | atom ha =>
        generalize hks2 : split bDot r = ks₂ at hcw
        cases hcw with
        | here => exact absurd hks2 (split_ne_nil _ _)
        | member _ _ => exact ha.elim
        | element _ _ => exact ha.elim
    · exact absurd (joinWith_split _ _).symm (hpre p' h _ _ hks (split_ne_nil _ _))
  have hinit : ∀ p ∈ initialPatches [] (.obj m), tPath p.path = joinWith bDot ks →
      p = ⟨b!"add", joinWith bDot ks, w, 0⟩ := by
    intro p hp hpath
    obtain ⟨w', u, hi', hr, rfl⟩ := initial_path hd hk' hp hpath
    have := hi.unique hd.unique hi'
    subst this
    rw [recorded_unique hr (.atom hw)]
  refine ⟨fun hno => ?_, fun r hr hrn hro => ?_⟩
  · have hgov : Governs ps (joinWith bDot ks) t ⟨b!"add", joinWith bDot ks, w, 0⟩ := by
      refine ⟨hps.mem_iff.2 (List.mem_append_left _ ((initial_iff hd _).2 ⟨ks, w, w, hi, .atom hw, rfl⟩)), ?_, ht0, ?_⟩
      · exact ⟨tPath_joinWith fun k hk' => (hk k hk').2.2, .inl (.inl rfl)⟩
      · intro p' hp' hon hle
        rcases List.mem_append.1 (hps.mem_iff.1 hp') with h | h
        · exact .inl (hinit p' h hon.1)
        · have := hno p' h hon.1; omega
    have := C53_snapshot_partial o hg h0 h1 hq ht hgov (.inl rfl) hprefix hn hw'
    rwa [hs] at this
  · have hgov : Governs ps (joinWith bDot ks) t r := by
      refine ⟨hps.mem_iff.2 (List.mem_append_right _ hr.mem), hr.on, hr.le, ?_⟩
      intro p' hp' hon hle
      rcases List.mem_append.1 (hps.mem_iff.1 hp') with h | h
      · rw [hinit p' h hon.1]
        exact .inr (hrs r hr.mem).2.1
      · exact hr.latest p' h hon hle
    have := C53_snapshot_partial o hg h0 h1 hq ht hgov (hrs r hr.mem).1 hprefix hrn hro
    rwa [hs] at this

/-- A vehicle document with two sensors. -/
def storeDoc : List (Bytes × Js) :=
  [(b!"car", .obj [(b!"on", .obj [(b!"timestamp", .num (F64.ofInt 1)), (b!"value", .bool true)]),
    (b!"name", .obj [(b!"timestamp", .num (F64.ofInt 1)), (b!"value", .str b!"x")])])]

/-- Readings of one of them. -/
def storeReadings : List TPatch :=
  [⟨b!"replace", b!"car.on", .bool false, 20⟩, ⟨b!"replace", b!"car.on", .bool true, 30⟩]

theorem storeDoc_eq : jsTransform (.obj storeDoc) =
    .obj [(b!"car", .obj [(b!"on", .bool true), (b!"name", .str b!"x")])] := by rfl

theorem storeDoc_inside {ks : List Bytes} {w : Js}
    (h : Js.Inside (.obj [(b!"car", .obj [(b!"on", .bool true), (b!"name", .str b!"x")])]) ks w) :
    (ks = [] ∧ w = .obj [(b!"car", .obj [(b!"on", .bool true), (b!"name", .str b!"x")])]) ∨
    (ks = [b!"car"] ∧ w = .obj [(b!"on", .bool true), (b!"name", .str b!"x")]) ∨
    (ks = [b!"car", b!"on"] ∧ w = .bool true) ∨ (ks = [b!"car", b!"name"] ∧ w = .str b!"x") := by
  cases h with
  | here => exact .inl ⟨rfl, rfl⟩
  | member hm h =>
    simp only [List.mem_cons, List.not_mem_nil, or_false, Prod.mk.injEq] at hm
    obtain ⟨rfl, rfl⟩ := hm
    cases h with
    | here => exact .inr (.inl ⟨rfl, rfl⟩)
    | member hm h =>
      simp only [List.mem_cons, List.not_mem_nil, or_false, Prod.mk.injEq] at hm
      rcases hm with ⟨rfl, rfl⟩ | ⟨rfl, rfl⟩
      · cases h; exact .inr (.inr (.inl ⟨rfl, rfl⟩))
      · cases h; exact .inr (.inr (.inr ⟨rfl, rfl⟩))

theorem storeDoc_good : GoodDoc (.obj [(b!"car", .obj [(b!"on", .bool true), (b!"name", .str b!"x")])]) where
  keys := by
    intro ks w h k hk
    rcases storeDoc_inside h with ⟨rfl, _⟩ | ⟨rfl, _⟩ | ⟨rfl, _⟩ | ⟨rfl, _⟩ <;>
      simp only [List.mem_cons, List.not_mem_nil, or_false] at hk
    · subst hk; decide
    · rcases hk with rfl | rfl <;> decide
    · rcases hk with rfl | rfl <;> decide
  unique := by
    intro ks m h
    rcases storeDoc_inside h with ⟨_, h⟩ | ⟨_, h⟩ | ⟨_, h⟩ | ⟨_, h⟩ <;> cases h <;> decide
  numbers := by
    intro ks f h
    rcases storeDoc_inside h with ⟨_, h⟩ | ⟨_, h⟩ | ⟨_, h⟩ | ⟨_, h⟩ <;> cases h

theorem storeReadings_good : Readings storeReadings := by unfold Readings; decide

theorem storeReadings_on : ∀ r ∈ storeReadings, ∀ ks₁ ks₂, [b!"car", b!"on"] = ks₁ ++ ks₂ → ks₂ ≠ [] →
    tPath r.path ≠ joinWith bDot ks₁ := by
  intro r hr ks₁ ks₂ he hne
  have hr' : tPath r.path = b!"car.on" := by
    simp only [storeReadings, List.mem_cons, List.not_mem_nil, or_false] at hr
    rcases hr with rfl | rfl <;> rfl
  rw [hr']
  match ks₁, he with
  | [], _ => decide
  | [_], he => cases he; decide
  | [_, _], he => cases he; exact absurd rfl hne

/-- Before the first reading, the value of the document; afterwards that of the reading; whatever the sorts do. -/
example : (∃ j, (tSnapshot (fromPatches tReverse 100 (storeReadings ++ createInitialPatches storeDoc)) 10).at?
      [b!"car", b!"on"] = some j ∧ SameValue j (.bool true)) ∧
    (∃ j, (tSnapshot (fromPatches tReverse 100 (storeReadings ++ createInitialPatches storeDoc)) 25).at?
      [b!"car", b!"on"] = some j ∧ SameValue j (.bool false)) := by
  have hi : Js.Inside (.obj [(b!"car", .obj [(b!"on", .bool true), (b!"name", .str b!"x")])]) [b!"car", b!"on"] (.bool true) :=
    .member (List.mem_cons_self ..) (.member (List.mem_cons_self ..) (.here _))
  have hp : (storeReadings ++ createInitialPatches storeDoc).Perm (createInitialPatches storeDoc ++ storeReadings) :=
    List.perm_append_comm
  refine ⟨(C67_store_partial tReverse (now := 100) (by decide) (by decide) storeDoc_eq storeDoc_good storeReadings_good hp hi
      trivial (by simp) (by decide) storeReadings_on (t := 10) (by decide) (by decide)).1 (by decide),
    (C67_store_partial tReverse (now := 100) (by decide) (by decide) storeDoc_eq storeDoc_good storeReadings_good hp hi
      trivial (by simp) (by decide) storeReadings_on (t := 25) (by decide) (by decide)).2
        ⟨b!"replace", b!"car.on", .bool false, 20⟩ ⟨by simp [storeReadings], by decide, by decide, ?_⟩ (by simp) (by simp)⟩
  intro p hp _ hle
  simp only [storeReadings, List.mem_cons, List.not_mem_nil, or_false] at hp
  rcases hp with rfl | rfl
  · exact .inl rfl
  · exact absurd hle (by decide)

/-- **C67, refuted for readings at time 0.**  The first readings of the simulation bear the time 0, as the initial patches
do.  If the sort puts them first they are lost: the initial value is shown at all times up to the next reading. -/
theorem C67_lost_fails : ∃ r : TPatch, r.ts = 0 ∧ r.value = .bool false ∧ r.path = b!"car.on" ∧
    (tSnapshot (fromPatches tStable 100 (createInitialPatches storeDoc ++ [r])) 50).at? [b!"car", b!"on"] = some (.bool false) ∧
    (tSnapshot (fromPatches tReverse 100 (createInitialPatches storeDoc ++ [r])) 50).at? [b!"car", b!"on"] = some (.bool true) :=
  ⟨⟨b!"replace", b!"car.on", .bool false, 0⟩, rfl, rfl, rfl, rfl, rfl⟩

/-- **C67, refuted for members of the document itself.**  A sensor that is not inside a map is never shown. -/
theorem C67_top_fails : (.bool true : Js).IsAtom ∧ jsTransform (.obj [(b!"on", .bool true)]) = .obj [(b!"on", .bool true)] ∧
    (tSnapshot (fromPatches tStable 100 (createInitialPatches [(b!"on", .bool true)])) 50).at? [b!"on"] = none :=
  ⟨trivial, rfl, rfl⟩

/-- **C67, refuted for lists.**  The store shows a list as a map of its elements. -/
theorem C67_list_fails :
    (tSnapshot (fromPatches tStable 100 (createInitialPatches [(b!"a", .obj [(b!"l", .arr [.bool true, .bool false])])])) 50).at?
      [b!"a", b!"l"] = some (.obj [(b!"0", .bool true), (b!"1", .bool false)]) := rfl

end Verif
