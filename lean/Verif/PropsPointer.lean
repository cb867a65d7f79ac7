import Verif.SpecDoc
/-
Properties C22, C23, C32: pointers, lookup, latest timestamp.
-/
namespace Verif

/-! ### C22 -/

/-- C22: unescaping an escaped key gives the key back, for every byte string. -/
theorem C22_escape_roundtrip (k : Bytes) : decode (encode k) = k := decode_encode k

/-- C22: hence different keys have different escapes, and an escaped key contains no separator. -/
theorem C22_escape_injective (k k' : Bytes) : (encode k = encode k' → k = k') ∧ bSlash ∉ encode k := by
  constructor
  · intro h
    have := congrArg decode h
    rwa [decode_encode, decode_encode] at this
  · induction k with
    | nil => simp [encode]
    | cons c r ih =>
      simp only [encode]
      split
      · simp [ih]; decide
      · split
        · simp [ih]; decide
        · rename_i _ h; simp [ih]; exact Ne.symm h

example : encode b!"a~1/~0" = b!"a~01~1~00" ∧ decode b!"a~01~1~00" = b!"a~1/~0" := by decide

/-! ### C23 -/

theorem decode_encode_append (k r : Bytes) : decode (encode k ++ r) = k ++ decode r := by
  induction k with
  | nil => rfl
  | cons c k ih =>
    by_cases h1 : c = bTilde
    · subst h1
      have : ¬ (bZero = bOne) := by decide
      simp [encode, decode, ih, this]
    · by_cases h2 : c = bSlash
      · subst h2
        have : ¬ (bSlash = bTilde) := by decide
        simp [encode, decode, ih, this]
      · simp only [encode, h1, h2, if_false, List.cons_append]
        rw [← ih]
        cases h : encode k ++ r with
        | nil => rfl
        | cons d t => simp [decode, h1]

theorem decode_slash_cons (r : Bytes) : decode (bSlash :: r) = bSlash :: decode r := by
  have : ¬ (bSlash = bTilde) := by decide
  cases r <;> simp [decode, this]

theorem decode_pointer (ks : List Bytes) : decode (pointer ks) = ks.flatMap fun k => bSlash :: k := by
  induction ks with
  | nil => rfl
  | cons k ks ih =>
    simp only [pointer, decode_slash_cons, decode_encode_append, ih, List.flatMap_cons, List.cons_append]

theorem flatMap_slash (k : Bytes) (ks : List Bytes) :
    ((k :: ks).flatMap fun k => bSlash :: k) = bSlash :: joinWith bSlash (k :: ks) := by
  induction ks generalizing k with
  | nil => simp [joinWith]
  | cons k' ks ih =>
    rw [List.flatMap_cons, ih, joinWith]
    simp

theorem readParts_pointer (ks : List Bytes) (hne : ks ≠ []) (h : ∀ k ∈ ks, bSlash ∉ k) :
    readParts (pointer ks) = ks := by
  unfold readParts
  rw [decode_pointer]
  cases ks with
  | nil => exact absurd rfl hne
  | cons k ks =>
    rw [flatMap_slash]
    simp only [split, if_true, List.tail_cons]
    exact split_joinWith _ _ hne h

theorem childOf_ok_iff (t : Tson) (k : Bytes) (c : Tson) :
    childOf t k = .ok c ↔ Reaches t [k] c := by
  constructor
  · intro h
    cases t with
    | null => simp [childOf] at h
    | leaf => simp [childOf] at h
    | obj m =>
      simp only [childOf] at h
      cases hm : mget m k with
      | none => simp [hm] at h
      | some v => simp [hm] at h; subst h; exact .member m k [] v v hm (.here v)
    | arr l =>
      simp only [childOf] at h
      cases ha : atoi k with
      | none => simp [ha] at h
      | some i =>
        simp only [ha, indexGo] at h
        by_cases hi : i < 0
        · simp [hi] at h
        · simp only [hi, if_false] at h
          cases hl : l[i.toNat]? with
          | none => simp [hl] at h
          | some v =>
            simp [hl] at h; subst h
            refine .element l k [] i.toNat v v ?_ hl (.here v)
            rw [ha]; congr 1; omega
  · intro h
    cases h with
    | member m _ _ c' _ h1 h2 =>
      cases h2; simp [childOf, h1]
    | element l _ _ i c' _ h1 h2 h3 =>
      cases h3
      have : ¬ ((i : Int) < 0) := by omega
      simp [childOf, h1, indexGo, h2, this]

theorem childOf_ne_panic (t : Tson) (k : Bytes) : childOf t k ≠ .panic := by
  unfold childOf
  repeat' split
  all_goals simp

theorem reaches_cons_iff (t : Tson) (k : Bytes) (ks : List Bytes) (t' : Tson) :
    Reaches t (k :: ks) t' ↔ ∃ c, Reaches t [k] c ∧ Reaches c ks t' := by
  constructor
  · intro h
    cases h with
    | member m _ _ c _ h1 h2 => exact ⟨c, .member m k [] c c h1 (.here c), h2⟩
    | element l _ _ i c _ h1 h2 h3 => exact ⟨c, .element l k [] i c c h1 h2 (.here c), h3⟩
  · rintro ⟨c, h1, h2⟩
    cases h1 with
    | member m _ _ c' _ h3 h4 => cases h4; exact .member m k ks _ _ h3 h2
    | element l _ _ i c' _ h3 h4 h5 => cases h5; exact .element l k ks i _ _ h3 h4 h2

theorem getParts_ok_iff (ks : List Bytes) (hne : ks ≠ []) : ∀ t t',
    getParts t ks = .ok t' ↔ Reaches t ks t' := by
  induction ks with
  | nil => exact absurd rfl hne
  | cons k ks ih =>
    intro t t'
    cases ks with
    | nil => rw [getParts_single, childOf_ok_iff]
    | cons k' ks =>
      rw [getParts_cons_ne (by simp), Res.bind_eq_ok, reaches_cons_iff]
      constructor
      · rintro ⟨c, h1, h2⟩
        exact ⟨c, (childOf_ok_iff t k c).1 h1, (ih (by simp) c t').1 h2⟩
      · rintro ⟨c, h1, h2⟩
        exact ⟨c, (childOf_ok_iff t k c).2 h1, (ih (by simp) c t').2 h2⟩

theorem getParts_ne_panic (ks : List Bytes) (hne : ks ≠ []) : ∀ t, getParts t ks ≠ .panic := by
  induction ks with
  | nil => exact absurd rfl hne
  | cons k ks ih =>
    intro t
    cases ks with
    | nil => rw [getParts_single]; exact childOf_ne_panic t k
    | cons k' ks =>
      rw [getParts_cons_ne (by simp)]
      cases h : childOf t k with
      | ok c => exact ih (by simp) c
      | err => simp
      | panic => exact absurd h (childOf_ne_panic t k)

/-- C23, for keys without the separator (missing: keys containing '/', see `C23_slash_key_fails`, and
the empty sequence, see `C23_root_fails`): `GetValue` on the spelled pointer returns exactly the member
reached, and an error if there is none; it never panics. -/
theorem C23_getValue_partial (t : Tson) (ks : List Bytes) (hne : ks ≠ []) (h : ∀ k ∈ ks, bSlash ∉ k) :
    (∀ t', getValue t (pointer ks) = .ok t' ↔ Reaches t ks t') ∧
    ((¬ ∃ t', Reaches t ks t') → getValue t (pointer ks) = .err) := by
  unfold getValue
  rw [readParts_pointer ks hne h]
  refine ⟨fun t' => getParts_ok_iff ks hne t t', fun hn => ?_⟩
  cases hg : getParts t ks with
  | ok t' => exact absurd ⟨t', (getParts_ok_iff ks hne t t').1 hg⟩ hn
  | err => rfl
  | panic => exact absurd hg (getParts_ne_panic ks hne t)

/-- C23: the reached member is unique, and every element is reached by its decimal index. -/
theorem C23_reaches_unique (t : Tson) (ks : List Bytes) (a b : Tson) (h1 : Reaches t ks a)
    (h2 : Reaches t ks b) : a = b := by
  induction h1 with
  | here t => cases h2; rfl
  | member m k ks c t hm _ ih =>
    cases h2 with
    | member _ _ _ c' _ hm' h' =>
      rw [hm] at hm'; cases hm'; exact ih h'
  | element l k ks i c t hi hl _ ih =>
    cases h2 with
    | element _ _ _ j c' _ hj hl' h' =>
      rw [hi] at hj
      have : i = j := by simp at hj; omega
      subst this
      rw [hl] at hl'; cases hl'; exact ih h'

theorem C23_decimal_index (l : List Tson) (i : Nat) (c : Tson) (hl : l[i]? = some c)
    (hi : (i : Int) ≤ maxInt64) : Reaches (.arr l) [natDigits i] c :=
  .element l _ [] i c c (atoi_natDigits hi) hl (.here c)

example : getValue (.obj [(b!"a~b", .arr [.null, .obj [(b!"", .leaf (.bool true) 7)]])])
    (pointer [b!"a~b", b!"1", b!""]) = .ok (.leaf (.bool true) 7) := by decide

example : Reaches (.obj [(b!"a~b", .arr [.null, .obj [(b!"", .leaf (.bool true) 7)]])])
    [b!"a~b", b!"1", b!""] (.leaf (.bool true) 7) := by
  refine .member _ _ _ _ _ rfl (.element _ _ _ 1 _ _ (by decide) rfl (.member _ _ _ _ _ rfl (.here _)))

/-- C23 fails for a key containing the separator: the pointer is unescaped before it is split. -/
theorem C23_slash_key_fails :
    Reaches (.obj [(b!"a/b", .leaf (.bool true) 1)]) [b!"a/b"] (.leaf (.bool true) 1) ∧
    getValue (.obj [(b!"a/b", .leaf (.bool true) 1)]) (pointer [b!"a/b"]) = .err := by
  refine ⟨.member _ _ _ _ _ rfl (.here _), by decide⟩

/-- C23 fails for keys containing the separator even worse: another member may be returned. -/
theorem C23_slash_key_wrong_member_fails :
    getValue (.obj [(b!"a/b", .leaf (.bool true) 1), (b!"a", .obj [(b!"b", .leaf (.bool false) 2)])])
      (pointer [b!"a/b"]) = .ok (.leaf (.bool false) 2) := by decide

/-- C23 fails for the empty pointer, which spells the whole document: the lookup panics. -/
theorem C23_root_fails (m : List (Bytes × Tson)) :
    Reaches (.obj m) [] (.obj m) ∧ getValue (.obj m) (pointer []) = .panic := ⟨.here _, rfl⟩

/-! ### C32 -/

theorem le_updateMax (mx ts : Int) : mx ≤ updateMax mx ts ∧ ts ≤ updateMax mx ts ∧
    (updateMax mx ts = mx ∨ updateMax mx ts = ts) := by
  unfold updateMax; split <;> omega

/-- What the loops compute, assuming the same for the children. -/
def LatestOk (t : Tson) : Prop :=
  (HasNull t ∧ getLatestTimestamp t = none) ∨
  (¬ HasNull t ∧ ∃ r, getLatestTimestamp t = some r ∧ (∀ ts, LeafTime ts t → ts ≤ r) ∧
    ((r = 0 ∧ ∀ p ts, t ≠ .leaf p ts) ∨ LeafTime r t) ∧ ((∀ p ts, t ≠ .leaf p ts) → 0 ≤ r))

theorem latestL_spec (l : List Tson) (ih : ∀ v ∈ l, LatestOk v) (mx : Int) :
    ((∃ v ∈ l, HasNull v) ∧ latestL mx l = none) ∨
    ((¬ ∃ v ∈ l, HasNull v) ∧ ∃ r, latestL mx l = some r ∧ mx ≤ r ∧
      (∀ v ∈ l, ∀ ts, LeafTime ts v → ts ≤ r) ∧
      (r = mx ∨ r = 0 ∨ ∃ v ∈ l, LeafTime r v)) := by
  induction l generalizing mx with
  | nil => right; refine ⟨by simp, mx, rfl, by omega, by simp, Or.inl rfl⟩
  | cons v l ihl =>
    rcases ih v (by simp) with ⟨h1, h2⟩ | ⟨h1, r, h2, h3, h4, h5⟩
    · left; exact ⟨⟨v, by simp, h1⟩, by simp [latestL, h2]⟩
    · have hu := le_updateMax mx r
      rcases ihl (fun w hw => ih w (by simp [hw])) (updateMax mx r) with
        ⟨⟨w, hw, hn⟩, h6⟩ | ⟨h6, r', h7, h8, h9, h10⟩
      · left; exact ⟨⟨w, by simp [hw], hn⟩, by simp [latestL, h2, h6]⟩
      · right
        refine ⟨?_, r', by simp [latestL, h2, h7], by omega, ?_, ?_⟩
        · rintro ⟨w, hw, hn⟩
          rcases List.mem_cons.1 hw with rfl | hw
          · exact h1 hn
          · exact h6 ⟨w, hw, hn⟩
        · intro w hw ts hts
          rcases List.mem_cons.1 hw with rfl | hw
          · have := h3 ts hts; omega
          · exact h9 w hw ts hts
        · rcases h10 with h10 | h10 | ⟨w, hw, h10⟩
          · rcases hu.2.2 with hu' | hu'
            · left; omega
            · rcases h4 with ⟨h4, -⟩ | h4
              · right; left; omega
              · right; right; refine ⟨v, by simp, ?_⟩
                rw [h10, hu']; exact h4
          · right; left; exact h10
          · right; right; exact ⟨w, by simp [hw], h10⟩

theorem latestF_eq (mx : Int) (m : List (Bytes × Tson)) : latestF mx m = latestL mx (m.map Prod.snd) := by
  induction m generalizing mx with
  | nil => rfl
  | cons p m ih =>
    obtain ⟨k, v⟩ := p
    simp only [latestF, latestL, List.map_cons]
    cases getLatestTimestamp v with
    | none => rfl
    | some ts => exact ih _

theorem latest_ok (t : Tson) : LatestOk t := by
  induction t using Tson.induction with
  | null => left; exact ⟨.null, rfl⟩
  | leaf p ts =>
    right
    refine ⟨(by intro h; cases h), ts, rfl, ?_, Or.inr (.leaf p), ?_⟩
    · intro ts' h; cases h; omega
    · intro h; exact absurd rfl (h p ts)
  | obj m ih =>
    have ih' : ∀ v ∈ m.map Prod.snd, LatestOk v := by
      intro v hv
      obtain ⟨p, hp, rfl⟩ := List.mem_map.1 hv
      exact ih p hp
    have hmem : ∀ v, v ∈ m.map Prod.snd ↔ ∃ k, (k, v) ∈ m := by intro v; simp
    rcases latestL_spec _ ih' 0 with ⟨⟨v, hv, hn⟩, h⟩ | ⟨hn, r, h1, h2, h3, h4⟩
    · left
      obtain ⟨k, hk⟩ := (hmem v).1 hv
      exact ⟨.obj m k v hk hn, by rw [getLatestTimestamp, latestF_eq, h]⟩
    · right
      refine ⟨?_, r, by rw [getLatestTimestamp, latestF_eq, h1], ?_, ?_, fun _ => h2⟩
      · intro h; cases h with
        | obj _ k c hk hc => exact hn ⟨c, (hmem c).2 ⟨k, hk⟩, hc⟩
      · intro ts h; cases h with
        | obj _ k c hk hc => exact h3 c ((hmem c).2 ⟨k, hk⟩) ts hc
      · rcases h4 with h4 | h4 | ⟨v, hv, h4⟩
        · exact Or.inl ⟨h4, by simp⟩
        · exact Or.inl ⟨h4, by simp⟩
        · obtain ⟨k, hk⟩ := (hmem v).1 hv
          exact Or.inr (.obj m k v hk h4)
  | arr l ih =>
    rcases latestL_spec _ ih 0 with ⟨⟨v, hv, hn⟩, h⟩ | ⟨hn, r, h1, h2, h3, h4⟩
    · left; exact ⟨.arr l v hv hn, by rw [getLatestTimestamp, h]⟩
    · right
      refine ⟨?_, r, by rw [getLatestTimestamp, h1], ?_, ?_, fun _ => h2⟩
      · intro h; cases h with
        | arr _ c hk hc => exact hn ⟨c, hk, hc⟩
      · intro ts h; cases h with
        | arr _ c hk hc => exact h3 c hk ts hc
      · rcases h4 with h4 | h4 | ⟨v, hv, h4⟩
        · exact Or.inl ⟨h4, by simp⟩
        · exact Or.inl ⟨h4, by simp⟩
        · exact Or.inr (.arr l v hv h4)

/-- C32: the latest timestamp of a container is the least number that is at least 0 and at least
every leaf timestamp; of a leaf its own; the call panics exactly if a nil value occurs.  (The
characterisation determines the result, so it cannot depend on the iteration order.) -/
theorem C32_latest_timestamp (t : Tson) :
    (getLatestTimestamp t = none ↔ HasNull t) ∧
    (∀ p ts, t = .leaf p ts → getLatestTimestamp t = some ts) ∧
    (∀ r, (∀ p ts, t ≠ .leaf p ts) → getLatestTimestamp t = some r →
      (0 ≤ r ∧ ∀ ts, LeafTime ts t → ts ≤ r) ∧
      ∀ b, 0 ≤ b → (∀ ts, LeafTime ts t → ts ≤ b) → r ≤ b) := by
  have h := latest_ok t
  refine ⟨?_, ?_, ?_⟩
  · rcases h with ⟨h1, h2⟩ | ⟨h1, r, h2, -⟩
    · exact ⟨fun _ => h1, fun _ => h2⟩
    · exact ⟨fun h => (by rw [h2] at h; cases h), fun h => absurd h h1⟩
  · rintro p ts rfl; rfl
  · intro r hl hr
    rcases h with ⟨h1, h2⟩ | ⟨h1, r', h2, h3, h4, h5⟩
    · rw [h2] at hr; cases hr
    · rw [h2] at hr; cases hr
      refine ⟨⟨h5 hl, h3⟩, ?_⟩
      intro b hb hball
      rcases h4 with ⟨h4, -⟩ | h4
      · omega
      · exact hball r h4

/-- C32, order independence: reordering the members of an object does not change the result. -/
theorem C32_order_independent (m m' : List (Bytes × Tson)) (h : m.Perm m') :
    getLatestTimestamp (.obj m) = getLatestTimestamp (.obj m') := by
  have key : ∀ m m' : List (Bytes × Tson), m.Perm m' → ∀ t, LeafTime t (.obj m) → LeafTime t (.obj m') := by
    intro m m' hp t ht
    cases ht with
    | obj _ k c hk hc => exact .obj m' k c (hp.mem_iff.1 hk) hc
  have keyN : ∀ m m' : List (Bytes × Tson), m.Perm m' → HasNull (.obj m) → HasNull (.obj m') := by
    intro m m' hp ht
    cases ht with
    | obj _ k c hk hc => exact .obj m' k c (hp.mem_iff.1 hk) hc
  obtain ⟨a1, -, a3⟩ := C32_latest_timestamp (.obj m)
  obtain ⟨b1, -, b3⟩ := C32_latest_timestamp (.obj m')
  cases hr : getLatestTimestamp (.obj m) with
  | none => rw [b1.2 (keyN m m' h (a1.1 hr))]
  | some r =>
    cases hr' : getLatestTimestamp (.obj m') with
    | none => rw [a1.2 (keyN m' m h.symm (b1.1 hr'))] at hr; cases hr
    | some r' =>
      obtain ⟨⟨c1, c2⟩, c3⟩ := a3 r (by simp) hr
      obtain ⟨⟨d1, d2⟩, d3⟩ := b3 r' (by simp) hr'
      have e1 := c3 r' d1 (fun ts ht => d2 ts (key _ _ h ts ht))
      have e2 := d3 r c1 (fun ts ht => c2 ts (key _ _ h.symm ts ht))
      congr 1; omega

/-- C32: the call returns `r` exactly if `r` is the newest timestamp. -/
theorem C32_newest (t : Tson) (r : Int) : getLatestTimestamp t = some r ↔ NewestTime t r := by
  have key : ∀ r', getLatestTimestamp t = some r' → NewestTime t r' := by
    intro r' h'
    rcases latest_ok t with ⟨h1, h2⟩ | ⟨h1, r'', h2, h3, h4, h5⟩
    · rw [h2] at h'; cases h'
    · rw [h2] at h'; cases h'
      refine ⟨h1, h3, ?_⟩
      by_cases hl : ∃ p ts, t = .leaf p ts
      · obtain ⟨p, ts, rfl⟩ := hl
        have : ts = r' := by simpa [getLatestTimestamp] using h2
        subst this
        exact Or.inl ⟨.leaf p, Or.inl ⟨p, rfl⟩⟩
      · have hl' : ∀ p ts, t ≠ .leaf p ts := fun p ts e => hl ⟨p, ts, e⟩
        rcases h4 with h4 | h4
        · exact Or.inr h4
        · exact Or.inl ⟨h4, Or.inr (h5 hl')⟩
  refine ⟨key r, fun h => ?_⟩
  cases hg : getLatestTimestamp t with
  | none => exact absurd ((C32_latest_timestamp t).1.1 hg) h.1
  | some r' =>
    have h' := key r' hg
    congr 1
    have step : ∀ a b, NewestTime t a → NewestTime t b → a ≤ b := by
      rintro a b ⟨-, -, ha⟩ ⟨-, hb1, hb2⟩
      rcases ha with ⟨ha, -⟩ | ⟨rfl, ha⟩
      · exact hb1 a ha
      · rcases hb2 with ⟨-, ⟨p, hp⟩ | h0⟩ | ⟨h0, -⟩
        · exact absurd hp (ha p b)
        · exact h0
        · omega
    have := step _ _ h h'
    have := step _ _ h' h
    omega

example : getLatestTimestamp (.obj [(b!"a", .leaf (.bool true) (-1)),
    (b!"b", .arr [.leaf (.bool true) 9, .obj [(b!"c", .leaf (.bool false) 12)]])]) = some 12 := by decide
example : getLatestTimestamp (.obj [(b!"a", .leaf (.bool true) (-1))]) = some 0 := by decide
example : getLatestTimestamp (.obj [(b!"a", .leaf (.bool true) 5), (b!"b", .arr [.null])]) = none := by decide

end Verif
