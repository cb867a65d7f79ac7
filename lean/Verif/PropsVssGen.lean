import Verif.SpecVssGen
import Verif.PropsVss
/-
Properties C74 and C75: the first data set of a vehicle and the following ones.
-/
namespace Verif

/-! ### Values -/

theorem rounds_spec {bound : Nat → Nat} (hb : ∀ i, bound i < 5) : ∀ n i, (∀ j ∈ rounds bound n i, j < 5) ∧
    (rounds bound n i).length ≤ 5 - i := by
  intro n
  induction n with
  | zero => intro i; simp [rounds]
  | succ n ih =>
    intro i
    simp only [rounds]
    by_cases h : i < bound i + 1
    · have := hb i
      rw [if_pos h]
      obtain ⟨h1, h2⟩ := ih (i + 1)
      refine ⟨?_, ?_⟩
      · intro j hj
        rcases List.mem_cons.1 hj with rfl | hj
        · omega
        · exact h1 j hj
      · simp only [List.length_cons]; omega
    · rw [if_neg h]; simp

theorem arrayOf_many {ts : Int} {bound : Nat → Nat} (hb : ∀ i, bound i < 5) {f : Nat → Js} {dt : Bytes}
    (hf : ∀ i, OfType dt (f i)) : SignalValue ts (dt ++ b!"[]") (arrayOf bound ts f) := by
  unfold arrayOf
  refine .many dt _ ?_ ?_ ?_
  · simp [rounds]
  · have := (rounds_spec hb 6 0).2
    simpa using this
  · intro v hv
    obtain ⟨i, -, rfl⟩ := List.mem_map.1 hv
    exact ⟨f i, rfl, hf i⟩

theorem below100_type {f : F64} (h : Below100 f) {dt : Bytes} (hd : dt = b!"float" ∨ dt = b!"double") : OfType dt (.num f) := by
  obtain ⟨m, e, hc, rfl, -⟩ := h
  exact .float dt false m e hc hd

theorem below100_int {f : F64} (h : Below100 f) : 0 ≤ f.toInt64 ∧ f.toInt64 < 100 := by
  obtain ⟨m, e, hc, rfl, h⟩ := h
  have : (if 0 ≤ e then m * 2 ^ e.toNat else m / 2 ^ (-e).toNat) < 100 := by
    by_cases he : 0 ≤ e
    · rw [if_pos he] at h ⊢; exact h
    · rw [if_neg he] at h ⊢
      rw [Nat.div_lt_iff_lt_mul (Nat.two_pow_pos _)]; exact h
  simp only [F64.toInt64, Bool.false_eq_true, if_false]
  generalize (if 0 ≤ e then m * 2 ^ e.toNat else m / 2 ^ (-e).toNat) = a at this
  simp only [minInt64, maxInt64]
  rw [if_pos (by omega)]
  omega

theorem isStr_str (t s : Bytes) : isStr (some (.str t)) s = (t == s) := rfl

/-- C74: the value drawn for a signal belongs to its datatype and to the allowed values. -/
theorem C74_value_partial {md : List (Bytes × Js)} {dt : Bytes} (hd : Declared md dt) (ts : Int) {d : Draw} (hf : d.Fair md) :
    ∃ v, drawValue md ts d = .ok (some v) ∧ SignalValue ts dt v ∧
      ∀ l, mget md b!"allowed" = some (.arr l) → Measured (· ∈ l) ts v := by
  obtain ⟨hdt, hk, ha⟩ := hd
  cases hal : mget md b!"allowed" with
  | none =>
    suffices h : ∃ v, drawValue md ts d = .ok (some v) ∧ SignalValue ts dt v by
      obtain ⟨v, h1, h2⟩ := h
      exact ⟨v, h1, h2, by intro l h; cases h⟩
    have one : ∀ {x : Js}, OfType dt x → SignalValue ts dt (vssLeaf x ts) := fun h => .one _ _ ⟨_, rfl, h⟩
    simp only [knownTypes, List.mem_cons, List.not_mem_nil, or_false] at hk
    have h100 := below100_int (hf.hundred 0)
    have h200 := hf.upTo200
    have h101 := hf.upTo100 0
    rcases hk with rfl | rfl | rfl | rfl | rfl | rfl | rfl | rfl | rfl | rfl | rfl | rfl | rfl
    · exact ⟨vssLeaf (.bool d.flag) ts, by simp [drawValue, hdt, isStr_str], one (.bool _)⟩
    · exact ⟨_, by simp [drawValue, hdt, isStr_str] <;> rfl, one (.int _ (-128) 127 _ (by decide) (by omega) (by omega))⟩
    · exact ⟨_, by simp [drawValue, hdt, isStr_str] <;> rfl, one (.int _ 0 255 _ (by decide) (by omega) (by omega))⟩
    · exact ⟨_, by simp [drawValue, hdt, hal, isStr_str] <;> rfl, one (.int _ (-32768) 32767 _ (by decide) (by omega) (by omega))⟩
    · exact ⟨_, by simp [drawValue, hdt, hal, isStr_str] <;> rfl, one (.int _ 0 65535 _ (by decide) (by omega) (by omega))⟩
    · exact ⟨_, by simp [drawValue, hdt, hal, isStr_str] <;> rfl,
        one (.int _ (-2147483648) 2147483647 _ (by decide) (by omega) (by omega))⟩
    · exact ⟨_, by simp [drawValue, hdt, hal, isStr_str] <;> rfl, one (.int _ 0 4294967295 _ (by decide) (by omega) (by omega))⟩
    · refine ⟨vssLeaf (.num (d.hundred 0)) ts, ?_, one (below100_type (hf.hundred 0) (.inl rfl))⟩
      by_cases hu : isStr (mget md b!"unit") b!"percent" = true
      · simp [drawValue, hdt, hu, isStr_str]
      · simp [drawValue, hdt, hal, isStr_str]
    · exact ⟨_, by simp [drawValue, hdt, hal, isStr_str] <;> rfl, one (below100_type (hf.hundred 0) (.inr rfl))⟩
    · exact ⟨_, by simp [drawValue, hdt, hal, isStr_str] <;> rfl, one (.string _)⟩
    · exact ⟨_, by simp [drawValue, hdt, hal, isStr_str] <;> rfl,
        arrayOf_many hf.bound (dt := b!"float") fun i => below100_type (hf.hundred i) (.inl rfl)⟩
    · exact ⟨_, by simp [drawValue, hdt, hal, isStr_str] <;> rfl, arrayOf_many hf.bound (dt := b!"string") fun i => .string _⟩
    · refine ⟨_, by simp [drawValue, hdt, hal, isStr_str] <;> rfl, arrayOf_many hf.bound (dt := b!"uint8") fun i =>
        .int _ 0 255 _ (by decide) (by omega) ?_⟩
      have := hf.upTo100 i
      omega
  | some a =>
    obtain ⟨hat, l, rfl, hne, hl⟩ := ha a hal
    have hi := hf.index l hal hne
    have hv : drawValue md ts d = .ok (some (vssLeaf l[d.index] ts)) := by
      simp only [allowedTypes, List.mem_cons, List.not_mem_nil, or_false] at hat
      rcases hat with rfl | rfl | rfl | rfl | rfl | rfl <;>
        simp [drawValue, hdt, hal, isStr_str, List.getElem?_eq_getElem hi]
    refine ⟨_, hv, .one _ _ ⟨_, rfl, hl _ (List.getElem_mem hi)⟩, fun l' h => ?_⟩
    cases h
    exact ⟨_, rfl, List.getElem_mem hi⟩

/-- C74: for an array type with allowed values a single value is drawn. -/
theorem C74_allowed_array_fails {d : Draw} (hd : d.index = 0) (ts : Int) :
    drawValue [(b!"datatype", .str b!"string[]"), (b!"allowed", .arr [.str b!"A", .str b!"B"])] ts d =
      .ok (some (vssLeaf (.str b!"A") ts)) := by
  simp [drawValue, mget, isStr, hd]

/-- C74: allowed values of small integers are not looked at. -/
theorem C74_allowed_ignored_fails {d : Draw} (hd : d.hundred 0 = F64.ofInt 5) (ts : Int) :
    drawValue [(b!"datatype", .str b!"uint8"), (b!"allowed", .arr [.int 1, .int 2])] ts d = .ok (some (vssLeaf (.int 5) ts)) := by
  have : (F64.ofInt 5).toInt64 = 5 := by decide +kernel
  simp [drawValue, mget, isStr, hd, this]

/-- C74: the largest and the smallest value are not looked at. -/
theorem C74_min_max_fails {d : Draw} (hd : d.upTo100 0 = 100) (ts : Int) :
    drawValue [(b!"datatype", .str b!"uint16"), (b!"min", .int 0), (b!"max", .int 4)] ts d = .ok (some (vssLeaf (.int 100) ts)) := by
  simp [drawValue, mget, isStr, hd]

/-- C74: for the other array types nothing is drawn; an empty map remains. -/
theorem C74_unknown_fails (d : Draw) (ts : Int) :
    drawValue [(b!"datatype", .str b!"int8[]")] ts d = .ok none ∧ placeNode none [] [b!"S"] = .ok [(b!"S", .obj [])] := by
  constructor
  · simp [drawValue, mget, isStr]
  · rfl

/-! ### Groups -/

theorem lastDot_none {s : Bytes} : lastDot s = none ↔ bDot ∉ s := by
  induction s with
  | nil => simp [lastDot]
  | cons c s ih =>
    simp only [lastDot]
    cases h : lastDot s with
    | some p => 
      have : bDot ∈ s := by
        apply Classical.byContradiction; intro hn
        rw [ih.2 hn] at h; cases h
      simp [this]
    | none =>
      have := ih.1 h
      by_cases hc : c = bDot
      · simp [hc]
      · simp [hc, this, Ne.symm hc]

theorem lastDot_join {a b : Bytes} (hb : bDot ∉ b) : lastDot (a ++ bDot :: b) = some (a, b) := by
  induction a with
  | nil => simp [lastDot, lastDot_none.2 hb]
  | cons c a ih => simp [lastDot, ih]

theorem lastDot_some {s a b : Bytes} (h : lastDot s = some (a, b)) : s = a ++ bDot :: b ∧ bDot ∉ b := by
  induction s generalizing a with
  | nil => simp [lastDot] at h
  | cons c s ih =>
    simp only [lastDot] at h
    cases hs : lastDot s with
    | some p =>
      obtain ⟨a', b'⟩ := p
      rw [hs] at h
      simp only [Option.some.injEq, Prod.mk.injEq] at h
      obtain ⟨rfl, rfl⟩ := h
      obtain ⟨rfl, h2⟩ := ih hs
      exact ⟨rfl, h2⟩
    | none =>
      rw [hs] at h
      by_cases hc : c = bDot
      · simp only [hc, if_true, Option.some.injEq, Prod.mk.injEq] at h
        obtain ⟨rfl, rfl⟩ := h
        exact ⟨by simp [hc], lastDot_none.1 hs⟩
      · simp [hc] at h

/-- A member of a group. -/
def look (g : Groups) (parent k : Bytes) : Option Js := (mget g parent).bind fun md => mget md k

theorem look_mset (g : Groups) (p k : Bytes) (v : Js) (p' k' : Bytes) :
    look (mset g p (mset ((mget g p).getD []) k v)) p' k' = if p' = p ∧ k' = k then some v else look g p' k' := by
  unfold look
  rw [mget_mset]
  by_cases hp : p' = p
  · subst hp
    rw [if_pos rfl]
    simp only [Option.bind_some, mget_mset, true_and]
    by_cases hk : k' = k
    · rw [if_pos hk, if_pos hk]
    · rw [if_neg hk, if_neg hk]
      cases mget g p' <;> rfl
  · rw [if_neg hp, if_neg (by simp [hp])]

theorem groupAll_spec (L : List (Bytes × Js)) : ∀ g : Groups, (∀ x ∈ L, bDot ∈ x.1) → (L.map (·.1)).Nodup →
    (∀ p k v, bDot ∉ k → look g p k = some v → p ++ bDot :: k ∉ L.map (·.1)) → (mkeys g).Nodup →
    (∀ p md, mget g p = some md → md ≠ []) → (∀ p md, mget g p = some md → ∀ k ∈ mkeys md, bDot ∉ k) →
    ∃ g', groupAll g L = .ok g' ∧ (mkeys g').Nodup ∧ (∀ p md, mget g' p = some md → md ≠ []) ∧
      (∀ p md, mget g' p = some md → ∀ k ∈ mkeys md, bDot ∉ k) ∧
      ∀ p k v, bDot ∉ k → (look g' p k = some v ↔ look g p k = some v ∨ (p ++ bDot :: k, v) ∈ L) := by
  induction L with
  | nil => intro g _ _ _ hn hne hd; exact ⟨g, rfl, hn, hne, hd, by simp⟩
  | cons x L ih =>
    obtain ⟨n, v⟩ := x
    intro g hdot hnd hfresh hn hne hd
    rw [List.forall_mem_cons] at hdot
    simp only [List.map_cons, List.nodup_cons] at hnd
    obtain ⟨⟨p, k⟩, hl⟩ : ∃ q, lastDot n = some q := by
      cases h : lastDot n with
      | none => exact absurd hdot.1 (lastDot_none.1 h)
      | some q => exact ⟨q, rfl⟩
    obtain ⟨rfl, hk⟩ := lastDot_some hl
    have key : ∀ {p' k' : Bytes}, bDot ∉ k' → p' ++ bDot :: k' = p ++ bDot :: k → p' = p ∧ k' = k := by
      intro p' k' hk' e
      have h1 := lastDot_join (a := p') hk'
      rw [e, lastDot_join hk] at h1
      cases h1; exact ⟨rfl, rfl⟩
    obtain ⟨g', e, h1, h2, h3, h4⟩ := ih (mset g p (mset ((mget g p).getD []) k v)) hdot.2 hnd.2
      (by
        intro p' k' v' hk' hlk
        rw [look_mset] at hlk
        by_cases hp : p' = p ∧ k' = k
        · obtain ⟨rfl, rfl⟩ := hp; exact hnd.1
        · rw [if_neg hp] at hlk
          intro hm
          exact hfresh p' k' v' hk' hlk (by simp [hm]))
      (nodup_mkeys_mset hn _ _)
      (by
        intro p' md hm
        rw [mget_mset] at hm
        by_cases hp : p' = p
        · rw [if_pos hp] at hm
          cases hm
          intro e
          have := mget_mset_self ((mget g p).getD []) k v
          rw [e] at this; cases this
        · rw [if_neg hp] at hm; exact hne p' md hm)
      (by
        intro p' md hm
        rw [mget_mset] at hm
        by_cases hp : p' = p
        · rw [if_pos hp] at hm
          cases hm
          intro k' hk'
          rw [mkeys_mset_iff] at hk'
          rcases hk' with rfl | hk'
          · exact hk
          · cases hg : mget g p with
            | none => rw [hg] at hk'; simp [mkeys] at hk'
            | some md => rw [hg] at hk'; exact hd p md hg k' hk'
        · rw [if_neg hp] at hm; exact hd p' md hm)
    refine ⟨g', by simp only [groupAll, hl]; exact e, h1, h2, h3, fun p' k' v' hk' => ?_⟩
    rw [h4 p' k' v' hk', look_mset, List.mem_cons, Prod.mk.injEq]
    by_cases hp : p' = p ∧ k' = k
    · obtain ⟨rfl, rfl⟩ := hp
      rw [if_pos ⟨rfl, rfl⟩]
      constructor
      · rintro (h | h)
        · cases h; exact .inr (.inl ⟨rfl, rfl⟩)
        · exact .inr (.inr h)
      · rintro (h | ⟨-, rfl⟩ | h)
        · exact absurd (by simp) (hfresh p' k' v' hk' h)
        · exact .inl rfl
        · exact .inr h
    · rw [if_neg hp]
      constructor
      · rintro (h | h)
        · exact .inl h
        · exact .inr (.inr h)
      · rintro (h | ⟨h, -⟩ | h)
        · exact .inl h
        · exact absurd (key hk' h) hp
        · exact .inr h

/-! ### Placing leaves -/

/-- Placing a leaf where nothing is above or below. -/
theorem placeNode_leaf {value : Js} (hv : IsVssLeaf value) (ks : List Bytes) : ∀ (m : List (Bytes × Js)), ks ≠ [] →
    b!"timestamp" ∉ ks → b!"timestamp" ∉ mkeys m → (∀ k v, mget m k = some v → Branching v) →
    (∀ ks' v', JsLeaf (.obj m) ks' v' → ¬ ks' <+: ks ∧ ¬ ks <+: ks') →
    ∃ n, placeNode (some value) m ks = .ok n ∧ n ≠ [] ∧ b!"timestamp" ∉ mkeys n ∧ (∀ k v, mget n k = some v → Branching v) ∧
      ∀ ks' v', JsLeaf (.obj n) ks' v' ↔ JsLeaf (.obj m) ks' v' ∨ ks' = ks ∧ v' = value := by
  induction ks with
  | nil => intro m h; exact absurd rfl h
  | cons k ks ih =>
    intro m _ hpl h0 hg hfree
    rw [List.mem_cons, not_or] at hpl
    have hk : k ≠ b!"timestamp" := Ne.symm hpl.1
    have ts_mset : ∀ w, b!"timestamp" ∉ mkeys (mset m k w) := by
      intro w; rw [mkeys_mset_iff]; rintro (h | h)
      · exact hk h.symm
      · exact h0 h
    have ne_mset : ∀ w, mset m k w ≠ [] := by
      intro w e
      have := mget_mset_self m k w
      rw [e] at this; cases this
    have finish : ∀ (n n' : List (Bytes × Js)), n' ≠ [] → b!"timestamp" ∉ mkeys n' → (∀ k v, mget n' k = some v → Branching v) →
        (∀ ks' v', JsLeaf (.obj n') ks' v' ↔ JsLeaf (.obj n) ks' v' ∨ ks' = ks ∧ v' = value) →
        (∀ r v', JsLeaf (.obj m) (k :: r) v' ↔ JsLeaf (.obj n) r v') →
        mset m k (.obj n') ≠ [] ∧ b!"timestamp" ∉ mkeys (mset m k (.obj n')) ∧
          (∀ k' v, mget (mset m k (.obj n')) k' = some v → Branching v) ∧
          ∀ ks' v', JsLeaf (.obj (mset m k (.obj n'))) ks' v' ↔ JsLeaf (.obj m) ks' v' ∨ ks' = k :: ks ∧ v' = value := by
      intro n n' hn1 hn2 hn3 hn4 hmn
      refine ⟨ne_mset _, ts_mset _, branching_mset hg (.obj n' hn1 hn2 hn3), fun ks' v' => ?_⟩
      rw [leaf_mset h0 hk]
      constructor
      · rintro ⟨k', r, rfl, h | h⟩
        · obtain ⟨rfl, h⟩ := h
          rw [hn4] at h
          rcases h with h | ⟨rfl, rfl⟩
          · exact .inl ((hmn r v').2 h)
          · exact .inr ⟨rfl, rfl⟩
        · exact .inl h.2
      · rintro (h | ⟨rfl, rfl⟩)
        · cases ks' with
          | nil => rw [jsLeaf_nil] at h; exact absurd (h.2 m rfl) h0
          | cons k' r =>
            refine ⟨k', r, rfl, ?_⟩
            by_cases hkk : k' = k
            · subst hkk; exact .inl ⟨rfl, (hn4 r v').2 (.inl ((hmn r v').1 h))⟩
            · exact .inr ⟨hkk, h⟩
        · exact ⟨k, ks, rfl, .inl ⟨rfl, (hn4 ks v').2 (.inr ⟨rfl, rfl⟩)⟩⟩
    rw [placeNode]
    cases hm : mget m k with
    | none =>
      by_cases hks : ks = []
      · subst hks
        simp only [if_true, Option.getD_some]
        refine ⟨_, rfl, ne_mset _, ts_mset _, branching_mset hg (.leaf _ hv), fun ks' v' => ?_⟩
        rw [leaf_mset h0 hk]
        constructor
        · rintro ⟨k', r, rfl, h | h⟩
          · obtain ⟨rfl, h⟩ := h
            cases r with
            | nil => rw [jsLeaf_nil] at h; exact .inr ⟨rfl, h.1.symm⟩
            | cons a r =>
              rw [jsLeaf_cons] at h
              obtain ⟨n, _, e, hn, _⟩ := h
              exact absurd (hv n e) hn
          · exact .inl h.2
        · rintro (h | ⟨rfl, rfl⟩)
          · cases ks' with
            | nil => rw [jsLeaf_nil] at h; exact absurd (h.2 m rfl) h0
            | cons k' r =>
              refine ⟨k', r, rfl, .inr ⟨?_, h⟩⟩
              rintro rfl
              exact (hfree _ _ h).2 (by simp)
          · exact ⟨k, [], rfl, .inl ⟨rfl, .here _ hv⟩⟩
      · simp only [if_neg hks]
        have hnil : ∀ ks' v', ¬ JsLeaf (.obj []) ks' v' := jsLeaf_empty
        obtain ⟨n', e, h1, h2, h3, h4⟩ := ih [] hks hpl.2 (by simp [mkeys]) (by intro k v h; cases h)
          (fun ks' v' h => absurd h (hnil ks' v'))
        simp only [e]
        refine ⟨_, rfl, finish [] n' h1 h2 h3 h4 fun r v' => ?_⟩
        constructor
        · intro h
          rw [jsLeaf_cons] at h
          obtain ⟨_, _, e, -, hx, _⟩ := h
          cases e; rw [hm] at hx; cases hx
        · intro h; exact absurd h (hnil _ _)
    | some x =>
      have hx : ¬ IsVssLeaf x := by
        intro hl
        exact (hfree [k] x (.step m k x [] x h0 hm (.here x hl))).1 (by simp)
      cases x with
      | obj n =>
        have hnt : b!"timestamp" ∉ mkeys n := fun h => hx fun n' e => by cases e; exact h
        have hmn : ∀ r v', JsLeaf (.obj m) (k :: r) v' ↔ JsLeaf (.obj n) r v' := by
          intro r v'
          rw [jsLeaf_cons]
          constructor
          · rintro ⟨_, w, e, -, hw, h⟩
            cases e; rw [hm] at hw; cases hw; exact h
          · intro h; exact ⟨m, _, rfl, h0, hm, h⟩
        by_cases hks : ks = []
        · exfalso
          subst hks
          obtain ⟨r, v', h⟩ := branching_leaf (hg k _ hm)
          exact (hfree _ _ ((hmn r v').2 h)).2 (by simp)
        · have hgn : ∀ k v, mget n k = some v → Branching v := by
            have := hg k _ hm
            cases this with
            | leaf _ h => exact absurd h hx
            | obj _ _ _ h => exact h
          obtain ⟨n', e, h1, h2, h3, h4⟩ := ih n hks hpl.2 hnt hgn fun ks' v' h => by
            have := hfree _ _ ((hmn ks' v').2 h)
            simpa [List.cons_prefix_cons] using this
          simp only [if_neg hks, e]
          exact ⟨_, rfl, finish n n' h1 h2 h3 h4 hmn⟩
      | _ => exact absurd (by intro m e; cases e) hx

/-- Placing leaves one after the other. -/
def placeAll (m : List (Bytes × Js)) : List (List Bytes × Js) → Res (List (Bytes × Js))
  | [] => .ok m
  | (ks, v) :: r => (placeNode (some v) m ks).bind fun m => placeAll m r

theorem placeAll_leaves (L : List (List Bytes × Js)) : ∀ (m : List (Bytes × Js)),
    (∀ x ∈ L, x.1 ≠ [] ∧ b!"timestamp" ∉ x.1 ∧ IsVssLeaf x.2) →
    L.Pairwise (fun x y => ¬ x.1 <+: y.1 ∧ ¬ y.1 <+: x.1) → b!"timestamp" ∉ mkeys m → (∀ k v, mget m k = some v → Branching v) →
    (∀ x ∈ L, ∀ ks' v', JsLeaf (.obj m) ks' v' → ¬ ks' <+: x.1 ∧ ¬ x.1 <+: ks') →
    ∃ n, placeAll m L = .ok n ∧ b!"timestamp" ∉ mkeys n ∧ (∀ k v, mget n k = some v → Branching v) ∧
      ∀ ks' v', JsLeaf (.obj n) ks' v' ↔ JsLeaf (.obj m) ks' v' ∨ (ks', v') ∈ L := by
  induction L with
  | nil => intro m _ _ h0 hg _; exact ⟨m, rfl, h0, hg, by simp⟩
  | cons x L ih =>
    obtain ⟨ks, v⟩ := x
    intro m hL hP h0 hg hfree
    rw [List.forall_mem_cons] at hL hfree
    rw [List.pairwise_cons] at hP
    obtain ⟨hne, hks, hv⟩ := hL.1
    obtain ⟨n, e, -, h1, h2, h3⟩ := placeNode_leaf hv ks m hne hks h0 hg hfree.1
    obtain ⟨n', e', h1', h2', h3'⟩ := ih n hL.2 hP.2 h1 h2 fun y hy ks' v' h => by
      rw [h3] at h
      rcases h with h | ⟨rfl, rfl⟩
      · exact hfree.2 y hy ks' v' h
      · exact ⟨(hP.1 y hy).1, (hP.1 y hy).2⟩
    refine ⟨n', ?_, h1', h2', fun ks' v' => ?_⟩
    · simp only [placeAll, e]; exact e'
    · rw [h3', h3, List.mem_cons, Prod.mk.injEq, or_assoc]

/-- Every map inside the data satisfies a condition. -/
def AllMaps (Q : List (Bytes × Js) → Prop) (d : Js) : Prop := ∀ ks m, JsAt d ks (.obj m) → Q m

theorem allMaps_obj {Q : List (Bytes × Js) → Prop} {m : List (Bytes × Js)} :
    AllMaps Q (.obj m) ↔ Q m ∧ ∀ k v, mget m k = some v → AllMaps Q v := by
  constructor
  · intro h
    exact ⟨h [] m (.here _), fun k v hv ks n hn => h (k :: ks) n (.step m k v ks _ hv hn)⟩
  · rintro ⟨h1, h2⟩ ks n hn
    cases ks with
    | nil => rw [jsAt_nil] at hn; cases hn; exact h1
    | cons k ks =>
      rw [jsAt_cons] at hn
      obtain ⟨_, w, e, hw, h⟩ := hn
      cases e
      exact h2 k w hw ks n h

theorem allMaps_mset {Q : List (Bytes × Js) → Prop} {m : List (Bytes × Js)} {k : Bytes} {w : Js} (hm : AllMaps Q (.obj m))
    (hw : AllMaps Q w) (hQ : Q (mset m k w)) : AllMaps Q (.obj (mset m k w)) := by
  rw [allMaps_obj] at hm ⊢
  refine ⟨hQ, fun k' v hv => ?_⟩
  rw [mget_mset] at hv
  by_cases h : k' = k
  · rw [if_pos h] at hv; cases hv; exact hw
  · rw [if_neg h] at hv; exact hm.2 k' v hv

theorem placeNode_maps {Q : List (Bytes × Js) → Prop} (h0 : Q []) {value : Js} (hv : AllMaps Q value) (ks : List Bytes) :
    (∀ m k w, k ∈ ks → Q m → Q (mset m k w)) → ∀ m n, AllMaps Q (.obj m) → placeNode (some value) m ks = .ok n →
    AllMaps Q (.obj n) := by
  have h0' : AllMaps Q (.obj []) := allMaps_obj.2 ⟨h0, by intro k v h; cases h⟩
  induction ks with
  | nil => intro _ m n hm h; cases h; exact hm
  | cons k ks ih =>
    intro hQ m n hm h
    have hQm := (allMaps_obj.1 hm).1
    have hset : ∀ w, AllMaps Q w → AllMaps Q (.obj (mset m k w)) := fun w hw => allMaps_mset hm hw (hQ m k w (by simp) hQm)
    have ih := ih fun m k w hk => hQ m k w (by simp [hk])
    rw [placeNode] at h
    cases hk : mget m k with
    | none =>
      simp only [hk] at h
      by_cases hks : ks = []
      · rw [if_pos hks] at h; cases h; exact hset _ hv
      · rw [if_neg hks] at h
        cases hp : placeNode (some value) [] ks with
        | ok n' => rw [hp] at h; cases h; exact hset _ (ih [] n' h0' hp)
        | err => rw [hp] at h; cases h
        | panic => rw [hp] at h; cases h
    | some x =>
      have hx := (allMaps_obj.1 hm).2 k x hk
      cases x with
      | obj n' =>
        simp only [hk] at h
        by_cases hks : ks = []
        · rw [if_pos hks] at h; cases h
          exact hset _ (allMaps_mset hx hv (hQ n' k _ (by simp) (allMaps_obj.1 hx).1))
        · rw [if_neg hks] at h
          cases hp : placeNode (some value) n' ks with
          | ok n'' => rw [hp] at h; cases h; exact hset _ (ih n' n'' hx hp)
          | err => rw [hp] at h; cases h
          | panic => rw [hp] at h; cases h
      | _ => simp [hk] at h

theorem placeAll_maps {Q : List (Bytes × Js) → Prop} (h0 : Q []) (L : List (List Bytes × Js)) :
    (∀ x ∈ L, AllMaps Q x.2 ∧ ∀ m k w, k ∈ x.1 → Q m → Q (mset m k w)) → ∀ m n, AllMaps Q (.obj m) → placeAll m L = .ok n →
    AllMaps Q (.obj n) := by
  induction L with
  | nil => intro _ m n hm h; cases h; exact hm
  | cons x L ih =>
    obtain ⟨ks, v⟩ := x
    intro hL m n hm h
    rw [List.forall_mem_cons] at hL
    simp only [placeAll] at h
    cases hp : placeNode (some v) m ks with
    | ok n' => rw [hp] at h; exact ih hL.2 n' n (placeNode_maps h0 hL.1.1 ks hL.1.2 m n' hm hp) h
    | err => rw [hp] at h; cases h
    | panic => rw [hp] at h; cases h

/-! ### The signals of a catalogue -/

theorem jsAt_append {d v : Js} {ps ks : List Bytes} : JsAt d (ps ++ ks) v ↔ ∃ w, JsAt d ps w ∧ JsAt w ks v := by
  induction ps generalizing d with
  | nil =>
    constructor
    · intro h; exact ⟨d, .here _, h⟩
    · rintro ⟨w, h, h'⟩; rw [jsAt_nil] at h; subst h; exact h'
  | cons k ps ih =>
    rw [List.cons_append, jsAt_cons]
    constructor
    · rintro ⟨m, w, rfl, hw, h⟩
      obtain ⟨x, h1, h2⟩ := ih.1 h
      exact ⟨x, .step m k w ps x hw h1, h2⟩
    · rintro ⟨x, h1, h2⟩
      rw [jsAt_cons] at h1
      obtain ⟨m, w, rfl, hw, h⟩ := h1
      exact ⟨m, w, rfl, hw, ih.2 ⟨x, h, h2⟩⟩

theorem jsLeaf_iff_at {d : Js} (h : ∀ ks m, JsAt d ks (.obj m) → b!"timestamp" ∉ mkeys m) (ks : List Bytes) (v : Js) :
    JsLeaf d ks v ↔ JsAt d ks v ∧ ¬ IsMap v := by
  induction ks generalizing d with
  | nil =>
    rw [jsLeaf_nil, jsAt_nil]
    constructor
    · rintro ⟨rfl, hl⟩
      refine ⟨rfl, ?_⟩
      rintro ⟨m, rfl⟩
      exact h [] m (.here _) (hl m rfl)
    · rintro ⟨rfl, hm⟩
      exact ⟨rfl, fun m e => absurd ⟨m, e⟩ hm⟩
  | cons k ks ih =>
    rw [jsLeaf_cons, jsAt_cons]
    constructor
    · rintro ⟨m, w, rfl, -, hw, hl⟩
      have := (ih fun ks n hn => h (k :: ks) n (.step m k w ks _ hw hn)).1 hl
      exact ⟨⟨m, w, rfl, hw, this.1⟩, this.2⟩
    · rintro ⟨⟨m, w, rfl, hw, hl⟩, hm⟩
      exact ⟨m, w, rfl, h [] m (.here _), hw, (ih fun ks n hn => h (k :: ks) n (.step m k w ks _ hw hn)).2 ⟨hl, hm⟩⟩

/-- What is needed of a catalogue below the top. -/
def PureBelow (d : Js) : Prop := ChildrenAlone d ∧ NodupKeys d ∧
  (∀ ks m v, JsAt d ks (.obj m) → mget m b!"children" = some v → IsMap v) ∧
  ∀ ks m, JsAt d ks (.obj m) → (∀ p ∈ m, IsMap p.2) ∨ ∀ p ∈ m, ¬ IsMap p.2

theorem PureBelow.member {m : List (Bytes × Js)} (h : PureBelow (.obj m)) {k : Bytes} {v : Js} (hv : mget m k = some v) :
    PureBelow v :=
  ⟨h.1.member hv, h.2.1.member hv, fun ks n w hn => h.2.2.1 (k :: ks) n w (.step m k v ks _ hv hn),
    fun ks n hn => h.2.2.2 (k :: ks) n (.step m k v ks _ hv hn)⟩

/-- No signal has the name of another, nor a name below it. -/
theorem signal_prefix (ks : List Bytes) : ∀ {d : Js} {ks' : List Bytes} {md md' : List (Bytes × Js)}, PureBelow d →
    Signal d ks md → Signal d ks' md' → nameKeys ks <+: nameKeys ks' → ks = ks' := by
  have stop : ∀ {d : Js} {md md' : List (Bytes × Js)} {ks : List Bytes}, Signal d [] md → JsAt d ks (.obj md') → ks = [] := by
    intro d md md' ks h h'
    have hd := h.1
    rw [jsAt_nil] at hd
    subst hd
    cases ks with
    | nil => rfl
    | cons k ks =>
      exfalso
      rw [jsAt_cons] at h'
      obtain ⟨_, w, e, hw, h'⟩ := h'
      cases e
      have hnm := h.2.2 _ (mget_mem hw)
      cases h' with
      | here => exact hnm ⟨_, rfl⟩
      | step => exact hnm ⟨_, rfl⟩
  induction ks with
  | nil => intro d ks' md md' _ h h' _; exact (stop h h'.1).symm
  | cons k ks ih =>
    intro d ks' md md' hp h h' hpre
    cases ks' with
    | nil => exact stop h' h.1
    | cons k' ks' =>
      have h1 := h.1
      have h2 := h'.1
      rw [jsAt_cons] at h1 h2
      obtain ⟨m, w, rfl, hw, h1⟩ := h1
      obtain ⟨_, w', e, hw', h2⟩ := h2
      cases e
      have hkk : k = k' := by
        by_cases hch : b!"children" ∈ mkeys m
        · have hl := hp.1 [] m (.here _) hch
          match m, hl with
          | [(c, x)], _ =>
            simp only [mget_cons] at hw hw'
            have e1 : c = k := by
              apply Classical.byContradiction; intro hn
              rw [if_neg hn] at hw; cases hw
            have e2 : c = k' := by
              apply Classical.byContradiction; intro hn
              rw [if_neg hn] at hw'; cases hw'
            exact e1.symm.trans e2
        · have hk : k ≠ b!"children" := by rintro rfl; exact hch (mget_isSome.1 ⟨w, hw⟩)
          have hk' : k' ≠ b!"children" := by rintro rfl; exact hch (mget_isSome.1 ⟨w', hw'⟩)
          simp only [nameKeys, List.filter_cons, hk, hk', ne_eq, not_false_eq_true, decide_true, if_true] at hpre
          rw [List.cons_prefix_cons] at hpre
          exact hpre.1
      subst hkk
      rw [hw] at hw'; cases hw'
      have := ih (hp.member hw) ⟨h1, h.2⟩ ⟨h2, h'.2⟩ (by
        simp only [nameKeys, List.filter_cons] at hpre
        by_cases hk : k = b!"children"
        · simpa [hk, nameKeys] using hpre
        · simp only [hk, ne_eq, not_false_eq_true, decide_true, if_true] at hpre
          rw [List.cons_prefix_cons] at hpre
          exact hpre.2)
      rw [this]

/-- C74: no two signals have the same name, and no signal has a name below that of another. -/
theorem C74_names {d : Js} (hc : Catalogue d) {ks ks' : List Bytes} {md md' : List (Bytes × Js)} (h : Signal d ks md)
    (h' : Signal d ks' md') (hp : nameKeys ks <+: nameKeys ks') : ks = ks' :=
  signal_prefix ks ⟨hc.alone, hc.nodup, hc.children, hc.pure⟩ h h' hp

theorem leafName_nameKeys {k : Bytes} (ks : List Bytes) (h : k ≠ b!"children") :
    leafName (k :: ks) = joinWith bDot (nameKeys (k :: ks)) := by
  have : nameKeys (k :: ks) = k :: nameKeys ks := by simp [nameKeys, h]
  rw [this, ← leafName_join _ (by
    intro a ha
    rcases List.mem_cons.1 ha with rfl | ha
    · exact h
    · simpa using (List.mem_filter.1 ha).2)]
  simp [leafName, nameKeys]

theorem drawValue_congr {md md' : List (Bytes × Js)} (h : ∀ k, mget md k = mget md' k) (ts : Int) (d : Draw) :
    drawValue md ts d = drawValue md' ts d := by
  simp only [drawValue, h]

theorem generateAll_place (ts : Int) (draw : Bytes → Draw) (value : Bytes → Js) (g : Groups) : ∀ m,
    (∀ x ∈ g, (draw x.1).skip = false → drawValue x.2 ts (draw x.1) = .ok (some (value x.1))) →
    generateAll ts draw m g = placeAll m ((g.filter fun x => !(draw x.1).skip).map fun x => (split bDot x.1, value x.1)) := by
  induction g with
  | nil => intro m _; rfl
  | cons x g ih =>
    obtain ⟨n, md⟩ := x
    intro m h
    rw [List.forall_mem_cons] at h
    simp only [generateAll]
    cases hs : (draw n).skip with
    | true => simp [hs, ih m h.2]
    | false =>
      simp only [hs, h.1 hs, Bool.false_eq_true, if_false, List.filter_cons, Bool.not_false, if_true, List.map_cons, placeAll,
        Res.bind]
      cases placeNode (some (value n)) m (split bDot n) with
      | ok m' => exact ih m' h.2
      | err => rfl
      | panic => rfl

theorem leafName_snoc {ps : List Bytes} (hne : ps ≠ []) {k : Bytes} (hk : k ≠ b!"children") :
    leafName (ps ++ [k]) = leafName ps ++ bDot :: k := by
  cases ps with
  | nil => exact absurd rfl hne
  | cons a ps => simp [leafName, hk]

theorem snoc_inj {a b k l : Bytes} (hk : bDot ∉ k) (hl : bDot ∉ l) (h : a ++ bDot :: k = b ++ bDot :: l) : a = b ∧ k = l := by
  have h1 := lastDot_join (a := a) hk
  rw [h, lastDot_join hl] at h1
  cases h1; exact ⟨rfl, rfl⟩

/-- The leaf nodes of a catalogue are the members of its signals. -/
theorem catalogue_leaf {d : Js} (hc : Catalogue d) (n : Bytes) (v : Js) : (n, v) ∈ leafNodes d ↔
    ∃ ps md k, Signal d ps md ∧ mget md k = some v ∧ n = leafName ps ++ bDot :: k := by
  obtain ⟨m, rfl, hch, hm⟩ := hc.map
  have hts : ∀ ks n, JsAt (.obj m) ks (.obj n) → b!"timestamp" ∉ mkeys n := fun ks n h ht => (hc.keys ks n h _ ht).2 rfl
  rw [C72_exact ⟨m, rfl⟩ hc.nodup (fun n e => by cases e; exact fun h => (hc.keys [] m (.here _) _ h).1.1 rfl)]
  constructor
  · rintro ⟨ks, hl, rfl⟩
    rw [jsLeaf_iff_at hts] at hl
    obtain ⟨hat, hnm⟩ := hl
    rcases List.eq_nil_or_concat ks with rfl | ⟨ps, k, rfl⟩
    · rw [jsAt_nil] at hat; exact absurd ⟨m, hat.symm⟩ hnm
    · rw [List.concat_eq_append] at hat ⊢
      rw [jsAt_append] at hat
      obtain ⟨w, hw, hk⟩ := hat
      rw [jsAt_cons] at hk
      obtain ⟨md, x, rfl, hx, hk⟩ := hk
      rw [jsAt_nil] at hk
      subst hk
      have hk : k ≠ b!"children" := by
        rintro rfl; exact hnm (hc.children ps md x hw hx)
      have hne : ps ≠ [] := by
        rintro rfl
        rw [jsAt_nil] at hw
        cases hw
        exact hnm (hm _ (mget_mem hx))
      refine ⟨ps, md, k, ⟨hw, ?_, ?_⟩, hx, leafName_snoc hne hk⟩
      · rintro rfl; cases hx
      · rcases hc.pure ps md hw with h | h
        · exact absurd (h _ (mget_mem hx)) hnm
        · exact h
  · rintro ⟨ps, md, k, hs, hk, rfl⟩
    have hnm := hs.2.2 _ (mget_mem hk)
    refine ⟨ps ++ [k], (jsLeaf_iff_at hts _ _).2 ⟨jsAt_append.2 ⟨_, hs.1, .step md k v [] v hk (.here _)⟩, hnm⟩, ?_⟩
    rw [leafName_snoc]
    · rintro rfl
      have := hs.1
      rw [jsAt_nil] at this
      cases this
      exact hnm (hm _ (mget_mem hk))
    · rintro rfl; exact hnm (hc.children ps md v hs.1 hk)

theorem signal_head {d : Js} (hc : Catalogue d) {ps : List Bytes} {md : List (Bytes × Js)} (h : Signal d ps md) :
    ∃ k ks, ps = k :: ks ∧ k ≠ b!"children" := by
  obtain ⟨m, rfl, hch, hm⟩ := hc.map
  cases ps with
  | nil =>
    exfalso
    have := h.1
    rw [jsAt_nil] at this
    cases this
    obtain ⟨p, hp⟩ := List.exists_mem_of_ne_nil _ h.2.1
    exact h.2.2 p hp (hm p hp)
  | cons k ks =>
    refine ⟨k, ks, rfl, ?_⟩
    rintro rfl
    have := h.1
    rw [jsAt_cons] at this
    obtain ⟨_, w, e, hw, -⟩ := this
    cases e
    exact hch (mget_isSome.1 ⟨w, hw⟩)

theorem jsAt_keys {P : Bytes → Prop} {d v : Js} {ks : List Bytes} (h : JsAt d ks v) (hk : KeysAre P d) : ∀ k ∈ ks, P k := by
  induction h with
  | here => simp
  | step m k w ks v hw _ ih =>
    rw [List.forall_mem_cons]
    exact ⟨hk [] m (.here _) k (mget_isSome.1 ⟨w, hw⟩), ih (hk.member hw)⟩

theorem split_leafName {d : Js} (hc : Catalogue d) {ps : List Bytes} {md : List (Bytes × Js)} (h : Signal d ps md) :
    split bDot (leafName ps) = nameKeys ps ∧ nameKeys ps ≠ [] ∧
      ∀ k ∈ nameKeys ps, DotKey k ∧ k ≠ b!"timestamp" ∧ k ≠ b!"children" := by
  obtain ⟨k, ks, rfl, hk⟩ := signal_head hc h
  have hkeys := jsAt_keys h.1 hc.keys
  have hne : nameKeys (k :: ks) ≠ [] := by simp [nameKeys, hk]
  have hall : ∀ a ∈ nameKeys (k :: ks), DotKey a ∧ a ≠ b!"timestamp" ∧ a ≠ b!"children" := by
    intro a ha
    have := List.mem_filter.1 ha
    exact ⟨(hkeys a this.1).1, (hkeys a this.1).2, by simpa using this.2⟩
  refine ⟨?_, hne, hall⟩
  rw [leafName_nameKeys ks hk]
  exact split_joinWith bDot _ hne fun a ha => (hall a ha).1.2

theorem leafName_inj {d : Js} (hc : Catalogue d) {ps ps' : List Bytes} {md md' : List (Bytes × Js)} (h : Signal d ps md)
    (h' : Signal d ps' md') (e : leafName ps = leafName ps') : ps = ps' ∧ md = md' := by
  have : ps = ps' := C74_names hc h h' (by rw [← (split_leafName hc h).1, ← (split_leafName hc h').1, e]; exact List.prefix_refl _)
  subst this
  refine ⟨rfl, ?_⟩
  have det : ∀ {ks : List Bytes} {d v w : Js}, JsAt d ks v → JsAt d ks w → v = w := by
    intro ks
    induction ks with
    | nil => intro d v w h1 h2; rw [jsAt_nil] at h1 h2; exact h1.symm.trans h2
    | cons k ks ih =>
      intro d v w h1 h2
      rw [jsAt_cons] at h1 h2
      obtain ⟨m, x, rfl, hx, h1⟩ := h1
      obtain ⟨_, y, e, hy, h2⟩ := h2
      cases e
      rw [hx] at hy; cases hy
      exact ih h1 h2
  have := det h.1 h'.1
  cases this; rfl

/-- The groups made of the leaf nodes are the signals. -/
theorem catalogue_groups {d : Js} (hc : Catalogue d) : ∃ g, groupAll [] (leafNodes d) = .ok g ∧ (mkeys g).Nodup ∧
    (∀ n md', mget g n = some md' → ∃ ps md, Signal d ps md ∧ n = leafName ps ∧ ∀ k, mget md' k = mget md k) ∧
    ∀ ps md, Signal d ps md → ∃ md', mget g (leafName ps) = some md' := by
  have hleaf := catalogue_leaf hc
  have hkd : ∀ {ps md k v}, Signal d ps md → mget md k = some v → bDot ∉ k := by
    intro ps md k v hs hk
    exact (hc.keys ps md hs.1 k (mget_isSome.1 ⟨v, hk⟩)).1.2
  obtain ⟨g, e, h1, h2, h3, h4⟩ := groupAll_spec (leafNodes d) [] (by
      rintro ⟨n, v⟩ hx
      obtain ⟨ps, md, k, -, -, rfl⟩ := (hleaf n v).1 hx
      simp)
    (C72_distinct_partial hc.nodup (fun ks m h k hk => (hc.keys ks m h k hk).1) hc.alone)
    (by intro p k v _ h; cases h) (by simp [mkeys]) (by intro p md h; cases h) (by intro p md h; cases h)
  refine ⟨g, e, h1, fun n md' hn => ?_, fun ps md hs => ?_⟩
  · obtain ⟨q, hq⟩ := List.exists_mem_of_ne_nil _ (h2 n md' hn)
    obtain ⟨v, hv⟩ := mget_isSome.2 (List.mem_map.2 ⟨q, hq, rfl⟩ : q.1 ∈ mkeys md')
    have hqd := h3 n md' hn q.1 (List.mem_map.2 ⟨q, hq, rfl⟩)
    have hlook : look g n q.1 = some v := by simp [look, hn, hv]
    have hmem := (h4 n q.1 v hqd).1 hlook
    rcases hmem with h | hmem
    · cases h
    obtain ⟨ps, md, k, hs, hk, e1⟩ := (hleaf _ _).1 hmem
    obtain ⟨rfl, rfl⟩ := snoc_inj hqd (hkd hs hk) e1
    refine ⟨ps, md, hs, rfl, fun k => ?_⟩
    by_cases hkdot : bDot ∈ k
    · have n1 : mget md' k = none := by
        cases hm : mget md' k with
        | none => rfl
        | some x => exact absurd hkdot (h3 _ md' hn k (mget_isSome.1 ⟨x, hm⟩))
      have n2 : mget md k = none := by
        cases hm : mget md k with
        | none => rfl
        | some x => exact absurd hkdot (hkd hs hm)
      rw [n1, n2]
    · have hiff : ∀ x, mget md' k = some x ↔ mget md k = some x := by
        intro x
        have : look g (leafName ps) k = mget md' k := by simp [look, hn]
        rw [← this, h4 _ k x hkdot]
        constructor
        · rintro (h | h)
          · cases h
          · obtain ⟨ps', md'', k', hs', hk', e'⟩ := (hleaf _ _).1 h
            obtain ⟨e1, rfl⟩ := snoc_inj hkdot (hkd hs' hk') e'
            obtain ⟨rfl, rfl⟩ := leafName_inj hc hs hs' e1
            exact hk'
        · intro h; exact .inr ((hleaf _ _).2 ⟨ps, md, k, hs, h, rfl⟩)
      cases hm : mget md k with
      | some x => exact (hiff x).2 hm
      | none =>
        cases hm' : mget md' k with
        | none => rfl
        | some x => rw [(hiff x).1 hm'] at hm; cases hm
  · obtain ⟨q, hq⟩ := List.exists_mem_of_ne_nil _ hs.2.1
    obtain ⟨v, hv⟩ := mget_isSome.2 (List.mem_map.2 ⟨q, hq, rfl⟩ : q.1 ∈ mkeys md)
    have := (h4 (leafName ps) q.1 v (hkd hs hv)).2 (.inr ((hleaf _ _).2 ⟨ps, md, q.1, hs, hv, rfl⟩))
    unfold look at this
    cases hg : mget g (leafName ps) with
    | none => rw [hg] at this; cases this
    | some md' => exact ⟨md', rfl⟩

theorem Measured.keys {ts : Int} {v : Js} (h : Measured JsScalar ts v) {ks : List Bytes} {n : List (Bytes × Js)}
    (hn : JsAt v ks (.obj n)) : mkeys n = [b!"value", b!"timestamp"] := by
  obtain ⟨x, rfl, hx⟩ := h
  rcases jsAt_cases hn with ⟨e, -⟩ | ⟨p, hp, r, -, h⟩
  · cases e; rfl
  · exfalso
    simp only [List.mem_cons, List.not_mem_nil, or_false] at hp
    rcases hp with rfl | rfl
    · cases hx <;> cases h
    · cases h

theorem Datum.keys {v : Js} (h : Datum v) {ks : List Bytes} {n : List (Bytes × Js)}
    (hn : JsAt v ks (.obj n)) : mkeys n = [b!"value", b!"timestamp"] := by
  cases h with
  | one _ _ h => exact h.keys hn
  | many => cases hn

theorem Datum.leaf {v : Js} (h : Datum v) : IsVssLeaf v := by
  cases h with
  | one _ _ h => obtain ⟨x, rfl, -⟩ := h; intro m e; cases e; simp [mkeys]
  | many => intro m e; cases e

theorem arrayOf_datum (bound : Nat → Nat) (ts : Int) {f : Nat → Js} (hf : ∀ i, JsScalar (f i)) : Datum (arrayOf bound ts f) := by
  refine .many _ fun v hv => ?_
  obtain ⟨i, -, rfl⟩ := List.mem_map.1 hv
  exact ⟨ts, f i, rfl, hf i⟩

/-- Something is drawn for every signal with a known datatype and scalar allowed values. -/
theorem drawValue_datum {md : List (Bytes × Js)} (hd : Drawable md) (ts : Int) {d : Draw} (hf : d.Fair md) :
    ∃ v, drawValue md ts d = .ok (some v) ∧ Datum v := by
  obtain ⟨⟨dt, hdt, hk⟩, ha⟩ := hd
  have one : ∀ {x : Js}, JsScalar x → Datum (vssLeaf x ts) := fun h => .one _ ts ⟨_, rfl, h⟩
  simp only [drawValue, hdt, isStr_str]
  by_cases h1 : (dt == b!"boolean") = true
  · rw [if_pos h1]; exact ⟨_, rfl, one (.bool _)⟩
  rw [if_neg h1]
  by_cases h2 : (dt == b!"int8" || dt == b!"uint8" || dt == b!"float" && isStr (mget md b!"unit") b!"percent") = true
  · rw [if_pos h2]
    by_cases h3 : (dt == b!"float") = true
    · rw [if_pos h3]; exact ⟨_, rfl, one (.num _)⟩
    · rw [if_neg h3]; exact ⟨_, rfl, one (.int _)⟩
  rw [if_neg h2]
  cases hal : mget md b!"allowed" with
  | some a =>
    obtain ⟨l, rfl, hne, hl⟩ := ha a hal
    have hi := hf.index l hal hne
    simp only [List.getElem?_eq_getElem hi]
    exact ⟨_, rfl, one (hl _ (List.getElem_mem hi))⟩
  | none =>
    simp only [knownTypes, List.mem_cons, List.not_mem_nil, or_false] at hk
    rcases hk with rfl | rfl | rfl | rfl | rfl | rfl | rfl | rfl | rfl | rfl | rfl | rfl | rfl
    · exact absurd rfl h1
    · exact absurd rfl h2
    · exact absurd rfl h2
    · exact ⟨_, rfl, one (.int _)⟩
    · exact ⟨_, rfl, one (.int _)⟩
    · exact ⟨_, rfl, one (.int _)⟩
    · exact ⟨_, rfl, one (.int _)⟩
    · exact ⟨_, rfl, one (.num _)⟩
    · exact ⟨_, rfl, one (.num _)⟩
    · exact ⟨_, rfl, one (.str _)⟩
    · exact ⟨_, rfl, arrayOf_datum _ _ fun _ => .num _⟩
    · exact ⟨_, rfl, arrayOf_datum _ _ fun _ => .str _⟩
    · exact ⟨_, rfl, arrayOf_datum _ _ fun _ => .int _⟩

/-- Maps that branch down to readings have no empty map inside. -/
theorem noEmptyMap_of_branching {m : List (Bytes × Js)} (h0 : b!"timestamp" ∉ mkeys m)
    (hb : ∀ k v, mget m k = some v → Branching v) (hd : ∀ ks v, JsLeaf (.obj m) ks v → Datum v) : NoEmptyMap (.obj m) := by
  have key : ∀ v, Branching v → (∀ ks w, JsLeaf v ks w → Datum w) → ∀ ks, ¬ JsAt v ks (.obj []) := by
    intro v hv
    induction hv with
    | leaf v hl =>
      intro hd ks h
      have := (hd [] v (.here v hl)).keys h
      cases this
    | obj m hne h0 _ ih =>
      intro hd ks h
      cases ks with
      | nil => rw [jsAt_nil] at h; cases h; exact hne rfl
      | cons k ks =>
        rw [jsAt_cons] at h
        obtain ⟨_, w, e, hw, h⟩ := h
        cases e
        exact ih k w hw (fun ks x hx => hd (k :: ks) x (.step m k w ks x h0 hw hx)) ks h
  intro ks h
  cases ks with
  | nil => rfl
  | cons k ks =>
    rw [jsAt_cons] at h
    obtain ⟨_, w, e, hw, h⟩ := h
    cases e
    exact absurd h (key w (hb k w hw) (fun ks x hx => hd (k :: ks) x (.step m k w ks x h0 hw hx)) ks)

/-- C74: whatever is drawn and in whatever order, the data generated has exactly the signals that are not left out, each at
its place with the value drawn, and no empty maps. -/
theorem C74_signals_partial {d : Js} (hc : Catalogue d) {order : Groups → Groups} (ho : ∀ g, (order g).Perm g) (ts : Int)
    {draw : Bytes → Draw} (hs : ∀ ks md, Signal d ks md → Drawable md ∧ (draw (leafName ks)).Fair md) :
    ∃ r, generate order ts draw d = .ok r ∧ VehicleData r ∧ NoEmptyMap (.obj r) ∧ ∀ ps v, JsLeaf (.obj r) ps v ↔
      ∃ ks md, Signal d ks md ∧ ps = nameKeys ks ∧ (draw (leafName ks)).skip = false ∧
        drawValue md ts (draw (leafName ks)) = .ok (some v) := by
  obtain ⟨g, hg, hgn, hg1, hg2⟩ := catalogue_groups hc
  let value : Bytes → Js := fun n =>
    match (mget g n).map fun md => drawValue md ts (draw n) with
    | some (.ok (some v)) => v
    | _ => .null
  have hval : ∀ {ks md}, Signal d ks md → drawValue md ts (draw (leafName ks)) = .ok (some (value (leafName ks))) ∧
      Datum (value (leafName ks)) := by
    intro ks md h
    obtain ⟨hdt, hf⟩ := hs ks md h
    obtain ⟨v, hv, hsv⟩ := drawValue_datum hdt ts hf
    obtain ⟨md', hmd⟩ := hg2 ks md h
    obtain ⟨ps, md2, h2, e, hcongr⟩ := hg1 _ _ hmd
    obtain ⟨rfl, rfl⟩ := leafName_inj hc h h2 e
    have : value (leafName ks) = v := by
      simp only [value, hmd, Option.map_some]
      rw [drawValue_congr hcongr, hv]
    rw [this]; exact ⟨hv, hsv⟩
  have hog : ∀ x ∈ order g, ∃ ps md, Signal d ps md ∧ x.1 = leafName ps ∧ ∀ k, mget x.2 k = mget md k := by
    intro x hx
    have := mem_mget hgn ((ho g).subset (show (x.1, x.2) ∈ order g from hx))
    exact hg1 x.1 x.2 this
  have hplace := generateAll_place ts draw value (order g) [] (fun x hx _ => by
    obtain ⟨ps, md, h, e, hcongr⟩ := hog x hx
    rw [drawValue_congr hcongr, e]; exact (hval h).1)
  have hmemL : ∀ y ∈ ((order g).filter fun x => !(draw x.1).skip).map fun x => (split bDot x.1, value x.1),
      ∃ ps md, Signal d ps md ∧ (draw (leafName ps)).skip = false ∧ y = (nameKeys ps, value (leafName ps)) := by
    intro y hy
    obtain ⟨x, hx, rfl⟩ := List.mem_map.1 hy
    obtain ⟨hx, hsk⟩ := List.mem_filter.1 hx
    obtain ⟨ps, md, h, e, -⟩ := hog x hx
    refine ⟨ps, md, h, ?_, ?_⟩
    · rw [← e]; simpa using hsk
    · rw [e, (split_leafName hc h).1]
  have hpair : (((order g).filter fun x => !(draw x.1).skip).map fun x => (split bDot x.1, value x.1)).Pairwise
      fun x y => ¬ x.1 <+: y.1 ∧ ¬ y.1 <+: x.1 := by
    have hn : (mkeys (order g)).Nodup := ((ho g).map _).nodup_iff.2 hgn
    have hp : (order g).Pairwise fun x y => ¬ split bDot x.1 <+: split bDot y.1 ∧ ¬ split bDot y.1 <+: split bDot x.1 := by
      refine List.Pairwise.imp_of_mem (R := fun x y : Bytes × List (Bytes × Js) => x.1 ≠ y.1) ?_ (List.pairwise_map.1 hn)
      intro x y hx hy hne
      obtain ⟨ps, md, h, e, -⟩ := hog x hx
      obtain ⟨ps', md', h', e', -⟩ := hog y hy
      rw [e, e', (split_leafName hc h).1, (split_leafName hc h').1]
      constructor
      · intro hpre; exact hne (by rw [e, e', C74_names hc h h' hpre])
      · intro hpre; exact hne (by rw [e, e', C74_names hc h' h hpre])
    rw [List.pairwise_map]
    exact hp.sublist List.filter_sublist
  obtain ⟨r, hr, h0, hbr, hl⟩ := placeAll_leaves _ [] (by
      intro y hy
      obtain ⟨ps, md, h, -, rfl⟩ := hmemL y hy
      have := split_leafName hc h
      exact ⟨this.2.1, fun ht => (this.2.2 _ ht).2.1 rfl, (hval h).2.leaf⟩) hpair (by simp [mkeys]) (by intro k v h; cases h)
      (fun x _ ks' v' h => absurd h (jsLeaf_empty _ _))
  have hdat : ∀ ks v, JsLeaf (.obj r) ks v → Datum v := by
    intro ks v hl'
    rcases (hl ks v).1 hl' with h | h
    · exact absurd h (jsLeaf_empty _ _)
    · obtain ⟨ks, md, hsig, hsk, e⟩ := hmemL _ h
      cases e
      exact (hval hsig).2
  refine ⟨r, ?_, ⟨⟨?_, ?_, h0⟩, hdat⟩, noEmptyMap_of_branching h0 hbr hdat, fun ps v => ?_⟩
  · simp only [generate, hg, Res.bind]
    rw [hplace]; exact hr
  · refine placeAll_maps (Q := fun m => (mkeys m).Nodup) (by simp [mkeys]) _ (fun y hy => ?_) [] r
      (allMaps_obj.2 ⟨by simp [mkeys], by intro k v h; cases h⟩) hr
    obtain ⟨ps, md, h, -, rfl⟩ := hmemL y hy
    refine ⟨fun ks n hn => ?_, fun m k w _ hm => nodup_mkeys_mset hm k w⟩
    have := (hval h).2.keys hn
    show (mkeys n).Nodup
    rw [this]; decide
  · refine placeAll_maps (Q := fun m => ∀ k ∈ mkeys m, DotKey k ∧ k ≠ b!"children") (by simp [mkeys]) _ (fun y hy => ?_) [] r
      (allMaps_obj.2 ⟨by simp [mkeys], by intro k v h; cases h⟩) hr
    obtain ⟨ps, md, h, -, rfl⟩ := hmemL y hy
    refine ⟨fun ks n hn => ?_, fun m k w hk hm a ha => ?_⟩
    · have := (hval h).2.keys hn
      show ∀ k ∈ mkeys n, DotKey k ∧ k ≠ b!"children"
      rw [this]; unfold DotKey; decide
    · rw [mkeys_mset_iff] at ha
      rcases ha with rfl | ha
      · have := (split_leafName hc h).2.2 a hk
        exact ⟨this.1, this.2.2⟩
      · exact hm a ha
  · rw [hl]
    constructor
    · rintro (h | h)
      · exact absurd h (jsLeaf_empty _ _)
      · obtain ⟨ks, md, hsig, hsk, e⟩ := hmemL _ h
        cases e
        exact ⟨ks, md, hsig, rfl, hsk, (hval hsig).1⟩
    · rintro ⟨ks, md, hsig, rfl, hsk, hv⟩
      have hve := (hval hsig).1
      rw [hv] at hve
      simp only [Res.ok.injEq, Option.some.injEq] at hve
      subst hve
      obtain ⟨md', hmd⟩ := hg2 ks md hsig
      refine .inr (List.mem_map.2 ⟨(leafName ks, md'), List.mem_filter.2 ⟨(ho g).symm.subset (mget_mem hmd), by simp [hsk]⟩, ?_⟩)
      rw [(split_leafName hc hsig).1]

/-! ### The next data set -/

theorem randomString_eq {i : Nat} (h : i < 20) : randomString i = b!"TEST_STRING_VALUE_" ++ itoa ((i + 1 : Nat) : Int) := by
  simp [randomString, testStrings, List.getD_eq_getElem?_getD, h]

theorem restamp_readings (ts : Int) (l : List Js) (h : ∀ v ∈ l, ∃ t, Measured JsScalar t v) : ∃ xs : List (Js × Int),
    l = (xs.map fun p => .obj [(b!"value", p.1), (b!"timestamp", .int p.2)]) ∧ (∀ p ∈ xs, JsScalar p.1) ∧
      restamp ts l = .ok (xs.map fun p => .obj [(b!"value", p.1), (b!"timestamp", .int ts)]) := by
  induction l with
  | nil => exact ⟨[], rfl, by simp, rfl⟩
  | cons v l ih =>
    rw [List.forall_mem_cons] at h
    obtain ⟨t, x, rfl, hx⟩ := h.1
    obtain ⟨xs, rfl, hs, e⟩ := ih h.2
    refine ⟨(x, t) :: xs, rfl, ?_, ?_⟩
    · intro p hp
      rcases List.mem_cons.1 hp with rfl | hp
      · exact hx
      · exact hs p hp
    · simp only [restamp, e]
      rfl

/-- C75: a leaf is changed, gets a new timestamp or is kept, as drawn; an array always gets a new timestamp. -/
theorem C75_value {v : Js} (h : Datum v) (ts : Int) {d : NextDraw} (hf : d.Fair) :
    ∃ v', nextValue ts d v = .ok (some v') ∧ Follows ts d.fate v v' ∧ Datum v' := by
  cases h with
  | many l hl =>
    obtain ⟨xs, rfl, hs, e⟩ := restamp_readings ts l hl
    refine ⟨_, by simp only [nextValue, e]; rfl, .array _ xs, .many _ fun v hv => ?_⟩
    obtain ⟨p, hp, rfl⟩ := List.mem_map.1 hv
    exact ⟨ts, p.1, rfl, hs p hp⟩
  | one _ t h =>
    obtain ⟨x, rfl, hx⟩ := h
    have hval : mget [(b!"value", x), (b!"timestamp", Js.int t)] b!"value" = some x := rfl
    cases hfate : d.fate with
    | keep =>
      exact ⟨_, by simp only [nextValue, hfate], .keep _, .one _ t ⟨x, rfl, hx⟩⟩
    | touch =>
      exact ⟨_, by simp only [nextValue, hfate, hval]; rfl, .touch x t, .one _ ts ⟨x, rfl, hx⟩⟩
    | change =>
      simp only [nextValue, hfate, hval]
      cases hx with
      | bool b => exact ⟨_, rfl, .change _ _ t (.bool b), .one _ ts ⟨_, rfl, .bool _⟩⟩
      | int n =>
        have := hf.upTo200
        exact ⟨_, rfl, .change _ _ t (.int n _ (by omega) (by omega)), .one _ ts ⟨_, rfl, .int _⟩⟩
      | num f => exact ⟨_, rfl, .change _ _ t (.num f _ hf.hundred), .one _ ts ⟨_, rfl, .num _⟩⟩
      | str s =>
        refine ⟨_, rfl, .change _ _ t ?_, .one _ ts ⟨_, rfl, .str _⟩⟩
        have := hf.string
        rw [randomString_eq this]
        exact .str s _ (by omega) (by omega)

theorem nextAll_place (ts : Int) (draw : Bytes → NextDraw) (value : Bytes → Js) (L : List (Bytes × Js)) : ∀ m,
    (∀ x ∈ L, nextValue ts (draw x.1) x.2 = .ok (some (value x.1))) →
    nextAll ts draw m L = placeAll m (L.map fun x => (split bDot x.1, value x.1)) := by
  induction L with
  | nil => intro m _; rfl
  | cons x L ih =>
    obtain ⟨n, v⟩ := x
    intro m h
    rw [List.forall_mem_cons] at h
    simp only [nextAll, h.1, Res.bind, List.map_cons, placeAll]
    cases placeNode (some (value n)) m (split bDot n) with
    | ok m' => exact ih m' h.2
    | err => rfl
    | panic => rfl

/-- C75: whatever is drawn and in whatever order, the next data set has leaves at the same places, each following from the
old one; it has no empty maps. -/
theorem C75_next_partial {m : List (Bytes × Js)} (hm : VehicleData m) (ts : Int) {draw : Bytes → NextDraw}
    (hf : ∀ n, (draw n).Fair) {L : List (Bytes × Js)} (hL : L.Perm (leafNodes (.obj m))) :
    ∃ n, nextAll ts draw [] L = .ok n ∧ VehicleData n ∧ NoEmptyMap (.obj n) ∧ ∀ ks v', JsLeaf (.obj n) ks v' ↔
      ∃ v, JsLeaf (.obj m) ks v ∧ nextValue ts (draw (leafName ks)) v = .ok (some v') := by
  obtain ⟨⟨hn, hk, ht⟩, hd⟩ := hm
  have hdk : KeysAre DotKey (.obj m) := fun ks n h k hkn => (hk ks n h k hkn).1
  have hex := C72_exact ⟨m, rfl⟩ hn (fun n e => by cases e; intro h; exact (hk [] m (.here _) _ h).1.1 rfl)
  have hdis := C72_distinct_partial hn hdk (fun ks n h hc => absurd rfl (hk ks n h _ hc).2)
  have hpath : ∀ {ks v}, JsLeaf (.obj m) ks v → ks ≠ [] ∧ split bDot (leafName ks) = ks ∧
      ∀ k ∈ ks, (DotKey k ∧ k ≠ b!"children") ∧ k ≠ b!"timestamp" := by
    intro ks v h
    have hkk := h.keys hk
    have hne : ks ≠ [] := by
      rintro rfl
      rw [jsLeaf_nil] at h
      exact ht (h.2 m rfl)
    refine ⟨hne, ?_, hkk⟩
    rw [leafName_join ks fun k hk => (hkk k hk).1.2]
    exact split_joinWith bDot ks hne fun k hk => (hkk k hk).1.1.2
  have hinj : ∀ {ks ks' v v'}, JsLeaf (.obj m) ks v → JsLeaf (.obj m) ks' v' → ks <+: ks' → ks = ks' ∧ v = v' := by
    intro ks ks' v v' h h' hp
    exact h'.prefix_free h hp
  let value : Bytes → Js := fun n =>
    match (mget L n).map fun v => nextValue ts (draw n) v with
    | some (.ok (some v)) => v
    | _ => .null
  have hLn : (mkeys L).Nodup := (hL.map _).nodup_iff.2 hdis
  have hval : ∀ {ks v}, JsLeaf (.obj m) ks v → nextValue ts (draw (leafName ks)) v = .ok (some (value (leafName ks))) ∧
      Datum (value (leafName ks)) := by
    intro ks v h
    obtain ⟨v', hv', -, hdat⟩ := C75_value (hd ks v h) ts (hf (leafName ks))
    have hget : mget L (leafName ks) = some v := mem_mget hLn (hL.symm.subset ((hex _ _).2 ⟨ks, h, rfl⟩))
    have : value (leafName ks) = v' := by simp only [value, hget, Option.map_some, hv']
    rw [this]; exact ⟨hv', hdat⟩
  have hmemL : ∀ x ∈ L, ∃ ks, JsLeaf (.obj m) ks x.2 ∧ x.1 = leafName ks := fun x hx => (hex x.1 x.2).1 (hL.subset hx)
  have hplace := nextAll_place ts draw value L [] (fun x hx => by
    obtain ⟨ks, h, e⟩ := hmemL x hx
    rw [e]; exact (hval h).1)
  have hmem2 : ∀ y ∈ L.map fun x => (split bDot x.1, value x.1), ∃ ks v, JsLeaf (.obj m) ks v ∧ y = (ks, value (leafName ks)) := by
    intro y hy
    obtain ⟨x, hx, rfl⟩ := List.mem_map.1 hy
    obtain ⟨ks, h, e⟩ := hmemL x hx
    exact ⟨ks, x.2, h, by rw [e, (hpath h).2.1]⟩
  have hpair : (L.map fun x => (split bDot x.1, value x.1)).Pairwise fun x y => ¬ x.1 <+: y.1 ∧ ¬ y.1 <+: x.1 := by
    rw [List.pairwise_map]
    refine List.Pairwise.imp_of_mem (R := fun x y : Bytes × Js => x.1 ≠ y.1) ?_ (List.pairwise_map.1 hLn)
    intro x y hx hy hne
    obtain ⟨ks, h, e⟩ := hmemL x hx
    obtain ⟨ks', h', e'⟩ := hmemL y hy
    rw [e, e', (hpath h).2.1, (hpath h').2.1]
    constructor
    · intro hp; exact hne (by rw [e, e', (hinj h h' hp).1])
    · intro hp; exact hne (by rw [e, e', (hinj h' h hp).1])
  obtain ⟨n, hr, h0, hbr, hl⟩ := placeAll_leaves _ [] (by
      intro y hy
      obtain ⟨ks, v, h, rfl⟩ := hmem2 y hy
      have := hpath h
      exact ⟨this.1, fun ht => (this.2.2 _ ht).2 rfl, (hval h).2.leaf⟩) hpair (by simp [mkeys]) (by intro k v h; cases h)
      (fun x _ ks' v' h => absurd h (jsLeaf_empty _ _))
  have hdat : ∀ ks v, JsLeaf (.obj n) ks v → Datum v := by
    intro ks v hl'
    rcases (hl ks v).1 hl' with h | h
    · exact absurd h (jsLeaf_empty _ _)
    · obtain ⟨ks, v, h', e⟩ := hmem2 _ h
      cases e
      exact (hval h').2
  refine ⟨n, by rw [hplace]; exact hr, ⟨⟨?_, ?_, h0⟩, hdat⟩, noEmptyMap_of_branching h0 hbr hdat, fun ks v' => ?_⟩
  · refine placeAll_maps (Q := fun m => (mkeys m).Nodup) (by simp [mkeys]) _ (fun y hy => ?_) [] n
      (allMaps_obj.2 ⟨by simp [mkeys], by intro k v h; cases h⟩) hr
    obtain ⟨ks, v, h, rfl⟩ := hmem2 y hy
    refine ⟨fun ks n hn => ?_, fun m k w _ hm => nodup_mkeys_mset hm k w⟩
    have := (hval h).2.keys hn
    show (mkeys n).Nodup
    rw [this]; decide
  · refine placeAll_maps (Q := fun m => ∀ k ∈ mkeys m, DotKey k ∧ k ≠ b!"children") (by simp [mkeys]) _ (fun y hy => ?_) [] n
      (allMaps_obj.2 ⟨by simp [mkeys], by intro k v h; cases h⟩) hr
    obtain ⟨ks, v, h, rfl⟩ := hmem2 y hy
    refine ⟨fun ks n hn => ?_, fun m k w hk hm a ha => ?_⟩
    · have := (hval h).2.keys hn
      show ∀ k ∈ mkeys n, DotKey k ∧ k ≠ b!"children"
      rw [this]; unfold DotKey; decide
    · rw [mkeys_mset_iff] at ha
      rcases ha with rfl | ha
      · exact ((hpath h).2.2 a hk).1
      · exact hm a ha
  · rw [hl]
    constructor
    · rintro (h | h)
      · exact absurd h (jsLeaf_empty _ _)
      · obtain ⟨ks, v, h', e⟩ := hmem2 _ h
        cases e
        exact ⟨v, h', (hval h').1⟩
    · rintro ⟨v, h, hv⟩
      have hve := (hval h).1
      rw [hv] at hve
      simp only [Res.ok.injEq, Option.some.injEq] at hve
      subst hve
      refine .inr (List.mem_map.2 ⟨(leafName ks, v), hL.symm.subset ((hex _ _).2 ⟨ks, h, rfl⟩), ?_⟩)
      rw [(hpath h).2.1]

/-- C75: every leaf of the next data set follows from the leaf of the old one at the same place, and every leaf of the old
one has a leaf that follows. -/
theorem C75_follows {m : List (Bytes × Js)} (hm : VehicleData m) (ts : Int) {draw : Bytes → NextDraw} (hf : ∀ n, (draw n).Fair) :
    ∃ n, generateNext ts draw (.obj m) = .ok n ∧ VehicleData n ∧ NoEmptyMap (.obj n) ∧
      (∀ ks v', JsLeaf (.obj n) ks v' → ∃ v, JsLeaf (.obj m) ks v ∧ Follows ts (draw (joinWith bDot ks)).fate v v') ∧
      ∀ ks v, JsLeaf (.obj m) ks v → ∃ v', JsLeaf (.obj n) ks v' ∧ Follows ts (draw (joinWith bDot ks)).fate v v' := by
  obtain ⟨n, h1, h2, he, h3⟩ := C75_next_partial hm ts hf (.refl _)
  have hname : ∀ {ks v}, JsLeaf (.obj m) ks v → leafName ks = joinWith bDot ks := fun h =>
    leafName_join _ fun k hk => (h.keys hm.1.keys k hk).1.2
  refine ⟨n, h1, h2, he, fun ks v' h => ?_, fun ks v h => ?_⟩
  · obtain ⟨v, hv, e⟩ := (h3 ks v').1 h
    obtain ⟨w, e', hw, -⟩ := C75_value (hm.2 ks v hv) ts (hf (leafName ks))
    rw [e] at e'
    cases e'
    exact ⟨v, hv, hname hv ▸ hw⟩
  · obtain ⟨w, e', hw, -⟩ := C75_value (hm.2 ks v h) ts (hf (leafName ks))
    exact ⟨w, (h3 ks w).2 ⟨v, h, e'⟩, hname h ▸ hw⟩

/-- Data sets made one from the other, each at its time. -/
inductive DataSets : List (Bytes × Js) → List (Bytes × Js) → Prop
  | refl (m : List (Bytes × Js)) : DataSets m m
  | step (m n r : List (Bytes × Js)) (ts : Int) (draw : Bytes → NextDraw) : DataSets m n → (∀ n, (draw n).Fair) →
      generateNext ts draw (.obj n) = .ok r → DataSets m r

/-- C75: however many data sets are made one from the other, none of them is lost to a panic, and all have leaves at the same
places. -/
theorem C75_chain {m n : List (Bytes × Js)} (hm : VehicleData m) (h : DataSets m n) :
    VehicleData n ∧ (∀ ks, (∃ v, JsLeaf (.obj n) ks v) ↔ ∃ v, JsLeaf (.obj m) ks v) ∧
      ∀ ts draw, (∀ n, (NextDraw.Fair (draw n))) → ∃ r, generateNext ts draw (.obj n) = .ok r := by
  suffices h' : VehicleData n ∧ ∀ ks, (∃ v, JsLeaf (.obj n) ks v) ↔ ∃ v, JsLeaf (.obj m) ks v from
    ⟨h'.1, h'.2, fun ts draw hf => (C75_follows h'.1 ts hf).imp fun _ h => h.1⟩
  induction h with
  | refl => exact ⟨hm, fun _ => .rfl⟩
  | step n r ts draw _ hf e ih =>
    obtain ⟨r', e', h1, -, h2, h3⟩ := C75_follows ih.1 ts hf
    rw [e] at e'
    cases e'
    refine ⟨h1, fun ks => .trans ⟨?_, ?_⟩ (ih.2 ks)⟩
    · rintro ⟨v, h⟩
      exact (h2 ks v h).imp fun _ h => h.1
    · rintro ⟨v, h⟩
      exact (h3 ks v h).imp fun _ h => h.1

/-! ### Examples -/

theorem jsAt_vssCat' {ks : List Bytes} {m : List (Bytes × Js)} (h : JsAt vssCat' ks (.obj m)) :
    (ks = [] ∧ .obj m = vssCat') ∨
    (ks = [b!"V"] ∧ m = [(b!"children", .obj [(b!"S", .obj [(b!"datatype", .str b!"float")]),
      (b!"type", .obj [(b!"datatype", .str b!"string")])])]) ∨
    (ks = [b!"V", b!"children"] ∧ m = [(b!"S", .obj [(b!"datatype", .str b!"float")]),
      (b!"type", .obj [(b!"datatype", .str b!"string")])]) ∨
    (ks = [b!"V", b!"children", b!"S"] ∧ m = [(b!"datatype", .str b!"float")]) ∨
    (ks = [b!"V", b!"children", b!"type"] ∧ m = [(b!"datatype", .str b!"string")]) := by
  unfold vssCat' at h
  rcases jsAt_cases h with ⟨e, hk⟩ | ⟨p, hp, r1, hk, h1⟩
  · exact .inl ⟨hk, e⟩
  rw [List.mem_singleton] at hp; subst hp; subst hk
  rcases jsAt_cases h1 with ⟨e, hk⟩ | ⟨p, hp, r2, hk, h2⟩
  · cases e; subst hk; exact .inr (.inl ⟨rfl, rfl⟩)
  rw [List.mem_singleton] at hp; subst hp; subst hk
  rcases jsAt_cases h2 with ⟨e, hk⟩ | ⟨p, hp, r3, hk, h3⟩
  · cases e; subst hk; exact .inr (.inr (.inl ⟨rfl, rfl⟩))
  simp only [List.mem_cons, List.not_mem_nil, or_false] at hp
  subst hk
  rcases hp with rfl | rfl
  · rcases jsAt_cases h3 with ⟨e, hk⟩ | ⟨p, hp, r4, hk, h4⟩
    · cases e; subst hk; exact .inr (.inr (.inr (.inl ⟨rfl, rfl⟩)))
    rw [List.mem_singleton] at hp; subst hp
    cases h4
  · rcases jsAt_cases h3 with ⟨e, hk⟩ | ⟨p, hp, r4, hk, h4⟩
    · cases e; subst hk; exact .inr (.inr (.inr (.inr ⟨rfl, rfl⟩)))
    rw [List.mem_singleton] at hp; subst hp
    cases h4

/-- The example of C71 is a catalogue. -/
theorem catalogue_vssCat' : Catalogue vssCat' where
  map := ⟨_, rfl, by decide, by intro p hp; rw [List.mem_singleton] at hp; subst hp; exact ⟨_, rfl⟩⟩
  nodup := by
    intro ks m h
    rcases jsAt_vssCat' h with ⟨-, e⟩ | ⟨-, rfl⟩ | ⟨-, rfl⟩ | ⟨-, rfl⟩ | ⟨-, rfl⟩
    · cases e; decide
    all_goals decide
  keys := by
    intro ks m h
    unfold DotKey
    rcases jsAt_vssCat' h with ⟨-, e⟩ | ⟨-, rfl⟩ | ⟨-, rfl⟩ | ⟨-, rfl⟩ | ⟨-, rfl⟩
    · cases e; decide
    all_goals decide
  alone := by
    intro ks m h
    rcases jsAt_vssCat' h with ⟨-, e⟩ | ⟨-, rfl⟩ | ⟨-, rfl⟩ | ⟨-, rfl⟩ | ⟨-, rfl⟩
    · cases e; decide
    all_goals decide
  children := by
    intro ks m v h
    rcases jsAt_vssCat' h with ⟨-, e⟩ | ⟨-, rfl⟩ | ⟨-, rfl⟩ | ⟨-, rfl⟩ | ⟨-, rfl⟩
    · cases e; intro h; cases h
    · intro h; cases h; exact ⟨_, rfl⟩
    all_goals intro h; cases h
  pure := by
    intro ks m h
    rcases jsAt_vssCat' h with ⟨-, e⟩ | ⟨-, rfl⟩ | ⟨-, rfl⟩ | ⟨-, rfl⟩ | ⟨-, rfl⟩
    · cases e; exact .inl (by simp [IsMap])
    · exact .inl (by simp [IsMap])
    · exact .inl (by simp [IsMap])
    · exact .inr (by simp [IsMap])
    · exact .inr (by simp [IsMap])

/-- Draws for the example: `V.S` gets 5, `V.type` the second string. -/
def exDraw (_ : Bytes) : Draw :=
  ⟨false, true, fun _ => F64.ofInt 5, 0, 0, fun _ => 0, fun _ => 1, fun _ => 0⟩

theorem below100_five : Below100 (F64.ofInt 5) :=
  ⟨5629499534213120, -50, by decide, by decide +kernel, by decide⟩

example : Signal vssCat' [b!"V", b!"children", b!"type"] [(b!"datatype", .str b!"string")] :=
  ⟨.step _ _ _ _ _ rfl (.step _ _ _ _ _ rfl (.step _ _ _ _ _ rfl (.here _))), by simp, by simp [IsMap]⟩

theorem exDraw_fair : ∀ ks md, Signal vssCat' ks md → Drawable md ∧ (exDraw (leafName ks)).Fair md := by
  have fair : ∀ n md, mget md b!"allowed" = none → (exDraw n).Fair md := fun n md h =>
    ⟨fun _ => below100_five, (by intro l h'; rw [h] at h'; cases h'), by simp [exDraw], by simp [exDraw], by simp [exDraw],
      by simp [exDraw]⟩
  intro ks md ⟨h, _, hno⟩
  rcases jsAt_vssCat' h with ⟨-, e⟩ | ⟨-, rfl⟩ | ⟨-, rfl⟩ | ⟨-, rfl⟩ | ⟨-, rfl⟩
  · cases e; exact absurd ⟨_, rfl⟩ (hno _ (List.mem_singleton.2 rfl))
  · exact absurd ⟨_, rfl⟩ (hno _ (List.mem_singleton.2 rfl))
  · exact absurd ⟨_, rfl⟩ (hno _ List.mem_cons_self)
  · exact ⟨⟨⟨_, rfl, by decide⟩, by intro a h; cases h⟩, fair _ _ rfl⟩
  · exact ⟨⟨⟨_, rfl, by decide⟩, by intro a h; cases h⟩, fair _ _ rfl⟩

/-- The data generated in the example. -/
def exData : List (Bytes × Js) := [(b!"V", .obj
    [(b!"S", .obj [(b!"value", .num (F64.ofInt 5)), (b!"timestamp", .int 7)]),
     (b!"type", .obj [(b!"value", .str b!"TEST_STRING_VALUE_2"), (b!"timestamp", .int 7)])])]

theorem exData_vehicle : generate id 7 exDraw vssCat' = .ok exData ∧ VehicleData exData := by
  have e : generate id 7 exDraw vssCat' = .ok exData := by rfl
  obtain ⟨r, h, hr, -⟩ := C74_signals_partial catalogue_vssCat' (order := id) (fun _ => .refl _) 7 exDraw_fair
  rw [e] at h
  cases h
  exact ⟨e, hr⟩

example : Declared [(b!"datatype", .str b!"string"), (b!"allowed", .arr [.str b!"A", .str b!"B"])] b!"string" ∧
    Declared [(b!"datatype", .str b!"float[]")] b!"float[]" := by
  refine ⟨⟨rfl, by decide, fun a h => ?_⟩, ⟨rfl, by decide, by intro a h; cases h⟩⟩
  cases h
  refine ⟨by decide, _, rfl, by simp, ?_⟩
  intro v hv
  simp only [List.mem_cons, List.not_mem_nil, or_false] at hv
  rcases hv with rfl | rfl <;> exact .string _

/-- C74: a leaf directly below the top ends the program with a panic. -/
theorem C74_top_leaf_fails (order : Groups → Groups) (ts : Int) (draw : Bytes → Draw) :
    generate order ts draw (.obj [(b!"a", .str b!"A")]) = .panic := by rfl

/-- C74: a list of allowed values that is empty ends the program with a panic. -/
theorem C74_no_allowed_fails (ts : Int) (d : Draw) :
    drawValue [(b!"datatype", .str b!"string"), (b!"allowed", .arr [])] ts d = .panic := by
  simp [drawValue, mget, isStr]

/-- Draws for the next data set of the example: everything is changed. -/
def exNext (_ : Bytes) : NextDraw := ⟨.change, 3, F64.ofInt 5, 4⟩

example : (∀ n, (exNext n).Fair) ∧ Datum (.obj [(b!"value", .str b!"x"), (b!"timestamp", .int 7)]) ∧
    Datum (.arr [.obj [(b!"value", .int 3), (b!"timestamp", .int 7)]]) ∧
    generateNext 9 exNext (.obj [(b!"V", .obj [(b!"S", .obj [(b!"value", .str b!"x"), (b!"timestamp", .int 7)]),
      (b!"A", .arr [.obj [(b!"value", .int 3), (b!"timestamp", .int 7)]])])]) =
    .ok [(b!"V", .obj [(b!"S", .obj [(b!"value", .str b!"TEST_STRING_VALUE_5"), (b!"timestamp", .int 9)]),
      (b!"A", .arr [.obj [(b!"value", .int 3), (b!"timestamp", .int 9)]])])] := by
  refine ⟨fun n => ⟨by simp [exNext], below100_five, by simp [exNext]⟩, .one _ 7 ⟨_, rfl, .str _⟩, .many _ fun v hv => ?_, by rfl⟩
  rw [List.mem_singleton] at hv; subst hv
  exact ⟨7, _, rfl, .int _⟩

/-- C75: a value that is to be changed can be drawn again. -/
theorem C75_change_fails : nextValue 9 ⟨.change, 103, F64.ofInt 5, 4⟩ (.obj [(b!"value", .int 3), (b!"timestamp", .int 7)]) =
    .ok (some (.obj [(b!"value", .int 3), (b!"timestamp", .int 9)])) := by rfl

/-- C75: a nil value that is to be changed is replaced by an empty map, so it is no longer a leaf. -/
theorem C75_nil_fails : generateNext 9 exNext (.obj [(b!"V", .obj [(b!"S", .obj [(b!"value", .null), (b!"timestamp", .int 7)])])]) =
    .ok [(b!"V", .obj [(b!"S", .obj [])])] := by rfl

/-- C75: an array of values without timestamp ends the program with a panic. -/
theorem C75_array_fails : generateNext 9 exNext (.obj [(b!"V", .obj [(b!"S", .arr [.int 3])])]) = .panic := by rfl

end Verif
