import Verif.PropsExpZero
import Verif.PropsExpLoop
/-
The document the experiments begin with, as the temporal experiments read it.
-/
namespace Verif

/-- A string, a finite number or a boolean. -/
def PlainScalar (v : Js) : Prop := PlainJson v ∧ v.IsAtom

theorem plainScalar_cases {v : Js} (h : PlainScalar v) : (∃ b, v = .bool b) ∨ (∃ f : F64, v = .num f ∧ ∃ neg m e h, f = .fin neg m e h) ∨
    ∃ s, v = .str s ∧ ValidUtf8 s := by
  obtain ⟨h1, h2⟩ := h
  cases v with
  | null => exact h1.elim
  | int _ => exact h1.elim
  | obj _ => exact h2.elim
  | arr _ => exact h2.elim
  | bool b => exact .inl ⟨b, rfl⟩
  | num f => exact .inr (.inl ⟨f, rfl, h1⟩)
  | str s => exact .inr (.inr ⟨s, rfl, h1⟩)

theorem PlainScalar.dec {v : Js} (h : PlainScalar v) : decAny v = v ∧ v ≠ .null ∧ v.IsPrim ∧ v.depth = 0 ∧ ∀ m, v ≠ .obj m := by
  rcases plainScalar_cases h with ⟨b, rfl⟩ | ⟨f, rfl, -⟩ | ⟨s, rfl, -⟩
  · exact ⟨by simp [decAny], nofun, trivial, by simp [Js.depth], nofun⟩
  · exact ⟨by simp [decAny], nofun, trivial, by simp [Js.depth], nofun⟩
  · exact ⟨by simp [decAny], nofun, trivial, by simp [Js.depth], nofun⟩

/-- A key of the documents of the experiment. -/
def NameKey (k : Bytes) : Prop :=
  k ≠ b!"timestamp" ∧ k ≠ b!"value" ∧ ValidUtf8 k ∧ k ≠ [] ∧ bDot ∉ k ∧ bSlash ∉ k ∧ bTilde ∉ k

/-- A JSON document of the experiment, and the same document with the values in the place of the nodes; the number bounds the
depth, and the timestamps have a property.  The members of a node are in the order of the code or sorted. -/
inductive Stamped (P : Int → Prop) : Nat → Js → Js → Prop
  | leaf (n : Nat) (v : Js) (ts : Int) (m : List (Bytes × Js)) : PlainScalar v → P ts →
      m = [(b!"value", v), (b!"timestamp", .int ts)] ∨ m = [(b!"timestamp", .int ts), (b!"value", v)] → Stamped P n (.obj m) v
  | nil (n : Nat) : Stamped P (n + 1) (.obj []) (.obj [])
  | cons (n : Nat) (k : Bytes) (c c' : Js) (m m' : List (Bytes × Js)) : NameKey k → k ∉ mkeys m' → Stamped P n c c' →
      Stamped P (n + 1) (.obj m) (.obj m') → Stamped P (n + 1) (.obj ((k, c) :: m)) (.obj ((k, c') :: m'))

variable {P : Int → Prop}

theorem Stamped.keys {n : Nat} {c c' : Js} (h : Stamped P n c c') : ∀ m', c' = .obj m' →
    ∃ m, c = .obj m ∧ mkeys m = mkeys m' ∧ (mkeys m).Nodup ∧ (∀ k ∈ mkeys m, NameKey k) ∧ ∃ n', n = n' + 1 := by
  induction h with
  | leaf n v ts mm hv hP hm => intro m' e; exact absurd e (hv.dec.2.2.2.2 m')
  | nil n => intro m' e; cases e; exact ⟨[], rfl, rfl, List.nodup_nil, by simp [mkeys], n, rfl⟩
  | cons n k c c' m m' hk hn h1 h2 _ ih =>
    intro m'' e
    cases e
    obtain ⟨m₁, e1, e2, e3, e4, e5⟩ := ih m' rfl
    cases e1
    refine ⟨_, rfl, by simpa [mkeys] using e2, ?_, ?_, n, rfl⟩
    · show (k :: mkeys m).Nodup
      rw [List.nodup_cons, e2]
      exact ⟨hn, e2 ▸ e3⟩
    · intro x hx
      rcases List.mem_cons.1 (show x ∈ k :: mkeys m from hx) with rfl | hx
      · exact hk
      · exact e4 x hx

theorem mkeys_decAnyF : ∀ m : List (Bytes × Js), mkeys (decAnyF m) = mkeys m
  | [] => by rw [decAnyF]
  | (k, v) :: m => by
    rw [decAnyF]
    show k :: mkeys (decAnyF m) = k :: mkeys m
    rw [mkeys_decAnyF m]

theorem mget_of_not_mem {m : List (Bytes × Js)} {k : Bytes} (h : k ∉ mkeys m) : mget m k = none := by
  cases e : mget m k with
  | none => rfl
  | some v => exact absurd (mget_isSome.1 ⟨v, e⟩) h

/-- What the temporal experiments make of the document. -/
theorem Stamped.transform {n : Nat} {c c' : Js} (h : Stamped P n c c') :
    jsTransform (decAny c) = c' ∧ ∀ m m', c = .obj m → c' = .obj m' → decAny c = .obj (decAnyF m) ∧ jsTransformF (decAnyF m) = m' := by
  induction h with
  | leaf n v ts mm hv hP hm =>
    obtain ⟨h1, h2, -, -, h3⟩ := hv.dec
    refine ⟨?_, fun m m' _ e => absurd e (h3 m')⟩
    rcases hm with rfl | rfl
    · rw [decAny, decAnyF, decAnyF, decAnyF, h1, decAny, fillMap_nodup (show (mkeys [(b!"value", v), (b!"timestamp", Js.num (.ofInt ts))]).Nodup from (by decide : [b!"value", b!"timestamp"].Nodup)),
        jsTransform]
      have e1 : mget [(b!"value", v), (b!"timestamp", Js.num (.ofInt ts))] b!"timestamp" = some (Js.num (.ofInt ts)) := rfl
      have e2 : mget [(b!"value", v), (b!"timestamp", Js.num (.ofInt ts))] b!"value" = some v := rfl
      rw [e1, e2]
      cases v <;> first | exact absurd rfl h2 | rfl
    · rw [decAny, decAnyF, decAnyF, decAnyF, h1, decAny, fillMap_nodup (show (mkeys [(b!"timestamp", Js.num (.ofInt ts)), (b!"value", v)]).Nodup from (by decide : [b!"timestamp", b!"value"].Nodup)),
        jsTransform]
      have e1 : mget [(b!"timestamp", Js.num (.ofInt ts)), (b!"value", v)] b!"timestamp" = some (Js.num (.ofInt ts)) := rfl
      have e2 : mget [(b!"timestamp", Js.num (.ofInt ts)), (b!"value", v)] b!"value" = some v := rfl
      rw [e1, e2]
      cases v <;> first | exact absurd rfl h2 | rfl
  | nil n =>
    refine ⟨?_, fun m m' e e' => ?_⟩
    · rw [decAny, decAnyF, show fillMap [] = [] from rfl, jsTransform]
      rfl
    · cases e; cases e'
      exact ⟨by rw [decAny, decAnyF]; rfl, by rw [decAnyF, jsTransformF]⟩
  | cons n k c c' m m' hk hn h1 h2 ih1 ih2 =>
    obtain ⟨m₁, e1, e2, e3, e4, -⟩ := (Stamped.cons n k c c' m m' hk hn h1 h2).keys _ rfl
    cases e1
    have hd : decAny (.obj ((k, c) :: m)) = .obj (decAnyF ((k, c) :: m)) := by
      rw [decAny, fillMap_nodup]
      rw [mkeys_decAnyF]
      exact e3
    have hf : jsTransformF (decAnyF ((k, c) :: m)) = (k, c') :: m' := by
      rw [decAnyF, jsTransformF, ih1.1, (ih2.2 m m' rfl rfl).2]
    refine ⟨?_, fun m₂ m₂' e e' => by cases e; cases e'; exact ⟨hd, hf⟩⟩
    rw [hd, jsTransform, mget_of_not_mem, hf]
    rw [mkeys_decAnyF]
    intro h
    exact (e4 _ h).1 rfl

theorem Stamped.plain {n : Nat} {c c' : Js} (h : Stamped P n c c') : PlainJson c' ∧ c'.depth ≤ n := by
  induction h with
  | leaf n v ts mm hv hP hm => exact ⟨hv.1, by rw [hv.dec.2.2.2.1]; omega⟩
  | nil n => exact ⟨⟨by simp [mkeys], trivial⟩, by rw [Js.depth, Js.depthF]; omega⟩
  | cons n k c c' m m' hk hn h1 h2 ih1 ih2 =>
    obtain ⟨⟨p1, p2⟩, d⟩ := ih2
    refine ⟨⟨?_, hk.2.2.1, ih1.1, p2⟩, ?_⟩
    · show (k :: mkeys m').Nodup
      exact List.nodup_cons.2 ⟨hn, p1⟩
    · rw [Js.depth] at d ⊢
      rw [Js.depthF]
      have := ih1.2
      omega

theorem Stamped.inside {n : Nat} {c c' : Js} (h : Stamped P n c c') : GoodKeys c' := by
  induction h with
  | leaf n v ts mm hv hP hm =>
    intro ks w hi
    cases hi with
    | here => intro k hk; cases hk
    | member _ _ => exact hv.2.elim
    | element _ _ => exact hv.2.elim
  | nil n =>
    intro ks w hi
    cases hi with
    | here => intro k hk; cases hk
    | member hm _ => cases hm
  | cons n k c c' m m' hk hn h1 h2 ih1 ih2 =>
    intro ks w hi
    cases hi with
    | here => intro k hk; cases hk
    | @member _ k₁ c₁ ks₁ _ hm hi =>
      rcases List.mem_cons.1 hm with e | hm
      · cases e
        intro x hx
        rcases List.mem_cons.1 hx with rfl | hx
        · exact hk.2.2.2
        · exact ih1 _ _ hi x hx
      · exact ih2 _ _ (.member hm hi)

/-! ### Building -/

theorem Stamped.get {n : Nat} {c c' : Js} (h : Stamped P n c c') (k : Bytes) : ∀ m m', c = .obj m → c' = .obj m' →
    (mget m k = none ∧ mget m' k = none) ∨ ∃ n' x x', n = n' + 1 ∧ mget m k = some x ∧ mget m' k = some x' ∧ Stamped P n' x x' := by
  induction h with
  | leaf n v ts mm hv hP hm => intro m m' _ e; exact absurd e (hv.dec.2.2.2.2 m')
  | nil n => intro m m' e e'; cases e; cases e'; exact .inl ⟨rfl, rfl⟩
  | cons n k₁ c c' m m' hk hn h1 h2 ih1 ih2 =>
    intro m₂ m₂' e e'
    cases e; cases e'
    rw [mget_cons, mget_cons]
    by_cases hkk : k₁ = k
    · rw [if_pos hkk, if_pos hkk]
      exact .inr ⟨n, c, c', rfl, rfl, rfl, h1⟩
    · rw [if_neg hkk, if_neg hkk]
      exact ih2 m m' rfl rfl

theorem mem_mkeys_mset' {m : List (Bytes × Js)} {k : Bytes} {v : Js} {x : Bytes} (h : x ∈ mkeys (mset m k v)) : x = k ∨ x ∈ mkeys m := by
  induction m with
  | nil => exact .inl (by simpa [mset, mkeys] using h)
  | cons e m ih =>
    obtain ⟨k', v'⟩ := e
    rw [mset] at h
    split at h
    · rename_i hk
      exact .inr h
    · rcases List.mem_cons.1 (show x ∈ k' :: mkeys (mset m k v) from h) with rfl | h
      · exact .inr (by simp [mkeys])
      · rcases ih h with h | h
        · exact .inl h
        · exact .inr (List.mem_cons_of_mem _ h)

theorem Stamped.set {n : Nat} {c c' : Js} (h : Stamped P (n + 1) c c') {k : Bytes} (hk : NameKey k) {x x' : Js} (hx : Stamped P n x x') :
    ∀ m m', c = .obj m → c' = .obj m' → Stamped P (n + 1) (.obj (mset m k x)) (.obj (mset m' k x')) := by
  generalize hn : n + 1 = N at h
  induction h with
  | leaf n v ts mm hv hP hm => intro m m' _ e; exact absurd e (hv.dec.2.2.2.2 m')
  | nil n' =>
    intro m m' e e'
    cases e; cases e'; cases hn
    exact .cons n k x x' [] [] hk (by simp [mkeys]) hx (.nil n)
  | cons n₁ k₁ c c' m m' hk₁ hn₁ h1 h2 ih1 ih2 =>
    intro m₂ m₂' e e'
    cases e; cases e'
    obtain rfl : n = n₁ := by omega
    rw [mset, mset]
    by_cases hkk : k₁ = k
    · rw [if_pos hkk, if_pos hkk]
      exact .cons n k₁ x x' m m' hk₁ hn₁ hx h2
    · rw [if_neg hkk, if_neg hkk]
      refine .cons n k₁ c c' _ _ hk₁ (fun hm => ?_) h1 (ih2 rfl m m' rfl rfl)
      rcases mem_mkeys_mset' hm with h | h
      · exact hkk h
      · exact hn₁ h

/-- A node is added to both documents. -/
theorem Stamped.add {v : Js} (hv : PlainScalar v) (ts : Int) (hP : P ts) : ∀ (ks : List Bytes) {n : Nat} {m m' : List (Bytes × Js)},
    Stamped P n (.obj m) (.obj m') → ks ≠ [] → ks.length ≤ n → (∀ k ∈ ks, NameKey k) → Passable m' ks →
    Passable m ks ∧
    Stamped P n (.obj (docUpdate (fun _ => .obj [(b!"value", v), (b!"timestamp", .int ts)]) m ks)) (.obj (docUpdate (fun _ => v) m' ks))
  | [], _, _, _, _, hne, _, _, _ => absurd rfl hne
  | [k], n, m, m', h, _, hl, hk, _ => by
    obtain ⟨n, rfl⟩ : ∃ n', n = n' + 1 := ⟨n - 1, by simp at hl; omega⟩
    refine ⟨?_, h.set (hk k (by simp)) (.leaf n v ts _ hv hP (.inl rfl)) m m' rfl rfl⟩
    intro qs rs x he hr hx
    cases qs with
    | nil => rw [at?_nil] at hx; cases hx; exact id
    | cons q qs =>
      have e := congrArg List.length he
      have e' : 0 < rs.length := List.length_pos_iff.2 hr
      rw [List.length_append, List.length_cons, List.length_cons, List.length_nil] at e
      omega
  | k :: k' :: ks, n, m, m', h, _, hl, hk, hp => by
    obtain ⟨n, rfl⟩ : ∃ n', n = n' + 1 := ⟨n - 1, by simp at hl; omega⟩
    have hl' : (k' :: ks).length ≤ n := by simp at hl ⊢; omega
    obtain ⟨n₀, rfl⟩ : ∃ n', n = n' + 1 := ⟨n - 1, by simp at hl'; omega⟩
    have hsub : Stamped P (n₀ + 1) (.obj (subMap (mget m k))) (.obj (subMap (mget m' k))) ∧
        (∀ x, mget m k = some x → ∃ n, x = .obj n) := by
      rcases h.get k m m' rfl rfl with ⟨e1, e2⟩ | ⟨n', x, x', en, e1, e2, e3⟩
      · rw [e1, e2]; exact ⟨.nil n₀, nofun⟩
      · obtain rfl : n' = n₀ + 1 := by omega
        have hns := hp [k] (k' :: ks) x' rfl (by simp) (by rw [at?_cons, e2]; exact at?_nil _)
        rw [e1, e2]
        cases x' with
        | obj y' =>
          obtain ⟨y, rfl, -⟩ := e3.keys y' rfl
          exact ⟨e3, fun x hx => ⟨y, by cases hx; rfl⟩⟩
        | _ => exact absurd trivial hns
    have hps : Passable (subMap (mget m' k)) (k' :: ks) := by
      intro qs rs x he hr hx
      cases qs with
      | nil => rw [at?_nil] at hx; cases hx; exact id
      | cons q qs =>
        rw [at?_subMap] at hx
        exact hp (k :: q :: qs) rs x (by rw [he]; rfl) hr (by rw [at?_cons]; exact hx)
    obtain ⟨ih1, ih2⟩ := Stamped.add hv ts hP (k' :: ks) hsub.1 (by simp) hl' (fun x hx => hk x (by simp [hx])) hps
    refine ⟨?_, ?_⟩
    · intro qs rs x he hr hx
      match qs, he, hx with
      | [], _, hx => rw [at?_nil] at hx; cases hx; exact id
      | [q], he, hx =>
        simp only [List.cons_append, List.cons.injEq] at he
        rw [at?_cons, ← he.1] at hx
        cases hg : mget m k with
        | none => rw [hg] at hx; cases hx
        | some y =>
          obtain ⟨z, rfl⟩ := hsub.2 y hg
          rw [hg, Option.bind_some, at?_nil] at hx
          cases hx
          exact id
      | q :: q' :: qs, he, hx =>
        simp only [List.cons_append, List.cons.injEq] at he
        refine ih1 (q' :: qs) rs x (by rw [he.2.1, he.2.2]; rfl) hr ?_
        rw [at?_subMap]
        rw [at?_cons, ← he.1] at hx
        exact hx
    · rw [docUpdate, docUpdate]
      exact h.set (hk k (by simp)) ih2 m m' rfl rfl

/-- **The document of the experiment, read again by the temporal experiments.** -/
theorem vehicle_doc {N : Nat} (hN : 0 < N) : ∀ (ss done : List Sensor) (m m' : List (Bytes × Js)),
    (done ++ ss).Pairwise (fun a b => Incomparable (split bDot a.path) (split bDot b.path)) →
    (∀ s ∈ ss, P s.ts ∧ PlainScalar s.value ∧ (split bDot s.path).length ≤ N ∧ ∀ k ∈ split bDot s.path, NameKey k) →
    Stamped P N (.obj m) (.obj m') → Holds Sensor.value done m' →
    ∃ j j', vehicleJson m ss = .ok j ∧ Stamped P N (.obj j) (.obj j') ∧ Holds Sensor.value (done ++ ss) j'
  | [], done, m, m', _, _, h1, h2 => ⟨m, m', rfl, h1, by rw [List.append_nil]; exact h2⟩
  | s :: ss, done, m, m', hp, hs, h1, h2 => by
    have hi : ∀ s' ∈ done, Incomparable (split bDot s'.path) (split bDot s.path) := fun s' hs' =>
      (List.pairwise_append.1 hp).2.2 s' hs' s (by simp)
    obtain ⟨p1, p2⟩ := holds_add h2 s hi
    obtain ⟨v0, v1, v2, v3⟩ := hs s (by simp)
    obtain ⟨a1, a2⟩ := h1.add v1 s.ts v0 _ (split_ne_nil _ _) v2 v3 p1
    obtain ⟨j, j', e1, e2, e3⟩ := vehicle_doc hN ss (done ++ [s]) _ _ (by rw [List.append_assoc]; exact hp)
      (fun x hx => hs x (by simp [hx])) a2 p2
    refine ⟨j, j', ?_, e2, by rw [List.append_assoc] at e3; exact e3⟩
    rw [vehicleJson, docAdd_eq _ _ _ (by exact a1)]
    exact e1

end Verif
