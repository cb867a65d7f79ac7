import Verif.SpecExpQuery
import Verif.PropsExp
import Verif.PropsCompact
/-
C62-C66: preparation of the temporal experiments, their queries on loguments, and the scenarios of the simulation.
-/
namespace Verif

/-! ### C62: transformJsonStructure -/

theorem mget_transformF (m : List (Bytes × Js)) (k : Bytes) : mget (jsTransformF m) k = (mget m k).map jsTransform := by
  induction m with
  | nil => rw [jsTransformF]; rfl
  | cons e m ih =>
    obtain ⟨k', j⟩ := e
    rw [jsTransformF, mget_cons, mget_cons, ih]
    split <;> rfl

theorem transform_plain {m : List (Bytes × Js)} (h : Plain m) : jsTransform (.obj m) = .obj (jsTransformF m) := by
  rw [jsTransform]
  rcases h with h | h
  · rw [h]
  · rw [h]; cases mget m b!"timestamp" <;> rfl

theorem transform_sensor {m : List (Bytes × Js)} {t v : Js} (ht : mget m b!"timestamp" = some t)
    (hv : mget m b!"value" = some v) : jsTransform (.obj m) = nilAsEmpty v := by
  rw [jsTransform, ht, hv]
  cases v <;> rfl

theorem transform_atom {j : Js} (h : j.IsAtom) : jsTransform j = j := by
  cases j <;> first | exact h.elim | (rw [jsTransform] <;> simp)

theorem PlainWay.head {m : List (Bytes × Js)} {k : Bytes} {ks : List Bytes} (h : PlainWay (.obj m) (k :: ks)) : Plain m :=
  h [] (k :: ks) rfl (by simp) m (at?_nil _)

theorem PlainWay.tail {m : List (Bytes × Js)} {k : Bytes} {ks : List Bytes} (h : PlainWay (.obj m) (k :: ks)) {c : Js}
    (hc : mget m k = some c) : PlainWay c ks := by
  intro ks₁ ks₂ he hne n hn
  refine h (k :: ks₁) ks₂ (by rw [he]; rfl) hne n ?_
  rw [at?_cons, hc]; exact hn

/-- **C62.**  Below maps that are no sensors, the transformation replaces every value by its transformation. -/
theorem C62_below : ∀ (ks : List Bytes) (j : Js), PlainWay j ks →
    (jsTransform j).at? ks = (j.at? ks).map jsTransform
  | [], j, _ => by rw [at?_nil, at?_nil]; rfl
  | k :: ks, j, h => by
    cases j with
    | obj m =>
      rw [transform_plain h.head, at?_cons, at?_cons, mget_transformF]
      cases hc : mget m k with
      | none => rfl
      | some c => exact C62_below ks c (h.tail hc)
    | arr l => rw [jsTransform, at?_scalar (by trivial), at?_scalar (by trivial)]; rfl
    | _ => rw [transform_atom (by trivial), at?_scalar (by trivial)]; rfl

/-- **C62.**  A sensor reached through maps that are no sensors is replaced by its value. -/
theorem C62_sensor {j : Js} {ks : List Bytes} {n : List (Bytes × Js)} {t v : Js} (hw : PlainWay j ks)
    (hn : j.at? ks = some (.obj n)) (ht : mget n b!"timestamp" = some t) (hv : mget n b!"value" = some v) :
    (jsTransform j).at? ks = some (nilAsEmpty v) := by
  rw [C62_below ks j hw, hn, Option.map_some, transform_sensor ht hv]

/-- **C62.**  Nothing is invented: what is not a map in the result comes from a sensor, or is found (transformed, if it is
a slice) in the document. -/
theorem C62_only : ∀ (ks : List Bytes) (j w : Js), (jsTransform j).at? ks = some w → w.IsScalar →
    (∃ w', j.at? ks = some w' ∧ jsTransform w' = w ∧ w'.IsScalar) ∨
    ∃ ks₁ ks₂ n t v, ks = ks₁ ++ ks₂ ∧ j.at? ks₁ = some (.obj n) ∧ mget n b!"timestamp" = some t ∧
      mget n b!"value" = some v ∧ (nilAsEmpty v).at? ks₂ = some w
  | ks, j, w, h, hs => by
    cases j with
    | obj m =>
      by_cases hp : Plain m
      · rw [transform_plain hp] at h
        cases ks with
        | nil => rw [at?_nil] at h; cases h; exact hs.elim
        | cons k ks =>
          rw [at?_cons, mget_transformF] at h
          cases hc : mget m k with
          | none => rw [hc] at h; cases h
          | some c =>
            rw [hc] at h
            rcases C62_only ks c w h hs with ⟨w', h1, h2⟩ | ⟨ks₁, ks₂, n, t, v, h1, h2, h3⟩
            · exact .inl ⟨w', by rw [at?_cons, hc]; exact h1, h2⟩
            · exact .inr ⟨k :: ks₁, ks₂, n, t, v, by rw [h1]; rfl, by rw [at?_cons, hc]; exact h2, h3⟩
      · cases ht : mget m b!"timestamp" with
        | none => exact absurd (.inl ht) hp
        | some t =>
          cases hv : mget m b!"value" with
          | none => exact absurd (.inr hv) hp
          | some v =>
            rw [transform_sensor ht hv] at h
            exact .inr ⟨[], ks, m, t, v, rfl, at?_nil _, ht, hv, h⟩
    | arr l =>
      rw [jsTransform] at h
      cases ks with
      | nil =>
        rw [at?_nil] at h; cases h
        exact .inl ⟨.arr l, at?_nil _, by rw [jsTransform], trivial⟩
      | cons k ks => rw [at?_scalar (by trivial)] at h; cases h
    | _ =>
      rw [transform_atom (by trivial)] at h
      cases ks with
      | nil => rw [at?_nil] at h; cases h; exact .inl ⟨_, at?_nil _, transform_atom (by trivial), trivial⟩
      | cons k ks => rw [at?_scalar (by trivial)] at h; cases h
  termination_by ks => ks.length

/-- A sensor that is reached, below a branch. -/
example : (jsTransform (.obj [(b!"Vehicle", .obj [(b!"Speed", .obj [(b!"value", .num (F64.ofInt 3)), (b!"timestamp", .num .zero)]),
    (b!"Note", .obj [(b!"timestamp", .bool true)])])])).at? [b!"Vehicle", b!"Speed"] = some (.num (F64.ofInt 3)) := by
  refine C62_sensor (n := [(b!"value", .num (F64.ofInt 3)), (b!"timestamp", .num .zero)]) (t := .num .zero) ?_ ?_ rfl rfl
  rotate_left
  · rfl
  intro ks₁ ks₂ he hne m hm
  rcases ks₁ with _ | ⟨a, _ | ⟨b, ks₁⟩⟩
  · rw [at?_nil] at hm; cases hm; exact .inl rfl
  · simp only [List.cons_append, List.nil_append, List.cons.injEq] at he
    obtain ⟨rfl, -⟩ := he
    cases hm; exact .inl rfl
  · simp only [List.cons_append, List.cons.injEq] at he
    obtain ⟨-, -, he⟩ := he
    exact absurd (List.append_eq_nil_iff.1 he.symm).2 hne

/-- C62, refuted part: a branch with children named `timestamp` and `value` is taken for a sensor, and its other children
are lost. -/
theorem C62_names_fails :
    let doc := Js.obj [(b!"Log", .obj [(b!"timestamp", .bool true), (b!"value", .bool false), (b!"Level", .bool true)])]
    doc.at? [b!"Log", b!"Level"] = some (.bool true) ∧ (jsTransform doc).at? [b!"Log", b!"Level"] = none ∧
    (jsTransform doc).at? [b!"Log"] = some (.bool false) := ⟨by rfl, by rfl, by rfl⟩

/-- C62, refuted part: a sensor without a value gets one. -/
theorem C62_null_fails :
    let doc := Js.obj [(b!"Speed", .obj [(b!"value", .null), (b!"timestamp", .bool true)])]
    (jsTransform doc).at? [b!"Speed"] = some (.str []) := by rfl

/-! C62 for the documents of the vehicle -/

theorem docAdd_ok (leaf : Js) : ∀ (ks : List Bytes) (m m' : List (Bytes × Js)), docAdd leaf m ks = .ok m' →
    m' = docUpdate (fun _ => leaf) m ks
  | [], _, _, h => by cases h; rfl
  | [_], _, _, h => by cases h; rfl
  | k :: k' :: ks, m, m', h => by
    rw [docAdd] at h
    rw [docUpdate]
    cases hm : mget m k with
    | none =>
      rw [hm] at h
      simp only [subMap] at h ⊢
      cases hd : docAdd leaf [] (k' :: ks) with
      | ok n => rw [hd] at h; cases h; rw [← docAdd_ok leaf _ _ _ hd]
      | err => rw [hd] at h; cases h
      | panic => rw [hd] at h; cases h
    | some c =>
      rw [hm] at h
      cases c with
      | obj n =>
        simp only [subMap] at h ⊢
        cases hd : docAdd leaf n (k' :: ks) with
        | ok n' => rw [hd] at h; cases h; rw [← docAdd_ok leaf _ _ _ hd]
        | err => rw [hd] at h; cases h
        | panic => rw [hd] at h; cases h
      | _ => cases h

/-- The nodes of the sensors are in the document, and nothing apart from them. -/
structure Built (ss : List Sensor) (m : List (Bytes × Js)) : Prop where
  node : ∀ s ∈ ss, (Js.obj m).at? (split bDot s.path) = some (.obj [(b!"value", s.value), (b!"timestamp", .int s.ts)])
  only : ∀ p x, (Js.obj m).at? p = some x → p = [] ∨ ∃ s ∈ ss, p <+: split bDot s.path ∨ split bDot s.path <+: p

theorem built_run : ∀ (ss done : List Sensor) (m m' : List (Bytes × Js)),
    (done ++ ss).Pairwise (fun a b => Incomparable (split bDot a.path) (split bDot b.path)) → Built done m →
    vehicleJson m ss = .ok m' → Built (done ++ ss) m'
  | [], done, m, m', _, h, e => by cases e; rw [List.append_nil]; exact h
  | s :: ss, done, m, m', hp, h, e => by
    rw [vehicleJson] at e
    cases hd : docAdd (jsonNode s.value s.ts none) m (split bDot s.path) with
    | err => rw [hd] at e; cases e
    | panic => rw [hd] at e; cases e
    | ok m₁ =>
      rw [hd] at e
      have h1 := docAdd_ok _ _ _ _ hd
      have hi : ∀ s' ∈ done, Incomparable (split bDot s.path) (split bDot s'.path) := fun s' hs' =>
        ((List.pairwise_append.1 hp).2.2 s' hs' s (by simp)).symm
      have hb : Built (done ++ [s]) m₁ := by
        constructor
        · intro s' hs'
          rcases List.mem_append.1 hs' with hs' | hs'
          · rw [h1, at?_docUpdate_frame _ _ _ _ (hi s' hs')]
            exact h.node s' hs'
          · simp only [List.mem_singleton] at hs'
            subst hs'
            have := at?_docUpdate_self (fun _ => jsonNode s'.value s'.ts none) _ (split_ne_nil bDot s'.path) m []
            rw [List.append_nil] at this
            rw [h1, this]; exact at?_nil _
        · intro p x hx
          by_cases hc : Incomparable (split bDot s.path) p
          · rw [h1, at?_docUpdate_frame _ _ _ _ hc] at hx
            rcases h.only p x hx with h2 | ⟨s', h2, h3⟩
            · exact .inl h2
            · exact .inr ⟨s', by simp [h2], h3⟩
          · refine .inr ⟨s, by simp, ?_⟩
            by_cases h2 : split bDot s.path <+: p
            · exact .inr h2
            · by_cases h3 : p <+: split bDot s.path
              · exact .inl h3
              · exact absurd ⟨h2, h3⟩ hc
      have := built_run ss (done ++ [s]) m₁ m' (by rw [List.append_assoc]; exact hp) hb e
      rwa [List.append_assoc] at this

/-- C62 for the documents of the vehicle, if no sensor lies inside another and no branch is called `timestamp`: the
transformation shows the value of every sensor. -/
theorem C62_vehicle_partial {ss : List Sensor} {m : List (Bytes × Js)}
    (h : ss.Pairwise (fun a b => Incomparable (split bDot a.path) (split bDot b.path)))
    (hts : ∀ s ∈ ss, b!"timestamp" ∉ split bDot s.path) (hm : vehicleJson [] ss = .ok m) :
    ∀ s ∈ ss, PlainWay (.obj m) (split bDot s.path) ∧
      (jsTransform (.obj m)).at? (split bDot s.path) = some (nilAsEmpty s.value) := by
  have h0 : Built [] [] := by
    refine ⟨fun s hs => absurd hs (by simp), fun p x hx => ?_⟩
    cases p with
    | nil => exact .inl rfl
    | cons k ks => rw [at?_cons] at hx; cases hx
  have hb : Built ss m := built_run ss [] [] m h h0 hm
  intro s hs
  have hw : PlainWay (.obj m) (split bDot s.path) := by
    intro ks₁ ks₂ he hne n hn
    refine .inl ?_
    cases ht : mget n b!"timestamp" with
    | none => rfl
    | some t =>
      exfalso
      have hat : ∀ (ks : List Bytes) (j : Js), j.at? ks = some (.obj n) → j.at? (ks ++ [b!"timestamp"]) = some t := by
        intro ks
        induction ks with
        | nil =>
          intro j hj
          rw [at?_nil] at hj; cases hj
          rw [List.nil_append, at?_cons, ht]; exact at?_nil _
        | cons k ks ih =>
          intro j hj
          cases j with
          | obj m' =>
            rw [at?_cons] at hj
            rw [List.cons_append, at?_cons]
            cases hc : mget m' k with
            | none => rw [hc] at hj; cases hj
            | some c => rw [hc] at hj; exact ih c hj
          | _ => rw [at?_scalar (by trivial)] at hj; cases hj
      rcases hb.only _ _ (hat ks₁ _ hn) with h1 | ⟨s', hs', h1 | h1⟩
      · exact absurd (List.append_eq_nil_iff.1 h1).2 (by simp)
      · obtain ⟨r, hr⟩ := h1
        exact hts s' hs' (by rw [← hr]; simp)
      · have hlast : split bDot s'.path <+: ks₁ := by
          rcases (List.prefix_concat_iff (a := b!"timestamp")).1 h1 with h2 | h2
          · exact absurd (by rw [h2]; simp) (hts s' hs')
          · exact h2
        have h2 : split bDot s'.path <+: split bDot s.path := hlast.trans (by rw [he]; exact List.prefix_append _ _)
        by_cases hp : s'.path = s.path
        · rw [hp] at hlast
          have := hlast.length_le
          have hl := congrArg List.length he
          rw [List.length_append] at hl
          have : ks₂.length ≠ 0 := fun h => hne (List.length_eq_zero_iff.1 h)
          omega
        · exact (apart ss h s' hs' s hs hp).1 h2
  exact ⟨hw, C62_sensor hw (hb.node s hs) (t := .int s.ts) rfl rfl⟩

/-- Two sensors. -/
example : ∃ m, vehicleJson [] [⟨b!"Vehicle.Speed", .num (F64.ofInt 3), 0⟩, ⟨b!"Vehicle.Cabin.Light", .bool true, 0⟩] = .ok m ∧
    (jsTransform (.obj m)).at? [b!"Vehicle", b!"Cabin", b!"Light"] = some (.bool true) := by
  refine ⟨_, rfl, ?_⟩
  refine (C62_vehicle_partial (ss := [⟨b!"Vehicle.Speed", .num (F64.ofInt 3), 0⟩, ⟨b!"Vehicle.Cabin.Light", .bool true, 0⟩])
    ?_ ?_ rfl ⟨b!"Vehicle.Cabin.Light", .bool true, 0⟩ (by simp)).2
  · simp only [List.pairwise_cons, List.mem_singleton, forall_eq, List.not_mem_nil, false_implies, implies_true,
      List.Pairwise.nil, and_true]
    exact ⟨by decide, by decide⟩
  · intro s hs
    simp only [List.mem_cons, List.not_mem_nil, or_false] at hs
    rcases hs with rfl | rfl <;> decide

/-! ### C63: initial patches -/

theorem primitives_eq (m : List (Bytes × Js)) : primitives m = m.filter fun e => decide e.2.IsPrim := by
  unfold primitives
  congr 1
  funext e
  cases e.2 <;> rfl

theorem mem_initialPatchesF {path : Bytes} {prims : List (Bytes × Js)} {p : TPatch} : ∀ {m : List (Bytes × Js)},
    p ∈ initialPatchesF path prims m ↔ (prims ≠ [] ∧ m ≠ [] ∧ p = ⟨b!"add", path, .obj prims, 0⟩) ∨
      ∃ k c, (k, c) ∈ m ∧ p ∈ initialPatches (memberPath path k) c
  | [] => by rw [initialPatchesF]; simp
  | (k, v) :: m => by
    rw [initialPatchesF, List.mem_append, List.mem_append, mem_initialPatchesF (m := m)]
    constructor
    · rintro ((h | h) | h | ⟨k', c, h1, h2⟩)
      · split at h
        · cases h
        · next hp => exact .inl ⟨fun e => hp (by rw [e]; rfl), by simp, List.mem_singleton.1 h⟩
      · exact .inr ⟨k, v, by simp, h⟩
      · exact .inl ⟨h.1, by simp, h.2.2⟩
      · exact .inr ⟨k', c, by simp [h1], h2⟩
    · rintro (⟨h1, -, h3⟩ | ⟨k', c, h1, h2⟩)
      · refine .inl (.inl ?_)
        rw [if_neg (by simpa using h1), List.mem_singleton]; exact h3
      · rcases List.mem_cons.1 h1 with e | h1
        · cases e; exact .inl (.inr h2)
        · exact .inr (.inr ⟨k', c, h1, h2⟩)

theorem initialPatches_atom {path : Bytes} {v : Js} (h : v.IsAtom) :
    initialPatches path v = if path = [] then [] else [⟨b!"add", path, v, 0⟩] := by
  cases v <;> first | exact h.elim | (rw [initialPatches] <;> simp)

theorem elementPath_ne (path : Bytes) (i : Nat) : elementPath path i ≠ [] := by simp [elementPath]

theorem mem_initialPatchesL {path : Bytes} {p : TPatch} : ∀ {l : List Js} {i : Nat},
    p ∈ initialPatchesL path i l ↔ ∃ n c, l[n]? = some c ∧ p ∈ initialPatches (elementPath path (i + n)) c
  | [], i => by rw [initialPatchesL]; simp
  | v :: l, i => by
    have hv : (if isPrimitive v then [⟨b!"add", elementPath path i, v, 0⟩] else initialPatches (elementPath path i) v) =
        initialPatches (elementPath path i) v := by
      split
      · next h =>
        have : v.IsAtom := by cases v <;> first | trivial | cases h
        rw [initialPatches_atom this, if_neg (elementPath_ne _ _)]
      · rfl
    rw [initialPatchesL, hv, List.mem_append, mem_initialPatchesL (l := l)]
    constructor
    · rintro (h | ⟨n, c, h1, h2⟩)
      · exact ⟨0, v, rfl, h⟩
      · exact ⟨n + 1, c, by simpa using h1, by rw [show i + (n + 1) = i + 1 + n by omega]; exact h2⟩
    · rintro ⟨n, c, h1, h2⟩
      cases n with
      | zero => cases h1; exact .inl h2
      | succ n => exact .inr ⟨n, c, by simpa using h1, by rw [show i + 1 + n = i + (n + 1) by omega]; exact h2⟩

/-- The keys of a path, each after a dot. -/
def dotted (ks : List Bytes) : Bytes := ks.flatMap fun k => bDot :: k

theorem joinWith_dotted (k : Bytes) : ∀ ks : List Bytes, joinWith bDot (k :: ks) = k ++ dotted ks
  | [] => by simp [joinWith, dotted]
  | k' :: ks => by
    rw [joinWith, joinWith_dotted k' ks]
    simp [dotted]

theorem mem_initialPatches {p : TPatch} : ∀ (j : Js) {path : Bytes}, path ≠ [] →
    (p ∈ initialPatches path j ↔
      ∃ ks w u, Js.Inside j ks w ∧ Recorded w u ∧ p = ⟨b!"add", path ++ dotted ks, u, 0⟩)
  | .obj m, path, hp => by
    have hmp : ∀ k, memberPath path k = path ++ bDot :: k := fun k => if_neg hp
    have hne : ∀ k, memberPath path k ≠ [] := fun k => by rw [hmp]; simp
    rw [initialPatches, mem_initialPatchesF]
    constructor
    · rintro (⟨h1, -, h3⟩ | ⟨k, c, h1, h2⟩)
      · rw [primitives_eq] at h1 h3
        exact ⟨[], _, _, .here _, .map h1, by rw [h3]; simp [dotted]⟩
      · have : sizeOf c < 1 + sizeOf m := by
          have := List.sizeOf_lt_of_mem h1
          simp only [Prod.mk.sizeOf_spec] at this
          omega
        obtain ⟨ks, w, u, h3, h4, h5⟩ := (mem_initialPatches c (hne k)).1 h2
        exact ⟨k :: ks, w, u, .member h1 h3, h4, by rw [h5, hmp]; simp [dotted]⟩
    · rintro ⟨ks, w, u, h1, h2, h3⟩
      cases h1 with
      | here =>
        cases h2 with
        | atom h => exact h.elim
        | map h =>
          refine .inl ⟨by rw [primitives_eq]; exact h, fun e => h (by rw [e]; rfl), ?_⟩
          rw [h3, primitives_eq]; simp [dotted]
      | @member _ k c ks _ hm hi =>
        have : sizeOf c < 1 + sizeOf m := by
          have := List.sizeOf_lt_of_mem hm
          simp only [Prod.mk.sizeOf_spec] at this
          omega
        exact .inr ⟨k, c, hm, (mem_initialPatches c (hne k)).2 ⟨ks, w, u, hi, h2, by rw [h3, hmp]; simp [dotted]⟩⟩
  | .arr l, path, hp => by
    rw [initialPatches, mem_initialPatchesL]
    constructor
    · rintro ⟨n, c, h1, h2⟩
      have : sizeOf c < 1 + sizeOf l := by
        have := List.sizeOf_lt_of_mem (List.mem_of_getElem? h1)
        omega
      obtain ⟨ks, w, u, h3, h4, h5⟩ := (mem_initialPatches c (elementPath_ne _ _)).1 h2
      exact ⟨natDigits n :: ks, w, u, .element h1 h3, h4, by rw [h5]; simp [dotted, elementPath]⟩
    · rintro ⟨ks, w, u, h1, h2, h3⟩
      cases h1 with
      | here => cases h2 with | atom h => exact h.elim
      | @element _ i c ks _ hm hi =>
        have : sizeOf c < 1 + sizeOf l := by
          have := List.sizeOf_lt_of_mem (List.mem_of_getElem? hm)
          omega
        exact ⟨i, c, hm, (mem_initialPatches c (elementPath_ne _ _)).2
          ⟨ks, w, u, hi, h2, by rw [h3]; simp [dotted, elementPath]⟩⟩
  | .null, path, hp => atom_case trivial hp
  | .bool _, path, hp => atom_case trivial hp
  | .num _, path, hp => atom_case trivial hp
  | .int _, path, hp => atom_case trivial hp
  | .str _, path, hp => atom_case trivial hp
termination_by j => sizeOf j
where
  atom_case {j : Js} {path : Bytes} (h : j.IsAtom) (hp : path ≠ []) : p ∈ initialPatches path j ↔
      ∃ ks w u, Js.Inside j ks w ∧ Recorded w u ∧ p = ⟨b!"add", path ++ dotted ks, u, 0⟩ := by
    rw [initialPatches_atom h, if_neg hp, List.mem_singleton]
    constructor
    · intro e
      exact ⟨[], j, j, .here j, .atom h, by rw [e]; simp [dotted]⟩
    · rintro ⟨ks, w, u, h1, h2, h3⟩
      cases h1 with
      | here =>
        cases h2 with
        | atom => rw [h3]; simp [dotted]
        | map => exact h.elim
      | member => exact h.elim
      | element => exact h.elim

/-- **C63.**  The patches made for a document without empty top-level keys are exactly: one for every atom in it, with
its path and value; and one for every map with primitive members, holding these. -/
theorem C63_patches_partial {m : List (Bytes × Js)} (hm : ∀ e ∈ m, e.1 ≠ []) (p : TPatch) :
    p ∈ initialPatches [] (.obj m) ↔
      ∃ ks w u, Js.Inside (.obj m) ks w ∧ Recorded w u ∧ p = ⟨b!"add", joinWith bDot ks, u, 0⟩ := by
  rw [initialPatches, mem_initialPatchesF]
  constructor
  · rintro (⟨h1, -, h3⟩ | ⟨k, c, h1, h2⟩)
    · rw [primitives_eq] at h1 h3
      exact ⟨[], _, _, .here _, .map h1, h3⟩
    · obtain ⟨ks, w, u, h3, h4, h5⟩ := (mem_initialPatches c (path := memberPath [] k) (hm _ h1)).1 h2
      exact ⟨k :: ks, w, u, .member h1 h3, h4, by rw [h5, joinWith_dotted]; rfl⟩
  · rintro ⟨ks, w, u, h1, h2, h3⟩
    cases h1 with
    | here =>
      cases h2 with
      | atom h => exact h.elim
      | map h =>
        refine .inl ⟨by rw [primitives_eq]; exact h, fun e => h (by rw [e]; rfl), ?_⟩
        rw [h3, primitives_eq]; rfl
    | @member _ k c ks _ hk hi =>
      exact .inr ⟨k, c, hk, (mem_initialPatches c (path := memberPath [] k) (hm _ hk)).2
        ⟨ks, w, u, hi, h2, by rw [h3, joinWith_dotted]; rfl⟩⟩

/-- A document with a branch, a list and two sensors. -/
example : (⟨b!"add", b!"Vehicle.Trip.1", .bool true, 0⟩ : TPatch) ∈ initialPatches []
    (.obj [(b!"Vehicle", .obj [(b!"Speed", .num (F64.ofInt 3)), (b!"Trip", .arr [.bool false, .bool true])])]) := by
  refine (C63_patches_partial ?_ _).2 ⟨[b!"Vehicle", b!"Trip", natDigits 1], .bool true, .bool true, ?_, .atom trivial, by rfl⟩
  · intro e he
    simp only [List.mem_singleton] at he
    subst he
    decide
  · exact .member (List.mem_singleton.2 rfl) (.member (c := .arr [.bool false, .bool true]) (by simp)
      (.element (c := .bool true) rfl (.here _)))

/-- C63, refuted part: a patch is made more than once, the one for a map as often as it has members. -/
theorem C63_once_fails :
    initialPatches [] (.obj [(b!"A", .obj [(b!"x", .bool true), (b!"y", .bool false)])]) =
      [⟨b!"add", b!"A", .obj [(b!"x", .bool true), (b!"y", .bool false)], 0⟩, ⟨b!"add", b!"A.x", .bool true, 0⟩,
       ⟨b!"add", b!"A", .obj [(b!"x", .bool true), (b!"y", .bool false)], 0⟩, ⟨b!"add", b!"A.y", .bool false, 0⟩] := by
  rfl

/-- C63, refuted part: with an empty key the paths no longer lead to the values. -/
theorem C63_empty_key_fails :
    initialPatches [] (.obj [([], .obj [(b!"x", .arr [.bool true])])]) = [⟨b!"add", b!"x.0", .bool true, 0⟩] := by
  rfl

/-! ### C64: queries on a logument -/

theorem entries_filter (track : List (Nat × List Op)) (path : Bytes) :
    entries (filterTrack track path) = (entries track).filter fun e => decide (e.2.path = path) := by
  unfold entries filterTrack
  induction track with
  | nil => rfl
  | cons e track ih =>
    rw [List.flatMap_cons, List.filter_append, ← ih, List.filter_map]
    have he : List.filter ((fun e : Nat × Op => decide (e.2.path = path)) ∘ fun o => (e.1, o)) e.2 =
        e.2.filter fun p => decide (p.path = path) := rfl
    rw [he, List.filterMap_cons]
    by_cases h : (e.2.filter fun p => decide (p.path = path)) = []
    · simp only [h, if_true, List.map_nil, List.nil_append]
    · simp only [h, if_false, List.flatMap_cons]

/-- **C64.**  Filtering a track keeps exactly the operations on the path, in their order and under their versions, and
leaves no version without operations. -/
theorem C64_filter (track : List (Nat × List Op)) (path : Bytes) :
    entries (filterTrack track path) = (entries track).filter (fun e => decide (e.2.path = path)) ∧
    (∀ e ∈ filterTrack track path, e.2 ≠ []) ∧ (mkeys (filterTrack track path)).Sublist (mkeys track) := by
  refine ⟨entries_filter track path, ?_, ?_⟩
  · intro e he
    simp only [filterTrack, List.mem_filterMap] at he
    obtain ⟨a, -, h⟩ := he
    split at h
    · cases h
    · next hn => cases h; exact hn
  · unfold mkeys filterTrack
    induction track with
    | nil => exact .slnil
    | cons e track ih =>
      rw [List.filterMap_cons]
      by_cases h : (e.2.filter fun p => decide (p.path = path)) = []
      · simp only [h, if_true]
        exact ih.cons _
      · simp only [h, if_false, List.map_cons]
        exact ih.cons_cons _

theorem flt_feq {t f g : F64} (h : F64.feq f g = true) : F64.flt t f = F64.flt t g := by
  cases f with
  | nan => cases h
  | inf a =>
    cases g with
    | inf b => simp only [F64.feq, beq_iff_eq] at h; subst h; rfl
    | _ => cases h
  | fin a m e hc =>
    cases g with
    | fin b m' e' hc' =>
      simp only [F64.feq, Bool.or_eq_true, Bool.and_eq_true, beq_iff_eq] at h
      rcases h with ⟨rfl, rfl⟩ | ⟨⟨rfl, rfl⟩, rfl⟩
      · cases t <;> simp [F64.flt, F64.units]
      · rfl
    | _ => cases h

theorem isEvent_iff {path : Bytes} {threshold : F64} {o : Op} :
    isEvent path threshold o = true ↔ Exceeds path threshold o := by
  simp only [isEvent, Exceeds, Bool.and_eq_true, decide_eq_true_eq]
  refine and_congr_right fun _ => ?_
  cases o.value <;> simp

instance (path : Bytes) (threshold : F64) (o : Op) : Decidable (Exceeds path threshold o) :=
  decidable_of_iff _ isEvent_iff

theorem entries_snd (r : List (Nat × List Op)) : (entries r).map Prod.snd = r.flatMap Prod.snd := by
  unfold entries
  rw [List.map_flatMap]
  congr 1
  funext e
  rw [List.map_map]
  exact List.map_id _

/-- **C64.**  The events found are, up to the order in which the versions are visited, the times of those operations on
the path with a number above the threshold that `TemporalTrack` returns; the logument stays as it is. -/
theorem C64_events {s : St} (h : Reachable s) {ti tj : Int} (hle : ti ≤ tj)
    {order : List (Nat × List Op) → List (Nat × List Op)} (ho : ∀ l, (order l).Perm l) {path : Bytes} {threshold : F64} :
    (findEvents order s.lgm path ti tj threshold).1 = s.lgm ∧
    (∀ r, (findEvents order s.lgm path ti tj threshold).2 = .ok r →
      ∃ M, unmark M = records s.lgm ∧ WindowMarking ti tj M ∧
        r.Perm ((((keptOf M).map Prod.snd).filter fun o => decide (Exceeds path threshold o)).map Op.ts)) ∧
    ((findEvents order s.lgm path ti tj threshold).2.isOk = false → HasUncomparable ((records s.lgm).map Prod.snd)) := by
  have hg : (s.lgm.temporalTrack ti tj).1 = s.lgm := by
    unfold Lgm.temporalTrack
    split
    · rfl
    · split <;> rfl
  obtain ⟨h1, h2⟩ := C11_temporalTrack h hle
  unfold findEvents
  rcases ht : s.lgm.temporalTrack ti tj with ⟨g', c⟩
  rw [ht] at hg h1 h2
  subst hg
  cases c with
  | err => exact ⟨rfl, fun r hr => by simp at hr, fun _ => h2 rfl⟩
  | panic => exact ⟨rfl, fun r hr => by simp at hr, fun _ => h2 rfl⟩
  | ok c =>
    refine ⟨rfl, fun r hr => ?_, fun hf => by cases hf⟩
    simp only [Res.ok.injEq] at hr
    obtain ⟨M, hM, hW, hE, -⟩ := h1 c rfl
    refine ⟨M, hM, hW, ?_⟩
    rw [← hr, ← hE, entries_snd]
    refine List.Perm.map _ ?_
    have hf : (fun o => decide (Exceeds path threshold o)) = isEvent path threshold := by
      funext o
      rw [Bool.eq_iff_iff, decide_eq_true_eq, isEvent_iff]
    rw [hf]
    exact ((ho c).flatMap_right _).filter _

theorem SameGo.num_inv {a : GVal} {f : F64} (h : SameGo a (.num f)) : ∃ g, a = .num g ∧ F64.feq g f = true := by
  cases h with
  | num => exact ⟨_, rfl, by assumption⟩

/-- **C64.**  Every event found is one: an operation inside the window; and an operation inside the window above the
threshold is reported, itself or by one with an equal value. -/
theorem C64_found {s : St} (h : Reachable s) {ti tj : Int} (hle : ti ≤ tj)
    {order : List (Nat × List Op) → List (Nat × List Op)} (ho : ∀ l, (order l).Perm l) {path : Bytes} {threshold : F64}
    {r : List Int} (hr : (findEvents order s.lgm path ti tj threshold).2 = .ok r) :
    (∀ t ∈ r, ∃ v o, (v, o) ∈ records s.lgm ∧ Exceeds path threshold o ∧ ti ≤ o.ts ∧ o.ts ≤ tj ∧ o.ts = t) ∧
    (∀ v o, (v, o) ∈ records s.lgm → Exceeds path threshold o → ti ≤ o.ts → o.ts ≤ tj →
      ∃ v' o', (v', o') ∈ records s.lgm ∧ Exceeds path threshold o' ∧ SameGo o'.value o.value ∧ o'.ts ∈ r) := by
  obtain ⟨M, hM, hW, hp⟩ := (C64_events h hle ho (path := path) (threshold := threshold)).2.1 r hr
  have hk : ∀ o, (∃ e ∈ M, e.kept = true ∧ e.op = o) ↔ o ∈ (keptOf M).map Prod.snd := by
    intro o
    simp only [keptOf, unmark, List.mem_map, List.mem_filter]
    constructor
    · rintro ⟨e, h1, h2, rfl⟩
      exact ⟨(e.version, e.op), ⟨e, ⟨h1, h2⟩, rfl⟩, rfl⟩
    · rintro ⟨_, ⟨e, ⟨h1, h2⟩, rfl⟩, rfl⟩
      exact ⟨e, h1, h2, rfl⟩
  have hrec : ∀ e ∈ M, (e.version, e.op) ∈ records s.lgm := by
    intro e he
    rw [← hM]
    exact List.mem_map.2 ⟨e, he, rfl⟩
  have hin : ∀ t, t ∈ r ↔ ∃ e ∈ M, e.kept = true ∧ Exceeds path threshold e.op ∧ e.op.ts = t := by
    intro t
    rw [hp.mem_iff]
    simp only [List.mem_map, List.mem_filter, decide_eq_true_eq]
    constructor
    · rintro ⟨o, ⟨h1, h2⟩, rfl⟩
      obtain ⟨e, h3, h4, rfl⟩ := (hk o).2 (List.mem_map.2 h1)
      exact ⟨e, h3, h4, h2, rfl⟩
    · rintro ⟨e, h1, h2, h3, rfl⟩
      exact ⟨e.op, ⟨List.mem_map.1 ((hk e.op).1 ⟨e, h1, h2, rfl⟩), h3⟩, rfl⟩
  refine ⟨?_, ?_⟩
  · intro t ht
    obtain ⟨e, h1, h2, h3, rfl⟩ := (hin t).1 ht
    obtain ⟨a, b, rfl⟩ := List.append_of_mem h1
    obtain ⟨⟨h4, h5⟩, -⟩ := (hW a e b rfl).1 h2
    exact ⟨e.version, e.op, hrec e h1, h3, h4, h5, rfl⟩
  · intro v o ho' hx hti htj
    rw [← hM] at ho'
    obtain ⟨e, he, heq⟩ := List.mem_map.1 ho'
    cases heq
    by_cases hkept : e.kept = true
    · obtain ⟨f, hf⟩ := hx.2
      refine ⟨e.version, e.op, hrec e he, hx, ?_, (hin _).2 ⟨e, he, hkept, hx, rfl⟩⟩
      have : F64.feq f f = true := by
        cases f with
        | nan => have := hf.2; cases threshold <;> cases this
        | inf b => simp [F64.feq]
        | fin a m e hc => simp [F64.feq]
      rw [hf.1]
      exact SameGo.num _ _ this
    · obtain ⟨a, b, hab⟩ := List.append_of_mem he
      have hc : ¬ Changes a e.op := fun hc => hkept ((hW a e b hab).2 ⟨⟨hti, htj⟩, hc⟩)
      have hex : ∃ y, LastKept a e.op.path y ∧ SameGo y.value e.op.value := by
        apply Classical.byContradiction
        intro hno
        exact hc fun y hy hs => hno ⟨y, hy, hs⟩
      obtain ⟨y, ⟨a', v', c, ha, hyp, -⟩, hs⟩ := hex
      have hyM : (⟨v', y, true⟩ : Entry) ∈ M := by rw [hab, ha]; simp
      obtain ⟨f, hf, hlt⟩ := hx.2
      rw [hf] at hs
      obtain ⟨g, hg, hgf⟩ := hs.num_inv
      have hy : Exceeds path threshold y := ⟨hyp.trans hx.1, g, hg, by rw [flt_feq hgf]; exact hlt⟩
      exact ⟨v', y, hrec _ hyM, hy, by rw [hf]; exact hs, (hin _).2 ⟨_, hyM, rfl, hy, rfl⟩⟩

/-- A log of a speed: 5, 12, 12, 8, 12. -/
def speedLog : St :=
  run (newLogument [] demoDoc none).1
    [.store (.patch (some [⟨.replace, b!"speed", .num (F64.ofInt 5), 1⟩, ⟨.replace, b!"speed", .num (F64.ofInt 12), 2⟩])),
     .append,
     .store (.patch (some [⟨.replace, b!"speed", .num (F64.ofInt 12), 3⟩, ⟨.replace, b!"speed", .num (F64.ofInt 8), 4⟩,
       ⟨.replace, b!"speed", .num (F64.ofInt 12), 5⟩])), .append]

example : Reachable speedLog ∧ (findEvents id speedLog.lgm b!"speed" 0 9 (F64.ofInt 10)).2 = .ok [2, 5] :=
  ⟨⟨[], demoDoc, none, _, rfl⟩, by decide +kernel⟩

/-- C64, refuted part: not every operation above the threshold is found, a repeated value is not; and in another order of
the map the events are not ordered by time. -/
theorem C64_all_fails :
    (⟨.replace, b!"speed", .num (F64.ofInt 12), 3⟩ : Op) ∈ (records speedLog.lgm).map Prod.snd ∧
    (findEvents id speedLog.lgm b!"speed" 0 9 (F64.ofInt 10)).2 = .ok [2, 5] ∧
    (findEvents List.reverse speedLog.lgm b!"speed" 0 9 (F64.ofInt 10)).2 = .ok [5, 2] :=
  ⟨by decide +kernel, by decide +kernel, by decide +kernel⟩

/-- C64, refuted part: in a logument made like the one of the experiments (exp/utils_temporal.go:388), with all operations
given to `NewLogument`, no event is found before the first call that appends them. -/
theorem C64_fresh_fails :
    let s := (newLogument [] demoDoc (some (.patch (some [⟨.replace, b!"speed", .num (F64.ofInt 12), 2⟩])))).1
    (findEvents id s.lgm b!"speed" 0 9 (F64.ofInt 10)).2 = .ok [] ∧
    (findEvents id (step s .append).1.lgm b!"speed" 0 9 (F64.ofInt 10)).2 = .ok [2] := by decide +kernel

/-! ### C65: scenarios -/

/-- **C65.**  The scenario changes exactly if the cooldown is over and the battery is low in urban traffic, or full while
charging, provided that charging was not the first scenario. -/
theorem C65_switches (s : Scenario) (level : Option F64) (now : Int) :
    (s.update level now).2 = true ↔
      s.cooldown ≤ now - s.lastSwitch ∧
      ((s.current = b!"urban_traffic" ∧ F64.fle (level.getD s.battery) lowBattery = true) ∨
       (s.current = b!"battery_charging" ∧ F64.fle fullBattery (level.getD s.battery) = true ∧
        s.previous ≠ b!"battery_charging")) := by
  simp only [Scenario.update]
  split
  · next h => exact ⟨fun h => (by cases h), fun ⟨h1, _⟩ => (by omega)⟩
  · next h =>
    have hc : s.cooldown ≤ now - s.lastSwitch := by omega
    simp only [Scenario.next, hc, true_and]
    by_cases hu : s.current = b!"urban_traffic"
    · have hne : (b!"urban_traffic" : Bytes) ≠ b!"battery_charging" := by decide
      by_cases hl : F64.fle (level.getD s.battery) lowBattery = true
      · simp [hu, hl]
      · simp [hu, hl]
    · by_cases hb : s.current = b!"battery_charging"
      · have hne : ¬ (b!"battery_charging" : Bytes) = b!"urban_traffic" := by decide
        by_cases hf : F64.fle fullBattery (level.getD s.battery) = true
        · simp only [hb, hne, hf, if_true, if_false, false_and, false_or, true_and]
          by_cases hp : b!"battery_charging" = s.previous
          · simp [← hp]
          · rw [if_neg hp]; simp [Ne.symm hp]
        · simp [hb, hf]
      · simp [hu, hb]

/-- The two scenarios a mixed simulation alternates between. -/
structure Mixed (s : Scenario) (ts : List Transition) : Prop where
  previous : s.previous = b!"urban_traffic"
  cooldown : s.cooldown = 60000
  current : s.current = if ts.length % 2 = 0 then b!"urban_traffic" else b!"battery_charging"
  last : s.lastSwitch = (ts.getLast?.map Transition.time).getD 0

theorem mixed_update {s : Scenario} {ts : List Transition} (h : Mixed s ts) (level : Option F64) (now : Int) :
    ((s.update level now).2 = false → Mixed (s.update level now).1 ts) ∧
    ((s.update level now).2 = true →
      60000 ≤ now - (ts.getLast?.map Transition.time).getD 0 ∧
      (s.update level now).1.previous = b!"urban_traffic" ∧ (s.update level now).1.cooldown = 60000 ∧
      (s.update level now).1.lastSwitch = now ∧
      ((ts.length % 2 = 0 ∧ (s.update level now).1.current = b!"battery_charging" ∧
        F64.fle (s.update level now).1.battery lowBattery = true) ∨
       (ts.length % 2 ≠ 0 ∧ (s.update level now).1.current = b!"urban_traffic" ∧
        F64.fle fullBattery (s.update level now).1.battery = true))) := by
  obtain ⟨current, previous, battery, lastSwitch, cooldown⟩ := s
  obtain ⟨h1, h2, h3, h4⟩ := h
  simp only at h1 h2 h3 h4
  subst h1 h2 h4
  have hne : ¬ (b!"battery_charging" : Bytes) = b!"urban_traffic" := by decide
  have hne' : ¬ (b!"urban_traffic" : Bytes) = b!"battery_charging" := by decide
  generalize hlast : (ts.getLast?.map Transition.time).getD 0 = last
  by_cases hc : now - last < 60000
  · have e : Scenario.update ⟨current, b!"urban_traffic", battery, last, 60000⟩ level now =
        (⟨current, b!"urban_traffic", level.getD battery, last, 60000⟩, false) := by
      simp [Scenario.update, hc]
    rw [e]
    exact ⟨fun _ => ⟨rfl, rfl, h3, hlast.symm⟩, fun h => by cases h⟩
  · by_cases hp : ts.length % 2 = 0
    · rw [if_pos hp] at h3
      subst h3
      by_cases hl : F64.fle (level.getD battery) lowBattery = true
      · have e : Scenario.update ⟨b!"urban_traffic", b!"urban_traffic", battery, last, 60000⟩ level now =
            (⟨b!"battery_charging", b!"urban_traffic", level.getD battery, now, 60000⟩, true) := by
          simp [Scenario.update, Scenario.next, hc, hl]
        rw [e]
        exact ⟨fun h => (by cases h), fun _ => ⟨by omega, rfl, rfl, rfl, .inl ⟨hp, rfl, hl⟩⟩⟩
      · have e : Scenario.update ⟨b!"urban_traffic", b!"urban_traffic", battery, last, 60000⟩ level now =
            (⟨b!"urban_traffic", b!"urban_traffic", level.getD battery, last, 60000⟩, false) := by
          simp [Scenario.update, Scenario.next, hc, hl]
        rw [e]
        exact ⟨fun _ => ⟨rfl, rfl, by rw [if_pos hp], hlast.symm⟩, fun h => (by cases h)⟩
    · rw [if_neg hp] at h3
      subst h3
      by_cases hl : F64.fle fullBattery (level.getD battery) = true
      · have e : Scenario.update ⟨b!"battery_charging", b!"urban_traffic", battery, last, 60000⟩ level now =
            (⟨b!"urban_traffic", b!"urban_traffic", level.getD battery, now, 60000⟩, true) := by
          simp [Scenario.update, Scenario.next, hc, hl]
        rw [e]
        exact ⟨fun h => (by cases h), fun _ => ⟨by omega, rfl, rfl, rfl, .inr ⟨hp, rfl, hl⟩⟩⟩
      · have e : Scenario.update ⟨b!"battery_charging", b!"urban_traffic", battery, last, 60000⟩ level now =
            (⟨b!"battery_charging", b!"urban_traffic", level.getD battery, last, 60000⟩, false) := by
          simp [Scenario.update, Scenario.next, hc, hl]
        rw [e]
        exact ⟨fun _ => ⟨rfl, rfl, by rw [if_neg hp], hlast.symm⟩, fun h => (by cases h)⟩

/-- The transitions of a mixed simulation. -/
structure Alternating (ts : List Transition) : Prop where
  /-- between two transitions, and before the first one, a minute passes -/
  apart : ∀ a t b, ts = a ++ t :: b → 60000 ≤ t.time - ((a.getLast?).map Transition.time).getD 0
  /-- first to charging, then back, and so on -/
  target : ∀ a t b, ts = a ++ t :: b → t.count = a.length + 1 ∧
    ((t.count % 2 = 1 ∧ t.target = b!"battery_charging" ∧ F64.fle t.battery lowBattery = true) ∨
     (t.count % 2 = 0 ∧ t.target = b!"urban_traffic" ∧ F64.fle fullBattery t.battery = true))
  /-- all transitions are recorded as starting in urban traffic -/
  source : ∀ t ∈ ts, t.source = b!"urban_traffic"

theorem snoc_split {α : Type} {ts : List α} {x : α} {a : List α} {t : α} {b : List α} (h : ts ++ [x] = a ++ t :: b) :
    (∃ b', ts = a ++ t :: b') ∨ (a = ts ∧ t = x) := by
  rcases List.eq_nil_or_concat b with rfl | ⟨b', y, rfl⟩
  · have := List.append_inj' h rfl
    exact .inr ⟨this.1.symm, by simpa using this.2.symm⟩
  · rw [List.concat_eq_append, ← List.cons_append, ← List.append_assoc] at h
    exact .inl ⟨b', (List.append_inj' h rfl).1⟩

theorem mixed_run (xs : List (Int × Option F64)) : ∀ (s : Scenario) (ts : List Transition), Mixed s ts → Alternating ts →
    Mixed (xs.foldl Scenario.tick (s, ts)).1 (xs.foldl Scenario.tick (s, ts)).2 ∧
    Alternating (xs.foldl Scenario.tick (s, ts)).2 := by
  induction xs with
  | nil => intro s ts h1 h2; exact ⟨h1, h2⟩
  | cons x xs ih =>
    intro s ts h1 h2
    obtain ⟨m1, m2⟩ := mixed_update h1 x.2 x.1
    rw [List.foldl_cons]
    rcases hu : s.update x.2 x.1 with ⟨s', _ | _⟩
    · rw [hu] at m1
      have : Scenario.tick (s, ts) x = (s', ts) := by simp [Scenario.tick, hu]
      rw [this]
      exact ih _ _ (m1 rfl) h2
    · rw [hu] at m2
      obtain ⟨n1, n2, n3, n4, n5⟩ := m2 rfl
      have : Scenario.tick (s, ts) x = (s', ts ++ [⟨x.1, s'.previous, s'.current, s'.battery, ts.length + 1⟩]) := by
        simp [Scenario.tick, hu]
      rw [this]
      refine ih _ _ ⟨n2, n3, ?_, by simpa using n4⟩ ⟨?_, ?_, ?_⟩
      · rw [List.length_append, List.length_singleton]
        rcases n5 with ⟨h, hc, -⟩ | ⟨h, hc, -⟩
        · rw [if_neg (by omega)]; exact hc
        · rw [if_pos (by omega)]; exact hc
      · intro a t b he
        rcases snoc_split he with ⟨b', hb⟩ | ⟨rfl, rfl⟩
        · exact h2.apart a t b' hb
        · exact n1
      · intro a t b he
        rcases snoc_split he with ⟨b', hb⟩ | ⟨rfl, rfl⟩
        · exact h2.target a t b' hb
        · refine ⟨rfl, ?_⟩
          rcases n5 with ⟨h, hc, hb⟩ | ⟨h, hc, hb⟩
          · exact .inl ⟨by simp only; omega, hc, hb⟩
          · exact .inr ⟨by simp only; omega, hc, hb⟩
      · intro t ht
        rcases List.mem_append.1 ht with ht | ht
        · exact h2.source t ht
        · rw [List.mem_singleton] at ht
          subst ht
          exact n2

/-- **C65.**  A mixed simulation that starts in urban traffic, as all do (exp/exp_scenario.go:336-344), alternates between
charging when the battery is low and urban traffic when it is full, at least a minute apart. -/
theorem C65_alternates_partial (battery : F64) (xs : List (Int × Option F64)) :
    Alternating ((newScenario b!"urban_traffic" battery).run xs).2 ∧
    ((newScenario b!"urban_traffic" battery).run xs).1.current =
      if ((newScenario b!"urban_traffic" battery).run xs).2.length % 2 = 0 then b!"urban_traffic" else b!"battery_charging" := by
  have h := mixed_run xs (newScenario b!"urban_traffic" battery) [] ⟨rfl, rfl, rfl, rfl⟩
    ⟨by simp, by simp, by simp⟩
  exact ⟨h.2, h.1.current⟩

/-- A simulation with three transitions. -/
def mixedDemo : List (Int × Option F64) :=
  [(0, some (F64.ofInt 5)), (60000, none), (90000, some (F64.ofInt 100)), (120000, none), (200000, some (F64.ofInt 10))]

example : ((newScenario b!"urban_traffic" (F64.ofInt 80)).run mixedDemo).2 =
    [⟨60000, b!"urban_traffic", b!"battery_charging", F64.ofInt 5, 1⟩,
     ⟨120000, b!"urban_traffic", b!"urban_traffic", F64.ofInt 100, 2⟩,
     ⟨200000, b!"urban_traffic", b!"battery_charging", F64.ofInt 10, 3⟩] := by decide +kernel

/-- C65, refuted part: the transition back is recorded as one from urban traffic to urban traffic. -/
theorem C65_source_fails :
    ⟨120000, b!"urban_traffic", b!"urban_traffic", F64.ofInt 100, 2⟩ ∈
      ((newScenario b!"urban_traffic" (F64.ofInt 80)).run mixedDemo).2 := by decide +kernel

/-- C65, refuted part: the cooldown is a minute, not the 30 seconds announced. -/
theorem C65_cooldown_fails :
    ((newScenario b!"urban_traffic" (F64.ofInt 5)).run [(30000, none), (59999, none)]).2 = [] ∧
    ((newScenario b!"urban_traffic" (F64.ofInt 5)).run [(30000, none), (60000, none)]).2.length = 1 := by decide +kernel

/-- C65, refuted part: from any other first scenario there is no transition at all. -/
theorem C65_stuck_fails (initial : Bytes) (h : initial ≠ b!"urban_traffic") (battery : F64)
    (xs : List (Int × Option F64)) : ((newScenario initial battery).run xs).2 = [] := by
  have key : ∀ (xs : List (Int × Option F64)) (s : Scenario), s.current = initial → s.previous = initial →
      (xs.foldl Scenario.tick (s, [])).2 = [] := by
    intro xs
    induction xs with
    | nil => intro s _ _; rfl
    | cons x xs ih =>
      intro s h1 h2
      have hf : (s.update x.2 x.1).2 = false := by
        rw [← Bool.not_eq_true, C65_switches]
        rintro ⟨-, ⟨h3, -⟩ | ⟨h3, -, h4⟩⟩
        · exact h (h1 ▸ h3)
        · exact h4 (by rw [h2, ← h1]; exact h3)
      have hs : (s.update x.2 x.1).1.current = initial ∧ (s.update x.2 x.1).1.previous = initial := by
        simp only [Scenario.update, Scenario.next] at hf ⊢
        rw [h1, if_neg h]
        split
        · exact ⟨rfl, h2⟩
        · by_cases hb : initial = b!"battery_charging"
          · rw [if_pos hb]
            by_cases hl : F64.fle fullBattery (x.2.getD s.battery) = true
            · rw [if_pos hl]
              simp only [h2, if_true]
              exact ⟨trivial, trivial⟩
            · rw [if_neg hl]
              simp [h2]
          · rw [if_neg hb]
            simp [h2]
      rw [List.foldl_cons]
      rcases hu : s.update x.2 x.1 with ⟨s', b⟩
      rw [hu] at hf hs
      simp only at hf hs
      subst hf
      have : Scenario.tick (s, []) x = (s', []) := by simp [Scenario.tick, hu]
      rw [this]
      exact ih s' hs.1 hs.2
  exact key xs _ rfl rfl

/-! ### C66: the range of times -/

/-- **C66.**  The range goes from the smallest to the greatest timestamp of the patches. -/
theorem C66_range (now : Int) {ps : List TPatch} (hne : ps ≠ []) :
    (∃ p ∈ ps, p.ts = (timeRange now ps).1) ∧ (∃ p ∈ ps, p.ts = (timeRange now ps).2) ∧
    ∀ p ∈ ps, (timeRange now ps).1 ≤ p.ts ∧ p.ts ≤ (timeRange now ps).2 := by
  have key : ∀ (l done : List TPatch) (r : Int × Int), (∃ p ∈ done, p.ts = r.1) → (∃ p ∈ done, p.ts = r.2) →
      (∀ p ∈ done, r.1 ≤ p.ts ∧ p.ts ≤ r.2) →
      let x := l.foldl (fun r q => (if q.ts < r.1 then q.ts else r.1, if r.2 < q.ts then q.ts else r.2)) r
      (∃ p ∈ done ++ l, p.ts = x.1) ∧ (∃ p ∈ done ++ l, p.ts = x.2) ∧ ∀ p ∈ done ++ l, x.1 ≤ p.ts ∧ p.ts ≤ x.2 := by
    intro l
    induction l with
    | nil => intro done r h1 h2 h3; simpa using ⟨h1, h2, h3⟩
    | cons q l ih =>
      intro done r h1 h2 h3
      have := ih (done ++ [q]) (if q.ts < r.1 then q.ts else r.1, if r.2 < q.ts then q.ts else r.2) ?_ ?_ ?_
      · simpa [List.append_assoc] using this
      · simp only
        split
        · exact ⟨q, by simp, rfl⟩
        · obtain ⟨p, hp, e⟩ := h1
          exact ⟨p, by simp [hp], e⟩
      · simp only
        split
        · exact ⟨q, by simp, rfl⟩
        · obtain ⟨p, hp, e⟩ := h2
          exact ⟨p, by simp [hp], e⟩
      · intro p hp
        simp only
        rcases List.mem_append.1 hp with hp | hp
        · obtain ⟨h4, h5⟩ := h3 p hp
          constructor <;> split <;> omega
        · rw [List.mem_singleton] at hp
          subst hp
          constructor <;> split <;> omega
  cases ps with
  | nil => exact absurd rfl hne
  | cons p ps =>
    have := key (p :: ps) [p] (p.ts, p.ts) ⟨p, by simp, rfl⟩ ⟨p, by simp, rfl⟩ (by simp)
    simp only [List.singleton_append] at this
    obtain ⟨⟨a, ha, ha'⟩, ⟨b, hb, hb'⟩, hc⟩ := this
    have fix : ∀ q : TPatch, q ∈ p :: p :: ps → q ∈ p :: ps := fun q hq => by
      rcases List.mem_cons.1 hq with rfl | hq
      · simp
      · exact hq
    exact ⟨⟨a, fix a ha, ha'⟩, ⟨b, fix b hb, hb'⟩, fun q hq => hc q (List.mem_cons_of_mem _ hq)⟩

example : timeRange 0 [⟨b!"add", b!"a", .null, 7⟩, ⟨b!"add", b!"a", .null, 3⟩, ⟨b!"add", b!"a", .null, 9⟩] = (3, 9) := by
  rfl

end Verif
