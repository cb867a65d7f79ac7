import Verif.PropsApply
import Verif.SpecOutcome
/-
Properties C56 and C57: which operations succeed, fail and panic on an object document.
-/
namespace Verif

theorem cls_not_set {k : OpKind} (h1 : k ≠ .add) (h2 : k ≠ .replace) : k.cls ≠ .set := by
  cases k <;> simp_all [OpKind.cls]

theorem cls_not_remove {k : OpKind} (h : k ≠ .remove) : k.cls ≠ .remove := by
  cases k <;> simp_all [OpKind.cls]

/-! ### C56 -/

theorem applyT_refused {op : Op} (hs : op.kind.cls ≠ .set) (hr : op.kind.cls ≠ .remove) :
    ∀ (ps : List Bytes) (_ : ps ≠ []) (m : List (Bytes × Tson)), ((applyT (.obj m) ps op).2).isOk = false
  | [k], _, m => by
    simp only [applyT]
    cases hc : op.kind.cls with
    | set => exact absurd hc hs
    | remove => exact absurd hc hr
    | unimplemented => rfl
    | unknown => rfl
  | k :: k1 :: ks, _, m => by
    unfold applyT
    cases hm : mget m k with
    | none => cases hc : op.kind.cls <;> simp_all [Res.isOk]
    | some v =>
      cases v with
      | leaf p ts => simp only [hm]; rfl
      | null => cases hc : op.kind.cls <;> simp_all [Res.isOk]
      | obj mb =>
        have ih := applyT_refused hs hr (k1 :: ks) (by simp) mb
        simp only [hm]
        rcases hT : applyT (.obj mb) (k1 :: ks) op with ⟨o, r⟩
        rw [hT] at ih
        cases r with
        | ok v => simp [Res.isOk] at ih
        | err => rfl
        | panic => rfl
      | arr l =>
        simp only [hm]
        cases hi : atoi k1 with
        | none => rfl
        | some i => cases hc : op.kind.cls <;> simp_all [Res.isOk]

/-- C56 on object documents: nothing but `add`, `replace` and `remove` succeeds. -/
theorem C56_refused_partial (m : List (Bytes × Tson)) (hm : (Tson.obj m).Wf) (op : Op) (h1 : op.kind ≠ .add)
    (h2 : op.kind ≠ .replace) (h3 : op.kind ≠ .remove) : (applyDoc (.obj m) op).isOk = false := by
  rw [applyDoc_eq hm]
  exact applyT_refused (cls_not_set h1 h2) (cls_not_remove h3) _ (split_ne_nil' _) m

/-- A patch holding such an operation does not succeed either. -/
theorem C56_patch_partial (m : List (Bytes × Tson)) (hm : (Tson.obj m).Wf) (ops : List Op) (op : Op) (ho : op ∈ ops)
    (h1 : op.kind ≠ .add) (h2 : op.kind ≠ .replace) (h3 : op.kind ≠ .remove) :
    (patchDoc (.obj m) ops).isOk = false := by
  rw [patchDoc_eq hm _ (fun h => by simp [h] at ho)]
  induction ops generalizing m with
  | nil => cases ho
  | cons a ops ih =>
    rw [replay]
    cases ha : applyDoc (.obj m) a with
    | ok t =>
      obtain ⟨⟨m', rfl⟩, hw⟩ := replay_obj (ops := [a]) hm (by rw [replay, ha]; rfl)
      rcases List.mem_cons.1 ho with rfl | ho
      · have := C56_refused_partial m hm op h1 h2 h3
        rw [ha] at this; cases this
      · exact ih m' hw ho
    | err => rfl
    | panic => rfl

/-- C56 fails on a root array: below a leaf in the array any operation "succeeds" without doing anything. -/
theorem C56_root_array_fails :
    applyDoc (.arr [.leaf (.bool true) 1]) ⟨.test, b!"0/x", .bool false, 9⟩ = .ok (.arr [.leaf (.bool true) 1]) ∧
    applyDoc (.arr [.leaf (.bool true) 1]) ⟨.other b!"delete", b!"0/x", .nil, 9⟩ = .ok (.arr [.leaf (.bool true) 1]) := by
  decide

/-- The three refused operations of RFC 6902 differ in how they fail: on a member they panic, an unknown name is an
error. -/
example :
    applyDoc (.obj [(b!"a", .leaf (.bool true) 1)]) ⟨.test, b!"a", .bool true, 9⟩ = .panic ∧
    applyDoc (.obj [(b!"a", .leaf (.bool true) 1)]) ⟨.other b!"Replace", b!"a", .bool true, 9⟩ = .err := by decide

/-! ### C57 -/

theorem freshWrite_applyT {op : Op} {p : Prim} (hv : opVal op.value = .prim p) (hc : op.kind.cls = .set) :
    ∀ (ks : List Bytes) (_ : ks ≠ []) (m : List (Bytes × Tson)) (k : Bytes), Absent m k →
      ((applyT (.obj m) (k :: ks) op).2.isOk = true ↔ FreshWrite ks) ∧
      ((applyT (.obj m) (k :: ks) op).2 = .panic ↔ FreshPanic ks)
  | k1 :: ks, _, m, k, ha => by
    have step : applyT (.obj m) (k :: k1 :: ks) op =
        match atoi k1 with
        | some _ => assignFieldT m k (applyT (.arr []) (k1 :: ks) op)
        | none => assignFieldT m k (applyT (.obj []) (k1 :: ks) op) := by
      rw [applyT]
      cases hm : mget m k with
      | none => simp only [hc]; rfl
      | some c => cases ha c hm; simp only [hc]; rfl
    rw [step]
    cases hi : atoi k1 with
    | none =>
      simp only
      cases ks with
      | nil =>
        simp only [applyT, hc, hv, assignFieldT, Res.isOk]
        refine ⟨by simp; exact .key k1 hi, by
          simp
          intro h; cases h with
          | index _ _ i h1 => rw [hi] at h1; cases h1
          | down _ _ _ h2 => cases h2⟩
      | cons k2 ks =>
        have ih := freshWrite_applyT hv hc (k2 :: ks) (by simp) [] k1 (by intro c h; cases h)
        have e1 : FreshWrite (k1 :: k2 :: ks) ↔ FreshWrite (k2 :: ks) :=
          ⟨fun h => by cases h with | down _ _ _ h => exact h, .down _ _ hi⟩
        have e2 : FreshPanic (k1 :: k2 :: ks) ↔ FreshPanic (k2 :: ks) :=
          ⟨fun h => by
            cases h with
            | index _ _ i h1 => rw [hi] at h1; cases h1
            | down _ _ _ h => exact h, .down _ _ hi⟩
        rw [e1, e2, ← ih.1, ← ih.2]
        rcases applyT (.obj []) (k1 :: k2 :: ks) op with ⟨o, r⟩
        cases r <;> simp [assignFieldT, Res.isOk]
    | some i =>
      simp only
      have e2 : FreshPanic (k1 :: ks) ↔ i < 0 :=
        ⟨fun h => by
          cases h with
          | index _ _ j h1 h2 => rw [hi] at h1; cases h1; exact h2
          | down _ _ h1 => (rw [hi] at h1; cases h1), .index _ _ _ hi⟩
      have e1 : FreshWrite (k1 :: ks) ↔ ks = [] ∧ 0 ≤ i :=
        ⟨fun h => by
          cases h with
          | key _ h1 => rw [hi] at h1; cases h1
          | index _ j h1 h2 => rw [hi] at h1; cases h1; exact ⟨rfl, h2⟩
          | down _ _ h1 => (rw [hi] at h1; cases h1), fun ⟨h1, h2⟩ => by subst h1; exact .index _ _ hi h2⟩
      rw [e1, e2]
      unfold applyT
      simp only [hi, List.length_nil, Int.natCast_zero]
      by_cases h0 : 0 ≤ i
      · rw [if_pos h0]
        cases ks with
        | nil => simp [hc, hv, assignFieldT, Res.isOk, h0]
        | cons _ _ => simp [hc, assignFieldT, Res.isOk]; omega
      · rw [if_neg h0]
        cases ks with
        | nil => simp [hc, hv, assignFieldT, Res.isOk, h0, show i < 0 by omega]
        | cons _ _ => simp [assignFieldT, Res.isOk, show i < 0 by omega]

theorem applyT_write_outcome {op : Op} {p : Prim} (hv : opVal op.value = .prim p) (hc : op.kind.cls = .set) :
    ∀ (ks : List Bytes) (_ : ks ≠ []) (m : List (Bytes × Tson)),
      ((applyT (.obj m) ks op).2.isOk = true ↔ CanWrite (.obj m) ks) ∧
      ((applyT (.obj m) ks op).2 = .panic ↔ WritePanics (.obj m) ks)
  | [k], _, m => by
    simp only [applyT, hc, hv, Res.isOk]
    refine ⟨by simp; exact .last m k, by
      simp
      intro h
      cases h with
      | leaf _ _ _ _ _ _ h => exact h rfl
      | down _ _ _ _ _ h => exact h rfl
      | fresh _ _ _ _ h => cases h⟩
  | k :: k1 :: ks, _, m => by
    by_cases ha : Absent m k
    · have hF := freshWrite_applyT hv hc (k1 :: ks) (by simp) m k ha
      rw [hF.1, hF.2]
      constructor
      · refine ⟨.fresh m k _ ha, fun h => ?_⟩
        cases h with
        | down _ _ _ _ h => cases ha _ h
        | array _ _ _ _ _ _ h => cases ha _ h
        | fresh _ _ _ _ h => exact h
      · refine ⟨.fresh m k _ ha, fun h => ?_⟩
        cases h with
        | leaf _ _ _ _ _ h => cases ha _ h
        | down _ _ _ _ h => cases ha _ h
        | array _ _ _ _ _ _ h => cases ha _ h
        | fresh _ _ _ _ h => exact h
    · unfold applyT
      cases hm : mget m k with
      | none => exact absurd (fun c h => by rw [hm] at h; cases h) ha
      | some v =>
        cases v with
        | null => exact absurd (fun c h => by rw [hm] at h; cases h; rfl) ha
        | leaf q ts =>
          simp only [hm, Res.isOk]
          refine ⟨⟨fun h => by simp at h, fun h => ?_⟩, ⟨fun _ => .leaf m k q ts _ hm (by simp), fun _ => by simp⟩⟩
          cases h with
          | down _ _ _ _ h => rw [hm] at h; cases h
          | array _ _ _ _ _ _ h => rw [hm] at h; cases h
          | fresh _ _ _ h => exact absurd h ha
        | obj c =>
          have ih := applyT_write_outcome hv hc (k1 :: ks) (by simp) c
          have e1 : CanWrite (.obj m) (k :: k1 :: ks) ↔ CanWrite (.obj c) (k1 :: ks) :=
            ⟨fun h => by
              cases h with
              | down _ _ c' _ h _ h2 => rw [hm] at h; cases h; exact h2
              | array _ _ _ _ _ _ h => rw [hm] at h; cases h
              | fresh _ _ _ h => exact absurd h ha, .down m k c _ hm (by simp)⟩
          have e2 : WritePanics (.obj m) (k :: k1 :: ks) ↔ WritePanics (.obj c) (k1 :: ks) :=
            ⟨fun h => by
              cases h with
              | leaf _ _ _ _ _ h => rw [hm] at h; cases h
              | down _ _ c' _ h _ h2 => rw [hm] at h; cases h; exact h2
              | array _ _ _ _ _ _ h => rw [hm] at h; cases h
              | fresh _ _ _ h => exact absurd h ha, .down m k c _ hm (by simp)⟩
          rw [e1, e2, ← ih.1, ← ih.2]
          simp only [hm]
          rcases applyT (.obj c) (k1 :: ks) op with ⟨o, r⟩
          cases r <;> simp [assignFieldT, Res.isOk]
        | arr l =>
          have e1 : CanWrite (.obj m) (k :: k1 :: ks) ↔ ∃ j, atoi k1 = some j ∧ 0 ≤ j :=
            ⟨fun h => by
              cases h with
              | down _ _ _ _ h => rw [hm] at h; cases h
              | array _ _ _ _ j _ h h1 h2 => exact ⟨j, h1, h2⟩
              | fresh _ _ _ h => exact absurd h ha, fun ⟨j, h1, h2⟩ => .array m k l _ j _ hm h1 h2⟩
          have e2 : WritePanics (.obj m) (k :: k1 :: ks) ↔ ∃ j, atoi k1 = some j ∧ j < 0 :=
            ⟨fun h => by
              cases h with
              | leaf _ _ _ _ _ h => rw [hm] at h; cases h
              | down _ _ _ _ h => rw [hm] at h; cases h
              | array _ _ _ _ j _ h h1 h2 => exact ⟨j, h1, h2⟩
              | fresh _ _ _ h => exact absurd h ha, fun ⟨j, h1, h2⟩ => .array m k l _ j _ hm h1 h2⟩
          rw [e1, e2]
          simp only [hm]
          cases hi : atoi k1 with
          | none => simp [Res.isOk]
          | some i =>
            simp only [hc, hv]
            by_cases hl : (l.length : Int) ≤ i
            · simp [hl, Res.isOk]; omega
            · by_cases h0 : i < 0
              · simp [hl, h0, Res.isOk]
              · simp [hl, h0, Res.isOk]; omega

/-- C57 for writes of supported values, every object document and path: success and panic are exactly described by the
document and the path; in all other cases an error is returned. -/
theorem C57_write_outcome (m : List (Bytes × Tson)) (hm : (Tson.obj m).Wf) (op : Op) (p : Prim)
    (hk : op.kind = .add ∨ op.kind = .replace) (hv : Writes op.value p) :
    ((applyDoc (.obj m) op).isOk = true ↔ CanWrite (.obj m) (writeParts op.path)) ∧
    (applyDoc (.obj m) op = .panic ↔ WritePanics (.obj m) (writeParts op.path)) := by
  rw [applyDoc_eq hm]
  exact applyT_write_outcome (writes_iff.1 hv) (cls_set hk) _ (split_ne_nil' _) m

theorem applyT_remove_outcome {op : Op} (hc : op.kind.cls = .remove) :
    ∀ (ks : List Bytes) (_ : ks ≠ []) (m : List (Bytes × Tson)),
      ((applyT (.obj m) ks op).2.isOk = true ↔ CanRemove (.obj m) ks) ∧
      ((applyT (.obj m) ks op).2 = .panic ↔ RemovePanics (.obj m) ks)
  | [k], _, m => by
    simp only [applyT, hc, Res.isOk]
    refine ⟨by simp; exact .last m k, by
      simp
      intro h
      cases h with
      | leaf _ _ _ _ _ _ h => exact h rfl
      | down _ _ _ _ _ h => exact h rfl⟩
  | k :: k1 :: ks, _, m => by
    unfold applyT
    have absent : ∀ v, mget m k = v → (∀ c, v = some c → c = .null) →
        ¬ CanRemove (.obj m) (k :: k1 :: ks) ∧ ¬ RemovePanics (.obj m) (k :: k1 :: ks) := by
      intro v hv ha
      refine ⟨fun h => ?_, fun h => ?_⟩
      · cases h with
        | down _ _ _ _ h => rw [hv] at h; cases ha _ h
        | array _ _ _ _ _ _ h => rw [hv] at h; cases ha _ h
      · cases h with
        | leaf _ _ _ _ _ h => rw [hv] at h; cases ha _ h
        | down _ _ _ _ h => rw [hv] at h; cases ha _ h
        | array _ _ _ _ _ _ h => rw [hv] at h; cases ha _ h
    cases hm : mget m k with
    | none =>
      have := absent _ hm (by intro c h; cases h)
      simp only [hm, hc, Res.isOk]
      simp [this.1, this.2]
    | some v =>
      cases v with
      | null =>
        have := absent _ hm (by intro c h; cases h; rfl)
        simp only [hm, hc, Res.isOk]
        simp [this.1, this.2]
      | leaf q ts =>
        simp only [hm, Res.isOk]
        refine ⟨⟨fun h => by simp at h, fun h => ?_⟩, ⟨fun _ => .leaf m k q ts _ hm (by simp), fun _ => by simp⟩⟩
        cases h with
        | down _ _ _ _ h => rw [hm] at h; cases h
        | array _ _ _ _ _ _ h => rw [hm] at h; cases h
      | obj c =>
        have ih := applyT_remove_outcome hc (k1 :: ks) (by simp) c
        have e1 : CanRemove (.obj m) (k :: k1 :: ks) ↔ CanRemove (.obj c) (k1 :: ks) :=
          ⟨fun h => by
            cases h with
            | down _ _ c' _ h _ h2 => rw [hm] at h; cases h; exact h2
            | array _ _ _ _ _ _ h => (rw [hm] at h; cases h), .down m k c _ hm (by simp)⟩
        have e2 : RemovePanics (.obj m) (k :: k1 :: ks) ↔ RemovePanics (.obj c) (k1 :: ks) :=
          ⟨fun h => by
            cases h with
            | leaf _ _ _ _ _ h => rw [hm] at h; cases h
            | down _ _ c' _ h _ h2 => rw [hm] at h; cases h; exact h2
            | array _ _ _ _ _ _ h => (rw [hm] at h; cases h), .down m k c _ hm (by simp)⟩
        rw [e1, e2, ← ih.1, ← ih.2]
        simp only [hm]
        rcases applyT (.obj c) (k1 :: ks) op with ⟨o, r⟩
        cases r <;> simp [assignFieldT, Res.isOk]
      | arr l =>
        have e1 : CanRemove (.obj m) (k :: k1 :: ks) ↔ ∃ j, atoi k1 = some j ∧ 0 ≤ j ∧ j < l.length :=
          ⟨fun h => by
            cases h with
            | down _ _ _ _ h => rw [hm] at h; cases h
            | array _ _ _ _ j _ h h1 h2 h3 => rw [hm] at h; cases h; exact ⟨j, h1, h2, h3⟩,
          fun ⟨j, h1, h2, h3⟩ => .array m k l _ j _ hm h1 h2 h3⟩
        have e2 : RemovePanics (.obj m) (k :: k1 :: ks) ↔ ∃ j, atoi k1 = some j ∧ ¬ (0 ≤ j ∧ j < l.length) :=
          ⟨fun h => by
            cases h with
            | leaf _ _ _ _ _ h => rw [hm] at h; cases h
            | down _ _ _ _ h => rw [hm] at h; cases h
            | array _ _ _ _ j _ h h1 h2 => rw [hm] at h; cases h; exact ⟨j, h1, h2⟩,
          fun ⟨j, h1, h2⟩ => .array m k l _ j _ hm h1 h2⟩
        rw [e1, e2]
        simp only [hm]
        cases hi : atoi k1 with
        | none => simp [Res.isOk]
        | some i =>
          simp only [hc]
          by_cases hl : i < 0 ∨ (l.length : Int) ≤ i
          · simp [hl, Res.isOk]; omega
          · simp [hl, Res.isOk]; omega

/-- C57 for removals. -/
theorem C57_remove_outcome (m : List (Bytes × Tson)) (hm : (Tson.obj m).Wf) (op : Op) (hk : op.kind = .remove) :
    ((applyDoc (.obj m) op).isOk = true ↔ CanRemove (.obj m) (writeParts op.path)) ∧
    (applyDoc (.obj m) op = .panic ↔ RemovePanics (.obj m) (writeParts op.path)) := by
  rw [applyDoc_eq hm]
  exact applyT_remove_outcome (by rw [hk]; rfl) _ (split_ne_nil' _) m

theorem applyT_nil {op : Op} (hv : opVal op.value = .nil) (hc : op.kind.cls = .set) :
    ∀ (ks : List Bytes) (_ : ks ≠ []) (m : List (Bytes × Tson)), (applyT (.obj m) ks op).2.isOk = false
  | [k], _, m => by simp only [applyT, hc, hv, Res.isOk]
  | k :: k1 :: ks, _, m => by
    have ih := applyT_nil hv hc (k1 :: ks) (by simp)
    have fresh : ∀ c, c = none ∨ c = some Tson.null → mget m k = c →
        (applyT (.obj m) (k :: k1 :: ks) op).2.isOk = false := by
      intro c h hm
      unfold applyT
      have hA : (applyT (.arr []) (k1 :: ks) op).2.isOk = false := by
        unfold applyT
        cases hi : atoi k1 with
        | none => rfl
        | some i =>
          simp only [List.length_nil, Int.natCast_zero]
          cases ks with
          | nil => by_cases h0 : 0 ≤ i <;> simp [h0, hc, hv, Res.isOk]
          | cons _ _ =>
            by_cases h0 : 0 ≤ i
            · simp [h0, hc, Res.isOk]
            · simp [h0, show i < 0 by omega, Res.isOk]
      have close : ∀ t, (applyT t (k1 :: ks) op).2.isOk = false →
          (assignFieldT m k (applyT t (k1 :: ks) op)).2.isOk = false := by
        intro t
        rcases applyT t (k1 :: ks) op with ⟨o, r⟩
        cases r <;> simp [assignFieldT, Res.isOk]
      rcases h with rfl | rfl <;> simp only [hm, hc] <;> cases hi : atoi k1
      · exact close _ (ih _)
      · exact close _ hA
      · exact close _ (ih _)
      · exact close _ hA
    cases hm : mget m k with
    | none => exact fresh _ (Or.inl rfl) hm
    | some v =>
      cases v with
      | null => exact fresh _ (Or.inr rfl) hm
      | leaf q ts => unfold applyT; simp only [hm, Res.isOk]
      | obj c =>
        have := ih c
        unfold applyT
        simp only [hm]
        rcases hT : applyT (.obj c) (k1 :: ks) op with ⟨o, r⟩
        rw [hT] at this
        cases r <;> simp_all [assignFieldT, Res.isOk]
      | arr l =>
        unfold applyT
        simp only [hm]
        cases hi : atoi k1 with
        | none => rfl
        | some i => simp only [hc, hv]; by_cases hl : (l.length : Int) ≤ i <;> simp [hl, Res.isOk]

/-- C57 for writes of nil: they never succeed. -/
theorem C57_nil_refused (m : List (Bytes × Tson)) (hm : (Tson.obj m).Wf) (op : Op)
    (hk : op.kind = .add ∨ op.kind = .replace) (hv : op.value = .nil) : (applyDoc (.obj m) op).isOk = false := by
  rw [applyDoc_eq hm]
  exact applyT_nil (by rw [hv]; rfl) (cls_set hk) _ (split_ne_nil' _) m

/-- Every outcome occurs. -/
example :
    let t := Tson.obj [(b!"a", .leaf (.bool true) 1), (b!"l", .arr [.null]), (b!"o", .obj [])]
    CanWrite t (writeParts b!"o/x/3") ∧ CanWrite t (writeParts b!"l/7") ∧ WritePanics t (writeParts b!"a/x") ∧
    WritePanics t (writeParts b!"o/x/-1") ∧ applyDoc t ⟨.add, b!"l/x", .bool true, 1⟩ = .err ∧
    CanRemove t (writeParts b!"o/x") ∧ RemovePanics t (writeParts b!"l/1") ∧
    applyDoc t ⟨.remove, b!"x/y", .nil, 1⟩ = .err := by
  refine ⟨?_, ?_, ?_, ?_, by decide, ?_, ?_, by decide⟩
  · exact .down _ _ [] _ rfl (by decide) (.fresh _ _ _ (by intro c h; cases h) (.index _ 3 (by decide) (by decide)))
  · exact .array _ _ [.null] _ 7 _ rfl (by decide) (by decide)
  · exact .leaf _ _ (.bool true) 1 _ rfl (by decide)
  · exact .down _ _ [] _ rfl (by decide) (.fresh _ _ _ (by intro c h; cases h) (.index _ _ (-1) (by decide) (by decide)))
  · exact .down _ _ [] _ rfl (by decide) (.last _ _)
  · exact .array _ _ [.null] _ 1 _ rfl (by decide) (by decide)

/-! ### The numbers in paths -/

theorem parseDigits_iff (s : Bytes) (n : Nat) : parseDigits s = some n ↔ DecimalText s n := by
  have hd : ∀ c : UInt8, isDigit c = true ↔ ∃ d, d < 10 ∧ c = UInt8.ofNat (48 + d) := by
    intro c
    constructor
    · intro h
      simp only [isDigit, Bool.and_eq_true, decide_eq_true_eq] at h
      have h1 : 48 ≤ c.toNat := h.1
      have h2 : c.toNat ≤ 57 := h.2
      refine ⟨c.toNat - 48, by omega, ?_⟩
      rw [show 48 + (c.toNat - 48) = c.toNat by omega, UInt8.ofNat_toNat]
    · rintro ⟨d, h, rfl⟩; exact isDigit_ofNat h
  have hval : ∀ (ds : List Nat) (acc : Nat), (∀ d ∈ ds, d < 10) →
      digitsVal acc (ds.map fun d => UInt8.ofNat (48 + d)) = ds.foldl (fun a d => 10 * a + d) acc := by
    intro ds
    induction ds with
    | nil => intros; rfl
    | cons d ds ih =>
      intro acc h
      rw [List.map_cons, digitsVal_cons, toNat_digit (h d (by simp)), ih _ fun d hd => h d (by simp [hd]), List.foldl_cons,
        Nat.mul_comm]
  have hex : ∀ s : Bytes, s.all isDigit = true →
      ∃ ds : List Nat, (∀ d ∈ ds, d < 10) ∧ s = ds.map fun d => UInt8.ofNat (48 + d) := by
    intro s
    induction s with
    | nil => exact fun _ => ⟨[], by simp, rfl⟩
    | cons c s ih =>
      intro h
      simp only [List.all_cons, Bool.and_eq_true] at h
      obtain ⟨d, hd', rfl⟩ := (hd c).1 h.1
      obtain ⟨ds, hds, rfl⟩ := ih h.2
      exact ⟨d :: ds, by simpa using ⟨hd', hds⟩, rfl⟩
  unfold parseDigits DecimalText
  constructor
  · intro h
    split at h
    · next hs =>
      obtain ⟨ds, hds, rfl⟩ := hex s hs.2
      refine ⟨ds, by rintro rfl; exact hs.1 rfl, hds, rfl, ?_⟩
      rw [hval ds 0 hds] at h
      exact (Option.some.inj h).symm
    · cases h
  · rintro ⟨ds, hne, hds, rfl, rfl⟩
    rw [if_pos, hval ds 0 hds]
    refine ⟨by simpa using hne, ?_⟩
    rw [List.all_eq_true]
    intro c hc
    obtain ⟨d, hd', rfl⟩ := List.mem_map.1 hc
    exact isDigit_ofNat (hds d hd')

/-- **C56.**  A segment of a path counts as an index exactly if it is a decimal number of 64 bits, with or without a
sign. -/
theorem C56_index (s : Bytes) (i : Int) : atoi s = some i ↔ IndexText s i := by
  have hsigned : signedDigits s = some i ↔ ∃ n : Nat, (DecimalText s n ∧ i = n) ∨ (∃ r, s = 43 :: r ∧ DecimalText r n ∧ i = n) ∨
      (∃ r, s = 45 :: r ∧ DecimalText r n ∧ i = -n) := by
    have sign : ∀ c r n, DecimalText (c :: r) n → c ≠ 43 ∧ c ≠ 45 := by
      intro c r n h
      have := (parseDigits_iff _ _).2 h
      unfold parseDigits at this
      split at this
      · next hs =>
        have := hs.2
        simp only [List.all_cons, Bool.and_eq_true] at this
        constructor <;> (rintro rfl; exact absurd this.1 (by decide))
      · cases this
    cases s with
    | nil =>
      simp only [signedDigits]
      refine ⟨fun h => (by cases h), ?_⟩
      rintro ⟨n, ⟨⟨ds, h, _, h', _⟩, _⟩ | ⟨_, h, _⟩ | ⟨_, h, _⟩⟩
      · simp only [List.nil_eq, List.map_eq_nil_iff] at h'; exact absurd h' h
      · cases h
      · cases h
    | cons c r =>
      simp only [signedDigits]
      by_cases h1 : c = 43
      · simp only [h1, if_true, Option.map_eq_some_iff, parseDigits_iff]
        constructor
        · rintro ⟨n, h, rfl⟩; exact ⟨n, .inr (.inl ⟨r, rfl, h, rfl⟩)⟩
        · rintro ⟨n, ⟨h, _⟩ | ⟨_, h, h', e⟩ | ⟨_, h, _⟩⟩
          · exact absurd rfl (sign _ _ _ h).1
          · cases h; exact ⟨n, h', e.symm⟩
          · cases h
      · by_cases h2 : c = 45
        · simp only [h2, show (45 : UInt8) ≠ 43 by decide, if_false, if_true, Option.map_eq_some_iff, parseDigits_iff]
          constructor
          · rintro ⟨n, h, rfl⟩; exact ⟨n, .inr (.inr ⟨r, rfl, h, rfl⟩)⟩
          · rintro ⟨n, ⟨h, _⟩ | ⟨_, h, _⟩ | ⟨_, h, h', e⟩⟩
            · exact absurd rfl (sign _ _ _ h).2
            · cases h
            · cases h; exact ⟨n, h', e.symm⟩
        · simp only [h1, h2, if_false, Option.map_eq_some_iff, parseDigits_iff]
          constructor
          · rintro ⟨n, h, rfl⟩; exact ⟨n, .inl ⟨h, rfl⟩⟩
          · rintro ⟨n, ⟨h, e⟩ | ⟨_, h, _⟩ | ⟨_, h, _⟩⟩
            · exact ⟨n, h, e.symm⟩
            · cases h; exact absurd rfl h1
            · cases h; exact absurd rfl h2
  unfold atoi IndexText
  rw [Option.bind_eq_some_iff]
  simp only [minInt64, maxInt64]
  constructor
  · rintro ⟨v, hv, h⟩
    split at h
    · next hr => cases h; exact ⟨by omega, hsigned.1 hv⟩
    · cases h
  · rintro ⟨hr, h⟩
    exact ⟨i, hsigned.2 h, by rw [if_pos (by omega)]⟩

example : IndexText b!"-007" (-7) := (C56_index _ _).1 (by decide)
example : ¬ ∃ i, IndexText b!"9223372036854775808" i := fun ⟨_, h⟩ => by
  rw [← C56_index] at h; exact absurd (h.symm.trans (by decide : _ = none)) (by simp)

end Verif
