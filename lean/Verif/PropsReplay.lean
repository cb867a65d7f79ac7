import Verif.PropsCompact
import Verif.PropsSnapshot
/-
Property C17: replaying a compacted log.
-/
namespace Verif

/-- What is at a location inside objects: a leaf, or nothing. -/
inductive HoldsAt : Tson → List Bytes → Option (Prim × Int) → Prop
  | here (m : List (Bytes × Tson)) (k x) : mget m k = x.map (fun y => Tson.leaf y.1 y.2) → HoldsAt (.obj m) [k] x
  | down (m : List (Bytes × Tson)) (k c ks x) : mget m k = some c → HoldsAt c ks x → HoldsAt (.obj m) (k :: ks) x

/-- What an operation leaves at its location. -/
def Leaves (o : Op) (x : Option (Prim × Int)) : Prop :=
  ((o.kind = .add ∨ o.kind = .replace) ∧ ∃ p, Writes o.value p ∧ x = some (p, o.ts)) ∨
  (o.kind = .remove ∧ x = none)

theorem HoldsAt.obj {t ks x} (h : HoldsAt t ks x) : ∃ m, t = .obj m := by cases h <;> exact ⟨_, rfl⟩

theorem HoldsAt.ne_nil {t ks x} (h : HoldsAt t ks x) : ks ≠ [] := by cases h <;> simp

theorem mget_other_member (m : List (Bytes × Tson)) (part : Bytes) (rest : List Bytes) (op : Op)
    (k : Bytes) (hk : k ≠ part) {o : Tson} {m' : List (Bytes × Tson)}
    (h : applyT (.obj m) (part :: rest) op = (o, .ok (.obj m'))) : mget m' k = mget m k := by
  have h1 := applyT_other_member m part rest op k hk
  have h2 := applyT_obj_ok _ _ _ _ _ h
  rw [h] at h1
  simp only at h1
  rw [h2] at h1
  unfold childOf at h1
  dsimp only at h1
  cases ha : mget m' k <;> cases hb : mget m k <;> rw [ha, hb] at h1 <;> simp_all

theorem applyT_obj_res {m : List (Bytes × Tson)} {ps : List Bytes} {op : Op} {o t' : Tson}
    (h : applyT (.obj m) ps op = (o, .ok t')) : ∃ m', t' = .obj m' := by
  obtain ⟨m', hm'⟩ := applyT_obj m ps op
  rw [h] at hm'
  have := applyT_obj_ok _ _ _ _ _ h
  exact ⟨m', by rw [← this]; exact hm'⟩

/-- An operation elsewhere does not disturb a location. -/
theorem HoldsAt.frame {t qs x} (h : HoldsAt t qs x) (op : Op) : ∀ {ps o t'}, Independent ps qs →
    applyT t ps op = (o, .ok t') → HoldsAt t' qs x := by
  induction h with
  | here m k x hm =>
    intro ps o t' hi ha
    obtain ⟨m', rfl⟩ := applyT_obj_res ha
    cases ps with
    | nil => exact absurd (List.nil_prefix) hi.1
    | cons k' ps =>
      by_cases hk : k = k'
      · subst hk; exact absurd (by simp) hi.2
      · exact .here m' k x (by rw [mget_other_member m k' ps op k hk ha]; exact hm)
  | down m k c ks x hm hc ih =>
    intro ps o t' hi ha
    obtain ⟨m', rfl⟩ := applyT_obj_res ha
    cases ps with
    | nil => exact absurd (List.nil_prefix) hi.1
    | cons k' ps =>
      by_cases hk : k = k'
      · subst hk
        have hi' : Independent ps ks :=
          ⟨fun h => hi.1 (by simpa using h), fun h => hi.2 (by simpa using h)⟩
        obtain ⟨mc, rfl⟩ := hc.obj
        cases ps with
        | nil => exact absurd (List.nil_prefix) hi'.1
        | cons p ps =>
          simp only [applyT, hm] at ha
          rcases hR : applyT (.obj mc) (p :: ps) op with ⟨o', r⟩
          simp only [applyT] at hR
          rw [hR] at ha
          cases r with
          | ok c' =>
            simp only [assignFieldT, Prod.mk.injEq, Res.ok.injEq, Tson.obj.injEq] at ha
            obtain ⟨-, rfl⟩ := ha
            exact .down _ k c' ks x (mget_mset_self _ _ _) (ih hi' (o := o') (by simp only [applyT]; exact hR))
          | err => simp [assignFieldT] at ha
          | panic => simp [assignFieldT] at ha
      · exact .down m' k c ks x (by rw [mget_other_member m k' ps op k hk ha]; exact hm) hc

theorem leaves_cls {o : Op} {x} (h : Leaves o x) :
    (o.kind.cls = .set ∧ ∃ p, opVal o.value = .prim p ∧ x = some (p, o.ts)) ∨
    (o.kind.cls = .remove ∧ x = none) := by
  rcases h with ⟨hk, p, hw, hx⟩ | ⟨hk, hx⟩
  · exact Or.inl ⟨cls_set hk, p, writes_iff.1 hw, hx⟩
  · exact Or.inr ⟨by rw [hk]; rfl, hx⟩

/-- An operation on a path without indices leaves its value at its location. -/
theorem applyT_holds {op : Op} {x} (hl : Leaves op x) (ps : List Bytes) (hne : ps ≠ [])
    (hp : ∀ seg ∈ ps, atoi seg = none) : ∀ {m o t'}, applyT (.obj m) ps op = (o, .ok t') → HoldsAt t' ps x := by
  induction ps with
  | nil => exact absurd rfl hne
  | cons k ps ih =>
    intro m o t' ha
    cases ps with
    | nil =>
      rcases leaves_cls hl with ⟨hc, p, hv, rfl⟩ | ⟨hc, rfl⟩
      · simp only [applyT, hc, hv, Prod.mk.injEq, Res.ok.injEq] at ha
        rw [← ha.2]
        exact .here _ k _ (by rw [mget_mset_self]; rfl)
      · simp only [applyT, hc, Prod.mk.injEq, Res.ok.injEq] at ha
        rw [← ha.2]
        exact .here _ k _ (by rw [mget_mdel_self]; rfl)
    | cons p ps =>
      have ih' := fun {m o t'} => ih (by simp) (fun seg hs => hp seg (by simp only [List.mem_cons] at hs ⊢; exact Or.inr hs)) (m := m) (o := o) (t' := t')
      have hat : atoi p = none := hp p (by simp)
      have hA : ∀ mb, assignFieldT m k (applyT (.obj mb) (p :: ps) op) = (o, .ok t') →
          HoldsAt t' (k :: p :: ps) x := by
        intro mb h
        rcases hR : applyT (.obj mb) (p :: ps) op with ⟨o', r⟩
        rw [hR] at h
        cases r with
        | ok c' =>
          simp only [assignFieldT, Prod.mk.injEq, Res.ok.injEq] at h
          rw [← h.2]
          exact .down _ k c' _ x (mget_mset_self _ _ _) (ih' hR)
        | err => simp [assignFieldT] at h
        | panic => simp [assignFieldT] at h
      rw [applyT] at ha
      dsimp only at ha
      rw [hat] at ha
      dsimp only at ha
      cases hg : mget m k with
      | none =>
        rw [hg] at ha
        dsimp only at ha
        split at ha
        · exact hA [] ha
        · simp at ha
      | some c =>
        rw [hg] at ha
        cases c with
        | leaf p' ts => simp at ha
        | obj mb => exact hA mb ha
        | arr l => simp at ha
        | null =>
          dsimp only at ha
          split at ha
          · exact hA [] ha
          · simp at ha

theorem SamePrim.refl (p : Prim) : SamePrim p p := Or.inl rfl

theorem SameVals.refl (t : Tson) : SameVals t t := by
  induction t using Tson.induction with
  | null => exact .null
  | leaf p ts => exact .leaf p p ts ts (.refl p)
  | obj m ih =>
    refine .obj m m (fun _ => rfl) fun k c c' h1 h2 => ?_
    rw [h1] at h2; cases h2
    exact ih (k, c) (mget_mem h1)
  | arr l ih =>
    refine .arr l l rfl fun i c c' h1 h2 => ?_
    rw [h1] at h2; cases h2
    exact ih c (List.mem_of_getElem? h1)

theorem SameVals.mset {m m' : List (Bytes × Tson)} {c c' : Tson} (h : SameVals (.obj m) (.obj m'))
    (hc : SameVals c c') (k : Bytes) : SameVals (.obj (mset m k c)) (.obj (mset m' k c')) := by
  cases h with
  | obj _ _ h1 h2 =>
    refine .obj _ _ (fun k' => ?_) fun k' d d' hd hd' => ?_
    · rw [mget_mset, mget_mset]; split <;> simp [h1 k']
    · rw [mget_mset] at hd hd'
      by_cases hk : k' = k
      · simp [hk] at hd hd'; rw [← hd, ← hd']; exact hc
      · simp [hk] at hd hd'; exact h2 k' d d' hd hd'

theorem SameVals.mdel {m m' : List (Bytes × Tson)} (h : SameVals (.obj m) (.obj m')) (k : Bytes) :
    SameVals (.obj (mdel m k)) (.obj (mdel m' k)) := by
  cases h with
  | obj _ _ h1 h2 =>
    refine .obj _ _ (fun k' => ?_) fun k' d d' hd hd' => ?_
    · by_cases hk : k' = k
      · subst hk; rw [mget_mdel_self, mget_mdel_self]
      · rw [mget_mdel_ne _ hk, mget_mdel_ne _ hk]; exact h1 k'
    · by_cases hk : k' = k
      · subst hk; rw [mget_mdel_self] at hd; simp at hd
      · rw [mget_mdel_ne _ hk] at hd hd'; exact h2 k' d d' hd hd'

/-- The value written over an equal value: nothing changes but the timestamp. -/
theorem SameVals.overwrite {op y : Op} {x} (hy : Leaves y x) (ho : SimpleOp op)
    (hs : SameGo y.value op.value) (hyv : y.kind = .remove → y.value = .nil) {u ps}
    (hu : HoldsAt u ps x) : ∀ {t o t'}, SameVals t u → applyT t ps op = (o, .ok t') → SameVals t' u := by
  -- both operations are of the same sort
  have key : (∃ p q, op.kind.cls = .set ∧ opVal op.value = .prim q ∧ x = some (p, y.ts) ∧ SamePrim q p) ∨
      (op.kind.cls = .remove ∧ x = none) := by
    rcases ho.1 with ⟨hk, q, hq⟩ | ⟨hk, hv⟩
    · left
      rcases hy with ⟨-, p, hp, hx⟩ | ⟨hk', hx⟩
      · refine ⟨p, q, cls_set hk, writes_iff.1 hq, hx, ?_⟩
        generalize op.value = b at hq hs
        generalize y.value = a at hp hs
        cases hs <;> cases hp <;> cases hq
        · exact .refl _
        · rename_i a b h
          exact Or.inr ⟨b, a, rfl, rfl, by rw [F64.feq_symm]; exact h⟩
        · exact .refl _
        · exact .refl _
      · rw [hyv hk'] at hs
        generalize op.value = b at hq hs
        cases hs; cases hq
    · right
      refine ⟨by rw [hk]; rfl, ?_⟩
      rcases hy with ⟨-, p, hp, hx⟩ | ⟨hk', hx⟩
      · rw [hv] at hs
        generalize y.value = a at hp hs
        cases hs; cases hp
      · exact hx
  induction hu with
  | here m k x hm =>
    intro t o t' hst ha
    cases hst with
    | obj m1 _ h1 h2 =>
      rcases key with ⟨p, q, hc, hv, rfl, hpq⟩ | ⟨hc, rfl⟩
      · simp only [applyT, hc, hv, Prod.mk.injEq, Res.ok.injEq] at ha
        rw [← ha.2]
        refine .obj _ _ (fun k' => ?_) fun k' d d' hd hd' => ?_
        · rw [mget_mset]
          by_cases hk : k' = k
          · subst hk; simp [hm]
          · simp [hk, h1 k']
        · rw [mget_mset] at hd
          by_cases hk : k' = k
          · subst hk
            simp at hd
            rw [hm] at hd'
            simp at hd'
            rw [← hd, ← hd']
            exact .leaf _ _ _ _ hpq
          · simp [hk] at hd; exact h2 k' d d' hd hd'
      · simp only [applyT, hc, Prod.mk.injEq, Res.ok.injEq] at ha
        rw [← ha.2]
        refine .obj _ _ (fun k' => ?_) fun k' d d' hd hd' => ?_
        · by_cases hk : k' = k
          · subst hk; rw [mget_mdel_self, hm]; rfl
          · rw [mget_mdel_ne _ hk]; exact h1 k'
        · by_cases hk : k' = k
          · subst hk; rw [mget_mdel_self] at hd; simp at hd
          · rw [mget_mdel_ne _ hk] at hd; exact h2 k' d d' hd hd'
  | down m k c ks x hm hc ih =>
    intro t o t' hst ha
    cases hst with
    | obj m1 _ h1 h2 =>
      obtain ⟨mc, rfl⟩ := hc.obj
      have hex : ∃ c1, mget m1 k = some c1 := by
        have := h1 k
        rw [hm] at this
        cases hq : mget m1 k with
        | none => rw [hq] at this; simp at this
        | some c1 => exact ⟨c1, rfl⟩
      obtain ⟨c1, hc1⟩ := hex
      have hs1 := h2 k _ _ hc1 hm
      cases hs1 with
      | obj mc1 _ e1 e2 =>
        obtain ⟨p, ks', rfl⟩ := List.exists_cons_of_ne_nil hc.ne_nil
        simp only [applyT, hc1] at ha
        rcases hR : applyT (.obj mc1) (p :: ks') op with ⟨o', r⟩
        simp only [applyT] at hR
        rw [hR] at ha
        cases r with
        | ok c' =>
          simp only [assignFieldT, Prod.mk.injEq, Res.ok.injEq] at ha
          rw [← ha.2]
          have hcc := ih hy key (t := .obj mc1) (o := o') (t' := c') (.obj _ _ e1 e2) (by simp only [applyT]; exact hR)
          refine .obj _ _ (fun k' => ?_) fun k' d d' hd hd' => ?_
          · rw [mget_mset]
            by_cases hk : k' = k
            · subst hk; simp [hm]
            · simp [hk, h1 k']
          · rw [mget_mset] at hd
            by_cases hk : k' = k
            · subst hk
              simp at hd
              rw [hm] at hd'
              cases hd'
              rw [← hd]; exact hcc
            · simp [hk] at hd; exact h2 k' d d' hd hd'
        | err => simp [assignFieldT] at ha
        | panic => simp [assignFieldT] at ha

/-- The same operation on two documents with the same values. -/
theorem SameVals.applyT {op : Op} (ho : SimpleOp op) (ps : List Bytes) (hne : ps ≠ [])
    (hp : ∀ seg ∈ ps, atoi seg = none) : ∀ {m m' o t'}, SameVals (.obj m) (.obj m') →
    applyT (.obj m) ps op = (o, .ok t') →
    ∃ o' u', Verif.applyT (.obj m') ps op = (o', .ok u') ∧ SameVals t' u' := by
  induction ps with
  | nil => exact absurd rfl hne
  | cons k ps ih =>
    intro m m' o t' hst ha
    cases ps with
    | nil =>
      rcases ho.1 with ⟨hk, q, hq⟩ | ⟨hk, hv⟩
      · have hc := cls_set hk
        have hv := writes_iff.1 hq
        simp only [Verif.applyT, hc, hv, Prod.mk.injEq, Res.ok.injEq] at ha ⊢
        rw [← ha.2]
        exact ⟨_, _, ⟨rfl, rfl⟩, hst.mset (SameVals.refl _) k⟩
      · have hc : op.kind.cls = .remove := by rw [hk]; rfl
        simp only [Verif.applyT, hc, Prod.mk.injEq, Res.ok.injEq] at ha ⊢
        rw [← ha.2]
        exact ⟨_, _, ⟨rfl, rfl⟩, hst.mdel k⟩
    | cons p ps =>
      have ih' := fun {m m' o t'} => ih (by simp)
        (fun seg hs => hp seg (by simp only [List.mem_cons] at hs ⊢; exact Or.inr hs)) (m := m) (m' := m')
        (o := o) (t' := t')
      have hat : atoi p = none := hp p (by simp)
      have hA : ∀ mb mb', SameVals (.obj mb) (.obj mb') →
          assignFieldT m k (Verif.applyT (.obj mb) (p :: ps) op) = (o, .ok t') →
          ∃ o' u', assignFieldT m' k (Verif.applyT (.obj mb') (p :: ps) op) = (o', .ok u') ∧ SameVals t' u' := by
        intro mb mb' hs h
        rcases hR : Verif.applyT (.obj mb) (p :: ps) op with ⟨o', r⟩
        rw [hR] at h
        cases r with
        | ok c' =>
          simp only [assignFieldT, Prod.mk.injEq, Res.ok.injEq] at h
          rw [← h.2]
          obtain ⟨o2, u2, h2, h3⟩ := ih' hs hR
          rw [h2]
          exact ⟨_, _, rfl, hst.mset h3 k⟩
        | err => simp [assignFieldT] at h
        | panic => simp [assignFieldT] at h
      rw [Verif.applyT] at ha ⊢
      dsimp only at ha ⊢
      rw [hat] at ha ⊢
      dsimp only at ha ⊢
      have hst' := hst
      cases hst with
      | obj _ _ h1 h2 =>
      have h1k := h1 k
      cases hg : mget m k with
      | none =>
        rw [hg] at ha h1k
        have hg' : mget m' k = none := by
          cases hq : mget m' k with
          | none => rfl
          | some _ => rw [hq] at h1k; simp at h1k
        rw [hg']
        dsimp only at ha ⊢
        split at ha
        · rename_i hc; rw [hc] at *; exact hA [] [] (.refl _) ha
        · simp at ha
      | some c =>
        have hg' : ∃ c', mget m' k = some c' := by
          cases hq : mget m' k with
          | none => rw [hq, hg] at h1k; simp at h1k
          | some c' => exact ⟨c', rfl⟩
        obtain ⟨c', hg'⟩ := hg'
        have hcc := h2 k c c' hg hg'
        rw [hg] at ha
        rw [hg']
        cases hcc with
        | leaf => simp at ha
        | obj mb mb' e1 e2 => exact hA mb mb' (.obj _ _ e1 e2) ha
        | arr => simp at ha
        | null =>
          dsimp only at ha ⊢
          split at ha
          · rename_i hc; rw [hc] at *; exact hA [] [] (.refl _) ha
          · simp at ha

theorem SamePrim.symm {p q : Prim} (h : SamePrim p q) : SamePrim q p := by
  rcases h with rfl | ⟨a, b, rfl, rfl, h⟩
  · exact .refl _
  · exact Or.inr ⟨b, a, rfl, rfl, by rw [F64.feq_symm]; exact h⟩

theorem SameVals.symm {t u : Tson} (h : SameVals t u) : SameVals u t := by
  induction h with
  | null => exact .null
  | leaf p q a b h => exact .leaf _ _ _ _ h.symm
  | obj m m' h1 h2 ih => exact .obj _ _ (fun k => (h1 k).symm) fun k c c' hc hc' => ih k c' c hc' hc
  | arr l l' h1 h2 ih => exact .arr _ _ h1.symm fun i c c' hc hc' => ih i c' c hc' hc

/-- An operation on a location that exists in a document with the same values succeeds. -/
theorem HoldsAt.ok {op : Op} (ho : SimpleOp op) {u ps x} (hu : HoldsAt u ps x) :
    ∀ {t}, SameVals t u → ∃ o t', Verif.applyT t ps op = (o, .ok t') := by
  induction hu with
  | here m k x hm =>
    intro t hst
    cases hst with
    | obj m1 _ h1 h2 =>
      rcases ho.1 with ⟨hk, q, hq⟩ | ⟨hk, hv⟩
      · have hc := cls_set hk
        have hv := writes_iff.1 hq
        exact ⟨_, _, by simp only [Verif.applyT, hc, hv]; rfl⟩
      · have hc : op.kind.cls = .remove := by rw [hk]; rfl
        exact ⟨_, _, by simp only [Verif.applyT, hc]; rfl⟩
  | down m k c ks x hm hc ih =>
    intro t hst
    cases hst with
    | obj m1 _ h1 h2 =>
      have hex : ∃ c1, mget m1 k = some c1 := by
        have := h1 k
        rw [hm] at this
        cases hq : mget m1 k with
        | none => rw [hq] at this; simp at this
        | some c1 => exact ⟨c1, rfl⟩
      obtain ⟨c1, hc1⟩ := hex
      have hs1 := h2 k _ _ hc1 hm
      obtain ⟨o', t', hR⟩ := ih hs1
      obtain ⟨mc, rfl⟩ := hc.obj
      cases hs1 with
      | obj mc1 _ e1 e2 =>
        obtain ⟨p, ks', rfl⟩ := List.exists_cons_of_ne_nil hc.ne_nil
        simp only [Verif.applyT] at hR
        exact ⟨_, _, by simp only [Verif.applyT, hc1]; rw [hR]; rfl⟩

/-- What the last kept operation on a path wrote is in the document. -/
def Written (pre : List Entry) (u : Tson) : Prop :=
  ∀ path y, lastKept pre path = some y → ∃ x, Leaves y x ∧ HoldsAt u (writeParts path) x

theorem SimpleOp.leaves {o : Op} (h : SimpleOp o) : ∃ x, Leaves o x := by
  rcases h.1 with ⟨hk, q, hq⟩ | ⟨hk, hv⟩
  · exact ⟨_, Or.inl ⟨hk, q, hq, rfl⟩⟩
  · exact ⟨_, Or.inr ⟨hk, rfl⟩⟩

theorem SimpleOp.remove_nil {o : Op} (h : SimpleOp o) (hr : o.kind = .remove) : o.value = .nil := by
  rcases h.1 with ⟨hk, -⟩ | ⟨-, hv⟩
  · rcases hk with hk | hk <;> rw [hk] at hr <;> cases hr
  · exact hv

theorem replay_kept {P : Bytes → Prop} (rest : List Entry) : ∀ {pre : List Entry} {m mu : List (Bytes × Tson)},
    (∀ a e b, rest = a ++ e :: b → (e.kept = true ↔ (P e.op.path → Changes (pre ++ a) e.op))) →
    SimpleLog ((pre ++ rest).map Entry.op) → (Tson.obj m).Wf → (Tson.obj mu).Wf →
    SameVals (.obj m) (.obj mu) → Written pre (.obj mu) →
    SameOut (replay (.obj m) (rest.map Entry.op)) (replay (.obj mu) ((rest.filter Entry.kept).map Entry.op)) := by
  induction rest with
  | nil =>
    intro pre m mu _ _ _ _ hs _
    refine ⟨rfl, fun t u ht hu => ?_⟩
    simp only [List.map_nil, replay, Res.ok.injEq, List.filter_nil] at ht hu
    rw [← ht, ← hu]; exact hs
  | cons e rest ih =>
    intro pre m mu hM hL hw hwu hs hW
    have hL' : SimpleLog (((pre ++ [e]) ++ rest).map Entry.op) := by simpa using hL
    have he : SimpleOp e.op := hL.1 _ (by simp)
    have hne := split_ne_nil' e.op.path
    have hM' : ∀ a f b, rest = a ++ f :: b →
        (f.kept = true ↔ (P f.op.path → Changes ((pre ++ [e]) ++ a) f.op)) := by
      intro a f b h
      have := hM (e :: a) f b (by rw [h]; rfl)
      simpa using this
    cases hk : e.kept with
    | true =>
      simp only [List.map_cons, List.filter_cons, hk, if_true, replay, applyDoc_eq hw, applyDoc_eq hwu]
      rcases hT : applyOpT (.obj m) e.op with ⟨o, r⟩
      rcases hU : applyOpT (.obj mu) e.op with ⟨o', r'⟩
      have fwd : ∀ t', r = .ok t' → ∃ u', r' = .ok u' ∧ SameVals t' u' := by
        intro t' hr
        subst hr
        obtain ⟨o2, u', h1, h2⟩ := SameVals.applyT he _ hne he.2 hs hT
        unfold applyOpT at hU
        rw [hU] at h1
        cases h1
        exact ⟨_, rfl, h2⟩
      have bwd : ∀ u', r' = .ok u' → ∃ t', r = .ok t' := by
        intro u' hr
        subst hr
        obtain ⟨o2, t', h1, h2⟩ := SameVals.applyT he _ hne he.2 hs.symm hU
        unfold applyOpT at hT
        rw [hT] at h1
        cases h1
        exact ⟨_, rfl⟩
      cases r with
      | ok t' =>
        obtain ⟨u', rfl, hs'⟩ := fwd t' rfl
        obtain ⟨m1, rfl⟩ := applyT_obj_res hT
        obtain ⟨mu1, rfl⟩ := applyT_obj_res hU
        refine ih hM' hL' (applyOpT_wf hw e.op (by rw [hT])) (applyOpT_wf hwu e.op (by rw [hU])) hs' ?_
        intro path y hy
        rw [lastKept_append] at hy
        simp only [lastKept, hk, true_and] at hy
        by_cases hp : e.op.path = path
        · simp only [hp, if_true, Option.some.injEq] at hy
          subst hy
          obtain ⟨x, hx⟩ := he.leaves
          rw [← hp]
          exact ⟨x, hx, applyT_holds hx _ hne he.2 hU⟩
        · simp only [hp, if_false] at hy
          obtain ⟨x, hx, hh⟩ := hW path y hy
          obtain ⟨hyp, hym⟩ := lastKept_path hy
          refine ⟨x, hx, hh.frame e.op ?_ hU⟩
          have := hL.2 e.op (by simp) y (by rw [List.map_append]; exact List.mem_append_left _ hym)
          rw [hyp] at this
          exact this.resolve_left hp
      | err =>
        cases r' with
        | ok u' => obtain ⟨t', h⟩ := bwd u' rfl; cases h
        | err => exact ⟨rfl, fun t u h => by cases h⟩
        | panic => exact ⟨rfl, fun t u h => by cases h⟩
      | panic =>
        cases r' with
        | ok u' => obtain ⟨t', h⟩ := bwd u' rfl; cases h
        | err => exact ⟨rfl, fun t u h => by cases h⟩
        | panic => exact ⟨rfl, fun t u h => by cases h⟩
    | false =>
      have hnot : ¬ (P e.op.path → Changes pre e.op) := by
        intro h
        have := (hM [] e rest rfl).2 (by simpa using h)
        rw [hk] at this; cases this
      have hex : ∃ y, LastKept pre e.op.path y ∧ SameGo y.value e.op.value := by
        unfold Changes at hnot
        simp only [Classical.not_imp, Classical.not_forall, Classical.not_not] at hnot
        obtain ⟨-, y, h1, h2⟩ := hnot
        exact ⟨y, h1, h2⟩
      obtain ⟨y, hy, hsame⟩ := hex
      have hy' := lastKept_iff.2 hy
      obtain ⟨x, hx, hh⟩ := hW _ _ hy'
      have hym := (lastKept_path hy').2
      have hys : SimpleOp y := hL.1 y (by rw [List.map_append]; exact List.mem_append_left _ hym)
      obtain ⟨o, t', hT⟩ := hh.ok he hs
      have hs' := SameVals.overwrite hx he hsame hys.remove_nil hh hs hT
      obtain ⟨m1, rfl⟩ := applyT_obj_res hT
      simp only [List.map_cons, List.filter_cons, hk, replay, applyDoc_eq hw, applyOpT, hT, Res.bind]
      refine ih hM' hL' (applyOpT_wf hw e.op (by unfold applyOpT; rw [hT])) hwu hs' ?_
      intro path z hz
      rw [lastKept_append] at hz
      simp only [lastKept, hk] at hz
      exact hW path z (by simpa using hz)

theorem filter_le_prefix (l : List Entry) (h : (l.map Entry.version).Pairwise (· ≤ ·)) (v : Nat) :
    ∃ b, l = l.filter (fun e => decide (e.version ≤ v)) ++ b := by
  induction l with
  | nil => exact ⟨[], rfl⟩
  | cons e l ih =>
    rw [List.map_cons, List.pairwise_cons] at h
    by_cases hv : e.version ≤ v
    · obtain ⟨b, hb⟩ := ih h.2
      exact ⟨b, by simp only [List.filter_cons, hv, decide_true, if_true, List.cons_append]; rw [← hb]⟩
    · refine ⟨e :: l, ?_⟩
      have : (e :: l).filter (fun e => decide (e.version ≤ v)) = [] := by
        rw [List.filter_eq_nil_iff]
        intro f hf
        rcases List.mem_cons.1 hf with rfl | hf
        · simpa using hv
        · have := h.1 f.version (List.mem_map_of_mem hf)
          simp; omega
      rw [this]; rfl

theorem opsUpTo_records {g : Lgm} {n : Nat} (h : g.Versions n) {v : Nat} (hv : v ≤ n) :
    opsUpTo g v = ((records g).filter fun r => decide (r.1 ≤ v)).map Prod.snd := by
  have h0 : mget g.patches 0 = none := by rw [mget_eq_none, h.2.2]; omega
  have key : ∀ (vs : List Nat) (f : Nat → List Op),
      ((vs.flatMap fun w => (f w).map fun o => (w, o)).filter fun r => decide (r.1 ≤ v)).map Prod.snd =
      (vs.filter fun w => decide (w ≤ v)).flatMap f := by
    intro vs f
    induction vs with
    | nil => rfl
    | cons w vs ih =>
      rw [List.flatMap_cons, List.filter_append, List.map_append, ih, List.filter_cons]
      by_cases hw : w ≤ v
      · simp [hw, List.filter_map, Function.comp_def]
      · simp [hw, List.filter_map, Function.comp_def]
  unfold records
  rw [key, h.1, List.range_eq_range', List.range'_succ, List.filter_cons]
  simp only [Nat.zero_le, decide_true, if_true, List.flatMap_cons, h0, List.nil_append]
  have : (List.range' (0 + 1) n).filter (fun w => decide (w ≤ v)) = List.range' 1 v := by
    obtain ⟨d, rfl⟩ := Nat.exists_eq_add_of_le hv
    rw [show 0 + 1 = 1 from rfl, ← List.range'_append_1 , List.filter_append]
    rw [List.filter_eq_self.2, List.filter_eq_nil_iff.2, List.append_nil]
    · intro a ha; simp only [List.mem_range'_1] at ha; simp; omega
    · intro a ha; simp only [List.mem_range'_1] at ha; simp; omega
  rw [this]
  rfl

theorem records_sorted {g : Lgm} {n : Nat} (h : g.Versions n) :
    ((records g).map Prod.fst).Pairwise (· ≤ ·) := by
  unfold records
  rw [h.1]
  have key : ∀ (vs : List Nat) (f : Nat → List Op), vs.Pairwise (· ≤ ·) →
      ((vs.flatMap fun w => (f w).map fun o => (w, o)).map Prod.fst).Pairwise (· ≤ ·) := by
    intro vs f hvs
    induction vs with
    | nil => simp
    | cons w vs ih =>
      rw [List.pairwise_cons] at hvs
      rw [List.flatMap_cons, List.map_append, List.pairwise_append]
      refine ⟨?_, ih hvs.2, ?_⟩
      · rw [List.map_map]
        have : ((f w).map (Prod.fst ∘ fun o => (w, o))) = (f w).map fun _ => w := rfl
        rw [this, List.pairwise_map]
        induction f w with
        | nil => simp
        | cons a l ih => exact List.pairwise_cons.2 ⟨fun _ _ => Nat.le_refl _, ih⟩
      · intro a ha b hb
        simp only [List.map_map, List.mem_map, Function.comp] at ha
        obtain ⟨o, -, rfl⟩ := ha
        simp only [List.map_flatMap, List.mem_flatMap, List.map_map, List.mem_map, Function.comp] at hb
        obtain ⟨w', hw', o', -, rfl⟩ := hb
        exact hvs.1 w' hw'
  exact key _ _ (List.pairwise_lt_range.imp Nat.le_of_lt)

/-- C17 (part): on a log of plain operations on equal or independent paths, replaying the compacted log up to
any version succeeds exactly when replaying the original log does, and gives the same value at every path.
Missing: logs in which one path lies below another, or removes that carry a value
(`C17_parent_remove_fails`, `C17_remove_with_value_fails`), and paths into arrays. -/
theorem C17_compact_replay_partial {s : St} (h : Reachable s) (pre : Bytes)
    (hok : (step s (.compact pre)).2.isOk = true) (hL : SimpleLog ((records s.lgm).map Prod.snd))
    {m : List (Bytes × Tson)} (hw : (Tson.obj m).Wf) {n v : Nat} (hn : s.lgm.version.getLast? = some n)
    (hv : v ≤ n) :
    SameOut (replay (.obj m) (opsUpTo s.lgm v))
      (replay (.obj m) (opsUpTo (step s (.compact pre)).1.lgm v)) := by
  obtain ⟨n', hn'⟩ := h.versions
  have : n' = n := by have := hn'.last; rw [this] at hn; simpa using hn
  subst this
  obtain ⟨-, h2, h3, M, m1, m2, m3⟩ := (C15_compact h pre).1 hok
  have hc : (step s (.compact pre)).1.lgm.Versions n' := hn'.congr (by rw [h2]) h3
  rw [opsUpTo_records hn' hv, opsUpTo_records hc hv, m3, ← m1]
  have hsort : (M.map Entry.version).Pairwise (· ≤ ·) := by
    have := records_sorted hn'
    rw [← m1] at this
    simpa [unmark, Function.comp_def] using this
  obtain ⟨B, hB⟩ := filter_le_prefix M hsort v
  have e1 : ((unmark M).filter fun r => decide (r.1 ≤ v)).map Prod.snd =
      (M.filter fun e => decide (e.version ≤ v)).map Entry.op := by
    simp [unmark, List.filter_map, Function.comp_def]
  have e2 : ((keptOf M).filter fun r => decide (r.1 ≤ v)).map Prod.snd =
      ((M.filter fun e => decide (e.version ≤ v)).filter Entry.kept).map Entry.op := by
    simp only [keptOf, unmark, List.filter_map, List.map_map, Function.comp_def, List.filter_filter]
    congr 2
    funext e
    rw [Bool.and_comm]
  rw [e1, e2]
  generalize hA : (M.filter fun e => decide (e.version ≤ v)) = A at *
  have hLM : ∀ o ∈ A.map Entry.op, o ∈ (records s.lgm).map Prod.snd := by
    intro o ho
    rw [← m1, hB]
    simp only [unmark, List.map_map, List.map_append]
    exact List.mem_append_left _ (by simpa [Function.comp_def] using ho)
  refine replay_kept (P := Matches pre) A (pre := []) ?_ ?_ hw hw (.refl _) ?_
  · intro a e b hab
    simpa using m2 a e (b ++ B) (by rw [hB, hab]; simp)
  · rw [List.nil_append]
    exact ⟨fun o ho => hL.1 o (hLM o ho), fun o ho o' ho' => hL.2 o (hLM o ho) o' (hLM o' ho')⟩
  · intro path y hy
    simp [lastKept] at hy

theorem dupLog_simple : SimpleLog ((records dupLog.lgm).map Prod.snd) := by
  have e : (records dupLog.lgm).map Prod.snd =
      [demoOp b!"a" false 5, demoOp b!"b/d" true 6, demoOp b!"a" false 7, demoOp b!"a" true 9] := by decide
  rw [e]
  refine ⟨fun o ho => ?_, ?_⟩
  · simp only [List.mem_cons, List.not_mem_nil, or_false] at ho
    rcases ho with rfl | rfl | rfl | rfl <;>
      exact ⟨Or.inl ⟨by decide, _, .bool _⟩, by decide⟩
  · unfold Independent
    decide

example : Reachable dupLog ∧ (step dupLog (.compact b!"a")).2.isOk = true ∧
    (step dupLog (.compact b!"a")).1 ≠ dupLog ∧ SimpleLog ((records dupLog.lgm).map Prod.snd) ∧
    demoDoc.Wf ∧ (replay demoDoc (opsUpTo dupLog.lgm 2)).isOk = true :=
  ⟨dupLog_reachable, by decide, by decide, dupLog_simple, by simp [demoDoc, Tson.Wf, Tson.WfF, mkeys], by decide⟩

/-- C17 fails when a parent is removed between two equal writes: the second write is dropped although the
value is gone. -/
theorem C17_parent_remove_fails :
    let s := run (newLogument [] demoDoc none).1
      [.store (.patch (some [demoOp b!"b/d" true 1, ⟨.remove, b!"b", .nil, 2⟩, demoOp b!"b/d" true 3])), .append]
    Reachable s ∧ (step s (.compact [])).2.isOk = true ∧ ¬ SameOut (replay demoDoc (opsUpTo s.lgm 1))
      (replay demoDoc (opsUpTo (step s (.compact [])).1.lgm 1)) := by
  refine ⟨⟨[], demoDoc, none, _, rfl⟩, by decide, fun h => ?_⟩
  have h1 := h.2 (.obj [(b!"a", .leaf (.bool true) 1), (b!"b", .obj [(b!"d", .leaf (.bool true) 3)])])
    (.obj [(b!"a", .leaf (.bool true) 1)]) (by decide) (by decide)
  cases h1 with
  | obj _ _ h1 h2 => exact absurd (h1 b!"b") (by decide)

/-- C17 fails for a remove that carries a value: it is dropped as a repetition of the write before. -/
theorem C17_remove_with_value_fails :
    let s := run (newLogument [] demoDoc none).1
      [.store (.patch (some [demoOp b!"a" false 1, ⟨.remove, b!"a", .bool false, 2⟩])), .append]
    Reachable s ∧ (step s (.compact [])).2.isOk = true ∧ ¬ SameOut (replay demoDoc (opsUpTo s.lgm 1))
      (replay demoDoc (opsUpTo (step s (.compact [])).1.lgm 1)) := by
  refine ⟨⟨[], demoDoc, none, _, rfl⟩, by decide, fun h => ?_⟩
  have h1 := h.2 (.obj [(b!"b", .obj [(b!"c", .leaf (.str b!"x") 2)])])
    (.obj [(b!"a", .leaf (.bool false) 1), (b!"b", .obj [(b!"c", .leaf (.str b!"x") 2)])]) (by decide) (by decide)
  cases h1 with
  | obj _ _ h1 h2 => exact absurd (h1 b!"a") (by decide)

end Verif
