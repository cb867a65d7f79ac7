import Verif.View
import Verif.SpecApply
import Verif.PropsPointer
/-
Lemmas about `applyT` (the tree description of `applyTraverse`), and the link to the specifications.
-/
namespace Verif

/-! ### Link between the heap runs and the tree description -/

theorem applyOperation_any {h : Heap} {v t F} (hr : Rep h v t F) (op : Op) :
    Post h v F (applyOperation h v op) (applyOpT t op) :=
  refine_applyTraverse op (writeParts op.path) h v t F hr

theorem applyDoc_eq {t : Tson} (hw : t.Wf) (op : Op) : applyDoc t op = (applyOpT t op).2 := by
  obtain ⟨-, F, hF, -⟩ := store_rep [] t hw
  have P := applyOperation_any hF op
  unfold applyDoc
  dsimp only
  rcases hR : applyOperation (Heap.store [] t).1 (Heap.store [] t).2 op with ⟨h, r⟩
  rw [hR] at P
  have hout := P.out
  cases r with
  | ok w =>
    cases hT : (applyOpT t op).2 <;> rw [hT] at hout <;> simp only [OutRel] at hout
    obtain ⟨G, hG, -⟩ := hout
    simp only [hG.view]
  | err => cases hT : (applyOpT t op).2 <;> rw [hT] at hout <;> simp only [OutRel] at hout
  | panic => cases hT : (applyOpT t op).2 <;> rw [hT] at hout <;> simp only [OutRel] at hout

theorem applyOpT_wf {t : Tson} (hw : t.Wf) (op : Op) {t' : Tson} (h : (applyOpT t op).2 = .ok t') :
    t'.Wf := by
  obtain ⟨-, F, hF, -⟩ := store_rep [] t hw
  have P := applyOperation_any hF op
  have hout := P.out
  rw [h] at hout
  cases hR : (applyOperation (Heap.store [] t).1 (Heap.store [] t).2 op).2 <;>
    rw [hR] at hout <;> simp only [OutRel] at hout
  obtain ⟨G, hG, -⟩ := hout
  exact hG.wf

theorem store_obj (h : Heap) (m : List (Bytes × Tson)) : ∃ a, (h.store (.obj m)).2 = .obj a :=
  ⟨_, rfl⟩

theorem docAfter_eq_obj {m : List (Bytes × Tson)} (hw : (Tson.obj m).Wf) (op : Op) :
    docAfter (.obj m) op = some (applyOpT (.obj m) op).1 := by
  obtain ⟨-, F, hF, -⟩ := store_rep [] (.obj m) hw
  have P := applyOperation_any hF op
  obtain ⟨a, ha⟩ := store_obj [] m
  obtain ⟨G, hG, -⟩ := P.old (Or.inl ⟨a, ha⟩)
  exact hG.view

theorem docAfter_eq_fail {t : Tson} (hw : t.Wf) (op : Op) (h : (applyDoc t op).isOk = false) :
    docAfter t op = some (applyOpT t op).1 := by
  obtain ⟨-, F, hF, -⟩ := store_rep [] t hw
  have P := applyOperation_any hF op
  rw [applyDoc_eq hw] at h
  have hout := P.out
  have hfail : (applyOperation (Heap.store [] t).1 (Heap.store [] t).2 op).2.isOk = false := by
    cases hR : (applyOperation (Heap.store [] t).1 (Heap.store [] t).2 op).2 with
    | err => rfl
    | panic => rfl
    | ok w =>
      rw [hR] at hout
      cases hT : (applyOpT t op).2 <;> rw [hT] at hout h <;> simp [OutRel, Res.isOk] at hout h
  obtain ⟨G, hG, -⟩ := P.old (Or.inr hfail)
  exact hG.view

theorem applyOpT_ok_obj {m : List (Bytes × Tson)} (hw : (Tson.obj m).Wf) (op : Op) {t'}
    (h : (applyOpT (.obj m) op).2 = .ok t') : t' = (applyOpT (.obj m) op).1 := by
  obtain ⟨-, F, hF, -⟩ := store_rep [] (.obj m) hw
  have P := applyOperation_any hF op
  obtain ⟨a, ha⟩ := store_obj [] m
  have hout := P.out
  rw [h] at hout
  cases hR : (applyOperation (Heap.store [] (.obj m)).1 (Heap.store [] (.obj m)).2 op).2 with
  | ok w =>
    have := (P.same ⟨a, ha⟩ w hR).2
    rw [h] at this; cases this; rfl
  | err => rw [hR] at hout; simp [OutRel] at hout
  | panic => rw [hR] at hout; simp [OutRel] at hout

theorem replay_eq (ops : List Op) : ∀ {m : List (Bytes × Tson)}, (Tson.obj m).Wf →
    replay (.obj m) ops = (applyPatchT (.obj m) ops).2.map fun _ => (applyPatchT (.obj m) ops).1 := by
  induction ops with
  | nil => intro m _; rfl
  | cons op ops ih =>
    intro m hw
    simp only [replay, applyPatchT, applyDoc_eq hw]
    obtain ⟨m', hm'⟩ := applyOpT_obj m op
    have hok := fun t' => applyOpT_ok_obj hw op (t' := t')
    have hwf := fun t' => applyOpT_wf hw op (t' := t')
    rcases hT : applyOpT (.obj m) op with ⟨o, r⟩
    rw [hT] at hm' hok hwf
    simp only at hm' hok hwf
    cases r with
    | ok t' =>
      have h1 := hok t' rfl
      have h2 := hwf t' rfl
      subst h1; subst hm'
      simpa using ih h2
    | err => rfl
    | panic => rfl

theorem replay_obj {ops : List Op} {m : List (Bytes × Tson)} (hw : (Tson.obj m).Wf) {t : Tson}
    (h : replay (.obj m) ops = .ok t) : (∃ m', t = .obj m') ∧ t.Wf := by
  induction ops generalizing m with
  | nil => simp only [replay, Res.ok.injEq] at h; subst h; exact ⟨⟨m, rfl⟩, hw⟩
  | cons op ops ih =>
    simp only [replay, Res.bind_eq_ok] at h
    obtain ⟨t1, h1, h2⟩ := h
    rw [applyDoc_eq hw] at h1
    have he := applyOpT_ok_obj hw op h1
    have hwf := applyOpT_wf hw op h1
    obtain ⟨m', hm'⟩ := applyOpT_obj m op
    rw [he, hm'] at h2 hwf
    exact ih hwf h2

theorem replay_append (t : Tson) (p q : List Op) :
    replay t (p ++ q) = (replay t p).bind fun t' => replay t' q := by
  induction p generalizing t with
  | nil => rfl
  | cons op p ih =>
    simp only [List.cons_append, replay]
    cases applyDoc t op with
    | ok t' => exact ih t'
    | err => rfl
    | panic => rfl

/-! ### Reading in a modified object -/

theorem childOf_mset_self (m : List (Bytes × Tson)) (k : Bytes) (v : Tson) :
    childOf (.obj (mset m k v)) k = .ok v := by simp [childOf, mget_mset_self]

theorem childOf_mset_ne (m : List (Bytes × Tson)) {k k' : Bytes} (v : Tson) (h : k' ≠ k) :
    childOf (.obj (mset m k v)) k' = childOf (.obj m) k' := by
  simp [childOf, mget_mset_ne m v h]

theorem getParts_congr_child {t t' : Tson} {k : Bytes} (h : childOf t' k = childOf t k) (qs : List Bytes) :
    getParts t' (k :: qs) = getParts t (k :: qs) := by
  simp only [getParts, h]

theorem getParts_of_child {t c : Tson} {k : Bytes} (h : childOf t k = .ok c) {qs : List Bytes}
    (hq : qs ≠ []) : getParts t (k :: qs) = getParts c qs := by
  simp [getParts, h, hq]

/-- Reading the written leaf, at tree level. -/
theorem applyT_readback {op : Op} {p : Prim} (hv : opVal op.value = .prim p) (hk : op.kind.cls = .set)
    (parts : List Bytes) (hne : parts ≠ []) : ∀ (m : List (Bytes × Tson)) (o t' : Tson),
    applyT (.obj m) parts op = (o, .ok t') →
    ∃ n, 0 < n ∧ n ≤ parts.length ∧ getParts t' (parts.take n) = .ok (.leaf p op.ts) ∧
      (n = parts.length ∨ ∃ l, getParts (.obj m) (parts.take (n - 1)) = .ok (.arr l)) := by
  induction parts with
  | nil => exact absurd rfl hne
  | cons part rest ih =>
    intro m o t' h
    cases rest with
    | nil =>
      simp only [applyT, hk, hv, Prod.mk.injEq, Res.ok.injEq] at h
      refine ⟨1, by omega, by simp, ?_, Or.inl rfl⟩
      rw [← h.2]
      simp [getParts_single, childOf_mset_self]
    | cons p1 rest' =>
      have newObj : applyT (.obj m) (part :: p1 :: rest') op =
            assignFieldT m part (applyT (.obj []) (p1 :: rest') op) →
          ∃ n, 0 < n ∧ n ≤ (part :: p1 :: rest').length ∧
            getParts t' ((part :: p1 :: rest').take n) = .ok (.leaf p op.ts) ∧
            (n = (part :: p1 :: rest').length ∨
              ∃ l, getParts (.obj m) ((part :: p1 :: rest').take (n - 1)) = .ok (.arr l)) := by
        intro he
        rw [he] at h
        rcases hr : applyT (.obj []) (p1 :: rest') op with ⟨o', r'⟩
        rw [hr] at h
        cases r' with
        | err => simp [assignFieldT] at h
        | panic => simp [assignFieldT] at h
        | ok c' =>
          simp only [assignFieldT, Prod.mk.injEq, Res.ok.injEq] at h
          obtain ⟨n, h1, h2, h3, h4⟩ := ih (by simp) [] o' c' hr
          refine ⟨n + 1, by omega, by simpa using h2, ?_, ?_⟩
          · rw [← h.2, List.take_succ_cons, getParts_of_child (childOf_mset_self _ _ _), h3]
            intro hc; rw [List.take_eq_nil_iff] at hc; simp at hc; omega
          · rcases h4 with h4 | ⟨l, h4⟩
            · left; simpa using h4
            · exfalso
              obtain ⟨q, qs, hq⟩ : ∃ q qs, (p1 :: rest').take (n - 1) = q :: qs := by
                cases hq : (p1 :: rest').take (n - 1) with
                | nil => rw [hq] at h4; simp [getParts] at h4
                | cons q qs => exact ⟨q, qs, rfl⟩
              rw [hq] at h4
              simp [getParts, childOf, mget] at h4
      have newArr : applyT (.obj m) (part :: p1 :: rest') op =
            assignFieldT m part (applyT (.arr []) (p1 :: rest') op) →
          ∃ n, 0 < n ∧ n ≤ (part :: p1 :: rest').length ∧
            getParts t' ((part :: p1 :: rest').take n) = .ok (.leaf p op.ts) ∧
            (n = (part :: p1 :: rest').length ∨
              ∃ l, getParts (.obj m) ((part :: p1 :: rest').take (n - 1)) = .ok (.arr l)) := by
        intro he
        rw [he] at h
        rcases hr : applyT (.arr []) (p1 :: rest') op with ⟨o', r'⟩
        rw [hr] at h
        cases r' with
        | err => simp [assignFieldT] at h
        | panic => simp [assignFieldT] at h
        | ok c' =>
          simp only [assignFieldT, Prod.mk.injEq, Res.ok.injEq] at h
          unfold applyT at hr
          dsimp only at hr
          cases ha : atoi p1 with
          | none => rw [ha] at hr; simp at hr
          | some idx =>
            rw [ha] at hr
            simp only [List.length_nil] at hr
            by_cases hi : ((0 : Nat) : Int) ≤ idx
            · simp only [hi, if_true, hk] at hr
              cases rest' with
              | cons _ _ => simp at hr
              | nil =>
                simp only [hv, Prod.mk.injEq, Res.ok.injEq] at hr
                refine ⟨2, by omega, by simp, ?_, Or.inl rfl⟩
                rw [← h.2]
                simp only [List.take_succ_cons, List.take_zero]
                rw [getParts_of_child (childOf_mset_self _ _ _) (by simp), getParts_single, ← hr.2]
                have h0 : ¬ idx < 0 := by omega
                simp [childOf, ha, indexGo, h0, extendT]
            · simp only [hi, if_false] at hr
              have h0 : idx < 0 := by omega
              cases rest' with
              | nil => simp [hk, hv, h0] at hr
              | cons _ _ => simp [h0] at hr
      cases hm : mget m part with
      | none =>
        cases ha : atoi p1 with
        | none => exact newObj (by simp only [applyT, hm, hk, ha])
        | some _ => exact newArr (by simp only [applyT, hm, hk, ha])
      | some c =>
        cases c with
        | null =>
          cases ha : atoi p1 with
          | none => exact newObj (by simp only [applyT, hm, hk, ha])
          | some _ => exact newArr (by simp only [applyT, hm, hk, ha])
        | leaf => simp [applyT, hm] at h
        | obj mb =>
          have he : applyT (.obj m) (part :: p1 :: rest') op =
              assignFieldT m part (applyT (.obj mb) (p1 :: rest') op) := by
            rw [applyT]; simp only [hm]
          rw [he] at h
          rcases hr : applyT (.obj mb) (p1 :: rest') op with ⟨o', r'⟩
          rw [hr] at h
          cases r' with
          | err => simp [assignFieldT] at h
          | panic => simp [assignFieldT] at h
          | ok c' =>
            simp only [assignFieldT, Prod.mk.injEq, Res.ok.injEq] at h
            obtain ⟨n, h1, h2, h3, h4⟩ := ih (by simp) mb o' c' hr
            refine ⟨n + 1, by omega, by simpa using h2, ?_, ?_⟩
            · rw [← h.2, List.take_succ_cons, getParts_of_child (childOf_mset_self _ _ _), h3]
              intro hc; rw [List.take_eq_nil_iff] at hc; simp at hc; omega
            · rcases h4 with h4 | ⟨l, h4⟩
              · left; simpa using h4
              · right
                refine ⟨l, ?_⟩
                have hne' : (p1 :: rest').take (n - 1) ≠ [] := by
                  intro hc; rw [hc] at h4; simp [getParts] at h4
                have hn : n + 1 - 1 = (n - 1) + 1 := by omega
                rw [hn, List.take_succ_cons, getParts_of_child (c := .obj mb) (by simp [childOf, hm]) hne', h4]
        | arr l =>
          simp only [applyT, hm] at h
          cases ha : atoi p1 with
          | none => rw [ha] at h; simp at h
          | some idx =>
            rw [ha] at h
            simp only [hk, hv] at h
            have hread : ∀ l' : List Tson, 0 ≤ idx → l'[idx.toNat]? = some (.leaf p op.ts) →
                t' = .obj (mset m part (.arr l')) →
                ∃ n, 0 < n ∧ n ≤ (part :: p1 :: rest').length ∧
                  getParts t' ((part :: p1 :: rest').take n) = .ok (.leaf p op.ts) ∧
                  (n = (part :: p1 :: rest').length ∨
                    ∃ l, getParts (.obj m) ((part :: p1 :: rest').take (n - 1)) = .ok (.arr l)) := by
              intro l' hi hl' ht
              refine ⟨2, by omega, by simp, ?_, Or.inr ⟨l, ?_⟩⟩
              · rw [ht]
                simp only [List.take_succ_cons, List.take_zero]
                rw [getParts_of_child (childOf_mset_self _ _ _) (by simp), getParts_single]
                have h0 : ¬ idx < 0 := by omega
                simp [childOf, ha, indexGo, h0, hl']
              · simp [getParts_single, childOf, hm]
            by_cases hi : (l.length : Int) ≤ idx
            · simp only [hi, if_true, Prod.mk.injEq, Res.ok.injEq] at h
              refine hread _ (by omega) ?_ h.2.symm
              simp only [extendT]
              rw [List.getElem?_set_self]
              simp; omega
            · simp only [hi, if_false] at h
              by_cases h0 : idx < 0
              · simp [h0] at h
              · simp only [h0, if_false, Prod.mk.injEq, Res.ok.injEq] at h
                refine hread _ (by omega) ?_ h.2.symm
                rw [List.getElem?_set_self]
                omega

/-- An operation never changes another member of the root object, whatever the outcome. -/
theorem applyT_other_member (m : List (Bytes × Tson)) (part : Bytes) (rest : List Bytes) (op : Op)
    (k : Bytes) (hk : k ≠ part) :
    childOf (applyT (.obj m) (part :: rest) op).1 k = childOf (.obj m) k := by
  have hS : ∀ v, childOf (.obj (mset m part v)) k = childOf (.obj m) k :=
    fun v => childOf_mset_ne m v hk
  have hD : childOf (.obj (mdel m part)) k = childOf (.obj m) k := by
    simp [childOf, mget_mdel_ne m hk]
  have hA : ∀ T, childOf (assignFieldT m part T).1 k = childOf (.obj m) k := by
    rintro ⟨o, r⟩; cases r <;> exact hS _
  have hB : ∀ l i T, childOf (assignFromElemT m part l i T).1 k = childOf (.obj m) k := by
    rintro l i ⟨o, r⟩; cases r <;> exact hS _
  unfold applyT
  dsimp only
  repeat' split
  all_goals first | rfl | exact hS _ | exact hD | exact hA _ | exact hB _ _ _

/-- A successful operation on an object returns the changed object itself. -/
theorem applyT_obj_ok (parts : List Bytes) (op : Op) (m : List (Bytes × Tson)) (o t' : Tson)
    (h : applyT (.obj m) parts op = (o, .ok t')) : o = t' := by
  have hA : ∀ part T, assignFieldT m part T = (o, .ok t') → o = t' := by
    rintro part ⟨o', r⟩ h; cases r <;> simp [assignFieldT] at h; rw [← h.1, ← h.2]
  have hB : ∀ part l i T, assignFromElemT m part l i T = (o, .ok t') → o = t' := by
    rintro part l i ⟨o', r⟩ h; cases r <;> simp [assignFromElemT] at h; rw [← h.1, ← h.2]
  unfold applyT at h
  dsimp only at h
  repeat' split at h
  all_goals first
    | exact hA _ _ h
    | exact hB _ _ _ _ h
    | (simp only [Prod.mk.injEq, Res.ok.injEq, reduceCtorEq, and_false] at h; try rw [← h.1, ← h.2])

theorem applyT_frame (op : Op) {t : Tson} {ps qs : List Bytes} (ha : Apart t ps qs) :
    ∀ {o t'}, applyT t ps op = (o, .ok t') → getParts t' qs = getParts t qs := by
  induction ha with
  | here m k k' ps qs hne =>
    intro o t' h
    have h1 := applyT_obj_ok _ _ _ _ _ h
    have h2 := applyT_other_member m k ps op k' (Ne.symm hne)
    rw [h, h1] at h2
    exact getParts_congr_child h2 qs
  | down m k c ps qs hm hc ih =>
    intro o t' h
    obtain ⟨mb, p, ps', q, qs', rfl, rfl, rfl⟩ :
        ∃ mb p ps' q qs', c = .obj mb ∧ ps = p :: ps' ∧ qs = q :: qs' := by
      cases hc <;> exact ⟨_, _, _, _, _, rfl, rfl, rfl⟩
    have he : applyT (.obj m) (k :: p :: ps') op = assignFieldT m k (applyT (.obj mb) (p :: ps') op) := by
      rw [applyT]; simp only [hm]
    rw [he] at h
    rcases hr : applyT (.obj mb) (p :: ps') op with ⟨o', r'⟩
    rw [hr] at h
    cases r' with
    | err => simp [assignFieldT] at h
    | panic => simp [assignFieldT] at h
    | ok c' =>
      simp only [assignFieldT, Prod.mk.injEq, Res.ok.injEq] at h
      rw [← h.2, getParts_of_child (childOf_mset_self _ _ _) (by simp),
        getParts_of_child (t := .obj m) (c := .obj mb) (by simp [childOf, hm]) (by simp)]
      exact ih hr

theorem applyT_frame_elem (op : Op) (hkind : op.kind ≠ .remove) {p : Prim}
    (hv : opVal op.value = .prim p) {t : Tson} {ps qs : List Bytes}
    (ha : ApartElem t ps qs) :
    ∀ {o t'}, applyT t ps op = (o, .ok t') → getParts t' qs = getParts t qs := by
  induction ha with
  | here m k l i j ps qs a b hm hi hj hab hb =>
    intro o t' h
    simp only [applyT, hm, hi] at h
    have key : ∀ l', l'[b]? = l[b]? → getParts (.obj (mset m k (.arr l'))) (k :: j :: qs) =
        getParts (.obj m) (k :: j :: qs) := by
      intro l' hl'
      rw [getParts_of_child (childOf_mset_self _ _ _) (by simp),
        getParts_of_child (t := .obj m) (c := .arr l) (by simp [childOf, hm]) (by simp)]
      apply getParts_congr_child
      have h0 : ¬ (b : Int) < 0 := by omega
      simp [childOf, hj, indexGo, h0, hl']
    cases hc : op.kind.cls with
    | set =>
      simp only [hc, hv] at h
      by_cases hl : (l.length : Int) ≤ a
      · simp only [hl, if_true, Prod.mk.injEq, Res.ok.injEq] at h
        rw [← h.2]
        apply key
        have : a.toNat ≠ b := by omega
        rw [List.getElem?_set_ne this]
        simp only [extendT]
        exact List.getElem?_append_left hb
      · simp only [hl, if_false] at h
        by_cases h0 : a < 0
        · simp [h0] at h
        · simp only [h0, if_false, Prod.mk.injEq, Res.ok.injEq] at h
          rw [← h.2]
          apply key
          have : a.toNat ≠ b := by omega
          rw [List.getElem?_set_ne this]
    | remove =>
      exfalso
      apply hkind
      revert hc; cases op.kind <;> simp [OpKind.cls]
    | unimplemented => simp [hc] at h
    | unknown => simp [hc] at h
  | down m k c ps qs hm hc ih =>
    intro o t' h
    obtain ⟨mb, p, ps', q, qs', rfl, rfl, rfl⟩ :
        ∃ mb p ps' q qs', c = .obj mb ∧ ps = p :: ps' ∧ qs = q :: qs' := by
      cases hc <;> exact ⟨_, _, _, _, _, rfl, rfl, rfl⟩
    have he : applyT (.obj m) (k :: p :: ps') op = assignFieldT m k (applyT (.obj mb) (p :: ps') op) := by
      rw [applyT]; simp only [hm]
    rw [he] at h
    rcases hr : applyT (.obj mb) (p :: ps') op with ⟨o', r'⟩
    rw [hr] at h
    cases r' with
    | err => simp [assignFieldT] at h
    | panic => simp [assignFieldT] at h
    | ok c' =>
      simp only [assignFieldT, Prod.mk.injEq, Res.ok.injEq] at h
      rw [← h.2, getParts_of_child (childOf_mset_self _ _ _) (by simp),
        getParts_of_child (t := .obj m) (c := .obj mb) (by simp [childOf, hm]) (by simp)]
      exact ih hr

/-- Removing a member of an object reached through objects: it always succeeds, and the member is
gone. -/
theorem applyT_remove_obj (op : Op) (hk : op.kind = .remove) {t : Tson} {ps : List Bytes}
    (hp : InObject t ps) :
    ∃ t', applyT t ps op = (t', .ok t') ∧ ∀ qs, getParts t' (ps ++ qs) = .err := by
  induction hp with
  | here m k =>
    refine ⟨.obj (mdel m k), by simp [applyT, hk, OpKind.cls], fun qs => ?_⟩
    simp [getParts, childOf, mget_mdel_self]
  | down m k c ks hm hc ih =>
    obtain ⟨c', h1, h2⟩ := ih
    obtain ⟨mb, p, ks', rfl, rfl⟩ : ∃ mb p ks', c = .obj mb ∧ ks = p :: ks' := by
      cases hc <;> exact ⟨_, _, _, rfl, rfl⟩
    have he : applyT (.obj m) (k :: p :: ks') op = assignFieldT m k (applyT (.obj mb) (p :: ks') op) := by
      rw [applyT]; simp only [hm]
    refine ⟨.obj (mset m k c'), by rw [he, h1]; rfl, fun qs => ?_⟩
    rw [List.cons_append, getParts_of_child (childOf_mset_self _ _ _) (by simp)]
    exact h2 qs

/-- Removing an element of an array reached through objects. -/
theorem applyT_remove_arr (op : Op) (hk : op.kind = .remove) {t : Tson} {ks : List Bytes} {l : List Tson}
    (hp : ThroughObjects t ks (.arr l)) (key : Bytes) (i : Nat) (hi : atoi key = some (i : Int))
    (rest : List Bytes) :
    (i < l.length → ∃ t', applyT t (ks ++ key :: rest) op = (t', .ok t') ∧
      ThroughObjects t' ks (.arr (l.eraseIdx i))) ∧
    (l.length ≤ i → (applyT t (ks ++ key :: rest) op).2 = .panic) := by
  generalize hc : Tson.arr l = c at hp
  induction hp with
  | here m k c hm =>
    subst hc
    constructor
    · intro h
      have h1 : ¬ ((i : Int) < 0 ∨ (l.length : Int) ≤ i) := by omega
      have h2 : ¬ ((i : Int) < 0) := by omega
      refine ⟨.obj (mset m k (.arr (l.eraseIdx i))), ?_, .here _ _ _ (mget_mset_self _ _ _)⟩
      simp [applyT, hm, hi, hk, OpKind.cls]
      omega
    · intro h
      have h1 : ((i : Int) < 0 ∨ (l.length : Int) ≤ i) := by omega
      rw [List.cons_append, List.nil_append, applyT]
      simp only [hm, hi, hk, OpKind.cls, h1, if_true]
  | down m k c ks t' hm hc' ih =>
    subst hc
    obtain ⟨ih1, ih2⟩ := ih rfl
    obtain ⟨mb, p, ks', rfl, rfl⟩ : ∃ mb p ks', c = .obj mb ∧ ks = p :: ks' := by
      cases hc' <;> exact ⟨_, _, _, rfl, rfl⟩
    have he : applyT (.obj m) (k :: p :: ks' ++ key :: rest) op =
        assignFieldT m k (applyT (.obj mb) (p :: ks' ++ key :: rest) op) := by
      rw [List.cons_append, List.cons_append, applyT]; simp only [hm]
    constructor
    · intro h
      obtain ⟨c', h1, h2⟩ := ih1 h
      exact ⟨.obj (mset m k c'), by rw [he, h1]; rfl, .down _ _ _ _ _ (mget_mset_self _ _ _) h2⟩
    · intro h
      have := ih2 h
      rw [he]
      rcases hr : applyT (.obj mb) (p :: ks' ++ key :: rest) op with ⟨o', r'⟩
      rw [hr] at this
      simp only at this
      subst this
      rfl

theorem writes_iff {v : GVal} {p : Prim} : Writes v p ↔ opVal v = .prim p := by
  constructor
  · intro h; cases h <;> rfl
  · intro h; cases v <;> simp [opVal] at h <;> subst h <;> constructor

theorem split_ne_nil' (path : Bytes) : writeParts path ≠ [] := split_ne_nil _ _

end Verif
