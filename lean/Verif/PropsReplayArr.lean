import Verif.PropsReplay
/-
Property C17 for logs that write elements of arrays.
-/
namespace Verif

/-- Two path segments that can address the same place: the same text, or two spellings of one index. -/
def SameStep (p q : Bytes) : Prop := p = q ∨ ∃ i, atoi p = some i ∧ atoi q = some i

/-- Two paths that part at some segment. -/
inductive PartAt : List Bytes → List Bytes → Prop
  | here (p q ps qs) : ¬ SameStep p q → PartAt (p :: ps) (q :: qs)
  | down (p ps qs) : PartAt ps qs → PartAt (p :: ps) (p :: qs)

/-- An add or replace of a string, number or boolean at a member or at an element of an array, or a remove of a
member without value: only the last segment of a written path may be an index. -/
def ElemOp (o : Op) : Prop :=
  ((o.kind = .add ∨ o.kind = .replace) ∧ (∃ p, Writes o.value p) ∧
    ∀ seg ∈ (writeParts o.path).dropLast, atoi seg = none) ∨
  (o.kind = .remove ∧ o.value = .nil ∧ ∀ seg ∈ writeParts o.path, atoi seg = none)

/-- A log of such operations whose paths are pairwise equal or part at some segment. -/
def ElemLog (l : List Op) : Prop :=
  (∀ o ∈ l, ElemOp o) ∧
  ∀ o ∈ l, ∀ o' ∈ l, o.path = o'.path ∨ PartAt (writeParts o.path) (writeParts o'.path)

/-- What is at a location inside objects, or at an element of an array in an object. -/
inductive HoldsIn : Tson → List Bytes → Option (Prim × Int) → Prop
  | here (m : List (Bytes × Tson)) (k x) : mget m k = x.map (fun y => Tson.leaf y.1 y.2) → HoldsIn (.obj m) [k] x
  | elem (m : List (Bytes × Tson)) (k l p) (i : Nat) (y : Prim × Int) : mget m k = some (.arr l) →
      atoi p = some (i : Int) → l[i]? = some (.leaf y.1 y.2) → HoldsIn (.obj m) [k, p] (some y)
  | down (m : List (Bytes × Tson)) (k c ks x) : mget m k = some c → HoldsIn c ks x → HoldsIn (.obj m) (k :: ks) x

theorem HoldsIn.obj {t ks x} (h : HoldsIn t ks x) : ∃ m, t = .obj m := by cases h <;> exact ⟨_, rfl⟩

theorem HoldsIn.ne_nil {t ks x} (h : HoldsIn t ks x) : ks ≠ [] := by cases h <;> simp

/-- The conditions of `ElemOp` for the segments still ahead. -/
def PlainAt (op : Op) (ps : List Bytes) : Prop :=
  (op.kind.cls = .set ∧ (∃ q, opVal op.value = .prim q) ∧ ∀ seg ∈ ps.dropLast, atoi seg = none) ∨
  (op.kind.cls = .remove ∧ ∀ seg ∈ ps, atoi seg = none)

theorem ElemOp.plainAt {o : Op} (h : ElemOp o) : PlainAt o (writeParts o.path) := by
  rcases h with ⟨hk, ⟨p, hp⟩, hs⟩ | ⟨hk, -, hs⟩
  · exact Or.inl ⟨cls_set hk, ⟨p, writes_iff.1 hp⟩, hs⟩
  · exact Or.inr ⟨by rw [hk]; rfl, hs⟩

theorem PlainAt.tail {op : Op} {k p : Bytes} {ps : List Bytes} (h : PlainAt op (k :: p :: ps)) :
    PlainAt op (p :: ps) := by
  rcases h with ⟨h1, h2, h3⟩ | ⟨h1, h2⟩
  · exact Or.inl ⟨h1, h2, fun seg hs => h3 seg (by simp only [List.dropLast_cons_cons, List.mem_cons]; exact Or.inr hs)⟩
  · exact Or.inr ⟨h1, fun seg hs => h2 seg (List.mem_cons_of_mem _ hs)⟩

/-- What becomes of the member on the way. -/
inductive BelowAt (op : Op) (p : Bytes) (ps : List Bytes) : Option Tson → Tson → Prop
  | obj (mb o c') : applyT (.obj mb) (p :: ps) op = (o, .ok c') → BelowAt op p ps (some (.obj mb)) c'
  | new (old o c') : (old = none ∨ old = some .null) → op.kind.cls = .set → atoi p = none →
      applyT (.obj []) (p :: ps) op = (o, .ok c') → BelowAt op p ps old c'
  | elem (old l q) (i : Nat) : (old = some (.arr l) ∨ ((old = none ∨ old = some .null) ∧ l = [])) →
      op.kind.cls = .set → opVal op.value = .prim q → ps = [] → atoi p = some (i : Int) →
      BelowAt op p ps old (.arr ((extendT l (i + 1)).set i (.leaf q op.ts)))

theorem extendT_le {l : List Tson} {n : Nat} (h : n ≤ l.length) : extendT l n = l := by
  unfold extendT; rw [Nat.sub_eq_zero_of_le h]; simp

theorem extendT_get {l : List Tson} {i n : Nat} {c : Tson} (h : l[i]? = some c) : (extendT l n)[i]? = some c := by
  unfold extendT
  have : i < l.length := by
    rcases Nat.lt_or_ge i l.length with h' | h'
    · exact h'
    · rw [List.getElem?_eq_none h'] at h; cases h
  rw [List.getElem?_append_left this]; exact h

theorem extendT_length (l : List Tson) (n : Nat) : (extendT l n).length = max l.length n := by
  unfold extendT; simp; omega

theorem assignFieldT_ok {m : List (Bytes × Tson)} {k : Bytes} {T : Tson × Res Tson} {o t' : Tson} :
    assignFieldT m k T = (o, .ok t') → ∃ o' c', T = (o', .ok c') ∧ t' = .obj (mset m k c') := by
  rcases T with ⟨o', r⟩
  cases r with
  | ok c' => intro h; simp only [assignFieldT, Prod.mk.injEq, Res.ok.injEq] at h; exact ⟨o', c', rfl, h.2.symm⟩
  | err => intro h; simp [assignFieldT] at h
  | panic => intro h; simp [assignFieldT] at h

theorem below_of_ok {op : Op} {k p : Bytes} {ps : List Bytes} (h : PlainAt op (k :: p :: ps))
    {m : List (Bytes × Tson)} {o t' : Tson} (ha : applyT (.obj m) (k :: p :: ps) op = (o, .ok t')) :
    ∃ c', BelowAt op p ps (mget m k) c' ∧ t' = .obj (mset m k c') := by
  have idx_last : ∀ i, op.kind.cls = .set → atoi p = some i → ps = [] := by
    intro i hc hi
    rcases h with ⟨-, -, h3⟩ | ⟨h1, -⟩
    · cases ps with
      | nil => rfl
      | cons q ps => rw [h3 p (by simp)] at hi; cases hi
    · rw [hc] at h1; cases h1
  have hnew : ∀ old, mget m k = old → (old = none ∨ old = some .null) →
      ((match op.kind.cls with
          | .set =>
            match atoi p with
            | some _ => assignFieldT m k (applyT (.arr []) (p :: ps) op)
            | none => assignFieldT m k (applyT (.obj []) (p :: ps) op)
          | _ => (Tson.obj m, Res.err)) = (o, .ok t')) →
      ∃ c', BelowAt op p ps old c' ∧ t' = .obj (mset m k c') := by
    intro old _ hold ha
    cases hc : op.kind.cls with
    | set =>
      rw [hc] at ha
      dsimp only at ha
      cases hi : atoi p with
      | none =>
        rw [hi] at ha
        obtain ⟨o', c', h1, h2⟩ := assignFieldT_ok ha
        exact ⟨c', .new old o' c' hold hc hi h1, h2⟩
      | some i =>
        rw [hi] at ha
        obtain ⟨o', c', h1, h2⟩ := assignFieldT_ok ha
        have hps := idx_last i hc hi
        subst hps
        obtain ⟨q, hq⟩ : ∃ q, opVal op.value = .prim q := by
          rcases h with ⟨-, h2, -⟩ | ⟨h1, -⟩
          · exact h2
          · rw [hc] at h1; cases h1
        simp only [applyT, hi, hc, hq] at h1
        by_cases hi0 : (([] : List Tson).length : Int) ≤ i
        · rw [if_pos hi0] at h1
          simp only [Prod.mk.injEq, Res.ok.injEq] at h1
          have hin : i = ((i.toNat : Nat) : Int) := by simp at hi0; omega
          refine ⟨_, .elem old [] q i.toNat (Or.inr ⟨hold, rfl⟩) hc hq rfl (by rw [hi, ← hin]), ?_⟩
          rw [h2, ← h1.2]
        · rw [if_neg hi0] at h1
          simp only [List.length_nil] at hi0
          rw [if_pos (by omega)] at h1
          simp at h1
    | remove => rw [hc] at ha; simp at ha
    | unimplemented => rw [hc] at ha; simp at ha
    | unknown => rw [hc] at ha; simp at ha
  rw [applyT] at ha
  dsimp only at ha
  cases hg : mget m k with
  | none => rw [hg] at ha; exact hnew none hg (Or.inl rfl) ha
  | some c =>
    rw [hg] at ha
    cases c with
    | leaf p' ts => simp at ha
    | null => exact hnew _ hg (Or.inr rfl) ha
    | obj mb =>
      obtain ⟨o', c', h1, h2⟩ := assignFieldT_ok ha
      exact ⟨c', .obj mb o' c' h1, h2⟩
    | arr l =>
      dsimp only at ha
      cases hi : atoi p with
      | none => rw [hi] at ha; simp at ha
      | some i =>
        rw [hi] at ha
        dsimp only at ha
        rcases h with ⟨hc, ⟨q, hq⟩, -⟩ | ⟨hc, h2⟩
        · have hps := idx_last i hc hi
          subst hps
          rw [hc] at ha
          simp only [hq] at ha
          by_cases hl : (l.length : Int) ≤ i
          · rw [if_pos hl] at ha
            simp only [Prod.mk.injEq, Res.ok.injEq] at ha
            have hin : i = ((i.toNat : Nat) : Int) := by omega
            exact ⟨_, .elem _ l q i.toNat (Or.inl rfl) hc hq rfl (by rw [hi, ← hin]), ha.2.symm⟩
          · rw [if_neg hl] at ha
            by_cases h0 : i < 0
            · rw [if_pos h0] at ha; simp at ha
            · rw [if_neg h0] at ha
              simp only [Prod.mk.injEq, Res.ok.injEq] at ha
              have hin : i = ((i.toNat : Nat) : Int) := by omega
              refine ⟨_, .elem _ l q i.toNat (Or.inl rfl) hc hq rfl (by rw [hi, ← hin]), ?_⟩
              rw [extendT_le (by omega)]
              exact ha.2.symm
        · rw [h2 p (by simp)] at hi; cases hi

theorem ok_of_below {op : Op} {k p : Bytes} {ps : List Bytes}
    {m : List (Bytes × Tson)} {c' : Tson} (hb : BelowAt op p ps (mget m k) c') :
    ∃ o, applyT (.obj m) (k :: p :: ps) op = (o, .ok (.obj (mset m k c'))) := by
  generalize hg : mget m k = old at hb
  cases hb with
  | obj mb o c' h => exact ⟨_, by rw [applyT]; dsimp only; rw [hg]; dsimp only; rw [h]; rfl⟩
  | new _ o _ hold hc hi h =>
    rcases hold with rfl | rfl
    · exact ⟨_, by rw [applyT]; dsimp only; rw [hg]; dsimp only; rw [hc]; dsimp only; rw [hi]; dsimp only; rw [h]; rfl⟩
    · exact ⟨_, by rw [applyT]; dsimp only; rw [hg]; dsimp only; rw [hc]; dsimp only; rw [hi]; dsimp only; rw [h]; rfl⟩
  | elem _ l q i hold hc hq hps hi =>
    subst hps
    have hin : (i : Int).toNat = i := by simp
    have hn0 : ¬ ((i : Int) < 0) := by omega
    rcases hold with rfl | ⟨hold, rfl⟩
    · by_cases hl : (l.length : Int) ≤ i
      · exact ⟨_, by
          rw [applyT]; dsimp only; rw [hg]; dsimp only; rw [hi]; dsimp only; rw [hc]; dsimp only
          rw [if_pos hl, hq, hin]⟩
      · exact ⟨_, by
          rw [applyT]; dsimp only; rw [hg]; dsimp only; rw [hi]; dsimp only; rw [hc]; dsimp only
          rw [if_neg hl, hq]; dsimp only; rw [if_neg hn0, hin, extendT_le (by omega)]⟩
    · have h1 : applyT (.arr []) [p] op = (.arr [], .ok (.arr ((extendT [] (i + 1)).set i (.leaf q op.ts)))) := by
        rw [applyT]; dsimp only; rw [hi]; dsimp only; rw [if_pos (by simp), hc]; dsimp only; rw [hq, hin]
      rcases hold with rfl | rfl
      · exact ⟨_, by
          rw [applyT]; dsimp only; rw [hg]; dsimp only; rw [hc]; dsimp only; rw [hi]; dsimp only; rw [h1]; rfl⟩
      · exact ⟨_, by
          rw [applyT]; dsimp only; rw [hg]; dsimp only; rw [hc]; dsimp only; rw [hi]; dsimp only; rw [h1]; rfl⟩

/-- An operation elsewhere does not disturb a location. -/
theorem HoldsIn.frame {t qs x} (h : HoldsIn t qs x) (op : Op) : ∀ {ps o t'}, PlainAt op ps → PartAt ps qs →
    applyT t ps op = (o, .ok t') → HoldsIn t' qs x := by
  induction h with
  | here m k x hm =>
    intro ps o t' _ hi ha
    obtain ⟨m', rfl⟩ := applyT_obj_res ha
    cases hi with
    | here p _ ps _ hn =>
      have hk : k ≠ p := fun e => hn (Or.inl e.symm)
      exact .here m' k x (by rw [mget_other_member m p ps op k hk ha]; exact hm)
    | down _ ps _ hi => cases hi
  | elem m k l p i y hm hp hl =>
    intro ps o t' hpl hi ha
    obtain ⟨m', rfl⟩ := applyT_obj_res ha
    cases hi with
    | here p' _ ps _ hn =>
      have hk : k ≠ p' := fun e => hn (Or.inl e.symm)
      exact .elem m' k l p i y (by rw [mget_other_member m p' ps op k hk ha]; exact hm) hp hl
    | down _ ps _ hi =>
      cases hi with
      | here p' _ ps _ hn =>
        obtain ⟨c', hb, he⟩ := below_of_ok hpl ha
        cases he
        rw [hm] at hb
        cases hb with
        | new _ _ _ hold => rcases hold with h | h <;> cases h
        | elem _ l' q j hold hc hq hps hj =>
          rcases hold with h | ⟨h | h, -⟩
          · cases h
            have hij : j ≠ i := by
              intro e; subst e
              exact hn (Or.inr ⟨_, hj, hp⟩)
            refine .elem _ k _ p i y (mget_mset_self _ _ _) hp ?_
            rw [List.getElem?_set_ne hij]
            exact extendT_get hl
          · cases h
          · cases h
      | down _ ps _ hi => cases hi
  | down m k c ks x hm hc ih =>
    intro ps o t' hpl hi ha
    obtain ⟨m', rfl⟩ := applyT_obj_res ha
    cases hi with
    | here p _ ps _ hn =>
      have hk : k ≠ p := fun e => hn (Or.inl e.symm)
      exact .down m' k c ks x (by rw [mget_other_member m p ps op k hk ha]; exact hm) hc
    | down _ ps _ hi =>
      obtain ⟨mc, rfl⟩ := hc.obj
      cases ps with
      | nil => cases hi
      | cons p ps =>
        obtain ⟨c', hb, he⟩ := below_of_ok hpl ha
        cases he
        rw [hm] at hb
        cases hb with
        | obj _ o' _ h => exact .down _ k c' ks x (mget_mset_self _ _ _) (ih hpl.tail hi h)
        | new _ _ _ hold => rcases hold with h | h <;> cases h
        | elem _ l' q j hold => rcases hold with h | ⟨h | h, -⟩ <;> cases h

/-- An operation leaves its value at its location. -/
theorem applyT_holdsIn {op : Op} {x} (hl : Leaves op x) (ps : List Bytes) (hne : ps ≠ []) (hp : PlainAt op ps) :
    ∀ {m o t'}, applyT (.obj m) ps op = (o, .ok t') → HoldsIn t' ps x := by
  induction ps with
  | nil => exact absurd rfl hne
  | cons k ps ih =>
    intro m o t' ha
    cases ps with
    | nil =>
      rcases leaves_cls hl with ⟨hc, p, hv, rfl⟩ | ⟨hc, rfl⟩
      · simp only [applyT, hc, hv, Prod.mk.injEq, Res.ok.injEq] at ha
        rw [← ha.2]
        exact .here _ k _ (by rw [mget_mset_self]; rfl)
      · simp only [applyT, hc, Prod.mk.injEq, Res.ok.injEq] at ha
        rw [← ha.2]
        exact .here _ k _ (by rw [mget_mdel_self]; rfl)
    | cons p ps =>
      obtain ⟨c', hb, rfl⟩ := below_of_ok hp ha
      generalize mget m k = old at hb
      cases hb with
      | obj mb o' _ h => exact .down _ k c' _ x (mget_mset_self _ _ _) (ih (by simp) hp.tail h)
      | new _ o' _ _ _ _ h => exact .down _ k c' _ x (mget_mset_self _ _ _) (ih (by simp) hp.tail h)
      | elem _ l q i _ hc hq hps hi =>
        subst hps
        rcases leaves_cls hl with ⟨-, q', hq', rfl⟩ | ⟨hc', -⟩
        · rw [hq] at hq'; cases hq'
          refine .elem _ k _ p i (q, op.ts) (mget_mset_self _ _ _) hi ?_
          rw [List.getElem?_set_self]
          rw [extendT_length]; omega
        · rw [hc] at hc'; cases hc'

theorem SameVals.get {m m' : List (Bytes × Tson)} (h : SameVals (.obj m) (.obj m')) {k : Bytes} {c' : Tson}
    (hc : mget m' k = some c') : ∃ c, mget m k = some c ∧ SameVals c c' := by
  cases h with
  | obj _ _ h1 h2 =>
    have := h1 k
    rw [hc] at this
    cases hq : mget m k with
    | none => rw [hq] at this; simp at this
    | some c => exact ⟨c, rfl, h2 k c c' hq hc⟩

theorem SameVals.get_none {m m' : List (Bytes × Tson)} (h : SameVals (.obj m) (.obj m')) {k : Bytes}
    (hc : mget m k = none) : mget m' k = none := by
  cases h with
  | obj _ _ h1 h2 =>
    have := h1 k
    rw [hc] at this
    cases hq : mget m' k with
    | none => rfl
    | some c => rw [hq] at this; simp at this

/-- A member replaced on one side only, by something with the same values. -/
theorem SameVals.mset_left {m m' : List (Bytes × Tson)} (h : SameVals (.obj m) (.obj m')) {k : Bytes} {c c' : Tson}
    (hk : mget m' k = some c') (hc : SameVals c c') : SameVals (.obj (Verif.mset m k c)) (.obj m') := by
  cases h with
  | obj _ _ h1 h2 =>
    refine .obj _ _ (fun k' => ?_) fun k' d d' hd hd' => ?_
    · rw [mget_mset]
      by_cases hkk : k' = k
      · subst hkk; simp [hk]
      · simp [hkk, h1 k']
    · rw [mget_mset] at hd
      by_cases hkk : k' = k
      · subst hkk
        simp at hd
        rw [hk] at hd'
        cases hd'
        rw [← hd]; exact hc
      · simp [hkk] at hd; exact h2 k' d d' hd hd'

theorem SameVals.set_left {l l' : List Tson} (h : SameVals (.arr l) (.arr l')) {i : Nat} {c c' : Tson}
    (hk : l'[i]? = some c') (hc : SameVals c c') : SameVals (.arr (l.set i c)) (.arr l') := by
  cases h with
  | arr _ _ h1 h2 =>
    refine .arr _ _ (by rw [List.length_set]; exact h1) fun j d d' hd hd' => ?_
    by_cases hij : i = j
    · subst hij
      rw [hk] at hd'; cases hd'
      have hlt : i < l.length := by
        rw [h1]
        rcases Nat.lt_or_ge i l'.length with h' | h'
        · exact h'
        · rw [List.getElem?_eq_none h'] at hk; cases hk
      rw [List.getElem?_set_self hlt] at hd
      cases hd; exact hc
    · rw [List.getElem?_set_ne hij] at hd
      exact h2 j d d' hd hd'

/-- The same element written on both sides, after growing both. -/
theorem SameVals.extend_set {l l' : List Tson} (h : SameVals (.arr l) (.arr l')) (i : Nat) (c : Tson) :
    SameVals (.arr ((extendT l (i + 1)).set i c)) (.arr ((extendT l' (i + 1)).set i c)) := by
  cases h with
  | arr _ _ h1 h2 =>
    refine .arr _ _ (by simp only [List.length_set, extendT_length, h1]) fun j d d' hd hd' => ?_
    by_cases hij : i = j
    · subst hij
      rw [List.getElem?_set_self (by rw [extendT_length]; omega)] at hd hd'
      cases hd; cases hd'; exact .refl _
    · rw [List.getElem?_set_ne hij] at hd hd'
      unfold extendT at hd hd'
      rcases Nat.lt_or_ge j l.length with hj | hj
      · rw [List.getElem?_append_left hj] at hd
        rw [List.getElem?_append_left (by omega)] at hd'
        exact h2 j d d' hd hd'
      · rw [List.getElem?_append_right hj] at hd
        rw [List.getElem?_append_right (by omega)] at hd'
        have e1 := List.eq_of_mem_replicate (List.mem_of_getElem? hd)
        have e2 := List.eq_of_mem_replicate (List.mem_of_getElem? hd')
        rw [e1, e2]; exact .null

/-- The value written over an equal value: nothing changes but the timestamp. -/
theorem SameVals.overwriteIn {op y : Op} {x} (hy : Leaves y x) (ho : ElemOp op)
    (hs : SameGo y.value op.value) (hyv : y.kind = .remove → y.value = .nil) {u ps}
    (hu : HoldsIn u ps x) : ∀ {t o t'}, PlainAt op ps → SameVals t u → Verif.applyT t ps op = (o, .ok t') →
    SameVals t' u := by
  have key : (∃ p q, op.kind.cls = .set ∧ opVal op.value = .prim q ∧ x = some (p, y.ts) ∧ SamePrim q p) ∨
      (op.kind.cls = .remove ∧ x = none) := by
    rcases ho with ⟨hk, ⟨q, hq⟩, -⟩ | ⟨hk, hv, -⟩
    · left
      rcases hy with ⟨-, p, hp, hx⟩ | ⟨hk', hx⟩
      · refine ⟨p, q, cls_set hk, writes_iff.1 hq, hx, ?_⟩
        generalize op.value = b at hq hs
        generalize y.value = a at hp hs
        cases hs <;> cases hp <;> cases hq
        · exact .refl _
        · rename_i a b h
          exact Or.inr ⟨b, a, rfl, rfl, by rw [F64.feq_symm]; exact h⟩
        · exact .refl _
        · exact .refl _
      · rw [hyv hk'] at hs
        generalize op.value = b at hq hs
        cases hs; cases hq
    · right
      refine ⟨by rw [hk]; rfl, ?_⟩
      rcases hy with ⟨-, p, hp, hx⟩ | ⟨hk', hx⟩
      · rw [hv] at hs
        generalize y.value = a at hp hs
        cases hs; cases hp
      · exact hx
  clear hy
  induction hu with
  | here m k x hm =>
    intro t o t' _ hst ha
    have hst' := hst
    cases hst with
    | obj m1 _ h1 h2 =>
      rcases key with ⟨p, q, hc, hv, rfl, hpq⟩ | ⟨hc, rfl⟩
      · simp only [Verif.applyT, hc, hv, Prod.mk.injEq, Res.ok.injEq] at ha
        rw [← ha.2]
        exact hst'.mset_left (k := k) hm (.leaf _ _ _ _ hpq)
      · simp only [Verif.applyT, hc, Prod.mk.injEq, Res.ok.injEq] at ha
        rw [← ha.2]
        refine .obj _ _ (fun k' => ?_) fun k' d d' hd hd' => ?_
        · by_cases hk : k' = k
          · subst hk; rw [mget_mdel_self, hm]; rfl
          · rw [mget_mdel_ne _ hk]; exact h1 k'
        · by_cases hk : k' = k
          · subst hk; rw [mget_mdel_self] at hd; simp at hd
          · rw [mget_mdel_ne _ hk] at hd; exact h2 k' d d' hd hd'
  | elem m k l p i z hm hp hl =>
    intro t o t' hpl hst ha
    have hst' := hst
    cases hst with
    | obj m1 _ h1 h2 =>
      obtain ⟨c', hb, rfl⟩ := below_of_ok hpl ha
      obtain ⟨c1, hc1, hs1⟩ := hst'.get hm
      rw [hc1] at hb
      refine hst'.mset_left hm ?_
      have hs1' := hs1
      cases hs1 with
      | arr l1 _ e1 e2 =>
        cases hb with
        | new _ _ _ hold => rcases hold with h | h <;> cases h
        | elem _ l2 q j hold hc hq hps hj =>
          rcases hold with h | ⟨h | h, -⟩
          · cases h
            rw [hp] at hj
            have hji : j = i := by cases hj; rfl
            subst hji
            rcases key with ⟨p', q', -, hq', hz, hpq⟩ | ⟨hc', -⟩
            · rw [hq] at hq'; cases hq'
              cases hz
              have hlt : j < l.length := by
                rcases Nat.lt_or_ge j l.length with h' | h'
                · exact h'
                · rw [List.getElem?_eq_none h'] at hl; cases hl
              rw [extendT_le (by omega)]
              exact hs1'.set_left hl (.leaf _ _ _ _ hpq)
            · rw [hc] at hc'; cases hc'
          · cases h
          · cases h
  | down m k c ks x hm hc ih =>
    intro t o t' hpl hst ha
    have hst' := hst
    cases hst with
    | obj m1 _ h1 h2 =>
      obtain ⟨mc, rfl⟩ := hc.obj
      obtain ⟨p, ks', rfl⟩ := List.exists_cons_of_ne_nil hc.ne_nil
      obtain ⟨c', hb, rfl⟩ := below_of_ok hpl ha
      obtain ⟨c1, hc1, hs1⟩ := hst'.get hm
      rw [hc1] at hb
      refine hst'.mset_left hm ?_
      have hs1' := hs1
      cases hs1 with
      | obj mc1 _ e1 e2 =>
        cases hb with
        | obj _ o' _ h => exact ih key hpl.tail hs1' h
        | new _ _ _ hold => rcases hold with h | h <;> cases h
        | elem _ l2 q j hold => rcases hold with h | ⟨h | h, -⟩ <;> cases h

/-- The same operation on two documents with the same values. -/
theorem SameVals.applyIn {op : Op} (ps : List Bytes) (hne : ps ≠ []) (hp : PlainAt op ps) :
    ∀ {m m' o t'}, SameVals (.obj m) (.obj m') → Verif.applyT (.obj m) ps op = (o, .ok t') →
    ∃ o' u', Verif.applyT (.obj m') ps op = (o', .ok u') ∧ SameVals t' u' := by
  induction ps with
  | nil => exact absurd rfl hne
  | cons k ps ih =>
    intro m m' o t' hst ha
    cases ps with
    | nil =>
      rcases hp with ⟨hc, ⟨q, hv⟩, -⟩ | ⟨hc, -⟩
      · simp only [Verif.applyT, hc, hv, Prod.mk.injEq, Res.ok.injEq] at ha ⊢
        rw [← ha.2]
        exact ⟨_, _, ⟨rfl, rfl⟩, hst.mset (SameVals.refl _) k⟩
      · simp only [Verif.applyT, hc, Prod.mk.injEq, Res.ok.injEq] at ha ⊢
        rw [← ha.2]
        exact ⟨_, _, ⟨rfl, rfl⟩, hst.mdel k⟩
    | cons p ps =>
      obtain ⟨c, hb, rfl⟩ := below_of_ok hp ha
      have hold : ∀ old, mget m k = old → (old = none ∨ old = some .null) →
          (mget m' k = none ∨ mget m' k = some .null) := by
        intro old hg ho
        rcases ho with rfl | rfl
        · exact Or.inl (hst.get_none hg)
        · obtain ⟨c', h1, h2⟩ := hst.symm.get hg
          cases h2
          exact Or.inr h1
      have hb' : ∃ c', BelowAt op p ps (mget m' k) c' ∧ SameVals c c' := by
        generalize hg : mget m k = old at hb
        cases hb with
        | obj mb o' _ h =>
          obtain ⟨d, h1, h2⟩ := hst.symm.get hg
          have h2' := h2
          cases h2 with
          | obj md _ _ _ =>
            obtain ⟨o2, u2, h3, h4⟩ := ih (by simp) hp.tail h2'.symm h
            exact ⟨u2, by rw [h1]; exact .obj md o2 u2 h3, h4⟩
        | new _ o' _ ho hc hi h => exact ⟨c, .new _ o' c (hold old hg ho) hc hi h, .refl _⟩
        | elem _ l q i ho hc hq hps hi =>
          rcases ho with rfl | ⟨ho, rfl⟩
          · obtain ⟨d, h1, h2⟩ := hst.symm.get hg
            have h2' := h2
            cases h2 with
            | arr ld _ _ _ =>
              exact ⟨_, by rw [h1]; exact .elem _ ld q i (Or.inl rfl) hc hq hps hi, h2'.symm.extend_set i _⟩
          · exact ⟨_, .elem _ [] q i (Or.inr ⟨hold old hg ho, rfl⟩) hc hq hps hi, .refl _⟩
      obtain ⟨c', hb', hs'⟩ := hb'
      obtain ⟨o2, h2⟩ := ok_of_below hb'
      exact ⟨o2, _, h2, hst.mset hs' k⟩

/-- An operation on a location that exists in a document with the same values succeeds. -/
theorem HoldsIn.ok {op : Op} {u ps x} (hu : HoldsIn u ps x) :
    ∀ {t}, PlainAt op ps → SameVals t u → ∃ o t', applyT t ps op = (o, .ok t') := by
  induction hu with
  | here m k x hm =>
    intro t hpl hst
    cases hst with
    | obj m1 _ h1 h2 =>
      rcases hpl with ⟨hc, ⟨q, hv⟩, -⟩ | ⟨hc, -⟩
      · exact ⟨_, _, by simp only [applyT, hc, hv]; rfl⟩
      · exact ⟨_, _, by simp only [applyT, hc]; rfl⟩
  | elem m k l p i y hm hp hl =>
    intro t hpl hst
    have hst' := hst
    cases hst with
    | obj m1 _ h1 h2 =>
      obtain ⟨c1, hc1, hs1⟩ := hst'.get hm
      cases hs1 with
      | arr l1 _ e1 e2 =>
        rcases hpl with ⟨hc, ⟨q, hv⟩, -⟩ | ⟨hc, h2⟩
        · obtain ⟨o, h⟩ := ok_of_below (m := m1) (k := k) (c' := .arr ((extendT l1 (i + 1)).set i (.leaf q op.ts)))
            (by rw [hc1]; exact .elem _ l1 q i (Or.inl rfl) hc hv rfl hp)
          exact ⟨o, _, h⟩
        · rw [h2 p (by simp)] at hp; cases hp
  | down m k c ks x hm hc ih =>
    intro t hpl hst
    have hst' := hst
    cases hst with
    | obj m1 _ h1 h2 =>
      obtain ⟨c1, hc1, hs1⟩ := hst'.get hm
      obtain ⟨mc, rfl⟩ := hc.obj
      obtain ⟨p, ks', rfl⟩ := List.exists_cons_of_ne_nil hc.ne_nil
      obtain ⟨o', t', hR⟩ := ih hpl.tail hs1
      cases hs1 with
      | obj mc1 _ e1 e2 =>
        obtain ⟨o, h⟩ := ok_of_below (m := m1) (k := k) (by rw [hc1]; exact .obj mc1 o' t' hR)
        exact ⟨o, _, h⟩

/-- What the last kept operation on a path wrote is in the document. -/
def WrittenIn (pre : List Entry) (u : Tson) : Prop :=
  ∀ path y, lastKept pre path = some y → ∃ x, Leaves y x ∧ HoldsIn u (writeParts path) x

theorem ElemOp.leaves {o : Op} (h : ElemOp o) : ∃ x, Leaves o x := by
  rcases h with ⟨hk, ⟨q, hq⟩, -⟩ | ⟨hk, -⟩
  · exact ⟨_, Or.inl ⟨hk, q, hq, rfl⟩⟩
  · exact ⟨_, Or.inr ⟨hk, rfl⟩⟩

theorem ElemOp.remove_nil {o : Op} (h : ElemOp o) (hr : o.kind = .remove) : o.value = .nil := by
  rcases h with ⟨hk, -⟩ | ⟨-, hv, -⟩
  · rcases hk with hk | hk <;> rw [hk] at hr <;> cases hr
  · exact hv

theorem replay_keptIn {P : Bytes → Prop} (rest : List Entry) : ∀ {pre : List Entry} {m mu : List (Bytes × Tson)},
    (∀ a e b, rest = a ++ e :: b → (e.kept = true ↔ (P e.op.path → Changes (pre ++ a) e.op))) →
    ElemLog ((pre ++ rest).map Entry.op) → (Tson.obj m).Wf → (Tson.obj mu).Wf →
    SameVals (.obj m) (.obj mu) → WrittenIn pre (.obj mu) →
    SameOut (replay (.obj m) (rest.map Entry.op)) (replay (.obj mu) ((rest.filter Entry.kept).map Entry.op)) := by
  induction rest with
  | nil =>
    intro pre m mu _ _ _ _ hs _
    refine ⟨rfl, fun t u ht hu => ?_⟩
    simp only [List.map_nil, replay, Res.ok.injEq, List.filter_nil] at ht hu
    rw [← ht, ← hu]; exact hs
  | cons e rest ih =>
    intro pre m mu hM hL hw hwu hs hW
    have hL' : ElemLog (((pre ++ [e]) ++ rest).map Entry.op) := by simpa using hL
    have he : ElemOp e.op := hL.1 _ (by simp)
    have hpl := he.plainAt
    have hne := split_ne_nil' e.op.path
    have hM' : ∀ a f b, rest = a ++ f :: b →
        (f.kept = true ↔ (P f.op.path → Changes ((pre ++ [e]) ++ a) f.op)) := by
      intro a f b h
      have := hM (e :: a) f b (by rw [h]; rfl)
      simpa using this
    cases hk : e.kept with
    | true =>
      simp only [List.map_cons, List.filter_cons, hk, if_true, replay, applyDoc_eq hw, applyDoc_eq hwu]
      rcases hT : applyOpT (.obj m) e.op with ⟨o, r⟩
      rcases hU : applyOpT (.obj mu) e.op with ⟨o', r'⟩
      have fwd : ∀ t', r = .ok t' → ∃ u', r' = .ok u' ∧ SameVals t' u' := by
        intro t' hr
        subst hr
        obtain ⟨o2, u', h1, h2⟩ := SameVals.applyIn _ hne hpl hs hT
        unfold applyOpT at hU
        rw [hU] at h1
        cases h1
        exact ⟨_, rfl, h2⟩
      have bwd : ∀ u', r' = .ok u' → ∃ t', r = .ok t' := by
        intro u' hr
        subst hr
        obtain ⟨o2, t', h1, h2⟩ := SameVals.applyIn _ hne hpl hs.symm hU
        unfold applyOpT at hT
        rw [hT] at h1
        cases h1
        exact ⟨_, rfl⟩
      cases r with
      | ok t' =>
        obtain ⟨u', rfl, hs'⟩ := fwd t' rfl
        obtain ⟨m1, rfl⟩ := applyT_obj_res hT
        obtain ⟨mu1, rfl⟩ := applyT_obj_res hU
        refine ih hM' hL' (applyOpT_wf hw e.op (by rw [hT])) (applyOpT_wf hwu e.op (by rw [hU])) hs' ?_
        intro path y hy
        rw [lastKept_append] at hy
        simp only [lastKept, hk, true_and] at hy
        by_cases hp : e.op.path = path
        · simp only [hp, if_true, Option.some.injEq] at hy
          subst hy
          obtain ⟨x, hx⟩ := he.leaves
          rw [← hp]
          exact ⟨x, hx, applyT_holdsIn hx _ hne hpl hU⟩
        · simp only [hp, if_false] at hy
          obtain ⟨x, hx, hh⟩ := hW path y hy
          obtain ⟨hyp, hym⟩ := lastKept_path hy
          refine ⟨x, hx, hh.frame e.op hpl ?_ hU⟩
          have := hL.2 e.op (by simp) y (by rw [List.map_append]; exact List.mem_append_left _ hym)
          rw [hyp] at this
          exact this.resolve_left hp
      | err =>
        cases r' with
        | ok u' => obtain ⟨t', h⟩ := bwd u' rfl; cases h
        | err => exact ⟨rfl, fun t u h => by cases h⟩
        | panic => exact ⟨rfl, fun t u h => by cases h⟩
      | panic =>
        cases r' with
        | ok u' => obtain ⟨t', h⟩ := bwd u' rfl; cases h
        | err => exact ⟨rfl, fun t u h => by cases h⟩
        | panic => exact ⟨rfl, fun t u h => by cases h⟩
    | false =>
      have hnot : ¬ (P e.op.path → Changes pre e.op) := by
        intro h
        have := (hM [] e rest rfl).2 (by simpa using h)
        rw [hk] at this; cases this
      have hex : ∃ y, LastKept pre e.op.path y ∧ SameGo y.value e.op.value := by
        unfold Changes at hnot
        simp only [Classical.not_imp, Classical.not_forall, Classical.not_not] at hnot
        obtain ⟨-, y, h1, h2⟩ := hnot
        exact ⟨y, h1, h2⟩
      obtain ⟨y, hy, hsame⟩ := hex
      have hy' := lastKept_iff.2 hy
      obtain ⟨x, hx, hh⟩ := hW _ _ hy'
      have hym := (lastKept_path hy').2
      have hys : ElemOp y := hL.1 y (by rw [List.map_append]; exact List.mem_append_left _ hym)
      obtain ⟨o, t', hT⟩ := hh.ok hpl hs
      have hs' := SameVals.overwriteIn hx he hsame hys.remove_nil hh hpl hs hT
      obtain ⟨m1, rfl⟩ := applyT_obj_res hT
      simp only [List.map_cons, List.filter_cons, hk, replay, applyDoc_eq hw, applyOpT, hT, Res.bind]
      refine ih hM' hL' (applyOpT_wf hw e.op (by unfold applyOpT; rw [hT])) hwu hs' ?_
      intro path z hz
      rw [lastKept_append] at hz
      simp only [lastKept, hk] at hz
      exact hW path z (by simpa using hz)

/-- C17 (part): on a log of operations that write members of objects or elements of arrays in objects, or remove members,
on paths that are equal or part at some segment, replaying the compacted log up to any version succeeds exactly when
replaying the original log does, and gives the same value at every path.
Missing: logs in which one path lies below another, removes that carry a value or remove elements, paths running below an
element of an array, and two spellings of one index; these are refuted by `C17_parent_remove_fails`,
`C17_remove_with_value_fails`, `C17_element_remove_fails`, `C17_below_element_fails` and `C17_spelling_fails`. -/
theorem C17_elements_partial {s : St} (h : Reachable s) (pre : Bytes)
    (hok : (step s (.compact pre)).2.isOk = true) (hL : ElemLog ((records s.lgm).map Prod.snd))
    {m : List (Bytes × Tson)} (hw : (Tson.obj m).Wf) {n v : Nat} (hn : s.lgm.version.getLast? = some n)
    (hv : v ≤ n) :
    SameOut (replay (.obj m) (opsUpTo s.lgm v))
      (replay (.obj m) (opsUpTo (step s (.compact pre)).1.lgm v)) := by
  obtain ⟨n', hn'⟩ := h.versions
  have : n' = n := by have := hn'.last; rw [this] at hn; simpa using hn
  subst this
  obtain ⟨-, h2, h3, M, m1, m2, m3⟩ := (C15_compact h pre).1 hok
  have hc : (step s (.compact pre)).1.lgm.Versions n' := hn'.congr (by rw [h2]) h3
  rw [opsUpTo_records hn' hv, opsUpTo_records hc hv, m3, ← m1]
  have hsort : (M.map Entry.version).Pairwise (· ≤ ·) := by
    have := records_sorted hn'
    rw [← m1] at this
    simpa [unmark, Function.comp_def] using this
  obtain ⟨B, hB⟩ := filter_le_prefix M hsort v
  have e1 : ((unmark M).filter fun r => decide (r.1 ≤ v)).map Prod.snd =
      (M.filter fun e => decide (e.version ≤ v)).map Entry.op := by
    simp [unmark, List.filter_map, Function.comp_def]
  have e2 : ((keptOf M).filter fun r => decide (r.1 ≤ v)).map Prod.snd =
      ((M.filter fun e => decide (e.version ≤ v)).filter Entry.kept).map Entry.op := by
    simp only [keptOf, unmark, List.filter_map, List.map_map, Function.comp_def, List.filter_filter]
    congr 2
    funext e
    rw [Bool.and_comm]
  rw [e1, e2]
  generalize hA : (M.filter fun e => decide (e.version ≤ v)) = A at *
  have hLM : ∀ o ∈ A.map Entry.op, o ∈ (records s.lgm).map Prod.snd := by
    intro o ho
    rw [← m1, hB]
    simp only [unmark, List.map_map, List.map_append]
    exact List.mem_append_left _ (by simpa [Function.comp_def] using ho)
  refine replay_keptIn (P := Matches pre) A (pre := []) ?_ ?_ hw hw (.refl _) ?_
  · intro a e b hab
    simpa using m2 a e (b ++ B) (by rw [hB, hab]; simp)
  · rw [List.nil_append]
    exact ⟨fun o ho => hL.1 o (hLM o ho), fun o ho o' ho' => hL.2 o (hLM o ho) o' (hLM o' ho')⟩
  · intro path y hy
    simp [lastKept] at hy

/-- `C17_elements_partial` covers all logs of `C17_compact_replay_partial`. -/
theorem SimpleLog.elemLog {l : List Op} (h : SimpleLog l) : ElemLog l := by
  have key : ∀ ps qs : List Bytes, Independent ps qs → (∀ seg ∈ ps, atoi seg = none) → PartAt ps qs := by
    intro ps
    induction ps with
    | nil => intro qs hi; exact absurd List.nil_prefix hi.1
    | cons p ps ih =>
      intro qs hi hp
      cases qs with
      | nil => exact absurd List.nil_prefix hi.2
      | cons q qs =>
        by_cases hpq : p = q
        · subst hpq
          exact .down _ _ _ (ih qs ⟨fun h => hi.1 (by simpa using h), fun h => hi.2 (by simpa using h)⟩
            fun seg hs => hp seg (List.mem_cons_of_mem _ hs))
        · refine .here _ _ _ _ ?_
          rintro (h | ⟨i, h, -⟩)
          · exact hpq h
          · rw [hp p (by simp)] at h; cases h
  refine ⟨fun o ho => ?_, fun o ho o' ho' => ?_⟩
  · obtain ⟨h1, h2⟩ := h.1 o ho
    rcases h1 with ⟨hk, hq⟩ | ⟨hk, hv⟩
    · exact Or.inl ⟨hk, hq, fun seg hs => h2 seg (List.dropLast_subset _ hs)⟩
    · exact Or.inr ⟨hk, hv, h2⟩
  · rcases h.2 o ho o' ho' with e | hi
    · exact Or.inl e
    · exact Or.inr (key _ _ hi (h.1 o ho).2)

/-- A document with an array in an object. -/
def listDoc : Tson := .obj [(b!"a", .leaf (.bool true) 1), (b!"l", .arr [.leaf (.bool true) 1, .leaf (.bool true) 1])]

/-- A logument over `listDoc` with one version of the given operations. -/
def listLog (ops : List Op) : St := run (newLogument [] listDoc none).1 [.store (.patch (some ops)), .append]

theorem listLog_reachable (ops : List Op) : Reachable (listLog ops) := ⟨[], listDoc, none, _, rfl⟩

/-- Writes to two elements, one of them beyond the end, with a repetition in between. -/
def elemOps : List Op := [demoOp b!"l/0" false 2, demoOp b!"l/3" true 3, demoOp b!"l/0" false 4, demoOp b!"a" false 5]

theorem elemOps_log : ElemLog elemOps := by
  have hp : ∀ p q : Bytes, p ≠ q → (∀ i ∈ atoi p, ∀ j ∈ atoi q, i ≠ j) → ¬ SameStep p q := by
    rintro p q h1 h2 (h | ⟨i, h3, h4⟩)
    · exact h1 h
    · exact h2 i h3 i h4 rfl
  refine ⟨fun o ho => ?_, fun o ho o' ho' => ?_⟩
  · simp only [elemOps, List.mem_cons, List.not_mem_nil, or_false] at ho
    rcases ho with rfl | rfl | rfl | rfl <;> exact Or.inl ⟨by decide, ⟨_, .bool _⟩, by decide⟩
  · have w0 : writeParts b!"l/0" = [b!"l", b!"0"] := by decide
    have w3 : writeParts b!"l/3" = [b!"l", b!"3"] := by decide
    have wa : writeParts b!"a" = [b!"a"] := by decide
    have a03 : PartAt (writeParts b!"l/0") (writeParts b!"l/3") := by
      rw [w0, w3]; exact .down _ _ _ (.here _ _ _ _ (hp _ _ (by decide) (by decide)))
    have a30 : PartAt (writeParts b!"l/3") (writeParts b!"l/0") := by
      rw [w0, w3]; exact .down _ _ _ (.here _ _ _ _ (hp _ _ (by decide) (by decide)))
    have a0a : PartAt (writeParts b!"l/0") (writeParts b!"a") := by
      rw [w0, wa]; exact .here _ _ _ _ (hp _ _ (by decide) (by decide))
    have aa0 : PartAt (writeParts b!"a") (writeParts b!"l/0") := by
      rw [w0, wa]; exact .here _ _ _ _ (hp _ _ (by decide) (by decide))
    have a3a : PartAt (writeParts b!"l/3") (writeParts b!"a") := by
      rw [w3, wa]; exact .here _ _ _ _ (hp _ _ (by decide) (by decide))
    have aa3 : PartAt (writeParts b!"a") (writeParts b!"l/3") := by
      rw [w3, wa]; exact .here _ _ _ _ (hp _ _ (by decide) (by decide))
    simp only [elemOps, List.mem_cons, List.not_mem_nil, or_false] at ho ho'
    rcases ho with rfl | rfl | rfl | rfl <;> rcases ho' with rfl | rfl | rfl | rfl <;>
      first
        | exact Or.inl rfl
        | exact Or.inr a03
        | exact Or.inr a30
        | exact Or.inr a0a
        | exact Or.inr aa0
        | exact Or.inr a3a
        | exact Or.inr aa3

example : Reachable (listLog elemOps) ∧ (step (listLog elemOps) (.compact [])).2.isOk = true ∧
    (opsUpTo (step (listLog elemOps) (.compact [])).1.lgm 1).length = 3 ∧
    ElemLog ((records (listLog elemOps).lgm).map Prod.snd) ∧ listDoc.Wf ∧
    (replay listDoc (opsUpTo (listLog elemOps).lgm 1)).isOk = true :=
  ⟨listLog_reachable _, by decide, by decide,
    by rw [show (records (listLog elemOps).lgm).map Prod.snd = elemOps by decide]; exact elemOps_log,
    by simp [listDoc, Tson.Wf, Tson.WfF, Tson.WfL, mkeys], by decide⟩

theorem SameVals.bools {a b : Bool} {t u : Int} (h : SameVals (.leaf (.bool a) t) (.leaf (.bool b) u)) : a = b := by
  cases h with
  | leaf _ _ _ _ h =>
    rcases h with h | ⟨x, y, h, -⟩
    · cases h; rfl
    · cases h

theorem SameVals.elems {m m' : List (Bytes × Tson)} (h : SameVals (.obj m) (.obj m')) {k : Bytes} {l l' : List Tson}
    (h1 : mget m k = some (.arr l)) (h2 : mget m' k = some (.arr l')) : SameVals (.arr l) (.arr l') := by
  cases h with
  | obj _ _ _ h => exact h k _ _ h1 h2

/-- C17 fails for paths running below an element of an array: `l/0/x` and `l/0/y` both write the element itself, but they
are different paths, so that the third write is dropped as a repetition of the first. -/
theorem C17_below_element_fails :
    let s := listLog [demoOp b!"l/0/x" false 2, demoOp b!"l/0/y" true 3, demoOp b!"l/0/x" false 4]
    Reachable s ∧ (step s (.compact [])).2.isOk = true ∧ ¬ SameOut (replay listDoc (opsUpTo s.lgm 1))
      (replay listDoc (opsUpTo (step s (.compact [])).1.lgm 1)) := by
  refine ⟨listLog_reachable _, by decide, fun h => ?_⟩
  have h1 := h.2 (.obj [(b!"a", .leaf (.bool true) 1), (b!"l", .arr [.leaf (.bool false) 4, .leaf (.bool true) 1])])
    (.obj [(b!"a", .leaf (.bool true) 1), (b!"l", .arr [.leaf (.bool true) 3, .leaf (.bool true) 1])])
    (by decide) (by decide)
  have h2 := h1.elems (k := b!"l") rfl rfl
  cases h2 with
  | arr _ _ _ h2 => exact absurd (h2 0 _ _ rfl rfl).bools (by decide)

/-- C17 fails for two spellings of one index: `l/0` and `l/00` are the same element but different paths. -/
theorem C17_spelling_fails :
    let s := listLog [demoOp b!"l/0" false 2, demoOp b!"l/00" true 3, demoOp b!"l/0" false 4]
    Reachable s ∧ (step s (.compact [])).2.isOk = true ∧ ¬ SameOut (replay listDoc (opsUpTo s.lgm 1))
      (replay listDoc (opsUpTo (step s (.compact [])).1.lgm 1)) := by
  refine ⟨listLog_reachable _, by decide, fun h => ?_⟩
  have h1 := h.2 (.obj [(b!"a", .leaf (.bool true) 1), (b!"l", .arr [.leaf (.bool false) 4, .leaf (.bool true) 1])])
    (.obj [(b!"a", .leaf (.bool true) 1), (b!"l", .arr [.leaf (.bool true) 3, .leaf (.bool true) 1])])
    (by decide) (by decide)
  have h2 := h1.elems (k := b!"l") rfl rfl
  cases h2 with
  | arr _ _ _ h2 => exact absurd (h2 0 _ _ rfl rfl).bools (by decide)

/-- C17 fails for removes of elements: the second remove of `l/0` takes away another element, but is dropped as a
repetition. -/
theorem C17_element_remove_fails :
    let s := listLog [⟨.remove, b!"l/0", .nil, 2⟩, ⟨.remove, b!"l/0", .nil, 3⟩]
    Reachable s ∧ (step s (.compact [])).2.isOk = true ∧ ¬ SameOut (replay listDoc (opsUpTo s.lgm 1))
      (replay listDoc (opsUpTo (step s (.compact [])).1.lgm 1)) := by
  refine ⟨listLog_reachable _, by decide, fun h => ?_⟩
  have h1 := h.2 (.obj [(b!"a", .leaf (.bool true) 1), (b!"l", .arr [])])
    (.obj [(b!"a", .leaf (.bool true) 1), (b!"l", .arr [.leaf (.bool true) 1])])
    (by decide) (by decide)
  have h2 := h1.elems (k := b!"l") rfl rfl
  cases h2 with
  | arr _ _ h2 _ => cases h2

end Verif
