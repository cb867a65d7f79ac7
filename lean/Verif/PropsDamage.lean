import Verif.PropsApply
import Verif.PropsReplayArr
/-
Property C10: exactly what a failing operation leaves behind.  An operation that returns an error
either leaves the document alone, or puts nil (or, in one case, trailing nil elements) into the root
member named by the first path segment.  An operation that panics leaves every leaf where it was.
-/
namespace Verif

/-- Same leaves, with the same values and timestamps, at the same places. -/
def SameLeaves (t t' : Tson) : Prop :=
  ∀ ks p ts, Reaches t ks (.leaf p ts) ↔ Reaches t' ks (.leaf p ts)

namespace SameLeaves

theorem refl (t : Tson) : SameLeaves t t := fun _ _ _ => Iff.rfl

theorem trans {a b c : Tson} (h : SameLeaves a b) (h' : SameLeaves b c) : SameLeaves a c :=
  fun ks p ts => (h ks p ts).trans (h' ks p ts)

theorem nothing {t o : Tson} (ht : ∀ ks p ts, ¬ Reaches t ks (.leaf p ts)) (h : SameLeaves t o) (ks p ts) :
    ¬ Reaches o ks (.leaf p ts) := fun hr => ht ks p ts ((h ks p ts).mpr hr)

theorem member {m : List (Bytes × Tson)} {k : Bytes} {c o : Tson} (hc : mget m k = some c)
    (h : SameLeaves c o) : SameLeaves (.obj m) (.obj (Verif.mset m k o)) := by
  intro ks p ts
  constructor
  · intro hr
    cases hr with
    | member _ k' ks' c' _ hk hr =>
      by_cases hkk : k' = k
      · subst hkk
        rw [hc] at hk; cases hk
        exact .member _ _ _ _ _ (by rw [mget_mset, if_pos rfl]) ((h _ _ _).mp hr)
      · exact .member _ _ _ _ _ (by rw [mget_mset, if_neg hkk]; exact hk) hr
  · intro hr
    cases hr with
    | member _ k' ks' c' _ hk hr =>
      rw [mget_mset] at hk
      by_cases hkk : k' = k
      · subst hkk
        rw [if_pos rfl] at hk; cases hk
        exact .member _ _ _ _ _ hc ((h _ _ _).mpr hr)
      · rw [if_neg hkk] at hk
        exact .member _ _ _ _ _ hk hr

theorem null_nothing (ks p ts) : ¬ Reaches .null ks (.leaf p ts) := by
  intro h; cases h

theorem new {m : List (Bytes × Tson)} {k : Bytes} {o : Tson} (hc : mget m k = none ∨ mget m k = some .null)
    (h : ∀ ks p ts, ¬ Reaches o ks (.leaf p ts)) : SameLeaves (.obj m) (.obj (Verif.mset m k o)) := by
  rcases hc with hc | hc
  · intro ks p ts
    constructor
    · intro hr
      cases hr with
      | member _ k' ks' c' _ hk hr =>
        have hkk : k' ≠ k := by rintro rfl; rw [hc] at hk; cases hk
        exact .member _ _ _ _ _ (by rw [mget_mset, if_neg hkk]; exact hk) hr
    · intro hr
      cases hr with
      | member _ k' ks' c' _ hk hr =>
        rw [mget_mset] at hk
        by_cases hkk : k' = k
        · rw [if_pos hkk] at hk; cases hk
          exact absurd hr (h _ _ _)
        · rw [if_neg hkk] at hk
          exact .member _ _ _ _ _ hk hr
  · exact member hc fun ks p ts => ⟨fun hr => absurd hr (null_nothing _ _ _), fun hr => absurd hr (h _ _ _)⟩

theorem element {l : List Tson} {i : Nat} {c o : Tson} (hc : l[i]? = some c)
    (h : SameLeaves c o) : SameLeaves (.arr l) (.arr (l.set i o)) := by
  have hi : i < l.length := by
    rcases Nat.lt_or_ge i l.length with h' | h'
    · exact h'
    · rw [List.getElem?_eq_none h'] at hc; cases hc
  intro ks p ts
  constructor
  · intro hr
    cases hr with
    | element _ k' ks' j c' _ hk hj hr =>
      by_cases hij : i = j
      · subst hij
        rw [hc] at hj; cases hj
        exact .element _ _ _ i _ _ hk (by simp [hi]) ((h _ _ _).mp hr)
      · exact .element _ _ _ j _ _ hk (by rw [List.getElem?_set_ne hij]; exact hj) hr
  · intro hr
    cases hr with
    | element _ k' ks' j c' _ hk hj hr =>
      by_cases hij : i = j
      · subst hij
        simp [hi] at hj; subst hj
        exact .element _ _ _ i _ _ hk hc ((h _ _ _).mpr hr)
      · rw [List.getElem?_set_ne hij] at hj
        exact .element _ _ _ j _ _ hk hj hr

theorem extend (l : List Tson) (n : Nat) : SameLeaves (.arr l) (.arr (extendT l n)) := by
  intro ks p ts
  constructor
  · intro hr
    cases hr with
    | element _ k' ks' j c' _ hk hj hr => exact .element _ _ _ j _ _ hk (extendT_get hj) hr
  · intro hr
    cases hr with
    | element _ k' ks' j c' _ hk hj hr =>
      by_cases hjl : j < l.length
      · refine .element _ _ _ j _ _ hk ?_ hr
        unfold extendT at hj
        rwa [List.getElem?_append_left hjl] at hj
      · unfold extendT at hj
        rw [List.getElem?_append_right (by omega)] at hj
        have := List.mem_of_getElem? hj
        rw [List.mem_replicate] at this
        rw [this.2] at hr
        exact absurd hr (null_nothing _ _ _)

theorem arr_nil_nothing (ks p ts) : ¬ Reaches (.arr []) ks (.leaf p ts) := by
  intro h
  cases h with
  | element _ _ _ _ _ _ _ hj _ => simp at hj

theorem obj_nil_nothing (ks p ts) : ¬ Reaches (.obj []) ks (.leaf p ts) := by
  intro h
  cases h with
  | member _ _ _ _ _ hk _ => simp [mget] at hk

end SameLeaves

theorem assignFieldT_panic {m : List (Bytes × Tson)} {k : Bytes} {T : Tson × Res Tson} {o : Tson}
    (h : assignFieldT m k T = (o, .panic)) : ∃ o', T = (o', .panic) ∧ o = .obj (mset m k o') := by
  rcases T with ⟨o', r⟩
  cases r with
  | ok c' => simp [assignFieldT] at h
  | err => simp [assignFieldT] at h
  | panic => simp only [assignFieldT, Prod.mk.injEq, and_true] at h; exact ⟨o', rfl, h.symm⟩

theorem assignElemT_panic {l : List Tson} {i : Nat} {T : Tson × Res Tson} {o : Tson}
    (h : assignElemT l i T = (o, .panic)) : ∃ o', T = (o', .panic) ∧ o = .arr (l.set i o') := by
  rcases T with ⟨o', r⟩
  cases r with
  | ok c' => simp [assignElemT] at h
  | err => simp [assignElemT] at h
  | panic => simp only [assignElemT, Prod.mk.injEq, and_true] at h; exact ⟨o', rfl, h.symm⟩

theorem assignFromElemT_panic {m : List (Bytes × Tson)} {k : Bytes} {l : List Tson} {i : Nat}
    {T : Tson × Res Tson} {o : Tson} (h : assignFromElemT m k l i T = (o, .panic)) :
    ∃ o', T = (o', .panic) ∧ o = .obj (mset m k (.arr (l.set i o'))) := by
  rcases T with ⟨o', r⟩
  cases r with
  | ok c' => simp [assignFromElemT] at h
  | err => simp [assignFromElemT] at h
  | panic => simp only [assignFromElemT, Prod.mk.injEq, and_true] at h; exact ⟨o', rfl, h.symm⟩

theorem applyT_panic_leaves (op : Op) : ∀ (parts : List Bytes) (t o : Tson),
    applyT t parts op = (o, .panic) → SameLeaves t o := by
  intro parts
  induction parts with
  | nil => intro t o h; simp [applyT] at h
  | cons part rest ih =>
    intro t o h
    unfold applyT at h
    dsimp only at h
    cases t with
    | leaf p ts => simp at h
    | null => simp at h
    | obj m =>
      dsimp only at h
      cases rest with
      | nil =>
        dsimp only at h
        repeat' split at h
        all_goals first
          | (simp at h; done)
          | (simp only [Prod.mk.injEq, and_true] at h; subst h; exact .refl _)
      | cons p1 ps =>
        dsimp only at h
        cases hg : mget m part with
        | none =>
          rw [hg] at h; dsimp only at h
          split at h
          · split at h
            · obtain ⟨o', ho, rfl⟩ := assignFieldT_panic h
              exact .new (.inl hg) (SameLeaves.nothing SameLeaves.arr_nil_nothing (ih _ _ ho))
            · obtain ⟨o', ho, rfl⟩ := assignFieldT_panic h
              exact .new (.inl hg) (SameLeaves.nothing SameLeaves.obj_nil_nothing (ih _ _ ho))
          · simp at h
        | some c =>
          rw [hg] at h
          cases c with
          | leaf p ts => simp only [Prod.mk.injEq, and_true] at h; subst h; exact .refl _
          | null =>
            dsimp only at h
            split at h
            · split at h
              · obtain ⟨o', ho, rfl⟩ := assignFieldT_panic h
                exact .new (.inr hg) (SameLeaves.nothing SameLeaves.arr_nil_nothing (ih _ _ ho))
              · obtain ⟨o', ho, rfl⟩ := assignFieldT_panic h
                exact .new (.inr hg) (SameLeaves.nothing SameLeaves.obj_nil_nothing (ih _ _ ho))
            · simp at h
          | obj mb =>
            dsimp only at h
            obtain ⟨o', ho, rfl⟩ := assignFieldT_panic h
            exact .member hg (ih _ _ ho)
          | arr l =>
            dsimp only at h
            cases ha : atoi p1 with
            | none => rw [ha] at h; simp at h
            | some idx =>
              rw [ha] at h; dsimp only at h
              split at h
              · split at h
                · rename_i hidx
                  split at h
                  · simp at h
                  · simp at h
                  · obtain ⟨o', ho, rfl⟩ := assignFromElemT_panic h
                    refine .member hg (.trans (.extend l (idx.toNat + 1)) (.element ?_ (ih _ _ ho)))
                    unfold extendT
                    rw [List.getElem?_append_right (by omega), List.getElem?_replicate, if_pos (by omega)]
                · rename_i hidx
                  split at h
                  · split at h
                    · simp only [Prod.mk.injEq, and_true] at h; subst h; exact .refl _
                    · simp at h
                  · simp at h
                  · split at h
                    · simp only [Prod.mk.injEq, and_true] at h; subst h; exact .refl _
                    · obtain ⟨o', ho, rfl⟩ := assignFromElemT_panic h
                      have hlt : idx.toNat < l.length := by omega
                      rw [List.getElem?_eq_getElem hlt, Option.getD_some] at ho
                      exact .member hg (.element (List.getElem?_eq_getElem hlt) (ih _ _ ho))
              · split at h
                · simp only [Prod.mk.injEq, and_true] at h; subst h; exact .refl _
                · simp at h
              · simp at h
              · simp at h
    | arr l =>
      dsimp only at h
      cases ha : atoi part with
      | none => rw [ha] at h; simp at h
      | some idx =>
        rw [ha] at h; dsimp only at h
        split at h
        · repeat' split at h
          all_goals simp at h
        · rename_i hidx
          cases rest with
          | nil =>
            dsimp only at h
            repeat' split at h
            all_goals first
              | (simp at h; done)
              | (simp only [Prod.mk.injEq, and_true] at h; subst h; exact .refl _)
          | cons p1 ps =>
            dsimp only at h
            split at h
            · simp only [Prod.mk.injEq, and_true] at h; subst h; exact .refl _
            · obtain ⟨o', ho, rfl⟩ := assignElemT_panic h
              have hlt : idx.toNat < l.length := by omega
              rw [List.getElem?_eq_getElem hlt, Option.getD_some] at ho
              exact .element (List.getElem?_eq_getElem hlt) (ih _ _ ho)

/-- C10 for panics: an operation that panics leaves every leaf of the document, with its value and its
timestamp, where it was, and adds none.  (What it can leave behind are empty objects, empty arrays and nil
elements on the way to the place, see `C10_panic_damages_fails`.) -/
theorem C10_panic_leaves (m : List (Bytes × Tson)) (hm : (Tson.obj m).Wf) (op : Op)
    (h : applyDoc (.obj m) op = .panic) :
    ∃ m', docAfter (.obj m) op = some (.obj m') ∧
      ∀ ks p ts, Reaches (.obj m') ks (.leaf p ts) ↔ Reaches (.obj m) ks (.leaf p ts) := by
  rw [docAfter_eq_obj hm]
  rw [applyDoc_eq hm] at h
  obtain ⟨m', hm'⟩ := applyOpT_obj m op
  refine ⟨m', by rw [hm'], fun ks p ts => ?_⟩
  have : applyT (.obj m) (writeParts op.path) op = (.obj m', .panic) := by
    unfold applyOpT at h hm'
    rw [← h, ← hm']
  exact (applyT_panic_leaves op _ _ _ this ks p ts).symm

theorem assignFieldT_err {m : List (Bytes × Tson)} {k : Bytes} {T : Tson × Res Tson}
    (h : (assignFieldT m k T).2 = .err) : (assignFieldT m k T).1 = .obj (mset m k .null) := by
  rcases T with ⟨o', r⟩
  cases r <;> simp_all [assignFieldT]

theorem assignFromElemT_err {m : List (Bytes × Tson)} {k : Bytes} {l : List Tson} {i : Nat}
    {T : Tson × Res Tson} (h : (assignFromElemT m k l i T).2 = .err) :
    (assignFromElemT m k l i T).1 = .obj (mset m k .null) := by
  rcases T with ⟨o', r⟩
  cases r <;> simp_all [assignFromElemT]

theorem cls_set_iff {k : OpKind} : k.cls = .set ↔ (k = .add ∨ k = .replace) := by
  cases k <;> simp [OpKind.cls]

theorem opVal_nil {v : GVal} : opVal v = .nil ↔ v = .nil := by
  cases v <;> simp [opVal]

/-- C10 for errors below the root: what the document is after an operation that returned an error, for each
kind of root member `k` the path leads through.
* An object: it is lost whole; nil takes its place.
* A leaf: this never returns an error (it panics).
* Missing or nil: adding and replacing put nil there, any other operation changes nothing.
* An array: with a segment that is no index, or an operation other than add and replace, nothing changes;
  adding or replacing nil lengthens the array with nils up to the index; adding or replacing an unsupported
  value loses the array. -/
theorem C10_error_exact (m : List (Bytes × Tson)) (hm : (Tson.obj m).Wf) (op : Op) (k p : Bytes) (ps : List Bytes)
    (hp : writeParts op.path = k :: p :: ps) (h : applyDoc (.obj m) op = .err) :
    (∀ mb, mget m k = some (.obj mb) → docAfter (.obj m) op = some (.obj (mset m k .null))) ∧
    (∀ q ts, mget m k ≠ some (.leaf q ts)) ∧
    ((mget m k = none ∨ mget m k = some .null) →
      docAfter (.obj m) op =
        some (if op.kind = .add ∨ op.kind = .replace then .obj (mset m k .null) else .obj m)) ∧
    (∀ l, mget m k = some (.arr l) →
      (atoi p = none ∨ ¬ (op.kind = .add ∨ op.kind = .replace) → docAfter (.obj m) op = some (.obj m)) ∧
      (∀ i, atoi p = some i → (op.kind = .add ∨ op.kind = .replace) →
        docAfter (.obj m) op = some (
          if op.value = .nil then
            (if (l.length : Int) ≤ i then
              .obj (mset m k (.arr (l ++ List.replicate (i.toNat + 1 - l.length) .null)))
            else .obj m)
          else .obj (mset m k .null)))) := by
  rw [docAfter_eq_obj hm]
  rw [applyDoc_eq hm] at h
  unfold applyOpT at h ⊢
  rw [hp] at h ⊢
  refine ⟨?_, ?_, ?_, ?_⟩
  · intro mb hg
    unfold applyT at h ⊢
    simp only [hg] at h ⊢
    rw [assignFieldT_err h]
  · intro q ts hg
    unfold applyT at h
    simp [hg] at h
  · intro hg
    unfold applyT at h ⊢
    by_cases hs : op.kind = .add ∨ op.kind = .replace
    · have hc := cls_set_iff.mpr hs
      rw [if_pos hs]
      rcases hg with hg | hg
      all_goals
        simp only [hg, hc] at h ⊢
        cases ha : atoi p
        all_goals
          simp only [ha] at h ⊢
          rw [assignFieldT_err h]
    · have hc : op.kind.cls ≠ .set := fun hc => hs (cls_set_iff.mp hc)
      rw [if_neg hs]
      rcases hg with hg | hg
      all_goals
        simp only [hg] at h ⊢
        all_goals (cases hk : op.kind.cls <;> simp_all)
  · intro l hg
    refine ⟨?_, ?_⟩
    · intro hor
      unfold applyT at h ⊢
      simp only [hg] at h ⊢
      cases ha : atoi p with
      | none => rfl
      | some i =>
        rcases hor with hor | hs
        · rw [ha] at hor; cases hor
        · have hc : op.kind.cls ≠ .set := fun hc => hs (cls_set_iff.mp hc)
          simp only [ha] at h ⊢
          cases hk : op.kind.cls with
          | set => exact absurd hk hc
          | remove =>
            simp only [hk] at h ⊢
            split at h <;> simp at h
          | unimplemented => rfl
          | unknown => rfl
    · intro i ha hs
      have hc := cls_set_iff.mpr hs
      unfold applyT at h ⊢
      simp only [hg, ha, hc] at h ⊢
      by_cases hle : (l.length : Int) ≤ i
      · simp only [if_pos hle] at h ⊢
        cases hv : opVal op.value with
        | prim q => simp [hv] at h
        | nil => rw [if_pos (opVal_nil.mp hv)]; rfl
        | other =>
          have hn : op.value ≠ .nil := by intro hn; rw [hn] at hv; simp [opVal] at hv
          rw [if_neg hn]
          simp only [hv] at h ⊢
          rw [assignFromElemT_err h]
      · simp only [if_neg hle] at h ⊢
        cases hv : opVal op.value with
        | prim q => simp only [hv] at h; split at h <;> simp at h
        | nil => rw [if_pos (opVal_nil.mp hv)]
        | other =>
          have hn : op.value ≠ .nil := by intro hn; rw [hn] at hv; simp [opVal] at hv
          rw [if_neg hn]
          simp only [hv] at h ⊢
          by_cases hneg : i < 0
          · simp [hneg] at h
          · simp only [if_neg hneg] at h ⊢
            rw [assignFromElemT_err h]

/-- A panicking operation that leaves something behind: the leaves are the ones there were. -/
example : (Tson.obj [(b!"b", .leaf (.bool true) 2)]).Wf ∧
    applyDoc (.obj [(b!"b", .leaf (.bool true) 2)]) ⟨.add, b!"a/-1", .bool true, 9⟩ = .panic ∧
    docAfter (.obj [(b!"b", .leaf (.bool true) 2)]) ⟨.add, b!"a/-1", .bool true, 9⟩ =
      some (.obj [(b!"b", .leaf (.bool true) 2), (b!"a", .arr [])]) := by
  refine ⟨?_, by decide, by decide⟩
  simp [Tson.Wf, Tson.WfF, mkeys]

/-- Failing operations through an object, a missing member, and an array. -/
example : applyDoc (.obj [(b!"b", .obj [(b!"c", .leaf (.bool true) 2)])]) ⟨.replace, b!"b/c", .nil, 9⟩ = .err ∧
    applyDoc (.obj []) ⟨.add, b!"a/x", .nil, 9⟩ = .err ∧
    docAfter (.obj []) ⟨.add, b!"a/x", .nil, 9⟩ = some (.obj [(b!"a", .null)]) ∧
    applyDoc (.obj [(b!"a", .arr [.leaf (.bool true) 1])]) ⟨.add, b!"a/3", .nil, 9⟩ = .err ∧
    docAfter (.obj [(b!"a", .arr [.leaf (.bool true) 1])]) ⟨.add, b!"a/3", .nil, 9⟩ =
      some (.obj [(b!"a", .arr [.leaf (.bool true) 1, .null, .null, .null])]) ∧
    writeParts b!"a/3" = [b!"a", b!"3"] := by decide

end Verif
