import Verif.PropsRootArr
/-
C27: whole patches on documents of any kind, in particular on root arrays.
-/
namespace Verif

theorem cls_remove {k : OpKind} (h : k.cls = .remove) : k = .remove := by cases k <;> first | rfl | cases h

/-- A reference to a document stays a tree without sharing after every operation but the removal of an element of a root array. -/
theorem old_rep (op : Op) (parts : List Bytes) (hno : ¬ (op.kind = .remove ∧ ∃ p, parts = [p])) {h : Heap} {v : HVal} {t : Tson} {F : Foot}
    (hr : Rep h v t F) : ∃ G, Rep (applyTraverse h v parts op).1 v (applyT t parts op).1 G := by
  have P := refine_applyTraverse op parts h v t F hr
  by_cases hobj : (∃ a, v = .obj a) ∨ (applyTraverse h v parts op).2.isOk = false
  · obtain ⟨G, hG, -⟩ := P.old hobj
    exact ⟨G, hG⟩
  have hF := hr.lt
  cases parts with
  | nil => exact ⟨F, hr⟩
  | cons part rest =>
    cases v with
    | obj a => exact absurd (.inl ⟨a, rfl⟩) hobj
    | null => obtain ⟨rfl, -⟩ := hr.inv_null; exact ⟨F, hr⟩
    | leaf p s => obtain ⟨rfl, -⟩ := hr.inv_leaf; exact ⟨F, hr⟩
    | arr b n =>
      obtain ⟨l₀, l, F₁, rfl, g1, g2, g3, g4, g5, g6⟩ := hr.inv_arr
      have hout := P.out
      have hnok : (applyTraverse h (.arr b n) (part :: rest) op).2.isOk ≠ false := fun k => hobj (.inr k)
      revert hout hnok
      rw [applyTraverse, applyT]
      cases hat : atoi part with
      | none => intro _ hn; exact absurd rfl hn
      | some idx =>
        dsimp only
        rw [g3]
        by_cases hidx : (n : Int) ≤ idx
        · simp only [hidx, if_true]
          cases hcls : op.kind.cls with
          | set =>
            dsimp only
            cases rest with
            | nil =>
              dsimp only
              cases hov : opVal op.value with
              | nil => intro _ hn; exact absurd rfl hn
              | other => intro _ hn; exact absurd rfl hn
              | prim p =>
                intro _ _
                refine ⟨F, hr.frame fun x hx => ?_⟩
                have := hF x hx
                rw [Heap.backSet_ne (by omega), Heap.alloc_old this]
            | cons p1 rest =>
              dsimp only
              intro ho hn
              generalize assignElem h.length idx.toNat _ _ = R at *
              obtain ⟨h', r⟩ := R
              cases r with
              | ok w => exact ho.elim
              | err => exact absurd rfl hn
              | panic => exact absurd rfl hn
          | _ => intro _ hn; exact absurd rfl hn
        · simp only [hidx, if_false]
          cases rest with
          | nil =>
            dsimp only
            cases hcls : op.kind.cls with
            | unimplemented => intro _ hn; exact absurd rfl hn
            | unknown => intro _ hn; exact absurd rfl hn
            | remove => exact absurd ⟨cls_remove hcls, part, rfl⟩ hno
            | set =>
              dsimp only
              cases hov : opVal op.value with
              | nil => intro _ hn; exact absurd rfl hn
              | other => intro _ hn; exact absurd rfl hn
              | prim p =>
                dsimp only
                by_cases hneg : idx < 0
                · simp only [hneg, if_true]; intro _ hn; exact absurd rfl hn
                · simp only [hneg, if_false]
                  rintro ⟨G, hG, -⟩ -
                  exact ⟨G, hG⟩
          | cons p1 rest =>
            dsimp only
            by_cases hneg : idx < 0
            · simp only [hneg, if_true]; intro _ hn; exact absurd rfl hn
            · simp only [hneg, if_false]
              generalize applyTraverse h _ (p1 :: rest) op = R
              generalize applyT _ (p1 :: rest) op = T
              obtain ⟨h', r⟩ := R
              obtain ⟨o, r'⟩ := T
              cases r with
              | ok w =>
                cases r' with
                | ok s => rintro ⟨G, hG, -⟩ -; exact ⟨G, hG⟩
                | err => intro ho; exact ho.elim
                | panic => intro ho; exact ho.elim
              | err => intro _ hn; exact absurd rfl hn
              | panic => intro _ hn; exact absurd rfl hn

/-! ### Specification -/

/-- Every operation on the document of the caller, as the operations before it left it; the result is that of the last one. -/
def eachOnOriginal (t : Tson) : List Op → Res Tson
  | [] => .ok .null
  | [op] => applyDoc t op
  | op :: op' :: ops => (applyDoc t op).bind fun _ => match docAfter t op with
    | some u => eachOnOriginal u (op' :: ops)
    | none => .panic

/-- The operation removes an element of a root array (or a member of a root object). -/
def RootRemoval (op : Op) : Prop := op.kind = .remove ∧ ∃ p, writeParts op.path = [p]

/-- The operation goes to an element that a root array of length `n` has, and does not remove it. -/
def InsideArray (n : Nat) (op : Op) : Prop :=
  ¬ RootRemoval op ∧ ∃ part rest, ∃ i : Nat, writeParts op.path = part :: rest ∧ atoi part = some (i : Int) ∧ i < n

/-- The operation goes to an element behind the end of a root array of length `n`. -/
def BeyondArray (n : Nat) (op : Op) : Prop := ∃ part rest, ∃ i : Nat, writeParts op.path = part :: rest ∧ atoi part = some (i : Int) ∧ n ≤ i

/-! ### The loop -/

theorem docAfter_eq {t : Tson} (hw : t.Wf) (op : Op) : docAfter t op = some (applyOpT t op).1 := by
  obtain ⟨-, F, hF, -⟩ := store_rep [] t hw
  exact old_view op (writeParts op.path) hF

/-- The loop of `ApplyPatch` follows the specification. -/
theorem loop_each : ∀ (ops : List Op) (op : Op) {h : Heap} {v : HVal} {t : Tson} {F : Foot} (r : HVal), Rep h v t F →
    (∀ o ∈ ops, ¬ RootRemoval o) →
    (match eachOnOriginal t (ops ++ [op]) with
      | .ok u => ∃ w, (applyPatchLoop h v r (ops ++ [op])).2 = .ok w ∧ (applyPatchLoop h v r (ops ++ [op])).1.view w = some u
      | .err => (applyPatchLoop h v r (ops ++ [op])).2 = .err
      | .panic => (applyPatchLoop h v r (ops ++ [op])).2 = .panic)
  | [], op, h, v, t, F, r, hr, _ => by
    have P := (refine_applyTraverse op (writeParts op.path) h v t F hr).out
    rw [List.nil_append, eachOnOriginal, applyDoc_eq hr.wf, applyPatchLoop]
    unfold applyOpT applyOperation
    generalize applyTraverse h v (writeParts op.path) op = R at *
    generalize applyT t (writeParts op.path) op = T at *
    obtain ⟨h', x⟩ := R
    obtain ⟨o, y⟩ := T
    cases x <;> cases y <;> first | exact P.elim | skip
    · obtain ⟨G, hG, -⟩ := P
      exact ⟨_, rfl, hG.view⟩
    · rfl
    · rfl
  | o :: ops, op, h, v, t, F, r, hr, hno => by
    have P := (refine_applyTraverse o (writeParts o.path) h v t F hr).out
    obtain ⟨G, hG⟩ := old_rep o (writeParts o.path) (hno o (List.mem_cons_self ..)) hr
    have hd := docAfter_eq hr.wf o
    have ih := fun r => loop_each ops op r hG fun x hx => hno x (List.mem_cons_of_mem _ hx)
    obtain ⟨q, qs, hq⟩ : ∃ q qs, ops ++ [op] = q :: qs := by
      cases ops with
      | nil => exact ⟨_, _, rfl⟩
      | cons a l => exact ⟨_, _, rfl⟩
    rw [List.cons_append]
    rw [hq] at ih ⊢
    rw [eachOnOriginal, hd, applyDoc_eq hr.wf, applyPatchLoop]
    unfold applyOpT applyOperation
    generalize applyTraverse h v (writeParts o.path) o = R at *
    generalize applyT t (writeParts o.path) o = T at *
    obtain ⟨h', x⟩ := R
    obtain ⟨u, y⟩ := T
    cases x <;> cases y <;> first | exact P.elim | skip
    · exact ih _
    · rfl
    · rfl

/-- **C27, any document.**  `ApplyPatch` applies every operation to the document it was given, as the operations before left it, and
returns the result of the last one.  The operations before the last must not remove elements of a root array: what is left then shares
the last element. -/
theorem C27_each {t : Tson} (hw : t.Wf) (ops : List Op) (op : Op) (hno : ∀ o ∈ ops, ¬ RootRemoval o) :
    patchDoc t (ops ++ [op]) = eachOnOriginal t (ops ++ [op]) := by
  obtain ⟨-, F, hF, -⟩ := store_rep [] t hw
  have h := loop_each ops op .null hF hno
  unfold patchDoc applyPatch
  dsimp only
  generalize applyPatchLoop (Heap.store [] t).1 (Heap.store [] t).2 .null (ops ++ [op]) = R at *
  obtain ⟨h', x⟩ := R
  cases e : eachOnOriginal t (ops ++ [op]) with
  | ok u => rw [e] at h; obtain ⟨w, h1, h2⟩ := h; dsimp only at h1 h2; subst h1; dsimp only; rw [h2]
  | err => rw [e] at h; dsimp only at h; subst h; rfl
  | panic => rw [e] at h; dsimp only at h; subst h; rfl

theorem inside_result {l : List Tson} {op : Op} (hi : InsideArray l.length op) {t' : Tson} (h : (applyOpT (.arr l) op).2 = .ok t') :
    (applyOpT (.arr l) op).1 = t' ∧ ∃ l', t' = .arr l' ∧ l'.length = l.length := by
  obtain ⟨hno, part, rest, i, hp, ha, hl⟩ := hi
  unfold applyOpT at h ⊢
  rw [hp, applyT] at h ⊢
  have hnle : ¬ (l.length : Int) ≤ (i : Int) := by omega
  have hneg : ¬ (i : Int) < 0 := by omega
  simp only [ha, if_neg hnle, if_neg hneg, Int.toNat_natCast] at h ⊢
  cases rest with
  | nil =>
    dsimp only at h ⊢
    cases hc : op.kind.cls with
    | set =>
      rw [hc] at h
      dsimp only at h ⊢
      cases hv : opVal op.value with
      | prim p =>
        rw [hv] at h
        cases h
        exact ⟨rfl, _, rfl, by simp⟩
      | nil => rw [hv] at h; cases h
      | other => rw [hv] at h; cases h
    | remove => exact absurd ⟨cls_remove hc, part, hp⟩ hno
    | unimplemented => rw [hc] at h; cases h
    | unknown => rw [hc] at h; cases h
  | cons p1 rest =>
    dsimp only at h ⊢
    generalize applyT _ (p1 :: rest) op = T at *
    obtain ⟨o, y⟩ := T
    cases y with
    | ok u =>
      cases h
      exact ⟨rfl, _, rfl, by simp⟩
    | err => cases h
    | panic => cases h

/-- **C27, root arrays.**  If all operations but the last go to elements that the array has, and remove none, the patch has the effect of
its operations one after another.  The last operation may do anything. -/
theorem C27_array_partial : ∀ (ops : List Op) (op : Op) {l : List Tson}, (Tson.arr l).Wf → (∀ o ∈ ops, InsideArray l.length o) →
    patchDoc (.arr l) (ops ++ [op]) = replay (.arr l) (ops ++ [op]) := by
  intro ops op l hw hi
  rw [C27_each hw ops op fun o ho => (hi o ho).1]
  induction ops generalizing l with
  | nil =>
    rw [List.nil_append, eachOnOriginal, replay]
    cases applyDoc (.arr l) op <;> rfl
  | cons o ops ih =>
    obtain ⟨q, qs, hq⟩ : ∃ q qs, ops ++ [op] = q :: qs := by
      cases ops with
      | nil => exact ⟨_, _, rfl⟩
      | cons a l => exact ⟨_, _, rfl⟩
    rw [List.cons_append, hq, eachOnOriginal, replay, docAfter_eq hw, applyDoc_eq hw, ← hq]
    cases e : (applyOpT (.arr l) o).2 with
    | err => rfl
    | panic => rfl
    | ok t' =>
      obtain ⟨h1, l', rfl, h3⟩ := inside_result (hi o (List.mem_cons_self ..)) e
      rw [Res.bind_ok, Res.bind_ok, h1]
      dsimp only
      exact ih (applyOpT_wf hw o e) fun x hx => by rw [h3]; exact hi x (List.mem_cons_of_mem _ hx)

/-- **C27 is violated** by every operation that makes a root array longer, unless it is the last one: it has no effect at all. -/
theorem C27_array_growth_fails {l : List Tson} (hw : (Tson.arr l).Wf) {o : Op} (ho : BeyondArray l.length o) {t' : Tson}
    (h : applyDoc (.arr l) o = .ok t') (ops : List Op) (op : Op) (hno : ∀ x ∈ ops, ¬ RootRemoval x) :
    patchDoc (.arr l) (o :: (ops ++ [op])) = patchDoc (.arr l) (ops ++ [op]) := by
  obtain ⟨part, rest, i, hp, ha, hl⟩ := ho
  have hold : (applyOpT (.arr l) o).1 = .arr l ∧ ¬ RootRemoval o := by
    rw [applyDoc_eq hw] at h
    unfold applyOpT at h ⊢
    rw [hp, applyT] at h ⊢
    have hle : (l.length : Int) ≤ (i : Int) := by omega
    simp only [ha, if_pos hle] at h ⊢
    cases hc : o.kind.cls with
    | set =>
      rw [hc] at h
      dsimp only at h ⊢
      refine ⟨?_, fun k => by rw [k.1] at hc; cases hc⟩
      cases rest with
      | nil =>
        dsimp only at h ⊢
        cases hv : opVal o.value with
        | prim p => rfl
        | nil => rfl
        | other => rfl
      | cons => rfl
    | remove => rw [hc] at h; cases h
    | unimplemented => rw [hc] at h; cases h
    | unknown => rw [hc] at h; cases h
  rw [C27_each hw ops op hno, ← List.cons_append, C27_each hw (o :: ops) op fun x hx => by
    rcases List.mem_cons.1 hx with rfl | hx
    · exact hold.2
    · exact hno x hx]
  obtain ⟨q, qs, hq⟩ : ∃ q qs, ops ++ [op] = q :: qs := by
    cases ops with
    | nil => exact ⟨_, _, rfl⟩
    | cons a l => exact ⟨_, _, rfl⟩
  rw [List.cons_append, hq, eachOnOriginal, docAfter_eq hw, hold.1, h]
  rfl

/-- Two writes into elements and a longer array at the end. -/
example : patchDoc (.arr [.leaf (.bool true) 1, .obj []]) [⟨.replace, b!"0", .bool false, 2⟩, ⟨.add, b!"1/a", .bool true, 3⟩, ⟨.add, b!"2", .bool true, 4⟩] =
    .ok (.arr [.leaf (.bool false) 2, .obj [(b!"a", .leaf (.bool true) 3)], .leaf (.bool true) 4]) := by decide

example : ∀ o ∈ [Op.mk .replace b!"0" (.bool false) 2, ⟨.add, b!"1/a", .bool true, 3⟩], InsideArray 2 o := by
  intro o ho
  simp only [List.mem_cons, List.not_mem_nil, or_false] at ho
  rcases ho with rfl | rfl
  · exact ⟨fun h => (by cases h.1), b!"0", [], 0, by decide, by decide, by decide⟩
  · exact ⟨fun h => (by cases h.1), b!"1", [b!"a"], 1, by decide, by decide, by decide⟩

/-- A removal before the last operation: the operations after it find the last element twice. -/
theorem C27_array_removal_fails :
    patchDoc (.arr [.leaf (.bool true) 1, .leaf (.bool true) 2]) [⟨.remove, b!"0", .nil, 3⟩, ⟨.replace, b!"0", .bool false, 4⟩] =
      .ok (.arr [.leaf (.bool false) 4, .leaf (.bool true) 2]) ∧
    replay (.arr [.leaf (.bool true) 1, .leaf (.bool true) 2]) [⟨.remove, b!"0", .nil, 3⟩, ⟨.replace, b!"0", .bool false, 4⟩] =
      .ok (.arr [.leaf (.bool false) 4]) := by decide

end Verif
