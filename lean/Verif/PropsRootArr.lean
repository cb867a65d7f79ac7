import Verif.PropsApply
/-
C27: what a reference to a document shows after an operation, also for a root array, whose slice header the operation returns anew.
-/
namespace Verif

theorem optAll_append {α β : Type} {f : α → Option β} : ∀ {a b : List α} {x y : List β}, optAll f a = some x → optAll f b = some y →
    optAll f (a ++ b) = some (x ++ y)
  | [], b, x, y, h1, h2 => by cases h1; exact h2
  | c :: a, b, x, y, h1, h2 => by
    rw [optAll] at h1
    rw [List.cons_append, optAll]
    cases e : f c with
    | none => rw [e] at h1; simp at h1
    | some z =>
      cases e2 : optAll f a with
      | none => rw [e, e2] at h1; simp at h1
      | some zs =>
        rw [e, e2] at h1
        cases h1
        rw [optAll_append e2 h2]
        rfl

theorem optAll_length {α β : Type} {f : α → Option β} : ∀ {a : List α} {x : List β}, optAll f a = some x → a.length = x.length
  | [], x, h => by cases h; rfl
  | c :: a, x, h => by
    rw [optAll] at h
    cases e : f c with
    | none => rw [e] at h; simp at h
    | some z =>
      cases e2 : optAll f a with
      | none => rw [e, e2] at h; simp at h
      | some zs =>
        rw [e, e2] at h
        cases h
        simp [optAll_length e2]

theorem optAll_take {α β : Type} {f : α → Option β} : ∀ {a : List α} {x : List β} (n : Nat), optAll f a = some x → optAll f (a.take n) = some (x.take n)
  | a, x, 0, _ => by simp [optAll]
  | [], x, n + 1, h => by cases h; rfl
  | c :: a, x, n + 1, h => by
    rw [optAll] at h
    cases e : f c with
    | none => rw [e] at h; simp at h
    | some z =>
      cases e2 : optAll f a with
      | none => rw [e, e2] at h; simp at h
      | some zs =>
        rw [e, e2] at h
        cases h
        rw [List.take_succ_cons, optAll, e, optAll_take n e2]
        rfl

theorem optAll_drop {α β : Type} {f : α → Option β} : ∀ {a : List α} {x : List β} (n : Nat), optAll f a = some x → optAll f (a.drop n) = some (x.drop n)
  | a, x, 0, h => by simpa using h
  | [], x, n + 1, h => by cases h; rfl
  | c :: a, x, n + 1, h => by
    rw [optAll] at h
    cases e : f c with
    | none => rw [e] at h; simp at h
    | some z =>
      cases e2 : optAll f a with
      | none => rw [e, e2] at h; simp at h
      | some zs =>
        rw [e, e2] at h
        cases h
        exact optAll_drop n e2

/-- What the old header of an array shows after a removal in place. -/
theorem view_shift {h : Heap} {b n : Nat} {l : List Tson} {F : Foot} (hr : Rep h (.arr b n) (.arr l) F) {i : Nat} (hi : i < n) :
    Heap.view (h.set b (.back (shiftDown (h.getBack b) n i))) (.arr b n) = some (.arr (shiftT l i)) := by
  obtain ⟨l', tl, F₁, he, h1, h2, h3, h4, h5, rfl⟩ := hr.inv_arr
  cases he
  have hlt : b < h.length := (List.getElem?_eq_some_iff.1 h1).1
  rw [Heap.getBack_eq h1]
  have hf : ∀ x, F₁ x → (h.set b (.back (shiftDown l' n i)))[x]? = h[x]? := by
    intro x hx
    have : b ≠ x := by rintro rfl; exact h5 hx
    simp [this]
  have h4' := h4.frame hf
  have hrd := h4'.read (List.range h.length) (fun x hx => List.mem_range.2 (h4.lt x hx)) h.length (by simp)
  have htk : (shiftDown l' n i).take n = (l'.take n).take i ++ ((l'.take n).drop (i + 1) ++ (l'.take n).drop (n - 1)) := by
    unfold shiftDown
    rw [← List.append_assoc, List.take_append, List.take_of_length_le (by simp; omega), List.take_take, Nat.min_eq_left (by omega : i ≤ n), List.append_assoc]
    congr 2
    rw [List.drop_take (i := n - 1) (j := n)]
    congr 1
    rw [List.length_append, List.length_take, List.length_drop, List.length_take]
    omega
  unfold Heap.view
  rw [List.length_set, Heap.read, List.getElem?_set_self hlt]
  dsimp only
  rw [if_pos (by unfold shiftDown; simp; omega), htk, optAll_append (optAll_take i hrd) (optAll_append (optAll_drop (i + 1) hrd) (optAll_drop (n - 1) hrd))]
  rw [Option.map_some, shiftT, h3]

/-- A reference to a document, after an operation on it, shows the first component of `applyT`. -/
theorem old_view (op : Op) (parts : List Bytes) {h : Heap} {v : HVal} {t : Tson} {F : Foot} (hr : Rep h v t F) :
    (applyTraverse h v parts op).1.view v = some (applyT t parts op).1 := by
  have P := refine_applyTraverse op parts h v t F hr
  by_cases hobj : (∃ a, v = .obj a) ∨ (applyTraverse h v parts op).2.isOk = false
  · obtain ⟨G, hG, -⟩ := P.old hobj
    exact hG.view
  have hF := hr.lt
  cases parts with
  | nil => exact hr.view
  | cons part rest =>
    cases v with
    | obj a => exact absurd (.inl ⟨a, rfl⟩) hobj
    | null => obtain ⟨rfl, -⟩ := hr.inv_null; exact hr.view
    | leaf p s => obtain ⟨rfl, -⟩ := hr.inv_leaf; exact hr.view
    | arr b n =>
      obtain ⟨l₀, l, F₁, rfl, g1, g2, g3, g4, g5, g6⟩ := hr.inv_arr
      have hout := P.out
      have hnok : (applyTraverse h (.arr b n) (part :: rest) op).2.isOk ≠ false := fun k => hobj (.inr k)
      revert hout hnok
      rw [applyTraverse, applyT]
      cases hat : atoi part with
      | none => intro _ hn; exact absurd rfl hn
      | some idx =>
        dsimp only
        rw [g3]
        by_cases hidx : (n : Int) ≤ idx
        · simp only [hidx, if_true]
          cases hcls : op.kind.cls with
          | set =>
            dsimp only
            cases rest with
            | nil =>
              dsimp only
              cases hov : opVal op.value with
              | nil => intro _ hn; exact absurd rfl hn
              | other => intro _ hn; exact absurd rfl hn
              | prim p =>
                intro _ _
                refine (hr.frame fun x hx => ?_).view
                have := hF x hx
                rw [Heap.backSet_ne (by omega), Heap.alloc_old this]
            | cons p1 rest =>
              dsimp only
              intro ho hn
              generalize assignElem h.length idx.toNat _ _ = R at *
              obtain ⟨h', r⟩ := R
              cases r with
              | ok w => exact ho.elim
              | err => exact absurd rfl hn
              | panic => exact absurd rfl hn
          | _ => intro _ hn; exact absurd rfl hn
        · simp only [hidx, if_false]
          cases rest with
          | nil =>
            dsimp only
            cases hcls : op.kind.cls with
            | unimplemented => intro _ hn; exact absurd rfl hn
            | unknown => intro _ hn; exact absurd rfl hn
            | remove =>
              dsimp only
              by_cases hneg : idx < 0
              · simp only [hneg, if_true]; intro _ hn; exact absurd rfl hn
              · simp only [hneg, if_false]
                intro _ _
                exact view_shift hr (by omega)
            | set =>
              dsimp only
              cases hov : opVal op.value with
              | nil => intro _ hn; exact absurd rfl hn
              | other => intro _ hn; exact absurd rfl hn
              | prim p =>
                dsimp only
                by_cases hneg : idx < 0
                · simp only [hneg, if_true]; intro _ hn; exact absurd rfl hn
                · simp only [hneg, if_false]
                  rintro ⟨G, hG, -⟩ -
                  exact hG.view
          | cons p1 rest =>
            dsimp only
            by_cases hneg : idx < 0
            · simp only [hneg, if_true]; intro _ hn; exact absurd rfl hn
            · simp only [hneg, if_false]
              generalize applyTraverse h _ (p1 :: rest) op = R
              generalize applyT _ (p1 :: rest) op = T
              obtain ⟨h', r⟩ := R
              obtain ⟨o, r'⟩ := T
              cases r with
              | ok w =>
                cases r' with
                | ok s => rintro ⟨G, hG, -⟩ -; exact hG.view
                | err => intro ho; exact ho.elim
                | panic => intro ho; exact ho.elim
              | err => intro _ hn; exact absurd rfl hn
              | panic => intro _ hn; exact absurd rfl hn

/-- **C27, root arrays.**  An array from which an element is removed: the operation returns the array without the element, and whoever
still holds the array itself sees the later elements moved down by one and the last one twice. -/
theorem C27_array_remove {h : Heap} {b n : Nat} {l : List Tson} {F : Foot} (hr : Rep h (.arr b n) (.arr l) F) {op : Op} (hk : op.kind = .remove)
    {part : Bytes} (hp : writeParts op.path = [part]) {i : Nat} (ha : atoi part = some (i : Int)) (hi : i < l.length) :
    ∃ h' w, applyOperation h (.arr b n) op = (h', .ok w) ∧ h'.view w = some (.arr (l.eraseIdx i)) ∧
      ∃ x, l.getLast? = some x ∧ h'.view (.arr b n) = some (.arr (l.eraseIdx i ++ [x])) := by
  have hv := old_view op (writeParts op.path) hr
  have P := refine_applyTraverse op (writeParts op.path) h _ _ F hr
  have hT : applyT (.arr l) (writeParts op.path) op = (.arr (shiftT l i), .ok (.arr (l.eraseIdx i))) := by
    rw [hp, applyT]
    simp only [ha, hk, OpKind.cls]
    rw [if_neg (by omega), if_neg (by omega)]
    rfl
  rw [hT] at hv P
  have ho := P.out
  unfold applyOperation
  generalize applyTraverse h (.arr b n) (writeParts op.path) op = R at *
  obtain ⟨h', r⟩ := R
  cases r with
  | err => exact ho.elim
  | panic => exact ho.elim
  | ok w =>
    obtain ⟨G, hG, -⟩ := ho
    refine ⟨h', w, rfl, hG.view, l[l.length - 1], ?_, ?_⟩
    · rw [List.getLast?_eq_getElem?, List.getElem?_eq_getElem (by omega)]
    · rw [hv]
      dsimp only
      rw [shiftT, List.eraseIdx_eq_take_drop_succ, List.append_assoc]
      congr 4
      rw [List.drop_eq_getElem_cons (by omega), List.drop_of_length_le (by omega)]

/-- Three leaves, the first removed. -/
example : let s := Heap.store [] (.arr [.leaf (.bool true) 1, .leaf (.bool false) 2, .leaf (.str b!"x") 3])
    ∃ h' w, applyOperation s.1 s.2 ⟨.remove, b!"0", .nil, 4⟩ = (h', .ok w) ∧ h'.view w = some (.arr [.leaf (.bool false) 2, .leaf (.str b!"x") 3]) ∧
      h'.view s.2 = some (.arr [.leaf (.bool false) 2, .leaf (.str b!"x") 3, .leaf (.str b!"x") 3]) := by
  obtain ⟨-, F, hF, -⟩ := store_rep [] (.arr [.leaf (.bool true) 1, .leaf (.bool false) 2, .leaf (.str b!"x") 3]) (by simp [Tson.Wf, Tson.WfL])
  obtain ⟨h', w, h1, h2, x, h3, h4⟩ := C27_array_remove hF (op := ⟨.remove, b!"0", .nil, 4⟩) rfl (part := b!"0") (by decide) (i := 0) (by decide) (by decide)
  cases h3
  exact ⟨h', w, h1, h2, h4⟩

end Verif
