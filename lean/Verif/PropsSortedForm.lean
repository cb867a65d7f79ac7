import Verif.PropsTight
/-
C41: what the sorted compatible form of a document is.
-/
namespace Verif

/-- The two members of a leaf in a compatible text, the timestamp last. -/
def leafText : List (Bytes × Js) → Bool
  | [_, (_, .int _)] => true
  | _ => false

mutual
/-- A compatible text with the two members of every leaf in the other order. -/
def swapLeaf : Js → Js
  | .obj m => .obj (if leafText m then m.reverse else swapLeafF m)
  | .arr l => .arr (swapLeafL l)
  | j => j
/-- The members. -/
def swapLeafF : List (Bytes × Js) → List (Bytes × Js)
  | [] => []
  | (k, v) :: m => (k, swapLeaf v) :: swapLeafF m
/-- The elements. -/
def swapLeafL : List Js → List Js
  | [] => []
  | v :: l => swapLeaf v :: swapLeafL l
end

theorem swapLeafF_eq (m : List (Bytes × Js)) : swapLeafF m = mapV swapLeaf m := by
  induction m with
  | nil => rfl
  | cons p m ih => obtain ⟨k, v⟩ := p; rw [swapLeafF, ih]; rfl

theorem encAnyF_insert (p : Bytes × Js) (hp : encAny p.2 ≠ .panic) : ∀ (m : List (Bytes × Js)), (∀ q ∈ m, encAny q.2 ≠ .panic) →
    encAnyF (insertM p m) = (encAny p.2).bind fun j => (encAnyF m).map (insertM (p.1, j))
  | [], _ => by
    obtain ⟨k, v⟩ := p
    rw [insertM, encAnyF]
    rfl
  | q :: m, h => by
    rw [List.forall_mem_cons] at h
    obtain ⟨k, v⟩ := p
    obtain ⟨k', v'⟩ := q
    rw [insertM]
    split
    · rename_i hle
      rw [encAnyF, encAnyF]
      cases encAny v <;> cases encAny v' <;> cases encAnyF m <;> simp_all [Res.bind, Res.map, insertM]
    · rename_i hle
      rw [encAnyF, encAnyF_insert (k, v) hp m h.2, encAnyF]
      cases e1 : encAny v <;> cases e2 : encAny v' <;> cases encAnyF m <;> simp_all [Res.bind, Res.map, insertM]

theorem encAnyF_sort : ∀ (m : List (Bytes × Js)), (∀ q ∈ m, encAny q.2 ≠ .panic) → encAnyF (sortM m) = (encAnyF m).map sortM
  | [], _ => rfl
  | (k, v) :: m, h => by
    rw [List.forall_mem_cons] at h
    show encAnyF (insertM (k, v) (sortM m)) = _
    rw [encAnyF_insert _ h.1 _ (fun q hq => h.2 q ((sortM_perm m).subset hq)), encAnyF_sort m h.2, encAnyF]
    cases encAny v <;> cases encAnyF m <;> rfl

theorem encTson_not_int (t : Tson) : ∀ n, encTson t ≠ .ok (.int n) := by
  intro n h
  cases t with
  | null => simp [encTson] at h
  | leaf p ts => rw [encTson] at h; cases e : encPrim p <;> rw [e] at h <;> cases h
  | obj m => rw [encTson] at h; cases e : encTsonF m <;> rw [e] at h <;> cases h
  | arr l => rw [encTson] at h; cases e : encTsonL l <;> rw [e] at h <;> cases h

theorem encTsonF_ints : ∀ {m : List (Bytes × Tson)} {l : List (Bytes × Js)}, encTsonF m = .ok l → (∀ p ∈ l, ∀ n, p.2 ≠ .int n) ∧ mkeys l = mkeys m
  | [], l, h => by cases h; exact ⟨by simp, rfl⟩
  | (k, v) :: m, l, h => by
    rw [encTsonF] at h
    cases e1 : encTson v with
    | err => rw [e1] at h; cases h
    | panic => rw [e1] at h; cases h
    | ok j =>
      rw [e1] at h
      cases e2 : encTsonF m with
      | err => rw [e2] at h; cases h
      | panic => rw [e2] at h; cases h
      | ok r =>
        rw [e2] at h
        cases h
        obtain ⟨h1, h2⟩ := encTsonF_ints e2
        refine ⟨?_, by simp [mkeys] at h2 ⊢; exact h2⟩
        rw [List.forall_mem_cons]
        exact ⟨fun n hn => encTson_not_int v n (by rw [e1]; exact congrArg _ hn), h1⟩

theorem leafText_ints {m : List (Bytes × Js)} (h : ∀ p ∈ m, ∀ n, p.2 ≠ .int n) : leafText m = false := by
  unfold leafText
  split
  · rename_i a k n
    exact absurd rfl (h (k, .int n) (by simp) n)
  · rfl

/-- The sorted form of a document, before it is written. -/
theorem sorted_swap (t : Tson) : t.Wf → NullFree t → ∃ j, toSortedInterface t = .ok j ∧ encAny j = (encTson t).map swapLeaf := by
  induction t using Tson.induction with
  | null => intro _ h; simp [NullFree] at h
  | leaf p ts =>
    intro _ _
    refine ⟨_, rfl, ?_⟩
    cases p with
    | str s => rfl
    | bool b => rfl
    | num f => cases f <;> rfl
  | obj m ih =>
    intro hw hn
    rw [Tson.Wf, Tson.wfF_iff] at hw
    rw [NullFree, nullFreeF_iff] at hn
    obtain ⟨l, h1, h2, h3⟩ : ∃ l, toSortedF m = .ok l ∧ encAnyF l = (encTsonF m).map (mapV swapLeaf) ∧ ∀ q ∈ l, encAny q.2 ≠ .panic := by
      replace hw := hw.2
      induction m with
      | nil => exact ⟨[], rfl, rfl, by simp⟩
      | cons p m ihm =>
        obtain ⟨k, v⟩ := p
        rw [List.forall_mem_cons] at ih hw hn
        obtain ⟨l, h1, h2, h3⟩ := ihm ih.2 hn.2 hw.2
        obtain ⟨j, e1, e2⟩ := ih.1 hw.1 hn.1
        refine ⟨(k, j) :: l, ?_, ?_, ?_⟩
        · rw [toSortedF, e1, h1]; rfl
        · rw [encAnyF, e2, h2, encTsonF]
          cases encTson v <;> cases encTsonF m <;> rfl
        · rw [List.forall_mem_cons]
          exact ⟨by rw [e2]; exact map_ne_panic (encTson_ne_panic v), h3⟩
    refine ⟨.obj (sortM l), by rw [toSortedInterface, h1]; rfl, ?_⟩
    rw [encAny, encAnyF_sort l h3, h2, encTson]
    cases e : encTsonF m with
    | err => rfl
    | panic => rfl
    | ok l' =>
      obtain ⟨q1, q2⟩ := encTsonF_ints e
      simp only [Res.map]
      rw [swapLeaf, leafText_ints, if_neg (by simp), swapLeafF_eq, sortM_idem, sortM_mapV]
      · simp [mapV, encKey]
      · have : mkeys (mapV swapLeaf l') = mkeys l' := by simp [mkeys, mapV]
        rw [this, q2]
        exact hw.1
      · intro p hp n
        obtain ⟨q, hq, rfl⟩ := List.mem_map.1 hp
        exact q1 q ((sortM_perm l').subset hq) n
  | arr l ih =>
    intro hw hn
    rw [Tson.Wf, Tson.wfL_iff] at hw
    rw [NullFree, nullFreeL_iff] at hn
    obtain ⟨k, h1, h2⟩ : ∃ k, toSortedL l = .ok k ∧ encAnyL k = (encTsonL l).map swapLeafL := by
      induction l with
      | nil => exact ⟨[], rfl, rfl⟩
      | cons v l ihl =>
        rw [List.forall_mem_cons] at ih hw hn
        obtain ⟨k, h1, h2⟩ := ihl ih.2 hw.2 hn.2
        obtain ⟨j, e1, e2⟩ := ih.1 hw.1 hn.1
        refine ⟨j :: k, ?_, ?_⟩
        · rw [toSortedL, e1, h1]; rfl
        · rw [encAnyL, e2, h2, encTsonL]
          cases encTson v <;> cases encTsonL l <;> rfl
    refine ⟨.arr k, by rw [toSortedInterface, h1]; rfl, ?_⟩
    rw [encAny, h2, encTson]
    cases encTsonL l <;> rfl

/-- **C41, what the sorted form says.**  For a document without nil `ToCompatibleTsonBytesSorted` gives what `ToCompatibleTsonBytes`
gives, an error included, except that the two members of every leaf stand in the order of their names: the elements of arrays
keep their order, and the members of objects are sorted in both. -/
theorem C41_content (t : Tson) (hw : t.Wf) (hn : NullFree t) : toCompatibleSorted t = (encTson t).map swapLeaf := by
  obtain ⟨j, h1, h2⟩ := sorted_swap t hw hn
  rw [toCompatibleSorted, h1]
  exact h2

example : toCompatibleSorted (.arr [.leaf (.bool true) 1, .obj [(b!"b", .leaf (.str b!"x") 2), (b!"a", .arr [])]]) =
    .ok (.arr [.obj [(b!"timestamp", .int 1), (b!"value", .bool true)],
      .obj [(b!"a", .arr []), (b!"b", .obj [(b!"timestamp", .int 2), (b!"value", .str b!"x")])]]) := by
  rw [C41_content _ (by simp [Tson.Wf, Tson.WfF, Tson.WfL, mkeys]) (by simp [NullFree, NullFreeF, NullFreeL])]
  rfl

end Verif
