import Verif.Diff
import Verif.SpecDiff
import Verif.ApplyLemmas
/-
Properties C28 and C29: documents with equal values, and empty patches.
-/
namespace Verif

theorem goEq_iff {p q : Prim} : Prim.goEq p q = true ↔ EqPrim p q := by
  constructor
  · intro h
    cases p <;> cases q <;> simp only [Prim.goEq, beq_iff_eq, Bool.false_eq_true] at h
    · subst h; exact .str _
    · exact .num _ _ h
    · subst h; exact .bool _
  · intro h; cases h <;> simp_all [Prim.goEq]

theorem EqPrim.kind {p q : Prim} (h : EqPrim p q) : p.kind = q.kind := by cases h <;> rfl

theorem EqDoc.kind {b : Bool} {v w : Tson} (h : EqDoc b v w) : v.kind = w.kind := by
  cases h with
  | leaf p q t u h _ => exact h.kind
  | _ => rfl

theorem removeOps_nil {path : Bytes} {n : List (Bytes × Tson)} (m : List (Bytes × Tson)) :
    removeOps path n m = .ok [] ↔ ∀ kv ∈ m, (mget n kv.1).isSome = true := by
  induction m with
  | nil => simp [removeOps]
  | cons kv m ih =>
    obtain ⟨k, v⟩ := kv
    simp only [removeOps, List.forall_mem_cons]
    cases hk : mget n k with
    | some w => simp [ih]
    | none =>
      simp only [Option.isSome_none, Bool.false_eq_true, false_and, iff_false]
      cases v <;> dsimp only <;> first | (cases removeOps path n m <;> simp) | simp

theorem Res.append_nil {r s : Res (List Op)} : r.append s = .ok [] ↔ r = .ok [] ∧ s = .ok [] := by
  cases r with
  | ok a => cases s <;> simp [Res.append]
  | err => simp [Res.append]
  | panic => simp [Res.append]

theorem diffMembers_nil {wt : Bool} {m : List (Bytes × Tson)} {path : Bytes} (n : List (Bytes × Tson)) :
    diffMembers wt m n path = .ok [] ↔
      ∀ kw ∈ n, ∃ v, mget m kw.1 = some v ∧ v.kind = kw.2.kind ∧
        handleValues wt v kw.2 (makePath path kw.1) = .ok [] := by
  induction n with
  | nil => simp [diffMembers]
  | cons kw n ih =>
    obtain ⟨k, w⟩ := kw
    rw [diffMembers, Res.append_nil, ih, List.forall_mem_cons]
    refine and_congr_left' ?_
    dsimp only
    have ho : ∀ o : Option Op, orErr o ≠ .ok [] := by intro o; cases o <;> simp [orErr]
    cases hk : mget m k with
    | none => simp [ho]
    | some v =>
      by_cases hkind : v.kind = w.kind <;> simp [hkind, ho]

theorem handleElems_nil {wt : Bool} {path : Bytes} (k : List Tson) : ∀ (l : List Tson) (i : Nat),
    l.length = k.length →
    (handleElems wt l k path i = .ok [] ↔
      ∀ (j : Nat) v w, l[j]? = some v → k[j]? = some w →
        handleValues wt v w (makePathIdx path (i + j)) = .ok []) := by
  induction k with
  | nil => intro l i h; simp [handleElems]
  | cons w k ih =>
    intro l i h
    cases l with
    | nil => simp at h
    | cons v l =>
      rw [handleElems, Res.append_nil, ih l (i + 1) (by simpa using h)]
      constructor
      · rintro ⟨h1, h2⟩ j v' w' hv hw
        cases j with
        | zero => simp at hv hw; subst hv; subst hw; exact h1
        | succ j =>
          have := h2 j v' w' (by simpa using hv) (by simpa using hw)
          rw [show i + 1 + j = i + (j + 1) by omega] at this
          exact this
      · intro h
        refine ⟨h 0 v w (by simp) (by simp), fun j v' w' hv hw => ?_⟩
        have := h (j + 1) v' w' (by simpa using hv) (by simpa using hw)
        rw [show i + (j + 1) = i + 1 + j by omega] at this
        exact this

theorem pigeonhole {l : List Nat} (hn : l.Nodup) {n : Nat} (h : ∀ j ∈ l, j < n) : l.length ≤ n := by
  induction n generalizing l with
  | zero =>
    cases l with
    | nil => simp
    | cons x l => have := h x (by simp); omega
  | succ n ih =>
    have := ih (hn.erase n) (fun j hj => by
      have h1 := h j (List.mem_of_mem_erase hj)
      have h2 : j ≠ n := fun e => by subst e; exact absurd hj (hn.not_mem_erase)
      omega)
    rw [List.length_erase] at this
    split at this <;> omega

theorem processLoop_length (mod : List Tson) (l : List Tson) : ∀ (used : List Nat) (i : Nat), used.Nodup →
    (∀ j ∈ used, j < mod.length) → processLoop mod used i l = [] → used.length + l.length ≤ mod.length := by
  have hfind : ∀ (v : Tson) (used : List Nat) (mod : List Tson) (j : Nat) (r : Nat),
      findUnused v used j mod = some r → r ∉ used ∧ j ≤ r ∧ r < j + mod.length := by
    intro v used mod
    induction mod with
    | nil => intro j r h; simp [findUnused] at h
    | cons w mod ih =>
      intro j r h
      simp only [findUnused] at h
      split at h
      · obtain ⟨h1, h2, h3⟩ := ih _ _ h
        exact ⟨h1, by omega, by simp only [List.length_cons]; omega⟩
      · split at h
        · simp at h; subst h; rename_i hu _; exact ⟨hu, by simp, by simp⟩
        · obtain ⟨h1, h2, h3⟩ := ih _ _ h
          exact ⟨h1, by omega, by simp only [List.length_cons]; omega⟩
  induction l with
  | nil =>
    intro used i hn hu _
    exact pigeonhole hn hu
  | cons v l ih =>
    intro used i hn hu h
    simp only [processLoop] at h
    split at h
    · rename_i j hj
      obtain ⟨h1, -, h2⟩ := hfind _ _ _ _ _ hj
      have := ih (j :: used) (i + 1) (List.nodup_cons.2 ⟨h1, hn⟩)
        (fun x hx => by rcases List.mem_cons.1 hx with rfl | hx; omega; exact hu x hx) h
      simp only [List.length_cons] at this ⊢
      omega
    · simp at h

theorem processArray_nil {orig mod : List Tson} (h : processArray orig mod = []) : orig.length ≤ mod.length := by
  have := processLoop_length mod orig [] 0 (by simp) (by simp) h
  simpa using this

theorem addElems_nil {path : Bytes} {r : List (Nat × Tson)} (h : addElems path r = .ok []) : r = [] := by
  cases r with
  | nil => rfl
  | cons iv r =>
    obtain ⟨i, v⟩ := iv
    simp only [addElems] at h
    split at h
    · cases hx : addElems path r <;> rw [hx] at h <;> simp at h
    · simp at h

theorem replaceElems_nil {path : Bytes} (k : List Tson) : ∀ (l : List Tson) (i : Nat),
    replaceElems path i l k = .ok [] → k.length ≤ l.length := by
  induction k with
  | nil => intro l i _; simp
  | cons w k ih =>
    intro l i h
    cases l with
    | nil =>
      simp only [replaceElems] at h
      split at h
      · cases hx : replaceElems path (i + 1) [] k <;> rw [hx] at h <;> simp at h
      · simp at h
    | cons v l =>
      simp only [replaceElems] at h
      split at h
      · have := ih _ _ h; simp; exact this
      · split at h
        · cases hx : replaceElems path (i + 1) l k <;> rw [hx] at h <;> simp at h
        · have := ih _ _ h; simp; exact this

/-- Arrays of different length always give an operation, an error or a panic. -/
theorem compareArray_ne_nil {wt : Bool} {l k : List Tson} {path : Bytes} (h : l.length ≠ k.length) :
    compareArray wt l k path ≠ .ok [] := by
  intro hc
  unfold compareArray at hc
  dsimp only at hc
  rw [Res.map_eq_ok] at hc
  obtain ⟨r, h1, h2⟩ := hc
  obtain ⟨h2, h3⟩ := List.append_eq_nil_iff.1 h2
  subst h3
  have hp : processArray l k = [] := by simpa using h2
  have h4 := processArray_nil hp
  cases wt with
  | true => have := replaceElems_nil _ _ _ h1; omega
  | false => have := processArray_nil (addElems_nil h1); omega

theorem handleValues_nil (wt : Bool) (b : Tson) : ∀ (a : Tson) (path : Bytes), a.Wf → b.Wf →
    (handleValues wt a b path = .ok [] ↔ EqDoc wt a b) := by
  induction b using Tson.induction with
  | null =>
    intro a path _ _
    cases a <;> simp only [handleValues]
    · exact ⟨fun _ => .null, fun _ => trivial⟩
    all_goals exact ⟨fun h => by simp at h, fun h => by cases h⟩
  | leaf q u =>
    intro a path _ _
    cases a with
    | leaf p t =>
      simp only [handleValues]
      by_cases hk : p.kind = q.kind
      · simp only [hk, ne_eq, not_true_eq_false, if_false]
        by_cases hc : (Prim.goEq p q && (!wt || decide (t = u))) = true
        · simp only [hc, if_true, true_iff]
          simp only [Bool.and_eq_true, Bool.or_eq_true, Bool.not_eq_true', decide_eq_true_eq] at hc
          exact .leaf _ _ _ _ (goEq_iff.1 hc.1) (fun h => by rcases hc.2 with h' | h'; simp [h] at h'; exact h')
        · rw [if_neg hc]
          refine ⟨fun h => by simp at h, fun h => ?_⟩
          exfalso
          cases h with
          | leaf _ _ _ _ h1 h2 =>
            apply hc
            simp only [goEq_iff.2 h1, Bool.true_and, Bool.or_eq_true, Bool.not_eq_true', decide_eq_true_eq]
            cases wt with
            | false => left; rfl
            | true => right; exact h2 rfl
      · simp only [hk, ne_eq, not_false_eq_true, if_true]
        refine ⟨fun h => by simp at h, fun h => ?_⟩
        cases h with
        | leaf _ _ _ _ h1 _ => exact absurd h1.kind hk
    | null => simp only [handleValues]; exact ⟨fun h => by simp at h, fun h => by cases h⟩
    | obj m => simp only [handleValues]; exact ⟨fun h => by simp at h, fun h => by cases h⟩
    | arr m => simp only [handleValues]; exact ⟨fun h => by simp at h, fun h => by cases h⟩
  | obj n ih =>
    intro a path ha hb
    cases a with
    | obj m =>
      simp only [handleValues]
      rw [Res.append_nil, diffMembers_nil, removeOps_nil]
      have hwm := (Tson.wfF_iff m).1 ha.2
      have hwn := (Tson.wfF_iff n).1 hb.2
      constructor
      · rintro ⟨h1, h2⟩
        refine .obj _ _ (fun k => ?_) fun k v w hv hw => ?_
        · rw [Bool.eq_iff_iff, Option.isSome_iff_exists, Option.isSome_iff_exists]
          constructor
          · rintro ⟨v, hv⟩
            exact Option.isSome_iff_exists.1 (h2 (k, v) (mget_mem hv))
          · rintro ⟨w, hw⟩
            obtain ⟨v, hv, -⟩ := h1 (k, w) (mget_mem hw)
            exact ⟨v, hv⟩
        · have hm := mget_mem hw
          obtain ⟨v', hv', -, h3⟩ := h1 (k, w) hm
          rw [hv] at hv'; cases hv'
          exact (ih _ hm v _ (hwm _ (mget_mem hv)) (hwn _ hm)).1 h3
      · intro h
        cases h with
        | obj _ _ e1 e2 =>
          refine ⟨?_, ?_⟩
          · rintro ⟨k, w⟩ hm
            have hw := mem_mget hb.1 hm
            have : (mget m k).isSome = true := by rw [e1 k, hw]; rfl
            obtain ⟨v, hv⟩ := Option.isSome_iff_exists.1 this
            have he := e2 k v w hv hw
            exact ⟨v, hv, he.kind, (ih _ hm v _ (hwm _ (mget_mem hv)) (hwn _ hm)).2 he⟩
          · rintro ⟨k, v⟩ hm
            rw [← e1 k, mem_mget ha.1 hm]; rfl
    | null => simp only [handleValues]; exact ⟨fun h => by simp at h, fun h => by cases h⟩
    | leaf p t => simp only [handleValues]; exact ⟨fun h => by simp at h, fun h => by cases h⟩
    | arr m => simp only [handleValues]; exact ⟨fun h => by simp at h, fun h => by cases h⟩
  | arr k ih =>
    intro a path ha hb
    cases a with
    | arr l =>
      simp only [handleValues]
      by_cases hl : l.length = k.length
      · simp only [hl, ne_eq, not_true_eq_false, if_false]
        rw [handleElems_nil k l 0 hl]
        have hwm := (Tson.wfL_iff l).1 ha
        have hwn := (Tson.wfL_iff k).1 hb
        constructor
        · intro h
          refine .arr _ _ hl fun i v w hv hw => ?_
          exact (ih _ (List.mem_of_getElem? hw) v _ (hwm _ (List.mem_of_getElem? hv))
            (hwn _ (List.mem_of_getElem? hw))).1 (h i v w hv hw)
        · intro h i v w hv hw
          cases h with
          | arr _ _ _ e2 =>
            exact (ih _ (List.mem_of_getElem? hw) v _ (hwm _ (List.mem_of_getElem? hv))
              (hwn _ (List.mem_of_getElem? hw))).2 (e2 i v w hv hw)
      · simp only [hl, ne_eq, not_false_eq_true, if_true]
        refine ⟨fun h => absurd h (compareArray_ne_nil hl), fun h => ?_⟩
        cases h with
        | arr _ _ h1 _ => exact absurd h1 hl
    | null => simp only [handleValues]; exact ⟨fun h => by simp at h, fun h => by cases h⟩
    | leaf p t => simp only [handleValues]; exact ⟨fun h => by simp at h, fun h => by cases h⟩
    | obj m => simp only [handleValues]; exact ⟨fun h => by simp at h, fun h => by cases h⟩

/-- C28: documents with the same structure and leaf values generate the empty patch; with the same timestamps,
also `GeneratePatchWithTimestamp` does. -/
theorem C28_equal_no_patch {a b : Tson} (ha : a.Wf) (hb : b.Wf) :
    (EqDoc false a b → generatePatch a b = .ok []) ∧
    (EqDoc true a b → generatePatchWithTimestamp a b = .ok []) :=
  ⟨(handleValues_nil false b a [] ha hb).2, (handleValues_nil true b a [] ha hb).2⟩

/-- C29: an empty patch means the same structure and leaf values; an empty patch with timestamps means that the
timestamps agree as well. -/
theorem C29_empty_patch_equal {a b : Tson} (ha : a.Wf) (hb : b.Wf) :
    (generatePatch a b = .ok [] → EqDoc false a b) ∧
    (generatePatchWithTimestamp a b = .ok [] → EqDoc true a b) :=
  ⟨(handleValues_nil false b a [] ha hb).1, (handleValues_nil true b a [] ha hb).1⟩

/-- The same document with members in another order, other timestamps and `-0` for `0`. -/
def diffA : Tson := .obj [(b!"a", .leaf (.num F64.zero) 1), (b!"b", .arr [.leaf (.bool true) 2, .null, .obj []])]
def diffB : Tson := .obj [(b!"b", .arr [.leaf (.bool true) 7, .null, .obj []]),
  (b!"a", .leaf (.num (.fin true 0 (-1074) (by decide))) 1)]

example : diffA.Wf ∧ diffB.Wf ∧ generatePatch diffA diffB = .ok [] ∧
    generatePatchWithTimestamp diffA diffB = .ok [⟨.replace, b!"/b/0", .bool true, 7⟩] ∧
    generatePatchWithTimestamp diffA diffA = .ok [] := by
  refine ⟨?_, ?_, by decide, by decide, by decide⟩ <;>
    simp [diffA, diffB, Tson.Wf, Tson.WfF, Tson.WfL, mkeys]

example : EqDoc false diffA diffB := (C29_empty_patch_equal (by simp [diffA, Tson.Wf, Tson.WfF, Tson.WfL, mkeys])
  (by simp [diffB, Tson.Wf, Tson.WfF, Tson.WfL, mkeys])).1 (by decide)

/-- A NaN is a difference: a document containing one generates a patch against itself. -/
theorem C28_nan_differs :
    generatePatch (.leaf (.num .nan) 1) (.leaf (.num .nan) 1) = .ok [⟨.replace, [], .num .nan, 1⟩] := by decide

end Verif
