import Verif.PropsDiffOps
import Verif.PropsArrays
import Verif.SpecDiffFull
/-
Property C30, second part: the generated patch is complete, and exact for documents of the same shape.
-/
namespace Verif

theorem nodeAt_nil {t u : Tson} : NodeAt t [] u ↔ u = t := by
  constructor
  · intro h; cases h; rfl
  · rintro rfl; exact .here _

theorem nodeAt_obj {m : List (Bytes × Tson)} {k : Bytes} {ks : List Bytes} {u : Tson} :
    NodeAt (.obj m) (k :: ks) u ↔ ∃ c, mget m k = some c ∧ NodeAt c ks u := by
  constructor
  · intro h
    cases h with
    | member _ _ _ c _ h1 h2 => exact ⟨c, h1, h2⟩
  · rintro ⟨c, h1, h2⟩; exact .member _ _ _ c _ h1 h2

theorem nodeAt_arr {l : List Tson} {k : Bytes} {ks : List Bytes} {u : Tson} :
    NodeAt (.arr l) (k :: ks) u ↔ ∃ i c, k = natDigits i ∧ l[i]? = some c ∧ NodeAt c ks u := by
  constructor
  · intro h
    cases h with
    | element _ i _ c _ h1 h2 => exact ⟨i, c, rfl, h1, h2⟩
  · rintro ⟨i, c, rfl, h1, h2⟩; exact .element _ i _ c _ h1 h2

theorem nodeAt_leaf {p q : Prim} {t u : Int} {ks : List Bytes} (h : NodeAt (.leaf p t) ks (.leaf q u)) :
    ks = [] ∧ q = p ∧ u = t := by
  cases h; exact ⟨rfl, rfl, rfl⟩

theorem not_leafDiffers {wt : Bool} {p q : Prim} {t u : Int} :
    ¬ LeafDiffers wt p t q u ↔ EqPrim p q ∧ (wt = true → t = u) := by
  unfold LeafDiffers
  exact Classical.not_not

theorem goEq_times {wt : Bool} {p q : Prim} {t u : Int} :
    (Prim.goEq p q && (!wt || decide (t = u))) = true ↔ ¬ LeafDiffers wt p t q u := by
  rw [not_leafDiffers, Bool.and_eq_true, goEq_iff]
  cases wt <;> simp

/-! ### Completeness -/

/-- The operations at `path` leave out nothing that differs. -/
def Complete (wt : Bool) (a b : Tson) (path : Bytes) (ops : List Op) : Prop :=
  (∀ ks q u, NodeAt b ks (.leaf q u) →
    (∃ p t, NodeAt a ks (.leaf p t) ∧ ¬ LeafDiffers wt p t q u) ∨ ∃ o ∈ ops, WritesLeaf o (path ++ pointer ks) q u) ∧
  ∀ ks m n k, NodeAt a ks (.obj m) → NodeAt b ks (.obj n) → k ∈ mkeys m → k ∉ mkeys n →
    ∃ o ∈ ops, o.kind = .remove ∧ o.path = path ++ pointer (ks ++ [k])

theorem Complete.mono {wt : Bool} {a b : Tson} {path : Bytes} {ops ops' : List Op} (h : Complete wt a b path ops)
    (hs : ∀ o ∈ ops, o ∈ ops') : Complete wt a b path ops' := by
  refine ⟨fun ks q u hq => ?_, fun ks m n k h1 h2 h3 h4 => ?_⟩
  · rcases h.1 ks q u hq with h | ⟨o, ho, hw⟩
    · exact .inl h
    · exact .inr ⟨o, hs o ho, hw⟩
  · obtain ⟨o, ho, hw⟩ := h.2 ks m n k h1 h2 h3 h4
    exact ⟨o, hs o ho, hw⟩

/-- What `diff` does with one member of the modified object. -/
def memberOps (wt : Bool) (m : List (Bytes × Tson)) (path k : Bytes) (w : Tson) : Res (List Op) :=
  match mget m k with
  | none => orErr (leafOp .add (makePath path k) w)
  | some v =>
    if v.kind ≠ w.kind then orErr (leafOp .replace (makePath path k) w)
    else handleValues wt v w (makePath path k)

theorem diffMembers_cons (wt : Bool) (m n : List (Bytes × Tson)) (path k : Bytes) (w : Tson) :
    diffMembers wt m ((k, w) :: n) path = (memberOps wt m path k w).append (diffMembers wt m n path) := by
  rw [diffMembers]; rfl

theorem diffMembers_mem {wt : Bool} {m : List (Bytes × Tson)} {path : Bytes} (n : List (Bytes × Tson)) : ∀ {ops : List Op},
    diffMembers wt m n path = .ok ops → ∀ k w, (k, w) ∈ n → ∃ p, memberOps wt m path k w = .ok p ∧ ∀ o ∈ p, o ∈ ops := by
  induction n with
  | nil => intro ops _ k w h; cases h
  | cons x n ih =>
    intro ops h k w hk
    obtain ⟨k', w'⟩ := x
    rw [diffMembers_cons] at h
    obtain ⟨p1, p2, e1, e2, rfl⟩ := Res.append_ok h
    rcases List.mem_cons.1 hk with hk | hk
    · cases hk
      exact ⟨p1, e1, fun o ho => List.mem_append_left _ ho⟩
    · obtain ⟨p, h1, h2⟩ := ih e2 k w hk
      exact ⟨p, h1, fun o ho => List.mem_append_right _ (h2 o ho)⟩

theorem removeOps_mem {path : Bytes} {n : List (Bytes × Tson)} (m : List (Bytes × Tson)) : ∀ {ops : List Op},
    removeOps path n m = .ok ops → ∀ k ∈ mkeys m, mget n k = none → ∃ o ∈ ops, o.kind = .remove ∧ o.path = makePath path k := by
  induction m with
  | nil => intro ops _ k h; cases h
  | cons x m ih =>
    intro ops h k hk hn
    obtain ⟨k', v⟩ := x
    have hcons : ∀ ts, (removeOps path n m).map ((⟨.remove, makePath path k', .nil, ts⟩ : Op) :: ·) = .ok ops →
        ∃ o ∈ ops, o.kind = .remove ∧ o.path = makePath path k := by
      intro ts h
      rw [Res.map_eq_ok] at h
      obtain ⟨r, h1, rfl⟩ := h
      rcases List.mem_cons.1 hk with hk | hk
      · cases hk
        exact ⟨_, List.mem_cons_self, rfl, rfl⟩
      · obtain ⟨o, ho, h2⟩ := ih h1 k hk hn
        exact ⟨o, List.mem_cons_of_mem _ ho, h2⟩
    simp only [removeOps] at h
    cases hn' : mget n k' with
    | some w =>
      rw [hn'] at h
      rcases List.mem_cons.1 hk with hk | hk
      · cases hk; rw [hn] at hn'; cases hn'
      · exact ih h k hk hn
    | none =>
      rw [hn'] at h
      cases v with
      | null => simp at h
      | leaf p ts => exact hcons ts h
      | obj _ => exact hcons 0 h
      | arr _ => exact hcons 0 h

theorem handleElems_mem {wt : Bool} {path : Bytes} (k : List Tson) : ∀ {l : List Tson} {j : Nat} {ops : List Op},
    handleElems wt l k path j = .ok ops → ∀ (i : Nat) v w, l[i]? = some v → k[i]? = some w →
    ∃ p, handleValues wt v w (makePathIdx path (j + i)) = .ok p ∧ ∀ o ∈ p, o ∈ ops := by
  induction k with
  | nil => intro l j ops _ i v w _ h; cases h
  | cons x k ih =>
    intro l j ops h i v w hv hw
    cases l with
    | nil => cases hv
    | cons y l =>
      rw [handleElems] at h
      obtain ⟨p1, p2, e1, e2, rfl⟩ := Res.append_ok h
      cases i with
      | zero =>
        cases hv; cases hw
        exact ⟨p1, e1, fun o ho => List.mem_append_left _ ho⟩
      | succ i =>
        obtain ⟨p, h1, h2⟩ := ih e2 i v w (by simpa using hv) (by simpa using hw)
        refine ⟨p, ?_, fun o ho => List.mem_append_right _ (h2 o ho)⟩
        rw [show j + (i + 1) = j + 1 + i by omega]
        exact h1

theorem writes_toGo {kind : OpKind} (hk : kind = .add ∨ kind = .replace) (path : Bytes) (q : Prim) (u : Int) :
    WritesLeaf ⟨kind, path, q.toGo, u⟩ path q u := ⟨hk, rfl, goValue_toGo q, rfl⟩

theorem handleValues_complete (wt : Bool) (b : Tson) : ∀ {a : Tson} {path : Bytes} {ops : List Op},
    b.Wf → Named a → Named b → SameLengths a b → GoodPath path → handleValues wt a b path = .ok ops →
    Complete wt a b path ops := by
  have single : ∀ {kind : OpKind} (_ : kind = .add ∨ kind = .replace) {a : Tson} {q : Prim} {u : Int} {path : Bytes},
      Complete wt a (.leaf q u) path [⟨kind, path, q.toGo, u⟩] := by
    intro kind hk a q u path
    refine ⟨fun ks q' u' h => .inr ⟨_, List.mem_singleton.2 rfl, ?_⟩, fun ks m n k _ h => by cases h⟩
    obtain ⟨rfl, rfl, rfl⟩ := nodeAt_leaf h
    simpa [pointer] using writes_toGo hk path q' u'
  induction b using Tson.induction with
  | null =>
    intro a path ops _ _ _ _ _ _
    exact ⟨fun ks q u h => (by cases h), fun ks m n k _ h => (by cases h)⟩
  | leaf q u =>
    intro a path ops _ _ _ _ _ h
    cases a with
    | leaf p t =>
      simp only [handleValues] at h
      split at h
      · cases h
      · split at h
        · rename_i hc
          cases h
          refine ⟨fun ks q' u' hq => .inl ?_, fun ks m n k _ h => by cases h⟩
          obtain ⟨rfl, rfl, rfl⟩ := nodeAt_leaf hq
          exact ⟨p, t, .here _, goEq_times.1 hc⟩
        · cases h
          exact single (.inr rfl)
    | null => simp only [handleValues] at h; cases h; exact single (.inl rfl)
    | obj m => simp only [handleValues] at h; cases h
    | arr l => simp only [handleValues] at h; cases h; exact single (.inr rfl)
  | obj n ih =>
    intro a path ops hb hna hnb hsl hp h
    cases a with
    | obj m =>
      simp only [handleValues] at h
      obtain ⟨o1, o2, h1, h2, rfl⟩ := Res.append_ok h
      have hwn := (Tson.wfF_iff n).1 hb.2
      have hkm := hna.keys [] m (.here _)
      have hkn := hnb.keys [] n (.here _)
      -- one member
      have key : ∀ k w, mget n k = some w → ∃ p, memberOps wt m path k w = .ok p ∧ (∀ o ∈ p, o ∈ o1 ++ o2) := by
        intro k w hw
        obtain ⟨p, e, hs⟩ := diffMembers_mem n h1 k w (mget_mem hw)
        exact ⟨p, e, fun o ho => List.mem_append_left _ (hs o ho)⟩
      have hrec : ∀ k w v, mget n k = some w → mget m k = some v → v.kind = w.kind →
          Complete wt v w (path ++ pointer [k]) (o1 ++ o2) := by
        intro k w v hw hv hkind
        obtain ⟨p, e, hs⟩ := key k w hw
        obtain ⟨hp1, hp2⟩ := makePath_eq hp (hkn k (mget_isSome.1 ⟨w, hw⟩))
        rw [memberOps, hv] at e
        dsimp only at e
        rw [if_neg (by simpa using hkind), hp1] at e
        refine (ih (k, w) (mget_mem hw) (hwn _ (mget_mem hw)) (hna.member hv) (hnb.member hw)
          (fun ks l k' h1 h2 => hsl (k :: ks) l k' (reaches_obj.2 ⟨v, hv, h1⟩) (reaches_obj.2 ⟨w, hw, h2⟩)) hp2 e).mono hs
      refine ⟨fun ks q u hq => ?_, fun ks m' n' k hm' hn' hk hk' => ?_⟩
      · cases ks with
        | nil => rw [nodeAt_nil] at hq; cases hq
        | cons k ks =>
          obtain ⟨w, hw, hq⟩ := nodeAt_obj.1 hq
          obtain ⟨p, e, hs⟩ := key k w hw
          have hp1 := (makePath_eq hp (hkn k (mget_isSome.1 ⟨w, hw⟩))).1
          have one : ∀ {kind : OpKind} (_ : kind = .add ∨ kind = .replace), orErr (leafOp kind (makePath path k) w) = .ok p →
              ∃ o ∈ o1 ++ o2, WritesLeaf o (path ++ pointer (k :: ks)) q u := by
            intro kind hk e
            obtain ⟨p', ts, rfl, rfl⟩ := orErr_leafOp e
            obtain ⟨rfl, rfl, rfl⟩ := nodeAt_leaf hq
            refine ⟨_, hs _ (List.mem_singleton.2 rfl), ?_⟩
            rw [← hp1]
            exact writes_toGo hk _ q u
          rw [memberOps] at e
          cases hv : mget m k with
          | none =>
            rw [hv] at e
            exact .inr (one (.inl rfl) e)
          | some v =>
            rw [hv] at e
            dsimp only at e
            by_cases hkind : v.kind = w.kind
            · rcases (hrec k w v hw hv hkind).1 ks q u hq with ⟨p', t, h1, h2⟩ | ⟨o, ho, hwr⟩
              · exact .inl ⟨p', t, nodeAt_obj.2 ⟨v, hv, h1⟩, h2⟩
              · refine .inr ⟨o, ho, ?_⟩
                rw [pointer_cons, ← List.append_assoc]
                exact hwr
            · rw [if_pos hkind] at e
              exact .inr (one (.inr rfl) e)
      · cases ks with
        | nil =>
          cases nodeAt_nil.1 hm'
          cases nodeAt_nil.1 hn'
          have hnone : mget n k = none := by
            cases hg : mget n k with
            | none => rfl
            | some w => exact absurd (mget_isSome.1 ⟨w, hg⟩) hk'
          obtain ⟨o, ho, h3, h4⟩ := removeOps_mem m h2 k hk hnone
          exact ⟨o, List.mem_append_right _ ho, h3, by rw [h4, (makePath_eq hp (hkm k hk)).1]; rfl⟩
        | cons k1 ks =>
          obtain ⟨v, hv, hm'⟩ := nodeAt_obj.1 hm'
          obtain ⟨w, hw, hn'⟩ := nodeAt_obj.1 hn'
          by_cases hkind : v.kind = w.kind
          · obtain ⟨o, ho, h3, h4⟩ := (hrec k1 w v hw hv hkind).2 ks m' n' k hm' hn' hk hk'
            refine ⟨o, ho, h3, ?_⟩
            rw [List.cons_append, pointer_cons, ← List.append_assoc]
            exact h4
          · obtain ⟨p, e, hs⟩ := key k1 w hw
            rw [memberOps, hv] at e
            dsimp only at e
            rw [if_pos hkind] at e
            obtain ⟨p', ts, rfl, rfl⟩ := orErr_leafOp e
            cases hn'
    | null => simp only [handleValues] at h; cases h
    | leaf p t => simp only [handleValues] at h; cases h
    | arr l => simp only [handleValues] at h; cases h
  | arr k ih =>
    intro a path ops hb hna hnb hsl hp h
    cases a with
    | arr l =>
      have hlen := hsl [] l k (.here _) (.here _)
      simp only [handleValues, hlen, ne_eq, not_true_eq_false, if_false] at h
      have hwn := (Tson.wfL_iff k).1 hb
      have hrec : ∀ (i : Nat) v w, l[i]? = some v → k[i]? = some w → Complete wt v w (path ++ pointer [natDigits i]) ops := by
        intro i v w hv hw
        obtain ⟨p, e, hs⟩ := handleElems_mem k h i v w hv hw
        obtain ⟨hp1, hp2⟩ := makePath_eq hp (natDigits_key i)
        rw [Nat.zero_add, makePathIdx, hp1] at e
        have hbi := hnb.bound hw
        exact (ih w (List.mem_of_getElem? hw) (hwn _ (List.mem_of_getElem? hw)) (hna.element hv) (hnb.element hw)
          (fun ks l k' h1 h2 => hsl (natDigits i :: ks) l k' ((reaches_arr hbi).2 ⟨v, hv, h1⟩)
            ((reaches_arr hbi).2 ⟨w, hw, h2⟩)) hp2 e).mono hs
      refine ⟨fun ks q u hq => ?_, fun ks m' n' k1 hm' hn' hk hk' => ?_⟩
      · cases ks with
        | nil => rw [nodeAt_nil] at hq; cases hq
        | cons k' ks =>
          obtain ⟨i, w, rfl, hw, hq⟩ := nodeAt_arr.1 hq
          have hi : i < l.length := by have := (List.getElem?_eq_some_iff.1 hw).1; omega
          have hv := List.getElem?_eq_getElem hi
          rcases (hrec i _ w hv hw).1 ks q u hq with ⟨p', t, h1, h2⟩ | ⟨o, ho, hwr⟩
          · exact .inl ⟨p', t, nodeAt_arr.2 ⟨i, _, rfl, hv, h1⟩, h2⟩
          · refine .inr ⟨o, ho, ?_⟩
            rw [pointer_cons, ← List.append_assoc]
            exact hwr
      · cases ks with
        | nil => cases nodeAt_nil.1 hm'
        | cons k2 ks =>
          obtain ⟨i, v, rfl, hv, hm'⟩ := nodeAt_arr.1 hm'
          obtain ⟨j, w, e, hw, hn'⟩ := nodeAt_arr.1 hn'
          cases natDigits_injective e
          obtain ⟨o, ho, h3, h4⟩ := (hrec i v w hv hw).2 ks m' n' k1 hm' hn' hk hk'
          refine ⟨o, ho, h3, ?_⟩
          rw [List.cons_append, pointer_cons, ← List.append_assoc]
          exact h4
    | null => simp only [handleValues] at h; cases h
    | leaf p t => simp only [handleValues] at h; cases h
    | obj m => simp only [handleValues] at h; cases h

/-- C30: nothing is left out.  Every leaf of `b` is in `a` (with `GeneratePatchWithTimestamp`, with its timestamp) or is
written by an operation, and every member that an object has in `a` only is removed by an operation.  Missing as in
`C30_sound_partial`: empty keys and arrays of different lengths. -/
theorem C30_complete_partial {a b : Tson} (hb : b.Wf) (hna : Named a) (hnb : Named b) (hsl : SameLengths a b)
    {wt : Bool} {ops : List Op} (h : (if wt then generatePatchWithTimestamp a b else generatePatch a b) = .ok ops) :
    (∀ ks q u, NodeAt b ks (.leaf q u) →
      (∃ p t, NodeAt a ks (.leaf p t) ∧ ¬ LeafDiffers wt p t q u) ∨ ∃ o ∈ ops, WritesLeaf o (pointer ks) q u) ∧
    ∀ ks m n k, NodeAt a ks (.obj m) → NodeAt b ks (.obj n) → k ∈ mkeys m → k ∉ mkeys n →
      ∃ o ∈ ops, o.kind = .remove ∧ o.path = pointer (ks ++ [k]) := by
  have h' : handleValues wt a b [] = .ok ops := by cases wt <;> exact h
  simpa [Complete] using handleValues_complete wt b hb hna hnb hsl (by simp [GoodPath]) h'

/-! ### Documents of the same shape -/

/-- The operations are exactly the replacements of the leaves that differ. -/
def Exact (wt : Bool) (a b : Tson) (path : Bytes) (o : Op) : Prop :=
  ∃ ks p t q u, NodeAt a ks (.leaf p t) ∧ NodeAt b ks (.leaf q u) ∧ LeafDiffers wt p t q u ∧
    o = ⟨.replace, path ++ pointer ks, q.toGo, u⟩

theorem sameType_kind {p q : Prim} (h : SameType p q) : p.kind = q.kind := by cases h <;> rfl

theorem SameShape.kind {a b : Tson} (h : SameShape a b) : a.kind = b.kind := by
  cases h with
  | leaf p q t u h => exact sameType_kind h
  | _ => rfl

theorem exact_obj {wt : Bool} {m n : List (Bytes × Tson)} {path : Bytes} {o : Op} :
    Exact wt (.obj m) (.obj n) path o ↔ ∃ k v w, mget m k = some v ∧ mget n k = some w ∧ Exact wt v w (path ++ pointer [k]) o := by
  constructor
  · rintro ⟨ks, p, t, q, u, h1, h2, h3, rfl⟩
    cases ks with
    | nil => cases nodeAt_nil.1 h1
    | cons k ks =>
      obtain ⟨v, hv, h1⟩ := nodeAt_obj.1 h1
      obtain ⟨w, hw, h2⟩ := nodeAt_obj.1 h2
      exact ⟨k, v, w, hv, hw, ks, p, t, q, u, h1, h2, h3, by rw [pointer_cons, List.append_assoc]⟩
  · rintro ⟨k, v, w, hv, hw, ks, p, t, q, u, h1, h2, h3, rfl⟩
    exact ⟨k :: ks, p, t, q, u, nodeAt_obj.2 ⟨v, hv, h1⟩, nodeAt_obj.2 ⟨w, hw, h2⟩, h3, by
      rw [pointer_cons k ks, List.append_assoc]⟩

theorem exact_arr {wt : Bool} {l k : List Tson} {path : Bytes} {o : Op} :
    Exact wt (.arr l) (.arr k) path o ↔
      ∃ (i : Nat) (v w : Tson), l[i]? = some v ∧ k[i]? = some w ∧ Exact wt v w (path ++ pointer [natDigits i]) o := by
  constructor
  · rintro ⟨ks, p, t, q, u, h1, h2, h3, rfl⟩
    cases ks with
    | nil => cases nodeAt_nil.1 h1
    | cons x ks =>
      obtain ⟨i, v, rfl, hv, h1⟩ := nodeAt_arr.1 h1
      obtain ⟨j, w, e, hw, h2⟩ := nodeAt_arr.1 h2
      cases natDigits_injective e
      exact ⟨i, v, w, hv, hw, ks, p, t, q, u, h1, h2, h3, by rw [pointer_cons, List.append_assoc]⟩
  · rintro ⟨i, v, w, hv, hw, ks, p, t, q, u, h1, h2, h3, rfl⟩
    exact ⟨natDigits i :: ks, p, t, q, u, nodeAt_arr.2 ⟨i, v, rfl, hv, h1⟩, nodeAt_arr.2 ⟨i, w, rfl, hw, h2⟩, h3, by
      rw [pointer_cons (natDigits i) ks, List.append_assoc]⟩

theorem Res.append_eq {r s : Res (List Op)} {a b : List Op} (h1 : r = .ok a) (h2 : s = .ok b) : r.append s = .ok (a ++ b) := by
  rw [h1, h2]; rfl

theorem removeOps_none {path : Bytes} {n : List (Bytes × Tson)} (m : List (Bytes × Tson))
    (h : ∀ k ∈ mkeys m, (mget n k).isSome = true) : removeOps path n m = .ok [] := by
  induction m with
  | nil => rfl
  | cons x m ih =>
    obtain ⟨k, v⟩ := x
    obtain ⟨w, hw⟩ := Option.isSome_iff_exists.1 (h k List.mem_cons_self)
    simp only [removeOps, hw]
    exact ih fun k hk => h k (List.mem_cons_of_mem _ hk)

theorem handleValues_exact (wt : Bool) (b : Tson) : ∀ {a : Tson} {path : Bytes},
    b.Wf → Named b → SameShape a b → GoodPath path →
    ∃ ops, handleValues wt a b path = .ok ops ∧ ∀ o, o ∈ ops ↔ Exact wt a b path o := by
  induction b using Tson.induction with
  | null =>
    intro a path _ _ h _
    cases h
    refine ⟨[], by simp [handleValues], fun o => ⟨fun h => (by cases h), ?_⟩⟩
    rintro ⟨ks, p, t, q, u, h, -⟩
    cases h
  | leaf q u =>
    intro a path _ _ h _
    cases h with
    | leaf p _ t _ hs =>
      have key : ∀ o, Exact wt (.leaf p t) (.leaf q u) path o ↔ LeafDiffers wt p t q u ∧ o = ⟨.replace, path, q.toGo, u⟩ := by
        intro o
        constructor
        · rintro ⟨ks, p', t', q', u', h1, h2, h3, rfl⟩
          obtain ⟨rfl, rfl, rfl⟩ := nodeAt_leaf h1
          obtain ⟨-, rfl, rfl⟩ := nodeAt_leaf h2
          exact ⟨h3, by simp [pointer]⟩
        · rintro ⟨h, rfl⟩
          exact ⟨[], p, t, q, u, .here _, .here _, h, by simp [pointer]⟩
      simp only [handleValues]
      rw [if_neg (by simpa using sameType_kind hs)]
      by_cases hd : LeafDiffers wt p t q u
      · rw [if_neg (fun h => goEq_times.1 h hd)]
        exact ⟨_, rfl, fun o => by rw [key, List.mem_singleton]; simp [hd]⟩
      · rw [if_pos (goEq_times.2 hd)]
        exact ⟨_, rfl, fun o => by rw [key]; simp [hd]⟩
  | obj n ih =>
    intro a path hb hnb h hp
    cases h with
    | obj m _ hk hs =>
      have hwn := (Tson.wfF_iff n).1 hb.2
      have hkn := hnb.keys [] n (.here _)
      have key : ∀ n' : List (Bytes × Tson), (∀ x ∈ n', x ∈ n) → ∃ ops, diffMembers wt m n' path = .ok ops ∧
          ∀ o, o ∈ ops ↔ ∃ k v w, mget m k = some v ∧ (k, w) ∈ n' ∧ Exact wt v w (path ++ pointer [k]) o := by
        intro n'
        induction n' with
        | nil => intro _; exact ⟨[], by simp [diffMembers], by simp⟩
        | cons x n' ihn =>
          intro hsub
          obtain ⟨k, w⟩ := x
          obtain ⟨o2, e2, h2⟩ := ihn fun x hx => hsub x (List.mem_cons_of_mem _ hx)
          have hmem := hsub (k, w) List.mem_cons_self
          have hw := mem_mget hb.1 hmem
          obtain ⟨v, hv⟩ := Option.isSome_iff_exists.1 ((hk k).trans (by rw [hw]; rfl))
          have hvw := hs k v w hv hw
          obtain ⟨hp1, hp2⟩ := makePath_eq hp (hkn k (mget_isSome.1 ⟨w, hw⟩))
          obtain ⟨o1, e1, h1⟩ := ih (k, w) hmem (hwn _ hmem) (hnb.member hw) hvw hp2
          have e : memberOps wt m path k w = .ok o1 := by
            rw [memberOps, hv]
            dsimp only
            rw [if_neg (by simpa using hvw.kind), hp1, e1]
          refine ⟨o1 ++ o2, by rw [diffMembers_cons]; exact Res.append_eq e e2, fun o => ?_⟩
          rw [List.mem_append, h1, h2]
          constructor
          · rintro (h | ⟨k', v', w', h3, h4, h5⟩)
            · exact ⟨k, v, w, hv, List.mem_cons_self, h⟩
            · exact ⟨k', v', w', h3, List.mem_cons_of_mem _ h4, h5⟩
          · rintro ⟨k', v', w', h3, h4, h5⟩
            rcases List.mem_cons.1 h4 with h4 | h4
            · cases h4
              rw [hv] at h3
              cases h3
              exact .inl h5
            · exact .inr ⟨k', v', w', h3, h4, h5⟩
      obtain ⟨ops, e, h⟩ := key n fun _ h => h
      refine ⟨ops ++ [], ?_, fun o => ?_⟩
      · simp only [handleValues]
        refine Res.append_eq e (removeOps_none m fun k hkm => ?_)
        rw [← hk]
        obtain ⟨v, hv⟩ := mget_isSome.2 hkm
        rw [hv]; rfl
      · rw [List.append_nil, h, exact_obj]
        constructor
        · rintro ⟨k, v, w, h1, h2, h3⟩; exact ⟨k, v, w, h1, mem_mget hb.1 h2, h3⟩
        · rintro ⟨k, v, w, h1, h2, h3⟩; exact ⟨k, v, w, h1, mget_mem h2, h3⟩
  | arr k ih =>
    intro a path hb hnb h hp
    cases h with
    | arr l _ hlen hs =>
      have hwn := (Tson.wfL_iff k).1 hb
      have key : ∀ (k' l' : List Tson) (j : Nat), k.drop j = k' → l.drop j = l' → ∃ ops, handleElems wt l' k' path j = .ok ops ∧
          ∀ o, o ∈ ops ↔ ∃ (i : Nat) (v w : Tson), j ≤ i ∧ l[i]? = some v ∧ k[i]? = some w ∧
            Exact wt v w (path ++ pointer [natDigits i]) o := by
        intro k'
        induction k' with
        | nil =>
          intro l' j hk' _
          refine ⟨[], by simp [handleElems], fun o => ⟨fun h => (by cases h), ?_⟩⟩
          rintro ⟨i, v, w, hi, -, hw, -⟩
          have := List.drop_eq_nil_iff.1 hk'
          have := (List.getElem?_eq_some_iff.1 hw).1
          omega
        | cons w k' ihk =>
          intro l' j hk' hl'
          have hw : k[j]? = some w := by
            have := List.getElem?_drop (xs := k) (i := j) (j := 0)
            rw [hk'] at this
            simpa using this.symm
          have hj : j < l.length := by have := (List.getElem?_eq_some_iff.1 hw).1; omega
          have hv := List.getElem?_eq_getElem hj
          rw [List.drop_eq_getElem_cons hj] at hl'
          subst hl'
          have hk2 : k.drop (j + 1) = k' := by
            rw [← List.drop_drop, hk']; rfl
          obtain ⟨o2, e2, h2⟩ := ihk _ (j + 1) hk2 rfl
          obtain ⟨hp1, hp2⟩ := makePath_eq hp (natDigits_key j)
          obtain ⟨o1, e1, h1⟩ := ih w (List.mem_of_getElem? hw) (hwn _ (List.mem_of_getElem? hw)) (hnb.element hw)
            (hs j _ w hv hw) hp2
          refine ⟨o1 ++ o2, ?_, fun o => ?_⟩
          · rw [handleElems]
            refine Res.append_eq ?_ e2
            rw [makePathIdx, hp1, e1]
          rw [List.mem_append, h1, h2]
          constructor
          · rintro (h | ⟨i, v', w', h3, h4, h5, h6⟩)
            · exact ⟨j, _, w, Nat.le_refl _, hv, hw, h⟩
            · exact ⟨i, v', w', by omega, h4, h5, h6⟩
          · rintro ⟨i, v', w', h3, h4, h5, h6⟩
            by_cases hij : i = j
            · subst hij
              rw [hv] at h4
              rw [hw] at h5
              cases h4; cases h5
              exact .inl h6
            · exact .inr ⟨i, v', w', by omega, h4, h5, h6⟩
      obtain ⟨ops, e, h⟩ := key k l 0 rfl rfl
      refine ⟨ops, ?_, fun o => ?_⟩
      · simp only [handleValues, hlen, ne_eq, not_true_eq_false, if_false]
        exact e
      · rw [h, exact_arr]
        constructor
        · rintro ⟨i, v, w, -, h⟩; exact ⟨i, v, w, h⟩
        · rintro ⟨i, v, w, h⟩; exact ⟨i, v, w, Nat.zero_le _, h⟩

/-- C30 for documents of the same shape: the patch can be generated, and its operations are exactly the replacements of the
leaves that differ, each with its new value and timestamp, and each once. -/
theorem C30_same_shape {a b : Tson} (ha : a.Wf) (hb : b.Wf) (hna : Named a) (hnb : Named b) (hs : SameShape a b) (wt : Bool) :
    ∃ ops, (if wt then generatePatchWithTimestamp a b else generatePatch a b) = .ok ops ∧ (ops.map Op.path).Nodup ∧
      ∀ o, o ∈ ops ↔ ∃ ks p t q u, NodeAt a ks (.leaf p t) ∧ NodeAt b ks (.leaf q u) ∧ LeafDiffers wt p t q u ∧
        o = ⟨.replace, pointer ks, q.toGo, u⟩ := by
  obtain ⟨ops, e, h⟩ := handleValues_exact wt b hb hnb hs (path := []) (by simp [GoodPath])
  have hsl : SameLengths a b := by
    intro ks
    clear e h hb hnb ha hna
    induction ks generalizing a b with
    | nil =>
      intro l k h1 h2
      rw [reaches_nil] at h1 h2
      subst h1; subst h2
      cases hs with
      | arr _ _ h _ => exact h
    | cons x ks ih =>
      intro l k h1 h2
      cases hs with
      | null => cases h1
      | leaf => cases h1
      | obj m n _ hs =>
        obtain ⟨v, hv, h1⟩ := reaches_obj.1 h1
        obtain ⟨w, hw, h2⟩ := reaches_obj.1 h2
        exact ih (hs x v w hv hw) l k h1 h2
      | arr l' k' _ hs =>
        cases h1 with
        | element _ _ _ i v _ hi hv h1 =>
          cases h2 with
          | element _ _ _ j w _ hj hw h2 =>
            rw [hi] at hj
            have : i = j := by have := Option.some.inj hj; omega
            subst this
            exact ih (hs i v w hv hw) l k h1 h2
  refine ⟨ops, by cases wt <;> exact e, ?_, fun o => by simpa [Exact] using h o⟩
  cases wt with
  | false => exact ((C30_sound_partial ha hb hna hnb hsl ops).1 e).2
  | true => exact ((C30_sound_partial ha hb hna hnb hsl ops).2 e).2

/-- Two documents of the same shape. -/
def shapeA : Tson := .obj [(b!"a", .leaf (.bool true) 1), (b!"b", .arr [.leaf (.str b!"x") 2, .null])]
def shapeB : Tson := .obj [(b!"b", .arr [.leaf (.str b!"x") 5, .null]), (b!"a", .leaf (.bool false) 1)]

example : shapeA.Wf ∧ shapeB.Wf ∧ Named shapeA ∧ Named shapeB ∧ SameShape shapeA shapeB := by
  refine ⟨by simp [shapeA, Tson.Wf, Tson.WfF, Tson.WfL, mkeys], by simp [shapeB, Tson.Wf, Tson.WfF, Tson.WfL, mkeys],
    .of_check (by decide), .of_check (by decide), ?_⟩
  refine .obj _ _ (fun k => ?_) (fun k v w hv hw => ?_)
  · simp only [mget]
    by_cases h1 : b!"a" = k
    · subst h1; decide
    · by_cases h2 : b!"b" = k
      · subst h2; decide
      · simp [h1, h2]
  · simp only [mget] at hv hw
    by_cases h1 : b!"a" = k
    · subst h1
      simp at hv hw
      subst hv; subst hw
      exact .leaf _ _ _ _ (.bool _ _)
    · by_cases h2 : b!"b" = k
      · subst h2
        simp at hv hw
        subst hv; subst hw
        refine .arr _ _ rfl fun i v w hv hw => ?_
        match i, hv, hw with
        | 0, hv, hw => cases hv; cases hw; exact .leaf _ _ _ _ (.str _ _)
        | 1, hv, hw => cases hv; cases hw; exact .null
      · simp [h1, h2] at hv

example : generatePatch shapeA shapeB = .ok [⟨.replace, b!"/a", .bool false, 1⟩] := by decide
example : generatePatchWithTimestamp shapeA shapeB =
    .ok [⟨.replace, b!"/b/0", .str b!"x", 5⟩, ⟨.replace, b!"/a", .bool false, 1⟩] := by decide

/-- The changes of a member to a container of another type. -/
inductive ContainerChange : Tson → Tson → Prop
  | arr_obj (l n) : ContainerChange (.arr l) (.obj n)
  | obj_arr (m k) : ContainerChange (.obj m) (.arr k)
  | leaf_obj (p t n) : ContainerChange (.leaf p t) (.obj n)
  | leaf_arr (p t k) : ContainerChange (.leaf p t) (.arr k)
  | null_obj (n) : ContainerChange .null (.obj n)
  | null_arr (k) : ContainerChange .null (.arr k)

theorem Res.append_three (a b c : Res (List Op)) : a.append (b.append c) = (a.append b).append c := by
  cases a <;> cases b <;> cases c <;> simp [Res.append, Res.bind, Res.map]

theorem diffMembers_split (wt : Bool) (m n1 n2 : List (Bytes × Tson)) (path : Bytes) :
    diffMembers wt m (n1 ++ n2) path = (diffMembers wt m n1 path).append (diffMembers wt m n2 path) := by
  induction n1 with
  | nil => rw [List.nil_append, diffMembers]; cases diffMembers wt m n2 path <;> rfl
  | cons kv n1 ih =>
    obtain ⟨k, w⟩ := kv
    rw [List.cons_append, diffMembers, diffMembers, ih, Res.append_three]

/-- **C30, containers.**  A member that becomes a container of another type (or an object or array where there was none) ends the generation with an
error, whatever follows it, once the members before it are dealt with; it is never a panic and never a patch. -/
theorem C30_container (wt : Bool) {m n1 n2 : List (Bytes × Tson)} {k : Bytes} {w : Tson} {ops : List Op}
    (h1 : (if wt then generatePatchWithTimestamp else generatePatch) (.obj m) (.obj n1) = .ok ops)
    (h : (∃ v, mget m k = some v ∧ ContainerChange v w) ∨ (mget m k = none ∧ ((∃ n, w = .obj n) ∨ ∃ l, w = .arr l))) :
    (if wt then generatePatchWithTimestamp else generatePatch) (.obj m) (.obj (n1 ++ (k, w) :: n2)) = .err := by
  have key : ∀ x, (if wt then generatePatchWithTimestamp else generatePatch) (.obj m) (.obj x) =
      (diffMembers wt m x []).append (removeOps [] x m) := by
    intro x
    have : (if wt then generatePatchWithTimestamp else generatePatch) (.obj m) (.obj x) = handleValues wt (.obj m) (.obj x) [] := by cases wt <;> rfl
    rw [this, handleValues]
  rw [key] at h1 ⊢
  rw [diffMembers_split]
  have h2 : diffMembers wt m ((k, w) :: n2) [] = .err := by
    rw [diffMembers]
    rcases h with ⟨v, hv, hc⟩ | ⟨hv, ⟨n, rfl⟩ | ⟨l, rfl⟩⟩
    · rw [hv]
      cases hc with
      | arr_obj => rfl
      | obj_arr => rfl
      | leaf_obj p => cases p <;> rfl
      | leaf_arr p => cases p <;> rfl
      | null_obj => rfl
      | null_arr => rfl
    · rw [hv]; rfl
    · rw [hv]; rfl
  rw [h2]
  cases e : diffMembers wt m n1 [] with
  | ok a => rfl
  | err => rw [e] at h1; cases h1
  | panic => rw [e] at h1; cases h1

/-- A list of tyres that becomes an object, after a changed leaf. -/
example : generatePatch (.obj [(b!"t", .arr [.leaf (.bool true) 1]), (b!"x", .leaf (.bool true) 1)])
    (.obj [(b!"x", .leaf (.bool false) 2), (b!"t", .obj [(b!"l", .leaf (.bool true) 1)])]) = .err :=
  C30_container false (n1 := [(b!"x", .leaf (.bool false) 2)]) (n2 := [])
    (ops := [⟨.replace, b!"/x", .bool false, 2⟩, ⟨.remove, b!"/t", .nil, 0⟩]) (by decide) (.inl ⟨_, rfl, .arr_obj _ _⟩)

end Verif
