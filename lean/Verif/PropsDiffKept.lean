import Verif.PropsDiffSeries
import Verif.PropsTrackOk
import Verif.PropsDiffFull
import Verif.PropsPointer
/-
Property C111: compaction and tracks of a logument fed with generated patches.
-/
namespace Verif

/-! ### Specification -/

/-- The patches are those of `GeneratePatch` along a series of documents from `m` to `n`; successive documents
differ, have no empty names, and arrays keep their lengths. [internal/tsonpatch/tsonpatch.go:124-131] -/
inductive TreeSeries (m : List (Bytes × Tson)) : List (List Op) → List (Bytes × Tson) → Prop
  | none : TreeSeries m [] m
  | next (ps n k ops) : TreeSeries m ps n → (Tson.obj n).Wf → (Tson.obj k).Wf → Named (.obj n) → Named (.obj k) →
      SameLengths (.obj n) (.obj k) → generatePatch (.obj n) (.obj k) = .ok ops → ops ≠ [] →
      TreeSeries m (ps ++ [ops]) k

/-! ### Lemmas -/

/-- The two are nil, objects or arrays. -/
def InnerAlike : Tson → Tson → Prop
  | .null, .null => True
  | .obj _, .obj _ => True
  | .arr _, .arr _ => True
  | _, _ => False

/-- Not a string, number or boolean. -/
def NotLeaf (t : Tson) : Prop := ∀ p ts, t ≠ .leaf p ts

theorem InnerAlike.notLeaf {a b : Tson} (h : InnerAlike a b) : NotLeaf a := by
  intro p ts e
  subst e
  cases b <;> exact h

theorem NodeAt.reaches {t u : Tson} {ks : List Bytes} (h : NodeAt t ks u) : Named t → Reaches t ks u := by
  induction h with
  | here t => intro _; exact .here t
  | member m k ks c t hc _ ih => intro ho; exact .member _ _ _ _ _ hc (ih (ho.member hc))
  | element l i ks c t hc _ ih => intro ho; exact (reaches_arr (ho.bound hc)).2 ⟨c, hc, ih (ho.element hc)⟩

theorem NodeAt.append {t u w : Tson} {ks ls : List Bytes} (h : NodeAt t ks u) (h' : NodeAt u ls w) :
    NodeAt t (ks ++ ls) w := by
  induction h with
  | here t => exact h'
  | member m k ks c t hc _ ih => exact .member _ _ _ _ _ hc (ih h')
  | element l i ks c t hc _ ih => exact .element _ _ _ _ _ hc (ih h')

theorem NodeAt.parent {t u : Tson} {ks : List Bytes} {k : Bytes} (h : NodeAt t (ks ++ [k]) u) :
    ∃ c, NodeAt t ks c ∧ NodeAt c [k] u ∧ NotLeaf c := by
  induction ks generalizing t with
  | nil => exact ⟨t, .here _, h, fun p ts e => by subst e; cases h⟩
  | cons j ks ih =>
    cases h with
    | member m _ _ c _ hc h =>
      obtain ⟨d, h1, h2⟩ := ih h
      exact ⟨d, .member _ _ _ _ _ hc h1, h2⟩
    | element l i _ c _ hc h =>
      obtain ⟨d, h1, h2⟩ := ih h
      exact ⟨d, .element _ _ _ _ _ hc h1, h2⟩

theorem Reaches.parent {t u : Tson} {ks : List Bytes} {k : Bytes} (h : Reaches t (ks ++ [k]) u) :
    ∃ c, Reaches t ks c ∧ Reaches c [k] u := by
  induction ks generalizing t with
  | nil => exact ⟨t, .here _, h⟩
  | cons j ks ih =>
    obtain ⟨c, h1, h2⟩ := (reaches_cons_iff t j (ks ++ [k]) u).1 h
    obtain ⟨d, h3, h4⟩ := ih h2
    exact ⟨d, (reaches_cons_iff t j ks d).2 ⟨c, h1, h3⟩, h4⟩

/-- A generated patch never makes an object, an array or a nil. -/
theorem inner_before {wt : Bool} {ks : List Bytes} : ∀ {a b : Tson} {path : Bytes} {ops : List Op}, Named a → Named b →
    SameLengths a b → handleValues wt a b path = .ok ops → ∀ c, NodeAt b ks c → NotLeaf c →
    ∃ c', NodeAt a ks c' ∧ InnerAlike c' c := by
  induction ks with
  | nil =>
    intro a b path ops _ _ _ h c hr hc
    cases hr
    refine ⟨a, .here _, ?_⟩
    cases b with
    | leaf p ts => exact absurd rfl (hc p ts)
    | _ => cases a <;> first | trivial | (simp [handleValues] at h)
  | cons k ks ih =>
    intro a b path ops hna hnb hsl h c hr hc
    cases hr with
    | member n _ _ w _ hw hr =>
      cases a with
      | obj m =>
        rw [handleValues] at h
        obtain ⟨p1, p2, e1, -, -⟩ := Res.append_ok h
        obtain ⟨p, e, -⟩ := diffMembers_mem n e1 k w (mget_mem hw)
        have hnl : NotLeaf w := by
          intro p ts e
          subst e
          cases hr
          exact hc p ts rfl
        unfold memberOps at e
        cases hm : mget m k with
        | none =>
          rw [hm] at e
          obtain ⟨p', ts, e', -⟩ := orErr_leafOp e
          exact absurd e' (hnl p' ts)
        | some v =>
          rw [hm] at e
          dsimp only at e
          split at e
          · obtain ⟨p', ts, e', -⟩ := orErr_leafOp e
            exact absurd e' (hnl p' ts)
          · obtain ⟨m', h'⟩ := ih (hna.member hm) (hnb.member hw) (fun ks l k' h1 h2 => hsl (k :: ks) l k'
              (reaches_obj.2 ⟨v, hm, h1⟩) (reaches_obj.2 ⟨w, hw, h2⟩)) e c hr hc
            exact ⟨m', .member _ _ _ _ _ hm h'.1, h'.2⟩
      | _ => simp [handleValues] at h
    | element l' i _ w _ hw hr =>
      cases a with
      | arr l =>
        have hlen := hsl [] l l' (.here _) (.here _)
        simp only [handleValues, hlen, ne_eq, not_true_eq_false, if_false] at h
        have hi : i < l.length := by have := (List.getElem?_eq_some_iff.1 hw).1; omega
        have hv := List.getElem?_eq_getElem hi
        obtain ⟨p, e, -⟩ := handleElems_mem l' h i _ w hv hw
        have hbi := hnb.bound hw
        obtain ⟨m', h'⟩ := ih (hna.element hv) (hnb.element hw) (fun ks l k' h1 h2 => hsl (natDigits i :: ks) l k'
          ((reaches_arr hbi).2 ⟨_, hv, h1⟩) ((reaches_arr hbi).2 ⟨w, hw, h2⟩)) e c hr hc
        exact ⟨m', .element _ _ _ _ _ hv h'.1, h'.2⟩
      | _ => simp [handleValues] at h

theorem diffMembers_back {wt : Bool} {m : List (Bytes × Tson)} {path : Bytes} (n : List (Bytes × Tson)) : ∀ {ops : List Op},
    diffMembers wt m n path = .ok ops → ∀ o ∈ ops, ∃ k w p, (k, w) ∈ n ∧ memberOps wt m path k w = .ok p ∧ o ∈ p := by
  induction n with
  | nil => intro ops h o ho; rw [diffMembers] at h; cases h; cases ho
  | cons x n ih =>
    intro ops h o ho
    obtain ⟨k', w'⟩ := x
    rw [diffMembers_cons] at h
    obtain ⟨p1, p2, e1, e2, rfl⟩ := Res.append_ok h
    rcases List.mem_append.1 ho with ho | ho
    · exact ⟨k', w', p1, by simp, e1, ho⟩
    · obtain ⟨k, w, p, h1, h2⟩ := ih e2 o ho
      exact ⟨k, w, p, List.mem_cons_of_mem _ h1, h2⟩

theorem removeOps_back {path : Bytes} {n : List (Bytes × Tson)} (m : List (Bytes × Tson)) : ∀ {ops : List Op},
    removeOps path n m = .ok ops → ∀ o ∈ ops, o.kind = .remove ∧ ∃ k ∈ mkeys m, o.path = makePath path k := by
  induction m with
  | nil => intro ops h o ho; rw [removeOps] at h; cases h; cases ho
  | cons x m ih =>
    intro ops h o ho
    obtain ⟨k', v⟩ := x
    have hlater : ∀ {r}, removeOps path n m = .ok r → o ∈ r → o.kind = .remove ∧ ∃ k ∈ mkeys ((k', v) :: m), o.path = makePath path k := by
      intro r hr ho
      obtain ⟨h1, k, hk, h2⟩ := ih hr o ho
      exact ⟨h1, k, by simp only [mkeys, List.map_cons, List.mem_cons]; exact .inr hk, h2⟩
    have hcons : ∀ ts, (removeOps path n m).map ((⟨.remove, makePath path k', .nil, ts⟩ : Op) :: ·) = .ok ops →
        o.kind = .remove ∧ ∃ k ∈ mkeys ((k', v) :: m), o.path = makePath path k := by
      intro ts h
      rw [Res.map_eq_ok] at h
      obtain ⟨r, h1, rfl⟩ := h
      rcases List.mem_cons.1 ho with rfl | ho
      · exact ⟨rfl, k', by simp [mkeys], rfl⟩
      · exact hlater h1 ho
    simp only [removeOps] at h
    cases hn' : mget n k' with
    | some w => rw [hn'] at h; exact hlater h ho
    | none =>
      rw [hn'] at h
      cases v with
      | null => simp at h
      | leaf p ts => exact hcons ts h
      | obj _ => exact hcons 0 h
      | arr _ => exact hcons 0 h

theorem handleElems_back {wt : Bool} {path : Bytes} (k : List Tson) : ∀ {l : List Tson} {j : Nat} {ops : List Op},
    l.length = k.length → handleElems wt l k path j = .ok ops → ∀ o ∈ ops, ∃ (i : Nat) (v w : Tson) (p : List Op), l[i]? = some v ∧ k[i]? = some w ∧
    handleValues wt v w (makePathIdx path (j + i)) = .ok p ∧ o ∈ p := by
  induction k with
  | nil =>
    intro l j ops hl h o ho
    cases l with
    | nil => simp only [handleElems] at h; cases h; cases ho
    | cons y l => simp at hl
  | cons x k ih =>
    intro l j ops hl h o ho
    cases l with
    | nil => simp at hl
    | cons y l =>
      rw [handleElems] at h
      obtain ⟨p1, p2, e1, e2, rfl⟩ := Res.append_ok h
      rcases List.mem_append.1 ho with ho | ho
      · exact ⟨0, y, x, p1, rfl, rfl, e1, ho⟩
      · obtain ⟨i, v, w, p, h1, h2, h3, h4⟩ := ih (by simpa using hl) e2 o ho
        exact ⟨i + 1, v, w, p, by simpa using h1, by simpa using h2, by rw [show j + (i + 1) = j + 1 + i by omega]; exact h3, h4⟩

/-- An operation is at a place of the second document, or removes a place of the first. -/
theorem handleValues_places (wt : Bool) (b : Tson) : ∀ {a : Tson} {path : Bytes} {ops : List Op}, b.Wf → Named a → Named b →
    SameLengths a b → GoodPath path → handleValues wt a b path = .ok ops → ∀ o ∈ ops, ∃ ks, o.path = path ++ pointer ks ∧
    ((∃ u, NodeAt b ks u) ∨ o.kind = .remove ∧ ∃ u, NodeAt a ks u) := by
  induction b using Tson.induction with
  | null => intro a path ops _ _ _ _ _ h o ho; cases a <;> simp [handleValues] at h; subst h; cases ho
  | leaf q u =>
    intro a path ops _ _ _ _ _ h o ho
    refine ⟨[], ?_, .inl ⟨_, .here _⟩⟩
    have : o.path = path := by
      cases a with
      | leaf p t =>
        simp only [handleValues] at h
        split at h
        · cases h
        · split at h
          · cases h; cases ho
          · cases h; rw [List.mem_singleton.1 ho]
      | null => simp only [handleValues] at h; cases h; rw [List.mem_singleton.1 ho]
      | obj m => simp only [handleValues] at h; cases h
      | arr l => simp only [handleValues] at h; cases h; rw [List.mem_singleton.1 ho]
    simpa [pointer] using this
  | obj n ih =>
    intro a path ops hb hna hnb hsl hp h o ho
    cases a with
    | obj m =>
      simp only [handleValues] at h
      obtain ⟨o1, o2, h1, h2, rfl⟩ := Res.append_ok h
      have hwn := (Tson.wfF_iff n).1 hb.2
      rcases List.mem_append.1 ho with ho | ho
      · obtain ⟨k, w, p, hmem, e, hop⟩ := diffMembers_back n h1 o ho
        have hw : mget n k = some w := mem_mget hb.1 hmem
        obtain ⟨hp1, hp2⟩ := makePath_eq hp (hnb.keys [] n (.here _) k (mget_isSome.1 ⟨w, hw⟩))
        have one : ∀ {kind : OpKind}, orErr (leafOp kind (makePath path k) w) = .ok p →
            ∃ ks, o.path = path ++ pointer ks ∧ ((∃ u, NodeAt (.obj n) ks u) ∨ o.kind = .remove ∧ ∃ u, NodeAt (.obj m) ks u) := by
          intro kind e
          obtain ⟨p', ts, rfl, rfl⟩ := orErr_leafOp e
          refine ⟨[k], by rw [List.mem_singleton.1 hop]; exact hp1, .inl ⟨_, .member _ _ _ _ _ hw (.here _)⟩⟩
        rw [memberOps] at e
        cases hv : mget m k with
        | none => rw [hv] at e; exact one e
        | some v =>
          rw [hv] at e
          dsimp only at e
          split at e
          · exact one e
          · rw [hp1] at e
            obtain ⟨ks, e1, e2⟩ := ih (k, w) hmem (hwn _ hmem) (hna.member hv) (hnb.member hw)
              (fun ks l k' h1 h2 => hsl (k :: ks) l k' (reaches_obj.2 ⟨v, hv, h1⟩) (reaches_obj.2 ⟨w, hw, h2⟩)) hp2 e o hop
            refine ⟨k :: ks, by rw [e1, pointer_cons k ks, List.append_assoc], ?_⟩
            rcases e2 with ⟨u, hu⟩ | ⟨hk, u, hu⟩
            · exact .inl ⟨u, .member _ _ _ _ _ hw hu⟩
            · exact .inr ⟨hk, u, .member _ _ _ _ _ hv hu⟩
      · obtain ⟨hk, k, hkm, e⟩ := removeOps_back m h2 o ho
        obtain ⟨v, hv⟩ := mget_isSome.2 hkm
        refine ⟨[k], by rw [e, (makePath_eq hp (hna.keys [] m (.here _) k hkm)).1], .inr ⟨hk, v, .member _ _ _ _ _ hv (.here _)⟩⟩
    | null => simp only [handleValues] at h; cases h
    | leaf p t => simp only [handleValues] at h; cases h
    | arr l => simp only [handleValues] at h; cases h
  | arr k ih =>
    intro a path ops hb hna hnb hsl hp h o ho
    cases a with
    | arr l =>
      have hlen := hsl [] l k (.here _) (.here _)
      simp only [handleValues, hlen, ne_eq, not_true_eq_false, if_false] at h
      have hwn := (Tson.wfL_iff k).1 hb
      obtain ⟨i, v, w, p, hv, hw, e, hop⟩ := handleElems_back k hlen h o ho
      obtain ⟨hp1, hp2⟩ := makePath_eq hp (natDigits_key i)
      rw [Nat.zero_add, makePathIdx, hp1] at e
      have hbi := hnb.bound hw
      obtain ⟨ks, e1, e2⟩ := ih w (List.mem_of_getElem? hw) (hwn _ (List.mem_of_getElem? hw)) (hna.element hv) (hnb.element hw)
        (fun ks l k' h1 h2 => hsl (natDigits i :: ks) l k' ((reaches_arr hbi).2 ⟨v, hv, h1⟩)
          ((reaches_arr hbi).2 ⟨w, hw, h2⟩)) hp2 e o hop
      refine ⟨natDigits i :: ks, by rw [e1, pointer_cons (natDigits i) ks, List.append_assoc], ?_⟩
      rcases e2 with ⟨u, hu⟩ | ⟨hk, u, hu⟩
      · exact .inl ⟨u, .element _ _ _ _ _ hw hu⟩
      · exact .inr ⟨hk, u, .element _ _ _ _ _ hv hu⟩
    | null => simp only [handleValues] at h; cases h
    | leaf p t => simp only [handleValues] at h; cases h
    | obj m => simp only [handleValues] at h; cases h

/-- The value recorded last for a place is the value of the document, unless the object or array around it is gone. -/
def HoldsNow (t : Tson) (ks : List Bytes) (v : GVal) : Prop :=
  ∀ init k c, ks = init ++ [k] → NodeAt t init c → NotLeaf c →
    (v = .nil ∧ ∀ u, ¬ NodeAt t ks u) ∨ ∃ p q ts, GoValue v p ∧ NodeAt t ks (.leaf q ts) ∧ SamePrim p q

/-- What a generated patch says. -/
theorem tree_patch {m n : List (Bytes × Tson)} (ha : (Tson.obj m).Wf) (hb : (Tson.obj n).Wf)
    (hpa : Named (.obj m)) (hpb : Named (.obj n)) (hsl : SameLengths (.obj m) (.obj n)) {ops : List Op}
    (h : generatePatch (.obj m) (.obj n) = .ok ops) :
    (ops.map Op.path).Nodup ∧
    (∀ o ∈ ops, ∃ ks, o.path = pointer ks ∧ HoldsNow (.obj n) ks o.value ∧
      ∀ v, HoldsNow (.obj m) ks v → GVal.goEq v o.value = some false) ∧
    ∀ ks v, (∀ o ∈ ops, o.path ≠ pointer ks) → HoldsNow (.obj m) ks v → HoldsNow (.obj n) ks v := by
  obtain ⟨h1, h2⟩ := (C30_sound_partial ha hb hpa hpb hsl ops).1 h
  have hh : handleValues false (.obj m) (.obj n) [] = .ok ops := h
  have split : ∀ ks : List Bytes, ks ≠ [] → ∃ init k, ks = init ++ [k] := fun ks hne =>
    ⟨ks.dropLast, ks.getLast hne, (List.dropLast_concat_getLast hne).symm⟩
  have uniq : ∀ {t : Tson} {ks : List Bytes} {u w : Tson}, Named t → Reaches t ks u → NodeAt t ks w → w = u :=
    fun hn hu hw => (C23_reaches_unique _ _ _ _ hu (hw.reaches hn)).symm
  refine ⟨h2, fun o ho => ?_, fun ks v hno hv init k mb e hr hl => ?_⟩
  · obtain ⟨ks, e, hd⟩ := h1 o ho
    obtain ⟨ks', e', hplace⟩ := handleValues_places false (.obj n) hb hpa hpb hsl (by simp [GoodPath]) hh o ho
    rw [List.nil_append] at e'
    have := pointer_injective (e'.symm.trans e)
    subst this
    refine ⟨ks', e, ?_⟩
    have hks : ks' ≠ [] := by
      intro e
      subst e
      cases hd with
      | add p _ hr => cases hr
      | remove u _ _ _ hn => exact hn _ (.here _)
      | replace u p _ _ hr => cases hr
    obtain ⟨init, k, rfl⟩ := split ks' hks
    cases hd with
    | add p hk hr hv ho =>
      have hnb : NodeAt (.obj n) (init ++ [k]) (.leaf p o.ts) := by
        rcases hplace with ⟨u, hu⟩ | ⟨hk', -⟩
        · rwa [uniq hpb hr hu] at hu
        · rw [hk] at hk'; cases hk'
      refine ⟨fun _ _ _ _ _ _ => Or.inr ⟨p, p, _, hv, hnb, .refl _⟩, fun v hv' => ?_⟩
      obtain ⟨c, hc1, -, hcl⟩ := hnb.parent
      obtain ⟨c', ha1, hal⟩ := inner_before hpa hpb hsl hh _ hc1 hcl
      rcases hv' _ _ _ rfl ha1 hal.notLeaf with ⟨rfl, -⟩ | ⟨p', q, ts, -, hg', -⟩
      · generalize o.value = w at hv
        cases hv <;> rfl
      · have := ho _ (hg'.reaches hpa); cases this
    | remove u hk hv hr hnr =>
      have hna : ∃ u, NodeAt (.obj m) (init ++ [k]) u := by
        rcases hplace with ⟨u, hu⟩ | ⟨-, hu⟩
        · exact absurd (hu.reaches hpb) (hnr u)
        · exact hu
      obtain ⟨u', hu'⟩ := hna
      refine ⟨fun _ _ _ _ _ _ => Or.inl ⟨hv, fun w hw => hnr w (hw.reaches hpb)⟩, fun v hv' => ?_⟩
      rw [hv]
      obtain ⟨c, hc1, -, hcl⟩ := hu'.parent
      rcases hv' _ _ _ rfl hc1 hcl with ⟨-, hg'⟩ | ⟨p', q', ts', hgo, -, -⟩
      · exact absurd hu' (hg' u')
      · cases hgo <;> rfl
    | replace u p hk hr hr' hv hne =>
      have hnb : NodeAt (.obj n) (init ++ [k]) (.leaf p o.ts) := by
        rcases hplace with ⟨u, hu⟩ | ⟨hk', -⟩
        · rwa [uniq hpb hr' hu] at hu
        · rw [hk] at hk'; cases hk'
      refine ⟨fun _ _ _ _ _ _ => Or.inr ⟨p, p, _, hv, hnb, .refl _⟩, fun v hv' => ?_⟩
      obtain ⟨c, hc1, hc2, hcl⟩ := hnb.parent
      obtain ⟨c', ha1, hal⟩ := inner_before hpa hpb hsl hh _ hc1 hcl
      rcases hv' _ _ _ rfl ha1 hal.notLeaf with ⟨-, hg2⟩ | ⟨p', q, ts', hgo, hg2, hs⟩
      · obtain ⟨d, hd1, hd2⟩ := hr.parent
        have := uniq hpa hd1 ha1
        subst this
        refine absurd ?_ (hg2 u)
        refine ha1.append ?_
        cases hc2 with
        | member nn _ _ w _ hw hx =>
          cases c' with
          | obj mm =>
            obtain ⟨z, hz, hx⟩ := reaches_obj.1 hd2
            cases hx
            exact .member _ _ _ _ _ hz (.here _)
          | _ => exact hal.elim
        | element ll i _ w _ hw hx =>
          cases c' with
          | arr lm =>
            have hbi : (i : Int) ≤ maxInt64 := by
              have h3 := hpb.arrays init ll (hc1.reaches hpb)
              have := (List.getElem?_eq_some_iff.1 hw).1
              omega
            obtain ⟨z, hz, hx⟩ := (reaches_arr hbi).1 hd2
            cases hx
            exact .element _ _ _ _ _ hz (.here _)
          | _ => exact hal.elim
      · have hu := uniq hpa hr hg2
        subst hu
        have hnp : ¬ EqPrim q p := fun e => hne (.leaf _ _ _ _ e (by simp))
        have hnp' : ¬ EqPrim p' p := by
          intro e
          rcases hs with rfl | ⟨a, b, rfl, rfl, e'⟩
          · exact hnp e
          · cases e with
            | num _ c e => exact hnp (.num _ _ (F64.feq_trans (by rw [F64.feq_symm]; exact e') e))
        have hgq : Prim.goEq p' p = false := by
          cases hc : Prim.goEq p' p with
          | false => rfl
          | true => exact absurd (goEq_iff.1 hc) hnp'
        generalize o.value = w at hv
        cases hgo <;> cases hv <;> first | rfl | (simp only [Prim.goEq] at hgq; simp only [GVal.goEq, hgq])
  · subst e
    obtain ⟨c1, c2⟩ := C30_complete_partial (wt := false) hb hpa hpb hsl h
    obtain ⟨ma, ha1, hal⟩ := inner_before hpa hpb hsl hh _ hr hl
    rcases hv _ _ _ rfl ha1 hal.notLeaf with ⟨rfl, hnr⟩ | ⟨p, q, ts, hgo, hq, hs⟩
    · left
      refine ⟨rfl, fun u hu => ?_⟩
      by_cases hlf : NotLeaf u
      · obtain ⟨u', h', -⟩ := inner_before hpa hpb hsl hh _ hu hlf
        exact hnr _ h'
      · cases u with
        | leaf q ts =>
          rcases c1 _ _ _ hu with ⟨p, t, h', -⟩ | ⟨o, ho, hw⟩
          · exact hnr _ h'
          · exact hno o ho hw.2.1
        | _ => exact hlf fun p ts e => by cases e
    · right
      have hex : ∃ c, NodeAt mb [k] c := by
        obtain ⟨d, hd1, hd2, -⟩ := hq.parent
        have := uniq hpa (hd1.reaches hpa) ha1
        subst this
        cases hd2 with
        | member mm _ _ w _ hw hx =>
          cases mb with
          | obj nn =>
            cases hk : mget nn k with
            | none =>
              obtain ⟨o, ho, -, hp⟩ := c2 init mm nn k hd1 hr (mget_isSome.1 ⟨_, hw⟩) (mget_eq_none.1 hk)
              exact absurd hp (hno o ho)
            | some c => exact ⟨c, .member _ _ _ _ _ hk (.here _)⟩
          | _ => exact hal.elim
        | element lm i _ w _ hw hx =>
          cases mb with
          | arr ln =>
            have hlen := hsl init lm ln (hd1.reaches hpa) (hr.reaches hpb)
            have hi : i < ln.length := by have := (List.getElem?_eq_some_iff.1 hw).1; omega
            exact ⟨_, .element _ _ _ _ _ (List.getElem?_eq_getElem hi) (.here _)⟩
          | _ => exact hal.elim
      obtain ⟨c, hc⟩ := hex
      have hu := hr.append hc
      by_cases hlf : NotLeaf c
      · obtain ⟨u', h', hal'⟩ := inner_before hpa hpb hsl hh _ hu hlf
        have := uniq hpa (hq.reaches hpa) h'
        exact absurd this (hal'.notLeaf _ _)
      · cases c with
        | leaf r ts' =>
          rcases c1 _ _ _ hu with ⟨p', t, h', hd⟩ | ⟨o, ho, hw⟩
          · have := uniq hpa (hq.reaches hpa) h'
            cases this
            refine ⟨p, r, ts', hgo, hu, hs.trans ?_⟩
            have := (not_leafDiffers.1 hd).1
            cases this with
            | num a b e => exact Or.inr ⟨_, _, rfl, rfl, e⟩
            | _ => exact .refl _
          · exact absurd hw.2.1 (hno o ho)
        | _ => exact absurd (fun p ts e => by cases e) hlf

/-- The values recorded last agree with the document. -/
def LatestOf (P : Bytes → Bool) (latest : List (Bytes × GVal)) (m : List (Bytes × Tson)) : Prop :=
  ∀ ks v, mget latest (pointer ks) = some v → P (pointer ks) = true ∧ HoldsNow (.obj m) ks v

theorem compactOps_kept {P : Bytes → Bool} {sel : Op → Sel} (ops : List Op)
    (hsel : ∀ o ∈ ops, sel o = if P o.path then .compare else .keep) : ∀ latest, (ops.map Op.path).Nodup →
    (∀ o ∈ ops, P o.path = true → ∀ v, mget latest o.path = some v → GVal.goEq v o.value = some false) →
    ∃ latest', compactOps sel latest ops = some (ops, latest') ∧
      (∀ p, (∀ o ∈ ops, o.path ≠ p) → mget latest' p = mget latest p) ∧
      ∀ o ∈ ops, mget latest' o.path = if P o.path then some o.value else mget latest o.path := by
  induction ops with
  | nil => intro latest _ _; exact ⟨latest, rfl, fun _ _ => rfl, by simp⟩
  | cons o ops ih =>
    intro latest hnd hk
    have ih := ih fun x hx => hsel x (List.mem_cons_of_mem _ hx)
    rw [List.map_cons, List.nodup_cons] at hnd
    have hne : ∀ x ∈ ops, x.path ≠ o.path := fun x hx e => hnd.1 (by rw [← e]; exact List.mem_map_of_mem hx)
    have ho := hsel o (List.mem_cons_self ..)
    cases hP : P o.path with
    | false =>
      obtain ⟨l, e1, e2, e3⟩ := ih latest hnd.2 fun x hx => hk x (List.mem_cons_of_mem _ hx)
      refine ⟨l, by simp [compactOps, ho, hP, e1], fun p hp => e2 p fun x hx => hp x (List.mem_cons_of_mem _ hx), ?_⟩
      intro x hx
      rcases List.mem_cons.1 hx with rfl | hx
      · rw [e2 _ hne, hP]; rfl
      · exact e3 x hx
    | true =>
      obtain ⟨l, e1, e2, e3⟩ := ih (mset latest o.path o.value) hnd.2 fun x hx hPx v hv => by
        rw [mget_mset_ne _ _ (hne x hx)] at hv
        exact hk x (List.mem_cons_of_mem _ hx) hPx v hv
      refine ⟨l, ?_, fun p hp => ?_, ?_⟩
      · simp only [compactOps, ho, hP, if_true]
        cases hg : mget latest o.path with
        | none => simp [e1]
        | some v =>
          have := hk o (List.mem_cons_self ..) hP v hg
          simp [this, e1]
      · rw [e2 p fun x hx => hp x (List.mem_cons_of_mem _ hx)]
        exact mget_mset_ne _ _ (Ne.symm (hp o (List.mem_cons_self ..)))
      · intro x hx
        rcases List.mem_cons.1 hx with rfl | hx
        · rw [e2 _ hne, mget_mset_self, hP]; rfl
        · rw [e3 x hx, mget_mset_ne _ _ (hne x hx)]

theorem LatestOf.patch {P : Bytes → Bool} {sel : Op → Sel} {latest : List (Bytes × GVal)} {m n : List (Bytes × Tson)}
    (hl : LatestOf P latest m) (ha : (Tson.obj m).Wf) (hb : (Tson.obj n).Wf)
    (hpa : Named (.obj m)) (hpb : Named (.obj n)) (hsl : SameLengths (.obj m) (.obj n)) {ops : List Op}
    (h : generatePatch (.obj m) (.obj n) = .ok ops) (hsel : ∀ o ∈ ops, sel o = if P o.path then .compare else .keep) :
    ∃ latest', compactOps sel latest ops = some (ops, latest') ∧ LatestOf P latest' n := by
  obtain ⟨h1, h2, h3⟩ := tree_patch ha hb hpa hpb hsl h
  obtain ⟨l, e1, e2, e3⟩ := compactOps_kept ops hsel latest h1 (by
    intro o ho hP v hv
    obtain ⟨k, hk, -, hq⟩ := h2 o ho
    rw [hk] at hv
    exact hq v (hl k v hv).2)
  refine ⟨l, e1, fun k v hv => ?_⟩
  by_cases hex : ∃ o ∈ ops, o.path = pointer k
  · obtain ⟨o, ho, hk⟩ := hex
    obtain ⟨k', hk', hnow, -⟩ := h2 o ho
    have : k' = k := pointer_injective (hk'.symm.trans hk)
    subst this
    have hq := e3 o ho
    rw [hk, hv] at hq
    cases hP : P (pointer k') with
    | true => rw [hP] at hq; simp at hq; rw [hq]; exact ⟨rfl, hnow⟩
    | false => rw [hP] at hq; simp at hq; exact absurd ((hl k' v hq.symm).1) (by rw [hP]; simp)
  · have hno : ∀ o ∈ ops, o.path ≠ pointer k := fun o ho e => hex ⟨o, ho, e⟩
    rw [e2 _ hno] at hv
    exact ⟨(hl k v hv).1, h3 k v hno (hl k v hv).2⟩

/-- Compacting the patches one after the other removes nothing. -/
def KeepsAll (sel : Op → Sel) : List (Bytes × GVal) → List (List Op) → List (Bytes × GVal) → Prop
  | latest, [], l => latest = l
  | latest, p :: ps, l => ∃ l1, compactOps sel latest p = some (p, l1) ∧ KeepsAll sel l1 ps l

theorem KeepsAll.concat {sel : Op → Sel} {p : List Op} {l2 : List (Bytes × GVal)} : ∀ {ps latest l},
    KeepsAll sel latest ps l → compactOps sel l p = some (p, l2) → KeepsAll sel latest (ps ++ [p]) l2 := by
  intro ps
  induction ps with
  | nil => intro latest l h hp; cases h; exact ⟨l2, hp, rfl⟩
  | cons q ps ih =>
    intro latest l h hp
    obtain ⟨l1, e, h⟩ := h
    exact ⟨l1, e, ih h hp⟩

theorem KeepsAll.take {sel : Op → Sel} : ∀ {ps latest l} (i : Nat), KeepsAll sel latest ps l →
    ∃ l', KeepsAll sel latest (ps.take i) l' := by
  intro ps
  induction ps with
  | nil => intro latest l i h; exact ⟨latest, by simp [KeepsAll]⟩
  | cons q ps ih =>
    intro latest l i h
    obtain ⟨l1, e, h⟩ := h
    cases i with
    | zero => exact ⟨latest, rfl⟩
    | succ i =>
      obtain ⟨l', h'⟩ := ih i h
      exact ⟨l', l1, e, h'⟩

theorem TreeSeries.kept {P : Bytes → Bool} {sel : Op → Sel} {m n : List (Bytes × Tson)} {ps : List (List Op)}
    (h : TreeSeries m ps n) (hsel : ∀ p ∈ ps, ∀ o ∈ p, sel o = if P o.path then .compare else .keep) :
    ∀ i, ∃ latest, KeepsAll sel [] (ps.drop i) latest ∧ LatestOf P latest n := by
  induction h with
  | none => intro i; exact ⟨[], by simp [KeepsAll], fun k v hv => by simp [mget] at hv⟩
  | next ps n k ops _ h1 h2 h3 h4 h5 h6 h7 ih =>
    intro i
    by_cases hi : i ≤ ps.length
    · obtain ⟨l, e1, e2⟩ := ih (fun p hp => hsel p (by simp [hp])) i
      obtain ⟨l', e3, e4⟩ := e2.patch h1 h2 h3 h4 h5 h6 (hsel ops (by simp))
      rw [List.drop_append_of_le_length hi]
      exact ⟨l', e1.concat e3, e4⟩
    · refine ⟨[], ?_, fun k v hv => by simp [mget] at hv⟩
      rw [List.drop_eq_nil_of_le (by simp; omega)]
      rfl

theorem compactVersions_kept {sel : Op → Sel} {patches : List (Nat × List Op)} : ∀ (ps : List (List Op)) (i : Nat) latest l,
    (∀ j, j < ps.length → mget patches (i + j) = ps[j]?) → KeepsAll sel latest ps l →
    compactVersions sel latest patches (List.range' i ps.length) = (patches, true) := by
  intro ps
  induction ps with
  | nil => intro i latest l _ _; rfl
  | cons p ps ih =>
    intro i latest l hp h
    obtain ⟨l1, e, h⟩ := h
    have h0 : mget patches i = some p := by simpa using hp 0 (by simp)
    rw [List.length_cons, List.range'_succ]
    simp only [compactVersions, h0, Option.getD_some, e]
    rw [mset_of_mget h0]
    refine ih (i + 1) l1 l (fun j hj => ?_) h
    have := hp (j + 1) (by simpa using hj)
    rw [show i + 1 + j = i + (j + 1) by omega, this]
    simp

theorem trackVersions_kept {sel : Op → Sel} {g : Lgm} : ∀ (ps : List (List Op)) (i : Nat) latest l,
    (∀ j, j < ps.length → mget g.patches (i + j) = ps[j]?) → (∀ p ∈ ps, p ≠ []) → KeepsAll sel latest ps l →
    trackVersions g sel latest (List.range' i ps.length) = some ((List.range' i ps.length).zip ps) := by
  intro ps
  induction ps with
  | nil => intro i latest l _ _ _; rfl
  | cons p ps ih =>
    intro i latest l hp hne h
    obtain ⟨l1, e, h⟩ := h
    have h0 : mget g.patches i = some p := by simpa using hp 0 (by simp)
    have hpo : g.patchOf i = p := by simp [Lgm.patchOf, h0]
    rw [List.length_cons, List.range'_succ]
    simp only [trackVersions, hpo, e]
    rw [ih (i + 1) l1 l (fun j hj => ?_) (fun q hq => hne q (List.mem_cons_of_mem _ hq)) h]
    · simp [hne p (List.mem_cons_self ..)]
    · have := hp (j + 1) (by simpa using hj)
      rw [show i + 1 + j = i + (j + 1) by omega, this]
      simp

theorem TreeSeries.nonempty {m n : List (Bytes × Tson)} {ps : List (List Op)} (h : TreeSeries m ps n) :
    ∀ p ∈ ps, p ≠ [] := by
  induction h with
  | none => simp
  | next ps n k ops _ _ _ _ _ _ _ hne ih =>
    intro p hp
    rcases List.mem_append.1 hp with hp | hp
    · exact ih p hp
    · rw [List.mem_singleton.1 hp]; exact hne

theorem range_filter (n i j : Nat) (hj : j ≤ n) : (List.range' 1 n).filter (fun v => decide (i ≤ v ∧ v ≤ j)) =
    List.range' (max i 1) (j + 1 - max i 1) := by
  refine sorted_perm_unique ?_ ?_ ?_
  · rw [List.perm_ext_iff_of_nodup (List.Pairwise.filter _ List.nodup_range') List.nodup_range']
    intro v
    simp [List.mem_filter]
    omega
  · exact ((List.pairwise_lt_range').imp (fun h => Nat.le_of_lt h)).filter _
  · exact (List.pairwise_lt_range').imp (fun h => Nat.le_of_lt h)

/-! ### C111 -/

/-- C111 (partial: documents whose arrays keep their lengths): a logument fed with the patches of `GeneratePatch` along a series of
documents is left as it is by `Compact` with any prefix.
Missing: arrays whose lengths change (refuted by `C111_arrays_fails`), and empty names (refuted by
`C111_empty_fails`). -/
theorem C111_compact_partial (h : Heap) (doc : Tson) {m n : List (Bytes × Tson)} {ps : List (List Op)}
    (hs : TreeSeries m ps n) (pre : Bytes) :
    (run (newLogument h doc none).1 (feed ps)).lgm.compact pre =
      ((run (newLogument h doc none).1 (feed ps)).lgm, .ok ()) := by
  obtain ⟨f1, -, f3⟩ := fed_new h doc ps
  obtain ⟨l, e, -⟩ := hs.kept (P := fun p => hasPrefix (decode p) pre) (sel := selPrefix pre) (fun _ _ _ _ => rfl) 0
  have hk := compactVersions_kept ps 1 [] l (fun j hj => by rw [Nat.add_comm 1 j]; exact f3 j hj) e
  unfold Lgm.compact
  rw [f1.isContinuous]
  dsimp only
  rw [f1.sortedKeys, hk]

/-- C111 (partial: documents whose arrays keep their lengths): `Track` of any range of versions returns the patches that were stored, and leaves
the logument as it is. Missing: as above. -/
theorem C111_track_partial (h : Heap) (doc : Tson) {m n : List (Bytes × Tson)} {ps : List (List Op)}
    (hs : TreeSeries m ps n) {vi vj : Nat} (hi : vi ≤ vj) (hj : vj ≤ ps.length) :
    ∃ r, (run (newLogument h doc none).1 (feed ps)).lgm.track vi vj =
      ((run (newLogument h doc none).1 (feed ps)).lgm, .ok r) ∧
      ∀ v, mget r v = if vi ≤ v ∧ v ≤ vj ∧ 1 ≤ v then ps[v - 1]? else none := by
  obtain ⟨f1, -, f3⟩ := fed_new h doc ps
  obtain ⟨l, e, -⟩ := hs.kept (P := fun _ => true) (sel := fun _ => .compare) (fun _ _ _ _ => rfl) (max vi 1 - 1)
  obtain ⟨l', e⟩ := e.take (vj + 1 - max vi 1)
  have hlen : ((ps.drop (max vi 1 - 1)).take (vj + 1 - max vi 1)).length = vj + 1 - max vi 1 := by
    simp; omega
  have hk := compactVersions_kept (patches := (run (newLogument h doc none).1 (feed ps)).lgm.patches) _ (max vi 1) [] l' (fun j hj' => by
    rw [hlen] at hj'
    have := f3 (max vi 1 - 1 + j) (by omega)
    rw [show max vi 1 - 1 + j + 1 = max vi 1 + j by omega] at this
    rw [this, List.getElem?_take_of_lt hj', List.getElem?_drop]) e
  rw [hlen] at hk
  refine ⟨restrict (run (newLogument h doc none).1 (feed ps)).lgm.patches [] vi vj, ?_, fun v => ?_⟩
  · unfold Lgm.track
    rw [f1.checkRange, decide_eq_true ⟨hi, hj⟩]
    dsimp only
    have hsort : sortNat (mkeys (restrict (run (newLogument h doc none).1 (feed ps)).lgm.patches [] vi vj)) =
        List.range' (max vi 1) (vj + 1 - max vi 1) := by
      rw [restrict_keys_versions f1, range_filter _ _ _ hj]
      exact sorted_perm_unique (sortNat_perm _) (sortNat_sorted _)
        ((List.pairwise_lt_range').imp (fun h => Nat.le_of_lt h))
    rw [hsort, hk]
  · rw [mget_restrict]
    by_cases hv : vi ≤ v ∧ v ≤ vj
    · rw [if_pos hv]
      cases v with
      | zero =>
        rw [if_neg (by omega), mget_eq_none, f1.2.2]; omega
      | succ v =>
        rw [if_pos ⟨hv.1, hv.2, by omega⟩, f3 v (by omega)]
        rfl
    · rw [if_neg hv, if_neg (fun c => hv ⟨c.1, c.2.1⟩)]

/-- C111 (partial: documents whose arrays keep their lengths): `TemporalTrack` over a window with all the times returns the patches that were
stored. Missing: as above. -/
theorem C111_window_partial (h : Heap) (doc : Tson) {m n : List (Bytes × Tson)} {ps : List (List Op)}
    (hs : TreeSeries m ps n) {tsi tsj : Int} (hi : tsi ≤ tsj) (hw : ∀ p ∈ ps, ∀ o ∈ p, tsi ≤ o.ts ∧ o.ts ≤ tsj) :
    (run (newLogument h doc none).1 (feed ps)).lgm.temporalTrack tsi tsj =
      ((run (newLogument h doc none).1 (feed ps)).lgm, .ok ((List.range' 1 ps.length).zip ps)) := by
  obtain ⟨f1, -, f3⟩ := fed_new h doc ps
  obtain ⟨l, e, -⟩ := hs.kept (P := fun _ => true) (sel := selWindow tsi tsj) (fun p hp o ho => by
    have := hw p hp o ho
    simp [selWindow, inWindow, this]) 0
  have hk := trackVersions_kept (g := (run (newLogument h doc none).1 (feed ps)).lgm) ps 1 [] l
    (fun j hj => by rw [Nat.add_comm 1 j]; exact f3 j hj) hs.nonempty e
  unfold Lgm.temporalTrack
  rw [if_neg (by omega), f1.sortedKeys, hk]

/-- An array that loses its first element twice. -/
def shrA : List (Bytes × Tson) := [(b!"a", .arr [.leaf (.bool true) 1, .leaf (.str b!"y") 1])]
def shrB : List (Bytes × Tson) := [(b!"a", .arr [.leaf (.str b!"y") 1])]
def shrC : List (Bytes × Tson) := [(b!"a", .arr [])]
def shrOp : List Op := [⟨.remove, b!"/a/0", .nil, 0⟩]

/-- C111 is violated for arrays whose lengths change: both removals are `null` on the same path, and `Compact` drops
the second one. -/
theorem C111_arrays_fails : generatePatch (.obj shrA) (.obj shrB) = .ok shrOp ∧
    generatePatch (.obj shrB) (.obj shrC) = .ok shrOp ∧
    ((run (newLogument [] (.obj shrA) none).1 (feed [shrOp, shrOp])).lgm.compact []).1.patches = [(1, shrOp), (2, [])] := by
  refine ⟨by decide, by decide, by decide⟩

/-- A member inside an object with the empty name, and a member with the same path. -/
def nonA : List (Bytes × Tson) := [([], .obj [(b!"a", .leaf (.bool true) 1)]), (b!"a", .leaf (.bool true) 1)]
def nonB : List (Bytes × Tson) := [([], .obj [(b!"a", .leaf (.bool false) 2)]), (b!"a", .leaf (.bool false) 3)]
def nonOps : List Op := [⟨.replace, b!"/a", .bool false, 2⟩, ⟨.replace, b!"/a", .bool false, 3⟩]

/-- C111 is violated for empty names: the paths of two members are the same, and `Compact` drops the second change. -/
theorem C111_empty_fails : generatePatch (.obj nonA) (.obj nonB) = .ok nonOps ∧
    ((run (newLogument [] (.obj nonA) none).1 (feed [nonOps])).lgm.compact []).1.patches =
      [(1, [⟨.replace, b!"/a", .bool false, 2⟩])] := by
  refine ⟨by decide, by decide⟩

/-- C111 is violated for `GeneratePatchWithTimestamp`: a value reported again with a later time is an operation with
the same value, and `Compact` drops it together with its time. -/
theorem C111_times_fails :
    generatePatchWithTimestamp (.obj [(b!"a", .leaf (.bool true) 1)]) (.obj [(b!"a", .leaf (.bool true) 2)]) =
      .ok [⟨.replace, b!"/a", .bool true, 2⟩] ∧
    generatePatchWithTimestamp (.obj [(b!"a", .leaf (.bool true) 2)]) (.obj [(b!"a", .leaf (.bool true) 3)]) =
      .ok [⟨.replace, b!"/a", .bool true, 3⟩] ∧
    ((run (newLogument [] (.obj [(b!"a", .leaf (.bool true) 1)]) none).1
      (feed [[⟨.replace, b!"/a", .bool true, 2⟩], [⟨.replace, b!"/a", .bool true, 3⟩]])).lgm.compact []).1.patches =
      [(1, [⟨.replace, b!"/a", .bool true, 2⟩]), (2, [])] := by
  refine ⟨by decide, by decide, by decide⟩

/-- Documents with an object, an array that changes, and a nil. -/
def carA : List (Bytes × Tson) := [(b!"Car", .obj serA), (b!"Doors", .arr [.leaf (.bool true) 1, .null, .leaf (.str b!"x") 1])]
def carB : List (Bytes × Tson) := [(b!"Car", .obj serB), (b!"Doors", .arr [.leaf (.bool false) 2, .null, .leaf (.str b!"x") 1])]
def carC : List (Bytes × Tson) := [(b!"Car", .obj serC), (b!"Doors", .arr [.leaf (.bool true) 5, .null, .leaf (.str b!"x") 1])]
def carAB : List Op := [⟨.replace, b!"/Car/a", .bool false, 3⟩, ⟨.add, b!"/Car/c", .str b!"z", 4⟩,
  ⟨.replace, b!"/Doors/0", .bool false, 2⟩]
def carBC : List Op := [⟨.replace, b!"/Car/c", .str b!"w", 5⟩, ⟨.remove, b!"/Car/b", .nil, 2⟩,
  ⟨.replace, b!"/Doors/0", .bool true, 5⟩]

theorem carLengths {c c' : List (Bytes × Tson)} {x y z x' y' z' : Tson} (hc : ∀ e ∈ c, ∃ p ts, e.2 = .leaf p ts)
    (hx : ∀ u ∈ [x, y, z], ∀ l, u ≠ .arr l) (hxo : ∀ u ∈ [x, y, z], ∀ l, u ≠ .obj l) :
    SameLengths (.obj [(b!"Car", .obj c), (b!"Doors", .arr [x, y, z])]) (.obj [(b!"Car", .obj c'), (b!"Doors", .arr [x', y', z'])]) := by
  intro ks l l' h1 h2
  cases h1 with
  | member _ k ks v _ hv h1 =>
    have hm := mget_mem hv
    simp only [List.mem_cons, List.not_mem_nil, or_false, Prod.mk.injEq] at hm
    rcases hm with ⟨rfl, rfl⟩ | ⟨rfl, rfl⟩
    · cases h1 with
      | member _ k' ks' w _ hw h1 =>
        obtain ⟨p, ts, e⟩ := hc _ (mget_mem hw)
        dsimp only at e
        subst e
        cases h1
    · cases h1 with
      | here =>
        obtain ⟨w, hw, h2⟩ := reaches_obj.1 h2
        have : w = .arr [x', y', z'] := by
          have hm := mget_mem hw
          simp only [List.mem_cons, List.not_mem_nil, or_false, Prod.mk.injEq] at hm
          rcases hm with ⟨e, -⟩ | ⟨-, e⟩
          · cases e
          · exact e
        subst this
        cases h2
        rfl
      | element _ k' ks' i w _ _ hw h1 =>
        have hw' := List.mem_of_getElem? hw
        cases h1 with
        | here => exact absurd rfl (hx _ hw' _)
        | member m => exact absurd rfl (hxo _ hw' _)
        | element l => exact absurd rfl (hx _ hw' _)

theorem car_series : TreeSeries carA [carAB, carBC] carC := by
  have wA : (Tson.obj carA).Wf := by simp [carA, serA, Tson.Wf, Tson.WfF, Tson.WfL, mkeys]
  have wB : (Tson.obj carB).Wf := by simp [carB, serB, Tson.Wf, Tson.WfF, Tson.WfL, mkeys]
  have wC : (Tson.obj carC).Wf := by simp [carC, serC, Tson.Wf, Tson.WfF, Tson.WfL, mkeys]
  have nA : Named (.obj carA) := (PlainDoc.of_check (by decide)).named
  have nB : Named (.obj carB) := (PlainDoc.of_check (by decide)).named
  have nC : Named (.obj carC) := (PlainDoc.of_check (by decide)).named
  exact .next [carAB] carB carC carBC (.next [] carA carB carAB .none wA wB nA nB
      (carLengths (by simp [serA]) (by simp) (by simp)) (by decide) (by decide))
    wB wC nB nC (carLengths (by simp [serB]) (by simp) (by simp)) (by decide) (by decide)

example : (run (newLogument [] (.obj carA) none).1 (feed [carAB, carBC])).lgm.compact b!"/" =
    ((run (newLogument [] (.obj carA) none).1 (feed [carAB, carBC])).lgm, .ok ()) :=
  C111_compact_partial [] _ car_series _

example : ∃ r, (run (newLogument [] (.obj carA) none).1 (feed [carAB, carBC])).lgm.track 0 2 =
    ((run (newLogument [] (.obj carA) none).1 (feed [carAB, carBC])).lgm, .ok r) ∧
    ∀ v, mget r v = if 0 ≤ v ∧ v ≤ 2 ∧ 1 ≤ v then [carAB, carBC][v - 1]? else none :=
  C111_track_partial [] _ car_series (by decide) (by decide)

example : (run (newLogument [] (.obj carA) none).1 (feed [carAB, carBC])).lgm.temporalTrack 0 9 =
    ((run (newLogument [] (.obj carA) none).1 (feed [carAB, carBC])).lgm, .ok [(1, carAB), (2, carBC)]) :=
  C111_window_partial [] _ car_series (by decide) (by decide)

end Verif
