import Verif.Rep
/-
`applyTraverse` on the heap does exactly what `applyT` does on trees, for documents without
internal sharing, and touches nothing outside the document.
-/
namespace Verif

/-- The heap outcome matches the tree outcome; a returned document owns only cells of the old
document and new cells. -/
def OutRel (h : Heap) (n : Nat) (F : Foot) : Res HVal → Res Tson → Prop
  | .ok w, .ok s => ∃ G, Rep h w s G ∧ ∀ x, G x → F x ∨ n ≤ x
  | .err, .err => True
  | .panic, .panic => True
  | _, _ => False

/-- The relation between a heap run and a tree run of `applyTraverse`. -/
structure Post (h : Heap) (v : HVal) (F : Foot) (R : Heap × Res HVal) (T : Tson × Res Tson) :
    Prop where
  len : h.length ≤ R.1.length
  frame : ∀ x, x < h.length → ¬ F x → R.1[x]? = h[x]?
  out : OutRel R.1 h.length F R.2 T.2
  old : ((∃ a, v = .obj a) ∨ R.2.isOk = false) →
    ∃ G, Rep R.1 v T.1 G ∧ ∀ x, G x → F x ∨ h.length ≤ x
  same : (∃ a, v = .obj a) → ∀ w, R.2 = .ok w → w = v ∧ T.2 = .ok T.1

theorem Post.err {h : Heap} {v t F} (hr : Rep h v t F) : Post h v F (h, .err) (t, .err) :=
  ⟨Nat.le_refl _, fun _ _ _ => rfl, trivial, fun _ => ⟨F, hr, fun _ hx => Or.inl hx⟩, by simp⟩

theorem Post.panic {h : Heap} {v t F} (hr : Rep h v t F) : Post h v F (h, .panic) (t, .panic) :=
  ⟨Nat.le_refl _, fun _ _ _ => rfl, trivial, fun _ => ⟨F, hr, fun _ hx => Or.inl hx⟩, by simp⟩

theorem Post.ok {h : Heap} {v t F} (hr : Rep h v t F) : Post h v F (h, .ok v) (t, .ok t) :=
  ⟨Nat.le_refl _, fun _ _ _ => rfl, ⟨F, hr, fun _ hx => Or.inl hx⟩,
    fun _ => ⟨F, hr, fun _ hx => Or.inl hx⟩, by simp⟩

/-- Common form of `assignFieldT` and `assignFromElemT`. -/
def assignGen (m : List (Bytes × Tson)) (part : Bytes) (o : Tson) : Res Tson → Tson × Res Tson
  | .ok v => (.obj (mset m part v), .ok (.obj (mset m part v)))
  | .err => (.obj (mset m part .null), .err)
  | .panic => (.obj (mset m part o), .panic)

theorem assignFieldT_eq (m : List (Bytes × Tson)) (part : Bytes) (T : Tson × Res Tson) :
    assignFieldT m part T = assignGen m part T.1 T.2 := by
  obtain ⟨o, r⟩ := T; cases r <;> rfl

theorem assignFromElemT_eq (m : List (Bytes × Tson)) (part : Bytes) (l : List Tson) (i : Nat)
    (T : Tson × Res Tson) :
    assignFromElemT m part l i T = assignGen m part (.arr (l.set i T.1)) T.2 := by
  obtain ⟨o, r⟩ := T; cases r <;> rfl

theorem Heap.getMap_eq {h : Heap} {a m} (e : h[a]? = some (.map m)) : h.getMap a = m := by
  simp [Heap.getMap, e]

theorem Heap.getBack_eq {h : Heap} {a l} (e : h[a]? = some (.back l)) : h.getBack a = l := by
  simp [Heap.getBack, e]

theorem Heap.mapSet_self {h : Heap} {a m} (e : h[a]? = some (.map m)) (k v) :
    (h.mapSet a k v)[a]? = some (.map (mset m k v)) := by
  have hlt : a < h.length := (List.getElem?_eq_some_iff.1 e).1
  simp [Heap.mapSet, Heap.getMap_eq e, hlt]

theorem Heap.mapSet_ne {h : Heap} {a x : Nat} (hne : x ≠ a) (k v) :
    (h.mapSet a k v)[x]? = h[x]? := by
  simp [Heap.mapSet, Ne.symm hne]

theorem Heap.mapSet_length (h : Heap) (a k v) : (h.mapSet a k v).length = h.length := by
  simp [Heap.mapSet]

theorem Heap.backSet_self {h : Heap} {a l} (e : h[a]? = some (.back l)) (i v) :
    (h.backSet a i v)[a]? = some (.back (l.set i v)) := by
  have hlt : a < h.length := (List.getElem?_eq_some_iff.1 e).1
  simp [Heap.backSet, Heap.getBack_eq e, hlt]

theorem Heap.backSet_ne {h : Heap} {a x : Nat} (hne : x ≠ a) (k v) :
    (h.backSet a k v)[x]? = h[x]? := by
  simp [Heap.backSet, Ne.symm hne]

theorem Heap.backSet_length (h : Heap) (a k v) : (h.backSet a k v).length = h.length := by
  simp [Heap.backSet]

theorem Heap.alloc_length (h : Heap) (c) : (h.alloc c).length = h.length + 1 := by
  simp [Heap.alloc]

theorem Heap.alloc_new (h : Heap) (c) : (h.alloc c)[h.length]? = some c := by
  simp [Heap.alloc]

theorem Heap.alloc_old {h : Heap} {x : Nat} (hx : x < h.length) (c) : (h.alloc c)[x]? = h[x]? := by
  simp [Heap.alloc, List.getElem?_append_left hx]

/-- Everything needed to rebuild an object around a new member value. -/
structure Rebuild (h : Heap) (a : Nat) (part : Bytes) (m : List (Bytes × HVal))
    (tm : List (Bytes × Tson)) (Fc Fr F : Foot) : Prop where
  cell : h[a]? = some (.map m)
  fcLt : ∀ x, Fc x → x < h.length
  frLt : ∀ x, Fr x → x < h.length
  nfc : ¬ Fc a
  nfr : ¬ Fr a
  disj : Disj Fc Fr
  foot : F = fun x => x = a ∨ Fc x ∨ Fr x
  build : ∀ (h' : Heap) w s G, Rep h' w s G → (∀ x, Fr x → h'[x]? = h[x]?) → ¬ G a → Disj G Fr →
        h'[a]? = some (.map (mset m part w)) →
        Rep h' (.obj a) (.obj (mset tm part s)) (fun x => x = a ∨ G x ∨ Fr x)

theorem Rebuild.lt {h a part m tm Fc Fr F} (rb : Rebuild h a part m tm Fc Fr F) : a < h.length :=
  (List.getElem?_eq_some_iff.1 rb.cell).1

/-- Rebuilding with a value whose cells come from the old member or are new. -/
theorem Rebuild.build' {h a part m tm Fc Fr F} (rb : Rebuild h a part m tm Fc Fr F)
    (h' : Heap) (w s G) (hw : Rep h' w s G) (hG : ∀ x, G x → Fc x ∨ h.length ≤ x)
    (hf : ∀ x, x < h.length → ¬ Fc x → x ≠ a → h'[x]? = h[x]?)
    (ha : h'[a]? = some (.map (mset m part w))) :
    ∃ G', Rep h' (.obj a) (.obj (mset tm part s)) G' ∧ ∀ x, G' x → F x ∨ h.length ≤ x := by
  have halt := rb.lt
  refine ⟨_, rb.build h' w s G hw ?_ ?_ ?_ ha, ?_⟩
  · intro x hx
    exact hf x (rb.frLt x hx) (fun hc => rb.disj x hc hx) (fun e => rb.nfr (e ▸ hx))
  · intro hx
    rcases hG a hx with hc | hc
    · exact rb.nfc hc
    · omega
  · intro x hx hc
    rcases hG x hx with hg | hg
    · exact rb.disj x hg hc
    · have := rb.frLt x hc; omega
  · rw [rb.foot]
    rintro x (hx | hx | hx)
    · exact Or.inl (Or.inl hx)
    · rcases hG x hx with hg | hg
      · exact Or.inl (Or.inr (Or.inl hg))
      · exact Or.inr hg
    · exact Or.inl (Or.inr (Or.inr hx))

/-- A finished object update. -/
theorem Rebuild.post_ok {h a part m tm Fc Fr F} (rb : Rebuild h a part m tm Fc Fr F)
    (h' : Heap) (w s G) (hlen : h.length ≤ h'.length) (hw : Rep h' w s G)
    (hG : ∀ x, G x → Fc x ∨ h.length ≤ x)
    (hf : ∀ x, x < h.length → ¬ Fc x → x ≠ a → h'[x]? = h[x]?)
    (ha : h'[a]? = some (.map (mset m part w))) :
    Post h (.obj a) F (h', .ok (.obj a)) (.obj (mset tm part s), .ok (.obj (mset tm part s))) := by
  obtain ⟨G', hG1, hG2⟩ := rb.build' h' w s G hw hG hf ha
  refine ⟨hlen, ?_, ⟨G', hG1, hG2⟩, fun _ => ⟨G', hG1, hG2⟩, by simp⟩
  intro x hx hn
  rw [rb.foot] at hn
  exact hf x hx (fun hc => hn (Or.inr (Or.inl hc))) (fun hc => hn (Or.inl hc))

theorem Rebuild.post_fail {h a part m tm Fc Fr F} (rb : Rebuild h a part m tm Fc Fr F)
    (h' : Heap) (w s G) (hlen : h.length ≤ h'.length) (hw : Rep h' w s G)
    (hG : ∀ x, G x → Fc x ∨ h.length ≤ x)
    (hf : ∀ x, x < h.length → ¬ Fc x → x ≠ a → h'[x]? = h[x]?)
    (ha : h'[a]? = some (.map (mset m part w))) (r : Res HVal) (r' : Res Tson)
    (hr : (r = .err ∧ r' = .err) ∨ (r = .panic ∧ r' = .panic)) :
    Post h (.obj a) F (h', r) (.obj (mset tm part s), r') := by
  obtain ⟨G', hG1, hG2⟩ := rb.build' h' w s G hw hG hf ha
  refine ⟨hlen, ?_, ?_, fun _ => ⟨G', hG1, hG2⟩, ?_⟩
  · intro x hx hn
    rw [rb.foot] at hn
    exact hf x hx (fun hc => hn (Or.inr (Or.inl hc))) (fun hc => hn (Or.inl hc))
  · rcases hr with ⟨rfl, rfl⟩ | ⟨rfl, rfl⟩ <;> trivial
  · rcases hr with ⟨rfl, rfl⟩ | ⟨rfl, rfl⟩ <;> simp

/-- The statement `if j[part], err = <call>; err != nil {...}; return j, nil`. -/
theorem assignField_post {h a part m tm Fc Fr F} (rb : Rebuild h a part m tm Fc Fr F)
    (R : Heap × Res HVal) (o : Tson) (r' : Res Tson)
    (hlen : h.length ≤ R.1.length)
    (hf : ∀ x, x < h.length → ¬ Fc x → x ≠ a → R.1[x]? = h[x]?)
    (m' : List (Bytes × HVal)) (hcell : R.1[a]? = some (.map m'))
    (hm : ∀ w, mset m' part w = mset m part w)
    (hout : OutRel R.1 h.length Fc R.2 r')
    (hpan : R.2 = .panic → ∃ c G, Rep R.1 c o G ∧ (∀ x, G x → Fc x ∨ h.length ≤ x) ∧
      m' = mset m part c) :
    Post h (.obj a) F (assignField a part (.obj a) R) (assignGen tm part o r') := by
  obtain ⟨h', r⟩ := R
  have halt := rb.lt
  have ha : ∀ w, (h'.mapSet a part w)[a]? = some (.map (mset m part w)) := by
    intro w; rw [Heap.mapSet_self hcell, hm]
  have hf' : ∀ w x, x < h.length → ¬ Fc x → x ≠ a → (h'.mapSet a part w)[x]? = h[x]? := by
    intro w x hx hc hne
    rw [Heap.mapSet_ne hne]; exact hf x hx hc hne
  cases r with
  | ok w =>
    cases r' with
    | ok s =>
      obtain ⟨G, hG1, hG2⟩ := hout
      refine rb.post_ok _ w s G ?_ (hG1.frame ?_) hG2 (hf' w) (ha w)
      · rw [Heap.mapSet_length]; exact hlen
      · intro x hx
        refine Heap.mapSet_ne ?_ _ _
        rintro rfl
        rcases hG2 _ hx with hc | hc
        · exact rb.nfc hc
        · omega
    | err => exact hout.elim
    | panic => exact hout.elim
  | err =>
    cases r' with
    | err =>
      refine rb.post_fail _ .null .null _ ?_ Rep.null (by simp) (hf' .null) (ha .null) _ _
        (Or.inl ⟨rfl, rfl⟩)
      rw [Heap.mapSet_length]; exact hlen
    | ok => exact hout.elim
    | panic => exact hout.elim
  | panic =>
    cases r' with
    | panic =>
      obtain ⟨c, G, hG1, hG2, rfl⟩ := hpan rfl
      exact rb.post_fail _ c o G hlen hG1 hG2 hf hcell _ _ (Or.inr ⟨rfl, rfl⟩)
    | ok => exact hout.elim
    | err => exact hout.elim

/-! ### Arrays -/

theorem Rep.arrFocus {h : Heap} {b n : Nat} {t : Tson} {F : Foot} (hr : Rep h (.arr b n) t F)
    (i : Nat) (hi : i < n) :
    ∃ l tl c tc Fc Fr, t = .arr tl ∧ tl.length = n ∧ h[b]? = some (.back l) ∧ l[i]? = some c ∧
      tl[i]? = some tc ∧ Rep h c tc Fc ∧
      ¬ Fc b ∧ ¬ Fr b ∧ Disj Fc Fr ∧ (F = fun x => x = b ∨ Fc x ∨ Fr x) ∧
      ∀ (h' : Heap) w s G, Rep h' w s G → (∀ x, Fr x → h'[x]? = h[x]?) → ¬ G b → Disj G Fr →
        h'[b]? = some (.back (l.set i w)) →
        Rep h' (.arr b n) (.arr (tl.set i s)) (fun x => x = b ∨ G x ∨ Fr x) := by
  obtain ⟨l, tl, F₁, rfl, h1, h2, h3, h4, h5, rfl⟩ := hr.inv_arr
  have hil : i < l.length := by omega
  have hc : (l.take n)[i]? = some l[i] := by simp [hi, hil]
  obtain ⟨tc, Fv, Fr, g1, g2, g3, g4, g5⟩ := h4.focus _ _ hc
  subst g4
  refine ⟨l, tl, l[i], tc, Fv, Fr, rfl, h3, h1, by simp [hil], g1, g2, ?_, ?_, g3, rfl, ?_⟩
  · exact fun hx => h5 (Or.inl hx)
  · exact fun hx => h5 (Or.inr hx)
  · intro h' w s G hG hf hGb hGd hb
    have := g5 h' w s G hG hf hGd
    refine Rep.mk_arr (F := fun x => G x ∨ Fr x) hb (by simpa using h2) ?_ ?_
    · rw [List.take_set]; exact this
    · rintro (hx | hx)
      · exact hGb hx
      · exact h5 (Or.inr hx)

theorem take_shiftDown (l : List HVal) (n i : Nat) (hi : i < n) (hn : n ≤ l.length) :
    (shiftDown l n i).take (n - 1) = (l.take n).eraseIdx i := by
  unfold shiftDown
  rw [List.eraseIdx_eq_take_drop_succ, List.take_take, Nat.min_eq_left (Nat.le_of_lt hi),
    ← List.append_assoc, List.take_append_of_le_length (by simp; omega), List.take_of_length_le]
  simp; omega

theorem shiftDown_length (l : List HVal) (n i : Nat) (hi : i < n) (hn : n ≤ l.length) :
    n - 1 ≤ (shiftDown l n i).length := by
  unfold shiftDown; simp; omega

theorem Rep.arrErase {h : Heap} {b n : Nat} {tl : List Tson} {F : Foot}
    (hr : Rep h (.arr b n) (.arr tl) F) (i : Nat) (hi : i < n) :
    ∃ G, Rep (h.set b (.back (shiftDown (h.getBack b) n i))) (.arr b (n - 1)) (.arr (tl.eraseIdx i)) G
      ∧ ∀ x, G x → F x := by
  obtain ⟨l, tl', F₁, he, h1, h2, h3, h4, h5, rfl⟩ := hr.inv_arr
  cases he
  rw [Heap.getBack_eq h1]
  have hlt : b < h.length := (List.getElem?_eq_some_iff.1 h1).1
  have hf : ∀ x, F₁ x → (h.set b (.back (shiftDown l n i)))[x]? = h[x]? := by
    intro x hx
    have : b ≠ x := by rintro rfl; exact h5 hx
    simp [this]
  obtain ⟨G, hG, hs⟩ := (h4.frame hf).eraseIdx i
  refine ⟨_, Rep.mk_arr (l := shiftDown l n i) (F := G) (by simp [hlt])
    (shiftDown_length l n i hi h2) ?_ (fun hx => h5 (hs _ hx)), ?_⟩
  · rw [take_shiftDown l n i hi h2]; exact hG
  · rintro x (hx | hx)
    · exact Or.inl hx
    · exact Or.inr (hs _ hx)

/-- Growing an array into a fresh backing array. -/
theorem Rep.arrExtend {h : Heap} {b n : Nat} {tl : List Tson} {F : Foot}
    (hr : Rep h (.arr b n) (.arr tl) F) (k : Nat) (hk : n ≤ k) :
    ∃ G, (∀ h' : Heap, (∀ x, x < h.length → x ≠ b → F x → h'[x]? = h[x]?) → ∀ i w s,
        (h'[h.length]? = some (.back ((extendTo (h.elems b n) k).set i w)) → n ≤ i →
          Rep h' w s (fun _ => False) →
          Rep h' (.arr h.length k) (.arr ((extendT tl k).set i s)) G)) ∧
      (∀ x, G x → F x ∨ h.length ≤ x) := by
  obtain ⟨l, tl', F₁, he, h1, h2, h3, h4, h5, rfl⟩ := hr.inv_arr
  cases he
  refine ⟨fun x => x = h.length ∨ F₁ x, ?_, ?_⟩
  · intro h' hf i w s hcell hi hw
    have hel : h.elems b n = l.take n := by simp [Heap.elems, Heap.getBack_eq h1]
    rw [hel] at hcell
    have hlen : (extendTo (l.take n) k).length = k := by
      simp [extendTo]; omega
    refine Rep.mk_arr hcell (by simp [hlen]) ?_ ?_
    · rw [List.take_of_length_le (by simp [hlen])]
      have ha : ∀ i, RepL h' ((List.replicate (k - n) .null).set i w)
          ((List.replicate (k - n) .null).set i s) (fun _ => False) := by
        intro i
        by_cases hi : i < k - n
        · obtain ⟨t, Fv, Fr, g1, g2, g3, g4, g5⟩ :=
            (RepL.replicate_null (h := h') (k - n)).focus i .null (by simp [hi])
          have hFr : ∀ x, ¬ Fr x := fun x hx => by
            have := congrFun g4 x; simp [hx] at this
          exact (g5 h' w s _ hw (fun _ _ => rfl) (by simp [Disj])).congr (by simpa using hFr)
        · rw [List.set_eq_of_length_le (by simp; omega), List.set_eq_of_length_le (by simp; omega)]
          exact RepL.replicate_null _
      have hmin : min n l.length = n := Nat.min_eq_left h2
      have e1 : (extendTo (l.take n) k).set i w
          = l.take n ++ (List.replicate (k - n) .null).set (i - n) w := by
        simp only [extendTo, List.length_take, hmin]
        rw [List.set_append_right _ _ (by simp; omega)]
        simp [hmin]
      have e2 : (extendT tl k).set i s
          = tl ++ (List.replicate (k - n) .null).set (i - n) s := by
        simp only [extendT, h3]
        rw [List.set_append_right _ _ (by omega)]
        simp [h3]
      rw [e1, e2]
      refine (RepL.append (h4.frame ?_) (ha _) (by simp [Disj])).congr (by simp)
      intro x hx
      exact hf x (h4.lt x hx) (by rintro rfl; exact h5 hx) (Or.inr hx)
    · intro hx
      have := h4.lt _ hx; omega
  · rintro x (hx | hx)
    · right; omega
    · left; exact Or.inr hx

theorem Rep.rebuild {h : Heap} {a : Nat} {t : Tson} {F : Foot} (hr : Rep h (.obj a) t F)
    (k : Bytes) :
    ∃ m tm Fc Fr, t = .obj tm ∧ Rebuild h a k m tm Fc Fr F ∧
      ((∃ c tc, mget m k = some c ∧ mget tm k = some tc ∧ Rep h c tc Fc) ∨
        (mget m k = none ∧ mget tm k = none ∧ Fc = fun _ => False)) := by
  obtain ⟨m, tm, Fc, Fr, rfl, h1, h2, h3, h4, h5, h6, h7⟩ := hr.objFocus k
  have hlt := hr.lt
  subst h6
  exact ⟨m, tm, Fc, Fr, rfl, ⟨h1, fun x hx => hlt x (Or.inr (Or.inl hx)),
    fun x hx => hlt x (Or.inr (Or.inr hx)), h3, h4, h5, rfl, h7⟩, h2⟩

theorem applyTraverse_null (h : Heap) (p : Bytes) (rest : List Bytes) (op : Op) :
    applyTraverse h .null (p :: rest) op = (h, .err) := by simp [applyTraverse]

theorem applyT_null (p : Bytes) (rest : List Bytes) (op : Op) :
    applyT .null (p :: rest) op = (.null, .err) := by simp [applyT]

/-- The member-of-an-object case with an array member. -/
theorem refine_objArr {op : Op} {p1 : Bytes} {rest : List Bytes}
    (ih : ∀ (h : Heap) v t F, Rep h v t F →
      Post h v F (applyTraverse h v (p1 :: rest) op) (applyT t (p1 :: rest) op))
    {h : Heap} {a : Nat} {part : Bytes} {m tm Fc Fr F} (hr : Rep h (.obj a) (.obj tm) F)
    (rb : Rebuild h a part m tm Fc Fr F)
    {b n : Nat} {l : List Tson} (hc : mget m part = some (.arr b n)) (htc : mget tm part = some (.arr l))
    (hrc : Rep h (.arr b n) (.arr l) Fc) :
    Post h (.obj a) F (applyTraverse h (.obj a) (part :: p1 :: rest) op)
      (applyT (.obj tm) (part :: p1 :: rest) op) := by
  have hget := Heap.getMap_eq rb.cell
  have halt := rb.lt
  have hab : ∀ x, Fc x → x ≠ a := fun x hx e => rb.nfc (e ▸ hx)
  rw [applyTraverse, applyT]
  simp only [hget, hc, htc]
  cases hat : atoi p1 with
  | none => exact Post.err hr
  | some idx =>
    dsimp only
    have hmid : mset m part (.arr b n) = m := mset_mget_self _ _ _ hc
    obtain ⟨l₀, tl₀, F₁, he, g1, g2, g3, g4, g5, g6⟩ := hrc.inv_arr
    cases he
    have hblt : b < h.length := (List.getElem?_eq_some_iff.1 g1).1
    have hba : b ≠ a := hab b (by rw [g6]; exact Or.inl rfl)
    rw [g3]
    cases hcls : op.kind.cls with
    | unimplemented => exact Post.err hr
    | unknown => exact Post.err hr
    | remove =>
      dsimp only
      by_cases hidx : idx < 0 ∨ (n : Int) ≤ idx
      · simp only [hidx, if_true]; exact Post.panic hr
      · simp only [hidx, if_false]
        obtain ⟨G, hG1, hG2⟩ := hrc.arrErase idx.toNat (by omega)
        have hcell : (h.set b (.back (shiftDown (h.getBack b) n idx.toNat)))[a]? = some (.map m) := by
          simp [hba]; simpa using rb.cell
        refine rb.post_ok _ (.arr b (n - 1)) _ G ?_ (hG1.frame ?_) (fun x hx => Or.inl (hG2 x hx)) ?_ ?_
        · simp [Heap.mapSet_length]
        · intro x hx; exact Heap.mapSet_ne (hab x (hG2 x hx)) _ _
        · intro x hx hnc hne
          rw [Heap.mapSet_ne hne]
          have : b ≠ x := by rintro rfl; exact hnc (by rw [g6]; exact Or.inl rfl)
          simp [this]
        · exact Heap.mapSet_self hcell _ _
    | set =>
      dsimp only
      by_cases hidx : (n : Int) ≤ idx
      · simp only [hidx, if_true]
        have hnk : n ≤ idx.toNat := by omega
        obtain ⟨G, hG1, hG2⟩ := hrc.arrExtend (idx.toNat + 1) (by omega)
        have hcella : ∀ c, (h.alloc c)[a]? = some (.map m) := fun c => by
          rw [Heap.alloc_old halt]; exact rb.cell
        have hnl : h.length ≠ a := by omega
        have hframe : ∀ c v x, x < h.length → x ≠ a → ((h.alloc c).mapSet a part v)[x]? = h[x]? := by
          intro c v x hx hne
          rw [Heap.mapSet_ne hne, Heap.alloc_old hx]
        have hnew : ∀ c v, ((h.alloc c).mapSet a part v)[h.length]? = some c := by
          intro c v; rw [Heap.mapSet_ne hnl, Heap.alloc_new]
        have hlenE : (extendTo (h.elems b n) (idx.toNat + 1)).length = idx.toNat + 1 := by
          simp [extendTo, Heap.elems, Heap.getBack_eq g1]; omega
        have hlenT : (extendT l (idx.toNat + 1)).length = idx.toNat + 1 := by
          simp [extendT, g3]; omega
        cases hov : opVal op.value with
        | prim p =>
          dsimp only
          refine rb.post_ok _ (.arr h.length (idx.toNat + 1)) _ G ?_
            (hG1 _ ?_ _ (.leaf p op.ts) _ ?_ hnk Rep.leaf) hG2 ?_ ?_
          · simp [Heap.backSet_length, Heap.mapSet_length, Heap.alloc_length]
          · intro x hx _ hxF
            rw [Heap.backSet_ne (by omega)]
            exact hframe _ _ x hx (hab x hxF)
          · exact Heap.backSet_self (hnew _ _) _ _
          · intro x hx _ hne
            rw [Heap.backSet_ne (by omega)]
            exact hframe _ _ x hx hne
          · rw [Heap.backSet_ne (Ne.symm hnl)]
            exact Heap.mapSet_self (hcella _) _ _
        | nil =>
          dsimp only
          have hset : (extendT l (idx.toNat + 1)).set (idx.toNat + 1) Tson.null
              = extendT l (idx.toNat + 1) := List.set_eq_of_length_le (by omega)
          have hset' : (extendTo (h.elems b n) (idx.toNat + 1)).set (idx.toNat + 1) HVal.null
              = extendTo (h.elems b n) (idx.toNat + 1) := List.set_eq_of_length_le (by omega)
          refine rb.post_fail _ (.arr h.length (idx.toNat + 1)) _ G ?_
            (hset ▸ hG1 _ ?_ (idx.toNat + 1) .null .null (by rw [hset']; exact hnew _ _) (by omega)
              Rep.null) hG2 ?_ ?_ _ _ (Or.inl ⟨rfl, rfl⟩)
          · simp [Heap.mapSet_length, Heap.alloc_length]
          · intro x hx _ hne
            exact hframe _ _ x hx hne
          · exact Heap.mapSet_self (hcella _) _ _
          · intro x hx _ hxF
            exact hframe _ _ x hx (hab x hxF)
        | other =>
          dsimp only
          have hel : Heap.elemAt ((h.alloc (.back (extendTo (h.elems b n) (idx.toNat + 1)))).mapSet
              a part (.arr h.length (idx.toNat + 1))) h.length idx.toNat = .null := by
            unfold Heap.elemAt
            rw [Heap.getBack_eq (hnew _ _)]
            simp only [extendTo, Heap.elems, Heap.getBack_eq g1]
            rw [List.getElem?_append_right (by simp; omega)]
            simp only [List.getElem?_replicate]
            split <;> rfl
          rw [hel, applyTraverse_null, applyT_null, assignFromElemT_eq]
          dsimp only
          refine assignField_post rb (_, Res.err) _ _ ?_ ?_ _ (Heap.mapSet_self (hcella _) _ _) ?_ ?_ ?_
          · simp [Heap.mapSet_length, Heap.alloc_length]
          · intro x hx _ hne
            exact hframe _ _ x hx hne
          · intro w; rw [mset_mset]
          · trivial
          · intro hh; cases hh
      · simp only [hidx, if_false]
        cases hov : opVal op.value with
        | nil => exact Post.err hr
        | prim p =>
          dsimp only
          by_cases hneg : idx < 0
          · simp only [hneg, if_true]; exact Post.panic hr
          · simp only [hneg, if_false]
            obtain ⟨l', tl', c, tc, Fe, Fs, he, q1, q2, q3, q4, q5, q6, q7, q8, q9, q10⟩ :=
              hrc.arrFocus idx.toNat (by omega)
            cases he
            refine rb.post_ok _ (.arr b n) _ _ ?_
              (q10 (h.backSet b idx.toNat (.leaf p op.ts)) (.leaf p op.ts) (.leaf p op.ts) _ Rep.leaf
                ?_ (by simp) (by simp [Disj]) (Heap.backSet_self q2 _ _)) ?_ ?_ ?_
            · simp [Heap.backSet_length]
            · intro x hx
              exact Heap.backSet_ne (by rintro rfl; exact q7 hx) _ _
            · rintro x (hx | hx | hx)
              · left; rw [q9]; exact Or.inl hx
              · exact hx.elim
              · left; rw [q9]; exact Or.inr (Or.inr hx)
            · intro x hx hnc _
              refine Heap.backSet_ne ?_ _ _
              rintro rfl
              exact hnc (by rw [q9]; exact Or.inl rfl)
            · rw [Heap.backSet_ne (Ne.symm hba), rb.cell, hmid]
        | other =>
          dsimp only
          by_cases hneg : idx < 0
          · simp only [hneg, if_true]; exact Post.panic hr
          · simp only [hneg, if_false]
            obtain ⟨l', tl', c, tc, Fe, Fs, he, q1, q2, q3, q4, q5, q6, q7, q8, q9, q10⟩ :=
              hrc.arrFocus idx.toNat (by omega)
            cases he
            have hel : h.elemAt b idx.toNat = c := by
              simp [Heap.elemAt, Heap.getBack_eq q2, q3]
            rw [hel, assignFromElemT_eq, q4]
            dsimp only [Option.getD_some]
            have P := ih h c tc Fe q5
            have hFe : ∀ x, Fe x → Fc x := fun x hx => by rw [q9]; exact Or.inr (Or.inl hx)
            have hcellA : (applyTraverse h c (p1 :: rest) op).1[a]? = some (.map m) := by
              rw [P.frame a halt (fun hx => rb.nfc (hFe a hx))]; exact rb.cell
            have hcellB : (applyTraverse h c (p1 :: rest) op).1[b]? = some (.back l') := by
              rw [P.frame b hblt q6]; exact q2
            refine assignField_post rb _ _ _ P.len ?_ m hcellA (fun _ => rfl) ?_ ?_
            · intro x hx hnc _
              exact P.frame x hx (fun hc => hnc (hFe x hc))
            · have := P.out
              revert this
              cases (applyTraverse h c (p1 :: rest) op).2 <;> cases (applyT tc (p1 :: rest) op).2 <;>
                simp only [OutRel, imp_self]
              rintro ⟨G, hG1, hG2⟩
              refine ⟨G, hG1, fun x hx => ?_⟩
              rcases hG2 x hx with hx | hx
              · exact Or.inl (hFe x hx)
              · exact Or.inr hx
            · intro hp
              obtain ⟨G, hG1, hG2⟩ := P.old (Or.inr (by rw [hp]; rfl))
              refine ⟨.arr b n, _, q10 _ c _ G hG1 ?_ ?_ ?_ ?_, ?_, hmid.symm⟩
              · intro x hx
                refine P.frame x ?_ (fun hc => q8 x hc hx)
                exact rb.fcLt x (by rw [q9]; exact Or.inr (Or.inr hx))
              · intro hx
                rcases hG2 b hx with hx | hx
                · exact q6 hx
                · omega
              · intro x hx hs
                rcases hG2 x hx with hx | hx
                · exact q8 x hx hs
                · have := rb.fcLt x (by rw [q9]; exact Or.inr (Or.inr hs)); omega
              · rw [hcellB]
                have : l'.set idx.toNat c = l' := by
                  obtain ⟨hl, rfl⟩ := List.getElem?_eq_some_iff.1 q3
                  simp
                rw [this]
              · rw [q9]
                rintro x (hx | hx | hx)
                · exact Or.inl (Or.inl hx)
                · rcases hG2 x hx with hx | hx
                  · exact Or.inl (Or.inr (Or.inl hx))
                  · exact Or.inr hx
                · exact Or.inl (Or.inr (Or.inr hx))

theorem OutRel.mono {h : Heap} {n : Nat} {F F' : Foot} {r r'} (ho : OutRel h n F r r')
    (hF : ∀ x, F x → F' x) : OutRel h n F' r r' := by
  cases r <;> cases r' <;> simp only [OutRel] at ho ⊢
  obtain ⟨G, h1, h2⟩ := ho
  exact ⟨G, h1, fun x hx => (h2 x hx).imp (hF x) id⟩

/-- A new empty container is stored under `part` before the traversal continues in it. -/
theorem refine_objNew {op : Op} {p1 : Bytes} {rest : List Bytes}
    (ih : ∀ (h : Heap) v t F, Rep h v t F →
      Post h v F (applyTraverse h v (p1 :: rest) op) (applyT t (p1 :: rest) op))
    {h : Heap} {a : Nat} {part : Bytes} {m tm Fc Fr F}
    (rb : Rebuild h a part m tm Fc Fr F) (c : Cell) (v : HVal) (t : Tson)
    (hv : ∀ h' : Heap, h'[h.length]? = some c → Rep h' v t (fun x => x = h.length)) :
    Post h (.obj a) F
      (assignField a part (.obj a)
        (applyTraverse ((h.alloc c).mapSet a part v) v (p1 :: rest) op))
      (assignFieldT tm part (applyT t (p1 :: rest) op)) := by
  have halt := rb.lt
  have hcella : (h.alloc c)[a]? = some (.map m) := by
    rw [Heap.alloc_old halt]; exact rb.cell
  have hnl : h.length ≠ a := by omega
  have hnew : ((h.alloc c).mapSet a part v)[h.length]? = some c := by
    rw [Heap.mapSet_ne hnl, Heap.alloc_new]
  have hlen1 : ((h.alloc c).mapSet a part v).length = h.length + 1 := by
    simp [Heap.mapSet_length, Heap.alloc_length]
  have P := ih _ v t _ (hv _ hnew)
  rw [assignFieldT_eq]
  have hlen2 := P.len
  rw [hlen1] at hlen2
  refine assignField_post rb _ _ _ (by omega) ?_ (mset m part v) ?_ ?_ ?_ ?_
  · intro x hx hnc hne
    rw [P.frame x (by omega) (by omega), Heap.mapSet_ne hne, Heap.alloc_old hx]
  · rw [P.frame a (by omega) (Ne.symm hnl)]
    exact Heap.mapSet_self hcella _ _
  · intro w; rw [mset_mset]
  · have ho := P.out
    rw [hlen1] at ho
    revert ho
    cases (applyTraverse ((h.alloc c).mapSet a part v) v (p1 :: rest) op).2 <;>
      cases (applyT t (p1 :: rest) op).2 <;> simp only [OutRel, imp_self]
    rintro ⟨G, hG1, hG2⟩
    refine ⟨G, hG1, fun x hx => ?_⟩
    rcases hG2 x hx with hx | hx
    · right; omega
    · right; omega
  · intro hp
    obtain ⟨G, hG1, hG2⟩ := P.old (Or.inr (by rw [hp]; rfl))
    refine ⟨v, G, hG1, fun x hx => ?_, rfl⟩
    rcases hG2 x hx with hx | hx
    · right; omega
    · right; omega

theorem refine_obj {op : Op} {part : Bytes} {rest : List Bytes}
    (ih : ∀ (h : Heap) v t F, Rep h v t F →
      Post h v F (applyTraverse h v rest op) (applyT t rest op))
    {h : Heap} {a : Nat} {t : Tson} {F : Foot} (hr : Rep h (.obj a) t F) :
    Post h (.obj a) F (applyTraverse h (.obj a) (part :: rest) op) (applyT t (part :: rest) op) := by
  obtain ⟨m, tm, Fc, Fr, rfl, rb, hchild⟩ := hr.rebuild part
  have hget := Heap.getMap_eq rb.cell
  have halt := rb.lt
  cases rest with
  | nil =>
    rw [applyTraverse, applyT]
    cases hcls : op.kind.cls with
    | unimplemented => exact Post.panic hr
    | unknown => exact Post.err hr
    | remove =>
      dsimp only
      obtain ⟨G, hG1, hG2⟩ := hr.objDelete part
      refine ⟨by simp [Heap.mapDel], ?_, ⟨G, hG1, fun x hx => Or.inl (hG2 x hx)⟩,
        fun _ => ⟨G, hG1, fun x hx => Or.inl (hG2 x hx)⟩, by simp⟩
      intro x hx hn
      have : a ≠ x := by rintro rfl; exact hn (by rw [rb.foot]; exact Or.inl rfl)
      simp [Heap.mapDel, this]
    | set =>
      dsimp only
      cases hov : opVal op.value with
      | nil => exact Post.err hr
      | other => exact Post.err hr
      | prim p =>
        refine rb.post_ok _ (.leaf p op.ts) _ _ ?_ Rep.leaf (by simp) ?_ (Heap.mapSet_self rb.cell _ _)
        · simp [Heap.mapSet_length]
        · intro x _ _ hne; exact Heap.mapSet_ne hne _ _
  | cons p1 rest =>
    rcases hchild with ⟨c, tc, hc, htc, hrc⟩ | ⟨hc, htc, hFc⟩
    · cases c with
      | leaf p s =>
        obtain ⟨rfl, -⟩ := hrc.inv_leaf
        rw [applyTraverse, applyT]
        simp only [hget, hc, htc]
        exact Post.panic hr
      | null =>
        obtain ⟨rfl, -⟩ := hrc.inv_null
        rw [applyTraverse, applyT]
        simp only [hget, hc, htc]
        cases hcls : op.kind.cls with
        | set =>
          dsimp only
          cases atoi p1 with
          | some i => exact refine_objNew ih rb _ _ _ fun h' hh =>
              (Rep.mk_arr hh (Nat.zero_le _) RepL.nil (by simp)).congr (by simp)
          | none => exact refine_objNew ih rb _ _ _ fun h' hh =>
              (Rep.mk_obj hh (tm := []) rfl (by simp [mkeys]) RepL.nil (by simp)).congr (by simp)
        | _ => exact Post.err hr
      | arr b n =>
        obtain ⟨l, tl, F₁, rfl, -⟩ := hrc.inv_arr
        exact refine_objArr ih hr rb hc htc hrc
      | obj b =>
        obtain ⟨mb, tb, F₁, rfl, -⟩ := hrc.inv_obj
        rw [applyTraverse, applyT]
        simp only [hget, hc, htc]
        rw [assignFieldT_eq]
        have P := ih h _ _ _ hrc
        refine assignField_post rb _ _ _ P.len (fun x hx hnc _ => P.frame x hx hnc) m ?_ (fun _ => rfl)
          P.out ?_
        · rw [P.frame a halt rb.nfc]; exact rb.cell
        · intro hp
          obtain ⟨G, hG1, hG2⟩ := P.old (Or.inl ⟨b, rfl⟩)
          exact ⟨.obj b, G, hG1, hG2, (mset_mget_self _ _ _ hc).symm⟩
    · rw [applyTraverse, applyT]
      simp only [hget, hc, htc]
      cases hcls : op.kind.cls with
      | set =>
        dsimp only
        cases atoi p1 with
        | some i => exact refine_objNew ih rb _ _ _ fun h' hh =>
            (Rep.mk_arr hh (Nat.zero_le _) RepL.nil (by simp)).congr (by simp)
        | none => exact refine_objNew ih rb _ _ _ fun h' hh =>
            (Rep.mk_obj hh (tm := []) rfl (by simp [mkeys]) RepL.nil (by simp)).congr (by simp)
      | _ => exact Post.err hr

theorem refine_arr {op : Op} {part : Bytes} {rest : List Bytes}
    (ih : ∀ (h : Heap) v t F, Rep h v t F →
      Post h v F (applyTraverse h v rest op) (applyT t rest op))
    {h : Heap} {b n : Nat} {t : Tson} {F : Foot} (hr : Rep h (.arr b n) t F) :
    Post h (.arr b n) F (applyTraverse h (.arr b n) (part :: rest) op)
      (applyT t (part :: rest) op) := by
  obtain ⟨l₀, l, F₁, rfl, g1, g2, g3, g4, g5, g6⟩ := hr.inv_arr
  have hblt : b < h.length := (List.getElem?_eq_some_iff.1 g1).1
  have hFlt := hr.lt
  rw [applyTraverse, applyT]
  cases hat : atoi part with
  | none => exact Post.err hr
  | some idx =>
    dsimp only
    rw [g3]
    by_cases hidx : (n : Int) ≤ idx
    · simp only [hidx, if_true]
      have hold : ∀ h' : Heap, (∀ x, x < h.length → h'[x]? = h[x]?) → h.length ≤ h'.length →
          Post h (.arr b n) F (h', .err) (.arr l, .err) := by
        intro h' hf hl
        exact ⟨hl, fun x hx _ => hf x hx, trivial,
          fun _ => ⟨F, hr.frame fun x hx => hf x (hFlt x hx), fun x hx => Or.inl hx⟩, by simp⟩
      have hal : ∀ c, Post h (.arr b n) F (h.alloc c, .err) (.arr l, .err) := fun c =>
        hold _ (fun x hx => Heap.alloc_old hx c) (by rw [Heap.alloc_length]; omega)
      cases hcls : op.kind.cls with
      | set =>
        dsimp only
        cases rest with
        | nil =>
          dsimp only
          cases hov : opVal op.value with
          | nil => exact hal _
          | other => exact hal _
          | prim p =>
            dsimp only
            obtain ⟨G, hG1, hG2⟩ := hr.arrExtend (idx.toNat + 1) (by omega)
            have hf : ∀ c i v x, x < h.length →
                ((h.alloc c).backSet h.length i v)[x]? = h[x]? := by
              intro c i v x hx
              rw [Heap.backSet_ne (by omega), Heap.alloc_old hx]
            refine ⟨?_, fun x hx _ => hf _ _ _ x hx, ⟨G, hG1 _ (fun x hx _ _ => hf _ _ _ x hx) _ _ _
              (Heap.backSet_self (Heap.alloc_new _ _) _ _) (by omega) Rep.leaf, hG2⟩, ?_, by simp⟩
            · simp [Heap.backSet_length, Heap.alloc_length]
            · rintro (⟨a, ha⟩ | ha)
              · cases ha
              · simp [Res.isOk] at ha
        | cons p1 rest =>
          dsimp only
          have hel : Heap.elemAt (h.alloc (.back (extendTo (h.elems b n) (idx.toNat + 1))))
              h.length idx.toNat = .null := by
            unfold Heap.elemAt
            rw [Heap.getBack_eq (Heap.alloc_new _ _)]
            simp only [extendTo, Heap.elems, Heap.getBack_eq g1]
            rw [List.getElem?_append_right (by simp; omega)]
            simp only [List.getElem?_replicate]
            split <;> rfl
          rw [hel, applyTraverse_null]
          simp only [assignElem]
          refine hold _ (fun x hx => ?_) ?_
          · rw [Heap.backSet_ne (by omega), Heap.alloc_old hx]
          · rw [Heap.backSet_length, Heap.alloc_length]; omega
      | _ => exact Post.err hr
    · simp only [hidx, if_false]
      cases rest with
      | nil =>
        dsimp only
        cases hcls : op.kind.cls with
        | unimplemented => exact Post.err hr
        | unknown => exact Post.err hr
        | remove =>
          dsimp only
          by_cases hneg : idx < 0
          · simp only [hneg, if_true]; exact Post.panic hr
          · simp only [hneg, if_false]
            obtain ⟨G, hG1, hG2⟩ := hr.arrErase idx.toNat (by omega)
            refine ⟨by simp, ?_, ⟨G, hG1, fun x hx => Or.inl (hG2 x hx)⟩, ?_, by simp⟩
            · intro x hx hn
              have : b ≠ x := by rintro rfl; exact hn (by rw [g6]; exact Or.inl rfl)
              simp [this]
            · rintro (⟨a, ha⟩ | ha)
              · cases ha
              · simp [Res.isOk] at ha
        | set =>
          dsimp only
          cases hov : opVal op.value with
          | nil => exact Post.err hr
          | other => exact Post.err hr
          | prim p =>
            dsimp only
            by_cases hneg : idx < 0
            · simp only [hneg, if_true]; exact Post.panic hr
            · simp only [hneg, if_false]
              obtain ⟨l', tl', c, tc, Fe, Fs, he, q1, q2, q3, q4, q5, q6, q7, q8, q9, q10⟩ :=
                hr.arrFocus idx.toNat (by omega)
              cases he
              have hR := q10 (h.backSet b idx.toNat (.leaf p op.ts)) (.leaf p op.ts) (.leaf p op.ts) _
                Rep.leaf (fun x hx => Heap.backSet_ne (by rintro rfl; exact q7 hx) _ _) (by simp)
                (by simp [Disj]) (Heap.backSet_self q2 _ _)
              refine ⟨by simp [Heap.backSet_length], ?_, ⟨_, hR, ?_⟩, ?_, by simp⟩
              · intro x hx hn
                exact Heap.backSet_ne (by rintro rfl; exact hn (by rw [g6]; exact Or.inl rfl)) _ _
              · rw [q9]; rintro x (hx | hx | hx)
                · exact Or.inl (Or.inl hx)
                · exact hx.elim
                · exact Or.inl (Or.inr (Or.inr hx))
              · rintro (⟨a, ha⟩ | ha)
                · cases ha
                · simp [Res.isOk] at ha
      | cons p1 rest =>
        dsimp only
        by_cases hneg : idx < 0
        · simp only [hneg, if_true]; exact Post.panic hr
        · simp only [hneg, if_false]
          obtain ⟨l', tl', c, tc, Fe, Fs, he, q1, q2, q3, q4, q5, q6, q7, q8, q9, q10⟩ :=
            hr.arrFocus idx.toNat (by omega)
          cases he
          have hel : h.elemAt b idx.toNat = c := by
            simp [Heap.elemAt, Heap.getBack_eq q2, q3]
          rw [hel, q4]
          dsimp only [Option.getD_some]
          have P := ih h c tc Fe q5
          have hFe : ∀ x, Fe x → F x := fun x hx => by rw [q9]; exact Or.inr (Or.inl hx)
          have hFs : ∀ x, Fs x → F x := fun x hx => by rw [q9]; exact Or.inr (Or.inr hx)
          have hbF : F b := by rw [q9]; exact Or.inl rfl
          obtain ⟨hlen, hframe, hout, hold, -⟩ := P
          revert hlen hframe hout hold
          generalize applyTraverse h c (p1 :: rest) op = R
          generalize applyT tc (p1 :: rest) op = T
          obtain ⟨h', r⟩ := R
          obtain ⟨o, r'⟩ := T
          intro hlen hframe hout hold
          dsimp only at hlen hframe hout hold
          have hcellB : h'[b]? = some (.back l') := by
            rw [hframe b hblt q6]; exact q2
          have mk : ∀ (h'' : Heap) w s G, Rep h'' w s G → (∀ x, G x → Fe x ∨ h.length ≤ x) →
              (∀ x, x < h.length → ¬ Fe x → x ≠ b → h''[x]? = h[x]?) →
              h''[b]? = some (.back (l'.set idx.toNat w)) →
              ∃ G', Rep h'' (.arr b n) (.arr (l.set idx.toNat s)) G' ∧
                ∀ x, G' x → F x ∨ h.length ≤ x := by
            intro h'' w s G hw hG hf hb
            refine ⟨_, q10 h'' w s G hw ?_ ?_ ?_ hb, ?_⟩
            · intro x hx
              exact hf x (hFlt x (hFs x hx)) (fun hc => q8 x hc hx) (by rintro rfl; exact q7 hx)
            · intro hx
              rcases hG b hx with hx | hx
              · exact q6 hx
              · omega
            · intro x hx hs
              rcases hG x hx with hx | hx
              · exact q8 x hx hs
              · have := hFlt x (hFs x hs); omega
            · rintro x (hx | hx | hx)
              · subst hx; exact Or.inl hbF
              · rcases hG x hx with hx | hx
                · exact Or.inl (hFe x hx)
                · exact Or.inr hx
              · exact Or.inl (hFs x hx)
          have hfs : ∀ w x, x < h.length → ¬ Fe x → x ≠ b → (h'.backSet b idx.toNat w)[x]? = h[x]? := by
            intro w x hx hnc hne
            rw [Heap.backSet_ne hne]; exact hframe x hx hnc
          have hfF : ∀ w x, x < h.length → ¬ F x → (h'.backSet b idx.toNat w)[x]? = h[x]? := by
            intro w x hx hn
            exact hfs w x hx (fun hc => hn (hFe x hc)) (by rintro rfl; exact hn hbF)
          cases r with
          | ok w =>
            cases r' with
            | ok s =>
              obtain ⟨G, hG1, hG2⟩ := hout
              obtain ⟨G', hR1, hR2⟩ := mk (h'.backSet b idx.toNat w) w s G (hG1.frame fun x hx =>
                Heap.backSet_ne (by
                  rintro rfl
                  rcases hG2 x hx with hx | hx
                  · exact q6 hx
                  · omega) _ _) hG2 (hfs w) (Heap.backSet_self hcellB _ _)
              refine ⟨by simpa [Heap.backSet_length, assignElem] using hlen, hfF w, ⟨G', hR1, hR2⟩,
                fun _ => ⟨G', hR1, hR2⟩, by simp⟩
            | err => exact hout.elim
            | panic => exact hout.elim
          | err =>
            cases r' with
            | err =>
              obtain ⟨G', hR1, hR2⟩ := mk (h'.backSet b idx.toNat .null) .null .null _ Rep.null
                (by simp) (hfs .null) (Heap.backSet_self hcellB _ _)
              exact ⟨by simpa [Heap.backSet_length, assignElem] using hlen, hfF .null, trivial,
                fun _ => ⟨G', hR1, hR2⟩, by simp⟩
            | ok => exact hout.elim
            | panic => exact hout.elim
          | panic =>
            cases r' with
            | panic =>
              obtain ⟨G, hG1, hG2⟩ := hold (Or.inr rfl)
              have hset : l'.set idx.toNat c = l' := by
                obtain ⟨hl, rfl⟩ := List.getElem?_eq_some_iff.1 q3
                simp
              obtain ⟨G', hR1, hR2⟩ := mk h' c o G hG1 hG2 (fun x hx hnc _ => hframe x hx hnc)
                (by rw [hset]; exact hcellB)
              exact ⟨hlen, fun x hx hn => hframe x hx (fun hc => hn (hFe x hc)), trivial,
                fun _ => ⟨G', hR1, hR2⟩, by simp⟩
            | ok => exact hout.elim
            | err => exact hout.elim

/-- The heap implementation refines the tree description. -/
theorem refine_applyTraverse (op : Op) (parts : List Bytes) :
    ∀ (h : Heap) v t F, Rep h v t F →
      Post h v F (applyTraverse h v parts op) (applyT t parts op) := by
  induction parts with
  | nil =>
    intro h v t F hr
    simp only [applyTraverse, applyT]
    exact Post.ok hr
  | cons part rest ih =>
    intro h v t F hr
    cases v with
    | null =>
      obtain ⟨rfl, -⟩ := hr.inv_null
      simp only [applyTraverse, applyT]
      exact Post.err hr
    | leaf p s =>
      obtain ⟨rfl, -⟩ := hr.inv_leaf
      simp only [applyTraverse, applyT]
      exact Post.ok hr
    | obj a => exact refine_obj ih hr
    | arr b n => exact refine_arr ih hr

end Verif
