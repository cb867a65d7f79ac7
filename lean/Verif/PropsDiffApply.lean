import Verif.PropsDiffOps
import Verif.PropsReplay
/-
Property C31: applying a generated patch.
-/
namespace Verif

theorem opVal_toGo (p : Prim) : opVal p.toGo = .prim p := by cases p <;> rfl

theorem EqDoc.sameVals {a b : Tson} {wt : Bool} (h : EqDoc wt a b) : SameVals a b := by
  induction h with
  | null => exact .null
  | leaf p q t u h1 h2 =>
    refine .leaf _ _ _ _ ?_
    cases h1 with
    | str s => exact Or.inl rfl
    | num a b h => exact Or.inr ⟨a, b, rfl, rfl, h⟩
    | bool b => exact Or.inl rfl
  | obj m n h1 h2 ih => exact .obj _ _ h1 ih
  | arr l k h1 h2 ih => exact .arr _ _ h1 ih

/-- The path of an operation does not matter to `applyTraverse`. -/
theorem applyT_path (op : Op) (p : Bytes) (ks : List Bytes) : ∀ t, applyT t ks { op with path := p } = applyT t ks op := by
  induction ks with
  | nil => intro t; rfl
  | cons k ks ih =>
    intro t
    unfold applyT
    simp only [ih]

/-- Applying located operations to an object, one after another. -/
inductive Run : List (Bytes × Tson) → List (List Bytes × Op) → List (Bytes × Tson) → Prop
  | nil (m) : Run m [] m
  | cons (m m1 m2 ks o L) : applyT (.obj m) ks o = (.obj m1, .ok (.obj m1)) → Run m1 L m2 → Run m ((ks, o) :: L) m2

theorem Run.append {m m1 m2 L L'} (h : Run m L m1) (h' : Run m1 L' m2) : Run m (L ++ L') m2 := by
  induction h with
  | nil => exact h'
  | cons _ _ _ _ _ _ h1 _ ih => exact .cons _ _ _ _ _ _ h1 (ih h')

theorem Run.lift {mb mb' L} (h : Run mb L mb') : ∀ {m : List (Bytes × Tson)} {k : Bytes}, (∀ x ∈ L, x.1 ≠ []) →
    mget m k = some (.obj mb) →
    ∃ m', Run m (L.map fun x => (k :: x.1, x.2)) m' ∧ mget m' k = some (.obj mb') ∧
      ∀ j, j ≠ k → mget m' j = mget m j := by
  induction h with
  | nil mb => intro m k _ hm; exact ⟨m, .nil _, hm, fun _ _ => rfl⟩
  | cons mb mb1 mb2 ks o L h1 _ ih =>
    intro m k hne hm
    obtain ⟨p, ps, rfl⟩ : ∃ p ps, ks = p :: ps := by
      cases ks with
      | nil => exact absurd rfl (hne ([], o) (by simp))
      | cons p ps => exact ⟨p, ps, rfl⟩
    have he : applyT (.obj m) (k :: p :: ps) o = (.obj (mset m k (.obj mb1)), .ok (.obj (mset m k (.obj mb1)))) := by
      rw [applyT]; simp only [hm]; rw [h1]; rfl
    obtain ⟨m', h2, h3, h4⟩ := ih (m := mset m k (.obj mb1)) (fun x hx => hne x (by simp [hx])) (mget_mset_self _ _ _)
    refine ⟨m', .cons _ _ _ _ _ _ he h2, h3, fun j hj => ?_⟩
    rw [h4 j hj, mget_mset_ne _ _ hj]

theorem Run.replay {m m' L} (f : Op → Bytes) (h : Run m L m') : (Tson.obj m).Wf →
    (∀ x ∈ L, writeParts (f x.2) = x.1) →
    Verif.replay (.obj m) (L.map fun x => { x.2 with path := f x.2 }) = .ok (.obj m') := by
  induction h with
  | nil => intro _ _; rfl
  | cons m m1 m2 ks o L h1 _ ih =>
    intro hw hL
    have hT : (applyOpT (.obj m) { o with path := f o }).2 = .ok (.obj m1) := by
      unfold applyOpT
      rw [applyT_path]
      dsimp only
      rw [hL (ks, o) (by simp), h1]
    simp only [List.map_cons, Verif.replay, applyDoc_eq hw, hT, Res.bind_ok]
    exact ih (applyOpT_wf hw _ hT) fun x hx => hL x (by simp [hx])

/-- The operations `ops` at `path` with their locations relative to `path`, all spelled with plain keys. -/
def At (path : Bytes) (ops : List Op) (L : List (List Bytes × Op)) : Prop :=
  L.map Prod.snd = ops ∧ ∀ x ∈ L, x.1 ≠ [] ∧ (∀ k ∈ x.1, PlainKey k) ∧ x.2.path = path ++ pointer x.1

theorem At.nil (path : Bytes) : At path [] [] := ⟨rfl, by simp⟩

theorem At.append {path o1 o2 L1 L2} (h1 : At path o1 L1) (h2 : At path o2 L2) : At path (o1 ++ o2) (L1 ++ L2) := by
  refine ⟨by rw [List.map_append, h1.1, h2.1], fun x hx => ?_⟩
  rcases List.mem_append.1 hx with hx | hx
  · exact h1.2 x hx
  · exact h2.2 x hx

theorem At.lift {path k ops L} (hk : PlainKey k) (h : At (path ++ pointer [k]) ops L) :
    At path ops (L.map fun x => (k :: x.1, x.2)) := by
  refine ⟨by rw [List.map_map, ← h.1]; rfl, fun x hx => ?_⟩
  obtain ⟨y, hy, rfl⟩ := List.mem_map.1 hx
  obtain ⟨h1, h2, h3⟩ := h.2 y hy
  refine ⟨by simp, ?_, ?_⟩
  · intro k' hk'
    rcases List.mem_cons.1 hk' with rfl | hk'
    · exact hk
    · exact h2 k' hk'
  · dsimp only; rw [h3, pointer_cons k y.1, List.append_assoc]

theorem At.single {path k : Bytes} {kind v ts} (hp : GoodPath path) (hk : PlainKey k) :
    At path [⟨kind, makePath path k, v, ts⟩] [([k], ⟨kind, makePath path k, v, ts⟩)] := by
  refine ⟨rfl, fun x hx => ?_⟩
  simp at hx; subst hx
  exact ⟨by simp, by simpa using hk, (makePath_eq hp hk.1).1⟩

theorem PlainDoc.member {m : List (Bytes × Tson)} (h : PlainDoc (.obj m)) {k : Bytes} {v : Tson}
    (hv : mget m k = some v) : PlainDoc v :=
  ⟨fun ks n hn => h.keys (k :: ks) n (reaches_obj.2 ⟨v, hv, hn⟩),
   fun ks l hl => h.arrays (k :: ks) l (reaches_obj.2 ⟨v, hv, hl⟩)⟩

theorem natDigits_plain (i : Nat) : PlainKey (natDigits i) := by
  have h := natDigits_isDigit i
  rw [List.all_eq_true] at h
  refine ⟨natDigits_ne_nil i, fun hm => ?_, fun hm => ?_⟩
  · have := h _ hm; revert this; decide
  · have := h _ hm; revert this; decide

/-- Removing the members only in the original. -/
theorem removeOps_run {path : Bytes} (hp : GoodPath path) {n : List (Bytes × Tson)} (m : List (Bytes × Tson)) :
    ∀ {ops s}, (∀ k ∈ mkeys m, PlainKey k) → removeOps path n m = .ok ops →
    ∃ L s', At path ops L ∧ Run s L s' ∧ (∀ k, k ∈ mkeys m → mget n k = none → mget s' k = none) ∧
      (∀ k, mget s' k = mget s k ∨ mget n k = none ∧ mget s' k = none) := by
  induction m with
  | nil =>
    intro ops s _ h
    simp only [removeOps, Res.ok.injEq] at h
    subst h
    exact ⟨[], s, .nil _, .nil _, by simp [mkeys], fun k => Or.inl rfl⟩
  | cons kv m ih =>
    intro ops s hpk h
    obtain ⟨k, v⟩ := kv
    have hk := hpk k (by simp [mkeys])
    have hpk' : ∀ k ∈ mkeys m, PlainKey k := fun k' hk' => hpk k' (by
      simp only [mkeys, List.map_cons, List.mem_cons]; exact Or.inr hk')
    simp only [removeOps] at h
    cases hn : mget n k with
    | some w =>
      rw [hn] at h
      obtain ⟨L, s', h1, h2, h3, h4⟩ := ih (s := s) hpk' h
      refine ⟨L, s', h1, h2, fun k' hk' hn' => ?_, h4⟩
      simp only [mkeys, List.map_cons, List.mem_cons] at hk'
      rcases hk' with rfl | hk'
      · rw [hn] at hn'; cases hn'
      · exact h3 k' hk' hn'
    | none =>
      rw [hn] at h
      have hcons : ∀ ts, (removeOps path n m).map ((⟨.remove, makePath path k, .nil, ts⟩ : Op) :: ·) = .ok ops →
          ∃ L s', At path ops L ∧ Run s L s' ∧ (∀ k', k' ∈ mkeys ((k, v) :: m) → mget n k' = none → mget s' k' = none) ∧
            (∀ k, mget s' k = mget s k ∨ mget n k = none ∧ mget s' k = none) := by
        intro ts h
        rw [Res.map_eq_ok] at h
        obtain ⟨r, h1, rfl⟩ := h
        obtain ⟨L, s', e1, e2, e3, e4⟩ := ih (s := mdel s k) hpk' h1
        have hk4 : mget s' k = none := by
          rcases e4 k with e4 | e4
          · rw [e4, mget_mdel_self]
          · exact e4.2
        refine ⟨_, s', (At.single hp hk).append e1, ?_, ?_, ?_⟩
        · exact .cons _ (mdel s k) _ _ _ _ (by simp [applyT, OpKind.cls]) e2
        · intro k' hk' hn'
          simp only [mkeys, List.map_cons, List.mem_cons] at hk'
          rcases hk' with rfl | hk'
          · exact hk4
          · exact e3 k' hk' hn'
        · intro k'
          by_cases hkk : k' = k
          · subst hkk; exact Or.inr ⟨hn, hk4⟩
          · rw [← mget_mdel_ne s hkk]; exact e4 k'
      cases v with
      | null => simp at h
      | leaf p ts => exact hcons ts h
      | obj _ => exact hcons 0 h
      | arr _ => exact hcons 0 h

theorem SameContent.refl {wt : Bool} (t : Tson) : SameContent wt t t := by
  induction t using Tson.induction with
  | null => exact .null
  | leaf p ts => exact .leaf _ _ _ _ (Or.inl rfl) fun _ => rfl
  | obj m ih =>
    refine .obj _ _ (fun _ => rfl) fun k v w hv hw => ?_
    rw [hv] at hw; cases hw
    exact ih (k, v) (mget_mem hv)
  | arr l ih =>
    refine .arr _ _ rfl fun i v w hv hw => ?_
    rw [hv] at hw; cases hw
    exact ih v (List.mem_of_getElem? hv)

theorem EqDoc.sameContent {a b : Tson} {wt : Bool} (h : EqDoc wt a b) : SameContent wt a b := by
  induction h with
  | null => exact .null
  | leaf p q t u h1 h2 => exact .leaf _ _ _ _ (Or.inr h1) h2
  | obj m n h1 h2 ih => exact .obj _ _ h1 ih
  | arr l k h1 h2 ih => exact .arr _ _ h1 ih

theorem SameContent.sameVals {a b : Tson} {wt : Bool} (h : SameContent wt a b) : SameVals a b := by
  induction h with
  | null => exact .null
  | leaf p q t u h1 h2 =>
    rcases h1 with rfl | h1
    · exact SameVals.leaf _ _ _ _ (Or.inl rfl)
    · exact EqDoc.sameVals (wt := false) (.leaf _ _ t u h1 (by simp))
  | obj m n h1 h2 ih => exact .obj _ _ h1 ih
  | arr l k h1 h2 ih => exact .arr _ _ h1 ih

/-- A leaf for which no operation is generated. -/
theorem unchanged_leaf {wt : Bool} {p q : Prim} {t u : Int} (h : (Prim.goEq p q && (!wt || decide (t = u))) = true) :
    SameContent wt (.leaf p t) (.leaf q u) := by
  simp only [Bool.and_eq_true, Bool.or_eq_true, decide_eq_true_eq] at h
  refine .leaf _ _ _ _ (Or.inr (goEq_iff.1 h.1)) fun hw => ?_
  subst hw
  simpa using h.2

/-- Writing the elements of an array of leaves. -/
theorem handleElems_run {wt : Bool} {path key : Bytes} (hp : GoodPath (path ++ pointer [key])) (hkey : PlainKey key) (k : List Tson) :
    ∀ {l : List Tson} {i : Nat} {ops s cur}, (∀ w ∈ k, ∃ p ts, w = .leaf p ts) → l.length = k.length →
    (∀ j v, l[j]? = some v → cur[i + j]? = some v) → i + l.length = cur.length → (cur.length : Int) ≤ maxInt64 →
    mget s key = some (.arr cur) → handleElems wt l k (path ++ pointer [key]) i = .ok ops →
    ∃ L s' cur', At path ops L ∧ Run s L s' ∧ mget s' key = some (.arr cur') ∧
      (∀ j, j ≠ key → mget s' j = mget s j) ∧ cur'.length = cur.length ∧ (∀ j, j < i → cur'[j]? = cur[j]?) ∧
      ∀ j w c, k[j]? = some w → cur'[i + j]? = some c → SameContent wt c w := by
  induction k with
  | nil =>
    intro l i ops s cur _ _ _ _ _ hs h
    simp only [handleElems, Res.ok.injEq] at h
    subst h
    exact ⟨[], s, cur, .nil _, .nil _, hs, fun _ _ => rfl, rfl, fun _ _ => rfl, by simp⟩
  | cons w k ih =>
    intro l i ops s cur hleaf hlen hcur hlen2 hmax hs h
    cases l with
    | nil => simp at hlen
    | cons v l =>
      rw [handleElems] at h
      obtain ⟨p1, p2, e1, e2, rfl⟩ := Res.append_ok h
      obtain ⟨q, u, rfl⟩ := hleaf w (by simp)
      have hv := hcur 0 v rfl
      simp only [Nat.add_zero] at hv
      have hi := (List.getElem?_eq_some_iff.1 hv).1
      have hat : atoi (natDigits i) = some (i : Int) := atoi_natDigits (by omega)
      rw [makePathIdx, (makePath_eq hp (natDigits_ne_nil i)).1] at e1
      -- one element
      have one : ∃ L s1 cur1, At path p1 L ∧ Run s L s1 ∧ mget s1 key = some (.arr cur1) ∧
          (∀ j, j ≠ key → mget s1 j = mget s j) ∧ cur1.length = cur.length ∧ (∀ j, j ≠ i → cur1[j]? = cur[j]?) ∧
          ∃ c, cur1[i]? = some c ∧ SameContent wt c (.leaf q u) := by
        have hset : ∀ kind : OpKind, kind.cls = .set → p1 = [⟨kind, path ++ pointer [key] ++ pointer [natDigits i], q.toGo, u⟩] →
            ∃ L s1 cur1, At path p1 L ∧ Run s L s1 ∧ mget s1 key = some (.arr cur1) ∧
            (∀ j, j ≠ key → mget s1 j = mget s j) ∧ cur1.length = cur.length ∧ (∀ j, j ≠ i → cur1[j]? = cur[j]?) ∧
            ∃ c, cur1[i]? = some c ∧ SameContent wt c (.leaf q u) := by
          intro kind hkind hp1
          have ha : applyT (.obj s) [key, natDigits i]
              ⟨kind, path ++ pointer [key] ++ pointer [natDigits i], q.toGo, u⟩ =
              (.obj (mset s key (.arr (cur.set i (.leaf q u)))), .ok (.obj (mset s key (.arr (cur.set i (.leaf q u)))))) := by
            have h1 : ¬ (cur.length : Int) ≤ i := by omega
            have h2 : ¬ ((i : Int) < 0) := by omega
            simp only [applyT, hs, hat, hkind, opVal_toGo]
            rw [if_neg h1, if_neg h2]
            simp
          refine ⟨[([key, natDigits i], _)], _, cur.set i (.leaf q u), ⟨hp1 ▸ rfl, ?_⟩, .cons _ _ _ _ _ _ ha (.nil _),
            mget_mset_self _ _ _, fun j hj => mget_mset_ne _ _ hj, by simp, ?_, .leaf q u, by simp [hi], SameContent.refl _⟩
          · intro x hx
            simp at hx; subst hx
            refine ⟨by simp, ?_, ?_⟩
            · intro k' hk'
              simp at hk'
              rcases hk' with rfl | rfl
              · exact hkey
              · exact natDigits_plain i
            · simp [pointer]
          · intro j hj
            rw [List.getElem?_set_ne (Ne.symm hj)]
        cases v with
        | leaf p t =>
          simp only [handleValues] at e1
          split at e1
          · cases e1
          · split at e1
            · rename_i hc
              simp only [Res.ok.injEq] at e1
              subst e1
              refine ⟨[], s, cur, .nil _, .nil _, hs, fun _ _ => rfl, rfl, fun _ _ => rfl, _, hv, ?_⟩
              exact unchanged_leaf hc
            · simp only [Res.ok.injEq] at e1
              exact hset _ rfl e1.symm
        | null =>
          simp only [handleValues, Res.ok.injEq] at e1
          exact hset _ rfl e1.symm
        | obj m => simp [handleValues] at e1
        | arr l =>
          simp only [handleValues, Res.ok.injEq] at e1
          exact hset _ rfl e1.symm
      obtain ⟨L1, s1, cur1, a1, a2, a3, a4, a5, a6, c, a7, a8⟩ := one
      obtain ⟨L2, s2, cur2, b1, b2, b3, b4, b5, b6, b7⟩ := ih (l := l) (i := i + 1) (s := s1) (cur := cur1)
        (fun w hw => hleaf w (by simp [hw])) (by simpa using hlen)
        (fun j v hj => by
          rw [a6 _ (by omega)]
          have := hcur (j + 1) v (by simpa using hj)
          rw [← this]; congr 1; omega)
        (by simp at hlen2; omega) (by omega) a3 e2
      refine ⟨L1 ++ L2, s2, cur2, a1.append b1, a2.append b2, b3, fun j hj => (b4 j hj).trans (a4 j hj), by omega, ?_, ?_⟩
      · intro j hj
        rw [b6 j (by omega), a6 j (by omega)]
      · intro j w c' hj hc'
        cases j with
        | zero =>
          simp at hj; subst hj
          rw [Nat.add_zero, b6 i (by omega), a7] at hc'
          cases hc'
          exact a8
        | succ j =>
          refine b7 j w c' (by simpa using hj) ?_
          rw [← hc']; congr 1; omega

theorem handleValues_run {wt : Bool} (b : Tson) : ∀ {n m : List (Bytes × Tson)} {path : Bytes} {ops : List Op}, b = .obj n →
    (Tson.obj m).Wf → b.Wf → PlainDoc (.obj m) → PlainDoc b → FlatArrays wt (.obj m) b → GoodPath path →
    handleValues wt (.obj m) b path = .ok ops →
    ∃ L m', At path ops L ∧ Run m L m' ∧ SameContent wt (.obj m') b := by
  induction b using Tson.induction with
  | null => intro n m path ops he; cases he
  | leaf q u => intro n m path ops he; cases he
  | arr k ih => intro n m path ops he; cases he
  | obj n ih =>
    intro n1 m path ops he ha hb hna hnb hfl hp h
    simp only [handleValues] at h
    obtain ⟨o1, o2, h1, h2, rfl⟩ := Res.append_ok h
    have hwm := (Tson.wfF_iff m).1 ha.2
    have hwn := (Tson.wfF_iff n).1 hb.2
    have hkm := hna.keys [] m (.here _)
    have hkn := hnb.keys [] n (.here _)
    have key : ∀ (n' : List (Bytes × Tson)) (o1 : List Op) (s : List (Bytes × Tson)), (mkeys n').Nodup →
        (∀ kw ∈ n', kw ∈ n) → (∀ k ∈ mkeys n', mget s k = mget m k) → diffMembers wt m n' path = .ok o1 →
        ∃ L s', At path o1 L ∧ Run s L s' ∧ (∀ k, k ∉ mkeys n' → mget s' k = mget s k) ∧
          ∀ kw ∈ n', ∃ c, mget s' kw.1 = some c ∧ SameContent wt c kw.2 := by
      intro n'
      induction n' with
      | nil =>
        intro o1 s _ _ _ h
        simp only [diffMembers, Res.ok.injEq] at h
        subst h
        exact ⟨[], s, .nil _, .nil _, fun _ _ => rfl, by simp⟩
      | cons kw n' ihn =>
        intro o1 s hnd hsub hst h
        obtain ⟨k, w⟩ := kw
        have hnd' := List.nodup_cons.1 hnd
        rw [diffMembers] at h
        obtain ⟨p1, p2, e1, e2, rfl⟩ := Res.append_ok h
        have hmem := hsub (k, w) (by simp)
        have hw := mem_mget hb.1 hmem
        have hk : PlainKey k := hkn k (mget_isSome.1 ⟨w, hw⟩)
        obtain ⟨hp1, hp2⟩ := makePath_eq hp hk.1
        have hbw : ∀ ks u, Reaches (.obj n) (k :: ks) u ↔ Reaches w ks u := by
          intro ks u; rw [reaches_obj, hw]; simp
        have hsk := hst k (by simp [mkeys])
        have one : ∃ L s1, At path p1 L ∧ Run s L s1 ∧ (∀ j, j ≠ k → mget s1 j = mget s j) ∧
            ∃ c, mget s1 k = some c ∧ SameContent wt c w := by
          have single : ∀ (kind : OpKind) p ts, kind.cls = .set → w = .leaf p ts →
              p1 = [⟨kind, makePath path k, p.toGo, ts⟩] →
              ∃ L s1, At path p1 L ∧ Run s L s1 ∧ (∀ j, j ≠ k → mget s1 j = mget s j) ∧
                ∃ c, mget s1 k = some c ∧ SameContent wt c w := by
            intro kind p ts hkind hw' hp1'
            subst hw'
            rw [hp1']
            exact ⟨_, mset s k (.leaf p ts), At.single hp hk,
              .cons _ _ _ _ _ _ (by simp [applyT, hkind, opVal_toGo]) (.nil _),
              fun j hj => mget_mset_ne _ _ hj, _, mget_mset_self _ _ _, SameContent.refl _⟩
          have none' : ∀ v, mget m k = some v → SameContent wt v w → p1 = [] →
              ∃ L s1, At path p1 L ∧ Run s L s1 ∧ (∀ j, j ≠ k → mget s1 j = mget s j) ∧
                ∃ c, mget s1 k = some c ∧ SameContent wt c w := by
            intro v hv hs hp1'
            subst hp1'
            exact ⟨[], s, .nil _, .nil _, fun _ _ => rfl, v, hsk.trans hv, hs⟩
          cases hv : mget m k with
          | none =>
            rw [hv] at e1
            obtain ⟨p, ts, hl, he⟩ := orErr_leafOp e1
            exact single _ p ts rfl hl he
          | some v =>
            rw [hv] at e1
            have hav : ∀ ks u, Reaches (.obj m) (k :: ks) u ↔ Reaches v ks u := by
              intro ks u; rw [reaches_obj, hv]; simp
            dsimp only at e1
            split at e1
            · obtain ⟨p, ts, hl, he⟩ := orErr_leafOp e1
              exact single _ p ts rfl hl he
            · have hwv := hwm _ (mget_mem hv)
              have hww := hwn _ hmem
              cases hww' : w with
              | null =>
                subst hww'
                cases v <;> simp [handleValues] at e1
                exact none' _ hv .null e1
              | leaf q u =>
                subst hww'
                cases v with
                | null => simp only [handleValues, Res.ok.injEq] at e1; exact single _ q u rfl rfl e1.symm
                | obj _ => simp [handleValues] at e1
                | arr _ => simp only [handleValues, Res.ok.injEq] at e1; exact single _ q u rfl rfl e1.symm
                | leaf p t =>
                  simp only [handleValues] at e1
                  split at e1
                  · cases e1
                  · split at e1
                    · rename_i hc
                      simp only [Res.ok.injEq] at e1
                      exact none' _ hv (unchanged_leaf hc) e1.symm
                    · simp only [Res.ok.injEq] at e1
                      exact single _ q u rfl rfl e1.symm
              | obj nb =>
                subst hww'
                cases v with
                | null => simp [handleValues] at e1
                | leaf p t => simp [handleValues] at e1
                | arr l => simp [handleValues] at e1
                | obj mb =>
                  rw [hp1] at e1
                  obtain ⟨L, mb', l1, l2, l3⟩ := ih (k, .obj nb) hmem rfl hwv hww (hna.member hv) (hnb.member hw)
                    (fun ks l k' h1 h2 => hfl (k :: ks) l k' ((hav _ _).2 h1) ((hbw _ _).2 h2)) hp2 e1
                  obtain ⟨s1, r1, r2, r3⟩ := l2.lift (m := s) (k := k) (fun x hx => (l1.2 x hx).1) (hsk.trans hv)
                  exact ⟨_, s1, l1.lift hk, r1, r3, _, r2, l3⟩
              | arr kk =>
                subst hww'
                cases v with
                | null => simp [handleValues] at e1
                | leaf p t => simp [handleValues] at e1
                | obj l => simp [handleValues] at e1
                | arr l =>
                  rcases hfl [k] l kk ((hav _ _).2 (.here _)) ((hbw _ _).2 (.here _)) with heq | ⟨hlen, hleaf⟩
                  · have := (handleValues_nil wt (.arr kk) (.arr l) (makePath path k) hwv hww).2 heq
                    rw [this] at e1
                    simp only [Res.ok.injEq] at e1
                    exact none' _ hv heq.sameContent e1.symm
                  · simp only [handleValues, hlen, ne_eq, not_true_eq_false, if_false, hp1] at e1
                    have hmax := hna.arrays [k] l ((hav _ _).2 (.here _))
                    obtain ⟨L, s', cur', c1, c2, c3, c4, c5, c6, c7⟩ := handleElems_run hp2 hk kk (s := s) (cur := l)
                      hleaf hlen (fun j v hj => by simpa using hj) (by simp) hmax (hsk.trans hv) e1
                    refine ⟨L, s', c1, c2, c4, .arr cur', c3, .arr _ _ (by omega) ?_⟩
                    intro i c c' hc hc'
                    exact c7 i c' c hc' (by simpa using hc)
        obtain ⟨L1, s1, a1, a2, a3, c, a4, a5⟩ := one
        have hnk : ∀ j, j ∈ mkeys n' → j ≠ k := by
          intro j hj he; subst he; exact hnd'.1 hj
        obtain ⟨L2, s2, b1, b2, b3, b4⟩ := ihn p2 s1 hnd'.2 (fun kw hkw => hsub kw (by simp [hkw]))
          (fun j hj => by
            rw [a3 j (hnk j hj)]
            exact hst j (by simp only [mkeys, List.map_cons, List.mem_cons]; exact Or.inr hj)) e2
        refine ⟨L1 ++ L2, s2, a1.append b1, a2.append b2, ?_, ?_⟩
        · intro j hj
          simp only [mkeys, List.map_cons, List.mem_cons, not_or] at hj
          rw [b3 j hj.2, a3 j hj.1]
        · intro kw hkw
          rcases List.mem_cons.1 hkw with rfl | hkw
          · exact ⟨c, by rw [b3 _ hnd'.1]; exact a4, a5⟩
          · exact b4 kw hkw
    obtain ⟨L1, s1, a1, a2, a3, a4⟩ := key n o1 m hb.1 (fun _ h => h) (fun _ _ => rfl) h1
    obtain ⟨L2, s2, b1, b2, b3, b4⟩ := removeOps_run hp m (s := s1) hkm h2
    refine ⟨L1 ++ L2, s2, a1.append b1, a2.append b2, .obj _ _ ?_ ?_⟩
    · intro k
      cases hk : mget n k with
      | some w =>
        obtain ⟨c, hc, -⟩ := a4 (k, w) (mget_mem hk)
        rcases b4 k with b4 | b4
        · rw [b4, hc]; rfl
        · rw [hk] at b4; cases b4.1
      | none =>
        have hkn' : k ∉ mkeys n := mget_eq_none.1 hk
        have hgone : mget s2 k = none := by
          by_cases hm : k ∈ mkeys m
          · exact b3 k hm hk
          · rcases b4 k with b4 | b4
            · rw [b4, a3 k hkn']; exact mget_eq_none.2 hm
            · exact b4.2
        rw [hgone]
    · intro k c c' hc hc'
      obtain ⟨c1, h3, h4⟩ := a4 (k, c') (mget_mem hc')
      rcases b4 k with b4 | b4
      · rw [b4, h3] at hc; cases hc; exact h4
      · rw [hc'] at b4; cases b4.1

/-! ### C31 -/

/-- The operation with the leading separator of its path dropped. -/
def stripSlash (o : Op) : Op := { o with path := o.path.tail }

theorem stripped_run {wt : Bool} {m n : List (Bytes × Tson)} (ha : (Tson.obj m).Wf) (hb : (Tson.obj n).Wf)
    (hpa : PlainDoc (.obj m)) (hpb : PlainDoc (.obj n)) (hfl : FlatArrays wt (.obj m) (.obj n))
    {ops : List Op} (h : handleValues wt (.obj m) (.obj n) [] = .ok ops) (hne : ops ≠ []) :
    ∃ t, patchDoc (.obj m) (ops.map stripSlash) = .ok t ∧ SameContent wt t (.obj n) := by
  obtain ⟨L, m', h1, h2, h3⟩ := handleValues_run (.obj n) rfl ha hb hpa hpb hfl (by simp [GoodPath]) h
  refine ⟨.obj m', ?_, h3⟩
  rw [patchDoc_eq ha _ (by simpa using hne), ← h1.1, List.map_map]
  refine h2.replay (fun o => o.path.tail) ha fun x hx => ?_
  obtain ⟨e1, e2, e3⟩ := h1.2 x hx
  rw [e3, List.nil_append]
  exact writeParts_pointer x.1 e1 (fun k hk => (e2 k hk).2.1) (fun k hk => (e2 k hk).2.2)

/-- C31, for the generated patch with the leading separator of each path dropped, keys without '/' and '.', and
arrays that are equal or arrays of leaves of the same length: applying it gives a document with `b`'s values.
Missing: the generated patch itself does not do that (`C31_generated_patch_violated`), and array-length changes
(`C31_array_length_fails`). -/
theorem C31_stripped_partial {m n : List (Bytes × Tson)} (ha : (Tson.obj m).Wf) (hb : (Tson.obj n).Wf)
    (hpa : PlainDoc (.obj m)) (hpb : PlainDoc (.obj n)) (hfl : FlatArrays false (.obj m) (.obj n))
    {ops : List Op} (h : generatePatch (.obj m) (.obj n) = .ok ops) (hne : ops ≠ []) :
    ∃ t, patchDoc (.obj m) (ops.map stripSlash) = .ok t ∧ SameVals t (.obj n) := by
  obtain ⟨t, h1, h2⟩ := stripped_run ha hb hpa hpb hfl h hne
  exact ⟨t, h1, h2.sameVals⟩

/-- C31 for `GeneratePatchWithTimestamp`: the result also has `b`'s timestamps.  Missing as in `C31_stripped_partial`
(`C31_times_violated`, `C31_times_length_fails`). -/
theorem C31_times_partial {m n : List (Bytes × Tson)} (ha : (Tson.obj m).Wf) (hb : (Tson.obj n).Wf)
    (hpa : PlainDoc (.obj m)) (hpb : PlainDoc (.obj n)) (hfl : FlatArrays true (.obj m) (.obj n))
    {ops : List Op} (h : generatePatchWithTimestamp (.obj m) (.obj n) = .ok ops) (hne : ops ≠ []) :
    ∃ t, patchDoc (.obj m) (ops.map stripSlash) = .ok t ∧ SameContent true t (.obj n) :=
  stripped_run ha hb hpa hpb hfl h hne

theorem writeParts_pointer_slash (ks : List Bytes) (hs : ∀ k ∈ ks, bSlash ∉ k)
    (hd : ∀ k ∈ ks, bDot ∉ k) : writeParts (pointer ks) = [] :: ks := by
  have h2 : bDot ∉ pointer ks := fun h => pointer_not_mem ks hd h
  rw [← writeParts_eq_readParts _ h2]
  have : bSlash :: pointer ks = pointer ([] :: ks) := by simp [pointer, encode]
  rw [this]
  exact readParts_pointer _ (by simp) (by
    intro k hk
    rcases List.mem_cons.1 hk with rfl | hk
    · simp
    · exact hs k hk)

theorem below_run {wt : Bool} {m n : List (Bytes × Tson)} (ha : (Tson.obj m).Wf) (hb : (Tson.obj n).Wf)
    (hpa : PlainDoc (.obj m)) (hpb : PlainDoc (.obj n)) (hfl : FlatArrays wt (.obj m) (.obj n))
    {ops : List Op} (h : handleValues wt (.obj m) (.obj n) [] = .ok ops) (hne : ops ≠ []) :
    ∃ t, patchDoc (.obj [([], .obj m)]) ops = .ok t ∧ SameContent wt t (.obj [([], .obj n)]) := by
  obtain ⟨L, m', h1, h2, h3⟩ := handleValues_run (.obj n) rfl ha hb hpa hpb hfl (by simp [GoodPath]) h
  have hw : (Tson.obj [([], .obj m)]).Wf := by simpa [Tson.Wf, Tson.WfF, mkeys] using ha
  obtain ⟨s, r1, r2, r3⟩ := h2.lift (m := [([], .obj m)]) (k := []) (fun x hx => (h1.2 x hx).1) (by simp [mget])
  refine ⟨.obj s, ?_, .obj _ _ ?_ ?_⟩
  · rw [patchDoc_eq hw _ hne, ← h1.1]
    have := r1.replay Op.path hw (by
      intro x hx
      obtain ⟨y, hy, rfl⟩ := List.mem_map.1 hx
      obtain ⟨-, e2, e3⟩ := h1.2 y hy
      dsimp only
      rw [e3, List.nil_append]
      exact writeParts_pointer_slash y.1 (fun k hk => (e2 k hk).2.1) (fun k hk => (e2 k hk).2.2))
    rw [List.map_map] at this
    rw [← this]
    rfl
  · intro k
    by_cases hk : k = []
    · subst hk; rw [r2]; simp [mget]
    · rw [r3 k hk]; simp [mget, Ne.symm hk]
  · intro k c c' hc hc'
    by_cases hk : k = []
    · subst hk
      rw [r2] at hc
      simp [mget] at hc hc'
      rw [← hc, ← hc']
      exact h3
    · simp [mget, Ne.symm hk] at hc'

/-- C31, for the patch as generated, applied to a document that holds the original under the empty name: the
member with the empty name becomes a document with `b`'s values.  Missing as in `C31_stripped_partial`. -/
theorem C31_below_empty_name_partial {m n : List (Bytes × Tson)} (ha : (Tson.obj m).Wf) (hb : (Tson.obj n).Wf)
    (hpa : PlainDoc (.obj m)) (hpb : PlainDoc (.obj n)) (hfl : FlatArrays false (.obj m) (.obj n))
    {ops : List Op} (h : generatePatch (.obj m) (.obj n) = .ok ops) (hne : ops ≠ []) :
    ∃ t, patchDoc (.obj [([], .obj m)]) ops = .ok t ∧ SameVals t (.obj [([], .obj n)]) := by
  obtain ⟨t, h1, h2⟩ := below_run ha hb hpa hpb hfl h hne
  exact ⟨t, h1, h2.sameVals⟩

/-- `C31_below_empty_name_partial` for `GeneratePatchWithTimestamp`, with timestamps.  Missing as in
`C31_times_partial`. -/
theorem C31_below_times_partial {m n : List (Bytes × Tson)} (ha : (Tson.obj m).Wf) (hb : (Tson.obj n).Wf)
    (hpa : PlainDoc (.obj m)) (hpb : PlainDoc (.obj n)) (hfl : FlatArrays true (.obj m) (.obj n))
    {ops : List Op} (h : generatePatchWithTimestamp (.obj m) (.obj n) = .ok ops) (hne : ops ≠ []) :
    ∃ t, patchDoc (.obj [([], .obj m)]) ops = .ok t ∧ SameContent true t (.obj [([], .obj n)]) :=
  below_run ha hb hpa hpb hfl h hne

/-- The path starts with the separator. -/
def Slashed (path : Bytes) : Prop := ∃ r, path = bSlash :: r

theorem makePath_slashed {path : Bytes} (k : Bytes) (h : path = [] ∨ Slashed path) : Slashed (makePath path k) := by
  unfold makePath
  dsimp only
  rcases h with h | ⟨r, rfl⟩
  · rw [if_pos h]; exact ⟨_, rfl⟩
  · rw [if_neg (by simp)]
    split
    · exact ⟨_, rfl⟩
    · exact ⟨_, rfl⟩

theorem leafOp_path {kind : OpKind} {path : Bytes} {w : Tson} {o : Op} (h : leafOp kind path w = some o) : o.path = path := by
  cases w <;> simp [leafOp] at h
  rw [← h]

theorem removeOps_slashed {path : Bytes} (hp : path = [] ∨ Slashed path) {n : List (Bytes × Tson)} (m : List (Bytes × Tson)) :
    ∀ {ops}, removeOps path n m = .ok ops → ∀ o ∈ ops, Slashed o.path := by
  induction m with
  | nil =>
    intro ops h
    simp only [removeOps, Res.ok.injEq] at h
    subst h; simp
  | cons kv m ih =>
    intro ops h
    obtain ⟨k, v⟩ := kv
    have hcons : ∀ ts, (removeOps path n m).map ((⟨.remove, makePath path k, .nil, ts⟩ : Op) :: ·) = .ok ops →
        ∀ o ∈ ops, Slashed o.path := by
      intro ts h
      rw [Res.map_eq_ok] at h
      obtain ⟨r, h1, rfl⟩ := h
      intro o ho
      rcases List.mem_cons.1 ho with rfl | ho
      · exact makePath_slashed k hp
      · exact ih h1 o ho
    simp only [removeOps] at h
    split at h
    · exact ih h
    · split at h
      · exact hcons _ h
      · exact hcons _ h
      · exact hcons _ h
      · cases h

theorem addElems_slashed {path : Bytes} (hp : path = [] ∨ Slashed path) (l : List (Nat × Tson)) :
    ∀ {ops}, addElems path l = .ok ops → ∀ o ∈ ops, Slashed o.path := by
  induction l with
  | nil => intro ops h; simp only [addElems, Res.ok.injEq] at h; subst h; simp
  | cons iv l ih =>
    intro ops h
    obtain ⟨i, v⟩ := iv
    simp only [addElems] at h
    split at h
    · rename_i o1 ho1
      rw [Res.map_eq_ok] at h
      obtain ⟨r, h1, rfl⟩ := h
      intro o ho
      rcases List.mem_cons.1 ho with rfl | ho
      · rw [leafOp_path ho1]; exact makePath_slashed _ hp
      · exact ih h1 o ho
    · cases h

theorem replaceElems_slashed {path : Bytes} (hp : path = [] ∨ Slashed path) (k : List Tson) :
    ∀ {i l ops}, replaceElems path i l k = .ok ops → ∀ o ∈ ops, Slashed o.path := by
  induction k with
  | nil => intro i l ops h; simp only [replaceElems, Res.ok.injEq] at h; subst h; simp
  | cons w k ih =>
    intro i l ops h
    have hcons : ∀ kind l' o1, leafOp kind (makePathIdx path i) w = some o1 →
        (replaceElems path (i + 1) l' k).map (o1 :: ·) = .ok ops → ∀ o ∈ ops, Slashed o.path := by
      intro kind l' o1 ho1 h
      rw [Res.map_eq_ok] at h
      obtain ⟨r, h1, rfl⟩ := h
      intro o ho
      rcases List.mem_cons.1 ho with rfl | ho
      · rw [leafOp_path ho1]; exact makePath_slashed _ hp
      · exact ih h1 o ho
    cases l with
    | nil =>
      simp only [replaceElems] at h
      split at h
      · exact hcons _ _ _ ‹_› h
      · cases h
    | cons v l =>
      simp only [replaceElems] at h
      split at h
      · exact ih h
      · split at h
        · exact hcons _ _ _ ‹_› h
        · exact ih h

theorem compareArray_slashed {wt : Bool} {path : Bytes} (hp : path = [] ∨ Slashed path) {l k : List Tson} {ops : List Op}
    (h : compareArray wt l k path = .ok ops) : ∀ o ∈ ops, Slashed o.path := by
  unfold compareArray at h
  dsimp only at h
  rw [Res.map_eq_ok] at h
  obtain ⟨r, h1, rfl⟩ := h
  intro o ho
  rcases List.mem_append.1 ho with ho | ho
  · rw [List.mem_reverse, List.mem_map] at ho
    obtain ⟨iv, -, rfl⟩ := ho
    exact makePath_slashed _ hp
  · split at h1
    · exact replaceElems_slashed hp _ h1 o ho
    · exact addElems_slashed hp _ h1 o ho

theorem handleValues_slashed (wt : Bool) (b : Tson) : ∀ {a : Tson} {path : Bytes} {ops : List Op},
    Slashed path ∨ (path = [] ∧ ∃ n, b = .obj n) → handleValues wt a b path = .ok ops → ∀ o ∈ ops, Slashed o.path := by
  have hor : ∀ {path : Bytes} {b : Tson}, Slashed path ∨ (path = [] ∧ ∃ n, b = .obj n) → path = [] ∨ Slashed path := by
    intro path b h
    rcases h with h | h
    · exact Or.inr h
    · exact Or.inl h.1
  induction b using Tson.induction with
  | null =>
    intro a path ops _ h
    cases a <;> simp [handleValues] at h
    subst h; simp
  | leaf q u =>
    intro a path ops hp h
    have hp : Slashed path := by
      rcases hp with hp | ⟨-, n, hn⟩
      · exact hp
      · cases hn
    simp only [handleValues] at h
    repeat' split at h
    all_goals simp only [Res.ok.injEq, reduceCtorEq] at h
    all_goals subst h
    all_goals simp only [List.mem_singleton, forall_eq, List.not_mem_nil, false_imp_iff, implies_true]
    all_goals exact hp
  | obj n ih =>
    intro a path ops hp h
    have hp := hor hp
    cases a with
    | obj m =>
      simp only [handleValues] at h
      obtain ⟨o1, o2, h1, h2, rfl⟩ := Res.append_ok h
      intro o ho
      rcases List.mem_append.1 ho with ho | ho
      · clear h h2
        have key : ∀ n', (∀ kw ∈ n', kw ∈ n) → ∀ {o1}, diffMembers wt m n' path = .ok o1 → ∀ o ∈ o1, Slashed o.path := by
          intro n'
          induction n' with
          | nil => intro _ o1 h; simp only [diffMembers, Res.ok.injEq] at h; subst h; simp
          | cons kw n' ihn =>
            intro hsub o1 h
            obtain ⟨k, w⟩ := kw
            rw [diffMembers] at h
            obtain ⟨p1, p2, e1, e2, rfl⟩ := Res.append_ok h
            have hone : ∀ {kind}, orErr (leafOp kind (makePath path k) w) = .ok p1 → ∀ o ∈ p1, Slashed o.path := by
              intro kind e
              obtain ⟨p, ts, -, rfl⟩ := orErr_leafOp e
              simp only [List.mem_singleton, forall_eq]
              exact makePath_slashed _ hp
            intro o ho
            rcases List.mem_append.1 ho with ho | ho
            · split at e1
              · exact hone e1 o ho
              · split at e1
                · exact hone e1 o ho
                · exact ih (k, w) (hsub _ (by simp)) (Or.inl (makePath_slashed _ hp)) e1 o ho
            · exact ihn (fun kw hkw => hsub kw (by simp [hkw])) e2 o ho
        exact key n (fun _ h => h) h1 o ho
      · exact removeOps_slashed hp m h2 o ho
    | null => simp [handleValues] at h
    | leaf p t => simp [handleValues] at h
    | arr l => simp [handleValues] at h
  | arr k ih =>
    intro a path ops hp h
    have hp := hor hp
    cases a with
    | arr l =>
      simp only [handleValues] at h
      split at h
      · exact compareArray_slashed hp h
      · have key : ∀ k', (∀ w ∈ k', w ∈ k) → ∀ {l' i o1}, handleElems wt l' k' path i = .ok o1 → ∀ o ∈ o1, Slashed o.path := by
          intro k'
          induction k' with
          | nil => intro _ l' i o1 h; simp only [handleElems, Res.ok.injEq] at h; subst h; simp
          | cons w k' ihk =>
            intro hsub l' i o1 h
            cases l' with
            | nil => simp only [handleElems, Res.ok.injEq] at h; subst h; simp
            | cons v l' =>
              rw [handleElems] at h
              obtain ⟨p1, p2, e1, e2, rfl⟩ := Res.append_ok h
              intro o ho
              rcases List.mem_append.1 ho with ho | ho
              · exact ih w (hsub _ (by simp)) (Or.inl (makePath_slashed _ hp)) e1 o ho
              · exact ihk (fun w hw => hsub w (by simp [hw])) e2 o ho
        exact key k (fun _ h => h) h
    | null => simp [handleValues] at h
    | leaf p t => simp [handleValues] at h
    | obj l => simp [handleValues] at h

theorem writeParts_slashed {path : Bytes} (h : Slashed path) : ∃ r, writeParts path = [] :: r := by
  obtain ⟨r, rfl⟩ := h
  unfold writeParts
  rw [decode_slash_cons]
  exact ⟨_, by simp [dotsToSlashes, split]; rfl⟩

/-- Operations whose path starts with the separator change no member but the one with the empty name. -/
theorem replay_slashed (ops : List Op) : ∀ {m : List (Bytes × Tson)} {t : Tson}, (Tson.obj m).Wf →
    (∀ o ∈ ops, Slashed o.path) → replay (.obj m) ops = .ok t →
    ∃ m', t = .obj m' ∧ ∀ k, k ≠ [] → mget m' k = mget m k := by
  induction ops with
  | nil => intro m t _ _ h; simp only [replay, Res.ok.injEq] at h; exact ⟨m, h.symm, fun _ _ => rfl⟩
  | cons op ops ih =>
    intro m t hw hs h
    simp only [replay, Res.bind_eq_ok] at h
    obtain ⟨t1, h1, h2⟩ := h
    rw [applyDoc_eq hw] at h1
    have he := applyOpT_ok_obj hw op h1
    have hwf := applyOpT_wf hw op h1
    obtain ⟨m1, hm1⟩ := applyOpT_obj m op
    rw [he, hm1] at h2 hwf
    obtain ⟨m', e1, e2⟩ := ih hwf (fun o ho => hs o (by simp [ho])) h2
    refine ⟨m', e1, fun k hk => ?_⟩
    rw [e2 k hk]
    obtain ⟨r, hr⟩ := writeParts_slashed (hs op (by simp))
    unfold applyOpT at hm1
    rw [hr] at hm1
    have := applyT_other_member m [] r op k hk
    rw [hm1] at this
    simp only [childOf] at this
    cases h3 : mget m1 k <;> cases h4 : mget m k <;> rw [h3, h4] at this <;> simp at this
    · exact congrArg some this

theorem generated_run {wt : Bool} {m n : List (Bytes × Tson)} (ha : (Tson.obj m).Wf) (hb : (Tson.obj n).Wf)
    (hm : ([] : Bytes) ∉ mkeys m) (hn : ([] : Bytes) ∉ mkeys n) {ops : List Op}
    (h : handleValues wt (.obj m) (.obj n) [] = .ok ops) (hne : ops ≠ []) {t : Tson}
    (ht : patchDoc (.obj m) ops = .ok t) : ¬ EqDoc wt t (.obj n) := by
  rw [patchDoc_eq ha _ hne] at ht
  obtain ⟨m', rfl, h2⟩ := replay_slashed ops ha (handleValues_slashed wt (.obj n) (Or.inr ⟨rfl, n, rfl⟩) h) ht
  intro he
  apply hne
  have hab : EqDoc wt (.obj m) (.obj n) := by
    cases he with
    | obj _ _ h3 h4 =>
      have hg : ∀ k, mget m' k = mget m k := by
        intro k
        by_cases hk : k = []
        · subst hk
          have := h3 []
          rw [mget_eq_none.2 hn] at this
          rw [mget_eq_none.2 hm]
          simpa using this
        · exact h2 k hk
      refine .obj _ _ (fun k => ?_) (fun k v w => ?_)
      · rw [← hg k]; exact h3 k
      · rw [← hg k]; exact h4 k v w
  have := (handleValues_nil wt (.obj n) (.obj m) [] ha hb).2 hab
  rw [this] at h
  simpa using h.symm

/-- C31 is violated for every pair of object documents that differ and have no member with an empty name: if
applying the generated patch succeeds at all, the result is not equal to `b`.  (The generated paths start with
the separator, which `ApplyOperation` takes for an empty first segment.) -/
theorem C31_generated_patch_violated {m n : List (Bytes × Tson)} (ha : (Tson.obj m).Wf) (hb : (Tson.obj n).Wf)
    (hm : ([] : Bytes) ∉ mkeys m) (hn : ([] : Bytes) ∉ mkeys n) {ops : List Op}
    (h : generatePatch (.obj m) (.obj n) = .ok ops) (hne : ops ≠ []) {t : Tson}
    (ht : patchDoc (.obj m) ops = .ok t) : ¬ EqDoc false t (.obj n) :=
  generated_run ha hb hm hn h hne ht

/-- `C31_generated_patch_violated` for `GeneratePatchWithTimestamp`. -/
theorem C31_times_violated {m n : List (Bytes × Tson)} (ha : (Tson.obj m).Wf) (hb : (Tson.obj n).Wf)
    (hm : ([] : Bytes) ∉ mkeys m) (hn : ([] : Bytes) ∉ mkeys n) {ops : List Op}
    (h : generatePatchWithTimestamp (.obj m) (.obj n) = .ok ops) (hne : ops ≠ []) {t : Tson}
    (ht : patchDoc (.obj m) ops = .ok t) : ¬ EqDoc true t (.obj n) :=
  generated_run ha hb hm hn h hne ht

/-- The situation of `C31_generated_patch_violated`: the member `a` keeps its value, the new one is stored below
a member with an empty name. -/
theorem C31_leading_slash_fails :
    generatePatch (.obj [(b!"a", .leaf (.bool true) 1)]) (.obj [(b!"a", .leaf (.bool false) 2)]) =
      .ok [⟨.replace, b!"/a", .bool false, 2⟩] ∧
    patchDoc (.obj [(b!"a", .leaf (.bool true) 1)]) [⟨.replace, b!"/a", .bool false, 2⟩] =
      .ok (.obj [(b!"a", .leaf (.bool true) 1), (b!"", .obj [(b!"a", .leaf (.bool false) 2)])]) := by decide

/-- C31 fails for arrays of different length even with stripped paths: the element to be inserted before `x`
overwrites it. -/
theorem C31_array_length_fails :
    generatePatch (.obj [(b!"a", .arr [.leaf (.str b!"x") 1])])
        (.obj [(b!"a", .arr [.leaf (.str b!"y") 2, .leaf (.str b!"x") 1])]) =
      .ok [⟨.add, b!"/a/0", .str b!"y", 2⟩] ∧
    patchDoc (.obj [(b!"a", .arr [.leaf (.str b!"x") 1])]) ([⟨.add, b!"/a/0", .str b!"y", 2⟩].map stripSlash) =
      .ok (.obj [(b!"a", .arr [.leaf (.str b!"y") 2])]) := by decide

/-- The same for `GeneratePatchWithTimestamp`: after the element `x` is removed, `b` is expected where nothing is. -/
theorem C31_times_length_fails :
    generatePatchWithTimestamp (.obj [(b!"a", .arr [.leaf (.str b!"x") 1, .leaf (.str b!"b") 1])])
        (.obj [(b!"a", .arr [.leaf (.str b!"y") 2, .leaf (.str b!"b") 1, .leaf (.str b!"z") 2])]) =
      .ok [⟨.remove, b!"/a/0", .nil, 0⟩, ⟨.replace, b!"/a/0", .str b!"y", 2⟩, ⟨.add, b!"/a/2", .str b!"z", 2⟩] ∧
    patchDoc (.obj [(b!"a", .arr [.leaf (.str b!"x") 1, .leaf (.str b!"b") 1])]) ([⟨.remove, b!"/a/0", .nil, 0⟩,
        ⟨.replace, b!"/a/0", .str b!"y", 2⟩, ⟨.add, b!"/a/2", .str b!"z", 2⟩].map stripSlash) =
      .ok (.obj [(b!"a", .arr [.leaf (.str b!"y") 2, .null, .leaf (.str b!"z") 2])]) := by decide

example : patchDoc opsA ([⟨.replace, b!"/b/0", .str b!"y", 3⟩, ⟨.add, b!"/b/1", .bool true, 4⟩,
    ⟨.replace, b!"/a", .str b!"s", 9⟩, ⟨.add, b!"/d", .bool false, 8⟩, ⟨.remove, b!"/c", .nil, 0⟩].map stripSlash) =
    .ok (.obj [(b!"a", .leaf (.str b!"s") 9), (b!"b", .arr [.leaf (.str b!"y") 3, .leaf (.bool true) 4]),
      (b!"d", .leaf (.bool false) 8)]) := by decide

instance (k : Bytes) : Decidable (PlainKey k) := inferInstanceAs (Decidable (_ ∧ _ ∧ _))

theorem PlainDoc.of_check {t : Tson}
    (h : keysB (fun k => decide (PlainKey k)) t = true) : PlainDoc t :=
  ⟨fun ks m hm k hk => of_decide_eq_true ((keysB_keys h).1 ks m hm k hk), (keysB_keys h).2⟩

example : PlainDoc opsA ∧ PlainDoc opsB ∧ FlatArrays false opsA opsB ∧ FlatArrays true opsA opsB := by
  suffices flat : ∀ wt, FlatArrays wt opsA opsB from
    ⟨.of_check (by decide), .of_check (by decide), flat _, flat _⟩
  intro wt ks l k h1 h2
  cases ks with
  | nil => cases h1
  | cons c ks =>
    obtain ⟨v, hv, h1⟩ := reaches_obj.1 h1
    obtain ⟨w, hw, h2⟩ := reaches_obj.1 h2
    simp only [mget] at hv hw
    split at hv
    · rename_i hc; subst hc; simp at hv; subst hv; cases h1
    · split at hv
      · rename_i hc; subst hc
        simp at hv; subst hv
        rw [if_pos rfl] at hw
        simp at hw; subst hw
        cases h1 with
        | here => cases h2; exact Or.inr ⟨rfl, by simp⟩
        | element _ _ _ i c _ e1 e2 e3 =>
          match i, e2 with
          | 0, e2 => simp at e2; subst e2; cases e3
          | 1, e2 => simp at e2; subst e2; cases e3
      · split at hv
        · rename_i hc; subst hc; simp at hv; subst hv
          cases h1 with
          | member _ _ _ _ _ e1 => cases e1
        · cases hv

end Verif
