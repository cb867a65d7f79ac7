import Verif.PropsDiff
import Verif.PropsTemporal
/-
Properties C30 and C31: what the generated operations say, and applying them.
-/
namespace Verif

theorem goValue_toGo (p : Prim) : GoValue p.toGo p := by cases p <;> constructor

/-! ### Paths -/

theorem encode_ne_nil {k : Bytes} (h : k ≠ []) : encode k ≠ [] := by
  cases k with
  | nil => exact absurd rfl h
  | cons c r => 
    simp only [encode]
    repeat' split
    all_goals simp

/-- A path after which `makePath` inserts a separator. -/
def GoodPath (path : Bytes) : Prop := path.getLast? ≠ some bSlash

theorem makePath_eq {path k : Bytes} (h : GoodPath path) (hk : k ≠ []) :
    makePath path k = path ++ pointer [k] ∧ GoodPath (path ++ pointer [k]) := by
  constructor
  · unfold makePath
    dsimp only
    by_cases hp : path = []
    · subst hp; simp [pointer]
    · rw [if_neg hp, if_neg h]
      simp [pointer]
  · unfold GoodPath
    have he := encode_ne_nil hk
    have hns := (C22_escape_injective k k).2
    simp only [pointer, List.append_nil]
    rw [List.getLast?_append, List.getLast?_cons]
    simp only [Option.some_or]
    cases hx : (encode k).getLast? with
    | none => rw [List.getLast?_eq_none_iff] at hx; exact absurd hx he
    | some c =>
      simp only [Option.getD_some]
      intro hc
      have := List.mem_of_getLast? hx
      rw [Option.some.inj hc] at this
      exact hns this

theorem pointer_cons (k : Bytes) (ks : List Bytes) : pointer (k :: ks) = pointer [k] ++ pointer ks := by
  simp [pointer]

theorem pointer_injective {ks ks' : List Bytes} (h : pointer ks = pointer ks') : ks = ks' := by
  have key : ∀ ks : List Bytes, split bSlash (pointer ks) = [] :: ks.map encode := by
    intro ks
    induction ks with
    | nil => rfl
    | cons k ks ih =>
      simp only [pointer, split, if_true, List.map_cons]
      cases ks with
      | nil =>
        simp only [pointer, List.append_nil, List.map_nil]
        rw [split_of_not_mem _ _ (C22_escape_injective k k).2]
      | cons k' ks =>
        simp only [pointer] at ih ⊢
        rw [split_append_sep _ _ _ (C22_escape_injective k k).2]
        simp only [split, if_true, List.cons.injEq, true_and] at ih
        rw [ih]
  have h1 := congrArg (split bSlash) h
  rw [key, key] at h1
  simp only [List.cons.injEq, true_and] at h1
  induction ks generalizing ks' with
  | nil => cases ks' with
    | nil => rfl
    | cons k ks' => simp at h1
  | cons k ks ih =>
    cases ks' with
    | nil => simp at h1
    | cons k' ks' =>
      simp only [List.map_cons, List.cons.injEq] at h1
      have hk := (C22_escape_injective k k').1 h1.1
      subst hk
      simp only [pointer, List.cons.injEq, true_and, List.append_cancel_left_eq] at h
      rw [ih h h1.2]

theorem natDigits_key (i : Nat) : natDigits i ≠ [] := natDigits_ne_nil i

theorem reaches_arr {l : List Tson} {i : Nat} (hi : (i : Int) ≤ maxInt64) {ks : List Bytes} {u : Tson} :
    Reaches (.arr l) (natDigits i :: ks) u ↔ ∃ c, l[i]? = some c ∧ Reaches c ks u := by
  have hat := atoi_natDigits hi
  constructor
  · intro h
    cases h with
    | element _ _ _ j c _ h1 h2 h3 =>
      rw [hat] at h1
      have : i = j := by have := Option.some.inj h1; omega
      subst this
      exact ⟨c, h2, h3⟩
  · rintro ⟨c, h2, h3⟩
    exact .element _ _ _ i c _ hat h2 h3

/-! ### Describing operations, one level down -/

/-- The operations `ops` at `path`, with their locations relative to `path`. -/
def Located (wt : Bool) (a b : Tson) (path : Bytes) (ops : List Op) (L : List (List Bytes × Op)) : Prop :=
  L.map Prod.snd = ops ∧ (L.map Prod.fst).Nodup ∧
  ∀ x ∈ L, x.2.path = path ++ pointer x.1 ∧ Describes wt a b x.1 x.2

theorem Describes.lift {wt : Bool} {a b v w : Tson} {k : Bytes} {ks : List Bytes} {o : Op}
    (ha : ∀ u, Reaches a (k :: ks) u ↔ Reaches v ks u) (hb : ∀ u, Reaches b (k :: ks) u ↔ Reaches w ks u)
    (h : Describes wt v w ks o) : Describes wt a b (k :: ks) o := by
  cases h with
  | add p h1 h2 h3 h4 => exact .add p h1 ((hb _).2 h2) h3 fun u hu => h4 u ((ha u).1 hu)
  | remove u h1 h2 h3 h4 => exact .remove u h1 h2 ((ha _).2 h3) fun w hw => h4 w ((hb _).1 hw)
  | replace u p h1 h2 h3 h4 h5 => exact .replace u p h1 ((ha _).2 h2) ((hb _).2 h3) h4 h5

theorem Located.lift {wt : Bool} {a b v w : Tson} {k path : Bytes} {ops : List Op} {L : List (List Bytes × Op)}
    (ha : ∀ ks u, Reaches a (k :: ks) u ↔ Reaches v ks u) (hb : ∀ ks u, Reaches b (k :: ks) u ↔ Reaches w ks u)
    (h : Located wt v w (path ++ pointer [k]) ops L) :
    Located wt a b path ops (L.map fun x => (k :: x.1, x.2)) := by
  obtain ⟨h1, h2, h3⟩ := h
  refine ⟨?_, ?_, ?_⟩
  · rw [List.map_map, ← h1]; rfl
  · have : (L.map fun x => (k :: x.1, x.2)).map Prod.fst = (L.map Prod.fst).map (k :: ·) := by
      rw [List.map_map, List.map_map]; rfl
    rw [this, List.Nodup, List.pairwise_map]
    exact h2.imp fun h e => h (List.cons.inj e).2
  · intro x hx
    obtain ⟨y, hy, rfl⟩ := List.mem_map.1 hx
    obtain ⟨h4, h5⟩ := h3 y hy
    refine ⟨?_, h5.lift (ha _) (hb _)⟩
    dsimp only
    rw [h4, pointer_cons k y.1, List.append_assoc]

theorem Res.append_ok {r s : Res (List Op)} {l : List Op} (h : r.append s = .ok l) :
    ∃ a b, r = .ok a ∧ s = .ok b ∧ l = a ++ b := by
  unfold Res.append at h
  rw [Res.bind_eq_ok] at h
  obtain ⟨a, h1, h2⟩ := h
  rw [Res.map_eq_ok] at h2
  obtain ⟨b, h3, h4⟩ := h2
  exact ⟨a, b, h1, h3, h4.symm⟩

theorem orErr_leafOp {kind : OpKind} {path : Bytes} {w : Tson} {ops : List Op}
    (h : orErr (leafOp kind path w) = .ok ops) : ∃ p ts, w = .leaf p ts ∧ ops = [⟨kind, path, p.toGo, ts⟩] := by
  cases w <;> simp [orErr, leafOp] at h
  exact ⟨_, _, rfl, h.symm⟩

theorem removeOps_located {wt : Bool} {path : Bytes} (hp : GoodPath path) {M n : List (Bytes × Tson)}
    (hM : ∀ k ∈ mkeys M, k ≠ []) (m : List (Bytes × Tson)) : ∀ {ops}, (mkeys m).Nodup →
    (∀ kv ∈ m, mget M kv.1 = some kv.2) → removeOps path n m = .ok ops →
    ∃ L, Located wt (.obj M) (.obj n) path ops L ∧ ∀ x ∈ L, ∃ k, x.1 = [k] ∧ k ∈ mkeys m ∧ mget n k = none := by
  induction m with
  | nil =>
    intro ops _ _ h
    simp only [removeOps, Res.ok.injEq] at h
    exact ⟨[], ⟨by simp [← h], by simp, by simp⟩, by simp⟩
  | cons kv m ih =>
    intro ops hnd hsub h
    obtain ⟨k, v⟩ := kv
    have hnd' := List.nodup_cons.1 hnd
    have hMk := hsub (k, v) (by simp)
    dsimp only at hMk
    have hk : k ≠ [] := hM k (mget_isSome.1 ⟨v, hMk⟩)
    have hcons : ∀ ts, mget n k = none → (removeOps path n m).map ((⟨.remove, makePath path k, .nil, ts⟩ : Op) :: ·) = .ok ops →
        ∃ L, Located wt (.obj M) (.obj n) path ops L ∧ ∀ x ∈ L, ∃ k', x.1 = [k'] ∧ k' ∈ mkeys ((k, v) :: m) ∧ mget n k' = none := by
      intro ts hn h
      rw [Res.map_eq_ok] at h
      obtain ⟨r, h1, h2⟩ := h
      obtain ⟨L, ⟨l1, l2, l3⟩, l4⟩ := ih hnd'.2 (fun kv hkv => hsub kv (by simp [hkv])) h1
      refine ⟨([k], ⟨.remove, makePath path k, .nil, ts⟩) :: L, ⟨?_, ?_, ?_⟩, ?_⟩
      · simp only [List.map_cons, l1]; exact h2
      · simp only [List.map_cons]
        refine List.nodup_cons.2 ⟨fun hm => ?_, l2⟩
        obtain ⟨x, hx, he⟩ := List.mem_map.1 hm
        obtain ⟨k', e1, e2, -⟩ := l4 x hx
        rw [e1] at he
        simp at he
        subst he
        exact hnd'.1 e2
      · intro x hx
        rcases List.mem_cons.1 hx with rfl | hx
        · refine ⟨(makePath_eq hp hk).1, .remove v rfl rfl ?_ ?_⟩
          · exact reaches_obj.2 ⟨v, hMk, .here _⟩
          · intro w hw
            obtain ⟨c, hc, -⟩ := reaches_obj.1 hw
            rw [hn] at hc; cases hc
        · exact l3 x hx
      · intro x hx
        rcases List.mem_cons.1 hx with rfl | hx
        · exact ⟨k, rfl, by simp [mkeys], hn⟩
        · obtain ⟨k', e1, e2, e3⟩ := l4 x hx
          exact ⟨k', e1, by simp only [mkeys, List.map_cons, List.mem_cons]; exact Or.inr e2, e3⟩
    simp only [removeOps] at h
    cases hn : mget n k with
    | some w =>
      rw [hn] at h
      obtain ⟨L, l1, l2⟩ := ih hnd'.2 (fun kv hkv => hsub kv (by simp [hkv])) h
      refine ⟨L, l1, fun x hx => ?_⟩
      obtain ⟨k', e1, e2, e3⟩ := l2 x hx
      exact ⟨k', e1, by simp only [mkeys, List.map_cons, List.mem_cons]; exact Or.inr e2, e3⟩
    | none =>
      rw [hn] at h
      cases v with
      | null => simp at h
      | leaf p ts => exact hcons ts hn h
      | obj _ => exact hcons 0 hn h
      | arr _ => exact hcons 0 hn h

theorem Located.append {wt : Bool} {a b : Tson} {path : Bytes} {o1 o2 : List Op} {L1 L2}
    (h1 : Located wt a b path o1 L1) (h2 : Located wt a b path o2 L2)
    (hd : ∀ x ∈ L1, ∀ y ∈ L2, x.1 ≠ y.1) : Located wt a b path (o1 ++ o2) (L1 ++ L2) := by
  refine ⟨by rw [List.map_append, h1.1, h2.1], ?_, ?_⟩
  · rw [List.map_append, List.nodup_append]
    refine ⟨h1.2.1, h2.2.1, ?_⟩
    intro x hx y hy
    obtain ⟨x', hx', rfl⟩ := List.mem_map.1 hx
    obtain ⟨y', hy', rfl⟩ := List.mem_map.1 hy
    exact hd x' hx' y' hy'
  · intro x hx
    rcases List.mem_append.1 hx with hx | hx
    · exact h1.2.2 x hx
    · exact h2.2.2 x hx

theorem Named.member {m : List (Bytes × Tson)} (h : Named (.obj m)) {k : Bytes} {v : Tson}
    (hv : mget m k = some v) : Named v :=
  ⟨fun ks n hn => h.keys (k :: ks) n (reaches_obj.2 ⟨v, hv, hn⟩),
   fun ks l hl => h.arrays (k :: ks) l (reaches_obj.2 ⟨v, hv, hl⟩)⟩

theorem Named.bound {l : List Tson} (h : Named (.arr l)) {i : Nat} {v : Tson} (hv : l[i]? = some v) :
    (i : Int) ≤ maxInt64 := by
  have := h.arrays [] l (.here _)
  have := (List.getElem?_eq_some_iff.1 hv).1
  omega

theorem Named.element {l : List Tson} (h : Named (.arr l)) {i : Nat} {v : Tson} (hv : l[i]? = some v) : Named v :=
  ⟨fun ks n hn => h.keys (natDigits i :: ks) n ((reaches_arr (h.bound hv)).2 ⟨v, hv, hn⟩),
   fun ks n hn => h.arrays (natDigits i :: ks) n ((reaches_arr (h.bound hv)).2 ⟨v, hv, hn⟩)⟩

theorem reaches_nil {t u : Tson} : Reaches t [] u ↔ u = t := by
  constructor
  · intro h; cases h; rfl
  · rintro rfl; exact .here _

theorem handleValues_located (wt : Bool) (b : Tson) : ∀ {a : Tson} {path : Bytes} {ops : List Op}, a.Wf → b.Wf →
    Named a → Named b → SameLengths a b → GoodPath path → handleValues wt a b path = .ok ops →
    ∃ L, Located wt a b path ops L := by
  have hone : ∀ {a : Tson} {q : Prim} {u : Int} {path : Bytes} (kind : OpKind), 
      Describes wt a (.leaf q u) [] ⟨kind, path, q.toGo, u⟩ →
      ∃ L, Located wt a (.leaf q u) path [⟨kind, path, q.toGo, u⟩] L := by
    intro a q u path kind h
    exact ⟨[([], ⟨kind, path, q.toGo, u⟩)], rfl, by simp, by
      intro x hx; simp at hx; subst hx; exact ⟨by simp [pointer], h⟩⟩
  have hnil : ∀ (a b : Tson) (path : Bytes), ∃ L, Located wt a b path [] L :=
    fun a b path => ⟨[], rfl, by simp, by simp⟩
  induction b using Tson.induction with
  | null =>
    intro a path ops _ _ _ _ _ _ h
    cases a <;> simp only [handleValues, Res.ok.injEq] at h
    · rw [← h]; exact hnil _ _ _
    all_goals cases h
  | leaf q u =>
    intro a path ops _ _ _ _ _ _ h
    cases a with
    | leaf p t =>
      simp only [handleValues] at h
      split at h
      · cases h
      · split at h
        · simp only [Res.ok.injEq] at h; rw [← h]; exact hnil _ _ _
        · rename_i hc
          simp only [Res.ok.injEq] at h; rw [← h]
          refine hone _ (.replace _ q rfl (.here _) (.here _) (goValue_toGo q) fun he => ?_)
          cases he with
          | leaf _ _ _ _ h1 h2 =>
            apply hc
            simp only [goEq_iff.2 h1, Bool.true_and, Bool.or_eq_true, Bool.not_eq_true', decide_eq_true_eq]
            cases wt with
            | false => left; rfl
            | true => right; exact h2 rfl
    | null =>
      simp only [handleValues, Res.ok.injEq] at h; rw [← h]
      exact hone _ (.add q rfl (.here _) (goValue_toGo q) fun u hu => reaches_nil.1 hu)
    | obj m => simp only [handleValues] at h; cases h
    | arr l =>
      simp only [handleValues, Res.ok.injEq] at h; rw [← h]
      exact hone _ (.replace _ q rfl (.here _) (.here _) (goValue_toGo q) fun he => by cases he)
  | obj n ih =>
    intro a path ops ha hb hna hnb hsl hp h
    cases a with
    | obj m =>
      simp only [handleValues] at h
      obtain ⟨o1, o2, h1, h2, rfl⟩ := Res.append_ok h
      have hwm := (Tson.wfF_iff m).1 ha.2
      have hwn := (Tson.wfF_iff n).1 hb.2
      have hkm := hna.keys [] m (.here _)
      have hkn := hnb.keys [] n (.here _)
      obtain ⟨L2, l2, k2⟩ := removeOps_located (wt := wt) (n := n) hp hkm m ha.1 (fun kv hkv => mem_mget ha.1 hkv) h2
      -- the loop over the modified members
      have key : ∀ (n' : List (Bytes × Tson)) (o1 : List Op), (mkeys n').Nodup → (∀ kw ∈ n', kw ∈ n) →
          diffMembers wt m n' path = .ok o1 →
          ∃ L, Located wt (.obj m) (.obj n) path o1 L ∧ ∀ x ∈ L, ∃ k ks, x.1 = k :: ks ∧ k ∈ mkeys n' := by
        intro n'
        induction n' with
        | nil =>
          intro o1 _ _ h
          simp only [diffMembers, Res.ok.injEq] at h
          exact ⟨[], ⟨by simp [← h], by simp, by simp⟩, by simp⟩
        | cons kw n' ihn =>
          intro o1 hnd hsub h
          obtain ⟨k, w⟩ := kw
          have hnd' := List.nodup_cons.1 hnd
          rw [diffMembers] at h
          obtain ⟨p1, p2, e1, e2, rfl⟩ := Res.append_ok h
          obtain ⟨L', l', k'⟩ := ihn p2 hnd'.2 (fun kw hkw => hsub kw (by simp [hkw])) e2
          have hmem := hsub (k, w) (by simp)
          have hw := mem_mget hb.1 hmem
          have hk : k ≠ [] := hkn k (mget_isSome.1 ⟨w, hw⟩)
          obtain ⟨hp1, hp2⟩ := makePath_eq hp hk
          have hbw : ∀ ks u, Reaches (.obj n) (k :: ks) u ↔ Reaches w ks u := by
            intro ks u; rw [reaches_obj, hw]; simp
          have hL : ∃ L, Located wt (.obj m) (.obj n) path p1 L ∧ ∀ x ∈ L, ∃ ks, x.1 = k :: ks := by
            have single : ∀ (kind : OpKind) p ts, w = .leaf p ts →
                Describes wt (.obj m) (.obj n) [k] ⟨kind, makePath path k, p.toGo, ts⟩ →
                p1 = [⟨kind, makePath path k, p.toGo, ts⟩] →
                ∃ L, Located wt (.obj m) (.obj n) path p1 L ∧ ∀ x ∈ L, ∃ ks, x.1 = k :: ks := by
              intro kind p ts hw' hd hp1'
              refine ⟨[([k], ⟨kind, makePath path k, p.toGo, ts⟩)], ⟨by simp [hp1'], by simp, ?_⟩, ?_⟩
              · intro x hx; simp at hx; subst hx; exact ⟨hp1, hd⟩
              · intro x hx; simp at hx; subst hx; exact ⟨[], rfl⟩
            cases hv : mget m k with
            | none =>
              rw [hv] at e1
              obtain ⟨p, ts, rfl, he⟩ := orErr_leafOp e1
              refine single _ p ts rfl (.add p rfl ((hbw _ _).2 (.here _)) (goValue_toGo p) ?_) he
              intro u hu
              obtain ⟨c, hc, -⟩ := reaches_obj.1 hu
              rw [hv] at hc; cases hc
            | some v =>
              rw [hv] at e1
              have hav : ∀ ks u, Reaches (.obj m) (k :: ks) u ↔ Reaches v ks u := by
                intro ks u; rw [reaches_obj, hv]; simp
              dsimp only at e1
              split at e1
              · rename_i hkind
                obtain ⟨p, ts, rfl, he⟩ := orErr_leafOp e1
                refine single _ p ts rfl (.replace v p rfl ((hav _ _).2 (.here _)) ((hbw _ _).2 (.here _))
                  (goValue_toGo p) fun he => hkind he.kind) he
              · rw [hp1] at e1
                obtain ⟨L, l⟩ := ih (k, w) hmem (hwm _ (mget_mem hv)) (hwn _ hmem) (hna.member hv) (hnb.member hw)
                  (fun ks l k' h1 h2 => hsl (k :: ks) l k' ((hav _ _).2 h1) ((hbw _ _).2 h2)) hp2 e1
                refine ⟨_, l.lift hav hbw, ?_⟩
                intro x hx
                obtain ⟨y, -, rfl⟩ := List.mem_map.1 hx
                exact ⟨_, rfl⟩
          obtain ⟨L, l, kk⟩ := hL
          refine ⟨L ++ L', l.append l' ?_, ?_⟩
          · intro x hx y hy he
            obtain ⟨ks, e1⟩ := kk x hx
            obtain ⟨k1, ks1, e2, e3⟩ := k' y hy
            rw [e1, e2] at he
            rw [(List.cons.inj he).1] at hnd'
            exact hnd'.1 e3
          · intro x hx
            rcases List.mem_append.1 hx with hx | hx
            · obtain ⟨ks, e⟩ := kk x hx
              exact ⟨k, ks, e, by simp [mkeys]⟩
            · obtain ⟨k1, ks1, e2, e3⟩ := k' x hx
              exact ⟨k1, ks1, e2, by simp only [mkeys, List.map_cons, List.mem_cons]; exact Or.inr e3⟩
      obtain ⟨L1, l1, k1⟩ := key n o1 hb.1 (fun _ h => h) h1
      refine ⟨L1 ++ L2, l1.append l2 ?_⟩
      intro x hx y hy he
      obtain ⟨k, ks, e1, e2⟩ := k1 x hx
      obtain ⟨k', e3, -, e4⟩ := k2 y hy
      rw [e1, e3] at he
      obtain ⟨w, hw⟩ := mget_isSome.2 e2
      rw [(List.cons.inj he).1, e4] at hw
      cases hw
    | null => simp only [handleValues] at h; cases h
    | leaf p t => simp only [handleValues] at h; cases h
    | arr l => simp only [handleValues] at h; cases h
  | arr k ih =>
    intro a path ops ha hb hna hnb hsl hp h
    cases a with
    | arr l =>
      have hlen := hsl [] l k (.here _) (.here _)
      simp only [handleValues, hlen, ne_eq, not_true_eq_false, if_false] at h
      have hwm := (Tson.wfL_iff l).1 ha
      have hwn := (Tson.wfL_iff k).1 hb
      have key : ∀ (k' l' : List Tson) (i : Nat) (o1 : List Op), 
          (∀ j w, k'[j]? = some w → k[i + j]? = some w) → (∀ j v, l'[j]? = some v → l[i + j]? = some v) →
          handleElems wt l' k' path i = .ok o1 →
          ∃ L, Located wt (.arr l) (.arr k) path o1 L ∧
            ∀ x ∈ L, ∃ (j : Nat) (ks : List Bytes), x.1 = natDigits j :: ks ∧ i ≤ j := by
        intro k'
        induction k' with
        | nil =>
          intro l' i o1 _ _ h
          simp only [handleElems, Res.ok.injEq] at h
          exact ⟨[], ⟨by simp [← h], by simp, by simp⟩, by simp⟩
        | cons w k' ihk =>
          intro l' i o1 hk' hl' h
          cases l' with
          | nil =>
            simp only [handleElems, Res.ok.injEq] at h
            exact ⟨[], ⟨by simp [← h], by simp, by simp⟩, by simp⟩
          | cons v l' =>
            rw [handleElems] at h
            obtain ⟨p1, p2, e1, e2, rfl⟩ := Res.append_ok h
            have hw := hk' 0 w rfl
            have hv := hl' 0 v rfl
            simp only [Nat.add_zero] at hw hv
            obtain ⟨L', l', kk'⟩ := ihk l' (i + 1) p2
              (fun j w hj => by have := hk' (j + 1) w (by simpa using hj); rw [← this]; congr 1; omega)
              (fun j w hj => by have := hl' (j + 1) w (by simpa using hj); rw [← this]; congr 1; omega) e2
            have hbi := hnb.bound hw
            obtain ⟨hp1, hp2⟩ := makePath_eq hp (natDigits_key i)
            rw [makePathIdx, hp1] at e1
            have hav : ∀ ks u, Reaches (.arr l) (natDigits i :: ks) u ↔ Reaches v ks u := by
              intro ks u; rw [reaches_arr hbi, hv]; simp
            have hbw : ∀ ks u, Reaches (.arr k) (natDigits i :: ks) u ↔ Reaches w ks u := by
              intro ks u; rw [reaches_arr hbi, hw]; simp
            obtain ⟨L, lL⟩ := ih w (List.mem_of_getElem? hw) (hwm _ (List.mem_of_getElem? hv))
              (hwn _ (List.mem_of_getElem? hw)) (hna.element hv) (hnb.element hw)
              (fun ks l k' h1 h2 => hsl (natDigits i :: ks) l k' ((hav _ _).2 h1) ((hbw _ _).2 h2)) hp2 e1
            refine ⟨_, (lL.lift hav hbw).append l' ?_, ?_⟩
            · intro x hx y hy he
              obtain ⟨z, -, rfl⟩ := List.mem_map.1 hx
              obtain ⟨j, ks, e3, e4⟩ := kk' y hy
              rw [e3] at he
              have := natDigits_injective (List.cons.inj he).1
              omega
            · intro x hx
              rcases List.mem_append.1 hx with hx | hx
              · obtain ⟨z, -, rfl⟩ := List.mem_map.1 hx
                exact ⟨i, z.1, rfl, Nat.le_refl _⟩
              · obtain ⟨j, ks, e3, e4⟩ := kk' x hx
                exact ⟨j, ks, e3, by omega⟩
      obtain ⟨L, lL, -⟩ := key k l 0 ops (fun j w h => by simpa using h) (fun j w h => by simpa using h) h
      exact ⟨L, lL⟩
    | null => simp only [handleValues] at h; cases h
    | leaf p t => simp only [handleValues] at h; cases h
    | obj m => simp only [handleValues] at h; cases h

/-- C30: for documents without empty keys whose arrays have the same lengths, every generated operation is at the
pointer of a location at which the two documents differ as the operation says, with `b`'s value and timestamp, and
no path occurs twice.  The same holds for `GeneratePatchWithTimestamp` with differences in time.
Missing: empty keys (`C30_empty_key_fails`). -/
theorem C30_sound_partial {a b : Tson} (ha : a.Wf) (hb : b.Wf) (hna : Named a) (hnb : Named b)
    (hsl : SameLengths a b) (ops : List Op) :
    (generatePatch a b = .ok ops →
      (∀ o ∈ ops, ∃ ks, o.path = pointer ks ∧ Describes false a b ks o) ∧ (ops.map Op.path).Nodup) ∧
    (generatePatchWithTimestamp a b = .ok ops →
      (∀ o ∈ ops, ∃ ks, o.path = pointer ks ∧ Describes true a b ks o) ∧ (ops.map Op.path).Nodup) := by
  have key : ∀ wt, handleValues wt a b [] = .ok ops →
      (∀ o ∈ ops, ∃ ks, o.path = pointer ks ∧ Describes wt a b ks o) ∧ (ops.map Op.path).Nodup := by
    intro wt h
    obtain ⟨L, h1, h2, h3⟩ := handleValues_located wt b ha hb hna hnb hsl (by simp [GoodPath]) h
    subst h1
    refine ⟨?_, ?_⟩
    · intro o ho
      obtain ⟨x, hx, rfl⟩ := List.mem_map.1 ho
      obtain ⟨e1, e2⟩ := h3 x hx
      exact ⟨x.1, by simpa using e1, e2⟩
    · have : (L.map Prod.snd).map Op.path = (L.map Prod.fst).map pointer := by
        rw [List.map_map, List.map_map]
        apply List.map_congr_left
        intro x hx
        simpa using (h3 x hx).1
      rw [this, List.Nodup, List.pairwise_map]
      exact h2.imp fun h e => h (pointer_injective e)
  exact ⟨key false, key true⟩

/-- C30 fails with an empty key: two operations get the same path. -/
theorem C30_empty_key_fails :
    generatePatch (.obj [([], .obj []), (b!"x", .leaf (.bool true) 1)])
      (.obj [([], .obj [(b!"x", .leaf (.bool true) 5)]), (b!"x", .leaf (.bool false) 2)]) =
    .ok [⟨.add, b!"/x", .bool true, 5⟩, ⟨.replace, b!"/x", .bool false, 2⟩] := by decide

/-- Two documents differing in a member of each kind. -/
def opsA : Tson := .obj [(b!"a", .leaf (.bool true) 1), (b!"b", .arr [.leaf (.str b!"x") 2, .null]), (b!"c", .obj [])]
def opsB : Tson := .obj [(b!"b", .arr [.leaf (.str b!"y") 3, .leaf (.bool true) 4]), (b!"a", .leaf (.str b!"s") 9),
  (b!"d", .leaf (.bool false) 8)]

example : generatePatch opsA opsB = .ok [⟨.replace, b!"/b/0", .str b!"y", 3⟩, ⟨.add, b!"/b/1", .bool true, 4⟩,
    ⟨.replace, b!"/a", .str b!"s", 9⟩, ⟨.add, b!"/d", .bool false, 8⟩, ⟨.remove, b!"/c", .nil, 0⟩] := by decide

mutual
/-- A check of all keys and array lengths, for the examples. -/
def keysB (P : Bytes → Bool) : Tson → Bool
  | .obj m => keysFB P m
  | .arr l => decide ((l.length : Int) ≤ maxInt64) && keysLB P l
  | _ => true
/-- `keysB` for members. -/
def keysFB (P : Bytes → Bool) : List (Bytes × Tson) → Bool
  | [] => true
  | (k, v) :: m => P k && keysB P v && keysFB P m
/-- `keysB` for elements. -/
def keysLB (P : Bytes → Bool) : List Tson → Bool
  | [] => true
  | v :: l => keysB P v && keysLB P l
end

theorem keysFB_iff {P : Bytes → Bool} (m : List (Bytes × Tson)) :
    keysFB P m = true ↔ ∀ kv ∈ m, P kv.1 = true ∧ keysB P kv.2 = true := by
  induction m with
  | nil => simp [keysFB]
  | cons kv m ih => obtain ⟨k, v⟩ := kv; simp [keysFB, ih, and_assoc]

theorem keysLB_iff {P : Bytes → Bool} (l : List Tson) : keysLB P l = true ↔ ∀ v ∈ l, keysB P v = true := by
  induction l with
  | nil => simp [keysLB]
  | cons v l ih => simp [keysLB, ih]

theorem keysB_reaches {P : Bytes → Bool} {t u : Tson} {ks : List Bytes} (h : Reaches t ks u) :
    keysB P t = true → keysB P u = true := by
  induction h with
  | here => exact id
  | member m k ks c t hc _ ih =>
    intro h
    simp only [keysB, keysFB_iff] at h
    exact ih (h _ (mget_mem hc)).2
  | element l k ks i c t _ hc _ ih =>
    intro h
    simp only [keysB, Bool.and_eq_true, keysLB_iff] at h
    exact ih (h.2 _ (List.mem_of_getElem? hc))

theorem keysB_keys {P : Bytes → Bool} {t : Tson} (h : keysB P t = true) :
    (∀ ks m, Reaches t ks (.obj m) → ∀ k ∈ mkeys m, P k = true) ∧
    (∀ ks l, Reaches t ks (.arr l) → (l.length : Int) ≤ maxInt64) := by
  constructor
  · intro ks m hm k hk
    have := keysB_reaches hm h
    simp only [keysB, keysFB_iff] at this
    obtain ⟨v, hv⟩ := mget_isSome.2 hk
    exact (this _ (mget_mem hv)).1
  · intro ks l hl
    have := keysB_reaches hl h
    simp only [keysB, Bool.and_eq_true, decide_eq_true_eq] at this
    exact this.1

theorem Named.of_check {t : Tson} (h : keysB (fun k => decide (k ≠ [])) t = true) : Named t :=
  ⟨fun ks m hm k hk => of_decide_eq_true ((keysB_keys h).1 ks m hm k hk), (keysB_keys h).2⟩

example : opsA.Wf ∧ opsB.Wf ∧ Named opsA ∧ Named opsB ∧ SameLengths opsA opsB := by
  refine ⟨by simp [opsA, Tson.Wf, Tson.WfF, Tson.WfL, mkeys], by simp [opsB, Tson.Wf, Tson.WfF, Tson.WfL, mkeys],
    .of_check (by decide), .of_check (by decide), ?_⟩
  intro ks l k h1 h2
  cases ks with
  | nil => cases h1
  | cons c ks =>
    obtain ⟨v, hv, h1⟩ := reaches_obj.1 h1
    obtain ⟨w, hw, h2⟩ := reaches_obj.1 h2
    simp only [mget] at hv hw
    split at hv
    · rename_i hc; subst hc; simp at hv; subst hv; cases h1
    · split at hv
      · rename_i hc; subst hc
        simp at hv; subst hv
        rw [if_pos rfl] at hw
        simp at hw; subst hw
        cases h1 with
        | here => cases h2; rfl
        | element _ _ _ i c _ e1 e2 e3 =>
          match i, e2 with
          | 0, e2 => simp at e2; subst e2; cases e3
          | 1, e2 => simp at e2; subst e2; cases e3
      · split at hv
        · rename_i hc; subst hc; simp at hv; subst hv
          cases h1 with
          | member _ _ _ _ _ e1 => cases e1
        · cases hv

end Verif
