import Verif.JsonImport
/-
Documents that differ in the order of their members only.
-/
namespace Verif

theorem nodup_subset_perm [DecidableEq α] : ∀ {m n : List α}, m.Nodup → (∀ x ∈ m, x ∈ n) → m.length = n.length → m.Perm n
  | [], n, _, _, hl => by
    have : n = [] := List.eq_nil_of_length_eq_zero hl.symm
    subst this; exact .nil
  | a :: m, n, hm, hs, hl => by
    rw [List.nodup_cons] at hm
    rw [List.forall_mem_cons] at hs
    have hp := List.perm_cons_erase hs.1
    refine List.Perm.trans (List.Perm.cons a (nodup_subset_perm hm.2 (fun x hx => ?_) ?_)) hp.symm
    · refine (List.mem_erase_of_ne ?_).2 (hs.2 x hx)
      rintro rfl; exact hm.1 hx
    · rw [List.length_erase_of_mem hs.1, ← hl]; simp

/-- Two maps of the same size, every member of the first having its partner in the second, have the same keys. -/
theorem partner_keys {R : α → β → Prop} {m : List (Bytes × α)} {n : List (Bytes × β)} (hm : (mkeys m).Nodup)
    (hl : m.length = n.length) (h : ∀ p ∈ m, ∃ w, mget n p.1 = some w ∧ R p.2 w) : (mkeys m).Perm (mkeys n) := by
  refine nodup_subset_perm hm (fun k hk => ?_) (by simp [mkeys, hl])
  obtain ⟨p, hp, rfl⟩ := List.mem_map.1 hk
  obtain ⟨w, hw, -⟩ := h p hp
  exact List.mem_map.2 ⟨_, mget_mem hw, rfl⟩

/-- Then every member of the second has its partner in the first. -/
theorem partner_symm {R : α → β → Prop} {m : List (Bytes × α)} {n : List (Bytes × β)} (hm : (mkeys m).Nodup)
    (hn : (mkeys n).Nodup) (hl : m.length = n.length) (h : ∀ p ∈ m, ∃ w, mget n p.1 = some w ∧ R p.2 w) :
    ∀ q ∈ n, ∃ v, mget m q.1 = some v ∧ R v q.2 := by
  intro q hq
  have hk := (partner_keys hm hl h).symm.subset (List.mem_map.2 ⟨q, hq, rfl⟩)
  obtain ⟨p, hp, e⟩ := List.mem_map.1 hk
  obtain ⟨w, hw, hR⟩ := h p hp
  refine ⟨p.2, ?_, ?_⟩
  · rw [← e]; exact mem_mget hm (show (p.1, p.2) ∈ m from hp)
  · rw [e, mem_mget hn (show (q.1, q.2) ∈ n from hq)] at hw
    cases hw; exact hR

theorem docRelL_iff_forall₂ (R : Prim → Int → Prim → Int → Prop) (l k : List Tson) :
    DocRelL R l k ↔ l.length = k.length ∧ ∀ p ∈ l.zip k, DocRel R p.1 p.2 := by
  induction l generalizing k with
  | nil => cases k <;> simp [DocRelL]
  | cons v l ih => cases k <;> simp [DocRelL, ih, and_left_comm]

theorem docRel_symm {R : Prim → Int → Prim → Int → Prop} (hR : ∀ p t q u, R p t q u → R q u p t) (a : Tson) :
    a.Wf → ∀ b, b.Wf → DocRel R a b → DocRel R b a := by
  induction a using Tson.induction with
  | null => intro _ b _ h; cases b <;> simp_all [DocRel]
  | leaf p t => intro _ b _ h; cases b <;> simp only [DocRel] at h ⊢; exact hR _ _ _ _ h
  | obj m ih =>
    intro ha b hb h
    cases b <;> simp only [DocRel] at h ⊢
    rename_i n
    rw [docRelF_iff] at h ⊢
    refine ⟨h.1.symm, fun q hq => ?_⟩
    obtain ⟨v, hv, hr⟩ := partner_symm ha.1 hb.1 h.1 h.2 q hq
    have hm := mget_mem hv
    exact ⟨v, hv, ih _ hm ((Tson.wfF_iff m).1 ha.2 _ hm) _ ((Tson.wfF_iff n).1 hb.2 q hq) hr⟩
  | arr l ih =>
    intro ha b hb h
    cases b <;> simp only [DocRel] at h ⊢
    rename_i k
    change Tson.WfL l at ha
    change Tson.WfL k at hb
    induction l generalizing k with
    | nil => cases k <;> simp_all [DocRelL]
    | cons v l ihl =>
      cases k with
      | nil => simp [DocRelL] at h
      | cons w k =>
        rw [List.forall_mem_cons] at ih
        exact ⟨ih.1 ha.1 w hb.1 h.1, ihl ih.2 k h.2 ha.2 hb.2⟩

theorem docRel_trans {R : Prim → Int → Prim → Int → Prop} (hR : ∀ p t q u r v, R p t q u → R q u r v → R p t r v)
    (a : Tson) : ∀ b c, DocRel R a b → DocRel R b c → DocRel R a c := by
  induction a using Tson.induction with
  | null => intro b c h h'; cases b <;> simp only [DocRel] at h; exact h'
  | leaf p t =>
    intro b c h h'
    cases b <;> simp only [DocRel] at h
    cases c <;> simp only [DocRel] at h' ⊢
    exact hR _ _ _ _ _ _ h h'
  | obj m ih =>
    intro b c h h'
    cases b <;> simp only [DocRel] at h
    cases c <;> simp only [DocRel] at h' ⊢
    rw [docRelF_iff] at h h' ⊢
    refine ⟨h.1.trans h'.1, fun p hp => ?_⟩
    obtain ⟨v, hv, hr⟩ := h.2 p hp
    obtain ⟨w, hw, hs⟩ := h'.2 _ (mget_mem hv)
    exact ⟨w, hw, ih p hp _ _ hr hs⟩
  | arr l ih =>
    intro b c h h'
    cases b <;> simp only [DocRel] at h
    cases c <;> simp only [DocRel] at h' ⊢
    rename_i k j
    induction l generalizing k j with
    | nil => cases k <;> simp_all [DocRelL]
    | cons v l ihl =>
      cases k with
      | nil => simp [DocRelL] at h
      | cons w k =>
        cases j with
        | nil => simp [DocRelL] at h'
        | cons x j =>
          rw [List.forall_mem_cons] at ih
          exact ⟨ih.1 w x h.1 h'.1, ihl ih.2 k h.2 j h'.2⟩

theorem docRel_refl {R : Prim → Int → Prim → Int → Prop} (hR : ∀ p t, R p t p t) (a : Tson) : a.Wf → DocRel R a a := by
  induction a using Tson.induction with
  | null => intro _; trivial
  | leaf p ts => intro _; exact hR p ts
  | obj m ih =>
    intro h
    refine ⟨rfl, (docRelF_iff R _ _).2 fun p hp => ?_⟩
    exact ⟨p.2, mem_mget h.1 (show (p.1, p.2) ∈ m from hp), ih p hp ((Tson.wfF_iff m).1 h.2 p hp)⟩
  | arr l ih =>
    intro h
    have h' := (Tson.wfL_iff l).1 h
    show DocRelL R l l
    clear h
    induction l with
    | nil => trivial
    | cons v l ihl =>
      rw [List.forall_mem_cons] at ih h'
      exact ⟨ih.1 h'.1, ihl ih.2 h'.2⟩

theorem sameDoc_symm {a b : Tson} (ha : a.Wf) (hb : b.Wf) (h : SameDoc a b) : SameDoc b a :=
  docRel_symm (fun _ _ _ _ h => ⟨h.1.symm, h.2.symm⟩) a ha b hb h

/-! ### Readable documents -/

theorem readableF_iff (P : Nat → Bool) (m : List (Bytes × Tson)) :
    ReadableF P m ↔ ∀ p ∈ m, PlainText P p.1 ∧ Readable P p.2 := by
  induction m with
  | nil => simp [ReadableF]
  | cons p m ih => obtain ⟨k, v⟩ := p; simp only [ReadableF, ih, List.forall_mem_cons, and_assoc]

theorem sameDoc_readable (P : Nat → Bool) (a : Tson) : ∀ b, SameDoc a b → Readable P b → Readable P a := by
  unfold SameDoc
  induction a using Tson.induction with
  | null => intro b h h'; cases b <;> simp_all [DocRel]
  | leaf p ts =>
    intro b h h'
    cases b <;> simp only [DocRel] at h
    obtain ⟨rfl, rfl⟩ := h; exact h'
  | obj m ih =>
    intro b h h'
    cases b <;> simp only [DocRel] at h
    rename_i n
    rw [docRelF_iff] at h
    refine (readableF_iff P m).2 fun p hp => ?_
    obtain ⟨w, hw, hr⟩ := h.2 p hp
    have := (readableF_iff P n).1 h' _ (mget_mem hw)
    exact ⟨this.1, ih p hp w hr this.2⟩
  | arr l ih =>
    intro b h h'
    cases b <;> simp only [DocRel] at h
    rename_i k
    change ReadableL P k at h'
    show ReadableL P l
    induction l generalizing k with
    | nil => trivial
    | cons v l ihl =>
      cases k with
      | nil => simp [DocRelL] at h
      | cons w k =>
        rw [List.forall_mem_cons] at ih
        exact ⟨ih.1 w h.1 h'.1, ihl ih.2 k h.2 h'.2⟩

theorem clampTsF_eq (m : List (Bytes × Tson)) : clampTsF m = mapV clampTs m := by
  induction m with
  | nil => rfl
  | cons p m ih => obtain ⟨k, v⟩ := p; rw [clampTsF, ih]; rfl
theorem clampTsL_eq (l : List Tson) : clampTsL l = l.map clampTs := by
  induction l with
  | nil => rfl
  | cons v l ih => rw [clampTsL, ih]; rfl

theorem sameDoc_clampTs (a : Tson) : ∀ b, SameDoc a b → SameDoc (clampTs a) (clampTs b) := by
  unfold SameDoc
  induction a using Tson.induction with
  | null => intro b h; cases b <;> simp_all [DocRel, clampTs]
  | leaf p ts =>
    intro b h
    cases b <;> simp only [DocRel] at h
    obtain ⟨rfl, rfl⟩ := h; exact ⟨rfl, rfl⟩
  | obj m ih =>
    intro b h
    cases b <;> simp only [DocRel] at h
    rename_i n
    rw [docRelF_iff] at h
    rw [clampTs, clampTs, clampTsF_eq, clampTsF_eq]
    refine ⟨by rw [mapV_length, mapV_length]; exact h.1, (docRelF_iff _ _ _).2 fun p hp => ?_⟩
    unfold mapV at hp
    obtain ⟨q, hq, rfl⟩ := List.mem_map.1 hp
    obtain ⟨w, hw, hr⟩ := h.2 q hq
    exact ⟨clampTs w, by rw [mget_mapV, hw]; rfl, ih q hq w hr⟩
  | arr l ih =>
    intro b h
    cases b <;> simp only [DocRel] at h
    rename_i k
    rw [clampTs, clampTs, clampTsL_eq, clampTsL_eq]
    show DocRelL _ (l.map clampTs) (k.map clampTs)
    induction l generalizing k with
    | nil => cases k <;> simp_all [DocRelL]
    | cons v l ihl =>
      cases k with
      | nil => simp [DocRelL] at h
      | cons w k =>
        rw [List.forall_mem_cons] at ih
        exact ⟨ih.1 w h.1, ihl ih.2 k h.2⟩

/-! ### Writing with sorted keys -/

/-- The members of a map as produced one by one by a function that may fail. -/
def collect (f : Tson → Res Js) : List (Bytes × Tson) → Res (List (Bytes × Js))
  | [] => .ok []
  | (k, v) :: m => (f v).bind fun j => (collect f m).map fun r => (k, j) :: r

theorem collect_ok {f : Tson → Res Js} {g : Tson → Js} : ∀ {m : List (Bytes × Tson)}, (∀ p ∈ m, f p.2 = .ok (g p.2)) →
    collect f m = .ok (mapV g m)
  | [], _ => rfl
  | (k, v) :: m, h => by
    rw [List.forall_mem_cons] at h
    rw [collect, h.1, Res.bind_ok, collect_ok h.2]; rfl

theorem collect_err {f : Tson → Res Js} (hf : ∀ v, f v ≠ .panic) : ∀ {m : List (Bytes × Tson)},
    (∃ p ∈ m, f p.2 = .err) → collect f m = .err
  | [], h => by simp at h
  | (k, v) :: m, h => by
    rw [collect]
    cases hv : f v with
    | err => rfl
    | panic => exact absurd hv (hf v)
    | ok j =>
      rw [Res.bind_ok, collect_err hf (m := m)]
      · rfl
      · obtain ⟨p, hp, he⟩ := h
        rcases List.mem_cons.1 hp with rfl | hp
        · simp only at he; rw [hv] at he; cases he
        · exact ⟨p, hp, he⟩

/-- The sorted result does not depend on the order of the members. -/
theorem collect_sorted {f : Tson → Res Js} (hf : ∀ v, f v ≠ .panic) {m n : List (Bytes × Tson)} (hm : (mkeys m).Nodup)
    (hn : (mkeys n).Nodup) (hl : m.length = n.length) (h : ∀ p ∈ m, ∃ w, mget n p.1 = some w ∧ f p.2 = f w) :
    (collect f m).map sortM = (collect f n).map sortM := by
  have hs := partner_symm (R := fun v w => f v = f w) hm hn hl h
  by_cases he : ∃ p ∈ m, f p.2 = .err
  · rw [collect_err hf he, collect_err hf]
    obtain ⟨p, hp, he⟩ := he
    obtain ⟨w, hw, e⟩ := h p hp
    exact ⟨_, mget_mem hw, by rw [← e]; exact he⟩
  · have he' : ¬ ∃ p ∈ n, f p.2 = .err := by
      rintro ⟨q, hq, e⟩
      obtain ⟨v, hv, e'⟩ := hs q hq
      exact he ⟨_, mget_mem hv, by rw [← e]; exact e'⟩
    let g : Tson → Js := fun v => match f v with | .ok j => j | _ => .null
    have hg : ∀ v, f v ≠ .err → f v = .ok (g v) := by
      intro v hv
      cases h : f v with
      | err => exact absurd h hv
      | panic => exact absurd h (hf v)
      | ok j => simp only [g, h]
    rw [collect_ok (g := g) fun p hp => hg _ fun e => he ⟨p, hp, e⟩,
      collect_ok (g := g) fun p hp => hg _ fun e => he' ⟨p, hp, e⟩, Res.map_ok, Res.map_ok]
    congr 1
    have hm' : (mkeys (mapV g m)).Nodup := by rw [mkeys_mapV]; exact hm
    refine sortM_eq ?_ hm'
    classical
    refine nodup_subset_perm ?_ (fun x hx => ?_) ?_
    · exact (List.pairwise_map.1 hm').imp fun h e => h (congrArg Prod.fst e)
    · unfold mapV at hx
      obtain ⟨p, hp, rfl⟩ := List.mem_map.1 hx
      obtain ⟨w, hw, e⟩ := h p hp
      refine List.mem_map.2 ⟨_, mget_mem hw, ?_⟩
      simp only [g, e]
    · rw [mapV_length, mapV_length]; exact hl

theorem toSortedF_eq (m : List (Bytes × Tson)) : toSortedF m = collect toSortedInterface m := by
  induction m with
  | nil => rfl
  | cons p m ih => obtain ⟨k, v⟩ := p; rw [toSortedF, collect, ih]
theorem encTsonF_eq (m : List (Bytes × Tson)) : encTsonF m = collect encTson m := by
  induction m with
  | nil => rfl
  | cons p m ih => obtain ⟨k, v⟩ := p; rw [encTsonF, collect, ih]

theorem collect_ne_panic {f : Tson → Res Js} : ∀ {m : List (Bytes × Tson)}, (∀ p ∈ m, f p.2 ≠ .panic) →
    collect f m ≠ .panic
  | [], _ => by simp [collect]
  | (k, v) :: m, h => by
    rw [List.forall_mem_cons] at h
    have := collect_ne_panic h.2
    rw [collect]
    cases hv : f v with
    | err => simp [Res.bind]
    | panic => exact absurd hv h.1
    | ok j =>
      rw [Res.bind_ok]
      cases hc : collect f m with
      | err => simp [Res.map]
      | panic => exact absurd hc this
      | ok j => simp [Res.map]

theorem toSortedL_ne_panic : ∀ {l : List Tson}, (∀ v ∈ l, toSortedInterface v ≠ .panic) → toSortedL l ≠ .panic
  | [], _ => by simp [toSortedL]
  | v :: l, h => by
    rw [List.forall_mem_cons] at h
    have := toSortedL_ne_panic h.2
    rw [toSortedL]
    cases hv : toSortedInterface v with
    | err => simp [Res.bind]
    | panic => exact absurd hv h.1
    | ok j =>
      rw [Res.bind_ok]
      cases hc : toSortedL l with
      | err => simp [Res.map]
      | panic => exact absurd hc this
      | ok j => simp [Res.map]

theorem encTsonL_ne_panic : ∀ {l : List Tson}, (∀ v ∈ l, encTson v ≠ .panic) → encTsonL l ≠ .panic
  | [], _ => by simp [encTsonL]
  | v :: l, h => by
    rw [List.forall_mem_cons] at h
    have := encTsonL_ne_panic h.2
    rw [encTsonL]
    cases hv : encTson v with
    | err => simp [Res.bind]
    | panic => exact absurd hv h.1
    | ok j =>
      rw [Res.bind_ok]
      cases hc : encTsonL l with
      | err => simp [Res.map]
      | panic => exact absurd hc this
      | ok j => simp [Res.map]

theorem map_ne_panic {r : Res α} {f : α → β} (h : r ≠ .panic) : r.map f ≠ .panic := by
  cases r <;> simp_all [Res.map]

theorem toSortedInterface_ne_panic (t : Tson) : toSortedInterface t ≠ .panic := by
  induction t using Tson.induction with
  | null => simp [toSortedInterface]
  | leaf p ts => simp [toSortedInterface]
  | obj m ih => rw [toSortedInterface, toSortedF_eq]; exact map_ne_panic (collect_ne_panic ih)
  | arr l ih => rw [toSortedInterface]; exact map_ne_panic (toSortedL_ne_panic ih)

theorem encPrim_ne_panic (p : Prim) : encPrim p ≠ .panic := by
  cases p with
  | str s => simp [encPrim]
  | bool b => simp [encPrim]
  | num f => cases f <;> simp [encPrim]

theorem encTson_ne_panic (t : Tson) : encTson t ≠ .panic := by
  induction t using Tson.induction with
  | null => simp [encTson]
  | leaf p ts => rw [encTson]; exact map_ne_panic (encPrim_ne_panic p)
  | obj m ih => rw [encTson, encTsonF_eq]; exact map_ne_panic (collect_ne_panic ih)
  | arr l ih => rw [encTson]; exact map_ne_panic (encTsonL_ne_panic ih)

theorem Res.map_map {r : Res α} {f : α → β} {g : β → γ} : r.map (fun x => g (f x)) = (r.map f).map g := by
  cases r <;> rfl

theorem sortedInterface_same (a : Tson) : a.Wf → ∀ b, b.Wf → SameDoc a b →
    toSortedInterface a = toSortedInterface b := by
  unfold SameDoc
  induction a using Tson.induction with
  | null => intro _ b _ h; cases b <;> simp_all [DocRel]
  | leaf p ts =>
    intro _ b _ h
    cases b <;> simp only [DocRel] at h
    obtain ⟨rfl, rfl⟩ := h; rfl
  | obj m ih =>
    intro ha b hb h
    cases b <;> simp only [DocRel] at h
    rename_i n
    rw [docRelF_iff] at h
    rw [toSortedInterface, toSortedInterface, toSortedF_eq, toSortedF_eq, Res.map_map (f := sortM) (g := Js.obj),
      Res.map_map (f := sortM) (g := Js.obj)]
    rw [collect_sorted toSortedInterface_ne_panic ha.1 hb.1 h.1 fun p hp => ?_]
    obtain ⟨w, hw, hr⟩ := h.2 p hp
    exact ⟨w, hw, ih p hp ((Tson.wfF_iff m).1 ha.2 p hp) w ((Tson.wfF_iff n).1 hb.2 _ (mget_mem hw)) hr⟩
  | arr l ih =>
    intro ha b hb h
    cases b <;> simp only [DocRel] at h
    rename_i k
    rw [toSortedInterface, toSortedInterface]
    congr 1
    change Tson.WfL l at ha
    change Tson.WfL k at hb
    induction l generalizing k with
    | nil => cases k <;> simp_all [DocRelL]
    | cons v l ihl =>
      cases k with
      | nil => simp [DocRelL] at h
      | cons w k =>
        rw [List.forall_mem_cons] at ih
        rw [toSortedL, toSortedL, ih.1 ha.1 w hb.1 h.1, ihl ih.2 k h.2 ha.2 hb.2]

theorem encTson_same (a : Tson) : a.Wf → ∀ b, b.Wf → SameDoc a b → encTson a = encTson b := by
  unfold SameDoc
  induction a using Tson.induction with
  | null => intro _ b _ h; cases b <;> simp_all [DocRel]
  | leaf p ts =>
    intro _ b _ h
    cases b <;> simp only [DocRel] at h
    obtain ⟨rfl, rfl⟩ := h; rfl
  | obj m ih =>
    intro ha b hb h
    cases b <;> simp only [DocRel] at h
    rename_i n
    rw [docRelF_iff] at h
    rw [encTson, encTson, encTsonF_eq, encTsonF_eq, Res.map_map (f := sortM) (g := fun l => Js.obj (l.map encKey)),
      Res.map_map (f := sortM) (g := fun l => Js.obj (l.map encKey))]
    rw [collect_sorted encTson_ne_panic ha.1 hb.1 h.1 fun p hp => ?_]
    obtain ⟨w, hw, hr⟩ := h.2 p hp
    exact ⟨w, hw, ih p hp ((Tson.wfF_iff m).1 ha.2 p hp) w ((Tson.wfF_iff n).1 hb.2 _ (mget_mem hw)) hr⟩
  | arr l ih =>
    intro ha b hb h
    cases b <;> simp only [DocRel] at h
    rename_i k
    rw [encTson, encTson]
    congr 1
    change Tson.WfL l at ha
    change Tson.WfL k at hb
    induction l generalizing k with
    | nil => cases k <;> simp_all [DocRelL]
    | cons v l ihl =>
      cases k with
      | nil => simp [DocRelL] at h
      | cons w k =>
        rw [List.forall_mem_cons] at ih
        rw [encTsonL, encTsonL, ih.1 ha.1 w hb.1 h.1, ihl ih.2 k h.2 ha.2 hb.2]

end Verif
