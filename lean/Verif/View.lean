import Verif.Refine
import Verif.Logument
/-
Reading and allocating documents: a represented document is read back as its tree, and a tree
allocated on the heap is represented.
-/
namespace Verif

theorem optAll_members {f : HVal → Option Tson} {m : List (Bytes × HVal)} {tm : List (Bytes × Tson)}
    (hk : mkeys m = mkeys tm) (h : optAll f (m.map Prod.snd) = some (tm.map Prod.snd)) :
    optAll (fun kv => (f kv.2).map fun t => (kv.1, t)) m = some tm := by
  induction m generalizing tm with
  | nil =>
    cases tm with
    | nil => rfl
    | cons p tm => simp [mkeys] at hk
  | cons q m ih =>
    obtain ⟨k, v⟩ := q
    cases tm with
    | nil => simp [mkeys] at hk
    | cons p tm =>
      obtain ⟨k', t⟩ := p
      simp only [mkeys, List.map_cons, List.cons.injEq] at hk
      simp only [List.map_cons, optAll] at h ⊢
      cases hf : f v with
      | none => simp [hf] at h
      | some t' =>
        cases ho : optAll f (m.map Prod.snd) with
        | none => simp [hf, ho] at h
        | some ts' =>
          simp only [hf, ho, Option.some.injEq, List.cons.injEq] at h
          have := ih (tm := tm) hk.2 (by rw [ho, h.2])
          rw [this]
          simp [hk.1, h.1]

theorem RepL.read {h : Heap} {vs ts F} (hr : RepL h vs ts F) :
    ∀ (S : List Nat), (∀ x, F x → x ∈ S) → ∀ fuel, S.length ≤ fuel →
      optAll (h.read fuel) vs = some ts := by
  induction hr with
  | nil => intros; rfl
  | null _ ih =>
    intro S hS fuel hf
    simp only [optAll]
    rw [ih S hS fuel hf]
    simp [Heap.read]
  | leaf _ ih =>
    intro S hS fuel hf
    simp only [optAll]
    rw [ih S hS fuel hf]
    simp [Heap.read]
  | @obj vs ts a m tm F₁ F₂ h1 h2 h3 _ _ h6 h7 h8 ih1 ih2 =>
    intro S hS fuel hf
    simp only [optAll]
    rw [ih2 S (fun x hx => hS x (Or.inr (Or.inr hx))) fuel hf]
    have ha : a ∈ S := hS a (Or.inl rfl)
    have hlen := List.length_erase_of_mem ha
    have hpos := List.length_pos_of_mem ha
    obtain ⟨f, rfl⟩ : ∃ f, fuel = f + 1 := ⟨fuel - 1, by omega⟩
    have := ih1 (S.erase a) (fun x hx => by
      have hne : x ≠ a := by rintro rfl; exact h6 hx
      exact (List.mem_erase_of_ne hne).2 (hS x (Or.inr (Or.inl hx)))) f (by omega)
    simp only [Heap.read, h1, optAll_members h2 this, Option.map_some]
  | @arr vs ts a n l tl F₁ F₂ h1 h2 _ _ h6 h7 h8 ih1 ih2 =>
    intro S hS fuel hf
    simp only [optAll]
    rw [ih2 S (fun x hx => hS x (Or.inr (Or.inr hx))) fuel hf]
    have ha : a ∈ S := hS a (Or.inl rfl)
    have hlen := List.length_erase_of_mem ha
    have hpos := List.length_pos_of_mem ha
    obtain ⟨f, rfl⟩ : ∃ f, fuel = f + 1 := ⟨fuel - 1, by omega⟩
    have := ih1 (S.erase a) (fun x hx => by
      have hne : x ≠ a := by rintro rfl; exact h6 hx
      exact (List.mem_erase_of_ne hne).2 (hS x (Or.inr (Or.inl hx)))) f (by omega)
    simp only [Heap.read, h1, h2, if_true, this, Option.map_some]

/-- A represented document is read back as its tree. -/
theorem Rep.view {h : Heap} {v t F} (hr : Rep h v t F) : h.view v = some t := by
  have := RepL.read hr (List.range h.length) (fun x hx => List.mem_range.2 (hr.lt x hx))
    (h.length + 1) (by simp)
  simp only [optAll] at this
  unfold Heap.view
  cases hv : h.read (h.length + 1) v with
  | none => simp [hv] at this
  | some t' => simp [hv] at this; rw [this]

theorem Rep.unique {h : Heap} {v t F t' F'} (hr : Rep h v t F) (hr' : Rep h v t' F') : t = t' := by
  have := hr.view.symm.trans hr'.view
  simpa using this

theorem Heap.alloc_eq (h : Heap) (c : Cell) : h.alloc c = h ++ [c] := rfl

theorem storeF_keys (h : Heap) (m : List (Bytes × Tson)) : mkeys (h.storeF m).2 = mkeys m := by
  induction m generalizing h with
  | nil => rfl
  | cons p m ih =>
    obtain ⟨k, t⟩ := p
    simp only [Heap.storeF, mkeys, List.map_cons]
    congr 1
    exact ih _

mutual
/-- An allocated document is represented, in new cells only. -/
theorem store_rep (h : Heap) (t : Tson) (hw : t.Wf) :
    (∃ e, (h.store t).1 = h ++ e) ∧ ∃ F, Rep (h.store t).1 (h.store t).2 t F ∧ ∀ x, F x → h.length ≤ x := by
  match t with
  | .null => exact ⟨⟨[], by simp [Heap.store]⟩, _, Rep.null, fun _ hx => hx.elim⟩
  | .leaf p ts => exact ⟨⟨[], by simp [Heap.store]⟩, _, Rep.leaf, fun _ hx => hx.elim⟩
  | .obj m =>
    obtain ⟨⟨e, he⟩, F, hF, hl⟩ := storeF_rep h m hw.2
    simp only [Heap.store]
    refine ⟨⟨e ++ [.map (h.storeF m).2], by rw [Heap.alloc_eq, he, List.append_assoc]⟩, _,
      Rep.mk_obj (F := F) (Heap.alloc_new _ _) (storeF_keys h m) (by rw [storeF_keys]; exact hw.1) ?_ ?_, ?_⟩
    · exact hF.frame fun x hx => Heap.alloc_old (hF.lt x hx) _
    · intro hx; have := hF.lt _ hx; omega
    · rintro x (rfl | hx)
      · rw [he]; simp
      · exact hl x hx
  | .arr l =>
    obtain ⟨⟨e, he⟩, F, hF, hl⟩ := storeL_rep h l hw
    simp only [Heap.store]
    refine ⟨⟨e ++ [.back (h.storeL l).2], by rw [Heap.alloc_eq, he, List.append_assoc]⟩, _,
      Rep.mk_arr (F := F) (Heap.alloc_new _ _) (Nat.le_refl _) ?_ ?_, ?_⟩
    · rw [List.take_length]
      exact hF.frame fun x hx => Heap.alloc_old (hF.lt x hx) _
    · intro hx; have := hF.lt _ hx; omega
    · rintro x (rfl | hx)
      · rw [he]; simp
      · exact hl x hx
theorem storeF_rep (h : Heap) (m : List (Bytes × Tson)) (hw : Tson.WfF m) :
    (∃ e, (h.storeF m).1 = h ++ e) ∧
      ∃ F, RepL (h.storeF m).1 ((h.storeF m).2.map Prod.snd) (m.map Prod.snd) F ∧ ∀ x, F x → h.length ≤ x := by
  match m with
  | [] => exact ⟨⟨[], by simp [Heap.storeF]⟩, _, .nil, fun _ hx => hx.elim⟩
  | (k, t) :: m =>
    obtain ⟨⟨e, he⟩, F, hF, hl⟩ := store_rep h t hw.1
    obtain ⟨⟨e', he'⟩, G, hG, hl'⟩ := storeF_rep (h.store t).1 m hw.2
    simp only [Heap.storeF, List.map_cons]
    refine ⟨⟨e ++ e', by rw [he', he, List.append_assoc]⟩, _,
      RepL.cons (hF.frame fun x hx => ?_) hG ?_, ?_⟩
    · rw [he']; exact List.getElem?_append_left (hF.lt x hx)
    · intro x hx hx'; have := hF.lt x hx; have := hl' x hx'; omega
    · rintro x (hx | hx)
      · exact hl x hx
      · have := hl' x hx; rw [he] at this; simp at this; omega
theorem storeL_rep (h : Heap) (l : List Tson) (hw : Tson.WfL l) :
    (∃ e, (h.storeL l).1 = h ++ e) ∧
      ∃ F, RepL (h.storeL l).1 (h.storeL l).2 l F ∧ ∀ x, F x → h.length ≤ x := by
  match l with
  | [] => exact ⟨⟨[], by simp [Heap.storeL]⟩, _, .nil, fun _ hx => hx.elim⟩
  | t :: l =>
    obtain ⟨⟨e, he⟩, F, hF, hl⟩ := store_rep h t hw.1
    obtain ⟨⟨e', he'⟩, G, hG, hl'⟩ := storeL_rep (h.store t).1 l hw.2
    simp only [Heap.storeL]
    refine ⟨⟨e ++ e', by rw [he', he, List.append_assoc]⟩, _,
      RepL.cons (hF.frame fun x hx => ?_) hG ?_, ?_⟩
    · rw [he']; exact List.getElem?_append_left (hF.lt x hx)
    · intro x hx hx'; have := hF.lt x hx; have := hl' x hx'; omega
    · rintro x (hx | hx)
      · exact hl x hx
      · have := hl' x hx; rw [he] at this; simp at this; omega
end

/-! ### Represented trees are well-formed -/

theorem RepL.wf {h : Heap} {vs ts F} (hr : RepL h vs ts F) : ∀ t ∈ ts, t.Wf := by
  induction hr with
  | nil => simp
  | null _ ih => intro t ht; rcases List.mem_cons.1 ht with rfl | ht; exact trivial; exact ih t ht
  | leaf _ ih => intro t ht; rcases List.mem_cons.1 ht with rfl | ht; exact trivial; exact ih t ht
  | @obj vs ts a m tm F₁ F₂ h1 h2 h3 _ _ h6 h7 h8 ih1 ih2 =>
    intro t ht
    rcases List.mem_cons.1 ht with rfl | ht
    · refine ⟨by rw [← h2]; exact h3, (Tson.wfF_iff _).2 fun p hp => ?_⟩
      exact ih1 p.2 (List.mem_map.2 ⟨p, hp, rfl⟩)
    · exact ih2 t ht
  | @arr vs ts a n l tl F₁ F₂ h1 h2 _ _ h6 h7 h8 ih1 ih2 =>
    intro t ht
    rcases List.mem_cons.1 ht with rfl | ht
    · exact (Tson.wfL_iff _).2 ih1
    · exact ih2 t ht

theorem Rep.wf {h : Heap} {v t F} (hr : Rep h v t F) : t.Wf := RepL.wf hr t (by simp)

/-! ### Whole operations and patches on an object -/

theorem applyOperation_obj {h : Heap} {a t F} (hr : Rep h (.obj a) t F) (op : Op) :
    ∃ G, Rep (applyOperation h (.obj a) op).1 (.obj a) (applyOpT t op).1 G ∧
      (∀ x, G x → F x ∨ h.length ≤ x) ∧
      (∀ x, x < h.length → ¬ F x → (applyOperation h (.obj a) op).1[x]? = h[x]?) ∧
      h.length ≤ (applyOperation h (.obj a) op).1.length ∧
      (((applyOpT t op).2 = .ok (applyOpT t op).1 ∧ (applyOperation h (.obj a) op).2 = .ok (.obj a)) ∨
       ((applyOpT t op).2 = .err ∧ (applyOperation h (.obj a) op).2 = .err) ∨
       ((applyOpT t op).2 = .panic ∧ (applyOperation h (.obj a) op).2 = .panic)) := by
  have P := refine_applyTraverse op (writeParts op.path) h (.obj a) t F hr
  change Post h (.obj a) F (applyOperation h (.obj a) op) (applyOpT t op) at P
  obtain ⟨G, hG, hl⟩ := P.old (Or.inl ⟨a, rfl⟩)
  refine ⟨G, hG, hl, P.frame, P.len, ?_⟩
  have hout := P.out
  cases hR : (applyOperation h (.obj a) op).2 with
  | ok w =>
    obtain ⟨rfl, h2⟩ := P.same ⟨a, rfl⟩ w hR
    exact Or.inl ⟨h2, rfl⟩
  | err =>
    rw [hR] at hout
    cases hT : (applyOpT t op).2 <;> rw [hT] at hout <;> simp [OutRel] at hout ⊢
  | panic =>
    rw [hR] at hout
    cases hT : (applyOpT t op).2 <;> rw [hT] at hout <;> simp [OutRel] at hout ⊢

theorem applyPatchLoop_obj (ops : List Op) : ∀ {h : Heap} {a t F}, Rep h (.obj a) t F → ∀ w : HVal,
    ∃ G, Rep (applyPatchLoop h (.obj a) w ops).1 (.obj a) (applyPatchT t ops).1 G ∧
      (∀ x, G x → F x ∨ h.length ≤ x) ∧
      (∀ x, x < h.length → ¬ F x → (applyPatchLoop h (.obj a) w ops).1[x]? = h[x]?) ∧
      h.length ≤ (applyPatchLoop h (.obj a) w ops).1.length ∧
      (applyPatchLoop h (.obj a) w ops).2 =
        (applyPatchT t ops).2.map fun _ => if ops = [] then w else .obj a := by
  induction ops with
  | nil =>
    intro h a t F hr w
    exact ⟨F, hr, fun x hx => Or.inl hx, fun _ _ _ => rfl, Nat.le_refl _, rfl⟩
  | cons op ops ih =>
    intro h a t F hr w
    obtain ⟨G, hG, hGF, hfr, hlen, hout⟩ := applyOperation_obj hr op
    rcases hT : applyOpT t op with ⟨t', r'⟩
    rcases hH : applyOperation h (.obj a) op with ⟨h', r⟩
    rw [hT, hH] at hG hout
    rw [hH] at hfr hlen
    simp only at hG hout hfr hlen
    rcases hout with ⟨h1, h2⟩ | ⟨h1, h2⟩ | ⟨h1, h2⟩
    · subst h1; subst h2
      obtain ⟨G', hG', hGF', hfr', hlen', hout'⟩ := ih hG (.obj a)
      simp only [applyPatchLoop, hH, applyPatchT, hT]
      refine ⟨G', hG', ?_, ?_, by omega, ?_⟩
      · intro x hx
        rcases hGF' x hx with hx | hx
        · exact hGF x hx
        · right; omega
      · intro x hx hn
        rw [hfr' x (by omega) ?_, hfr x hx hn]
        intro hg
        rcases hGF x hg with hg | hg
        · exact hn hg
        · omega
      · rw [hout']; congr 1; funext _; simp
    · subst h1; subst h2
      simp only [applyPatchLoop, hH, applyPatchT, hT]
      exact ⟨G, hG, hGF, hfr, hlen, rfl⟩
    · subst h1; subst h2
      simp only [applyPatchLoop, hH, applyPatchT, hT]
      exact ⟨G, hG, hGF, hfr, hlen, rfl⟩

theorem applyT_obj (m : List (Bytes × Tson)) (parts : List Bytes) (op : Op) :
    ∃ m', (applyT (.obj m) parts op).1 = .obj m' := by
  cases parts with
  | nil => exact ⟨m, rfl⟩
  | cons part rest =>
    have hA : ∀ T, ∃ m', (assignFieldT m part T).1 = .obj m' := by
      rintro ⟨o, r⟩; cases r <;> exact ⟨_, rfl⟩
    have hB : ∀ l i T, ∃ m', (assignFromElemT m part l i T).1 = .obj m' := by
      rintro l i ⟨o, r⟩; cases r <;> exact ⟨_, rfl⟩
    unfold applyT
    dsimp only
    repeat' split
    all_goals first | exact ⟨_, rfl⟩ | exact hA _ | exact hB _ _ _

theorem applyOpT_obj (m : List (Bytes × Tson)) (op : Op) : ∃ m', (applyOpT (.obj m) op).1 = .obj m' :=
  applyT_obj m _ op

theorem applyPatchT_append (t : Tson) (p q : List Op) :
    applyPatchT t (p ++ q) =
      match applyPatchT t p with
      | (t', .ok _) => applyPatchT t' q
      | (t', .err) => (t', .err)
      | (t', .panic) => (t', .panic) := by
  induction p generalizing t with
  | nil => rfl
  | cons op p ih =>
    simp only [List.cons_append, applyPatchT]
    rcases applyOpT t op with ⟨t', r⟩
    cases r with
    | ok => exact ih t'
    | err => rfl
    | panic => rfl

end Verif
