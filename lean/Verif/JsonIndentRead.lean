import Verif.JsonIndent
/-
Reading the texts of `json.MarshalIndent`.
-/
namespace Verif

theorem blank_newline (d : Nat) : Blank (newline iw d) := by
  intro c hc
  rcases List.mem_cons.1 hc with rfl | hc
  · exact .inr rfl
  · exact .inl (List.mem_replicate.1 hc).2

theorem members_read (d : Nat) : ∀ m : List (Bytes × Bytes × Jt), m ≠ [] → (∀ x ∈ m, TextReads x.2.1 x.2.2) → ∀ N w rest, Blank w →
    2 * (indMembers iw d (m.map fun x => (x.1, x.2.1))).length < N →
    readMembers N (indMembers iw d (m.map fun x => (x.1, x.2.1)) ++ (w ++ 125 :: rest)) = some (m.map fun x => (sanitize x.1, x.2.2), rest)
  | [], h, _, _, _, _, _, _ => absurd rfl h
  | (k, s, jt) :: m, _, hm, N, w, rest, hw, hN => by
    have h1 : TextReads s jt := hm (k, s, jt) (by simp)
    rw [List.map_cons, indMembers_cons] at hN ⊢
    obtain ⟨N, rfl⟩ : ∃ n, N = n + 1 := ⟨N - 1, by omega⟩
    simp only [List.length_append, List.length_cons] at hN
    by_cases hnil : m = []
    · subst hnil
      have := readMembers_last (N := N) (w1 := [32]) (rest := rest) (litReads_json k) (by decide) h1 hw (by omega)
      simp only [jsonStr, List.cons_append, List.append_assoc, List.nil_append, List.map_nil, if_true] at this ⊢
      exact this
    · rw [if_neg (by simpa using hnil)] at hN ⊢
      have g := members_read (iw := iw) d m hnil (fun x hx => hm x (by simp [hx])) N w rest hw (by simp at hN; omega)
      have hX : readMembers N (skipWs (indMembers iw d (m.map fun x => (x.1, x.2.1)) ++ (w ++ 125 :: rest))) =
          some (m.map fun x => (sanitize x.1, x.2.2), rest) := by
        obtain ⟨x, m', rfl⟩ : ∃ x m', m = x :: m' := List.exists_cons_of_ne_nil hnil
        rw [List.map_cons, indMembers_cons] at g ⊢
        simp only [jsonStr, List.cons_append] at g ⊢
        rw [skipWs_of_not (by decide)]
        exact g
      have := readMembers_more (w1 := [32]) (litReads_json k) (by decide) h1 (blank_newline (iw := iw) d) hX (by omega)
      simp only [jsonStr, List.cons_append, List.append_assoc, List.nil_append, List.map_cons] at this ⊢
      exact this

theorem elems_read (d : Nat) : ∀ m : List (Bytes × Jt), m ≠ [] → (∀ x ∈ m, TextReads x.1 x.2) → ∀ N w rest, Blank w →
    2 * (indElems iw d (m.map fun x => x.1)).length + 1 < N →
    readElems N (indElems iw d (m.map fun x => x.1) ++ (w ++ 93 :: rest)) = some (m.map fun x => x.2, rest)
  | [], h, _, _, _, _, _, _ => absurd rfl h
  | (s, jt) :: m, _, hm, N, w, rest, hw, hN => by
    have h1 : TextReads s jt := hm (s, jt) (by simp)
    rw [List.map_cons, indElems_cons] at hN ⊢
    obtain ⟨N, rfl⟩ : ∃ n, N = n + 1 := ⟨N - 1, by omega⟩
    simp only [List.length_append] at hN
    by_cases hnil : m = []
    · subst hnil
      have := readElems_one (N := N) (rest := rest) h1 hw (by omega)
      simp only [List.map_nil, if_true, List.append_nil, List.map_cons]
      exact this
    · rw [if_neg (by simpa using hnil)] at hN ⊢
      simp only [List.length_cons, List.length_append] at hN
      have g := elems_read (iw := iw) d m hnil (fun x hx => hm x (by simp [hx])) N w rest hw (by omega)
      have hX : readElems N (skipWs (indElems iw d (m.map fun x => x.1) ++ (w ++ 93 :: rest))) = some (m.map fun x => x.2, rest) := by
        obtain ⟨x, m', rfl⟩ : ∃ x m', m = x :: m' := List.exists_cons_of_ne_nil hnil
        obtain ⟨⟨c, r, e, hc⟩, -⟩ := hm x (by simp)
        rw [List.map_cons, indElems_cons, e] at g ⊢
        simp only [List.cons_append] at g ⊢
        rw [skipWs_of_not hc]
        exact g
      have := readElems_more (N := N) (w := newline iw d) h1 (blank_newline d) (by omega) hX
      simp only [List.cons_append, List.append_assoc, List.map_cons] at this ⊢
      exact this

/-- An indented object is read member by member. -/
theorem textReads_obj (d : Nat) (m : List (Bytes × Bytes × Jt)) (hm : ∀ x ∈ m, TextReads x.2.1 x.2.2) :
    TextReads (indObj iw d (m.map fun x => (x.1, x.2.1))) (.obj (m.map fun x => (sanitize x.1, x.2.2))) := by
  unfold indObj
  by_cases hnil : m = []
  · subst hnil
    refine ⟨⟨123, _, rfl, by decide⟩, fun N rest _ hN => ?_⟩
    obtain ⟨N, rfl⟩ : ∃ n, N = n + 1 := ⟨N - 1, by omega⟩
    simp only [List.map_nil, if_true, List.nil_append, List.cons_append, readVal]
    rw [skipWs_of_not (by decide)]; rfl
  · rw [if_neg (by simpa using hnil)]
    refine ⟨⟨123, _, rfl, by decide⟩, fun N rest _ hN => ?_⟩
    obtain ⟨N, rfl⟩ : ∃ n, N = n + 1 := ⟨N - 1, by omega⟩
    simp only [List.length_cons, List.length_append] at hN
    have g := members_read (iw := iw) (d + 1) m hnil hm N (newline iw d) rest (blank_newline d) (by omega)
    obtain ⟨r, e⟩ : ∃ r, indMembers iw (d + 1) (m.map fun x => (x.1, x.2.1)) ++ (newline iw d ++ 125 :: rest) = 34 :: r := by
      obtain ⟨x, m', rfl⟩ : ∃ x m', m = x :: m' := List.exists_cons_of_ne_nil hnil
      rw [List.map_cons, indMembers_cons]
      exact ⟨_, by simp only [jsonStr, List.cons_append]; rfl⟩
    rw [e] at g
    have := readVal_obj (w := newline iw (d + 1)) (blank_newline (d + 1)) g
    rw [← e] at this
    simp only [List.cons_append, List.append_assoc, List.nil_append] at this ⊢
    exact this

/-- An indented array is read element by element. -/
theorem textReads_arr (d : Nat) (m : List (Bytes × Jt)) (hm : ∀ x ∈ m, TextReads x.1 x.2 ∧ Opens x.1) :
    TextReads (indArr iw d (m.map fun x => x.1)) (.arr (m.map fun x => x.2)) := by
  unfold indArr
  by_cases hnil : m = []
  · subst hnil
    refine ⟨⟨91, _, rfl, by decide⟩, fun N rest _ hN => ?_⟩
    obtain ⟨N, rfl⟩ : ∃ n, N = n + 1 := ⟨N - 1, by omega⟩
    simp only [List.map_nil, if_true, List.nil_append, List.cons_append, readVal]
    rw [if_neg (by decide), skipWs_of_not (by decide)]; rfl
  · rw [if_neg (by simpa using hnil)]
    refine ⟨⟨91, _, rfl, by decide⟩, fun N rest _ hN => ?_⟩
    obtain ⟨N, rfl⟩ : ∃ n, N = n + 1 := ⟨N - 1, by omega⟩
    simp only [List.length_cons, List.length_append, newline, List.length_replicate] at hN
    have g := elems_read (iw := iw) (d + 1) m hnil (fun x hx => (hm x hx).1) N (newline iw d) rest (blank_newline d) (by omega)
    obtain ⟨c, r, e, c1, c2⟩ : ∃ c r, indElems iw (d + 1) (m.map fun x => x.1) ++ (newline iw d ++ 93 :: rest) = c :: r ∧ isWs c = false ∧ c ≠ 93 := by
      obtain ⟨x, m', rfl⟩ : ∃ x m', m = x :: m' := List.exists_cons_of_ne_nil hnil
      obtain ⟨c, r, e, h1, -, h2⟩ := (hm x (by simp)).2
      rw [List.map_cons, indElems_cons, e]
      exact ⟨c, _, by simp only [List.cons_append]; rfl, h1, h2⟩
    simp only [List.cons_append, List.append_assoc, List.nil_append]
    rw [e] at g ⊢
    simp only [readVal, if_true, skipWs_blank (blank_newline (d + 1))]
    rw [if_neg (by decide), skipWs_of_not c1]
    split
    · rename_i heq; injection heq with a _; exact absurd a c2
    · simp only [g]

theorem indText_opens (d : Nat) {j : Js} (h : GoodJs j) : Opens (indText iw d j) := by
  have ht := treeText_opens h
  cases j with
  | obj m =>
    rw [indText]; unfold indObj
    split
    · exact ⟨123, _, rfl, by decide, by decide, by decide⟩
    · exact ⟨123, _, rfl, by decide, by decide, by decide⟩
  | arr l =>
    rw [indText]; unfold indArr
    split
    · exact ⟨91, _, rfl, by decide, by decide, by decide⟩
    · exact ⟨91, _, rfl, by decide, by decide, by decide⟩
  | _ => simp only [indText]; exact ht

/-- One choice for every element of a list. -/
theorem exists_pairs {α β : Type} {P : α → β → Prop} : ∀ {l : List α}, (∀ x ∈ l, ∃ y, P x y) → ∃ r : List (α × β), r.map Prod.fst = l ∧
    ∀ x ∈ r, P x.1 x.2
  | [], _ => ⟨[], rfl, by simp⟩
  | a :: l, h => by
    obtain ⟨y, hy⟩ := h a (by simp)
    obtain ⟨r, h1, h2⟩ := exists_pairs (l := l) fun x hx => h x (by simp [hx])
    refine ⟨(a, y) :: r, by simp [h1], ?_⟩
    intro x hx
    rcases List.mem_cons.1 hx with rfl | hx
    · exact hy
    · exact h2 x hx

/-- The indented text of a value is read as the value. -/
def IndReads (iw : Nat) (d : Nat) (j : Js) (jt : Jt) : Prop :=
  TextReads (indText iw d j) jt ∧ jt.toAny = .ok (decAny (sanT j)) ∧ jt.depth = (sanT j).depth

theorem toAnyF_ind {d : Nat} : ∀ r : List ((Bytes × Js) × Jt), (∀ x ∈ r, IndReads iw d x.1.2 x.2) →
    Jt.toAnyF (r.map fun x => (sanitize x.1.1, x.2)) = .ok (decAnyF (sanTF (r.map Prod.fst))) ∧
    Jt.depthF (r.map fun x => (sanitize x.1.1, x.2)) = Js.depthF (sanTF (r.map Prod.fst))
  | [], _ => ⟨rfl, rfl⟩
  | ((k, v), jt) :: r, h => by
    obtain ⟨-, h2, h3⟩ := h ((k, v), jt) (by simp)
    obtain ⟨g1, g2⟩ := toAnyF_ind r fun x hx => h x (by simp [hx])
    simp only at h2 h3
    constructor
    · simp only [List.map_cons, Jt.toAnyF, sanTF, decAnyF, h2, g1, Res.bind_ok, Res.map_ok]
    · simp only [List.map_cons, Jt.depthF, sanTF, Js.depthF, h3, g2]

theorem toAnyL_ind {d : Nat} : ∀ r : List (Js × Jt), (∀ x ∈ r, IndReads iw d x.1 x.2) →
    Jt.toAnyL (r.map fun x => x.2) = .ok (decAnyL (sanTL (r.map Prod.fst))) ∧
    Jt.depthL (r.map fun x => x.2) = Js.depthL (sanTL (r.map Prod.fst))
  | [], _ => ⟨rfl, rfl⟩
  | (v, jt) :: r, h => by
    obtain ⟨-, h2, h3⟩ := h (v, jt) (by simp)
    obtain ⟨g1, g2⟩ := toAnyL_ind r fun x hx => h x (by simp [hx])
    simp only at h2 h3
    constructor
    · simp only [List.map_cons, Jt.toAnyL, sanTL, decAnyL, h2, g1, Res.bind_ok, Res.map_ok]
    · simp only [List.map_cons, Jt.depthL, sanTL, Js.depthL, h3, g2]

theorem indReads_atom (d : Nat) {j : Js} (h : GoodJs j) (e : indText iw d j = treeText j) : ∃ jt, IndReads iw d j jt := by
  obtain ⟨jt, h1, h2, h3⟩ := reads j h
  obtain ⟨c, r, e', h4, -⟩ := treeText_head h
  exact ⟨jt, ⟨⟨c, r, by rw [e, e'], h4⟩, by rw [e]; exact h1⟩, h2, h3⟩

/-- **Every value that can be written is read from its indented text.** -/
theorem indReads (j : Js) : GoodJs j → ∀ d, ∃ jt, IndReads iw d j jt := by
  induction j using Js.induction with
  | obj m ih =>
    intro hg d
    have hg' := goodJsF_iff.1 hg
    obtain ⟨r, e, hr⟩ := exists_pairs (l := m) (P := fun p jt => IndReads iw (d + 1) p.2 jt) fun p hp => ih p hp (hg' p hp) (d + 1)
    obtain ⟨g1, g2⟩ := toAnyF_ind r hr
    have h := textReads_obj (iw := iw) d (r.map fun x => (x.1.1, indText iw (d + 1) x.1.2, x.2)) (by
      intro x hx
      obtain ⟨y, hy, rfl⟩ := List.mem_map.1 hx
      exact (hr y hy).1)
    simp only [List.map_map] at h
    refine ⟨.obj (r.map fun x => (sanitize x.1.1, x.2)), ?_, ?_, ?_⟩
    · rw [indText, indTextF_eq, ← e, List.map_map]
      exact h
    · rw [e] at g1
      simp only [Jt.toAny, g1, Res.map_ok, sanT, decAny]
    · rw [e] at g2
      simp only [Jt.depth, g2, sanT, Js.depth]
  | arr l ih =>
    intro hg d
    have hg' := goodJsL_iff.1 hg
    obtain ⟨r, e, hr⟩ := exists_pairs (l := l) (P := fun p jt => IndReads iw (d + 1) p jt) fun p hp => ih p hp (hg' p hp) (d + 1)
    obtain ⟨g1, g2⟩ := toAnyL_ind r hr
    have h := textReads_arr (iw := iw) d (r.map fun x => (indText iw (d + 1) x.1, x.2)) (by
      intro x hx
      obtain ⟨y, hy, rfl⟩ := List.mem_map.1 hx
      refine ⟨(hr y hy).1, indText_opens _ (hg' y.1 ?_)⟩
      rw [← e]
      exact List.mem_map_of_mem hy)
    simp only [List.map_map] at h
    refine ⟨.arr (r.map fun x => x.2), ?_, ?_, ?_⟩
    · rw [indText, indTextL_eq, ← e, List.map_map]
      exact h
    · rw [e] at g1
      simp only [Jt.toAny, g1, Res.map_ok, sanT, decAny]
    · rw [e] at g2
      simp only [Jt.depth, g2, sanT, Js.depth]
  | _ => intro h d; exact indReads_atom d h (by simp only [indText])

/-- A text as a whole. -/
theorem readText_of {s : Bytes} {jt : Jt} (h : TextReads s jt) (hd : jt.depth ≤ 10000) : readText s = some jt := by
  have h1 := h.2 (2 * s.length + 1) [] (by intro c r e; cases e) (by omega)
  have hs := h.skip []
  rw [List.append_nil] at hs h1
  rw [readText, hs, h1]
  simp only [skipWs, true_and, if_pos hd]

/-- `json.Unmarshal` of what `json.MarshalIndent` wrote. -/
theorem unmarshal_indented {j : Js} (h : GoodJs j) (hd : (sanT j).depth ≤ 10000) :
    unmarshalText (appendIndent iw .out 0 false (treeText j)) = .ok (decAny (sanT j)) := by
  obtain ⟨jt, h1, h2, h3⟩ := indReads (iw := iw) j h 0
  have e := indents_tree (iw := iw) j h 0 false []
  simp only [List.append_nil, Bool.false_eq_true, if_false, List.nil_append, appendIndent] at e
  rw [e, unmarshalText, readText_of h1 (by rw [h3]; exact hd)]
  exact h2

end Verif
