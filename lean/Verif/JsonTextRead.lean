import Verif.JsonTextLemmas
import Verif.CodecLemmas
/-
What `json.Unmarshal` makes of a text written by `json.Marshal`: the syntax trees of `Verif.Json` describe the bytes
of `Verif.JsonText` faithfully.
-/
namespace Verif

mutual
/-- The text of a JSON value, members in the order of the list. -/
def treeText : Js → Bytes
  | .null => b!"null"
  | .bool b => if b then b!"true" else b!"false"
  | .num f => jsonNum f
  | .int n => itoa n
  | .str s => jsonStr s
  | .obj m => 123 :: (joinMembers (treeTextF m) ++ [125])
  | .arr l => 91 :: (joinElems (treeTextL l) ++ [93])
/-- The texts of the members. -/
def treeTextF : List (Bytes × Js) → List (Bytes × Bytes)
  | [] => []
  | (k, v) :: m => (k, treeText v) :: treeTextF m
/-- The texts of the elements. -/
def treeTextL : List Js → List Bytes
  | [] => []
  | v :: l => treeText v :: treeTextL l
end

mutual
/-- The value with invalid UTF-8 replaced. -/
def sanT : Js → Js
  | .str s => .str (sanitize s)
  | .obj m => .obj (sanTF m)
  | .arr l => .arr (sanTL l)
  | j => j
/-- The members with invalid UTF-8 replaced. -/
def sanTF : List (Bytes × Js) → List (Bytes × Js)
  | [] => []
  | (k, v) :: m => (sanitize k, sanT v) :: sanTF m
/-- The elements with invalid UTF-8 replaced. -/
def sanTL : List Js → List Js
  | [] => []
  | v :: l => sanT v :: sanTL l
end

mutual
/-- Numbers are finite, integers have at most 64 bits. -/
def GoodJs : Js → Prop
  | .num f => ∃ neg m e h, f = .fin neg m e h
  | .int n => n.natAbs < 2 ^ 64
  | .obj m => GoodJsF m
  | .arr l => GoodJsL l
  | _ => True
/-- The members are good. -/
def GoodJsF : List (Bytes × Js) → Prop
  | [] => True
  | (_, v) :: m => GoodJs v ∧ GoodJsF m
/-- The elements are good. -/
def GoodJsL : List Js → Prop
  | [] => True
  | v :: l => GoodJs v ∧ GoodJsL l
end

theorem goodJsF_iff {m : List (Bytes × Js)} : GoodJsF m ↔ ∀ p ∈ m, GoodJs p.2 := by
  induction m with
  | nil => simp [GoodJsF]
  | cons p m ih => obtain ⟨k, v⟩ := p; simp [GoodJsF, ih]

theorem goodJsL_iff {l : List Js} : GoodJsL l ↔ ∀ v ∈ l, GoodJs v := by
  induction l with
  | nil => simp [GoodJsL]
  | cons v l ih => simp [GoodJsL, ih]

theorem digit_head {c : UInt8} (h : c = 45 ∨ isDigit c = true) : isWs c = false ∧ c ≠ 93 ∧ c ≠ 123 ∧ c ≠ 91 ∧ c ≠ 34 := by
  rcases h with rfl | h
  · decide
  · refine ⟨?_, ?_, ?_, ?_, ?_⟩
    · cases hw : isWs c with
      | false => rfl
      | true =>
        exfalso
        simp only [isWs, Bool.or_eq_true, beq_iff_eq] at hw
        rcases hw with ((rfl | rfl) | rfl) | rfl <;> exact absurd h (by decide)
    all_goals rintro rfl; exact absurd h (by decide)

theorem treeText_head {j : Js} (h : GoodJs j) : ∃ c r, treeText j = c :: r ∧ isWs c = false ∧ c ≠ 93 := by
  cases j with
  | null => exact ⟨_, _, rfl, by decide, by decide⟩
  | bool b => cases b <;> exact ⟨_, _, rfl, by decide, by decide⟩
  | num f =>
    obtain ⟨neg, m, e, hc, rfl⟩ := h
    obtain ⟨c, r, e', hd⟩ := jsonNum_head (neg := neg) hc
    exact ⟨c, r, e', (digit_head hd).1, (digit_head hd).2.1⟩
  | int n =>
    obtain ⟨c, r, e', hd⟩ := itoa_head n
    exact ⟨c, r, e', (digit_head hd).1, (digit_head hd).2.1⟩
  | str s => exact ⟨34, _, rfl, by decide, by decide⟩
  | obj m => exact ⟨123, _, by rw [treeText], by decide, by decide⟩
  | arr l => exact ⟨91, _, by rw [treeText], by decide, by decide⟩

theorem skipWs_text {j : Js} (h : GoodJs j) (r : Bytes) : skipWs (treeText j ++ r) = treeText j ++ r := by
  obtain ⟨c, t, e, hw, -⟩ := treeText_head h
  rw [e, List.cons_append, skipWs_of_not hw]

theorem joinMembers_cons (k v : Bytes) (m : List (Bytes × Bytes)) :
    joinMembers ((k, v) :: m) = jsonStr k ++ 58 :: (v ++ (if m = [] then [] else 44 :: joinMembers m)) := by
  cases m with
  | nil => simp [joinMembers]
  | cons p m => simp [joinMembers]

theorem joinElems_cons (v : Bytes) (l : List Bytes) :
    joinElems (v :: l) = v ++ (if l = [] then [] else 44 :: joinElems l) := by
  cases l with
  | nil => simp [joinElems]
  | cons p m => simp [joinElems]

/-- The text of the value is read. -/
def Reads (j : Js) : Prop := ∃ jt, (∀ N rest, JStop rest → 2 * (treeText j).length < N →
  readVal N (treeText j ++ rest) = some (jt, rest)) ∧ jt.toAny = .ok (decAny (sanT j)) ∧ jt.depth = (sanT j).depth

theorem treeTextF_nil {m : List (Bytes × Js)} : treeTextF m = [] ↔ m = [] := by
  cases m with
  | nil => simp [treeTextF]
  | cons p m => obtain ⟨k, v⟩ := p; simp [treeTextF]

theorem treeTextL_nil {l : List Js} : treeTextL l = [] ↔ l = [] := by
  cases l with
  | nil => simp [treeTextL]
  | cons v l => simp [treeTextL]

theorem readMembers_text (m : List (Bytes × Js)) : m ≠ [] → (∀ p ∈ m, GoodJs p.2 ∧ Reads p.2) → ∃ ml,
    (∀ N rest, 2 * (joinMembers (treeTextF m)).length < N →
      readMembers N (joinMembers (treeTextF m) ++ 125 :: rest) = some (ml, rest)) ∧
      Jt.toAnyF ml = .ok (decAnyF (sanTF m)) ∧ Jt.depthF ml = Js.depthF (sanTF m) := by
  induction m with
  | nil => intro h; exact absurd rfl h
  | cons p m ih =>
    obtain ⟨k, v⟩ := p
    intro _ hp
    rw [List.forall_mem_cons] at hp
    obtain ⟨⟨hg, hv⟩, hm⟩ := hp
    dsimp only at hg hv
    obtain ⟨jt, h1, h2, h3⟩ := hv
    rw [treeTextF, joinMembers_cons]
    have hstr : ∀ X : Bytes, ∀ M, (jsonStr k ++ X).length ≤ M + 1 →
        readStr M (jsonStrBody k.length k ++ 34 :: X) = some (sanitize k, X) := by
      intro X M hM
      exact readStr_jsonStr k (by rw [List.length_append] at hM; omega) X
    by_cases hnil : m = []
    · subst hnil
      simp only [treeTextF, if_true, List.append_nil]
      refine ⟨[(sanitize k, jt)], fun N rest hN => ?_, ?_, ?_⟩
      · obtain ⟨N, rfl⟩ : ∃ n, N = n + 1 := ⟨N - 1, by omega⟩
        simp only [List.length_append, List.length_cons] at hN
        have h1 := h1 N (125 :: rest) (by intro c r e; cases e; simp) (by omega)
        simp only [jsonStr, List.cons_append, List.append_assoc, readMembers, if_true, List.nil_append]
        rw [hstr _ _ (by simp [jsonStr])]
        simp only [skipWs_of_not (show isWs 58 = false by decide), skipWs_text hg, h1]
        rw [skipWs_of_not (by decide)]; rfl
      · simp only [Jt.toAnyF, h2, Res.bind_ok, Res.map_ok, sanTF, decAnyF]
      · simp only [Jt.depthF, h3, sanTF, Js.depthF]
    · have hnil' : treeTextF m ≠ [] := by rwa [Ne, treeTextF_nil]
      rw [if_neg hnil']
      obtain ⟨ml, g1, g2, g3⟩ := ih hnil hm
      refine ⟨(sanitize k, jt) :: ml, fun N rest hN => ?_, ?_, ?_⟩
      · obtain ⟨N, rfl⟩ : ∃ n, N = n + 1 := ⟨N - 1, by omega⟩
        simp only [List.length_append, List.length_cons] at hN
        have h1 := h1 N (44 :: (joinMembers (treeTextF m) ++ 125 :: rest)) (by intro c r e; cases e; simp) (by omega)
        have g1 := g1 N rest (by omega)
        have hhead : skipWs (joinMembers (treeTextF m) ++ 125 :: rest) = joinMembers (treeTextF m) ++ 125 :: rest := by
          cases m with
          | nil => exact absurd rfl hnil
          | cons q m =>
            obtain ⟨k', v'⟩ := q
            rw [treeTextF, joinMembers_cons]
            simp only [jsonStr, List.cons_append]
            rw [skipWs_of_not (by decide)]
        simp only [jsonStr, List.cons_append, List.append_assoc, readMembers, if_true, List.nil_append]
        rw [hstr _ _ (by simp [jsonStr])]
        simp only [skipWs_of_not (show isWs 58 = false by decide), skipWs_text hg, h1]
        rw [skipWs_of_not (show isWs 44 = false by decide)]
        simp only [hhead, g1]
      · simp only [Jt.toAnyF, h2, g2, Res.bind_ok, Res.map_ok, sanTF, decAnyF]
      · simp only [Jt.depthF, h3, g3, sanTF, Js.depthF]

theorem readElems_text (l : List Js) : l ≠ [] → (∀ v ∈ l, GoodJs v ∧ Reads v) → ∃ jl,
    (∀ N rest, 2 * (joinElems (treeTextL l)).length + 1 < N →
      readElems N (joinElems (treeTextL l) ++ 93 :: rest) = some (jl, rest)) ∧
      Jt.toAnyL jl = .ok (decAnyL (sanTL l)) ∧ Jt.depthL jl = Js.depthL (sanTL l) := by
  induction l with
  | nil => intro h; exact absurd rfl h
  | cons v l ih =>
    intro _ hp
    rw [List.forall_mem_cons] at hp
    obtain ⟨⟨hg, hv⟩, hm⟩ := hp
    obtain ⟨jt, h1, h2, h3⟩ := hv
    rw [treeTextL, joinElems_cons]
    by_cases hnil : l = []
    · subst hnil
      simp only [treeTextL, if_true, List.append_nil]
      refine ⟨[jt], fun N rest hN => ?_, ?_, ?_⟩
      · obtain ⟨N, rfl⟩ : ∃ n, N = n + 1 := ⟨N - 1, by omega⟩
        have h1 := h1 N (93 :: rest) (by intro c r e; cases e; simp) (by omega)
        simp only [readElems, h1]
        rw [skipWs_of_not (by decide)]; rfl
      · simp only [Jt.toAnyL, h2, Res.bind_ok, Res.map_ok, sanTL, decAnyL]
      · simp only [Jt.depthL, h3, sanTL, Js.depthL]
    · have hnil' : treeTextL l ≠ [] := by rwa [Ne, treeTextL_nil]
      rw [if_neg hnil']
      obtain ⟨jl, g1, g2, g3⟩ := ih hnil hm
      refine ⟨jt :: jl, fun N rest hN => ?_, ?_, ?_⟩
      · obtain ⟨N, rfl⟩ : ∃ n, N = n + 1 := ⟨N - 1, by omega⟩
        simp only [List.length_append, List.length_cons] at hN
        have h1 := h1 N (44 :: (joinElems (treeTextL l) ++ 93 :: rest)) (by intro c r e; cases e; simp) (by omega)
        have g1 := g1 N rest (by omega)
        have hhead : skipWs (joinElems (treeTextL l) ++ 93 :: rest) = joinElems (treeTextL l) ++ 93 :: rest := by
          cases l with
          | nil => exact absurd rfl hnil
          | cons w l =>
            rw [treeTextL, joinElems_cons, List.append_assoc]
            exact skipWs_text (hm w (by simp)).1 _
        simp only [List.append_assoc, List.cons_append, readElems, h1]
        rw [skipWs_of_not (show isWs 44 = false by decide)]
        simp only [hhead, g1]
      · simp only [Jt.toAnyL, h2, g2, Res.bind_ok, Res.map_ok, sanTL, decAnyL]
      · simp only [Jt.depthL, h3, g3, sanTL, Js.depthL]

theorem readWord_lit {w : Bytes} {j : Jt} (h : ∀ rest, readWord (w ++ rest) = some (j, rest)) (hw : ∃ c r, w = c :: r ∧
    c ≠ 123 ∧ c ≠ 91 ∧ c ≠ 34 ∧ ¬ (c = 45 ∨ isDigit c = true)) (N : Nat) (rest : Bytes) :
    readVal (N + 1) (w ++ rest) = some (j, rest) := by
  obtain ⟨c, r, rfl, h1, h2, h3, h4⟩ := hw
  simp only [List.cons_append, readVal, if_neg h1, if_neg h2, if_neg h3, if_neg h4]
  exact h rest

theorem readVal_number {s : Bytes} (h : ∃ c r, s = c :: r ∧ (c = 45 ∨ isDigit c = true)) (N : Nat) (rest : Bytes) :
    readVal (N + 1) (s ++ rest) = readNum (s ++ rest) := by
  obtain ⟨c, r, rfl, hd⟩ := h
  obtain ⟨-, -, h1, h2, h3⟩ := digit_head hd
  simp only [List.cons_append, readVal, if_neg h1, if_neg h2, if_neg h3, if_pos hd]

/-- Every value that can be written is read. -/
theorem reads (j : Js) : GoodJs j → Reads j := by
  induction j using Js.induction with
  | null =>
    intro _
    refine ⟨.null, fun N rest hs hN => ?_, by simp [Jt.toAny, sanT, decAny], by simp [Jt.depth, sanT, Js.depth]⟩
    obtain ⟨N, rfl⟩ : ∃ n, N = n + 1 := ⟨N - 1, by omega⟩
    exact readWord_lit (w := b!"null") (fun r => by simp [readWord, hasPrefix]) ⟨_, _, rfl, by decide⟩ N rest
  | bool b =>
    intro _
    refine ⟨.bool b, fun N rest hs hN => ?_, by simp [Jt.toAny, sanT, decAny], by simp [Jt.depth, sanT, Js.depth]⟩
    obtain ⟨N, rfl⟩ : ∃ n, N = n + 1 := ⟨N - 1, by omega⟩
    cases b
    · exact readWord_lit (w := b!"false") (fun r => by simp [readWord, hasPrefix]) ⟨_, _, rfl, by decide⟩ N rest
    · exact readWord_lit (w := b!"true") (fun r => by simp [readWord, hasPrefix]) ⟨_, _, rfl, by decide⟩ N rest
  | num f =>
    rintro ⟨neg, m, e, hc, rfl⟩
    obtain ⟨int, frac, exp, h2, h1⟩ := readNum_jsonNum (neg := neg) hc
    refine ⟨.num neg int frac exp, fun N rest hs hN => ?_, ?_, by simp [Jt.depth, sanT, Js.depth]⟩
    · obtain ⟨N, rfl⟩ : ∃ n, N = n + 1 := ⟨N - 1, by omega⟩
      rw [treeText, readVal_number (jsonNum_head hc), h1 rest hs]
    · simp [Jt.toAny, h2, sanT, decAny]
  | int n =>
    intro hn
    refine ⟨.num (decide (n < 0)) (natDigits n.natAbs) none none, fun N rest hs hN => ?_, ?_, ?_⟩
    · obtain ⟨N, rfl⟩ : ∃ n, N = n + 1 := ⟨N - 1, by omega⟩
      rw [treeText, readVal_number (itoa_head n), readNum_itoa n hs]
    · simp only [Jt.toAny, sanT, decAny, litFloat_itoa hn]
    · simp [Jt.depth, sanT, Js.depth]
  | str s =>
    intro _
    refine ⟨.str (sanitize s), fun N rest hs hN => ?_, by simp [Jt.toAny, sanT, decAny],
      by simp [Jt.depth, sanT, Js.depth]⟩
    obtain ⟨N, rfl⟩ : ∃ n, N = n + 1 := ⟨N - 1, by omega⟩
    simp only [treeText, jsonStr, List.cons_append, List.append_assoc, List.nil_append, readVal]
    rw [if_neg (by decide), if_neg (by decide), if_pos trivial, readStr_jsonStr s (by simp [jsonStr])]
  | obj m ih =>
    intro hg
    have hg' := goodJsF_iff.1 hg
    by_cases hnil : m = []
    · subst hnil
      refine ⟨.obj [], fun N rest hs hN => ?_, by simp [Jt.toAny, Jt.toAnyF, sanT, sanTF, decAny, decAnyF],
        by simp [Jt.depth, Jt.depthF, sanT, sanTF, Js.depth, Js.depthF]⟩
      obtain ⟨N, rfl⟩ : ∃ n, N = n + 1 := ⟨N - 1, by omega⟩
      simp only [treeText, treeTextF, joinMembers, List.nil_append, List.cons_append, readVal, if_true]
      rw [skipWs_of_not (by decide)]; rfl
    · obtain ⟨ml, g1, g2, g3⟩ := readMembers_text m hnil (fun p hp => ⟨hg' p hp, ih p hp (hg' p hp)⟩)
      refine ⟨.obj ml, fun N rest hs hN => ?_, ?_, by simp only [Jt.depth, g3, sanT, Js.depth]⟩
      · obtain ⟨N, rfl⟩ : ∃ n, N = n + 1 := ⟨N - 1, by omega⟩
        rw [treeText] at hN ⊢
        simp only [List.length_cons, List.length_append, List.length_nil] at hN
        have g1 := g1 N rest (by omega)
        simp only [List.cons_append, List.append_assoc, List.nil_append, readVal, if_true]
        cases m with
        | nil => exact absurd rfl hnil
        | cons q m =>
          obtain ⟨k', v'⟩ := q
          generalize hX : joinMembers (treeTextF ((k', v') :: m)) ++ 125 :: rest = X at *
          rw [treeTextF, joinMembers_cons] at hX
          simp only [jsonStr, List.cons_append] at hX
          subst hX
          rw [skipWs_of_not (by decide)]
          split
          · rename_i heq; cases heq
          · simp only [g1]
      · simp only [Jt.toAny, g2, Res.map_ok, sanT, decAny]
  | arr l ih =>
    intro hg
    have hg' := goodJsL_iff.1 hg
    by_cases hnil : l = []
    · subst hnil
      refine ⟨.arr [], fun N rest hs hN => ?_, by simp [Jt.toAny, Jt.toAnyL, sanT, sanTL, decAny, decAnyL],
        by simp [Jt.depth, Jt.depthL, sanT, sanTL, Js.depth, Js.depthL]⟩
      obtain ⟨N, rfl⟩ : ∃ n, N = n + 1 := ⟨N - 1, by omega⟩
      simp only [treeText, treeTextL, joinElems, List.nil_append, List.cons_append, readVal, if_true]
      rw [if_neg (by decide), skipWs_of_not (by decide)]; rfl
    · obtain ⟨jl, g1, g2, g3⟩ := readElems_text l hnil (fun p hp => ⟨hg' p hp, ih p hp (hg' p hp)⟩)
      refine ⟨.arr jl, fun N rest hs hN => ?_, ?_, by simp only [Jt.depth, g3, sanT, Js.depth]⟩
      · obtain ⟨N, rfl⟩ : ∃ n, N = n + 1 := ⟨N - 1, by omega⟩
        rw [treeText] at hN ⊢
        simp only [List.length_cons, List.length_append, List.length_nil] at hN
        have g1 := g1 N rest (by omega)
        simp only [List.cons_append, List.append_assoc, List.nil_append, readVal, if_true]
        rw [if_neg (by decide)]
        cases l with
        | nil => exact absurd rfl hnil
        | cons v l =>
          obtain ⟨c, t, e, hw, h93⟩ := treeText_head (hg' v (by simp))
          generalize hX : joinElems (treeTextL (v :: l)) ++ 93 :: rest = X at *
          rw [treeTextL, joinElems_cons, e, List.cons_append, List.cons_append] at hX
          subst hX
          rw [skipWs_of_not hw]
          split
          · rename_i heq; cases heq; exact absurd rfl h93
          · simp only [g1]
      · simp only [Jt.toAny, g2, Res.map_ok, sanT, decAny]

/-- `json.Unmarshal` of a text written by `json.Marshal`. -/
theorem unmarshalText_treeText {j : Js} (h : GoodJs j) : unmarshalText (treeText j) = unmarshalAny (sanT j) := by
  obtain ⟨jt, h1, h2, h3⟩ := reads j h
  have h1 := h1 (2 * (treeText j).length + 1) [] (by intro c r e; cases e) (by omega)
  have hs := skipWs_text h []
  rw [List.append_nil] at hs h1
  rw [unmarshalText, readText, hs, h1]
  simp only [skipWs, true_and, h3, unmarshalAny]
  by_cases hd : (sanT j).depth ≤ 10000
  · simp only [if_pos hd, h2]
  · simp only [if_neg hd]

/-! ### The order of the members -/

mutual
/-- The value with the members sorted. -/
def ordAny : Js → Js
  | .obj m => .obj (sortM (ordAnyF m))
  | .arr l => .arr (ordAnyL l)
  | j => j
/-- The members. -/
def ordAnyF : List (Bytes × Js) → List (Bytes × Js)
  | [] => []
  | (k, v) :: m => (k, ordAny v) :: ordAnyF m
/-- The elements. -/
def ordAnyL : List Js → List Js
  | [] => []
  | v :: l => ordAny v :: ordAnyL l
end

mutual
/-- A document as a JSON value, the members sorted. -/
def ordTson : Tson → Js
  | .null => .null
  | .leaf p ts => .obj [(b!"value", p.js), (b!"timestamp", .int ts)]
  | .obj m => .obj (sortM (ordTsonF m))
  | .arr l => .arr (ordTsonL l)
/-- The members. -/
def ordTsonF : List (Bytes × Tson) → List (Bytes × Js)
  | [] => []
  | (k, v) :: m => (k, ordTson v) :: ordTsonF m
/-- The elements. -/
def ordTsonL : List Tson → List Js
  | [] => []
  | v :: l => ordTson v :: ordTsonL l
end

theorem treeTextF_eq (m : List (Bytes × Js)) : treeTextF m = mapV treeText m := by
  induction m with
  | nil => rfl
  | cons p m ih => obtain ⟨k, v⟩ := p; rw [treeTextF, ih]; rfl

theorem treeTextL_eq (l : List Js) : treeTextL l = l.map treeText := by
  induction l with
  | nil => rfl
  | cons v l ih => rw [treeTextL, ih]; rfl

theorem anyTextF_eq (m : List (Bytes × Js)) : anyTextF m = mapV anyText m := by
  induction m with
  | nil => rfl
  | cons p m ih => obtain ⟨k, v⟩ := p; rw [anyTextF, ih]; rfl

theorem anyTextL_eq (l : List Js) : anyTextL l = l.map anyText := by
  induction l with
  | nil => rfl
  | cons v l ih => rw [anyTextL, ih]; rfl

theorem tsonTextF_eq (m : List (Bytes × Tson)) : tsonTextF m = mapV tsonText m := by
  induction m with
  | nil => rfl
  | cons p m ih => obtain ⟨k, v⟩ := p; rw [tsonTextF, ih]; rfl

theorem tsonTextL_eq (l : List Tson) : tsonTextL l = l.map tsonText := by
  induction l with
  | nil => rfl
  | cons v l ih => rw [tsonTextL, ih]; rfl

theorem ordAnyF_eq (m : List (Bytes × Js)) : ordAnyF m = mapV ordAny m := by
  induction m with
  | nil => rfl
  | cons p m ih => obtain ⟨k, v⟩ := p; rw [ordAnyF, ih]; rfl

theorem ordAnyL_eq (l : List Js) : ordAnyL l = l.map ordAny := by
  induction l with
  | nil => rfl
  | cons v l ih => rw [ordAnyL, ih]; rfl

theorem ordTsonF_eq (m : List (Bytes × Tson)) : ordTsonF m = mapV ordTson m := by
  induction m with
  | nil => rfl
  | cons p m ih => obtain ⟨k, v⟩ := p; rw [ordTsonF, ih]; rfl

theorem ordTsonL_eq (l : List Tson) : ordTsonL l = l.map ordTson := by
  induction l with
  | nil => rfl
  | cons v l ih => rw [ordTsonL, ih]; rfl

theorem sanTF_eq (m : List (Bytes × Js)) : sanTF m = (mapV sanT m).map encKey := by
  induction m with
  | nil => rfl
  | cons p m ih => obtain ⟨k, v⟩ := p; rw [sanTF, ih]; rfl

theorem sanTL_eq (l : List Js) : sanTL l = l.map sanT := by
  induction l with
  | nil => rfl
  | cons v l ih => rw [sanTL, ih]; rfl

theorem anyText_ord (j : Js) : anyText j = treeText (ordAny j) := by
  induction j using Js.induction with
  | obj m ih =>
    rw [anyText, ordAny, treeText, ordAnyF_eq, treeTextF_eq, anyTextF_eq, ← sortM_mapV, mapV_mapV,
      mapV_congr (g := fun v => treeText (ordAny v)) ih]
  | arr l ih =>
    rw [anyText, ordAny, treeText, ordAnyL_eq, treeTextL_eq, anyTextL_eq, List.map_map, List.map_congr_left ih]; rfl
  | _ => simp only [anyText, ordAny, treeText]

theorem tsonText_ord (t : Tson) : tsonText t = treeText (ordTson t) := by
  induction t using Tson.induction with
  | null => simp only [tsonText, ordTson, treeText]
  | leaf p ts =>
    simp only [tsonText, ordTson, treeText, treeTextF, joinMembers]
    cases p <;> simp [Prim.js, anyText, treeText, jsonStr, jsonStrBody, jsonByte]
  | obj m ih =>
    rw [tsonText, ordTson, treeText, ordTsonF_eq, treeTextF_eq, tsonTextF_eq, ← sortM_mapV, mapV_mapV,
      mapV_congr (g := fun v => treeText (ordTson v)) ih]
  | arr l ih =>
    rw [tsonText, ordTson, treeText, ordTsonL_eq, treeTextL_eq, tsonTextL_eq, List.map_map, List.map_congr_left ih]; rfl

/-! ### Bytes and syntax trees -/

mutual
/-- Integers have at most 64 bits. -/
def IntsOk : Js → Prop
  | .int n => n.natAbs < 2 ^ 64
  | .obj m => IntsOkF m
  | .arr l => IntsOkL l
  | _ => True
/-- The integers of the members have at most 64 bits. -/
def IntsOkF : List (Bytes × Js) → Prop
  | [] => True
  | (_, v) :: m => IntsOk v ∧ IntsOkF m
/-- The integers of the elements have at most 64 bits. -/
def IntsOkL : List Js → Prop
  | [] => True
  | v :: l => IntsOk v ∧ IntsOkL l
end

theorem intsOkF_iff {m : List (Bytes × Js)} : IntsOkF m ↔ ∀ p ∈ m, IntsOk p.2 := by
  induction m with
  | nil => simp [IntsOkF]
  | cons p m ih => obtain ⟨k, v⟩ := p; simp [IntsOkF, ih]

theorem intsOkL_iff {l : List Js} : IntsOkL l ↔ ∀ v ∈ l, IntsOk v := by
  induction l with
  | nil => simp [IntsOkL]
  | cons v l ih => simp [IntsOkL, ih]

theorem finiteF_iff {m : List (Bytes × Js)} : Js.finiteF m = true ↔ ∀ p ∈ m, p.2.finite = true := by
  induction m with
  | nil => simp [Js.finiteF]
  | cons p m ih => obtain ⟨k, v⟩ := p; simp [Js.finiteF, ih]

theorem finiteL_iff {l : List Js} : Js.finiteL l = true ↔ ∀ v ∈ l, v.finite = true := by
  induction l with
  | nil => simp [Js.finiteL]
  | cons v l ih => simp [Js.finiteL, ih]

theorem tfiniteF_iff {m : List (Bytes × Tson)} : Tson.finiteF m = true ↔ ∀ p ∈ m, p.2.finite = true := by
  induction m with
  | nil => simp [Tson.finiteF]
  | cons p m ih => obtain ⟨k, v⟩ := p; simp [Tson.finiteF, ih]

theorem tfiniteL_iff {l : List Tson} : Tson.finiteL l = true ↔ ∀ v ∈ l, v.finite = true := by
  induction l with
  | nil => simp [Tson.finiteL]
  | cons v l ih => simp [Tson.finiteL, ih]

theorem goodJs_ord (j : Js) : IntsOk j → j.finite = true → GoodJs (ordAny j) := by
  induction j using Js.induction with
  | obj m ih =>
    intro h1 h2
    rw [ordAny, GoodJs, goodJsF_iff]
    intro p hp
    have hp := (sortM_perm _).subset hp
    rw [ordAnyF_eq] at hp
    obtain ⟨q, hq, rfl⟩ := List.mem_map.1 hp
    rw [IntsOk, intsOkF_iff] at h1
    rw [Js.finite, finiteF_iff] at h2
    exact ih q hq (h1 q hq) (h2 q hq)
  | arr l ih =>
    intro h1 h2
    rw [ordAny, GoodJs, goodJsL_iff, ordAnyL_eq]
    intro p hp
    obtain ⟨q, hq, rfl⟩ := List.mem_map.1 hp
    rw [IntsOk, intsOkL_iff] at h1
    rw [Js.finite, finiteL_iff] at h2
    exact ih q hq (h1 q hq) (h2 q hq)
  | num f =>
    intro _ h
    cases f with
    | fin neg m e hc => exact ⟨neg, m, e, hc, rfl⟩
    | _ => simp [Js.finite] at h
  | int n => intro h _; exact h
  | _ => intro _ _; simp [ordAny, GoodJs]

theorem stampsF_iff {m : List (Bytes × Tson)} {Q : Int → Prop} :
    (∀ ts ∈ stampsF m, Q ts) ↔ ∀ p ∈ m, ∀ ts ∈ stamps p.2, Q ts := by
  induction m with
  | nil => simp [stampsF]
  | cons p m ih =>
    obtain ⟨k, v⟩ := p
    simp only [stampsF, List.mem_append, List.forall_mem_cons, ← ih]
    exact ⟨fun h => ⟨fun ts ht => h ts (.inl ht), fun ts ht => h ts (.inr ht)⟩,
      fun h ts ht => ht.elim (h.1 ts) (h.2 ts)⟩

theorem stampsL_iff {l : List Tson} {Q : Int → Prop} :
    (∀ ts ∈ stampsL l, Q ts) ↔ ∀ v ∈ l, ∀ ts ∈ stamps v, Q ts := by
  induction l with
  | nil => simp [stampsL]
  | cons v l ih =>
    simp only [stampsL, List.mem_append, List.forall_mem_cons, ← ih]
    exact ⟨fun h => ⟨fun ts ht => h ts (.inl ht), fun ts ht => h ts (.inr ht)⟩,
      fun h ts ht => ht.elim (h.1 ts) (h.2 ts)⟩

theorem goodJs_ordTson (t : Tson) : (∀ ts ∈ stamps t, ts.natAbs < 2 ^ 64) → t.finite = true → GoodJs (ordTson t) := by
  induction t using Tson.induction with
  | null => intro _ _; simp [ordTson, GoodJs]
  | leaf p ts =>
    intro h1 h2
    have h1 := h1 ts (by simp [stamps])
    simp only [ordTson, GoodJs, GoodJsF, and_true]
    refine ⟨?_, h1⟩
    cases p with
    | str s => trivial
    | bool b => trivial
    | num f =>
      cases f with
      | fin neg m e hc => exact ⟨neg, m, e, hc, rfl⟩
      | _ => simp [Tson.finite, Prim.js, Js.finite] at h2
  | obj m ih =>
    intro h1 h2
    rw [ordTson, GoodJs, goodJsF_iff]
    intro p hp
    have hp := (sortM_perm _).subset hp
    rw [ordTsonF_eq] at hp
    obtain ⟨q, hq, rfl⟩ := List.mem_map.1 hp
    rw [stamps, stampsF_iff] at h1
    rw [Tson.finite, tfiniteF_iff] at h2
    exact ih q hq (h1 q hq) (h2 q hq)
  | arr l ih =>
    intro h1 h2
    rw [ordTson, GoodJs, goodJsL_iff, ordTsonL_eq]
    intro p hp
    obtain ⟨q, hq, rfl⟩ := List.mem_map.1 hp
    rw [stamps, stampsL_iff] at h1
    rw [Tson.finite, tfiniteL_iff] at h2
    exact ih q hq (h1 q hq) (h2 q hq)

theorem encAnyF_all (m : List (Bytes × Js)) (h : ∀ p ∈ m, encAny p.2 = if p.2.finite then .ok (sanT (ordAny p.2)) else .err) :
    encAnyF m = if Js.finiteF m then .ok (mapV (fun v => sanT (ordAny v)) m) else .err := by
  induction m with
  | nil => simp [encAnyF, Js.finiteF, mapV]
  | cons p m ih =>
    obtain ⟨k, v⟩ := p
    rw [List.forall_mem_cons] at h
    rw [encAnyF, h.1, ih h.2, Js.finiteF]
    dsimp only
    cases v.finite <;> cases Js.finiteF m <;> rfl

theorem encAnyL_all (l : List Js) (h : ∀ v ∈ l, encAny v = if v.finite then .ok (sanT (ordAny v)) else .err) :
    encAnyL l = if Js.finiteL l then .ok (l.map fun v => sanT (ordAny v)) else .err := by
  induction l with
  | nil => simp [encAnyL, Js.finiteL]
  | cons v l ih =>
    rw [List.forall_mem_cons] at h
    rw [encAnyL, h.1, ih h.2, Js.finiteL]
    cases v.finite <;> cases Js.finiteL l <;> rfl

theorem encAny_all (j : Js) : encAny j = if j.finite then .ok (sanT (ordAny j)) else .err := by
  induction j using Js.induction with
  | obj m ih =>
    rw [encAny, encAnyF_all m ih, Js.finite]
    cases Js.finiteF m with
    | false => rfl
    | true =>
      simp only [if_true, Res.map_ok, ordAny, sanT]
      rw [ordAnyF_eq, sanTF_eq, ← sortM_mapV, mapV_mapV]
  | arr l ih =>
    rw [encAny, encAnyL_all l ih, Js.finite]
    cases Js.finiteL l with
    | false => rfl
    | true =>
      simp only [if_true, Res.map_ok, ordAny, sanT]
      rw [ordAnyL_eq, sanTL_eq, List.map_map]; rfl
  | num f => cases f <;> simp [encAny, Js.finite, ordAny, sanT]
  | _ => simp [encAny, Js.finite, ordAny, sanT]

theorem encTsonF_all (m : List (Bytes × Tson))
    (h : ∀ p ∈ m, encTson p.2 = if p.2.finite then .ok (sanT (ordTson p.2)) else .err) :
    encTsonF m = if Tson.finiteF m then .ok (mapV (fun v => sanT (ordTson v)) m) else .err := by
  induction m with
  | nil => simp [encTsonF, Tson.finiteF, mapV]
  | cons p m ih =>
    obtain ⟨k, v⟩ := p
    rw [List.forall_mem_cons] at h
    rw [encTsonF, h.1, ih h.2, Tson.finiteF]
    dsimp only
    cases v.finite <;> cases Tson.finiteF m <;> rfl

theorem encTsonL_all (l : List Tson) (h : ∀ v ∈ l, encTson v = if v.finite then .ok (sanT (ordTson v)) else .err) :
    encTsonL l = if Tson.finiteL l then .ok (l.map fun v => sanT (ordTson v)) else .err := by
  induction l with
  | nil => simp [encTsonL, Tson.finiteL]
  | cons v l ih =>
    rw [List.forall_mem_cons] at h
    rw [encTsonL, h.1, ih h.2, Tson.finiteL]
    cases v.finite <;> cases Tson.finiteL l <;> rfl

theorem encTson_all (t : Tson) : encTson t = if t.finite then .ok (sanT (ordTson t)) else .err := by
  induction t using Tson.induction with
  | null => simp [encTson, Tson.finite, ordTson, sanT]
  | leaf p ts =>
    have e1 : sanitize b!"value" = b!"value" := by decide
    have e2 : sanitize b!"timestamp" = b!"timestamp" := by decide
    cases p with
    | num f => cases f <;> simp [encTson, encPrim, Res.map, Tson.finite, Js.finite, Prim.js, ordTson, sanT, sanTF, e1, e2]
    | _ => simp [encTson, encPrim, Res.map, Tson.finite, Js.finite, Prim.js, ordTson, sanT, sanTF, e1, e2]
  | obj m ih =>
    rw [encTson, encTsonF_all m ih, Tson.finite]
    cases Tson.finiteF m with
    | false => rfl
    | true =>
      simp only [if_true, Res.map_ok, ordTson, sanT]
      rw [ordTsonF_eq, sanTF_eq, ← sortM_mapV, mapV_mapV]
  | arr l ih =>
    rw [encTson, encTsonL_all l ih, Tson.finite]
    cases Tson.finiteL l with
    | false => rfl
    | true =>
      simp only [if_true, Res.map_ok, ordTson, sanT]
      rw [ordTsonL_eq, sanTL_eq, List.map_map]; rfl

/-- Writing and reading values as bytes is writing and reading them as syntax trees. -/
theorem unmarshal_marshal {j : Js} (h : IntsOk j) : (marshalAny j).bind unmarshalText = (encAny j).bind unmarshalAny := by
  rw [marshalAny, encAny_all]
  by_cases hf : j.finite = true
  · rw [if_pos hf, if_pos hf, Res.bind_ok, Res.bind_ok, anyText_ord, unmarshalText_treeText (goodJs_ord j h hf)]
  · rw [if_neg hf, if_neg hf]; rfl

/-- The same for documents. -/
theorem toCompatibleAny_eq {t : Tson} (h : ∀ ts ∈ stamps t, ts.natAbs < 2 ^ 64) : toCompatibleAny t = toCompatible t := by
  rw [toCompatibleAny, toCompatible, toCompatibleText, encTson_all]
  by_cases hf : t.finite = true
  · rw [if_pos hf, if_pos hf, Res.bind_ok, Res.bind_ok, tsonText_ord, unmarshalText_treeText (goodJs_ordTson t h hf)]
  · rw [if_neg hf, if_neg hf]; rfl

theorem fromCompatibleText_eq {t : Tson} (h : ∀ ts ∈ stamps t, ts.natAbs < 2 ^ 64) :
    (toCompatibleText t).bind fromCompatibleText = (encTson t).bind fromCompatible := by
  have := toCompatibleAny_eq h
  rw [toCompatibleAny, toCompatible, toCompatibleText, encTson_all] at this
  rw [toCompatibleText, encTson_all]
  by_cases hf : t.finite = true
  · rw [if_pos hf, if_pos hf, Res.bind_ok, Res.bind_ok] at this
    rw [if_pos hf, if_pos hf, Res.bind_ok, Res.bind_ok, fromCompatibleText, fromCompatible, this]
  · rw [if_neg hf, if_neg hf]; rfl

end Verif
