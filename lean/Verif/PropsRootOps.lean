import Verif.PropsRootPatch
import Verif.PropsReplayArr
/-
C10, C24, C25, C26 for documents of any kind, in particular for root arrays.
-/
namespace Verif

/-! ### C24 -/

/-- What a successful write does to a document of any kind. -/
theorem any_readback {op : Op} {p : Prim} (hv : opVal op.value = .prim p) (hk : op.kind.cls = .set) :
    ∀ (parts : List Bytes), parts ≠ [] → ∀ (t o t' : Tson), applyT t parts op = (o, .ok t') →
    (∃ n, 0 < n ∧ n ≤ parts.length ∧ Reaches t' (parts.take n) (.leaf p op.ts) ∧
      (n = parts.length ∨ ∃ l, Reaches t (parts.take (n - 1)) (.arr l))) ∨
    (t' = t ∧ ∃ n q s, n < parts.length ∧ Reaches t (parts.take n) (.leaf q s) ∧ ∀ j, j < n → ∃ l, Reaches t (parts.take j) (.arr l)) := by
  intro parts
  induction parts with
  | nil => intro h; exact absurd rfl h
  | cons part rest ih =>
    intro _ t o t' h
    cases t with
    | leaf q s =>
      rw [applyT] at h
      cases h
      exact .inr ⟨rfl, 0, q, s, by simp, .here _, fun j hj => absurd hj (Nat.not_lt_zero j)⟩
    | null => rw [applyT] at h; cases h
    | obj m =>
      obtain ⟨n, h1, h2, h3, h4⟩ := applyT_readback hv hk (part :: rest) (by simp) m o t' h
      refine .inl ⟨n, h1, h2, (getParts_ok_iff _ (take_ne_nil h1 (by simp)) _ _).1 h3, ?_⟩
      rcases h4 with h4 | ⟨l, h4⟩
      · exact .inl h4
      · right
        refine ⟨l, (getParts_ok_iff _ ?_ _ _).1 h4⟩
        intro hc; rw [hc] at h4; simp [getParts] at h4
    | arr l =>
      rw [applyT] at h
      cases ha : atoi part with
      | none => simp only [ha] at h; cases h
      | some idx =>
        simp only [ha] at h
        split at h
        · rename_i hle
          rw [hk] at h
          dsimp only at h
          cases rest with
          | cons => cases h
          | nil =>
            simp only [hv] at h
            cases h
            have hi : (idx.toNat : Int) = idx := by omega
            refine .inl ⟨1, by omega, by simp, ?_, .inl rfl⟩
            refine .element _ _ _ idx.toNat _ _ (by rw [hi]; exact ha) (List.getElem?_set_self (by rw [extendT_length]; omega)) (.here _)
        · rename_i hle
          cases rest with
          | nil =>
            rw [hk] at h
            simp only [hv] at h
            split at h
            · cases h
            · cases h
              have hi : (idx.toNat : Int) = idx := by omega
              refine .inl ⟨1, by omega, by simp, ?_, .inl rfl⟩
              exact .element _ _ _ idx.toNat _ _ (by rw [hi]; exact ha) (List.getElem?_set_self (by omega)) (.here _)
          | cons p1 rest =>
            dsimp only at h
            split at h
            · cases h
            · rename_i hneg
              have hi : (idx.toNat : Int) = idx := by omega
              have hlt : idx.toNat < l.length := by omega
              rw [List.getElem?_eq_getElem hlt, Option.getD_some] at h
              rcases hT : applyT l[idx.toNat] (p1 :: rest) op with ⟨o1, y⟩
              rw [hT] at h
              cases y with
              | err => cases h
              | panic => cases h
              | ok c' =>
                cases h
                have hc : l[idx.toNat]? = some l[idx.toNat] := List.getElem?_eq_getElem hlt
                have ha' : atoi part = some ((idx.toNat : Nat) : Int) := by rw [hi]; exact ha
                rcases ih (by simp) _ _ _ hT with ⟨n, h1, h2, h3, h4⟩ | ⟨e, n, q, s, h2, h3, h4⟩
                · refine .inl ⟨n + 1, by omega, by simp only [List.length_cons] at h2 ⊢; omega, ?_, ?_⟩
                  · rw [List.take_succ_cons]
                    exact .element _ _ _ idx.toNat _ _ ha' (List.getElem?_set_self hlt) h3
                  · rcases h4 with h4 | ⟨l2, h4⟩
                    · exact .inl (by simp only [List.length_cons] at h4 ⊢; omega)
                    · right
                      refine ⟨l2, ?_⟩
                      obtain ⟨n', rfl⟩ : ∃ n', n = n' + 1 := ⟨n - 1, by omega⟩
                      rw [Nat.add_sub_cancel, List.take_succ_cons]
                      exact .element _ _ _ idx.toNat _ _ ha' hc h4
                · refine .inr ⟨?_, n + 1, q, s, by simp only [List.length_cons] at h2 ⊢; omega, ?_, ?_⟩
                  · rw [e, List.set_getElem_self]
                  · rw [List.take_succ_cons]
                    exact .element _ _ _ idx.toNat _ _ ha' hc h3
                  · intro j hj
                    cases j with
                    | zero => exact ⟨l, .here _⟩
                    | succ j =>
                      obtain ⟨l2, h⟩ := h4 j (by omega)
                      refine ⟨l2, ?_⟩
                      rw [List.take_succ_cons]
                      exact .element _ _ _ idx.toNat _ _ ha' hc h

/-- **C24, documents of any kind.**  A successful `add`/`replace` leaves a leaf with the written value and timestamp at the addressed
location or at an element of an array on the way, or it does nothing at all: then the path goes through arrays only and on behind a
leaf. -/
theorem C24_any {t : Tson} (hw : t.Wf) (op : Op) (p : Prim) (hk : op.kind = .add ∨ op.kind = .replace) (hv : Writes op.value p) {t' : Tson}
    (h : applyDoc t op = .ok t') :
    (∃ n, 0 < n ∧ n ≤ (writeParts op.path).length ∧ Reaches t' ((writeParts op.path).take n) (.leaf p op.ts) ∧
      (n = (writeParts op.path).length ∨ ∃ l, Reaches t ((writeParts op.path).take (n - 1)) (.arr l))) ∨
    (t' = t ∧ ∃ n q s, n < (writeParts op.path).length ∧ Reaches t ((writeParts op.path).take n) (.leaf q s) ∧
      ∀ j, j < n → ∃ l, Reaches t ((writeParts op.path).take j) (.arr l)) := by
  rw [applyDoc_eq hw] at h
  rcases hT : applyOpT t op with ⟨o, r⟩
  rw [hT] at h
  simp only at h
  subst h
  exact any_readback (writes_iff.1 hv) (cls_set hk) _ (split_ne_nil' _) t o t' hT

/-- A write into an element of a root array, and one behind its end. -/
example : applyDoc (.arr [.leaf (.bool true) 1, .obj []]) ⟨.add, b!"1/a", .bool false, 7⟩ =
    .ok (.arr [.leaf (.bool true) 1, .obj [(b!"a", .leaf (.bool false) 7)]]) := by decide
example : applyDoc (.arr [.leaf (.bool true) 1]) ⟨.add, b!"2", .bool false, 7⟩ =
    .ok (.arr [.leaf (.bool true) 1, .null, .leaf (.bool false) 7]) := by decide

/-- **C24 is violated** below leaves in root arrays: every operation on a path that goes on behind a leaf element, even one with an unknown
type, succeeds without doing anything. -/
theorem C24_lost_fails {l : List Tson} (hw : (Tson.arr l).Wf) (op : Op) {k k' : Bytes} {ks : List Bytes} {i : Nat} {q : Prim} {s : Int}
    (hp : writeParts op.path = k :: k' :: ks) (hi : atoi k = some (i : Int)) (hl : l[i]? = some (.leaf q s)) :
    applyDoc (.arr l) op = .ok (.arr l) ∧ docAfter (.arr l) op = some (.arr l) := by
  have hlt : i < l.length := (List.getElem?_eq_some_iff.1 hl).1
  have e : applyOpT (.arr l) op = (.arr l, .ok (.arr l)) := by
    unfold applyOpT
    rw [hp, applyT]
    simp only [hi]
    rw [if_neg (by omega), if_neg (by omega), Int.toNat_natCast, hl, Option.getD_some, applyT, assignElemT]
    have : l.set i (.leaf q s) = l := by
      have := List.getElem?_eq_some_iff.1 hl
      obtain ⟨h1, h2⟩ := this
      rw [← h2, List.set_getElem_self]
    rw [this]
  exact ⟨by rw [applyDoc_eq hw, e], by rw [docAfter_eq hw, e]⟩

/-- The same path in an object panics. -/
example : applyDoc (.arr [.leaf (.bool true) 1]) ⟨.replace, b!"0/a", .bool false, 7⟩ = .ok (.arr [.leaf (.bool true) 1]) ∧
    applyDoc (.obj [(b!"x", .leaf (.bool true) 1)]) ⟨.replace, b!"x/a", .bool false, 7⟩ = .panic := by decide

/-! ### C25 -/

/-- Operations leave the other elements of a root array alone, in the document of the caller and in the result, unless they remove an
element of it. -/
theorem other_elems {op : Op} {k : Bytes} {ks : List Bytes} {i : Int} {l : List Tson} (hi : atoi k = some i)
    (hno : ¬ (op.kind = .remove ∧ ks = [])) :
    ∃ lo, (applyT (.arr l) (k :: ks) op).1 = .arr lo ∧ lo.length = l.length ∧ (∀ j : Nat, (j : Int) ≠ i → lo[j]? = l[j]?) ∧
      ∀ t', (applyT (.arr l) (k :: ks) op).2 = .ok t' → ∃ l', t' = .arr l' ∧ l'.length = max l.length (i.toNat + 1) ∧
        ∀ j : Nat, j < l.length → (j : Int) ≠ i → l'[j]? = l[j]? := by
  have same : ∀ r : Res Tson, (∀ t', r ≠ .ok t') →
      ∃ lo, ((Tson.arr l, r) : Tson × Res Tson).1 = .arr lo ∧ lo.length = l.length ∧ (∀ j : Nat, (j : Int) ≠ i → lo[j]? = l[j]?) ∧
        ∀ t', ((Tson.arr l, r) : Tson × Res Tson).2 = .ok t' → ∃ l', t' = .arr l' ∧ l'.length = max l.length (i.toNat + 1) ∧
          ∀ j : Nat, j < l.length → (j : Int) ≠ i → l'[j]? = l[j]? :=
    fun r hr => ⟨l, rfl, rfl, fun _ _ => rfl, fun t' h => absurd h (hr t')⟩
  rw [applyT]
  simp only [hi]
  split
  · rename_i hle
    cases op.kind.cls with
    | set =>
      dsimp only
      cases ks with
      | cons => exact same _ (by intro t' h; cases h)
      | nil =>
        dsimp only
        cases opVal op.value with
        | nil => exact same _ (by intro t' h; cases h)
        | other => exact same _ (by intro t' h; cases h)
        | prim p =>
          refine ⟨l, rfl, rfl, fun _ _ => rfl, fun t' h => ?_⟩
          cases h
          refine ⟨_, rfl, by rw [List.length_set, extendT_length], fun j hj hji => ?_⟩
          rw [List.getElem?_set_ne (by omega)]
          obtain ⟨c, hc⟩ : ∃ c, l[j]? = some c := ⟨_, List.getElem?_eq_getElem hj⟩
          rw [extendT_get hc, hc]
    | remove => exact same _ (by intro t' h; cases h)
    | unimplemented => exact same _ (by intro t' h; cases h)
    | unknown => exact same _ (by intro t' h; cases h)
  · rename_i hle
    have set : ∀ x : Tson, ¬ i < 0 → (l.set i.toNat x).length = max l.length (i.toNat + 1) ∧ (l.set i.toNat x).length = l.length ∧
        ∀ j : Nat, (j : Int) ≠ i → (l.set i.toNat x)[j]? = l[j]? := by
      intro x hn
      refine ⟨by rw [List.length_set]; omega, List.length_set .., fun j hji => ?_⟩
      rw [List.getElem?_set_ne (by omega)]
    cases ks with
    | nil =>
      dsimp only
      cases hc : op.kind.cls with
      | set =>
        dsimp only
        cases opVal op.value with
        | nil => exact same _ (by intro t' h; cases h)
        | other => exact same _ (by intro t' h; cases h)
        | prim p =>
          dsimp only
          split
          · exact same _ (by intro t' h; cases h)
          · rename_i hn
            obtain ⟨s1, s2, s3⟩ := set (.leaf p op.ts) hn
            refine ⟨_, rfl, s2, s3, fun t' h => ?_⟩
            cases h
            exact ⟨_, rfl, s1, fun j _ hji => s3 j hji⟩
      | remove => exact absurd ⟨cls_remove hc, rfl⟩ hno
      | unimplemented => exact same _ (by intro t' h; cases h)
      | unknown => exact same _ (by intro t' h; cases h)
    | cons p1 rest =>
      dsimp only
      split
      · exact same _ (by intro t' h; cases h)
      · rename_i hn
        generalize applyT _ (p1 :: rest) op = T
        obtain ⟨o, y⟩ := T
        cases y with
        | ok u =>
          obtain ⟨s1, s2, s3⟩ := set u hn
          refine ⟨_, rfl, s2, s3, fun t' h => ?_⟩
          cases h
          exact ⟨_, rfl, s1, fun j _ hji => s3 j hji⟩
        | err =>
          obtain ⟨s1, s2, s3⟩ := set .null hn
          exact ⟨_, rfl, s2, s3, fun t' h => by cases h⟩
        | panic =>
          obtain ⟨s1, s2, s3⟩ := set o hn
          exact ⟨_, rfl, s2, s3, fun t' h => by cases h⟩

theorem reaches_elem {l l' : List Tson} {k : Bytes} {j : Nat} (hk : atoi k = some (j : Int)) (h : l'[j]? = l[j]?) (qs : List Bytes) (u : Tson) :
    Reaches (.arr l') (k :: qs) u ↔ Reaches (.arr l) (k :: qs) u := by
  have key : ∀ {a b : List Tson}, a[j]? = b[j]? → Reaches (.arr a) (k :: qs) u → Reaches (.arr b) (k :: qs) u := by
    intro a b e hr
    cases hr with
    | element _ _ _ i' c _ hi' hc hr =>
      rw [hk] at hi'
      have : i' = j := by have := Option.some.inj hi'; omega
      subst this
      exact .element _ _ _ i' c _ hk (by rw [← e]; exact hc) hr
  exact ⟨key h, key h.symm⟩

/-- **C25, root arrays.**  A successful operation that does not remove an element of a root array leaves everything in the other elements
as it was. -/
theorem C25_root_array {l : List Tson} (hw : (Tson.arr l).Wf) (op : Op) {k : Bytes} {ks : List Bytes} {i : Int} (hp : writeParts op.path = k :: ks)
    (hi : atoi k = some i) (hno : ¬ RootRemoval op) {t' : Tson} (h : applyDoc (.arr l) op = .ok t') :
    ∃ l', t' = .arr l' ∧ l'.length = max l.length (i.toNat + 1) ∧ ∀ (k' : Bytes) (j : Nat), atoi k' = some (j : Int) → j < l.length → (j : Int) ≠ i →
      ∀ qs u, Reaches t' (k' :: qs) u ↔ Reaches (.arr l) (k' :: qs) u := by
  rw [applyDoc_eq hw, applyOpT, hp] at h
  obtain ⟨-, -, -, -, h2⟩ := other_elems (l := l) hi (op := op) (ks := ks) (fun hc => hno ⟨hc.1, k, by rw [hp, hc.2]⟩)
  obtain ⟨l', rfl, h3, h4⟩ := h2 t' h
  exact ⟨l', rfl, h3, fun k' j hk' hj hji qs u => reaches_elem hk' (h4 j hj hji) qs u⟩

/-! ### C26 -/

/-- **C26, root arrays.**  Removing an element of a root array gives the array without it, and an error if there is no such element. -/
theorem C26_root_array {l : List Tson} (hw : (Tson.arr l).Wf) (op : Op) (hk : op.kind = .remove) {k : Bytes} {i : Nat}
    (hp : writeParts op.path = [k]) (hi : atoi k = some (i : Int)) :
    applyDoc (.arr l) op = if i < l.length then .ok (.arr (l.take i ++ l.drop (i + 1))) else .err := by
  rw [applyDoc_eq hw, applyOpT, hp, applyT]
  simp only [hi, hk, OpKind.cls, Int.toNat_natCast]
  by_cases hl : i < l.length
  · rw [if_neg (by omega), if_neg (by omega), if_pos hl, List.eraseIdx_eq_take_drop_succ]
  · rw [if_pos (by omega), if_neg hl]

/-! ### C10 -/

/-- **C10, root arrays.**  A failed operation leaves the document of the caller an array of the same length with the same other elements;
an operation on an element of it, and one on a path that is no number, leaves all of it. -/
theorem C10_root_array {l : List Tson} (hw : (Tson.arr l).Wf) (op : Op) (h : (applyDoc (.arr l) op).isOk = false) :
    ∃ lo, docAfter (.arr l) op = some (.arr lo) ∧ lo.length = l.length ∧
      (∀ k, writeParts op.path = [k] → lo = l) ∧ (∀ k ks, writeParts op.path = k :: ks → atoi k = none → lo = l) ∧
      ∀ k ks i, writeParts op.path = k :: ks → atoi k = some i → ∀ j : Nat, (j : Int) ≠ i → lo[j]? = l[j]? := by
  rw [applyDoc_eq hw] at h
  rw [docAfter_eq hw]
  unfold applyOpT at h ⊢
  obtain ⟨k, ks, hp⟩ : ∃ k ks, writeParts op.path = k :: ks := by
    cases hw : writeParts op.path with
    | nil => exact absurd hw (split_ne_nil' _)
    | cons k ks => exact ⟨k, ks, rfl⟩
  rw [hp] at h ⊢
  cases hi : atoi k with
  | none =>
    have e : applyT (.arr l) (k :: ks) op = (.arr l, .err) := by rw [applyT]; simp only [hi]
    rw [e]
    exact ⟨l, rfl, rfl, fun _ _ => rfl, fun _ _ _ _ => rfl, fun _ _ _ _ _ _ _ => rfl⟩
  | some i =>
    by_cases hks : ks = []
    · subst hks
      have e : (applyT (.arr l) [k] op).1 = .arr l := by
        rw [applyT] at h ⊢
        simp only [hi] at h ⊢
        split
        · cases op.kind.cls with
          | set => dsimp only; cases opVal op.value <;> rfl
          | remove => rfl
          | unimplemented => rfl
          | unknown => rfl
        · rename_i hle
          rw [if_neg hle] at h
          cases hc : op.kind.cls with
          | set =>
            rw [hc] at h
            dsimp only at h ⊢
            cases hv : opVal op.value with
            | nil => rfl
            | other => rfl
            | prim p =>
              rw [hv] at h
              dsimp only at h ⊢
              split
              · rfl
              · rename_i hn; rw [if_neg hn] at h; cases h
          | remove =>
            rw [hc] at h
            dsimp only at h ⊢
            split
            · rfl
            · rename_i hn; rw [if_neg hn] at h; cases h
          | unimplemented => rfl
          | unknown => rfl
      rw [e]
      exact ⟨l, rfl, rfl, fun _ _ => rfl, fun _ _ _ _ => rfl, fun _ _ _ _ _ _ _ => rfl⟩
    · obtain ⟨lo, h1, h2, h3, -⟩ := other_elems (l := l) hi (op := op) (ks := ks) (fun hc => hks hc.2)
      rw [h1]
      refine ⟨lo, rfl, h2, fun k' e => ?_, fun k' ks' e hn => ?_, fun k' ks' i' e hi' => ?_⟩
      · cases e; exact absurd rfl hks
      · cases e; rw [hi] at hn; cases hn
      · cases e; rw [hi] at hi'; cases hi'; exact h3

/-- The element on the way of a failed operation is lost: `C10` fails in root arrays as it does in objects. -/
theorem C10_root_array_fails : applyDoc (.arr [.obj [(b!"a", .leaf (.bool true) 1)]]) ⟨.replace, b!"0/a", .nil, 7⟩ = .err ∧
    docAfter (.arr [.obj [(b!"a", .leaf (.bool true) 1)]]) ⟨.replace, b!"0/a", .nil, 7⟩ = some (.arr [.null]) := by decide

/-- A removal, and one of an element that is not there. -/
example : applyDoc (.arr [.leaf (.bool true) 1, .obj []]) ⟨.remove, b!"0", .nil, 0⟩ = .ok (.arr [.obj []]) ∧
    applyDoc (.arr [.leaf (.bool true) 1, .obj []]) ⟨.remove, b!"2", .nil, 0⟩ = .err := by decide

end Verif
