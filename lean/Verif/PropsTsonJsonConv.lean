import Verif.PropsTsonJson
import Verif.PropsVssSave
/-
C104: which texts of documents are JSON.
-/
namespace Verif

/-! ### Specification -/

/-- All names in the document are plain text. -/
inductive PlainNames (P : Nat → Bool) : Tson → Prop where
  | null : PlainNames P .null
  | leaf (p : Prim) (ts : Int) : PlainNames P (.leaf p ts)
  | obj {m : List (Bytes × Tson)} (hk : ∀ k v, (k, v) ∈ m → PlainText P k)
    (hv : ∀ k v, (k, v) ∈ m → PlainNames P v) : PlainNames P (.obj m)
  | arr {l : List Tson} (h : ∀ v, v ∈ l → PlainNames P v) : PlainNames P (.arr l)

/-! ### Documents without timestamps -/

/-- The JSON reader reads the text of the document and stops behind it. -/
def JsonReads (L : Layout) (P : Nat → Bool) (t : Tson) : Prop := ∃ (x : Jt) (N0 : Nat), ∀ (N : Nat) (cur : Bytes) (ctx : Ctx) (rest : Bytes),
  N0 ≤ N → AllWs cur → readVal N (render L P cur ctx t ++ rest) = some (x, rest)

theorem reads_members {L : Layout} (hL : L.Ok) {P : Nat → Bool} :
    ∀ (m : List (Bytes × Tson)), m ≠ [] → (∀ p ∈ m, PlainText P p.1 ∧ p.2.noLeaf ∧ JsonReads L P p.2) →
    ∃ x N0, ∀ (N : Nat) (cur rest : Bytes), N0 ≤ N → AllWs cur →
      readMembers N (skipWs (renderF L P cur true m ++ (L.stop cur ++ 125 :: rest))) = some (x, rest) := by
  intro m
  induction m with
  | nil => intro h; exact absurd rfl h
  | cons p m ih =>
    obtain ⟨k, v⟩ := p
    intro _ hb
    rw [List.forall_mem_cons] at hb
    obtain ⟨⟨hk, hn, j, N1, hj⟩, hb⟩ := hb
    simp only at hk hn hj
    have start : ∀ (N : Nat) (cur rest : Bytes), N1 + 1 ≤ N + 1 → AllWs cur →
        readMembers (N + 1) (skipWs (renderF L P cur true ((k, v) :: m) ++ (L.stop cur ++ 125 :: rest))) =
          match skipWs (renderF L P cur false m ++ (L.stop cur ++ 125 :: rest)) with
          | 44 :: r => match readMembers N (skipWs r) with
            | none => none
            | some (l, r) => some ((k, j) :: l, r)
          | 125 :: r => some ([(k, j)], r)
          | _ => none := by
      intro N cur rest hN hcur
      simp only [renderF, if_true, List.nil_append, List.append_assoc, quote, List.cons_append]
      rw [skipWs_append (hL.lead cur hcur), skipWs_of_not (by decide)]
      simp only [readMembers, if_true]
      rw [litReads_quote hk _ (Nat.le_refl _) _ _ (by simp only [List.length_append]; omega)]
      simp only
      rw [noLeaf_key hn, List.nil_append, skipWs_of_not (by decide)]
      simp only
      have hw : skipWs (32 :: (render L P (L.next cur) .object v ++ (renderF L P cur false m ++ (L.stop cur ++ 125 :: rest)))) =
          render L P (L.next cur) .object v ++ (renderF L P cur false m ++ (L.stop cur ++ 125 :: rest)) := by
        obtain ⟨c, z, hz, hc⟩ := noLeaf_text hn L P (L.next cur) .object
        rw [hz, List.cons_append, show ∀ s, skipWs (32 :: s) = skipWs s from fun s => by simp [skipWs, isWs], skipWs_of_not hc]
      rw [hw, hj N (L.next cur) .object _ (by omega) (hL.next cur hcur)]
      rfl
    cases m with
    | nil =>
      refine ⟨[(k, j)], N1 + 1, fun N cur rest hN hcur => ?_⟩
      obtain ⟨N, rfl⟩ : ∃ n, N = n + 1 := ⟨N - 1, by omega⟩
      rw [start N cur rest hN hcur, renderF, List.nil_append, skipWs_append (hL.stop cur hcur), skipWs_of_not (by decide)]
      rfl
    | cons q m =>
      obtain ⟨x, N2, hx⟩ := ih (by simp) hb
      refine ⟨(k, j) :: x, N1 + N2 + 1, fun N cur rest hN hcur => ?_⟩
      obtain ⟨N, rfl⟩ : ∃ n, N = n + 1 := ⟨N - 1, by omega⟩
      rw [start N cur rest (by omega) hcur, renderF_next, List.cons_append, skipWs_of_not (by decide), List.append_assoc]
      simp only
      rw [skipWs_append hL.sep, hx N cur rest (by omega) hcur]

theorem reads_elems {L : Layout} (hL : L.Ok) {P : Nat → Bool} :
    ∀ (l : List Tson), l ≠ [] → (∀ v ∈ l, v.noLeaf ∧ JsonReads L P v) →
    ∃ x N0, ∀ (N : Nat) (cur rest : Bytes), N0 ≤ N → AllWs cur →
      readElems N (skipWs (renderL L P cur true l ++ (L.stop cur ++ 93 :: rest))) = some (x, rest) := by
  intro l
  induction l with
  | nil => intro h; exact absurd rfl h
  | cons v l ih =>
    intro _ hb
    rw [List.forall_mem_cons] at hb
    obtain ⟨⟨hn, j, N1, hj⟩, hb⟩ := hb
    have start : ∀ (N : Nat) (cur rest : Bytes), N1 + 1 ≤ N + 1 → AllWs cur →
        readElems (N + 1) (skipWs (renderL L P cur true (v :: l) ++ (L.stop cur ++ 93 :: rest))) =
          match skipWs (renderL L P cur false l ++ (L.stop cur ++ 93 :: rest)) with
          | 44 :: r => match readElems N (skipWs r) with
            | none => none
            | some (l, r) => some (j :: l, r)
          | 93 :: r => some ([j], r)
          | _ => none := by
      intro N cur rest hN hcur
      simp only [renderL, if_true, List.nil_append, List.append_assoc]
      rw [skipWs_append (hL.lead cur hcur)]
      have hw : skipWs (render L P (L.next cur) .array v ++ (renderL L P cur false l ++ (L.stop cur ++ 93 :: rest))) =
          render L P (L.next cur) .array v ++ (renderL L P cur false l ++ (L.stop cur ++ 93 :: rest)) := by
        obtain ⟨c, z, hz, hc⟩ := noLeaf_text hn L P (L.next cur) .array
        rw [hz, List.cons_append, skipWs_of_not hc]
      rw [hw, readElems, hj N (L.next cur) .array _ (by omega) (hL.next cur hcur)]
      rfl
    cases l with
    | nil =>
      refine ⟨[j], N1 + 1, fun N cur rest hN hcur => ?_⟩
      obtain ⟨N, rfl⟩ : ∃ n, N = n + 1 := ⟨N - 1, by omega⟩
      rw [start N cur rest hN hcur, renderL, List.nil_append, skipWs_append (hL.stop cur hcur), skipWs_of_not (by decide)]
      rfl
    | cons q l =>
      obtain ⟨x, N2, hx⟩ := ih (by simp) hb
      refine ⟨j :: x, N1 + N2 + 1, fun N cur rest hN hcur => ?_⟩
      obtain ⟨N, rfl⟩ : ∃ n, N = n + 1 := ⟨N - 1, by omega⟩
      rw [start N cur rest (by omega) hcur, renderL_next, List.cons_append, skipWs_of_not (by decide), List.append_assoc]
      simp only
      rw [skipWs_append hL.sep, hx N cur rest (by omega) hcur]

theorem reads_object {L : Layout} (hL : L.Ok) {P : Nat → Bool} {m : List (Bytes × Tson)}
    (ih : ∀ p ∈ m, PlainText P p.1 ∧ p.2.noLeaf ∧ JsonReads L P p.2) : JsonReads L P (.obj m) := by
  cases m with
  | nil =>
    refine ⟨.obj [], 1, fun N cur ctx rest hN hcur => ?_⟩
    obtain ⟨N, rfl⟩ : ∃ n, N = n + 1 := ⟨N - 1, by omega⟩
    rw [render]
    simp only [List.append_assoc, List.cons_append, List.nil_append, readVal, if_true]
    rw [skipWs_append hL.opn, renderF, List.nil_append, skipWs_append (hL.stop cur hcur), skipWs_of_not (by decide)]
    rfl
  | cons p m =>
    obtain ⟨x, N0, hx⟩ := reads_members hL (p :: m) (by simp) ih
    refine ⟨.obj x, N0 + 1, fun N cur ctx rest hN hcur => ?_⟩
    obtain ⟨N, rfl⟩ : ∃ n, N = n + 1 := ⟨N - 1, by omega⟩
    have key := hx N cur rest (by omega) hcur
    have hq : ∃ z, skipWs (renderF L P cur true (p :: m) ++ (L.stop cur ++ 125 :: rest)) = 34 :: z := by
      obtain ⟨k, v⟩ := p
      simp only [renderF, if_true, List.nil_append, List.append_assoc, quote, List.cons_append]
      rw [skipWs_append (hL.lead cur hcur), skipWs_of_not (by decide)]
      exact ⟨_, rfl⟩
    obtain ⟨z, hz⟩ := hq
    rw [hz] at key
    rw [render]
    simp only [List.append_assoc, List.cons_append, List.nil_append, readVal, if_true]
    rw [skipWs_append hL.opn, hz]
    split
    · rename_i e; cases e
    · rw [key]

theorem reads_array {L : Layout} (hL : L.Ok) {P : Nat → Bool} {l : List Tson}
    (ih : ∀ v ∈ l, v.noLeaf ∧ JsonReads L P v) : JsonReads L P (.arr l) := by
  have e91 : ∀ (N : Nat) (s : Bytes), readVal (N + 1) (91 :: s) = match skipWs s with
      | 93 :: r => some (.arr [], r)
      | r => match readElems N r with
        | none => none
        | some (l, r) => some (.arr l, r) := by
    intro N s
    simp only [readVal]
    rw [if_neg (by decide)]
    rfl
  cases l with
  | nil =>
    refine ⟨.arr [], 1, fun N cur ctx rest hN hcur => ?_⟩
    obtain ⟨N, rfl⟩ : ∃ n, N = n + 1 := ⟨N - 1, by omega⟩
    rw [render]
    simp only [List.append_assoc, List.cons_append, List.nil_append]
    rw [e91, skipWs_append hL.opn, renderL, List.nil_append, skipWs_append (hL.stop cur hcur), skipWs_of_not (by decide)]
    rfl
  | cons v l =>
    obtain ⟨x, N0, hx⟩ := reads_elems hL (v :: l) (by simp) ih
    refine ⟨.arr x, N0 + 1, fun N cur ctx rest hN hcur => ?_⟩
    obtain ⟨N, rfl⟩ : ∃ n, N = n + 1 := ⟨N - 1, by omega⟩
    have key := hx N cur rest (by omega) hcur
    have hq : ∃ c z, skipWs (renderL L P cur true (v :: l) ++ (L.stop cur ++ 93 :: rest)) = c :: z ∧ c ≠ 93 := by
      simp only [renderL, if_true, List.nil_append, List.append_assoc]
      rw [skipWs_append (hL.lead cur hcur)]
      have h := (ih v (by simp)).1
      cases v with
      | null => rw [render]; exact ⟨110, _, rfl, by decide⟩
      | leaf => exact h.elim
      | obj m => rw [render]; exact ⟨123, _, rfl, by decide⟩
      | arr m => rw [render]; exact ⟨91, _, rfl, by decide⟩
    obtain ⟨c, z, hz, hc⟩ := hq
    rw [hz] at key
    rw [render]
    simp only [List.append_assoc, List.cons_append, List.nil_append]
    rw [e91, skipWs_append hL.opn, hz]
    split
    · rename_i e; cases e; exact absurd rfl hc
    · rw [key]

mutual
theorem json_reads {L : Layout} (hL : L.Ok) {P : Nat → Bool} : ∀ t : Tson, ¬ HasStamp t → PlainNames P t → t.noLeaf ∧ JsonReads L P t
  | .null, _, _ => ⟨trivial, .null, 1, fun N cur ctx rest hN _ => by
      obtain ⟨N, rfl⟩ : ∃ n, N = n + 1 := ⟨N - 1, by omega⟩
      rw [render]; rfl⟩
  | .leaf x ts, h, _ => absurd (.leaf x ts) h
  | .obj m, h, hk => ⟨trivial, reads_object hL (json_readsF hL m (fun _ hp hs => h (.member hp hs)) (by cases hk with | obj h1 h2 => exact fun k v h => ⟨h1 k v h, h2 k v h⟩))⟩
  | .arr l, h, hk => ⟨trivial, reads_array hL (json_readsL hL l (fun _ hp hs => h (.elem hp hs)) (by cases hk; assumption))⟩
theorem json_readsF {L : Layout} (hL : L.Ok) {P : Nat → Bool} : ∀ m : List (Bytes × Tson), (∀ p ∈ m, ¬ HasStamp p.2) →
    (∀ k v, (k, v) ∈ m → PlainText P k ∧ PlainNames P v) → ∀ p ∈ m, PlainText P p.1 ∧ p.2.noLeaf ∧ JsonReads L P p.2
  | [], _, _, _, h => by cases h
  | (k, v) :: m, hs, hk, p, h => by
    rcases List.mem_cons.1 h with e | h
    · rw [e]
      have := hk k v (.head _)
      exact ⟨this.1, json_reads hL v (hs _ (.head _)) this.2⟩
    · exact json_readsF hL m (fun p hp => hs p (.tail _ hp)) (fun k v hp => hk k v (.tail _ hp)) p h
theorem json_readsL {L : Layout} (hL : L.Ok) {P : Nat → Bool} : ∀ l : List Tson, (∀ v ∈ l, ¬ HasStamp v) →
    (∀ v, v ∈ l → PlainNames P v) → ∀ v ∈ l, v.noLeaf ∧ JsonReads L P v
  | [], _, _, _, h => by cases h
  | v :: l, hs, hk, w, h => by
    rcases List.mem_cons.1 h with e | h
    · rw [e]
      exact json_reads hL v (hs _ (.head _)) (hk _ (.head _))
    · exact json_readsL hL l (fun p hp => hs p (.tail _ hp)) (fun v hp => hk v (.tail _ hp)) w h
end

/-! ### C104 -/

theorem render_json {L : Layout} (hL : L.Ok) {P : Nat → Bool} {t : Tson} (ht : ¬ HasStamp t) (hk : PlainNames P t) {cur : Bytes} (hcur : AllWs cur) :
    IsJson (render L P cur .top t) := by
  obtain ⟨hn, x, N, h⟩ := json_reads hL t ht hk
  refine ⟨N, x, [], ?_, rfl⟩
  obtain ⟨c, z, hz, hc⟩ := noLeaf_text hn L P cur .top
  have := h N cur .top [] (Nat.le_refl _) hcur
  rw [List.append_nil] at this
  rw [hz, skipWs_of_not hc, ← hz, this]

/-- **C104.**  Where all names are plain text, the timestamps are the only difference from JSON: a text of a document, with or without
indentation, is JSON exactly if the document has no timestamp. -/
theorem C104_json_iff (P : Nat → Bool) {t : Tson} (hk : PlainNames P t) :
    (∀ s, marshal P t = .ok s → (IsJson s ↔ ¬ HasStamp t)) ∧
    ∀ pre ind : Bytes, AllWs pre → AllWs ind → (IsJson (marshalIndent P t pre ind) ↔ ¬ HasStamp t) := by
  constructor
  · intro s hs
    refine ⟨fun h hst => ((C104_not_json P hst).1 s hs).1 h, fun h => ?_⟩
    have hn : NullFree t := Classical.byContradiction fun hn => by
      rw [marshal, marshalTson_null P .top hn] at hs
      cases hs
    rw [marshal, marshalTson_render P [] .top hn] at hs
    cases hs
    exact render_json compactLayout_ok h hk .nil
  · intro pre ind hp hi
    refine ⟨fun h hst => ((C104_not_json P hst).2 pre ind hp hi).1 h, fun h => ?_⟩
    rw [marshalIndent, marshalIndent_render]
    exact render_json (indentLayout_ok hi) h hk hp

/-- Two names, an array of containers. -/
example : PlainNames (fun _ => true) (.obj [(b!"a", .obj []), (b!"b", .arr [.obj [], .arr []])]) ∧
    ¬ HasStamp (.obj [(b!"a", .obj []), (b!"b", .arr [.obj [], .arr []])]) := by
  have pa : ∀ c : UInt8, plainByte c → PlainText (fun _ => true) [c] := fun c h => .ascii h .nil
  refine ⟨.obj (fun k v h => ?_) fun k v h => ?_, fun h => ?_⟩
  · simp only [List.mem_cons, Prod.mk.injEq, List.not_mem_nil, or_false] at h
    rcases h with ⟨rfl, rfl⟩ | ⟨rfl, rfl⟩
    · exact pa 97 (by decide)
    · exact pa 98 (by decide)
  · simp only [List.mem_cons, Prod.mk.injEq, List.not_mem_nil, or_false] at h
    rcases h with ⟨rfl, rfl⟩ | ⟨rfl, rfl⟩
    · exact .obj (by simp) (by simp)
    · refine .arr fun v h => ?_
      simp only [List.mem_cons, List.not_mem_nil, or_false] at h
      rcases h with rfl | rfl
      · exact .obj (by simp) (by simp)
      · exact .arr (by simp)
  · cases h with
    | member h hv =>
      simp only [List.mem_cons, Prod.mk.injEq, List.not_mem_nil, or_false] at h
      rcases h with ⟨-, rfl⟩ | ⟨-, rfl⟩
      · cases hv with | member h => cases h
      · cases hv with
        | elem h hv =>
          simp only [List.mem_cons, List.not_mem_nil, or_false] at h
          rcases h with rfl | rfl
          · cases hv with | member h => cases h
          · cases hv with | elem h => cases h

/-- Names have to be plain text: Go writes the character 7 as `\a`, which is no JSON. -/
theorem C104_names_needed : ∃ s, marshal (fun _ => true) (.obj [([7], .obj [])]) = .ok s ∧ ¬ HasStamp (.obj [([7], .obj [])]) ∧ ¬ IsJson s := by
  refine ⟨b!"{\"\\a\": {}}", by decide, fun h => ?_, ?_⟩
  · cases h with
    | member h hv =>
      cases h with
      | head => cases hv with | member h => cases h
      | tail _ h => cases h
  · rintro ⟨N, j, r, h, -⟩
    cases N with
    | zero => cases h
    | succ N =>
      cases N with
      | zero => cases h
      | succ N => exact absurd h (by rw [show skipWs b!"{\"\\a\": {}}" = b!"{\"\\a\": {}}" from rfl]; exact fun h => by cases h)

end Verif
