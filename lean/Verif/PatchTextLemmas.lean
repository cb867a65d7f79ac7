import Verif.SpecPatchText
import Verif.JsonTextFuel
/-
Lemmas on patches as texts.
-/
namespace Verif

theorem readStr_plain {s : Bytes} (hv : ValidUtf8 s) : (∀ c ∈ s, 32 ≤ c ∧ c ≠ 34 ∧ c ≠ 92) → ∀ N rest, s.length < N →
    readStr N (s ++ 34 :: rest) = some (s, rest) := by
  induction hv with
  | nil =>
    intro _ N rest hN
    obtain ⟨N, rfl⟩ : ∃ k, N = k + 1 := ⟨N - 1, by omega⟩
    exact readStr_end N rest
  | @ascii c s hc hv ih =>
    intro h N rest hN
    obtain ⟨N, rfl⟩ : ∃ k, N = k + 1 := ⟨N - 1, by omega⟩
    rw [List.forall_mem_cons] at h
    obtain ⟨⟨h1, h2, h3⟩, h⟩ := h
    have h32 : ¬ c < 32 := by
      rw [UInt8.lt_iff_toNat_lt]; rw [UInt8.le_iff_toNat_le] at h1; omega
    rw [List.length_cons] at hN
    simp only [List.cons_append, readStr, if_neg h2, if_neg h3, if_neg h32, if_pos hc]
    rw [ih h N rest (by omega)]
    rfl
  | @rune r s hr hv ih =>
    intro h N rest hN
    obtain ⟨N, rfl⟩ : ∃ k, N = k + 1 := ⟨N - 1, by omega⟩
    obtain ⟨c, l, e, -⟩ := utf8Enc_cons hr
    rw [List.length_append, e, List.length_cons] at hN
    rw [List.append_assoc, readStr_rune hr, ih (fun c hc => h c (by simp [hc])) N rest (by omega)]
    rfl

theorem RawText.read {s : Bytes} (h : RawText s) {N : Nat} (rest : Bytes) (hN : s.length < N) :
    readStr N (s ++ 34 :: rest) = some (s, rest) := readStr_plain h.1 h.2 N rest hN

/-- The text of a value and the tree read from it. -/
def TextReads (s : Bytes) (v : Jt) : Prop := (∃ c r, s = c :: r ∧ isWs c = false) ∧
  ∀ N rest, JStop rest → 2 * s.length < N → readVal N (s ++ rest) = some (v, rest)

theorem TextReads.skip {s : Bytes} {v : Jt} (h : TextReads s v) (rest : Bytes) : skipWs (s ++ rest) = s ++ rest := by
  obtain ⟨⟨c, r, rfl, hw⟩, -⟩ := h
  rw [List.cons_append, skipWs_of_not hw]

/-- A string literal and the string read from it. -/
def LitReads (s k : Bytes) : Prop := ∀ N rest, s.length < N → readStr N (s ++ 34 :: rest) = some (k, rest)

theorem LitReads.text {s k : Bytes} (h : LitReads s k) : TextReads (34 :: (s ++ [34])) (.str k) := by
  refine ⟨⟨34, _, rfl, by decide⟩, fun N rest hs hN => ?_⟩
  obtain ⟨N, rfl⟩ : ∃ n, N = n + 1 := ⟨N - 1, by omega⟩
  simp only [List.cons_append, List.append_assoc, List.nil_append, readVal]
  rw [if_neg (by decide), if_neg (by decide), if_pos trivial, h _ _ (by simp; omega)]

theorem litReads_plain {s : Bytes} (h : RawText s) : LitReads s s := fun _ rest hN => h.read rest hN

theorem litReads_json (s : Bytes) : LitReads (jsonStrBody s.length s) (sanitize s) := by
  intro N rest hN
  exact readStr_jsonStr s (by simp [jsonStr]; omega) rest

theorem textReads_itoa (n : Int) : TextReads (itoa n) (.num (decide (n < 0)) (natDigits n.natAbs) none none) := by
  obtain ⟨c, r, e, hd⟩ := itoa_head n
  refine ⟨⟨c, r, e, (digit_head hd).1⟩, fun N rest hs hN => ?_⟩
  obtain ⟨N, rfl⟩ : ∃ n, N = n + 1 := ⟨N - 1, by omega⟩
  rw [readVal_number (itoa_head n), readNum_itoa n hs]

/-- White space between tokens. -/
abbrev Blank (w : Bytes) : Prop := ∀ c ∈ w, c = 32 ∨ c = 10

theorem skipWs_blank {w : Bytes} (h : Blank w) (s : Bytes) : skipWs (w ++ s) = skipWs s := by
  induction w with
  | nil => rfl
  | cons c w ih =>
    rw [Blank, List.forall_mem_cons] at h
    have hc : isWs c = true := by rcases h.1 with rfl | rfl <;> decide
    rw [List.cons_append, skipWs, if_pos hc, ih h.2]

theorem blank_stop {w : Bytes} (h : Blank w) {c : UInt8} (hc : c = 44 ∨ c = 93 ∨ c = 125) (s : Bytes) :
    JStop (w ++ c :: s) := by
  intro d r e
  cases w with
  | nil =>
    cases e
    rcases hc with h | h | h <;> simp [h]
  | cons x w =>
    rw [List.cons_append] at e
    cases e
    have := h d (by simp)
    rcases this with h | h <;> simp [h]

/-- A member followed by a comma. -/
theorem readMembers_more {N : Nat} {lit k : Bytes} {w1 vt w2 X rest : Bytes} {v : Jt} {m : List (Bytes × Jt)}
    (hk : LitReads lit k) (h1 : Blank w1) (hv : TextReads vt v) (h2 : Blank w2)
    (hX : readMembers N (skipWs X) = some (m, rest)) (hN : 2 * vt.length < N) :
    readMembers (N + 1) (34 :: (lit ++ 34 :: 58 :: (w1 ++ (vt ++ (44 :: (w2 ++ X)))))) = some ((k, v) :: m, rest) := by
  simp only [readMembers, if_true]
  rw [hk _ _ (by simp; omega)]
  simp only [skipWs_of_not (show isWs 58 = false by decide), skipWs_blank h1, hv.skip]
  rw [hv.2 N _ (by intro c r e; cases e; simp) hN]
  simp only
  rw [skipWs_of_not (show isWs 44 = false by decide)]
  simp only [skipWs_blank h2, hX]

/-- The last member. -/
theorem readMembers_last {N : Nat} {lit k : Bytes} {w1 vt w2 rest : Bytes} {v : Jt}
    (hk : LitReads lit k) (h1 : Blank w1) (hv : TextReads vt v) (h2 : Blank w2) (hN : 2 * vt.length < N) :
    readMembers (N + 1) (34 :: (lit ++ 34 :: 58 :: (w1 ++ (vt ++ (w2 ++ 125 :: rest))))) = some ([(k, v)], rest) := by
  simp only [readMembers, if_true]
  rw [hk _ _ (by simp; omega)]
  simp only [skipWs_of_not (show isWs 58 = false by decide), skipWs_blank h1, hv.skip]
  rw [hv.2 N _ (blank_stop h2 (by simp) _) hN]
  simp only [skipWs_blank h2]
  rw [skipWs_of_not (show isWs 125 = false by decide)]
  rfl

/-- An object. -/
theorem readVal_obj {N : Nat} {w X rest : Bytes} {m : List (Bytes × Jt)} (h : Blank w)
    (hX : readMembers N (34 :: X) = some (m, rest)) :
    readVal (N + 1) (123 :: (w ++ 34 :: X)) = some (.obj m, rest) := by
  simp only [readVal, if_true, skipWs_blank h]
  rw [skipWs_of_not (show isWs 34 = false by decide)]
  split
  · rename_i heq; cases heq
  · simp only [hX]

theorem blank_nil : Blank [] := by intro c h; cases h
theorem blank_space : Blank b!" " := by decide
theorem blank_line : Blank b!"\n" := by decide
theorem blank_indent : Blank b!"    " := by decide
theorem blank_line_indent : Blank b!"\n    " := by decide

theorem rawText_ascii {s : Bytes} (h : ∀ c ∈ s, c < 0x80 ∧ 32 ≤ c ∧ c ≠ 34 ∧ c ≠ 92) : RawText s := by
  refine ⟨?_, fun c hc => (h c hc).2⟩
  induction s with
  | nil => exact .nil
  | cons c s ih =>
    rw [List.forall_mem_cons] at h
    exact .ascii h.1.1 (ih h.2)

theorem lit_op : LitReads b!"op" b!"op" := litReads_plain (rawText_ascii (by decide))
theorem lit_path : LitReads b!"path" b!"path" := litReads_plain (rawText_ascii (by decide))
theorem lit_value : LitReads b!"value" b!"value" := litReads_plain (rawText_ascii (by decide))
theorem lit_timestamp : LitReads b!"timestamp" b!"timestamp" := litReads_plain (rawText_ascii (by decide))

/-- The text of an operation as an object with four members. -/
theorem textReads_op4 {o' p' V o p : Bytes} {jv : Jt} {n : Int} (ho : LitReads o' o) (hp : LitReads p' p)
    (hV : TextReads V jv) : TextReads (b!"{ \"op\": \"" ++ o' ++ b!"\", \"path\": \"" ++ p' ++ b!"\", \"value\": " ++ V ++
      b!", \"timestamp\": " ++ itoa n ++ b!" }")
      (.obj [(b!"op", .str o), (b!"path", .str p), (b!"value", jv),
        (b!"timestamp", .num (decide (n < 0)) (natDigits n.natAbs) none none)]) := by
  refine ⟨⟨123, _, by simp only [List.cons_append]; rfl, by decide⟩, fun N rest hs hN => ?_⟩
  simp only [List.length_append, List.length_cons, List.length_nil] at hN
  obtain ⟨N, rfl⟩ : ∃ n, N = n + 5 := ⟨N - 5, by omega⟩
  simp only [List.cons_append, List.append_assoc, List.nil_append]
  apply readVal_obj (N := N + 4) (w := b!" ") (by decide)
  have e1 := readMembers_last (N := N) (rest := rest) lit_timestamp blank_space (textReads_itoa n) blank_space (by omega)
  have e2 := readMembers_more (N := N + 1) (w2 := b!" ") (w1 := b!" ") lit_value (by decide) hV (by decide)
    (by rw [skipWs_of_not (show isWs 34 = false by decide)]; exact e1) (by omega)
  have e3 := readMembers_more (N := N + 2) (w2 := b!" ") (w1 := b!" ") lit_path (by decide) hp.text (by decide)
    (by rw [skipWs_of_not (show isWs 34 = false by decide)]; exact e2) (by simp; omega)
  have e4 := readMembers_more (N := N + 3) (w2 := b!" ") (w1 := b!" ") lit_op (by decide) ho.text (by decide)
    (by rw [skipWs_of_not (show isWs 34 = false by decide)]; exact e3) (by simp; omega)
  simp only [List.cons_append, List.append_assoc, List.nil_append] at e4
  exact e4

/-- The text of an operation as an object with three members. -/
theorem textReads_op3 {o' p' o p : Bytes} {n : Int} (ho : LitReads o' o) (hp : LitReads p' p) :
    TextReads (b!"{ \"op\": \"" ++ o' ++ b!"\", \"path\": \"" ++ p' ++ b!"\", \"timestamp\": " ++ itoa n ++ b!" }")
      (.obj [(b!"op", .str o), (b!"path", .str p),
        (b!"timestamp", .num (decide (n < 0)) (natDigits n.natAbs) none none)]) := by
  refine ⟨⟨123, _, by simp only [List.cons_append]; rfl, by decide⟩, fun N rest hs hN => ?_⟩
  simp only [List.length_append, List.length_cons, List.length_nil] at hN
  obtain ⟨N, rfl⟩ : ∃ n, N = n + 4 := ⟨N - 4, by omega⟩
  simp only [List.cons_append, List.append_assoc, List.nil_append]
  apply readVal_obj (N := N + 3) (w := b!" ") (by decide)
  have e1 := readMembers_last (N := N) (rest := rest) lit_timestamp blank_space (textReads_itoa n) blank_space (by omega)
  have e3 := readMembers_more (N := N + 1) (w2 := b!" ") (w1 := b!" ") lit_path (by decide) hp.text (by decide)
    (by rw [skipWs_of_not (show isWs 34 = false by decide)]; exact e1) (by simp; omega)
  have e4 := readMembers_more (N := N + 2) (w2 := b!" ") (w1 := b!" ") lit_op (by decide) ho.text (by decide)
    (by rw [skipWs_of_not (show isWs 34 = false by decide)]; exact e3) (by simp; omega)
  simp only [List.cons_append, List.append_assoc, List.nil_append] at e4
  exact e4

/-- The compact text of an operation with four members. -/
theorem textReads_json4 {o' p' V o p : Bytes} {jv : Jt} {n : Int} (ho : LitReads o' o) (hp : LitReads p' p)
    (hV : TextReads V jv) : TextReads (b!"{\"op\":" ++ (34 :: (o' ++ [34])) ++ b!",\"path\":" ++ (34 :: (p' ++ [34])) ++
      b!",\"value\":" ++ V ++ b!",\"timestamp\":" ++ itoa n ++ b!"}")
      (.obj [(b!"op", .str o), (b!"path", .str p), (b!"value", jv),
        (b!"timestamp", .num (decide (n < 0)) (natDigits n.natAbs) none none)]) := by
  refine ⟨⟨123, _, by simp only [List.cons_append]; rfl, by decide⟩, fun N rest hs hN => ?_⟩
  simp only [List.length_append, List.length_cons, List.length_nil] at hN
  obtain ⟨N, rfl⟩ : ∃ n, N = n + 5 := ⟨N - 5, by omega⟩
  simp only [List.cons_append, List.append_assoc, List.nil_append]
  apply readVal_obj (N := N + 4) (w := []) (by decide)
  have e1 := readMembers_last (N := N) (rest := rest) lit_timestamp blank_nil (textReads_itoa n) blank_nil (by omega)
  have e2 := readMembers_more (N := N + 1) (w2 := []) (w1 := []) lit_value (by decide) hV (by decide)
    (by rw [skipWs_of_not (show isWs 34 = false by decide)]; exact e1) (by omega)
  have e3 := readMembers_more (N := N + 2) (w2 := []) (w1 := []) lit_path (by decide) hp.text (by decide)
    (by rw [skipWs_of_not (show isWs 34 = false by decide)]; exact e2) (by simp; omega)
  have e4 := readMembers_more (N := N + 3) (w2 := []) (w1 := []) lit_op (by decide) ho.text (by decide)
    (by rw [skipWs_of_not (show isWs 34 = false by decide)]; exact e3) (by simp; omega)
  simp only [List.cons_append, List.append_assoc, List.nil_append] at e4
  exact e4

/-- The compact text of an operation with three members. -/
theorem textReads_json3 {o' p' o p : Bytes} {n : Int} (ho : LitReads o' o) (hp : LitReads p' p) :
    TextReads (b!"{\"op\":" ++ (34 :: (o' ++ [34])) ++ b!",\"path\":" ++ (34 :: (p' ++ [34])) ++
      b!",\"timestamp\":" ++ itoa n ++ b!"}")
      (.obj [(b!"op", .str o), (b!"path", .str p),
        (b!"timestamp", .num (decide (n < 0)) (natDigits n.natAbs) none none)]) := by
  refine ⟨⟨123, _, by simp only [List.cons_append]; rfl, by decide⟩, fun N rest hs hN => ?_⟩
  simp only [List.length_append, List.length_cons, List.length_nil] at hN
  obtain ⟨N, rfl⟩ : ∃ n, N = n + 4 := ⟨N - 4, by omega⟩
  simp only [List.cons_append, List.append_assoc, List.nil_append]
  apply readVal_obj (N := N + 3) (w := []) (by decide)
  have e1 := readMembers_last (N := N) (rest := rest) lit_timestamp blank_nil (textReads_itoa n) blank_nil (by omega)
  have e3 := readMembers_more (N := N + 1) (w2 := []) (w1 := []) lit_path (by decide) hp.text (by decide)
    (by rw [skipWs_of_not (show isWs 34 = false by decide)]; exact e1) (by simp; omega)
  have e4 := readMembers_more (N := N + 2) (w2 := []) (w1 := []) lit_op (by decide) ho.text (by decide)
    (by rw [skipWs_of_not (show isWs 34 = false by decide)]; exact e3) (by simp; omega)
  simp only [List.cons_append, List.append_assoc, List.nil_append] at e4
  exact e4

/-! ### Values -/

/-- The value as it is written, with sorted members. -/
def PVal.tree : PVal → Js
  | .any j => ordAny j
  | .doc t => ordTson t

/-- The value contains finite numbers only. -/
def PVal.finite : PVal → Bool
  | .any j => j.finite
  | .doc t => t.finite

/-- Integers and timestamps have at most 64 bits. -/
def PVal.IntsOk : PVal → Prop
  | .any j => Ints64 j
  | .doc t => ∀ ts ∈ stamps t, minInt64 ≤ ts ∧ ts ≤ maxInt64

theorem ints64_ok (j : Js) : Ints64 j → IntsOk j := by
  induction j using Js.induction with
  | obj m ih =>
    intro h
    rw [IntsOk, intsOkF_iff]
    have : ∀ m, Ints64F m → ∀ p ∈ m, Ints64 p.2 := by
      intro m
      induction m with
      | nil => intro _ p hp; cases hp
      | cons q m ihm =>
        intro h p hp
        rcases List.mem_cons.1 hp with rfl | hp
        · exact h.1
        · exact ihm h.2 p hp
    exact fun p hp => ih p hp (this m h p hp)
  | arr l ih =>
    intro h
    rw [IntsOk, intsOkL_iff]
    have : ∀ l, Ints64L l → ∀ v ∈ l, Ints64 v := by
      intro m
      induction m with
      | nil => intro _ p hp; cases hp
      | cons q m ihm =>
        intro h p hp
        rcases List.mem_cons.1 hp with rfl | hp
        · exact h.1
        · exact ihm h.2 p hp
    exact fun p hp => ih p hp (this l h p hp)
  | int n => intro h; exact h
  | _ => intro _; trivial

theorem PVal.text_eq (v : PVal) : v.text = if v.finite then .ok (treeText v.tree) else .err := by
  cases v with
  | any j => simp only [PVal.text, marshalAny, anyText_ord, PVal.finite, PVal.tree]; rfl
  | doc t => simp only [PVal.text, toCompatibleText, tsonText_ord, PVal.finite, PVal.tree]; rfl

theorem PVal.good {v : PVal} (h : v.IntsOk) (hf : v.finite = true) : GoodJs v.tree := by
  cases v with
  | any j => exact goodJs_ord j (ints64_ok j h) hf
  | doc t =>
    refine goodJs_ordTson t (fun ts hts => ?_) hf
    have := h ts hts
    simp only [minInt64, maxInt64] at this
    omega

/-- What is read from the text of the value. -/
def PVal.back (v : PVal) : Js := decAny (sanT v.tree)

theorem forall_sanT {m : List (Bytes × Js)} {Q : Js → Prop} :
    (∀ p ∈ (mapV sanT m).map encKey, Q p.2) ↔ ∀ p ∈ m, Q (sanT p.2) := by
  constructor
  · intro h p hp
    exact h (encKey (p.1, sanT p.2)) (List.mem_map_of_mem (List.mem_map_of_mem (f := fun q => (q.1, sanT q.2)) hp))
  · intro h p hp
    obtain ⟨q, hq, rfl⟩ := List.mem_map.1 hp
    obtain ⟨r, hr, rfl⟩ := List.mem_map.1 hq
    exact h r hr

theorem sanT_ordAny_depth (j : Js) : ∀ n, (sanT (ordAny j)).depth ≤ n ↔ j.depth ≤ n := by
  induction j using Js.induction with
  | obj m ih =>
    intro n
    have e : Js.depthF (sanTF (sortM (ordAnyF m))) ≤ n - 1 ↔ Js.depthF m ≤ n - 1 := by
      rw [depthF_le, depthF_le, sanTF_eq, ordAnyF_eq]
      rw [forall_sanT (Q := fun v => v.depth ≤ n - 1), forall_sortM_mapV (Q := fun v => (sanT v).depth ≤ n - 1)]
      exact ⟨fun h p hp => (ih p hp _).1 (h p hp), fun h p hp => (ih p hp _).2 (h p hp)⟩
    simp only [ordAny, sanT, Js.depth]
    omega
  | arr l ih =>
    intro n
    have e : Js.depthL (sanTL (ordAnyL l)) ≤ n - 1 ↔ Js.depthL l ≤ n - 1 := by
      rw [depthL_le, depthL_le, sanTL_eq, ordAnyL_eq]
      simp only [List.mem_map, forall_exists_index, and_imp, forall_apply_eq_imp_iff₂]
      exact ⟨fun h p hp => (ih p hp _).1 (h p hp), fun h p hp => (ih p hp _).2 (h p hp)⟩
    simp only [ordAny, sanT, Js.depth]
    omega
  | _ => intro n; simp [ordAny, sanT, Js.depth]

theorem nestingF_all {m : List (Bytes × Tson)} {n : Nat} : nestingF m ≤ n ↔ ∀ p ∈ m, nesting p.2 ≤ n := by
  induction m with
  | nil => simp [nestingF]
  | cons p m ih => obtain ⟨k, v⟩ := p; simp only [nestingF, List.forall_mem_cons, ← ih]; omega

theorem nestingL_all {l : List Tson} {n : Nat} : nestingL l ≤ n ↔ ∀ v ∈ l, nesting v ≤ n := by
  induction l with
  | nil => simp [nestingL]
  | cons v l ih => simp only [nestingL, List.forall_mem_cons, ← ih]; omega

theorem sanT_ordTson_depth (t : Tson) : ∀ n, (sanT (ordTson t)).depth ≤ n ↔ nesting t ≤ n := by
  induction t using Tson.induction with
  | null => intro n; simp [ordTson, sanT, Js.depth, nesting]
  | leaf p ts => intro n; cases p <;> simp [ordTson, sanT, sanTF, Js.depth, Js.depthF, nesting, Prim.js]
  | obj m ih =>
    intro n
    have e : Js.depthF (sanTF (sortM (ordTsonF m))) ≤ n - 1 ↔ nestingF m ≤ n - 1 := by
      rw [depthF_le, nestingF_all, sanTF_eq, ordTsonF_eq]
      rw [forall_sanT (Q := fun v => v.depth ≤ n - 1), forall_sortM_mapV (Q := fun v => (sanT v).depth ≤ n - 1)]
      exact ⟨fun h p hp => (ih p hp _).1 (h p hp), fun h p hp => (ih p hp _).2 (h p hp)⟩
    simp only [ordTson, sanT, Js.depth, nesting]
    omega
  | arr l ih =>
    intro n
    have e : Js.depthL (sanTL (ordTsonL l)) ≤ n - 1 ↔ nestingL l ≤ n - 1 := by
      rw [depthL_le, nestingL_all, sanTL_eq, ordTsonL_eq]
      simp only [List.mem_map, forall_exists_index, and_imp, forall_apply_eq_imp_iff₂]
      exact ⟨fun h p hp => (ih p hp _).1 (h p hp), fun h p hp => (ih p hp _).2 (h p hp)⟩
    simp only [ordTson, sanT, Js.depth, nesting]
    omega

theorem PVal.tree_depth (v : PVal) : (sanT v.tree).depth = v.depth := by
  apply Nat.le_antisymm
  · cases v with
    | any j => exact (sanT_ordAny_depth j _).2 (Nat.le_refl _)
    | doc t => exact (sanT_ordTson_depth t _).2 (Nat.le_refl _)
  · cases v with
    | any j => exact (sanT_ordAny_depth j _).1 (Nat.le_refl _)
    | doc t => exact (sanT_ordTson_depth t _).1 (Nat.le_refl _)

theorem PVal.reads {v : PVal} (h : v.IntsOk) (hf : v.finite = true) : ∃ jt, TextReads (treeText v.tree) jt ∧
    jt.toAny = .ok v.back ∧ jt.depth = v.depth := by
  obtain ⟨jt, h1, h2, h3⟩ := Verif.reads v.tree (PVal.good h hf)
  obtain ⟨c, r, e, hw, -⟩ := treeText_head (PVal.good h hf)
  exact ⟨jt, ⟨⟨c, r, e, hw⟩, h1⟩, h2, h3.trans v.tree_depth⟩

theorem PVal.isNil_back {v : PVal} (h : v.isNil = true) : v.back = .null := by
  cases v with
  | any j => cases j <;> first | rfl | cases h
  | doc t => cases t <;> first | rfl | cases h

theorem PVal.isNil_tree {v : PVal} (h : v.isNil = true) : v.finite = true ∧ v.tree = .null := by
  cases v with
  | any j => cases j <;> first | exact ⟨rfl, rfl⟩ | cases h
  | doc t => cases t <;> first | exact ⟨rfl, rfl⟩ | cases h

/-! ### Operations -/

theorem decodeField_op (o : POp) (v : Jt) :
    decodeField o b!"op" v = (decodeStr o.op v).map fun s => { o with op := s } := by
  have e : foldName b!"op" = b!"OP" := by decide
  rw [decodeField, e]
  exact if_pos rfl

theorem decodeField_path (o : POp) (v : Jt) :
    decodeField o b!"path" v = (decodeStr o.path v).map fun s => { o with path := s } := by
  have e : foldName b!"path" = b!"PATH" := by decide
  rw [decodeField, e]
  exact (if_neg (by decide)).trans (if_pos rfl)

theorem decodeField_value (o : POp) (v : Jt) :
    decodeField o b!"value" v = v.toAny.map fun j => { o with value := .any j } := by
  have e : foldName b!"value" = b!"VALUE" := by decide
  rw [decodeField, e]
  exact (if_neg (by decide)).trans ((if_neg (by decide)).trans (if_pos rfl))

theorem decodeField_timestamp (o : POp) (v : Jt) :
    decodeField o b!"timestamp" v = (decodeInt o.ts v).map fun n => { o with ts := n } := by
  have e : foldName b!"timestamp" = b!"TIMESTAMP" := by decide
  rw [decodeField, e]
  exact (if_neg (by decide)).trans ((if_neg (by decide)).trans ((if_neg (by decide)).trans (if_pos rfl)))

theorem decodeFields_op4 {o p : Bytes} {jv : Jt} {j : Js} {n : Int} (hj : jv.toAny = .ok j)
    (hn : minInt64 ≤ n ∧ n ≤ maxInt64) :
    decodeOp (.obj [(b!"op", .str o), (b!"path", .str p), (b!"value", jv),
        (b!"timestamp", .num (decide (n < 0)) (natDigits n.natAbs) none none)]) = .ok ⟨o, p, .any j, n⟩ := by
  simp only [decodeOp, decodeFields, decodeField_op, decodeField_path, decodeField_value, decodeField_timestamp, hj,
    decodeStr, decodeInt, litInt_itoa hn.1 hn.2, Res.map_ok, Res.bind_ok]

theorem decodeFields_op3 {o p : Bytes} {n : Int} (hn : minInt64 ≤ n ∧ n ≤ maxInt64) :
    decodeOp (.obj [(b!"op", .str o), (b!"path", .str p),
        (b!"timestamp", .num (decide (n < 0)) (natDigits n.natAbs) none none)]) = .ok ⟨o, p, .any .null, n⟩ := by
  simp only [decodeOp, decodeFields, decodeField_op, decodeField_path, decodeField_timestamp, decodeStr, decodeInt,
    litInt_itoa hn.1 hn.2, Res.map_ok, Res.bind_ok, POp.zero]

/-- The text of an operation is read as the operation `o`, nested `d` levels deep. -/
def OpReads (s : Bytes) (o : POp) (d : Nat) : Prop := ∃ jt, TextReads s jt ∧ decodeOp jt = .ok o ∧ jt.depth = d

/-- The elements of an array, with white space before and after them. -/
theorem readElems_one {N : Nat} {s w rest : Bytes} {jt : Jt} (h : TextReads s jt) (hw : Blank w) (hN : 2 * s.length < N) :
    readElems (N + 1) (s ++ (w ++ 93 :: rest)) = some ([jt], rest) := by
  simp only [readElems]
  rw [h.2 N _ (blank_stop hw (by simp) _) hN]
  simp only [skipWs_blank hw]
  rw [skipWs_of_not (show isWs 93 = false by decide)]
  rfl

theorem readElems_more {N : Nat} {s w X rest : Bytes} {jt : Jt} {l : List Jt} (h : TextReads s jt) (hw : Blank w)
    (hN : 2 * s.length < N) (hX : readElems N (skipWs X) = some (l, rest)) :
    readElems (N + 1) (s ++ (44 :: (w ++ X))) = some (jt :: l, rest) := by
  simp only [readElems]
  rw [h.2 N _ (by intro c r e; cases e; simp) hN]
  simp only
  rw [skipWs_of_not (show isWs 44 = false by decide)]
  simp only [skipWs_blank hw, hX]

theorem joinLines_cons (s : Bytes) (l : List Bytes) :
    joinLines (s :: l) = b!"    " ++ (s ++ (if l = [] then [] else b!",\n" ++ joinLines l)) := by
  cases l with
  | nil => simp [joinLines]
  | cons t l => simp [joinLines]

/-- The greatest depth of operations. -/
def maxDepth : List Nat → Nat
  | [] => 0
  | d :: l => max d (maxDepth l)

/-- An operation, its text, what is read, and the depth of the text. -/
structure OpText where
  text : Bytes
  op : POp
  depth : Nat

theorem readElems_lines (l : List OpText) : l ≠ [] → (∀ x ∈ l, OpReads x.text x.op x.depth) → ∃ jl,
    (∀ N w rest, Blank w → 2 * (joinLines (l.map OpText.text)).length + 1 < N →
      readElems N (skipWs (joinLines (l.map OpText.text) ++ (w ++ 93 :: rest))) = some (jl, rest)) ∧
    decodeOps jl = .ok (l.map OpText.op) ∧ Jt.depthL jl = maxDepth (l.map OpText.depth) := by
  induction l with
  | nil => intro h; exact absurd rfl h
  | cons x l ih =>
    intro _ h
    rw [List.forall_mem_cons] at h
    obtain ⟨⟨jt, h1, h2, h3⟩, hl⟩ := h
    by_cases hnil : l = []
    · subst hnil
      refine ⟨[jt], fun N w rest hw hN => ?_, ?_, ?_⟩
      · obtain ⟨N, rfl⟩ : ∃ n, N = n + 1 := ⟨N - 1, by omega⟩
        simp only [List.map_cons, List.map_nil, joinLines, List.length_append] at hN ⊢
        rw [List.append_assoc, skipWs_blank (by decide), h1.skip, readElems_one h1 hw (by omega)]
      · simp only [decodeOps, h2, Res.bind_ok, Res.map_ok, List.map_cons, List.map_nil]
      · simp only [Jt.depthL, h3, maxDepth, List.map_cons, List.map_nil]
    · obtain ⟨jl, g1, g2, g3⟩ := ih hnil hl
      have hnil' : l.map OpText.text ≠ [] := by simpa using hnil
      refine ⟨jt :: jl, fun N w rest hw hN => ?_, ?_, ?_⟩
      · obtain ⟨N, rfl⟩ : ∃ n, N = n + 1 := ⟨N - 1, by omega⟩
        rw [List.map_cons, joinLines_cons, if_neg hnil'] at hN ⊢
        simp only [List.length_append, List.length_cons, List.length_nil] at hN
        rw [List.append_assoc, skipWs_blank (by decide), List.append_assoc, h1.skip]
        exact readElems_more (w := b!"\n") h1 (by decide) (by omega) (g1 N w rest hw (by omega))
      · simp only [decodeOps, h2, g2, Res.bind_ok, Res.map_ok, List.map_cons]
      · simp only [Jt.depthL, h3, g3, maxDepth, List.map_cons]

theorem readElems_joined (l : List OpText) : l ≠ [] → (∀ x ∈ l, OpReads x.text x.op x.depth) → ∃ jl,
    (∀ N rest, 2 * (joinElems (l.map OpText.text)).length + 1 < N →
      readElems N (skipWs (joinElems (l.map OpText.text) ++ 93 :: rest)) = some (jl, rest)) ∧
    decodeOps jl = .ok (l.map OpText.op) ∧ Jt.depthL jl = maxDepth (l.map OpText.depth) := by
  induction l with
  | nil => intro h; exact absurd rfl h
  | cons x l ih =>
    intro _ h
    rw [List.forall_mem_cons] at h
    obtain ⟨⟨jt, h1, h2, h3⟩, hl⟩ := h
    by_cases hnil : l = []
    · subst hnil
      refine ⟨[jt], fun N rest hN => ?_, ?_, ?_⟩
      · obtain ⟨N, rfl⟩ : ∃ n, N = n + 1 := ⟨N - 1, by omega⟩
        simp only [List.map_cons, List.map_nil, joinElems] at hN ⊢
        rw [h1.skip]
        exact readElems_one (w := []) h1 blank_nil (by omega)
      · simp only [decodeOps, h2, Res.bind_ok, Res.map_ok, List.map_cons, List.map_nil]
      · simp only [Jt.depthL, h3, maxDepth, List.map_cons, List.map_nil]
    · obtain ⟨jl, g1, g2, g3⟩ := ih hnil hl
      have hnil' : l.map OpText.text ≠ [] := by simpa using hnil
      refine ⟨jt :: jl, fun N rest hN => ?_, ?_, ?_⟩
      · obtain ⟨N, rfl⟩ : ∃ n, N = n + 1 := ⟨N - 1, by omega⟩
        rw [List.map_cons, joinElems_cons, if_neg hnil'] at hN ⊢
        simp only [List.length_append, List.length_cons] at hN
        rw [List.append_assoc, h1.skip]
        exact readElems_more (w := []) h1 (by decide) (by omega) (g1 N rest (by omega))
      · simp only [decodeOps, h2, g2, Res.bind_ok, Res.map_ok, List.map_cons]
      · simp only [Jt.depthL, h3, g3, maxDepth, List.map_cons]

/-- An array of operations as a whole. -/
theorem unmarshalPatch_arr {w X : Bytes} {jl : List Jt} (hw : Blank w) {c : UInt8} {r : Bytes}
    (hX : skipWs X = c :: r) (hc : c ≠ 93)
    (h : ∀ N, 2 * X.length + 1 ≤ N → readElems N (skipWs X) = some (jl, [])) :
    unmarshalPatch (91 :: (w ++ X)) = if Jt.depthL jl < 10000 then (decodeOps jl).map some else .err := by
  rw [unmarshalPatch, readText, skipWs_of_not (show isWs 91 = false by decide)]
  have e : readVal (2 * (91 :: (w ++ X)).length + 1) (91 :: (w ++ X)) = some (.arr jl, []) := by
    rw [readVal]
    simp only [if_true, skipWs_blank hw]
    rw [if_neg (by decide)]
    have h := h (2 * (91 :: (w ++ X)).length) (by simp; omega)
    rw [hX] at h ⊢
    split
    · rename_i heq; injection heq with a b; exact absurd a hc
    · rw [h]
  rw [e]
  simp only [skipWs, Jt.depth, true_and]
  by_cases hd : Jt.depthL jl < 10000
  · rw [if_pos hd, if_pos (by omega)]
  · rw [if_neg hd, if_neg (by omega)]

/-! ### Texts that are not read -/

theorem readVal_comma (N : Nat) (X : Bytes) : readVal N (44 :: X) = none := by
  cases N with
  | zero => rfl
  | succ N =>
    rw [readVal, if_neg (by decide), if_neg (by decide), if_neg (by decide), if_neg (by decide)]
    rfl

/-- A member without value. -/
theorem readMembers_bad {N : Nat} {lit k w X : Bytes} (hk : LitReads lit k) (hw : Blank w) :
    readMembers (N + 1) (34 :: (lit ++ 34 :: 58 :: (w ++ 44 :: X))) = none := by
  simp only [readMembers, if_true]
  rw [hk _ _ (by simp; omega)]
  simp only [skipWs_of_not (show isWs 58 = false by decide), skipWs_blank hw,
    skipWs_of_not (show isWs 44 = false by decide), readVal_comma]

theorem readMembers_more_none {N : Nat} {lit k w1 vt w2 X : Bytes} {v : Jt} (hk : LitReads lit k) (h1 : Blank w1)
    (hv : TextReads vt v) (h2 : Blank w2) (hX : readMembers N (skipWs X) = none) (hN : 2 * vt.length < N) :
    readMembers (N + 1) (34 :: (lit ++ 34 :: 58 :: (w1 ++ (vt ++ (44 :: (w2 ++ X)))))) = none := by
  simp only [readMembers, if_true]
  rw [hk _ _ (by simp; omega)]
  simp only [skipWs_of_not (show isWs 58 = false by decide), skipWs_blank h1, hv.skip]
  rw [hv.2 N _ (by intro c r e; cases e; simp) hN]
  simp only
  rw [skipWs_of_not (show isWs 44 = false by decide)]
  simp only [skipWs_blank h2, hX]

/-- An object whose members cannot be read. -/
theorem readVal_obj_none {N : Nat} {w X : Bytes} (h : Blank w) (hX : readMembers N (34 :: X) = none) :
    readVal (N + 1) (123 :: (w ++ 34 :: X)) = none := by
  simp only [readVal, if_true, skipWs_blank h]
  rw [skipWs_of_not (show isWs 34 = false by decide)]
  split
  · rename_i heq; cases heq
  · simp only [hX]

/-- The text of an operation without a value is not read. -/
theorem readVal_noValue {o' p' o p : Bytes} {n : Int} (ho : LitReads o' o) (hp : LitReads p' p) (N : Nat) (rest : Bytes)
    (hN : 2 * (b!"{ \"op\": \"" ++ o' ++ b!"\", \"path\": \"" ++ p' ++ b!"\", \"value\": " ++ [] ++
      b!", \"timestamp\": " ++ itoa n ++ b!" }").length < N) :
    readVal N (b!"{ \"op\": \"" ++ o' ++ b!"\", \"path\": \"" ++ p' ++ b!"\", \"value\": " ++ [] ++
      b!", \"timestamp\": " ++ itoa n ++ b!" }" ++ rest) = none := by
  simp only [List.length_append, List.length_cons, List.length_nil] at hN
  obtain ⟨N, rfl⟩ : ∃ n, N = n + 5 := ⟨N - 5, by omega⟩
  simp only [List.cons_append, List.append_assoc, List.nil_append]
  apply readVal_obj_none (N := N + 4) (w := b!" ") (by decide)
  have e2 := readMembers_bad (N := N + 1) (X := b!" \"timestamp\": " ++ (itoa n ++ b!" }" ++ rest)) (w := b!" ") lit_value (by decide)
  have e3 := readMembers_more_none (N := N + 2) (w2 := b!" ") (w1 := b!" ") lit_path (by decide) hp.text (by decide)
    (by rw [skipWs_of_not (show isWs 34 = false by decide)]; exact e2) (by simp; omega)
  have e4 := readMembers_more_none (N := N + 3) (w2 := b!" ") (w1 := b!" ") lit_op (by decide) ho.text (by decide)
    (by rw [skipWs_of_not (show isWs 34 = false by decide)]; exact e3) (by simp; omega)
  simp only [List.cons_append, List.append_assoc, List.nil_append] at e4
  exact e4

/-! ### Whole patches -/

/-- The operation read back. -/
def POp.back (o : POp) : POp := ⟨o.op, o.path, .any o.value.back, o.ts⟩

theorem POp.string_reads {o : POp} (ho : RawText o.op) (hp : RawText o.path) (ht : o.Typed)
    (hf : o.value.finite = true) : OpReads o.string o.back (1 + o.value.depth) := by
  obtain ⟨jt, h1, h2, h3⟩ := PVal.reads (v := o.value) ht.2 hf
  refine ⟨_, ?_, decodeFields_op4 (o := o.op) (p := o.path) h2 ht.1, ?_⟩
  · have : o.value.textOrNothing = treeText o.value.tree := by
      rw [PVal.textOrNothing, PVal.text_eq, if_pos hf]
    rw [POp.string, this]
    exact textReads_op4 (litReads_plain ho) (litReads_plain hp) h1
  · simp only [Jt.depth, Jt.depthF, h3]; omega

theorem POp.json_reads {o : POp} (ht : o.Typed) (hf : o.value.finite = true) :
    ∃ b, o.json = .ok b ∧ OpReads b ⟨sanitize o.op, sanitize o.path, .any o.value.back, o.ts⟩ (1 + o.value.depth) := by
  rw [POp.json]
  by_cases hn : o.value.isNil = true
  · rw [if_pos hn]
    refine ⟨_, rfl, _, textReads_json3 (litReads_json o.op) (litReads_json o.path), ?_, ?_⟩
    · rw [PVal.isNil_back hn]; exact decodeFields_op3 ht.1
    · have e : o.value.depth = 0 := by rw [← PVal.tree_depth, (PVal.isNil_tree hn).2]; rfl
      simp only [Jt.depth, Jt.depthF, e]; omega
  · rw [if_neg hn, PVal.text_eq, if_pos hf, Res.map_ok]
    obtain ⟨jt, h1, h2, h3⟩ := PVal.reads (v := o.value) ht.2 hf
    refine ⟨_, rfl, _, textReads_json4 (litReads_json o.op) (litReads_json o.path) h1, decodeFields_op4 h2 ht.1, ?_⟩
    simp only [Jt.depth, Jt.depthF, h3]; omega

theorem maxDepth_le {l : List Nat} {n : Nat} : maxDepth l ≤ n ↔ ∀ d ∈ l, d ≤ n := by
  induction l with
  | nil => simp [maxDepth]
  | cons d l ih => simp only [maxDepth, List.forall_mem_cons, ← ih]; omega

theorem OpReads.head {s : Bytes} {o : POp} {d : Nat} (h : OpReads s o d) (hs : ∃ r, s = 123 :: r) (X : Bytes) :
    ∃ r, skipWs (s ++ X) = 123 :: r := by
  obtain ⟨jt, h1, -⟩ := h
  obtain ⟨r, rfl⟩ := hs
  exact ⟨r ++ X, h1.skip X⟩

theorem string_head (o : POp) : ∃ r, o.string = 123 :: r := ⟨_, by simp only [POp.string, List.cons_append]; rfl⟩

theorem skipWs_lines (o : POp) (p : List POp) (X : Bytes) :
    ∃ r, skipWs (joinLines ((o :: p).map POp.string) ++ X) = 123 :: r := by
  obtain ⟨r, hr⟩ := string_head o
  rw [List.map_cons, joinLines_cons, List.append_assoc, skipWs_blank (by decide), hr, List.append_assoc, List.cons_append,
    skipWs_of_not (by decide)]
  exact ⟨_, rfl⟩

/-- `Unmarshal` of `String`, if all values can be written. -/
theorem unmarshal_string (p : List POp) (h : ∀ o ∈ p, RawText o.op ∧ RawText o.path ∧ o.Typed)
    (hf : ∀ o ∈ p, o.value.finite = true) :
    unmarshalPatch (patchString p) = if ∀ o ∈ p, o.value.depth ≤ 9998 then .ok (some (p.map POp.back)) else .err := by
  cases p with
  | nil => simp [patchString, joinLines]; rfl
  | cons o p =>
    obtain ⟨jl, h1, h2, h3⟩ := readElems_lines
      (((o :: p).map fun o => (⟨o.string, o.back, 1 + o.value.depth⟩ : OpText))) (by simp) (by
        intro x hx
        obtain ⟨o, ho, rfl⟩ := List.mem_map.1 hx
        exact POp.string_reads (h o ho).1 (h o ho).2.1 (h o ho).2.2 (hf o ho))
    simp only [List.map_map] at h1 h2 h3
    have e1 : (OpText.text ∘ fun o : POp => (⟨o.string, o.back, 1 + o.value.depth⟩ : OpText)) = POp.string := rfl
    have e2 : (OpText.op ∘ fun o : POp => (⟨o.string, o.back, 1 + o.value.depth⟩ : OpText)) = POp.back := rfl
    rw [e1] at h1
    rw [e2] at h2
    obtain ⟨r, hr⟩ := skipWs_lines o p (b!"\n" ++ [93])
    have := unmarshalPatch_arr (w := b!"\n") (X := joinLines ((o :: p).map POp.string) ++ (b!"\n" ++ [93])) (jl := jl)
      (by decide) hr (by decide) (fun N hN => h1 N b!"\n" [] (by decide) (by simp only [List.length_append, List.length_cons, List.length_nil] at hN; omega))
    have e : patchString (o :: p) = 91 :: (b!"\n" ++ (joinLines ((o :: p).map POp.string) ++ (b!"\n" ++ [93]))) := by
      simp only [patchString, List.cons_append, List.nil_append]
    rw [e, this, h2, h3]
    have hd : (maxDepth ((o :: p).map (OpText.depth ∘ fun o : POp => (⟨o.string, o.back, 1 + o.value.depth⟩ : OpText))) < 10000) ↔
        ∀ x ∈ o :: p, x.value.depth ≤ 9998 := by
      rw [show ∀ n, n < 10000 ↔ n ≤ 9999 by omega, maxDepth_le]
      constructor
      · intro h x hx
        have := h _ (List.mem_map_of_mem hx)
        simp only [Function.comp_apply] at this; omega
      · intro h d hd
        obtain ⟨x, hx, rfl⟩ := List.mem_map.1 hd
        have := h x hx
        simp only [Function.comp_apply]; omega
    by_cases hh : ∀ x ∈ o :: p, x.value.depth ≤ 9998
    · rw [if_pos hh, if_pos (hd.2 hh)]; rfl
    · rw [if_neg hh, if_neg (fun h => hh (hd.1 h))]

/-- The elements are not read if the value of one operation could not be written. -/
theorem readElems_lines_none (p : List POp) (h : ∀ o ∈ p, RawText o.op ∧ RawText o.path ∧ o.Typed)
    (hf : ∃ o ∈ p, o.value.finite = false) : ∀ N X, 2 * (joinLines (p.map POp.string)).length + 1 < N →
      readElems N (skipWs (joinLines (p.map POp.string) ++ X)) = none := by
  induction p with
  | nil => obtain ⟨o, ho, -⟩ := hf; cases ho
  | cons o p ih =>
    intro N X hN
    obtain ⟨N, rfl⟩ : ∃ n, N = n + 1 := ⟨N - 1, by omega⟩
    obtain ⟨r, hr⟩ := string_head o
    rw [List.forall_mem_cons] at h
    rw [List.map_cons, joinLines_cons] at hN ⊢
    simp only [List.length_append, List.length_cons, List.length_nil] at hN
    rw [List.append_assoc, skipWs_blank (by decide), List.append_assoc]
    have hs : ∀ X, skipWs (o.string ++ X) = o.string ++ X := by
      intro X; rw [hr, List.cons_append, skipWs_of_not (by decide)]
    rw [hs]
    cases hfo : o.value.finite with
    | false =>
      have e : o.value.textOrNothing = [] := by
        rw [PVal.textOrNothing, PVal.text_eq, hfo]; rfl
      rw [readElems, POp.string, e, readVal_noValue (litReads_plain h.1.1) (litReads_plain h.1.2.1)]
      rw [POp.string, e] at hN
      omega
    | true =>
      have hp : ∃ o ∈ p, o.value.finite = false := by
        obtain ⟨q, hq, hqf⟩ := hf
        rcases List.mem_cons.1 hq with rfl | hq
        · rw [hfo] at hqf; cases hqf
        · exact ⟨q, hq, hqf⟩
      have hne : p.map POp.string ≠ [] := by
        obtain ⟨q, hq, -⟩ := hp
        intro e
        have := List.mem_map_of_mem (f := POp.string) hq
        rw [e] at this; cases this
      obtain ⟨jt, h1, -⟩ := POp.string_reads h.1.1 h.1.2.1 h.1.2.2 hfo
      rw [if_neg hne] at hN ⊢
      simp only [List.length_append, List.length_cons, List.length_nil] at hN
      have hX := ih h.2 hp N X (by omega)
      simp only [readElems, List.append_assoc]
      rw [h1.2 N _ (by intro c r e; cases e; simp) (by omega)]
      simp only [List.cons_append, List.nil_append]
      rw [skipWs_of_not (show isWs 44 = false by decide)]
      have := skipWs_blank (w := b!"\n") (by decide) (joinLines (p.map POp.string) ++ X)
      simp only [List.cons_append, List.nil_append] at this
      simp only [this, hX]

theorem unmarshal_string_none (p : List POp) (h : ∀ o ∈ p, RawText o.op ∧ RawText o.path ∧ o.Typed)
    (hf : ∃ o ∈ p, o.value.finite = false) : unmarshalPatch (patchString p) = .err := by
  cases p with
  | nil => obtain ⟨o, ho, -⟩ := hf; cases ho
  | cons o p =>
    obtain ⟨r, hr⟩ := skipWs_lines o p (b!"\n" ++ [93])
    have hn := readElems_lines_none (o :: p) h hf (2 * (patchString (o :: p)).length) (b!"\n" ++ [93]) (by
      simp only [patchString, List.length_append, List.length_cons, List.length_nil]; omega)
    have e : patchString (o :: p) = 91 :: (b!"\n" ++ (joinLines ((o :: p).map POp.string) ++ (b!"\n" ++ [93]))) := by
      simp only [patchString, List.cons_append, List.nil_append]
    rw [unmarshalPatch, readText]
    have e2 : readVal (2 * (patchString (o :: p)).length + 1) (skipWs (patchString (o :: p))) = none := by
      generalize 2 * (patchString (o :: p)).length = N at hn ⊢
      rw [e, skipWs_of_not (show isWs 91 = false by decide), readVal]
      simp only [if_true, skipWs_blank (w := b!"\n") (by decide)]
      rw [if_neg (by decide)]
      rw [hr] at hn ⊢
      split
      · rename_i heq; cases heq
      · rw [hn]
    rw [e2]

/-- The texts of all operations. -/
theorem jsonOps_reads (p : List POp) (h : ∀ o ∈ p, o.Typed) (hf : ∀ o ∈ p, o.value.finite = true) :
    ∃ l : List OpText, jsonOps p = .ok (l.map OpText.text) ∧ (∀ x ∈ l, OpReads x.text x.op x.depth ∧ ∃ r, x.text = 123 :: r) ∧
      l.map OpText.op = p.map (fun o => ⟨sanitize o.op, sanitize o.path, .any o.value.back, o.ts⟩) ∧
      l.map OpText.depth = p.map fun o => 1 + o.value.depth := by
  induction p with
  | nil => exact ⟨[], rfl, by simp, rfl, rfl⟩
  | cons o p ih =>
    rw [List.forall_mem_cons] at h hf
    obtain ⟨l, h1, h2, h3, h4⟩ := ih h.2 hf.2
    obtain ⟨b, hb, hr⟩ := POp.json_reads h.1 hf.1
    refine ⟨⟨b, ⟨sanitize o.op, sanitize o.path, .any o.value.back, o.ts⟩, 1 + o.value.depth⟩ :: l, ?_, ?_, ?_, ?_⟩
    · rw [jsonOps, hb, Res.bind_ok, h1, Res.map_ok, List.map_cons]
    · rw [List.forall_mem_cons]
      refine ⟨⟨hr, ?_⟩, h2⟩
      rw [POp.json] at hb
      split at hb
      · cases hb; exact ⟨_, by simp only [List.cons_append]; rfl⟩
      · rw [PVal.text_eq, if_pos hf.1, Res.map_ok] at hb
        cases hb; exact ⟨_, by simp only [List.cons_append]; rfl⟩
    · simp only [List.map_cons, h3]
    · simp only [List.map_cons, h4]

theorem jsonOps_err (p : List POp) (hf : ∃ o ∈ p, o.value.finite = false) : jsonOps p = .err := by
  induction p with
  | nil => obtain ⟨o, ho, -⟩ := hf; cases ho
  | cons o p ih =>
    rw [jsonOps]
    cases hfo : o.value.finite with
    | false =>
      have hn : ¬ o.value.isNil = true := fun hn => by rw [(PVal.isNil_tree hn).1] at hfo; cases hfo
      rw [POp.json, if_neg hn, PVal.text_eq, hfo]; rfl
    | true =>
      have hp : ∃ o ∈ p, o.value.finite = false := by
        obtain ⟨q, hq, hqf⟩ := hf
        rcases List.mem_cons.1 hq with rfl | hq
        · rw [hfo] at hqf; cases hqf
        · exact ⟨q, hq, hqf⟩
      rw [ih hp]
      have : ∃ b, o.json = .ok b := by
        rw [POp.json]
        split
        · exact ⟨_, rfl⟩
        · rw [PVal.text_eq, if_pos hfo]; exact ⟨_, rfl⟩
      obtain ⟨b, hb⟩ := this
      rw [hb]; rfl

/-- `FromJson` on a patch, if all values can be written. -/
theorem fromJson_patch (p : List POp) (h : ∀ o ∈ p, o.Typed) (hf : ∀ o ∈ p, o.value.finite = true) :
    patchFromJson (.patch (some p)) = if ∀ o ∈ p, o.value.depth ≤ 9998 then
      .ok (some (p.map fun o => ⟨sanitize o.op, sanitize o.path, .any o.value.back, o.ts⟩)) else .err := by
  obtain ⟨l, h1, h2, h3, h4⟩ := jsonOps_reads p h hf
  rw [patchFromJson, patchJson, h1, Res.map_ok, Res.bind_ok]
  cases l with
  | nil =>
    have : p = [] := by simpa using h3.symm
    subst this
    simp [joinElems]; rfl
  | cons x l =>
    obtain ⟨jl, g1, g2, g3⟩ := readElems_joined (x :: l) (by simp) fun y hy => (h2 y hy).1
    obtain ⟨r, hr⟩ : ∃ r, skipWs (joinElems ((x :: l).map OpText.text) ++ [93]) = 123 :: r := by
      rw [List.map_cons, joinElems_cons, List.append_assoc]
      exact (h2 x (by simp)).1.head (h2 x (by simp)).2 _
    have := unmarshalPatch_arr (w := []) (X := joinElems ((x :: l).map OpText.text) ++ [93]) (jl := jl) blank_nil hr
      (by decide) (fun N hN => g1 N [] (by simp only [List.length_append, List.length_cons, List.length_nil] at hN; omega))
    rw [List.nil_append] at this
    rw [this, g2, g3, h3, h4]
    have hd : (maxDepth (p.map fun o : POp => 1 + o.value.depth) < 10000) ↔ ∀ o ∈ p, o.value.depth ≤ 9998 := by
      rw [show ∀ n, n < 10000 ↔ n ≤ 9999 by omega, maxDepth_le]
      constructor
      · intro h o ho
        have := h _ (List.mem_map_of_mem ho)
        omega
      · intro h d hd
        obtain ⟨o, ho, rfl⟩ := List.mem_map.1 hd
        have := h o ho
        omega
    by_cases hh : ∀ o ∈ p, o.value.depth ≤ 9998
    · rw [if_pos hh, if_pos (hd.2 hh)]; rfl
    · rw [if_neg hh, if_neg (fun h => hh (hd.1 h))]

/-! ### The value read back -/

theorem PVal.back_text {v : PVal} (h : v.IntsOk) (hf : v.finite = true) (hd : v.depth ≤ 10000) :
    ∃ b, v.text = .ok b ∧ unmarshalText b = .ok v.back := by
  refine ⟨_, by rw [PVal.text_eq, if_pos hf], ?_⟩
  rw [unmarshalText_treeText (PVal.good h hf), unmarshalAny, if_pos (by rw [PVal.tree_depth]; exact hd)]
  rfl

theorem textJsonF_iff {m : List (Bytes × Js)} : TextJsonF m ↔ ∀ p ∈ m, ValidUtf8 p.1 ∧ TextJson p.2 := by
  induction m with
  | nil => simp [TextJsonF]
  | cons p m ih => obtain ⟨k, v⟩ := p; simp only [TextJsonF, List.forall_mem_cons, ih, and_assoc]

theorem textJsonL_iff {l : List Js} : TextJsonL l ↔ ∀ v ∈ l, TextJson v := by
  induction l with
  | nil => simp [TextJsonL]
  | cons v l ih => simp only [TextJsonL, List.forall_mem_cons, ih]

theorem TextJson.ints {j : Js} : TextJson j → Ints64 j := by
  induction j using Js.induction with
  | obj m ih =>
    intro h
    have h' := textJsonF_iff.1 h.2
    clear h
    show Ints64F m
    induction m with
    | nil => trivial
    | cons p m ihm =>
      rw [List.forall_mem_cons] at ih h'
      exact ⟨ih.1 h'.1.2, ihm ih.2 h'.2⟩
  | arr l ih =>
    intro h
    have h' := textJsonL_iff.1 h
    clear h
    show Ints64L l
    induction l with
    | nil => trivial
    | cons p m ihm =>
      rw [List.forall_mem_cons] at ih h'
      exact ⟨ih.1 h'.1, ihm ih.2 h'.2⟩
  | int n => intro h; exact h.elim
  | _ => intro _; trivial

theorem TextJson.finite {j : Js} : TextJson j → j.finite = true := by
  induction j using Js.induction with
  | obj m ih =>
    intro h
    rw [Js.finite, finiteF_iff]
    exact fun p hp => ih p hp (textJsonF_iff.1 h.2 p hp).2
  | arr l ih =>
    intro h
    rw [Js.finite, finiteL_iff]
    exact fun p hp => ih p hp (textJsonL_iff.1 h p hp)
  | num f => intro h; obtain ⟨neg, m, e, hf, rfl⟩ := h; rfl
  | int n => intro h; exact h.elim
  | _ => intro _; rfl

/-- Nothing is lost in the text. -/
theorem TextJson.back {j : Js} : TextJson j → decAny (sanT (ordAny j)) = ordAny j := by
  induction j using Js.induction with
  | obj m ih =>
    intro h
    have h' := textJsonF_iff.1 h.2
    rw [ordAny, sanT, decAny, ordAnyF_eq, sanTF_eq, decAnyF_eq]
    have e1 : (mapV sanT (sortM (mapV ordAny m))).map encKey = mapV sanT (sortM (mapV ordAny m)) := by
      conv => rhs; rw [← List.map_id (mapV sanT (sortM (mapV ordAny m)))]
      apply List.map_congr_left
      intro p hp
      obtain ⟨q, hq, rfl⟩ := List.mem_map.1 hp
      obtain ⟨r, hr, e⟩ := List.mem_map.1 ((sortM_perm _).subset hq)
      rw [← e]
      simp only [encKey, sanitize_valid (h' r hr).1, id]
    rw [e1, mapV_mapV]
    have e2 : mapV (fun v => decAny (sanT v)) (sortM (mapV ordAny m)) = sortM (mapV ordAny m) := by
      rw [← sortM_mapV, mapV_mapV]
      congr 1
      exact mapV_congr (f := fun v => decAny (sanT (ordAny v))) fun p hp => ih p hp (h' p hp).2
    rw [e2, fillMap_nodup]
    exact sortM_nodup (by rw [mkeys_mapV]; exact h.1)
  | arr l ih =>
    intro h
    have h' := textJsonL_iff.1 h
    rw [ordAny, sanT, decAny, ordAnyL_eq, sanTL_eq, decAnyL_eq, List.map_map, List.map_map]
    congr 1
    exact List.map_congr_left fun v hv => ih v hv (h' v hv)
  | str s => intro h; simp only [ordAny, sanT, sanitize_valid h, decAny]
  | int n => intro h; exact h.elim
  | _ => intro _; simp [ordAny, sanT, decAny]

theorem sameJson_ord {j : Js} : TextJson j → SameJson j (ordAny j) := by
  induction j using Js.induction with
  | obj m ih =>
    intro h
    rw [ordAny, ordAnyF_eq]
    refine ⟨by rw [sortM_length, mapV_length], (sameJsonF_iff _ _).2 fun p hp => ?_⟩
    refine ⟨_, ?_, ih p hp (textJsonF_iff.1 h.2 p hp).2⟩
    rw [mget_sortM (by rw [mkeys_mapV]; exact h.1), mget_mapV, mem_mget h.1 (show (p.1, p.2) ∈ m from hp)]; rfl
  | arr l ih =>
    intro h
    have h' := textJsonL_iff.1 h
    rw [ordAny, ordAnyL_eq]
    show SameJsonL l _
    clear h
    induction l with
    | nil => trivial
    | cons v l ihl =>
      rw [List.forall_mem_cons] at ih h'
      exact ⟨ih.1 h'.1, ihl ih.2 h'.2⟩
  | int n => intro h; exact h.elim
  | _ => intro _; simp [ordAny, SameJson]

end Verif
