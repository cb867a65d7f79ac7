import Verif.PropsPatchText
/-
Property C47: patches given to `FromJson` as maps and slices.
-/
namespace Verif

/-! ### Specification -/

/-- An operation as a map: the name, the path, the value and the timestamp. [tags at internal/tsonpatch/tsonpatch.go:82-85] -/
def asMap (x : Bytes × Bytes × Js × Int) : Js :=
  .obj [(b!"op", .str x.1), (b!"path", .str x.2.1), (b!"value", x.2.2.1), (b!"timestamp", .int x.2.2.2)]

/-- The operation. [internal/tsonpatch/tsonpatch.go:81-86] -/
def asOp (x : Bytes × Bytes × Js × Int) : POp := ⟨x.1, x.2.1, .any x.2.2.1, x.2.2.2⟩

/-! ### Lemmas -/

/-- The text of an operation with sorted members. -/
theorem textReads_sorted4 {o' p' V o p : Bytes} {jv : Jt} {n : Int} (ho : LitReads o' o) (hp : LitReads p' p)
    (hV : TextReads V jv) : TextReads (b!"{\"op\":" ++ (34 :: (o' ++ [34])) ++ b!",\"path\":" ++ (34 :: (p' ++ [34])) ++
      b!",\"timestamp\":" ++ itoa n ++ b!",\"value\":" ++ V ++ b!"}")
      (.obj [(b!"op", .str o), (b!"path", .str p),
        (b!"timestamp", .num (decide (n < 0)) (natDigits n.natAbs) none none), (b!"value", jv)]) := by
  refine ⟨⟨123, _, by simp only [List.cons_append]; rfl, by decide⟩, fun N rest hs hN => ?_⟩
  simp only [List.length_append, List.length_cons, List.length_nil] at hN
  obtain ⟨N, rfl⟩ : ∃ n, N = n + 5 := ⟨N - 5, by omega⟩
  simp only [List.cons_append, List.append_assoc, List.nil_append]
  apply readVal_obj (N := N + 4) (w := []) (by decide)
  have e1 := readMembers_last (N := N) (rest := rest) lit_value blank_nil hV blank_nil (by omega)
  have e2 := readMembers_more (N := N + 1) (w2 := []) (w1 := []) lit_timestamp (by decide) (textReads_itoa n) (by decide)
    (by rw [skipWs_of_not (show isWs 34 = false by decide)]; exact e1) (by omega)
  have e3 := readMembers_more (N := N + 2) (w2 := []) (w1 := []) lit_path (by decide) hp.text (by decide)
    (by rw [skipWs_of_not (show isWs 34 = false by decide)]; exact e2) (by simp; omega)
  have e4 := readMembers_more (N := N + 3) (w2 := []) (w1 := []) lit_op (by decide) ho.text (by decide)
    (by rw [skipWs_of_not (show isWs 34 = false by decide)]; exact e3) (by simp; omega)
  simp only [List.cons_append, List.append_assoc, List.nil_append] at e4
  exact e4

theorem decodeFields_sorted4 {o p : Bytes} {jv : Jt} {j : Js} {n : Int} (hj : jv.toAny = .ok j)
    (hn : minInt64 ≤ n ∧ n ≤ maxInt64) :
    decodeOp (.obj [(b!"op", .str o), (b!"path", .str p),
        (b!"timestamp", .num (decide (n < 0)) (natDigits n.natAbs) none none), (b!"value", jv)]) = .ok ⟨o, p, .any j, n⟩ := by
  simp only [decodeOp, decodeFields, decodeField_op, decodeField_path, decodeField_value, decodeField_timestamp, hj,
    decodeStr, decodeInt, litInt_itoa hn.1 hn.2, Res.map_ok, Res.bind_ok]

theorem anyText_asMap (x : Bytes × Bytes × Js × Int) :
    anyText (asMap x) = b!"{\"op\":" ++ (34 :: (jsonStrBody x.1.length x.1 ++ [34])) ++ b!",\"path\":" ++
      (34 :: (jsonStrBody x.2.1.length x.2.1 ++ [34])) ++ b!",\"timestamp\":" ++ itoa x.2.2.2 ++ b!",\"value\":" ++
      anyText x.2.2.1 ++ b!"}" := by
  obtain ⟨o, p, j, n⟩ := x
  have e1 : jsonStr b!"op" = b!"\"op\"" := by decide
  have e2 : jsonStr b!"path" = b!"\"path\"" := by decide
  have e3 : jsonStr b!"timestamp" = b!"\"timestamp\"" := by decide
  have e4 : jsonStr b!"value" = b!"\"value\"" := by decide
  have hs : ∀ a b c d : Bytes, sortM [(b!"op", a), (b!"path", b), (b!"value", c), (b!"timestamp", d)] =
      [(b!"op", a), (b!"path", b), (b!"timestamp", d), (b!"value", c)] := by
    intro a b c d
    rfl
  simp only [asMap, anyText, anyTextF, hs, joinMembers, e1, e2, e3, e4]
  simp [jsonStr]

theorem asMap_reads {x : Bytes × Bytes × Js × Int} (ht : (asOp x).Typed) (hf : (asOp x).value.finite = true) :
    OpReads (anyText (asMap x)) ⟨sanitize x.1, sanitize x.2.1, .any (asOp x).value.back, x.2.2.2⟩
      (1 + (asOp x).value.depth) := by
  obtain ⟨jt, h1, h2, h3⟩ := PVal.reads (v := (asOp x).value) ht.2 hf
  rw [anyText_asMap]
  have h1 : TextReads (anyText x.2.2.1) jt := by rw [anyText_ord]; exact h1
  refine ⟨_, textReads_sorted4 (litReads_json x.1) (litReads_json x.2.1) h1, decodeFields_sorted4 h2 ht.1, ?_⟩
  simp only [Jt.depth, Jt.depthF, h3]; omega

/-! ### C47 -/

/-- C47: a slice of maps, each with a name, a path, a value and a timestamp, is read as the operations, with the same
range as in `C47_roundtrip_partial`; nil is read as the nil patch. -/
theorem C47_maps (p : List (Bytes × Bytes × Js × Int)) (h : ∀ x ∈ p, ValidUtf8 x.1 ∧ ValidUtf8 x.2.1 ∧
    (minInt64 ≤ x.2.2.2 ∧ x.2.2.2 ≤ maxInt64) ∧ TextJson x.2.2.1 ∧ x.2.2.1.depth ≤ 9998) :
    (∃ q, patchFromJson (.any (.arr (p.map asMap))) = .ok (some q) ∧ OneByOne SamePOp (p.map asOp) q) ∧
    patchFromJson (.any .null) = .ok none := by
  refine ⟨?_, by rfl⟩
  have hfin : (Js.arr (p.map asMap)).finite = true := by
    rw [Js.finite]
    induction p with
    | nil => rfl
    | cons x p ih =>
      rw [List.forall_mem_cons] at h
      have := h.1.2.2.2.1.finite
      simp only [List.map_cons, Js.finiteL, asMap, Js.finite, Js.finiteF, this, ih h.2, Bool.and_self]
  have hr : ∀ x ∈ p, OpReads (anyText (asMap x)) ⟨sanitize x.1, sanitize x.2.1, .any (asOp x).value.back, x.2.2.2⟩
      (1 + (asOp x).value.depth) := fun x hx =>
    asMap_reads ⟨(h x hx).2.2.1, (h x hx).2.2.2.1.ints⟩ (h x hx).2.2.2.1.finite
  rw [patchFromJson, marshalAny, if_pos hfin, Res.bind_ok, anyText]
  cases p with
  | nil => exact ⟨[], by rfl, trivial⟩
  | cons x p =>
    let l : List OpText := (x :: p).map fun x =>
      ⟨anyText (asMap x), ⟨sanitize x.1, sanitize x.2.1, .any (asOp x).value.back, x.2.2.2⟩, 1 + (asOp x).value.depth⟩
    have hl : ∀ y ∈ l, OpReads y.text y.op y.depth := by
      intro y hy
      obtain ⟨x, hx, rfl⟩ := List.mem_map.1 hy
      exact hr x hx
    obtain ⟨jl, g1, g2, g3⟩ := readElems_joined l (by simp [l]) hl
    have htext : anyTextL ((x :: p).map asMap) = l.map OpText.text := by
      rw [anyTextL_eq]; simp [l, Function.comp_def]
    obtain ⟨r, hr'⟩ : ∃ r, skipWs (joinElems (l.map OpText.text) ++ [93]) = 123 :: r := by
      simp only [l, List.map_cons, joinElems_cons, List.append_assoc]
      exact (hr x (by simp)).head ⟨_, by rw [anyText_asMap]; simp only [List.cons_append]; rfl⟩ _
    have := unmarshalPatch_arr (w := []) (X := joinElems (l.map OpText.text) ++ [93]) (jl := jl) blank_nil hr'
      (by decide) (fun N hN => g1 N [] (by simp only [List.length_append, List.length_cons, List.length_nil] at hN; omega))
    rw [List.nil_append] at this
    rw [htext, this, g2, g3, if_pos]
    · refine ⟨_, rfl, ?_⟩
      have e : l.map OpText.op = ((x :: p).map asOp).map fun o => ⟨sanitize o.op, sanitize o.path, .any o.value.back, o.ts⟩ := by
        simp only [l, List.map_map]; rfl
      rw [e]
      refine oneByOne_map fun o ho => ?_
      obtain ⟨x, hx, rfl⟩ := List.mem_map.1 ho
      obtain ⟨h1, h2, -, hj, -⟩ := h x hx
      obtain ⟨-, -, -, hs⟩ := samePOp_back (o := asOp x) rfl hj
      exact ⟨sanitize_valid h1, sanitize_valid h2, rfl, hs⟩
    · rw [show ∀ n, n < 10000 ↔ n ≤ 9999 by omega, maxDepth_le]
      intro d hd
      simp only [l, List.map_map] at hd
      obtain ⟨x, hx, rfl⟩ := List.mem_map.1 hd
      have := (h x hx).2.2.2.2
      have : (asOp x).value.depth ≤ 9998 := this
      simp only [Function.comp_apply]
      omega

example : ∃ q, patchFromJson (.any (.arr ([(b!"add", b!"/a", Js.bool true, (7 : Int))].map asMap))) = .ok (some q) ∧
    OneByOne SamePOp ([(b!"add", b!"/a", Js.bool true, (7 : Int))].map asOp) q :=
  (C47_maps _ (by
    simp only [List.forall_mem_cons, List.not_mem_nil, false_imp_iff, implies_true, and_true]
    exact ⟨by repeat first | exact .nil | refine .ascii (by decide) ?_,
      by repeat first | exact .nil | refine .ascii (by decide) ?_, by decide, trivial, by simp [Js.depth]⟩)).1

end Verif
