import Verif.RoundTrip
import Verif.PropsVssPatch
import Verif.VssSave
import Verif.SpecVssSave
/-
Lemmas about reading saved data sets.
-/
namespace Verif

/-- The text of a value in a reading. -/
def valText (P : Nat → Bool) : Js → Bytes
  | .str s => quote P s
  | .num f => fmtFloat f
  | .int n => itoa n
  | .bool b => if b then b!"true" else b!"false"
  | _ => []

/-- A value as a value of a document. -/
def jsPrim : Js → Prim
  | .str s => .str s
  | .num f => .num f
  | .int n => .num (.ofInt n)
  | .bool b => .bool b
  | _ => .bool false

theorem CleanScalar.primOf {x : Js} (h : CleanScalar x) : PrimOf x (jsPrim x) := by
  cases h with
  | bool b => exact .bool b
  | num neg m e h => exact .num _ _ (.num _)
  | int n h1 h2 => exact .num _ _ (.int n)
  | str s h => exact .str s

theorem formatPrimitive_clean {P : Nat → Bool} {x : Js} (h : CleanScalar x) : formatPrimitive P x = .ok (valText P x) := by
  cases h <;> rfl

theorem valStep_int {n : Int} (h1 : minInt64 ≤ n) (h2 : n ≤ maxInt64)
    {pm : List (Bytes × Tson) → Bytes → PRes Tson} {pe : List Tson → Bytes → PRes Tson} {rest : Bytes}
    (hr : NotNum rest) : valStep pm pe (itoa n ++ rest) = suffixTs (.num (.ofInt n)) rest := by
  have hd := natDigits_isDigit n.natAbs
  have hne := natDigits_ne_nil n.natAbs
  have e : itoa n ++ rest = (if decide (n < 0) then [45] else []) ++ (natDigits n.natAbs ++ ((if ([] : Bytes) = [] then [] else 46 :: []) ++ rest)) := by
    unfold itoa
    by_cases h : n < 0
    · simp [h]
    · simp only [h, if_false, decide_false, Bool.false_eq_true, List.nil_append, if_true]
      congr 2; omega
  obtain ⟨c, r, hc, hcn⟩ := fmt_start (decide (n < 0)) hne hd ((if ([] : Bytes) = [] then [] else 46 :: []) ++ rest)
  obtain ⟨f, hf⟩ := ofRatio_nat (decide (n < 0)) (int64_natAbs h1 h2)
  have hp : parseFloat (decide (n < 0)) (natDigits n.natAbs) [] = some (F64.ofInt n) := by
    unfold parseFloat F64.ofInt
    rw [if_neg (by simp [hne]), List.append_nil, digitsVal_natDigits, hf]
    simp [readDecimal, hf]
  rw [e, valStep_num hc hcn, parseNumber_parts hne hd rfl hr, hp]

/-- A readable value is read. -/
theorem valStep_text {P : Nat → Bool} {x : Js} (hx : CleanScalar x) (hp : ReadableValue P x)
    {pm : List (Bytes × Tson) → Bytes → PRes Tson} {pe : List Tson → Bytes → PRes Tson} {rest : Bytes}
    (hr : NotNum rest) : valStep pm pe (valText P x ++ rest) = suffixTs (jsPrim x) rest := by
  cases hx with
  | bool b => exact valStep_prim (P := P) (p := .bool b) trivial hr
  | num neg m e h => cases hp with | num _ hp => exact valStep_prim (P := P) (p := .num _) hp hr
  | int n h1 h2 => exact valStep_int h1 h2 hr
  | str s h => cases hp with | str _ hp => exact valStep_prim (P := P) (p := .str s) hp hr

theorem valStep_text_bad {P : Nat → Bool} {x : Js} (hx : CleanScalar x) (hp : ¬ ReadableValue P x)
    {pm : List (Bytes × Tson) → Bytes → PRes Tson} {pe : List Tson → Bytes → PRes Tson} (rest : Bytes) :
    valStep pm pe (valText P x ++ rest) = .err ∨
    ∃ g y, StartsE y ∧ valStep pm pe (valText P x ++ rest) = .ok (.leaf (.num g) (-1)) y := by
  cases hx with
  | bool b => exact absurd (.bool b) hp
  | num neg m e h =>
    rcases valStep_prim_bad (P := P) (p := .num (.fin neg m e h)) (fun h => hp (.num _ h)) (pm := pm) (pe := pe) rest with h | ⟨f, y, _, hy, g, h⟩
    · exact .inl h
    · exact .inr ⟨g, y, hy, h⟩
  | int n h1 h2 => exact absurd (.int n) hp
  | str s h =>
    rcases valStep_prim_bad (P := P) (p := .str s) (fun h => hp (.str _ h)) (pm := pm) (pe := pe) rest with h | ⟨f, y, h, _⟩
    · exact .inl h
    · cases h

mutual
/-- The text of data in a layout. -/
def renderJs (L : Layout) (P : Nat → Bool) (cur : Bytes) (ctx : Ctx) : Js → Bytes
  | .obj m => match checkLeaf m with
    | some (v, ts) => leafInCtx ctx (valText P v) ts
    | none => 123 :: (L.opn ++ (renderJsF L P cur true m ++ (L.stop cur ++ [125])))
  | .arr l => 91 :: (L.opn ++ (renderJsL L P cur true l ++ (L.stop cur ++ [93])))
  | _ => []
/-- The text of the members. -/
def renderJsF (L : Layout) (P : Nat → Bool) (cur : Bytes) (first : Bool) : List (Bytes × Js) → Bytes
  | [] => []
  | (k, v) :: m => (if first then [] else 44 :: L.sep) ++ (L.lead cur ++ (quote P k ++ (anyKeyTs v ++ (58 :: 32 ::
      (renderJs L P (L.next cur) .object v ++ renderJsF L P cur false m)))))
/-- The text of the elements. -/
def renderJsL (L : Layout) (P : Nat → Bool) (cur : Bytes) (first : Bool) : List Js → Bytes
  | [] => []
  | v :: l => (if first then [] else 44 :: L.sep) ++ (L.lead cur ++
      (renderJs L P (L.next cur) .array v ++ renderJsL L P cur false l))
end

mutual
/-- The document of data. -/
def docJs : Js → Tson
  | .obj m => match checkLeaf m with
    | some (v, ts) => .leaf (jsPrim v) (if 0 ≤ ts then ts else -1)
    | none => .obj (docJsF m)
  | .arr l => .arr (docJsL l)
  | _ => .null
/-- The documents of the members. -/
def docJsF : List (Bytes × Js) → List (Bytes × Tson)
  | [] => []
  | (k, v) :: m => (k, docJs v) :: docJsF m
/-- The documents of the elements. -/
def docJsL : List Js → List Tson
  | [] => []
  | v :: l => docJs v :: docJsL l
end

theorem checkLeaf_reading (x : Js) (ts : Int) :
    checkLeaf [(b!"value", x), (b!"timestamp", .int ts)] = some (x, ts) := by rfl

theorem checkLeaf_map {m : List (Bytes × Js)} (h : b!"timestamp" ∉ mkeys m) : checkLeaf m = none := by
  have : mget m b!"timestamp" = none := by
    cases hm : mget m b!"timestamp" with
    | none => rfl
    | some v => exact absurd (mget_isSome.1 ⟨v, hm⟩) h
  unfold checkLeaf
  rw [this]
  split
  · split
    · rename_i h; cases h
    · rename_i h; cases h
    · rfl
  · rfl

theorem renderJs_reading (L : Layout) (P : Nat → Bool) (cur : Bytes) (ctx : Ctx) (x : Js) (ts : Int) :
    renderJs L P cur ctx (readingJs x ts) = leafInCtx ctx (valText P x) ts := by
  rw [readingJs, renderJs, checkLeaf_reading]

theorem renderJs_map (L : Layout) (P : Nat → Bool) (cur : Bytes) (ctx : Ctx) {m : List (Bytes × Js)} (h : b!"timestamp" ∉ mkeys m) :
    renderJs L P cur ctx (.obj m) = 123 :: (L.opn ++ (renderJsF L P cur true m ++ (L.stop cur ++ [125]))) := by
  rw [renderJs, checkLeaf_map h]

theorem docJs_reading (x : Js) (ts : Int) : docJs (readingJs x ts) = .leaf (jsPrim x) (if 0 ≤ ts then ts else -1) := by
  rw [readingJs, docJs, checkLeaf_reading]

theorem docJs_map {m : List (Bytes × Js)} (h : b!"timestamp" ∉ mkeys m) : docJs (.obj m) = .obj (docJsF m) := by
  rw [docJs, checkLeaf_map h]

theorem anyKeyTs_reading (x : Js) (ts : Int) : anyKeyTs (readingJs x ts) = 32 :: fmtTs ts := by
  rw [readingJs, anyKeyTs, checkLeaf_reading]

theorem anyKeyTs_map {m : List (Bytes × Js)} (h : b!"timestamp" ∉ mkeys m) : anyKeyTs (.obj m) = [] := by
  rw [anyKeyTs, checkLeaf_map h]

theorem DataTree.noStamp {m : List (Bytes × Js)} (h : ∀ k ∈ mkeys m, ValidUtf8 k ∧ k ≠ [] ∧ k ≠ b!"timestamp") : b!"timestamp" ∉ mkeys m :=
  fun hm => (h _ hm).2.2 rfl

/-- The model writes the text. -/
theorem anyIndent_render {v : Js} (h : DataTree v) (P : Nat → Bool) (ind : Bytes) : ∀ cur ctx,
    anyIndent P cur ind ctx v = .ok (renderJs (indentLayout ind) P cur ctx v) := by
  induction h with
  | reading x ts hx h1 h2 =>
    intro cur ctx
    rw [renderJs_reading, readingJs, anyIndent, checkLeaf_reading]
    simp only [formatPrimitive_clean hx, Res.map_ok]
  | map m hn hk hm ih =>
    intro cur ctx
    have hs := DataTree.noStamp hk
    rw [renderJs_map _ _ _ _ hs, anyIndent, checkLeaf_map hs]
    have : ∀ first, anyMembers P cur ind first m = .ok (renderJsF (indentLayout ind) P cur first m) := by
      clear hs hn hk hm
      induction m with
      | nil => intro first; rw [anyMembers, renderJsF]
      | cons p m ihm =>
        obtain ⟨k, w⟩ := p
        intro first
        rw [anyMembers, ih (k, w) (by simp), Res.bind_ok, ihm (fun q hq => ih q (List.mem_cons_of_mem _ hq)), Res.map_ok, renderJsF]
        simp only [indentLayout, List.append_assoc, List.nil_append, List.cons_append]
    simp only [this, Res.map_ok, indentLayout, List.append_assoc, List.cons_append, List.nil_append]
  | array l hl hv ih =>
    intro cur ctx
    rw [renderJs, anyIndent]
    have : ∀ first, anyElems P cur ind first l = .ok (renderJsL (indentLayout ind) P cur first l) := by
      clear hl hv
      induction l with
      | nil => intro first; rw [anyElems, renderJsL]
      | cons w l ihl =>
        intro first
        rw [anyElems, ih w (by simp), Res.bind_ok, ihl (fun q hq => ih q (List.mem_cons_of_mem _ hq)), Res.map_ok, renderJsL]
        simp only [indentLayout, List.append_assoc]
    simp only [this, Res.map_ok, indentLayout, List.append_assoc, List.cons_append, List.nil_append]

/-! ### Reading back -/

theorem readableData_reading {P : Nat → Bool} {x : Js} {ts : Int} : ReadableData P (readingJs x ts) ↔ ReadableValue P x := by
  constructor
  · intro h
    generalize e : readingJs x ts = j at h
    cases h with
    | reading y u hy => cases e; exact hy
    | map m hs _ _ => cases e; exact absurd (by simp [mkeys]) hs
    | array l _ => cases e
  · exact fun h => .reading x ts h

theorem readableData_map {P : Nat → Bool} {m : List (Bytes × Js)} (hs : b!"timestamp" ∉ mkeys m) :
    ReadableData P (.obj m) ↔ ∀ p ∈ m, PlainText P p.1 ∧ ReadableData P p.2 := by
  constructor
  · intro h p hp
    generalize e : Js.obj m = j at h
    cases h with
    | reading y u hy => cases e; exact absurd (by simp [mkeys]) hs
    | map m' _ h1 h2 => cases e; exact ⟨h1 p.1 (List.mem_map.2 ⟨p, hp, rfl⟩), h2 p hp⟩
    | array l _ => cases e
  · intro h
    refine .map m hs (fun k hk => ?_) fun p hp => (h p hp).2
    obtain ⟨p, hp, rfl⟩ := List.mem_map.1 hk
    exact (h p hp).1

theorem readableData_array {P : Nat → Bool} {l : List Js} : ReadableData P (.arr l) ↔ ∀ v ∈ l, ReadableData P v := by
  constructor
  · intro h
    generalize e : Js.arr l = j at h
    cases h with
    | reading y u hy => cases e
    | map m' _ h1 h2 => cases e
    | array l h => cases e; exact h
  · exact fun h => .array l h

/-- The data is a reading. -/
def IsReading (v : Js) : Prop := ∃ x ts, v = readingJs x ts ∧ CleanScalar x ∧ minInt64 ≤ ts ∧ ts ≤ maxInt64

/-- The data is a map or an array. -/
structure IsTree (v : Js) : Prop where
  /-- it starts with a bracket -/
  text : ∀ L P cur ctx, ∃ c r, renderJs L P cur ctx v = c :: r ∧ (c = 123 ∨ c = 91)
  /-- no timestamp behind its key -/
  key : anyKeyTs v = []
  /-- its document is a container -/
  doc : (docJs v).IsContainer

theorem DataTree.shape {v : Js} (h : DataTree v) : IsReading v ∨ IsTree v := by
  cases h with
  | reading x ts hx h1 h2 => exact .inl ⟨x, ts, rfl, hx, h1, h2⟩
  | map m hn hk hm =>
    have hs := DataTree.noStamp hk
    exact .inr ⟨fun L P cur ctx => ⟨_, _, renderJs_map L P cur ctx hs, .inl rfl⟩, anyKeyTs_map hs, by rw [docJs_map hs]; trivial⟩
  | array l hl hv =>
    exact .inr ⟨fun L P cur ctx => ⟨_, _, by rw [renderJs], .inr rfl⟩, rfl, by rw [docJs]; trivial⟩

/-- Reading back maps and arrays. -/
def JsBack (L : Layout) (P : Nat → Bool) (v : Js) : Prop :=
  IsTree v → ∀ cur ctx rest, AllWs cur →
    (ReadableData P v → pVal (renderJs L P cur ctx v ++ rest) = .ok (docJs v) rest) ∧
    (¬ ReadableData P v → pVal (renderJs L P cur ctx v ++ rest) = .err)

theorem clamped_rewrap (p : Prim) (ts : Int) :
    rewrap (.leaf p (-1)) (if 0 ≤ ts then ts else -1) = some (.leaf p (if 0 ≤ ts then ts else -1)) := by
  simp only [rewrap, Option.some.injEq, Tson.leaf.injEq, true_and]; split <;> omega

/-- One element of an array. -/
theorem js_elem {L : Layout} {P : Nat → Bool} {v : Js} (hd : DataTree v) (ih : JsBack L P v)
    {cur rest : Bytes} (hcur : AllWs cur) (hr : Stop rest) (acc : List Tson) :
    (ReadableData P v → pElems acc (renderJs L P cur .array v ++ rest) =
      afterItem 93 (pElems (acc ++ [docJs v])) (.arr (acc ++ [docJs v])) rest) ∧
    (¬ ReadableData P v → pElems acc (renderJs L P cur .array v ++ rest) = .err) := by
  rcases hd.shape with ⟨x, ts, rfl, hx, ht1, ht2⟩ | htree
  · rw [pElems_unfold]
    unfold elemStep
    rw [renderJs_reading, readableData_reading, docJs_reading]
    simp only [leafInCtx, List.append_assoc, List.cons_append]
    obtain ⟨y, hy⟩ := fmtTs_cons ts (32 :: (valText P x ++ rest))
    have hpre : prefixTs (fmtTs ts ++ 32 :: (valText P x ++ rest)) =
        parseTs (fmtTs ts ++ 32 :: (valText P x ++ rest)) := by
      rw [hy, prefixTs_lt (skipWs_of_not (by decide))]
    rw [hpre, parseTs_fmtTs ht2]
    have hsp : pVal (32 :: (valText P x ++ rest)) = valStep pMembers pElems (valText P x ++ rest) := by
      rw [← pVal_unfold]
      exact pVal_ws (w := [32]) (.cons (by decide) .nil) _
    simp only [hsp]
    constructor
    · intro hp
      rw [valStep_text hx hp hr.notNum, suffixTs_other hr.noTs]
      simp only [clamped_rewrap]
      exact afterItem_skipWs ..
    · intro hp
      rcases valStep_text_bad hx hp (pm := pMembers) (pe := pElems) rest with h | ⟨g, y, hy, h⟩
      · rw [h]
      · rw [h]
        simp only [rewrap]
        exact afterItem_e (by decide) hy
  · obtain ⟨ih1, ih2⟩ := ih htree cur .array rest hcur
    have hp : prefixTs (renderJs L P cur .array v ++ rest) = some (0, renderJs L P cur .array v ++ rest) := by
      obtain ⟨c, r, hc, hcc⟩ := htree.text L P cur .array
      rw [hc, List.cons_append]
      have hw : skipWs (c :: (r ++ rest)) = c :: (r ++ rest) := skipWs_of_not (by rcases hcc with rfl | rfl <;> decide)
      rw [prefixTs_other, hw]
      intro x hx
      rw [hw] at hx
      cases hx
      rcases hcc with h | h <;> revert h <;> decide
    rw [pElems_unfold]
    unfold elemStep
    rw [hp]
    constructor
    · intro h; simp only [ih1 h, rewrap_container htree.doc]
    · intro h; simp only [ih2 h]

/-- One member of an object. -/
theorem js_member {L : Layout} {P : Nat → Bool} {k : Bytes} {v : Js} (hd : DataTree v) (ih : JsBack L P v)
    {cur rest : Bytes} (hcur : AllWs cur) (hr : Stop rest) (acc : List (Bytes × Tson)) :
    (PlainText P k ∧ ReadableData P v →
      pMembers acc (quote P k ++ (anyKeyTs v ++ (58 :: 32 :: (renderJs L P cur .object v ++ rest)))) =
      afterItem 125 (pMembers (mset acc k (docJs v))) (.obj (mset acc k (docJs v))) rest) ∧
    (¬ (PlainText P k ∧ ReadableData P v) →
      pMembers acc (quote P k ++ (anyKeyTs v ++ (58 :: 32 :: (renderJs L P cur .object v ++ rest)))) = .err) := by
  rw [pMembers_unfold]
  unfold memStep
  have hq : skipWs (quote P k ++ (anyKeyTs v ++ (58 :: 32 :: (renderJs L P cur .object v ++ rest)))) =
      quote P k ++ (anyKeyTs v ++ (58 :: 32 :: (renderJs L P cur .object v ++ rest))) := by
    rw [quote, List.cons_append]; exact skipWs_of_not (by decide)
  rw [hq]
  by_cases hk : PlainText P k
  · rw [parseString_quote hk]
    have hcolon : ∀ x, expect 58 (58 :: x) = some x := by intro x; simp [expect, skipWs, isWs]
    have hval : pVal (skipWs (32 :: (renderJs L P cur .object v ++ rest))) = pVal (renderJs L P cur .object v ++ rest) := by
      rw [pVal_skipWs]; exact pVal_ws (w := [32]) (.cons (by decide) .nil) _
    rcases hd.shape with ⟨x, ts, rfl, hx, ht1, ht2⟩ | htree
    · have hpre : ∀ z, prefixTs (32 :: (fmtTs ts ++ z)) = parseTs (fmtTs ts ++ z) := by
        intro z
        obtain ⟨x, hx⟩ := fmtTs_cons ts z
        rw [hx, prefixTs_lt]
        rfl
      simp only [anyKeyTs_reading, List.cons_append, hpre, readableData_reading, docJs_reading]
      simp only [parseTs_fmtTs ht2, hcolon, hval]
      simp only [renderJs_reading, leafInCtx]
      rw [pVal_unfold]
      constructor
      · rintro ⟨-, hp⟩
        rw [valStep_text hx hp hr.notNum, suffixTs_other hr.noTs]
        simp only [clamped_rewrap]
        exact afterItem_skipWs ..
      · intro hnp
        have hp : ¬ ReadableValue P x := fun h => hnp ⟨hk, h⟩
        rcases valStep_text_bad hx hp (pm := pMembers) (pe := pElems) rest with h | ⟨g, y, hy, h⟩
        · rw [h]
        · rw [h]
          simp only [rewrap]
          exact afterItem_e (by decide) hy
    · obtain ⟨ih1, ih2⟩ := ih htree cur .object rest hcur
      have hpre : prefixTs (58 :: 32 :: (renderJs L P cur .object v ++ rest)) =
          some (0, 58 :: 32 :: (renderJs L P cur .object v ++ rest)) := by
        rw [prefixTs_other, skipWs_of_not (by decide)]
        intro x hx
        rw [skipWs_of_not (by decide)] at hx
        cases hx
      simp only [htree.key, List.nil_append, hpre, hcolon, hval]
      constructor
      · rintro ⟨-, h⟩; simp only [ih1 h, rewrap_container htree.doc]
      · intro h; simp only [ih2 fun h' => h ⟨hk, h'⟩]
  · rw [parseString_quote_none hk]
    exact ⟨fun h => absurd h.1 hk, fun _ => rfl⟩

/-- All elements of an array. -/
theorem js_elems {L : Layout} (hL : L.Ok) {P : Nat → Bool} {cur : Bytes} (hcur : AllWs cur) (rest : Bytes) :
    ∀ (l : List Js), l ≠ [] → (∀ v ∈ l, DataTree v) → (∀ v ∈ l, JsBack L P v) → ∀ acc,
    ((∀ v ∈ l, ReadableData P v) → pElems acc (renderJsL L P cur true l ++ (L.stop cur ++ 93 :: rest)) =
      .ok (.arr (acc ++ docJsL l)) rest) ∧
    (¬ (∀ v ∈ l, ReadableData P v) → pElems acc (renderJsL L P cur true l ++ (L.stop cur ++ 93 :: rest)) = .err) := by
  intro l
  induction l with
  | nil => intro h; exact absurd rfl h
  | cons v l ih =>
    intro _ hn hb acc
    have hstop : Stop (renderJsL L P cur false l ++ (L.stop cur ++ 93 :: rest)) := by
      cases l with
      | nil => rw [renderJsL, List.nil_append]; exact (Stop.bracket rest).ws (hL.stop cur hcur)
      | cons w l => rw [renderJsL]; exact Stop.comma _
    obtain ⟨h1, h2⟩ := js_elem (hn v (by simp)) (hb v (by simp)) (hL.next cur hcur) hstop acc
    have e : renderJsL L P cur true (v :: l) ++ (L.stop cur ++ 93 :: rest) =
        L.lead cur ++ (renderJs L P (L.next cur) .array v ++ (renderJsL L P cur false l ++ (L.stop cur ++ 93 :: rest))) := by
      rw [renderJsL]; simp only [if_true, List.nil_append, List.append_assoc]
    rw [e, pElems_ws (hL.lead cur hcur)]
    rw [List.forall_mem_cons, docJsL]
    by_cases hv : ReadableData P v
    · rw [h1 hv]
      cases l with
      | nil =>
        simp only [docJsL, renderJsL, List.nil_append, hv, true_and]
        rw [afterItem_ws (hL.stop cur hcur)]
        refine ⟨fun _ => rfl, fun h => absurd (fun v hv => by cases hv) h⟩
      | cons w l =>
        obtain ⟨i1, i2⟩ := ih (by simp) (fun u hu => hn u (List.mem_cons_of_mem _ hu))
          (fun u hu => hb u (List.mem_cons_of_mem _ hu)) (acc ++ [docJs v])
        have e2 : afterItem 93 (pElems (acc ++ [docJs v])) (.arr (acc ++ [docJs v]))
            (renderJsL L P cur false (w :: l) ++ (L.stop cur ++ 93 :: rest)) =
            pElems (acc ++ [docJs v]) (renderJsL L P cur true (w :: l) ++ (L.stop cur ++ 93 :: rest)) := by
          rw [renderJsL, renderJsL]
          simp only [Bool.false_eq_true, if_false, if_true, List.cons_append, List.append_assoc, List.nil_append]
          unfold afterItem
          rw [skipWs_of_not (by decide)]
          simp only [if_true]
          exact pElems_ws hL.sep _
        rw [e2]
        constructor
        · rintro ⟨-, h⟩
          rw [i1 h, List.append_assoc]; rfl
        · intro h
          exact i2 fun h' => h ⟨hv, h'⟩
    · exact ⟨fun h => absurd h.1 hv, fun _ => h2 hv⟩

/-- All members of an object. -/
theorem js_members {L : Layout} (hL : L.Ok) {P : Nat → Bool} {cur : Bytes} (hcur : AllWs cur) (rest : Bytes) :
    ∀ (m : List (Bytes × Js)), m ≠ [] → (∀ p ∈ m, DataTree p.2) → (mkeys m).Nodup → (∀ p ∈ m, JsBack L P p.2) →
    ∀ acc, (∀ k ∈ mkeys m, k ∉ mkeys acc) →
    ((∀ p ∈ m, PlainText P p.1 ∧ ReadableData P p.2) → pMembers acc (renderJsF L P cur true m ++ (L.stop cur ++ 125 :: rest)) =
      .ok (.obj (acc ++ docJsF m)) rest) ∧
    (¬ (∀ p ∈ m, PlainText P p.1 ∧ ReadableData P p.2) →
      pMembers acc (renderJsF L P cur true m ++ (L.stop cur ++ 125 :: rest)) = .err) := by
  intro m
  induction m with
  | nil => intro h; exact absurd rfl h
  | cons p m ih =>
    obtain ⟨k, v⟩ := p
    intro _ hn hnd hb acc hacc
    have hstop : Stop (renderJsF L P cur false m ++ (L.stop cur ++ 125 :: rest)) := by
      cases m with
      | nil => rw [renderJsF, List.nil_append]; exact (Stop.brace rest).ws (hL.stop cur hcur)
      | cons w m => obtain ⟨k', w⟩ := w; rw [renderJsF]; exact Stop.comma _
    obtain ⟨h1, h2⟩ := js_member (k := k) (hn (k, v) (by simp)) (hb (k, v) (by simp)) (hL.next cur hcur) hstop acc
    have e : renderJsF L P cur true ((k, v) :: m) ++ (L.stop cur ++ 125 :: rest) =
        L.lead cur ++ (quote P k ++ (anyKeyTs v ++ (58 :: 32 :: (renderJs L P (L.next cur) .object v ++
          (renderJsF L P cur false m ++ (L.stop cur ++ 125 :: rest)))))) := by
      rw [renderJsF]; simp only [if_true, List.nil_append, List.append_assoc, List.cons_append]
    rw [e, pMembers_ws (hL.lead cur hcur)]
    have hfresh : mset acc k (docJs v) = acc ++ [(k, docJs v)] :=
      mset_fresh (hacc k (by simp [mkeys]))
    rw [hfresh] at h1
    rw [List.forall_mem_cons, docJsF]
    by_cases hv : PlainText P k ∧ ReadableData P v
    · rw [h1 hv]
      cases m with
      | nil =>
        simp only [docJsF, renderJsF, List.nil_append, hv, true_and]
        rw [afterItem_ws (hL.stop cur hcur)]
        refine ⟨fun _ => rfl, fun h => absurd (fun v hv => by cases hv) h⟩
      | cons w m =>
        obtain ⟨k', w⟩ := w
        have hnd' : (mkeys ((k', w) :: m)).Nodup := (List.nodup_cons.1 hnd).2
        have hacc' : ∀ x ∈ mkeys ((k', w) :: m), x ∉ mkeys (acc ++ [(k, docJs v)]) := by
          intro x hx
          simp only [mkeys, List.map_append, List.map_cons, List.map_nil, List.mem_append, List.mem_singleton, not_or]
          refine ⟨hacc x (List.mem_cons_of_mem _ hx), ?_⟩
          rintro rfl
          exact (List.nodup_cons.1 hnd).1 hx
        obtain ⟨i1, i2⟩ := ih (by simp) (fun u hu => hn u (List.mem_cons_of_mem _ hu)) hnd'
          (fun u hu => hb u (List.mem_cons_of_mem _ hu)) (acc ++ [(k, docJs v)]) hacc'
        have e2 : afterItem 125 (pMembers (acc ++ [(k, docJs v)])) (.obj (acc ++ [(k, docJs v)]))
            (renderJsF L P cur false ((k', w) :: m) ++ (L.stop cur ++ 125 :: rest)) =
            pMembers (acc ++ [(k, docJs v)]) (renderJsF L P cur true ((k', w) :: m) ++ (L.stop cur ++ 125 :: rest)) := by
          rw [renderJsF, renderJsF]
          simp only [Bool.false_eq_true, if_false, if_true, List.cons_append, List.append_assoc, List.nil_append]
          unfold afterItem
          rw [skipWs_of_not (by decide)]
          simp only [if_true]
          exact pMembers_ws hL.sep _
        rw [e2]
        constructor
        · rintro ⟨-, h⟩
          rw [i1 h, List.append_assoc]; rfl
        · intro h
          exact i2 fun h' => h ⟨hv, h'⟩
    · exact ⟨fun h => absurd h.1 hv, fun _ => h2 hv⟩

/-- All data reads back, or gives an error. -/
theorem js_back {L : Layout} (hL : L.Ok) (P : Nat → Bool) {v : Js} (h : DataTree v) : JsBack L P v := by
  induction h with
  | reading x ts hx h1 h2 =>
    intro ht
    have := ht.key
    rw [anyKeyTs_reading] at this
    cases this
  | map m hn hk hm ih =>
    intro _ cur ctx rest hcur
    have hs := DataTree.noStamp hk
    rw [readableData_map hs, docJs_map hs]
    simp only [renderJs_map _ _ _ _ hs, List.cons_append, List.append_assoc, List.nil_append]
    cases m with
    | nil =>
      rw [valStep_obj_nil (rest := rest)]
      · simp [docJsF]
      · simp only [renderJsF, List.nil_append, skipWs_append hL.opn, skipWs_append (hL.stop cur hcur)]
        exact skipWs_of_not (by decide)
    | cons p m =>
      obtain ⟨k, v⟩ := p
      obtain ⟨h1, h2⟩ := js_members hL hcur rest ((k, v) :: m) (by simp) hm hn ih [] (by simp [mkeys])
      rw [valStep_obj_cons, pMembers_ws hL.opn]
      · exact ⟨h1, h2⟩
      · rw [skipWs_append hL.opn, renderJsF]
        simp only [if_true, List.nil_append, List.append_assoc, skipWs_append (hL.lead cur hcur), quote,
          List.cons_append]
        rw [skipWs_of_not (by decide)]
        intro x hx; cases hx
  | array l hl hv ih =>
    intro _ cur ctx rest hcur
    rw [readableData_array]
    simp only [renderJs, docJs, List.cons_append, List.append_assoc, List.nil_append]
    cases l with
    | nil =>
      rw [valStep_arr_nil (rest := rest)]
      · simp [docJsL]
      · simp only [renderJsL, List.nil_append, skipWs_append hL.opn, skipWs_append (hL.stop cur hcur)]
        exact skipWs_of_not (by decide)
    | cons v l =>
      obtain ⟨h1, h2⟩ := js_elems hL hcur rest (v :: l) (by simp) hv ih []
      rw [valStep_arr_cons, pElems_ws hL.opn]
      · exact ⟨h1, h2⟩
      · rw [skipWs_append hL.opn, renderJsL]
        simp only [if_true, List.nil_append, List.append_assoc, skipWs_append (hL.lead cur hcur)]
        rcases (hv v (by simp)).shape with ⟨x, ts, rfl, -⟩ | ht
        · simp only [renderJs_reading, leafInCtx, fmtTs, List.cons_append]
          rw [skipWs_of_not (by decide)]
          intro x hx; cases hx
        · obtain ⟨c, r, hc, hcc⟩ := ht.text L P (L.next cur) .array
          rw [hc, List.cons_append, skipWs_of_not (by rcases hcc with rfl | rfl <;> decide)]
          intro x hx; cases hx
          rcases hcc with h | h <;> revert h <;> decide

theorem docJsF_keys (m : List (Bytes × Js)) : mkeys (docJsF m) = mkeys m := by
  induction m with
  | nil => rfl
  | cons p m ih => obtain ⟨k, v⟩ := p; simp only [docJsF, mkeys, List.map_cons] at ih ⊢; rw [ih]

theorem docJsF_get (m : List (Bytes × Js)) (i : Nat) : (docJsF m)[i]? = m[i]?.map fun p => (p.1, docJs p.2) := by
  induction m generalizing i with
  | nil => rfl
  | cons p m ih =>
    obtain ⟨k, v⟩ := p
    cases i with
    | zero => rfl
    | succ i => simp only [docJsF, List.getElem?_cons_succ, ih]

theorem docJsL_get (l : List Js) (i : Nat) : (docJsL l)[i]? = l[i]?.map docJs := by
  induction l generalizing i with
  | nil => rfl
  | cons v l ih =>
    cases i with
    | zero => rfl
    | succ i => simp only [docJsL, List.getElem?_cons_succ, ih]

theorem docJsL_length (l : List Js) : (docJsL l).length = l.length := by
  induction l with
  | nil => rfl
  | cons v l ih => simp only [docJsL, List.length_cons, ih]

theorem docJs_saved {v : Js} (h : DataTree v) : SavedAs v (docJs v) := by
  induction h with
  | reading x ts hx h1 h2 => rw [docJs_reading]; exact .reading x ts _ hx.primOf
  | map m hn hk hm ih =>
    have hs := DataTree.noStamp hk
    rw [docJs_map hs]
    refine .map m _ hs (docJsF_keys m).symm fun i v w hv hw => ?_
    rw [docJsF_get, hv] at hw
    cases hw
    exact ih v (List.mem_of_getElem? hv)
  | array l hl hv ih =>
    rw [docJs]
    refine .array l _ (docJsL_length l).symm fun i v w hv hw => ?_
    rw [docJsL_get, hv] at hw
    cases hw
    exact ih v (List.mem_of_getElem? hv)

end Verif
