import Verif.CodecLemmas
import Verif.QuoteLemmas
/-
Reading back printed documents, for `Marshal` and `MarshalIndent` together.
-/
namespace Verif

/-! ### White space -/

/-- Only white space. -/
def AllWs (w : Bytes) : Prop := ∀ c ∈ w, isWs c = true

theorem AllWs.nil : AllWs [] := by intro c h; cases h
theorem AllWs.append {a b : Bytes} (ha : AllWs a) (hb : AllWs b) : AllWs (a ++ b) := by
  intro c h
  rcases List.mem_append.1 h with h | h
  · exact ha c h
  · exact hb c h
theorem AllWs.cons {c : UInt8} {a : Bytes} (hc : isWs c = true) (ha : AllWs a) : AllWs (c :: a) := by
  intro d h
  rcases List.mem_cons.1 h with rfl | h
  · exact hc
  · exact ha d h

theorem skipWs_append {w : Bytes} (h : AllWs w) (s : Bytes) : skipWs (w ++ s) = skipWs s := by
  induction w with
  | nil => rfl
  | cons c w ih =>
    rw [List.cons_append, skipWs, if_pos (h c (by simp)), ih fun d hd => h d (List.mem_cons_of_mem _ hd)]

theorem afterItem_skipWs (close : UInt8) (f : Bytes → PRes Tson) (d : Tson) (s : Bytes) :
    afterItem close f d (skipWs s) = afterItem close f d s := by
  unfold afterItem; rw [skipWs_skipWs]

theorem afterItem_ws {close : UInt8} {f : Bytes → PRes Tson} {d : Tson} {w : Bytes} (h : AllWs w) (s : Bytes) :
    afterItem close f d (w ++ s) = afterItem close f d s := by
  rw [← afterItem_skipWs, skipWs_append h, afterItem_skipWs]

theorem pMembers_ws {m : List (Bytes × Tson)} {w : Bytes} (h : AllWs w) (s : Bytes) :
    pMembers m (w ++ s) = pMembers m s := by
  rw [pMembers_unfold, pMembers_unfold]; unfold memStep; rw [skipWs_append h]

theorem pElems_ws {l : List Tson} {w : Bytes} (h : AllWs w) (s : Bytes) : pElems l (w ++ s) = pElems l s := by
  rw [pElems_unfold, pElems_unfold]; unfold elemStep prefixTs; rw [skipWs_append h]

theorem pVal_ws {w : Bytes} (h : AllWs w) (s : Bytes) : pVal (w ++ s) = pVal s := by
  rw [← pVal_skipWs, skipWs_append h, pVal_skipWs]

/-! ### Numbers -/

/-- The text does not continue a number. -/
def NotNum (rest : Bytes) : Prop := ∀ c r, rest = c :: r → isDigit c = false ∧ c ≠ 46

theorem digit_ne {c : UInt8} (h : isDigit c = true) : c ≠ 45 ∧ c ≠ 46 ∧ c ≠ 60 ∧ c ≠ 62 ∧ c ≠ 123 ∧ c ≠ 91 ∧ c ≠ 34 ∧
    isWs c = false := by
  refine ⟨?_, ?_, ?_, ?_, ?_, ?_, ?_, ?_⟩
  all_goals try (rintro rfl; revert h; decide)
  simp only [isDigit, Bool.and_eq_true, decide_eq_true_eq, UInt8.le_iff_toNat_le, UInt8.reduceToNat] at h
  simp only [isWs, Bool.or_eq_false_iff, beq_eq_false_iff_ne, ne_eq, ← UInt8.toNat_inj, UInt8.reduceToNat]
  omega

/-- Reading a number from sign, digits and fraction. -/
theorem parseNumber_parts {neg : Bool} {int frac rest : Bytes} (h1 : int ≠ []) (h2 : int.all isDigit = true)
    (h3 : frac.all isDigit = true) (hr : NotNum rest) :
    parseNumber ((if neg then [45] else []) ++ (int ++ ((if frac = [] then [] else 46 :: frac) ++ rest))) =
      match parseFloat neg int frac with
      | none => none
      | some f => some (f, rest) := by
  obtain ⟨d, ds, rfl⟩ := List.exists_cons_of_ne_nil h1
  have hd : isDigit d = true := by simp only [List.all_cons, Bool.and_eq_true] at h2; exact h2.1
  have hspan : spanDigits ((d :: ds) ++ ((if frac = [] then [] else 46 :: frac) ++ rest)) =
      (d :: ds, (if frac = [] then [] else 46 :: frac) ++ rest) := by
    apply spanDigits_append h2
    intro c r hc
    by_cases hf : frac = []
    · rw [if_pos hf, List.nil_append] at hc; exact (hr c r hc).1
    · rw [if_neg hf] at hc; cases hc; decide
  have hfrac : fraction ((if frac = [] then [] else 46 :: frac) ++ rest) = (frac, rest) := by
    by_cases hf : frac = []
    · subst hf
      simp only [if_true, List.nil_append, fraction]
      split
      · exact absurd rfl (hr _ _ rfl).2
      · rfl
    · rw [if_neg hf, List.cons_append]
      simp only [fraction]
      exact spanDigits_append h3 fun c r hc => (hr c r hc).1
  unfold parseNumber
  have hneg : (((if neg then [45] else []) ++ ((d :: ds) ++ ((if frac = [] then [] else 46 :: frac) ++ rest))).head? ==
      some (45 : UInt8)) = neg := by
    cases neg
    · simp only [Bool.false_eq_true, if_false, List.nil_append, List.cons_append, List.head?_cons]
      have := (digit_ne hd).1
      simpa using this
    · rfl
  have htail : (if neg = true then ((if neg then [45] else []) ++
      ((d :: ds) ++ ((if frac = [] then [] else 46 :: frac) ++ rest))).tail
      else ((if neg then [45] else []) ++ ((d :: ds) ++ ((if frac = [] then [] else 46 :: frac) ++ rest)))) =
      (d :: ds) ++ ((if frac = [] then [] else 46 :: frac) ++ rest) := by
    cases neg <;> rfl
  simp only [hneg, htail, hspan, hfrac]
  rfl

/-- The text of a number starts with a sign or a digit and is not white space. -/
theorem fmt_start (neg : Bool) {int : Bytes} (h1 : int ≠ []) (h2 : int.all isDigit = true) (x : Bytes) :
    ∃ c r, (if neg then [45] else []) ++ (int ++ x) = c :: r ∧ isNumStart c = true := by
  obtain ⟨d, ds, rfl⟩ := List.exists_cons_of_ne_nil h1
  have hd : isDigit d = true := by simp only [List.all_cons, Bool.and_eq_true] at h2; exact h2.1
  cases neg
  · exact ⟨d, ds ++ x, rfl, by simp [isNumStart, hd]⟩
  · exact ⟨45, d :: ds ++ x, rfl, rfl⟩

theorem fmtFloat_plain {neg : Bool} {m : Nat} {e : Int} {h : F64.canon m e = true}
    (hp : usesExp (shortest neg m e h).1 (shortest neg m e h).2 = false) : ∃ int frac, int ≠ [] ∧
      int.all isDigit = true ∧ frac.all isDigit = true ∧
      fmtFloat (.fin neg m e h) = (if neg then [45] else []) ++ (int ++ (if frac = [] then [] else 46 :: frac)) ∧
      parseFloat neg int frac = some (.fin neg m e h) := by
  obtain ⟨int, frac, h1, h2, h3, h4, h5⟩ := fmtPlain_shape neg (shortest neg m e h).1 (shortest neg m e h).2
  refine ⟨int, frac, h1, h2, h3, ?_, ?_⟩
  · simp only [fmtFloat, hp, Bool.false_eq_true, if_false, h4]
    cases neg <;> rfl
  · rw [h5, shortest_reads]

theorem fmtFloat_exp {neg : Bool} {m : Nat} {e : Int} {h : F64.canon m e = true}
    (hp : usesExp (shortest neg m e h).1 (shortest neg m e h).2 = true) : ∃ int frac x, int ≠ [] ∧
      int.all isDigit = true ∧ frac.all isDigit = true ∧
      fmtFloat (.fin neg m e h) =
        (if neg then [45] else []) ++ (int ++ ((if frac = [] then [] else 46 :: frac) ++ 101 :: x)) := by
  have hd := natDigits_isDigit (shortest neg m e h).1
  have hne := natDigits_ne_nil (shortest neg m e h).1
  obtain ⟨x, hx⟩ : ∃ x, fmtExp (shortest neg m e h).1 (shortest neg m e h).2 =
      (natDigits (shortest neg m e h).1).take 1 ++ (if (natDigits (shortest neg m e h).1).length ≤ 1 then [] else
        46 :: (natDigits (shortest neg m e h).1).drop 1) ++ 101 :: x := ⟨_, rfl⟩
  simp only [fmtFloat, hp, if_true, hx]
  clear hx
  generalize natDigits (shortest neg m e h).1 = ds at *
  refine ⟨ds.take 1, ds.drop 1, x, ?_, ?_, ?_, ?_⟩
  rotate_left 3
  · by_cases hl : ds.length ≤ 1
    · have : ds.drop 1 = [] := List.drop_eq_nil_of_le hl
      rw [if_pos hl, if_pos this]
      cases neg <;> simp only [Bool.false_eq_true, if_false, if_true, List.nil_append, List.append_nil,
        List.cons_append] <;> rfl
    · have : ds.drop 1 ≠ [] := by
        intro hc; have := congrArg List.length hc; rw [List.length_drop, List.length_nil] at this; omega
      rw [if_neg hl, if_neg this]
      cases neg <;> simp only [Bool.false_eq_true, if_false, if_true, List.nil_append, List.append_assoc,
        List.cons_append] <;> rfl
  · cases ds with
    | nil => exact absurd rfl hne
    | cons d ds => simp
  · rw [List.all_eq_true] at hd ⊢
    exact fun x hx => hd x (List.mem_of_mem_take hx)
  · rw [List.all_eq_true] at hd ⊢
    exact fun x hx => hd x (List.mem_of_mem_drop hx)

theorem numStart_ne {c : UInt8} (h : isNumStart c = true) : isWs c = false ∧ c ≠ 60 ∧ c ≠ 123 ∧ c ≠ 91 ∧ c ≠ 34 := by
  simp only [isNumStart, Bool.or_eq_true, beq_iff_eq] at h
  rcases h with rfl | h
  · decide
  · obtain ⟨-, -, h1, -, h2, h3, h4, h5⟩ := digit_ne h
    exact ⟨h5, h1, h2, h3, h4⟩

/-- A value that starts like a number. -/
theorem valStep_num {pm : List (Bytes × Tson) → Bytes → PRes Tson} {pe : List Tson → Bytes → PRes Tson} {s : Bytes}
    {c : UInt8} {r : Bytes} (hs : s = c :: r) (hc : isNumStart c = true) : valStep pm pe s =
      match parseNumber s with
      | none => .err
      | some (f, rest) => suffixTs (.num f) rest := by
  subst hs
  obtain ⟨h1, h2, h3, h4, h5⟩ := numStart_ne hc
  unfold valStep
  rw [skipWs_of_not h1]
  simp only [if_neg h2, if_neg h3, if_neg h4]
  rw [if_pos (Or.inr hc)]
  unfold parsePrim
  rw [skipWs_of_not h1]
  simp only [if_neg h5, if_pos hc]
  cases parseNumber (c :: r) <;> rfl

/-- A value that starts like a string. -/
theorem valStep_str {pm : List (Bytes × Tson) → Bytes → PRes Tson} {pe : List Tson → Bytes → PRes Tson} (r : Bytes) :
    valStep pm pe (34 :: r) =
      match parseString (34 :: r) with
      | none => .err
      | some (x, rest) => suffixTs (.str x) rest := by
  unfold valStep
  rw [skipWs_of_not (by decide)]
  simp only [show (34 : UInt8) ≠ 60 by decide, show (34 : UInt8) ≠ 123 by decide, show (34 : UInt8) ≠ 91 by decide,
    if_false, true_or, if_true]
  unfold parsePrim
  rw [skipWs_of_not (by decide)]
  simp only [if_true]
  cases parseString (34 :: r) <;> rfl

/-- A readable primitive value is read. -/
theorem valStep_prim {P : Nat → Bool} {p : Prim} (hp : PlainPrim P p)
    {pm : List (Bytes × Tson) → Bytes → PRes Tson} {pe : List Tson → Bytes → PRes Tson} {rest : Bytes}
    (hr : NotNum rest) : valStep pm pe (fmtPrim P p ++ rest) = suffixTs p rest := by
  cases p with
  | str s =>
    simp only [fmtPrim, PlainPrim] at hp ⊢
    have := parseString_quote hp rest
    rw [quote, List.cons_append] at this ⊢
    rw [valStep_str, this]
  | num f =>
    obtain ⟨neg, m, e, h, rfl, hu⟩ := hp
    obtain ⟨int, frac, h1, h2, h3, h4, h5⟩ := fmtFloat_plain hu
    obtain ⟨c, r, hc, hcn⟩ := fmt_start neg h1 h2 ((if frac = [] then [] else 46 :: frac) ++ rest)
    simp only [fmtPrim, h4, List.append_assoc]
    rw [valStep_num hc hcn, parseNumber_parts h1 h2 h3 hr, h5]
  | bool b =>
    cases b
    · simp [fmtPrim, valStep, skipWs, isWs, isNumStart, isDigit, parseWord, hasPrefix]
    · simp [fmtPrim, valStep, skipWs, isWs, isNumStart, isDigit, parseWord, hasPrefix]

/-- The text left over behind a number written with exponent. -/
def StartsE (s : Bytes) : Prop := ∃ x, s = 101 :: x

/-- Any other primitive value is an error, or is cut off in front of its exponent. -/
theorem valStep_prim_bad {P : Nat → Bool} {p : Prim} (hp : ¬ PlainPrim P p)
    {pm : List (Bytes × Tson) → Bytes → PRes Tson} {pe : List Tson → Bytes → PRes Tson} (rest : Bytes) :
    valStep pm pe (fmtPrim P p ++ rest) = .err ∨
    ∃ f x, p = .num f ∧ StartsE x ∧ ∃ g, valStep pm pe (fmtPrim P p ++ rest) = .ok (.leaf (.num g) (-1)) x := by
  cases p with
  | str s =>
    simp only [fmtPrim, PlainPrim] at hp ⊢
    have := parseString_quote_none hp rest
    rw [quote, List.cons_append] at this ⊢
    rw [valStep_str, this]
    exact .inl rfl
  | num f =>
    cases f with
    | nan =>
      left
      simp [fmtPrim, fmtFloat, valStep, skipWs, isWs, isNumStart, isDigit, parseWord, hasPrefix]
    | inf neg =>
      left
      cases neg
      · simp [fmtPrim, fmtFloat, valStep, skipWs, isWs, isNumStart, isDigit, parseWord, hasPrefix]
      · simp only [fmtPrim, fmtFloat, if_true, List.cons_append]
        rw [valStep_num rfl (by decide)]
        simp [parseNumber, spanDigits, isDigit, fraction, parseFloat]
    | fin neg m e h =>
      have hu : usesExp (shortest neg m e h).1 (shortest neg m e h).2 = true := by
        cases hb : usesExp (shortest neg m e h).1 (shortest neg m e h).2
        · exact absurd ⟨neg, m, e, h, rfl, hb⟩ hp
        · rfl
      obtain ⟨int, frac, x, h1, h2, h3, h4⟩ := fmtFloat_exp hu
      obtain ⟨c, r, hc, hcn⟩ := fmt_start neg h1 h2 ((if frac = [] then [] else 46 :: frac) ++ 101 :: (x ++ rest))
      have hr : NotNum (101 :: (x ++ rest)) := by
        intro c r hcr; cases hcr; decide
      simp only [fmtPrim, h4, List.append_assoc, List.cons_append]
      rw [valStep_num hc hcn, parseNumber_parts h1 h2 h3 hr]
      cases hf : parseFloat neg int frac with
      | none => exact .inl rfl
      | some g =>
        right
        refine ⟨_, 101 :: (x ++ rest), rfl, ⟨_, rfl⟩, g, ?_⟩
        simp [suffixTs, skipWs, isWs, defaultTimestamp]
  | bool b => exact absurd trivial hp

/-! ### Timestamps -/

theorem parseTs_fmtTs {ts : Int} (h : ts ≤ 9223372036854775807) (rest : Bytes) :
    parseTs (fmtTs ts ++ rest) = some (if 0 ≤ ts then ts else -1, rest) := by
  unfold parseTs fmtTs
  rw [List.cons_append]
  have he : ∀ x, expect 60 (60 :: x) = some x := by intro x; simp [expect, skipWs, isWs]
  rw [he]
  by_cases h0 : 0 ≤ ts
  · simp only [if_pos h0, itoa, if_neg (show ¬ ts < 0 by omega), List.append_assoc]
    have hd := natDigits_isDigit ts.toNat
    have hne := natDigits_ne_nil ts.toNat
    have hv := digitsVal_natDigits ts.toNat
    generalize natDigits ts.toNat = ds at *
    obtain ⟨d, ds, rfl⟩ := List.exists_cons_of_ne_nil hne
    have hdd : isDigit d = true := by simp only [List.all_cons, Bool.and_eq_true] at hd; exact hd.1
    have hspan : spanDigits (d :: ds ++ ([62] ++ rest)) = (d :: ds, 62 :: rest) := by
      apply spanDigits_append hd
      intro c r hc; cases hc; decide
    simp only [List.cons_append] at hspan
    simp only [List.cons_append]
    split
    · rename_i heq; cases heq; exact absurd rfl (digit_ne hdd).2.2.2.1
    · simp only [hspan, hv]
      rw [if_neg (by simp), if_neg (by omega)]
      have : expect 62 (62 :: rest) = some rest := by simp [expect, skipWs, isWs]
      rw [this]
      simp only [Option.some.injEq, Prod.mk.injEq, and_true]
      omega
  · simp [if_neg h0]

theorem parseTs_fmtTs_none {ts : Int} (h : ¬ ts ≤ 9223372036854775807) (rest : Bytes) :
    parseTs (fmtTs ts ++ rest) = none := by
  unfold parseTs fmtTs
  rw [List.cons_append]
  have he : ∀ x, expect 60 (60 :: x) = some x := by intro x; simp [expect, skipWs, isWs]
  rw [he]
  have h0 : 0 ≤ ts := by omega
  simp only [if_pos h0, itoa, if_neg (show ¬ ts < 0 by omega), List.append_assoc]
  have hd := natDigits_isDigit ts.toNat
  have hne := natDigits_ne_nil ts.toNat
  have hv := digitsVal_natDigits ts.toNat
  generalize natDigits ts.toNat = ds at *
  obtain ⟨d, ds, rfl⟩ := List.exists_cons_of_ne_nil hne
  have hdd : isDigit d = true := by simp only [List.all_cons, Bool.and_eq_true] at hd; exact hd.1
  have hspan : spanDigits (d :: ds ++ ([62] ++ rest)) = (d :: ds, 62 :: rest) := by
    apply spanDigits_append hd
    intro c r hc; cases hc; decide
  simp only [List.cons_append] at hspan
  simp only [List.cons_append]
  split
  · rename_i heq; cases heq; exact absurd rfl (digit_ne hdd).2.2.2.1
  · simp only [hspan, hv]
    rw [if_neg (by simp), if_pos (by omega)]

theorem fmtTs_cons (ts : Int) (rest : Bytes) : ∃ r, fmtTs ts ++ rest = 60 :: r := ⟨_, rfl⟩

theorem prefixTs_lt {s r : Bytes} (h : skipWs s = 60 :: r) : prefixTs s = parseTs (60 :: r) := by
  unfold prefixTs; rw [h]; rfl

theorem prefixTs_other {s : Bytes} (h : ∀ r, skipWs s ≠ 60 :: r) : prefixTs s = some (0, skipWs s) := by
  unfold prefixTs
  split
  · rename_i r heq; exact absurd heq (h r)
  · rfl

theorem suffixTs_other {p : Prim} {s : Bytes} (h : ∀ r, skipWs s ≠ 60 :: r) :
    suffixTs p s = .ok (.leaf p (-1)) (skipWs s) := by
  unfold suffixTs
  split
  · rename_i r heq; exact absurd heq (h r)
  · rfl

/-! ### Layout -/

/-- The white space between the tokens of a container: after the opening bracket, after a comma, in front of an
item and in front of the closing bracket, depending on the current indentation, and the indentation of the items. -/
structure Layout where
  /-- after the opening bracket -/
  opn : Bytes
  /-- after a comma -/
  sep : Bytes
  /-- in front of an item -/
  lead : Bytes → Bytes
  /-- in front of the closing bracket -/
  stop : Bytes → Bytes
  /-- indentation one level down -/
  next : Bytes → Bytes

/-- Only white space is inserted. -/
structure Layout.Ok (L : Layout) : Prop where
  opn : AllWs L.opn
  sep : AllWs L.sep
  lead : ∀ cur, AllWs cur → AllWs (L.lead cur)
  stop : ∀ cur, AllWs cur → AllWs (L.stop cur)
  next : ∀ cur, AllWs cur → AllWs (L.next cur)

mutual
/-- The text of a document in a layout. -/
def render (L : Layout) (P : Nat → Bool) (cur : Bytes) (ctx : Ctx) : Tson → Bytes
  | .null => b!"null"
  | .leaf p ts => fmtLeaf P ctx p ts
  | .obj m => 123 :: (L.opn ++ (renderF L P cur true m ++ (L.stop cur ++ [125])))
  | .arr l => 91 :: (L.opn ++ (renderL L P cur true l ++ (L.stop cur ++ [93])))
/-- The text of the members. -/
def renderF (L : Layout) (P : Nat → Bool) (cur : Bytes) (first : Bool) : List (Bytes × Tson) → Bytes
  | [] => []
  | (k, v) :: m => (if first then [] else 44 :: L.sep) ++ (L.lead cur ++ (quote P k ++ (keyTs v ++ (58 :: 32 ::
      (render L P (L.next cur) .object v ++ renderF L P cur false m)))))
/-- The text of the elements. -/
def renderL (L : Layout) (P : Nat → Bool) (cur : Bytes) (first : Bool) : List Tson → Bytes
  | [] => []
  | v :: l => (if first then [] else 44 :: L.sep) ++ (L.lead cur ++
      (render L P (L.next cur) .array v ++ renderL L P cur false l))
end

/-- The layout of `Marshal`. -/
def compactLayout : Layout := ⟨[], [32], fun _ => [], fun _ => [], id⟩

/-- The layout of `MarshalIndent`. -/
def indentLayout (ind : Bytes) : Layout := ⟨[10], [10], fun cur => cur ++ ind, fun cur => 10 :: cur, fun cur => cur ++ ind⟩

theorem compactLayout_ok : compactLayout.Ok where
  opn := .nil
  sep := .cons (by decide) .nil
  lead _ _ := .nil
  stop _ _ := .nil
  next _ h := h

theorem indentLayout_ok {ind : Bytes} (h : AllWs ind) : (indentLayout ind).Ok where
  opn := .cons (by decide) .nil
  sep := .cons (by decide) .nil
  lead _ hc := hc.append h
  stop _ hc := .cons (by decide) hc
  next _ hc := hc.append h

mutual
theorem marshalTson_render (P : Nat → Bool) (cur : Bytes) (ctx : Ctx) : ∀ {t : Tson}, NullFree t →
    marshalTson P ctx t = .ok (render compactLayout P cur ctx t)
  | .null, h => h.elim
  | .leaf p ts, _ => by simp [marshalTson, render]
  | .obj m, h => by
    rw [marshalTson, marshalMembers_render P cur true h, render]; rfl
  | .arr l, h => by
    rw [marshalTson, marshalElems_render P cur true h, render]; rfl
theorem marshalMembers_render (P : Nat → Bool) (cur : Bytes) (first : Bool) : ∀ {m : List (Bytes × Tson)}, NullFreeF m →
    marshalMembers P first m = .ok (renderF compactLayout P cur first m)
  | [], _ => by simp [marshalMembers, renderF]
  | (k, v) :: m, h => by
    rw [marshalMembers, marshalTson_render P (compactLayout.next cur) .object h.1, Res.bind_ok, marshalMembers_render P cur false h.2,
      Res.map_ok, renderF]
    simp only [compactLayout, List.append_assoc, List.nil_append, List.cons_append]
theorem marshalElems_render (P : Nat → Bool) (cur : Bytes) (first : Bool) : ∀ {l : List Tson}, NullFreeL l →
    marshalElems P first l = .ok (renderL compactLayout P cur first l)
  | [], _ => by simp [marshalElems, renderL]
  | v :: l, h => by
    rw [marshalElems, marshalTson_render P (compactLayout.next cur) .array h.1, Res.bind_ok, marshalElems_render P cur false h.2,
      Res.map_ok, renderL]
    simp only [compactLayout, List.append_assoc, List.nil_append]
end

mutual
theorem marshalIndent_render (P : Nat → Bool) (cur ind : Bytes) (ctx : Ctx) : ∀ t : Tson,
    marshalIndentValue P cur ind ctx t = render (indentLayout ind) P cur ctx t
  | .null => by simp [marshalIndentValue, render]
  | .leaf p ts => by simp [marshalIndentValue, render]
  | .obj m => by
    rw [marshalIndentValue, indentMembers_render P cur ind true m, render]
    simp only [indentLayout, List.append_assoc, List.cons_append, List.nil_append]
  | .arr l => by
    rw [marshalIndentValue, indentElems_render P cur ind true l, render]
    simp only [indentLayout, List.append_assoc, List.cons_append, List.nil_append]
theorem indentMembers_render (P : Nat → Bool) (cur ind : Bytes) (first : Bool) : ∀ m : List (Bytes × Tson),
    indentMembers P cur ind first m = renderF (indentLayout ind) P cur first m
  | [] => by simp [indentMembers, renderF]
  | (k, v) :: m => by
    rw [indentMembers, marshalIndent_render P (cur ++ ind) ind .object v, indentMembers_render P cur ind false m, renderF]
    simp only [indentLayout, List.append_assoc, List.nil_append, List.cons_append]
theorem indentElems_render (P : Nat → Bool) (cur ind : Bytes) (first : Bool) : ∀ l : List Tson,
    indentElems P cur ind first l = renderL (indentLayout ind) P cur first l
  | [] => by simp [indentElems, renderL]
  | v :: l => by
    rw [indentElems, marshalIndent_render P (cur ++ ind) ind .array v, indentElems_render P cur ind false l, renderL]
    simp only [indentLayout, List.append_assoc]
end

/-! ### Items of containers -/

/-- After an item of a container there is, up to white space, a comma or a closing bracket. -/
def Stop (rest : Bytes) : Prop := ∃ c r, skipWs rest = c :: r ∧ (c = 44 ∨ c = 125 ∨ c = 93)

theorem Stop.notNum {rest : Bytes} (h : Stop rest) : NotNum rest := by
  obtain ⟨c, r, hc, hcc⟩ := h
  rintro b x rfl
  simp only [skipWs] at hc
  split at hc
  · rename_i hw
    simp only [isWs, Bool.or_eq_true, beq_iff_eq] at hw
    rcases hw with ((rfl | rfl) | rfl) | rfl <;> decide
  · cases hc
    rcases hcc with rfl | rfl | rfl <;> decide

theorem Stop.noTs {rest : Bytes} (h : Stop rest) : ∀ r, skipWs rest ≠ 60 :: r := by
  obtain ⟨c, r, hc, hcc⟩ := h
  intro x hx
  rw [hc] at hx
  cases hx
  rcases hcc with h | h | h <;> revert h <;> decide

theorem Stop.ws {w rest : Bytes} (hw : AllWs w) (h : Stop rest) : Stop (w ++ rest) := by
  obtain ⟨c, r, hc, hcc⟩ := h
  exact ⟨c, r, by rw [skipWs_append hw]; exact hc, hcc⟩

theorem Stop.comma (r : Bytes) : Stop (44 :: r) := ⟨44, r, rfl, .inl rfl⟩
theorem Stop.brace (r : Bytes) : Stop (125 :: r) := ⟨125, r, rfl, .inr (.inl rfl)⟩
theorem Stop.bracket (r : Bytes) : Stop (93 :: r) := ⟨93, r, rfl, .inr (.inr rfl)⟩

/-- Reading back a container in a layout: the document, or an error. -/
def ReadsBack (L : Layout) (P : Nat → Bool) (t : Tson) : Prop :=
  t.IsContainer → ∀ cur ctx rest, AllWs cur →
    (Readable P t → pVal (render L P cur ctx t ++ rest) = .ok (clampTs t) rest) ∧
    (¬ Readable P t → pVal (render L P cur ctx t ++ rest) = .err)

theorem rewrap_container {t : Tson} (h : t.IsContainer) (ts : Int) : rewrap t ts = some t := by
  cases t <;> simp_all [Tson.IsContainer, rewrap]

theorem clampTs_container {t : Tson} (h : t.IsContainer) : (clampTs t).IsContainer := by
  cases t <;> simp_all [Tson.IsContainer, clampTs]

theorem afterItem_e {close : UInt8} (hc : close ≠ 101) {f : Bytes → PRes Tson} {d : Tson} {x : Bytes} (h : StartsE x) :
    afterItem close f d x = .err := by
  obtain ⟨y, rfl⟩ := h
  unfold afterItem
  rw [skipWs_of_not (by decide)]
  simp only [show (101 : UInt8) ≠ 44 by decide, if_false]
  rw [if_neg (Ne.symm hc)]

/-- One element of an array. -/
theorem elem_item {L : Layout} {P : Nat → Bool} {v : Tson} (hn : NullFree v) (ih : ReadsBack L P v)
    {cur rest : Bytes} (hcur : AllWs cur) (hr : Stop rest) (acc : List Tson) :
    (Readable P v → pElems acc (render L P cur .array v ++ rest) =
      afterItem 93 (pElems (acc ++ [clampTs v])) (.arr (acc ++ [clampTs v])) rest) ∧
    (¬ Readable P v → pElems acc (render L P cur .array v ++ rest) = .err) := by
  by_cases hcont : v.IsContainer
  · obtain ⟨ih1, ih2⟩ := ih hcont cur .array rest hcur
    have hp : prefixTs (render L P cur .array v ++ rest) = some (0, render L P cur .array v ++ rest) := by
      have hsk : ∃ c r, render L P cur .array v ++ rest = c :: r ∧ (c = 123 ∨ c = 91) := by
        cases v with
        | null => exact hn.elim
        | leaf p ts => exact hcont.elim
        | obj m => rw [render]; exact ⟨123, _, rfl, .inl rfl⟩
        | arr l => rw [render]; exact ⟨91, _, rfl, .inr rfl⟩
      obtain ⟨c, r, hc, hcc⟩ := hsk
      rw [hc]
      have hw : skipWs (c :: r) = c :: r := skipWs_of_not (by rcases hcc with rfl | rfl <;> decide)
      rw [prefixTs_other, hw]
      intro x hx
      rw [hw] at hx
      cases hx
      rcases hcc with h | h <;> revert h <;> decide
    rw [pElems_unfold]
    unfold elemStep
    rw [hp]
    constructor
    · intro h; simp only [ih1 h, rewrap_container (clampTs_container hcont)]
    · intro h; simp only [ih2 h]
  · cases v with
    | null => exact hn.elim
    | obj m => exact absurd trivial hcont
    | arr l => exact absurd trivial hcont
    | leaf p ts =>
      rw [pElems_unfold]
      unfold elemStep
      simp only [render, fmtLeaf, List.append_assoc, List.cons_append, Readable, clampTs]
      obtain ⟨x, hx⟩ := fmtTs_cons ts (32 :: (fmtPrim P p ++ rest))
      have hpre : prefixTs (fmtTs ts ++ 32 :: (fmtPrim P p ++ rest)) =
          parseTs (fmtTs ts ++ 32 :: (fmtPrim P p ++ rest)) := by
        rw [hx, prefixTs_lt (skipWs_of_not (by decide))]
      rw [hpre]
      by_cases ht : ts ≤ 9223372036854775807
      · rw [parseTs_fmtTs ht]
        have hsp : pVal (32 :: (fmtPrim P p ++ rest)) = valStep pMembers pElems (fmtPrim P p ++ rest) := by
          rw [← pVal_unfold]
          exact pVal_ws (w := [32]) (.cons (by decide) .nil) _
        simp only [hsp]
        constructor
        · rintro ⟨hp, -⟩
          rw [valStep_prim hp hr.notNum, suffixTs_other hr.noTs]
          have : rewrap (.leaf p (-1)) (if 0 ≤ ts then ts else -1) = some (.leaf p (if 0 ≤ ts then ts else -1)) := by
            simp only [rewrap, Option.some.injEq, Tson.leaf.injEq, true_and]; split <;> omega
          simp only [this]
          exact afterItem_skipWs ..
        · intro hnp
          have hp : ¬ PlainPrim P p := fun h => hnp ⟨h, ht⟩
          rcases valStep_prim_bad hp (pm := pMembers) (pe := pElems) rest with h | ⟨f, x, rfl, hx, g, h⟩
          · rw [h]
          · rw [h]
            simp only [rewrap]
            exact afterItem_e (by decide) hx
      · rw [parseTs_fmtTs_none ht]
        exact ⟨fun h => absurd h.2 ht, fun _ => rfl⟩

theorem mset_fresh {m : List (Bytes × Tson)} {k : Bytes} {v : Tson} (h : k ∉ mkeys m) :
    mset m k v = m ++ [(k, v)] := by
  induction m with
  | nil => rfl
  | cons p m ih =>
    obtain ⟨k', v'⟩ := p
    simp only [mkeys, List.map_cons, List.mem_cons, not_or] at h
    rw [mset, if_neg (Ne.symm h.1), ih h.2, List.cons_append]

/-- One member of an object. -/
theorem member_item {L : Layout} {P : Nat → Bool} {k : Bytes} {v : Tson} (hn : NullFree v) (ih : ReadsBack L P v)
    {cur rest : Bytes} (hcur : AllWs cur) (hr : Stop rest) (acc : List (Bytes × Tson)) :
    (PlainText P k ∧ Readable P v →
      pMembers acc (quote P k ++ (keyTs v ++ (58 :: 32 :: (render L P cur .object v ++ rest)))) =
      afterItem 125 (pMembers (mset acc k (clampTs v))) (.obj (mset acc k (clampTs v))) rest) ∧
    (¬ (PlainText P k ∧ Readable P v) →
      pMembers acc (quote P k ++ (keyTs v ++ (58 :: 32 :: (render L P cur .object v ++ rest)))) = .err) := by
  rw [pMembers_unfold]
  unfold memStep
  have hq : skipWs (quote P k ++ (keyTs v ++ (58 :: 32 :: (render L P cur .object v ++ rest)))) =
      quote P k ++ (keyTs v ++ (58 :: 32 :: (render L P cur .object v ++ rest))) := by
    rw [quote, List.cons_append]; exact skipWs_of_not (by decide)
  rw [hq]
  by_cases hk : PlainText P k
  · rw [parseString_quote hk]
    have hcolon : ∀ x, expect 58 (58 :: x) = some x := by intro x; simp [expect, skipWs, isWs]
    have hval : pVal (skipWs (32 :: (render L P cur .object v ++ rest))) = pVal (render L P cur .object v ++ rest) := by
      rw [pVal_skipWs]; exact pVal_ws (w := [32]) (.cons (by decide) .nil) _
    by_cases hcont : v.IsContainer
    · obtain ⟨ih1, ih2⟩ := ih hcont cur .object rest hcur
      have hkt : keyTs v = [] := by cases v <;> simp_all [Tson.IsContainer, keyTs]
      have hpre : prefixTs (58 :: 32 :: (render L P cur .object v ++ rest)) =
          some (0, 58 :: 32 :: (render L P cur .object v ++ rest)) := by
        rw [prefixTs_other, skipWs_of_not (by decide)]
        intro x hx
        rw [skipWs_of_not (by decide)] at hx
        cases hx
      simp only [hkt, List.nil_append, hpre, hcolon, hval]
      constructor
      · rintro ⟨-, h⟩; simp only [ih1 h, rewrap_container (clampTs_container hcont)]
      · intro h; simp only [ih2 fun h' => h ⟨hk, h'⟩]
    · cases v with
      | null => exact hn.elim
      | obj m => exact absurd trivial hcont
      | arr l => exact absurd trivial hcont
      | leaf p ts =>
        have hpre : ∀ z, prefixTs (32 :: (fmtTs ts ++ z)) = parseTs (fmtTs ts ++ z) := by
          intro z
          obtain ⟨x, hx⟩ := fmtTs_cons ts z
          rw [hx, prefixTs_lt]
          rfl
        simp only [keyTs, List.cons_append, hpre, Readable, clampTs]
        by_cases ht : ts ≤ 9223372036854775807
        · simp only [parseTs_fmtTs ht, hcolon, hval]
          simp only [render, fmtLeaf]
          rw [pVal_unfold]
          constructor
          · rintro ⟨-, hp, -⟩
            rw [valStep_prim hp hr.notNum, suffixTs_other hr.noTs]
            have : rewrap (.leaf p (-1)) (if 0 ≤ ts then ts else -1) = some (.leaf p (if 0 ≤ ts then ts else -1)) := by
              simp only [rewrap, Option.some.injEq, Tson.leaf.injEq, true_and]; split <;> omega
            simp only [this]
            exact afterItem_skipWs ..
          · intro hnp
            have hp : ¬ PlainPrim P p := fun h => hnp ⟨hk, h, ht⟩
            rcases valStep_prim_bad hp (pm := pMembers) (pe := pElems) rest with h | ⟨f, x, rfl, hx, g, h⟩
            · rw [h]
            · rw [h]
              simp only [rewrap]
              exact afterItem_e (by decide) hx
        · simp only [parseTs_fmtTs_none ht]
          exact ⟨fun h => absurd h.2.2 ht, fun _ => trivial⟩
  · rw [parseString_quote_none hk]
    exact ⟨fun h => absurd h.1 hk, fun _ => rfl⟩

/-- All elements of an array. -/
theorem elems_back {L : Layout} (hL : L.Ok) {P : Nat → Bool} {cur : Bytes} (hcur : AllWs cur) (rest : Bytes) :
    ∀ (l : List Tson), l ≠ [] → NullFreeL l → (∀ v ∈ l, ReadsBack L P v) → ∀ acc,
    (ReadableL P l → pElems acc (renderL L P cur true l ++ (L.stop cur ++ 93 :: rest)) =
      .ok (.arr (acc ++ clampTsL l)) rest) ∧
    (¬ ReadableL P l → pElems acc (renderL L P cur true l ++ (L.stop cur ++ 93 :: rest)) = .err) := by
  intro l
  induction l with
  | nil => intro h; exact absurd rfl h
  | cons v l ih =>
    intro _ hn hb acc
    have hstop : Stop (renderL L P cur false l ++ (L.stop cur ++ 93 :: rest)) := by
      cases l with
      | nil => rw [renderL, List.nil_append]; exact (Stop.bracket rest).ws (hL.stop cur hcur)
      | cons w l => rw [renderL]; exact Stop.comma _
    obtain ⟨h1, h2⟩ := elem_item hn.1 (hb v (by simp)) (hL.next cur hcur) hstop acc
    have e : renderL L P cur true (v :: l) ++ (L.stop cur ++ 93 :: rest) =
        L.lead cur ++ (render L P (L.next cur) .array v ++ (renderL L P cur false l ++ (L.stop cur ++ 93 :: rest))) := by
      rw [renderL]; simp only [if_true, List.nil_append, List.append_assoc]
    rw [e, pElems_ws (hL.lead cur hcur)]
    simp only [ReadableL, clampTsL]
    by_cases hv : Readable P v
    · rw [h1 hv]
      cases l with
      | nil =>
        simp only [ReadableL, clampTsL, renderL, List.nil_append, and_true, hv, not_true, false_imp_iff, true_imp_iff]
        rw [afterItem_ws (hL.stop cur hcur)]
        rfl
      | cons w l =>
        obtain ⟨i1, i2⟩ := ih (by simp) hn.2 (fun u hu => hb u (List.mem_cons_of_mem _ hu)) (acc ++ [clampTs v])
        have e2 : afterItem 93 (pElems (acc ++ [clampTs v])) (.arr (acc ++ [clampTs v]))
            (renderL L P cur false (w :: l) ++ (L.stop cur ++ 93 :: rest)) =
            pElems (acc ++ [clampTs v]) (renderL L P cur true (w :: l) ++ (L.stop cur ++ 93 :: rest)) := by
          rw [renderL, renderL]
          simp only [Bool.false_eq_true, if_false, if_true, List.cons_append, List.append_assoc, List.nil_append]
          unfold afterItem
          rw [skipWs_of_not (by decide)]
          simp only [if_true]
          exact pElems_ws hL.sep _
        rw [e2]
        constructor
        · rintro ⟨-, h⟩
          rw [i1 h, List.append_assoc]; rfl
        · intro h
          exact i2 fun h' => h ⟨hv, h'⟩
    · exact ⟨fun h => absurd h.1 hv, fun _ => h2 hv⟩

/-- All members of an object. -/
theorem members_back {L : Layout} (hL : L.Ok) {P : Nat → Bool} {cur : Bytes} (hcur : AllWs cur) (rest : Bytes) :
    ∀ (m : List (Bytes × Tson)), m ≠ [] → NullFreeF m → (mkeys m).Nodup → (∀ p ∈ m, ReadsBack L P p.2) →
    ∀ acc, (∀ k ∈ mkeys m, k ∉ mkeys acc) →
    (ReadableF P m → pMembers acc (renderF L P cur true m ++ (L.stop cur ++ 125 :: rest)) =
      .ok (.obj (acc ++ clampTsF m)) rest) ∧
    (¬ ReadableF P m → pMembers acc (renderF L P cur true m ++ (L.stop cur ++ 125 :: rest)) = .err) := by
  intro m
  induction m with
  | nil => intro h; exact absurd rfl h
  | cons p m ih =>
    obtain ⟨k, v⟩ := p
    intro _ hn hnd hb acc hacc
    have hstop : Stop (renderF L P cur false m ++ (L.stop cur ++ 125 :: rest)) := by
      cases m with
      | nil => rw [renderF, List.nil_append]; exact (Stop.brace rest).ws (hL.stop cur hcur)
      | cons w m => obtain ⟨k', w⟩ := w; rw [renderF]; exact Stop.comma _
    obtain ⟨h1, h2⟩ := member_item (k := k) hn.1 (hb (k, v) (by simp)) (hL.next cur hcur) hstop acc
    have e : renderF L P cur true ((k, v) :: m) ++ (L.stop cur ++ 125 :: rest) =
        L.lead cur ++ (quote P k ++ (keyTs v ++ (58 :: 32 :: (render L P (L.next cur) .object v ++
          (renderF L P cur false m ++ (L.stop cur ++ 125 :: rest)))))) := by
      rw [renderF]; simp only [if_true, List.nil_append, List.append_assoc, List.cons_append]
    rw [e, pMembers_ws (hL.lead cur hcur)]
    have hfresh : mset acc k (clampTs v) = acc ++ [(k, clampTs v)] :=
      mset_fresh (hacc k (by simp [mkeys]))
    rw [hfresh] at h1
    simp only [ReadableF, clampTsF]
    by_cases hv : PlainText P k ∧ Readable P v
    · rw [h1 hv]
      cases m with
      | nil =>
        simp only [ReadableF, clampTsF, renderF, List.nil_append, and_true, hv, not_true, false_imp_iff, true_imp_iff]
        rw [afterItem_ws (hL.stop cur hcur)]
        rfl
      | cons w m =>
        obtain ⟨k', w⟩ := w
        have hnd' : (mkeys ((k', w) :: m)).Nodup := (List.nodup_cons.1 hnd).2
        have hacc' : ∀ x ∈ mkeys ((k', w) :: m), x ∉ mkeys (acc ++ [(k, clampTs v)]) := by
          intro x hx
          simp only [mkeys, List.map_append, List.map_cons, List.map_nil, List.mem_append, List.mem_singleton, not_or]
          refine ⟨hacc x (List.mem_cons_of_mem _ hx), ?_⟩
          rintro rfl
          exact (List.nodup_cons.1 hnd).1 hx
        obtain ⟨i1, i2⟩ := ih (by simp) hn.2 hnd' (fun u hu => hb u (List.mem_cons_of_mem _ hu))
          (acc ++ [(k, clampTs v)]) hacc'
        have e2 : afterItem 125 (pMembers (acc ++ [(k, clampTs v)])) (.obj (acc ++ [(k, clampTs v)]))
            (renderF L P cur false ((k', w) :: m) ++ (L.stop cur ++ 125 :: rest)) =
            pMembers (acc ++ [(k, clampTs v)]) (renderF L P cur true ((k', w) :: m) ++ (L.stop cur ++ 125 :: rest)) := by
          rw [renderF, renderF]
          simp only [Bool.false_eq_true, if_false, if_true, List.cons_append, List.append_assoc, List.nil_append]
          unfold afterItem
          rw [skipWs_of_not (by decide)]
          simp only [if_true]
          exact pMembers_ws hL.sep _
        rw [e2]
        constructor
        · rintro ⟨-, -, h⟩
          rw [i1 h, List.append_assoc]; rfl
        · intro h
          exact i2 fun h' => h ⟨hv.1, hv.2, h'⟩
    · exact ⟨fun h => absurd ⟨h.1, h.2.1⟩ hv, fun _ => h2 hv⟩

theorem nullFreeF_mem {m : List (Bytes × Tson)} (h : NullFreeF m) : ∀ p ∈ m, NullFree p.2 := by
  induction m with
  | nil => simp
  | cons p m ih => obtain ⟨k, v⟩ := p; exact List.forall_mem_cons.2 ⟨h.1, ih h.2⟩

theorem nullFreeL_mem {l : List Tson} (h : NullFreeL l) : ∀ v ∈ l, NullFree v := by
  induction l with
  | nil => simp
  | cons v l ih => exact List.forall_mem_cons.2 ⟨h.1, ih h.2⟩

theorem valStep_obj {pm : List (Bytes × Tson) → Bytes → PRes Tson} {pe : List Tson → Bytes → PRes Tson} (r : Bytes) :
    valStep pm pe (123 :: r) = match skipWs r with
      | 125 :: rest => .ok (.obj []) rest
      | r => pm [] r := by
  unfold valStep
  rw [skipWs_of_not (by decide)]
  simp only [show (123 : UInt8) ≠ 60 by decide, if_false, if_true]
  rfl

theorem valStep_arr {pm : List (Bytes × Tson) → Bytes → PRes Tson} {pe : List Tson → Bytes → PRes Tson} (r : Bytes) :
    valStep pm pe (91 :: r) = match skipWs r with
      | 93 :: rest => .ok (.arr []) rest
      | r => pe [] r := by
  unfold valStep
  rw [skipWs_of_not (by decide)]
  simp only [show (91 : UInt8) ≠ 60 by decide, show (91 : UInt8) ≠ 123 by decide, if_false, if_true]
  rfl

theorem valStep_obj_nil {r rest : Bytes} (h : skipWs r = 125 :: rest) : pVal (123 :: r) = .ok (.obj []) rest := by
  rw [pVal_unfold, valStep_obj, h]; rfl

theorem valStep_arr_nil {r rest : Bytes} (h : skipWs r = 93 :: rest) : pVal (91 :: r) = .ok (.arr []) rest := by
  rw [pVal_unfold, valStep_arr, h]; rfl

theorem pMembers_skipWs (m : List (Bytes × Tson)) (s : Bytes) : pMembers m (skipWs s) = pMembers m s := by
  rw [pMembers_unfold, pMembers_unfold]; unfold memStep; rw [skipWs_skipWs]

theorem pElems_skipWs (l : List Tson) (s : Bytes) : pElems l (skipWs s) = pElems l s := by
  rw [pElems_unfold, pElems_unfold]; unfold elemStep prefixTs; rw [skipWs_skipWs]

theorem valStep_obj_cons {r : Bytes} (h : ∀ x, skipWs r ≠ 125 :: x) : pVal (123 :: r) = pMembers [] r := by
  rw [pVal_unfold, valStep_obj]
  split
  · rename_i x heq; exact absurd heq (h x)
  · exact pMembers_skipWs _ _

theorem valStep_arr_cons {r : Bytes} (h : ∀ x, skipWs r ≠ 93 :: x) : pVal (91 :: r) = pElems [] r := by
  rw [pVal_unfold, valStep_arr]
  split
  · rename_i x heq; exact absurd heq (h x)
  · exact pElems_skipWs _ _

/-- Every container reads back, or gives an error. -/
theorem readsBack {L : Layout} (hL : L.Ok) (P : Nat → Bool) (t : Tson) : NullFree t → t.Wf → ReadsBack L P t := by
  induction t using Tson.induction with
  | null => intro h; exact h.elim
  | leaf p ts => intro _ _ h; exact h.elim
  | obj m ih =>
    intro hn hw _ cur ctx rest hcur
    simp only [render, Readable, clampTs, List.cons_append, List.append_assoc, List.nil_append]
    have hb : ∀ p ∈ m, ReadsBack L P p.2 := fun p hp =>
      ih p hp (nullFreeF_mem hn p hp) ((Tson.wfF_iff m).1 hw.2 p hp)
    cases m with
    | nil =>
      rw [valStep_obj_nil (rest := rest)]
      · simp [ReadableF, clampTsF]
      · simp only [renderF, List.nil_append, skipWs_append hL.opn, skipWs_append (hL.stop cur hcur)]
        exact skipWs_of_not (by decide)
    | cons p m =>
      obtain ⟨k, v⟩ := p
      obtain ⟨h1, h2⟩ := members_back hL hcur rest ((k, v) :: m) (by simp) hn hw.1 hb [] (by simp [mkeys])
      rw [valStep_obj_cons, pMembers_ws hL.opn]
      · exact ⟨h1, h2⟩
      · rw [skipWs_append hL.opn, renderF]
        simp only [if_true, List.nil_append, List.append_assoc, skipWs_append (hL.lead cur hcur), quote,
          List.cons_append]
        rw [skipWs_of_not (by decide)]
        intro x hx; cases hx
  | arr l ih =>
    intro hn hw _ cur ctx rest hcur
    simp only [render, Readable, clampTs, List.cons_append, List.append_assoc, List.nil_append]
    have hb : ∀ v ∈ l, ReadsBack L P v := fun v hv =>
      ih v hv (nullFreeL_mem hn v hv) ((Tson.wfL_iff l).1 hw v hv)
    cases l with
    | nil =>
      rw [valStep_arr_nil (rest := rest)]
      · simp [ReadableL, clampTsL]
      · simp only [renderL, List.nil_append, skipWs_append hL.opn, skipWs_append (hL.stop cur hcur)]
        exact skipWs_of_not (by decide)
    | cons v l =>
      obtain ⟨h1, h2⟩ := elems_back hL hcur rest (v :: l) (by simp) hn hb []
      rw [valStep_arr_cons, pElems_ws hL.opn]
      · exact ⟨h1, h2⟩
      · rw [skipWs_append hL.opn, renderL]
        simp only [if_true, List.nil_append, List.append_assoc, skipWs_append (hL.lead cur hcur)]
        cases v with
        | null => exact hn.1.elim
        | leaf p ts =>
          simp only [render, fmtLeaf, fmtTs, List.cons_append]
          rw [skipWs_of_not (by decide)]
          intro x hx; cases hx
        | obj m =>
          rw [render, List.cons_append, skipWs_of_not (by decide)]
          intro x hx; cases hx
        | arr l =>
          rw [render, List.cons_append, skipWs_of_not (by decide)]
          intro x hx; cases hx

end Verif
