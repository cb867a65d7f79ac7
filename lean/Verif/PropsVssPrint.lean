import Verif.VssPrint
import Verif.PropsVssSave
import Verif.PropsSaveTight
import Verif.PropsExpNumbered
import Verif.PropsFloatRange
/-
C100: what is printed.
-/
namespace Verif

/-! ### Specification -/

/-- How a printed line is read: the digits before the first colon are its number, what follows the colon and one space is the line. -/
def readNumbered (l : Bytes) : Bytes × Bytes :=
  let n := l.takeWhile fun c => decide (c ≠ 58)
  (n, l.drop (n.length + 2))

/-- The printed lines: the text between the line ends (after the last one there is nothing). -/
def printedLines (out : Bytes) : List Bytes := (split 10 out).dropLast

/-! ### Lines with numbers -/

theorem padded_no {c : UInt8} (hc : isDigit c = false) (w n : Nat) : c ∉ padded w n := fun h => by
  have := List.all_eq_true.1 (padded_allDigits w n) c h
  rw [hc] at this
  cases this

theorem readNumbered_line (i : Nat) (l : Bytes) : readNumbered (padded 5 i ++ b!": " ++ l) = (padded 5 i, l) := by
  have h : ((padded 5 i ++ b!": " ++ l).takeWhile fun c => decide (c ≠ 58)) = padded 5 i := by
    rw [List.append_assoc, List.takeWhile_append_of_pos]
    · show padded 5 i ++ (58 :: 32 :: l).takeWhile _ = _
      simp
    · intro c hc
      simp only [ne_eq, decide_eq_true_eq]
      rintro rfl
      exact padded_no (by decide) _ _ hc
  unfold readNumbered
  dsimp only
  rw [h]
  congr 1
  rw [List.append_assoc, List.drop_append, List.drop_of_length_le (by omega)]
  show [] ++ (58 :: 32 :: l).drop _ = l
  rw [show (padded 5 i).length + 2 - (padded 5 i).length = 2 by omega]
  rfl

theorem printedLines_from : ∀ (ls : List Bytes) (i : Nat), (∀ l ∈ ls, (10 : UInt8) ∉ l) →
    printedLines (numberedFrom i ls) = (ls.zipIdx i).map fun p => padded 5 p.2 ++ b!": " ++ p.1
  | [], i, _ => rfl
  | l :: ls, i, h => by
    rw [List.forall_mem_cons] at h
    have ih := printedLines_from ls (i + 1) h.2
    have hl : (10 : UInt8) ∉ padded 5 i ++ b!": " ++ l := by
      intro hc
      rcases List.mem_append.1 hc with hc | hc
      · rcases List.mem_append.1 hc with hc | hc
        · exact padded_no (by decide) _ _ hc
        · revert hc; decide
      · exact h.1 hc
    unfold printedLines at ih ⊢
    rw [numberedFrom, split_append_sep 10 _ _ hl, List.dropLast_cons_of_ne_nil (split_ne_nil _ _), ih]
    rfl

theorem printedLines_print (txt : Bytes) :
    printedLines (printWithIndex txt) = ((split 10 txt).zipIdx 1).map fun p => padded 5 p.2 ++ b!": " ++ p.1 :=
  printedLines_from _ _ (split_no_sep 10 txt)

/-- **C100, numbers.**  For every text there are as many printed lines as lines, and the line at place `i` bears the number `i + 1`, in digits, and the line
itself after it. -/
theorem C100_numbered (txt : Bytes) : (printedLines (printWithIndex txt)).length = (split 10 txt).length ∧
    ∀ i l, (split 10 txt)[i]? = some l → ∃ p, (printedLines (printWithIndex txt))[i]? = some p ∧ (readNumbered p).2 = l ∧
      decimal (readNumbered p).1 = i + 1 ∧ (readNumbered p).1.all isDigit = true ∧ 5 ≤ (readNumbered p).1.length := by
  rw [printedLines_print]
  refine ⟨by simp, fun i l h => ⟨padded 5 (i + 1) ++ b!": " ++ l, ?_, ?_⟩⟩
  · rw [List.getElem?_map, List.getElem?_zipIdx, h]
    simp [Nat.add_comm]
  · rw [readNumbered_line]
    refine ⟨rfl, decimal_padded _ _, padded_allDigits _ _, ?_⟩
    simp [padded]
    omega

/-- **C100, nothing lost.**  The lines without their numbers are the text. -/
theorem C100_text (txt : Bytes) : joinWith 10 ((printedLines (printWithIndex txt)).map fun p => (readNumbered p).2) = txt := by
  rw [printedLines_print, List.map_map]
  have : ((fun p => (readNumbered p).2) ∘ fun p : Bytes × Nat => padded 5 p.2 ++ b!": " ++ p.1) = Prod.fst := by
    funext p
    simp only [Function.comp, readNumbered_line]
  rw [this, List.zipIdx_map_fst, joinWith_split]

/-- C100: so different texts are printed differently. -/
theorem C100_injective {a b : Bytes} (h : printWithIndex a = printWithIndex b) : a = b := by
  rw [← C100_text a, h, C100_text b]

theorem padded_five (n : Nat) : (padded 5 n).length = 5 ↔ n < 100000 := by
  constructor
  · intro h
    by_cases h0 : n = 0
    · omega
    · have hb := (natDigits_bounds (c := n) (by omega)).2
      have hl : (natDigits n).length ≤ 5 := by
        simp only [padded, List.length_append, List.length_replicate] at h
        omega
      have := Nat.pow_le_pow_right (n := 10) (by omega) hl
      omega
  · intro h
    exact (padded_digits (by omega) (by simpa using h)).1

/-- **C100, columns.**  The lines begin in one column, after five digits, exactly if there are fewer than 100000 of them. -/
theorem C100_columns (txt : Bytes) : (∀ p ∈ printedLines (printWithIndex txt), (readNumbered p).1.length = 5) ↔ (split 10 txt).length < 100000 := by
  rw [printedLines_print]
  constructor
  · intro h
    have hpos : 0 < (split 10 txt).length := List.length_pos_iff.2 (split_ne_nil _ _)
    obtain ⟨l, hl⟩ : ∃ l, (split 10 txt)[(split 10 txt).length - 1]? = some l := ⟨_, List.getElem?_eq_getElem (by omega)⟩
    have := h (padded 5 (split 10 txt).length ++ b!": " ++ l) (List.mem_map.2 ⟨(l, (split 10 txt).length), ?_, rfl⟩)
    · rw [readNumbered_line] at this
      exact (padded_five _).1 this
    · apply List.mem_of_getElem? (i := (split 10 txt).length - 1)
      rw [List.getElem?_zipIdx, hl]
      simp
      omega
  · intro h p hp
    obtain ⟨⟨l, i⟩, hm, rfl⟩ := List.mem_map.1 hp
    rw [readNumbered_line, padded_five]
    have := List.snd_lt_add_of_mem_zipIdx hm
    dsimp only at this ⊢
    omega

/-- **C100, the column does not hold.**  There are texts (of 100000 lines) whose last line begins one column further to the right. -/
theorem C100_columns_fails : ∃ txt, ¬ ∀ p ∈ printedLines (printWithIndex txt), (readNumbered p).1.length = 5 := by
  have hs : ∀ n : Nat, (split 10 (List.replicate n (10 : UInt8))).length = n + 1 := by
    intro n
    induction n with
    | zero => rfl
    | succ n ih => rw [List.replicate_succ, split, if_pos rfl, List.length_cons, ih]
  refine ⟨List.replicate 99999 10, ?_⟩
  rw [C100_columns, hs]
  omega

/-! ### Data sets and patches -/

/-- **C100, data sets.**  A data set is printed as it is saved, with a line end. -/
theorem C100_data (P : Nat → Bool) (m : List (Bytes × Js)) : ∃ txt, vssSave P (.obj m) = .ok txt ∧ vssPrint P (.obj m) = txt ++ [10] := by
  obtain ⟨txt, h, -⟩ := C77_empty P m
  refine ⟨txt, h, ?_⟩
  unfold vssPrint
  rw [vssSave] at h
  cases e : anyIndent P [] b!"    " .top (.obj m) with
  | ok s => rw [e] at h; cases h; rfl
  | err => rw [e] at h; cases h; rfl
  | panic => rw [e] at h; cases h

/-- C100: what is printed of a readable data set is, without the line end, a text that reads as the data. -/
theorem C100_data_read_partial (P : Nat → Bool) {m : List (Bytes × Js)} (h : DataTree (.obj m)) (hs : b!"timestamp" ∉ mkeys m)
    (hr : ReadableData P (.obj m)) : ∃ txt t, vssPrint P (.obj m) = txt ++ [10] ∧ unmarshal txt = .ok t ∧ SavedAs (.obj m) t := by
  obtain ⟨txt, t, h1, h2, h3⟩ := C77_data_partial P h hs hr
  obtain ⟨txt', e1, e2⟩ := C100_data P m
  rw [e1] at h1
  cases h1
  exact ⟨_, t, e2, h2, h3⟩

/-- A patch of one operation that sets the value of a path. -/
def onePatch (f : F64) : Js :=
  .arr [.obj [(b!"op", .str b!"replace"), (b!"path", .str b!"/a"), (b!"value", .num f), (b!"timestamp", .num F64.zero)]]

theorem onePatch_text (P : Nat → Bool) : ∃ a b : Bytes, ∀ g, vssPrint P (onePatch g) = a ++ fmtWhole g ++ b := by
  refine ⟨b!"[\n    {\n        " ++ quote P b!"op" ++ b!": " ++ quote P b!"replace" ++ b!",\n        " ++ quote P b!"path" ++ b!": " ++ quote P b!"/a" ++
    b!",\n        " ++ quote P b!"value" ++ b!": ", b!",\n        " ++ quote P b!"timestamp" ++ b!": " ++ fmtWhole F64.zero ++ b!"\n    }\n]\n", fun g => ?_⟩
  simp [vssPrint, onePatch, anyIndent, anyElems, anyMembers, checkLeaf, anyKeyTs, Res.bind, Res.map]

/-- C100: the number set by a patch is printed as a whole number next to it. -/
theorem C100_patch_whole (P : Nat → Bool) : ∃ a b : Bytes, ∀ f : F64, f.IsFin → ∃ n : Nat,
    vssPrint P (onePatch f) = a ++ ((if f.signBit then [45] else []) ++ natDigits n) ++ b ∧
    2 * (n * 2 ^ 1074) ≤ 2 * f.units.natAbs + 2 ^ 1074 ∧ 2 * f.units.natAbs ≤ 2 * (n * 2 ^ 1074) + 2 ^ 1074 := by
  obtain ⟨a, b, h⟩ := onePatch_text P
  refine ⟨a, b, fun f hf => ?_⟩
  obtain ⟨n, h1, h2, h3, -⟩ := C77_whole hf
  exact ⟨n, by rw [h, h1], h2, h3⟩

/-- **C100, patches.**  Numbers in patches are printed without their fraction: setting 1/2 and setting 0 look the same, although they are saved differently. -/
theorem C100_patch_fails (P : Nat → Bool) : ∃ f g : F64, f.IsFin ∧ g.IsFin ∧ F64.feq f g = false ∧
    vssPrint P (onePatch f) = vssPrint P (onePatch g) ∧ vssSave P (onePatch f) ≠ vssSave P (onePatch g) := by
  refine ⟨.fin false (2 ^ 52) (-53) (by decide), F64.zero, ⟨_, _, _, _, rfl⟩, ⟨_, _, _, _, rfl⟩, by decide +kernel, ?_, ?_⟩
  · obtain ⟨a, b, h⟩ := onePatch_text P
    rw [h, h, show fmtWhole (.fin false (2 ^ 52) (-53) (by decide)) = fmtWhole F64.zero by decide +kernel]
  · have hs : ∀ f : F64, vssSave P (onePatch f) = .ok (b!"[\n" ++ (b!"    { \"op\": \"" ++ b!"replace" ++ b!"\", \"path\": \"" ++ b!"/a" ++
        b!"\", \"value\": " ++ fmtFloat f ++ b!", \"timestamp\": " ++ itoa F64.zero.toInt64 ++ b!" }") ++ b!"\n]") := fun _ => rfl
    rw [hs, hs]
    intro h
    injection h with h
    revert h
    decide +kernel

/-! ### Examples -/

example : printWithIndex b!"{\n}" = b!"00001: {\n00002: }\n" := by decide +kernel

example : printWithIndex b!"" = b!"00001: \n" := by decide +kernel

/-- A data set with two readings is printed in the form in which it is saved, and reads as the data. -/
example (P : Nat → Bool) : ∃ txt t, vssPrint P (.obj saveExample) = txt ++ [10] ∧ unmarshal txt = .ok t ∧ SavedAs (.obj saveExample) t :=
  C100_data_read_partial P saveExample_tree (by decide) (saveExample_readable P)

end Verif
