import Verif.TsonPrint
import Verif.PropsText
import Verif.PropsVssPrint
/-
C101: documents as indented texts.
-/
namespace Verif

/-! ### Specification -/

/-- The numbers in a document. -/
inductive HasNum : Tson → F64 → Prop
  | leaf (f : F64) (ts : Int) : HasNum (.leaf (.num f) ts) f
  | member {m : List (Bytes × Tson)} {k : Bytes} {v : Tson} {f : F64} : (k, v) ∈ m → HasNum v f → HasNum (.obj m) f
  | element {l : List Tson} {v : Tson} {f : F64} : v ∈ l → HasNum v f → HasNum (.arr l) f

/-- A number that JSON can write. -/
def FiniteNum : F64 → Prop
  | .fin _ _ _ _ => True
  | _ => False

/-! ### Outcome -/

theorem docFinite_iff (t : Tson) : t.finite = true ↔ ∀ f, HasNum t f → FiniteNum f := by
  induction t using Tson.induction with
  | null => exact ⟨fun _ f h => (by cases h), fun _ => rfl⟩
  | leaf p ts =>
    cases p with
    | str s => exact ⟨fun _ f h => (by cases h), fun _ => rfl⟩
    | bool b => exact ⟨fun _ f h => (by cases h), fun _ => rfl⟩
    | num g =>
      refine ⟨fun h f hf => ?_, fun h => ?_⟩
      · cases hf
        cases g with
        | fin => trivial
        | nan => cases h
        | inf n => cases h
      · have := h g (.leaf g ts)
        cases g with
        | fin => rfl
        | nan => exact this.elim
        | inf n => exact this.elim
  | obj m ih =>
    rw [Tson.finite, tfiniteF_iff]
    refine ⟨fun h f hf => ?_, fun h p hp => (ih p hp).2 fun f hf => h f (.member hp hf)⟩
    cases hf with
    | member hm hv => exact (ih _ hm).1 (h _ hm) f hv
  | arr l ih =>
    rw [Tson.finite, tfiniteL_iff]
    refine ⟨fun h f hf => ?_, fun h v hv => (ih v hv).2 fun f hf => h f (.element hv hf)⟩
    cases hf with
    | element hm hv => exact (ih _ hm).1 (h _ hm) f hv

theorem readText_tree {j : Js} (h : GoodJs j) : (readText (treeText j)).isSome = decide ((sanT j).depth ≤ 10000) := by
  obtain ⟨jt, h1, h2, h3⟩ := reads j h
  have h1 := h1 (2 * (treeText j).length + 1) [] (by intro c r e; cases e) (by omega)
  have hs := skipWs_text h []
  rw [List.append_nil] at hs h1
  rw [readText, hs, h1]
  simp only [skipWs, true_and, h3]
  by_cases hd : (sanT j).depth ≤ 10000
  · simp [hd]
  · simp [hd]

theorem goodJs_doc {t : Tson} (h : ∀ ts ∈ stamps t, minInt64 ≤ ts ∧ ts ≤ maxInt64) (hf : t.finite = true) : GoodJs (ordTson t) :=
  goodJs_ordTson t (fun ts ht => by have := h ts ht; unfold minInt64 maxInt64 at this; omega) hf

theorem toCompatibleString_eq {t : Tson} (h : ∀ ts ∈ stamps t, minInt64 ≤ ts ∧ ts ≤ maxInt64) :
    toCompatibleString t = if t.finite = true ∧ nesting t ≤ 10000 then .ok (appendIndent 4 .out 0 false (tsonText t)) else .panic := by
  unfold toCompatibleString indentedWide toCompatibleText
  by_cases hf : t.finite = true
  · rw [if_pos hf, Res.bind_ok]
    have := readText_tree (goodJs_doc h hf)
    rw [← tsonText_ord] at this
    rw [this]
    by_cases hd : nesting t ≤ 10000
    · simp [(sanT_ordTson_depth t 10000).2 hd, hd, hf]
    · have : ¬ (sanT (ordTson t)).depth ≤ 10000 := fun e => hd ((sanT_ordTson_depth t 10000).1 e)
      simp [this, hd]
  · rw [if_neg hf]
    simp [hf, Res.bind]

/-- **C101, outcome.**  The text exists exactly for the documents whose numbers are finite and that are nested at most 10000 deep (a leaf counts as one
level); for all others the function panics. -/
theorem C101_outcome {t : Tson} (h : ∀ ts ∈ stamps t, minInt64 ≤ ts ∧ ts ≤ maxInt64) :
    ((∃ s, toCompatibleString t = .ok s) ↔ (∀ f, HasNum t f → FiniteNum f) ∧ nesting t ≤ 10000) ∧
    (¬ ((∀ f, HasNum t f → FiniteNum f) ∧ nesting t ≤ 10000) → toCompatibleString t = .panic) := by
  rw [toCompatibleString_eq h, ← docFinite_iff]
  by_cases hc : t.finite = true ∧ nesting t ≤ 10000
  · rw [if_pos hc]
    exact ⟨⟨fun _ => hc, fun _ => ⟨_, rfl⟩⟩, fun e => absurd hc e⟩
  · rw [if_neg hc]
    exact ⟨⟨fun ⟨_, e⟩ => (by cases e), fun e => absurd e hc⟩, fun _ => rfl⟩

/-! ### Text -/

/-- **C101, layout.**  The text has every member and every element on a line of its own, indented by four spaces for every level, and the members sorted. -/
theorem C101_layout {t : Tson} (h : ∀ ts ∈ stamps t, minInt64 ≤ ts ∧ ts ≤ maxInt64) {s : Bytes} (hs : toCompatibleString t = .ok s) :
    s = indText 4 0 (ordTson t) := by
  rw [toCompatibleString_eq h] at hs
  by_cases hc : t.finite = true ∧ nesting t ≤ 10000
  · rw [if_pos hc] at hs
    have e := indents_tree (iw := 4) (ordTson t) (goodJs_doc h hc.1) 0 false []
    simp only [List.append_nil, Bool.false_eq_true, if_false, List.nil_append, appendIndent] at e
    rw [← Res.ok.inj hs, tsonText_ord, e]
  · rw [if_neg hc] at hs; cases hs

/-- **C101, reading.**  The text is read, as plain JSON and as a document, like the bytes that `ToCompatibleTsonBytes` gives. -/
theorem C101_reads {t : Tson} (h : ∀ ts ∈ stamps t, minInt64 ≤ ts ∧ ts ≤ maxInt64) {s : Bytes} (hs : toCompatibleString t = .ok s) :
    ∃ b, toCompatibleText t = .ok b ∧ unmarshalText s = unmarshalText b ∧ fromCompatibleText s = fromCompatibleText b := by
  rw [toCompatibleString_eq h] at hs
  by_cases hc : t.finite = true ∧ nesting t ≤ 10000
  · rw [if_pos hc] at hs
    have hg := goodJs_doc h hc.1
    have hd := (sanT_ordTson_depth t 10000).2 hc.2
    have e : unmarshalText s = unmarshalText (tsonText t) := by
      rw [← Res.ok.inj hs, tsonText_ord, unmarshal_indented (iw := 4) hg hd, unmarshalText_treeText hg, unmarshalAny, if_pos hd]
    exact ⟨tsonText t, by rw [toCompatibleText, if_pos hc.1], e, by rw [fromCompatibleText, fromCompatibleText, e]⟩
  · rw [if_neg hc] at hs; cases hs

/-- **C101 (partial).**  A document without nil, with valid UTF-8, finite numbers and timestamps within 2^53, nested at most 10000 deep, has a text, and the text is
read as the document. -/
theorem C101_roundtrip_partial (t : Tson) (hw : t.Wf) (hc : Clean t) (hn : NullFree t) (hd : nesting t ≤ 10000) :
    ∃ s u, toCompatibleString t = .ok s ∧ fromCompatibleText s = .ok u ∧ u.Wf ∧ SameDoc t u := by
  obtain ⟨b, u, h1, h2, h3, h4⟩ := C44_roundtrip_partial t hw hc hn hd
  have hf : t.finite = true := by
    unfold toCompatibleText at h1
    by_cases hf : t.finite = true
    · exact hf
    · rw [if_neg hf] at h1; cases h1
  have hs := toCompatibleString_eq (clean_int64 hc)
  rw [if_pos ⟨hf, hd⟩] at hs
  obtain ⟨b', e1, -, e2⟩ := C101_reads (clean_int64 hc) hs
  rw [h1] at e1
  cases e1
  exact ⟨_, u, hs, by rw [e2, h2], h3, h4⟩

/-- A document with all kinds of values, and its text. -/
def printedDoc : Tson := .obj [(b!"b", .arr [.leaf (.bool true) 7, .obj []]), (b!"a", .leaf (.num (.ofInt 2)) 5)]

example : printedDoc.Wf ∧ Clean printedDoc ∧ NullFree printedDoc ∧ nesting printedDoc ≤ 10000 := by
  refine ⟨by simp [printedDoc, Tson.Wf, Tson.WfF, Tson.WfL, mkeys], ?_, by simp [printedDoc, NullFree, NullFreeF, NullFreeL], by decide⟩
  simp only [printedDoc, Clean, CleanF, CleanL, CleanPrim]
  exact ⟨.ascii (by decide) .nil, ⟨⟨trivial, by decide⟩, trivial, trivial⟩, .ascii (by decide) .nil, ⟨⟨_, _, _, _, rfl⟩, by decide⟩, trivial⟩

example : toCompatibleString printedDoc = .ok b!"{
    \"a\": {
        \"value\": 2,
        \"timestamp\": 5
    },
    \"b\": [
        {
            \"value\": true,
            \"timestamp\": 7
        },
        {}
    ]
}" := by decide +kernel

/-- C101 fails: with a number that is not finite the function panics, although its signature promises a text. -/
theorem C101_nan_fails : ∃ t : Tson, t.Wf ∧ NullFree t ∧ toCompatibleString t = .panic :=
  ⟨.arr [.leaf (.num .nan) 1], by simp [Tson.Wf, Tson.WfL], by simp [NullFree, NullFreeL], by decide +kernel⟩

/-- An array nested `n + 1` deep around a leaf. -/
def deepDoc : Nat → Tson
  | 0 => .leaf (.bool true) 1
  | n + 1 => .arr [deepDoc n]

theorem deepDoc_spec (n : Nat) : (deepDoc n).Wf ∧ NullFree (deepDoc n) ∧ nesting (deepDoc n) = n + 1 ∧ stamps (deepDoc n) = [1] ∧ (deepDoc n).finite = true := by
  induction n with
  | zero => exact ⟨by simp [deepDoc, Tson.Wf], by simp [deepDoc, NullFree], rfl, by simp [deepDoc, stamps], rfl⟩
  | succ n ih =>
    obtain ⟨h1, h2, h3, h4, h5⟩ := ih
    refine ⟨by simp [deepDoc, Tson.Wf, Tson.WfL, h1], by simp [deepDoc, NullFree, NullFreeL, h2], by simp [deepDoc, nesting, nestingL, h3]; omega,
      by simp [deepDoc, stamps, stampsL, h4], by simp [deepDoc, Tson.finite, Tson.finiteL, h5]⟩

/-- C101 fails: a document can be too deep for the indented text, although `ToCompatibleTsonBytes` gives its bytes. -/
theorem C101_deep_fails : ∃ t : Tson, t.Wf ∧ NullFree t ∧ (∃ b, toCompatibleText t = .ok b) ∧ toCompatibleString t = .panic := by
  obtain ⟨h1, h2, h3, h4, h5⟩ := deepDoc_spec 10000
  refine ⟨deepDoc 10000, h1, h2, ⟨_, by rw [toCompatibleText, if_pos h5]⟩, ?_⟩
  rw [toCompatibleString_eq (by rw [h4]; decide), if_neg (by omega)]

/-- C101 fails: the text shows a timestamp beyond 2^53 in full, but it is read as another one. -/
theorem C101_timestamp_fails : ∃ t s u, t.Wf ∧ NullFree t ∧ toCompatibleString t = .ok s ∧ fromCompatibleText s = .ok u ∧ ¬ SameDoc t u :=
  ⟨.obj [(b!"a", .leaf (.bool true) 9007199254740993)], _, .obj [(b!"a", .leaf (.bool true) 9007199254740992)],
    by simp [Tson.Wf, Tson.WfF, mkeys], by simp [NullFree, NullFreeF], toCompatibleString_eq (by decide), by decide +kernel,
    by
      rintro ⟨-, ⟨w, hw, hr⟩, -⟩
      cases hw
      exact absurd hr.2 (by decide)⟩

/-! ### Printing of data -/

/-- **C100, reading.**  The numbered lines of a data set, without their numbers, are a text that reads as the data does when it is marshalled. -/
theorem C100_data_lines {d : Js} (h : IntsOk d) (hf : d.finite = true) (hd : d.depth ≤ 10000) :
    unmarshalText (joinWith 10 ((printedLines (printData d)).map fun p => (readNumbered p).2)) = (encAny d).bind unmarshalAny := by
  have hg := goodJs_ord d h hf
  have hs := (sanT_ordAny_depth d 10000).2 hd
  have e : printData d = printWithIndex (appendIndent 4 .out 0 false (anyText d)) := by
    unfold printData indentedWide marshalAny
    rw [if_pos hf, Res.bind_ok, anyText_ord, readText_tree hg]
    simp [hs]
  rw [e, C100_text, ← unmarshal_marshal h, marshalAny, if_pos hf, Res.bind_ok, anyText_ord, unmarshal_indented (iw := 4) hg hs,
    unmarshalText_treeText hg, unmarshalAny, if_pos hs]

/-- C100: data that cannot be written is printed as one empty line. -/
theorem C100_data_nan {d : Js} (hf : d.finite = false) : printData d = b!"00001: \n" := by
  unfold printData indentedWide marshalAny
  rw [hf]
  exact (by decide +kernel : printWithIndex [] = b!"00001: \n")

example : printData (.obj [(b!"a", .num (.ofInt 2))]) = b!"00001: {\n00002:     \"a\": 2\n00003: }\n" := by decide +kernel

end Verif
