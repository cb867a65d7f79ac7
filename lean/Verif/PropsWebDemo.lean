import Verif.WebDemo
import Verif.ParseWf
import Verif.PropsApply
import Verif.PropsVssSave
/-
Property C78: the web demonstration.
-/
namespace Verif

/-! ### Parsed documents -/

/-- **C37.** A parsed document has distinct keys in every object, whatever the text repeats. -/
theorem C37_distinct (s : Bytes) (t : Tson) (h : unmarshal s = .ok t) : t.Wf := unmarshal_wf h

example : unmarshal b!"{\"a\": 1, \"a\": 2}" = .ok (.obj [(b!"a", .leaf (.num (.ofInt 2)) 0)]) := by decide +kernel

/-! ### The handler -/

/-- The operations of patches, in order. -/
def allOps (ps : List (Option (List POp))) : List Op := (ps.flatMap fun p => p.getD []).map POp.toOp

theorem storeTexts_ok : ∀ (texts : List Bytes) (ps : List (Option (List POp))) (g : Lgm), texts.map unmarshalPatch = ps.map .ok →
    ∃ g', storeTexts g texts = (g', .ok ()) ∧ g'.version = g.version ∧ g'.current = g.current ∧ g'.snaps = g.snaps ∧
      g'.patches = g.patches ∧ g'.pool.getD [] = g.pool.getD [] ++ allOps ps ∧
      (g'.pool = none ↔ g.pool = none ∧ ∀ p ∈ ps, p = none) := by
  intro texts
  induction texts with
  | nil =>
    intro ps g h
    cases ps with
    | nil => exact ⟨g, rfl, rfl, rfl, rfl, rfl, by simp [allOps], by simp⟩
    | cons p ps => cases h
  | cons b bs ih =>
    intro ps g h
    cases ps with
    | nil => cases h
    | cons p ps =>
      simp only [List.map_cons, List.cons.injEq] at h
      obtain ⟨h1, h2⟩ := h
      simp only [storeTexts, h1, Res.map_ok, Lgm.store, StoreArg.resolve]
      cases hp : g.pool with
      | none =>
        simp only
        obtain ⟨g', e, q1, q2, q3, q4, q5, q6⟩ := ih ps { g with pool := p.map fun l => l.map POp.toOp } h2
        refine ⟨g', e, q1, q2, q3, q4, ?_, ?_⟩
        · rw [q5]; cases p <;> simp [allOps]
        · rw [q6]; cases p <;> simp
      | some q =>
        simp only
        obtain ⟨g', e, q1, q2, q3, q4, q5, q6⟩ := ih ps { g with pool := some (q ++ (p.map fun l => l.map POp.toOp).getD []) } h2
        refine ⟨g', e, q1, q2, q3, q4, ?_, ?_⟩
        · rw [q5]; cases p <;> simp [allOps]
        · rw [q6]; simp

theorem storeTexts_bad (texts : List Bytes) (h : ∃ b ∈ texts, ∀ p, unmarshalPatch b ≠ .ok p) :
    ∀ g, (storeTexts g texts).2 = .panic := by
  induction texts with
  | nil => obtain ⟨b, hb, -⟩ := h; cases hb
  | cons c cs ih =>
    intro g
    obtain ⟨b, hb, h⟩ := h
    cases hc : unmarshalPatch c with
    | ok p =>
      have hcs : ∃ b ∈ cs, ∀ p, unmarshalPatch b ≠ .ok p := by
        rcases List.mem_cons.1 hb with rfl | hb
        · exact absurd hc (h p)
        · exact ⟨b, hb, h⟩
      simp only [storeTexts, hc, Res.map_ok, Lgm.store, StoreArg.resolve]
      cases g.pool <;> exact ih hcs _
    | err => simp only [storeTexts, hc, Lgm.store]; rfl
    | panic => simp only [storeTexts, hc, Lgm.store]; rfl

/-- The first snapshot after one `Append`. -/
theorem snapshot_one (h : Heap) (v : HVal) (ops : List Op) :
    St.snapshot ⟨h, ⟨[0, 1], v, [(0, v)], [(1, ops)], none⟩⟩ 1 = match applyPatch h v ops with
      | (h', .ok t) => (⟨h', ⟨[0, 1], v, [(0, v), (1, t)], [(1, ops)], none⟩⟩, .ok t)
      | (h', _) => (⟨h', ⟨[0, 1], v, [(0, v)], [(1, ops)], none⟩⟩, .panic) := by
  have e : Lgm.findLatest ⟨[0, 1], v, [(0, v)], [(1, ops)], none⟩ 1 = (⟨[0, 1], v, [(0, v)], [(1, ops)], none⟩, .ok (0, v)) := rfl
  simp only [St.snapshot, e]
  rw [if_pos (by decide)]
  have e2 : snapshotLoop ⟨[0, 1], v, [(0, v)], [(1, ops)], none⟩ v h .null (0 + 1) (1 - 0) = match applyPatch h v ops with
      | (h', .ok t) => (h', .ok t)
      | (h', _) => (h', .panic) := by
    show (match applyPatch h v ops with
      | (h', .ok t') => snapshotLoop ⟨[0, 1], v, [(0, v)], [(1, ops)], none⟩ v h' t' 2 0
      | (h', .err) => (h', .panic)
      | (h', .panic) => (h', .panic)) = _
    cases applyPatch h v ops with
    | mk h' r => cases r <;> rfl
  rw [e2]
  cases applyPatch h v ops with
  | mk h' r => cases r <;> rfl

/-- **C78.** The response is the first data set with the operations of all patches applied in one go. -/
theorem C78_response (P : Nat → Bool) {original : Bytes} {t : Tson} (ho : unmarshal original = .ok t) {texts : List Bytes}
    {ps : List (Option (List POp))} (hp : texts.map unmarshalPatch = ps.map .ok) (hne : ∃ p ∈ ps, p ≠ none) :
    patchHandler P original texts = match patchDoc t (allOps ps) with
      | .ok t' => .ok (marshalIndent P t' [] b!"  ")
      | _ => .panic := by
  obtain ⟨g', e, q1, q2, q3, q4, q5, q6⟩ := storeTexts_ok texts ps (newLogument [] t none).1.lgm hp
  have hpool : g'.pool = some (allOps ps) := by
    cases hc : g'.pool with
    | none =>
      obtain ⟨p, hm, hn⟩ := hne
      exact absurd ((q6.1 hc).2 p hm) hn
    | some l => rw [hc] at q5; simpa [newLogument] using q5
  obtain ⟨v, c, s, pt, pl⟩ := g'
  simp only [newLogument] at q1 q2 q3 q4 hpool
  subst q1 q2 q3 q4 hpool
  simp only [patchHandler, ho, e]
  show (match St.snapshot ⟨(Heap.store [] t).1, ⟨[0, 1], (Heap.store [] t).2, [(0, (Heap.store [] t).2)], [(1, allOps ps)], none⟩⟩ 1 with
    | (s', .ok v) => (match s'.heap.view v with | some t' => Res.ok (marshalIndent P t' [] b!"  ") | none => .panic)
    | _ => .panic) = _
  rw [snapshot_one, patchDoc]
  cases applyPatch (Heap.store [] t).1 (Heap.store [] t).2 (allOps ps) with
  | mk h' r =>
    cases r with
    | ok v => simp only; cases h'.view v <;> rfl
    | err => rfl
    | panic => rfl

/-- **C78.** For a first data set that is an object and at least one operation, the operations take effect one after another. -/
theorem C78_sequence (P : Nat → Bool) {original : Bytes} {m : List (Bytes × Tson)} (ho : unmarshal original = .ok (.obj m))
    {texts : List Bytes} {ps : List (Option (List POp))} (hp : texts.map unmarshalPatch = ps.map .ok) (hne : allOps ps ≠ []) :
    patchHandler P original texts = match replay (.obj m) (allOps ps) with
      | .ok t' => .ok (marshalIndent P t' [] b!"  ")
      | _ => .panic := by
  have h : ∃ p ∈ ps, p ≠ none := by
    refine Classical.byContradiction fun hc => hne ?_
    have : ∀ p ∈ ps, p = none := fun p hp => Classical.byContradiction fun h => hc ⟨p, hp, h⟩
    rw [allOps, List.map_eq_nil_iff, List.flatMap_eq_nil_iff]
    intro p hp
    rw [this p hp]
    rfl
  rw [C78_response P ho hp h, patchDoc_eq (unmarshal_wf ho) _ hne]

/-- **C78.** The handler panics if the first data set cannot be read, for instance because the file is missing. -/
theorem C78_original (P : Nat → Bool) {original : Bytes} (h : ∀ t, unmarshal original ≠ .ok t) (texts : List Bytes) :
    patchHandler P original texts = .panic := by
  unfold patchHandler
  cases ho : unmarshal original with
  | ok t => exact absurd ho (h t)
  | err => rfl
  | panic => rfl

/-- **C78.** The handler panics if one of the patches cannot be read, for instance because the file is missing. -/
theorem C78_unreadable (P : Nat → Bool) (original : Bytes) {texts : List Bytes} (h : ∃ b ∈ texts, ∀ p, unmarshalPatch b ≠ .ok p) :
    patchHandler P original texts = .panic := by
  unfold patchHandler
  cases unmarshal original with
  | ok t =>
    have := storeTexts_bad texts h (newLogument [] t none).1.lgm
    simp only
    rcases hs : storeTexts (newLogument [] t none).1.lgm texts with ⟨g, r⟩
    rw [hs] at this
    cases this
    rfl
  | err => rfl
  | panic => rfl

/-- **C78** fails without patches: a request for the first data set, or one whose patches are all null, ends in a panic. -/
theorem C78_none_fails (P : Nat → Bool) (original : Bytes) {texts : List Bytes} (h : ∀ b ∈ texts, unmarshalPatch b = .ok none) :
    patchHandler P original texts = .panic := by
  unfold patchHandler
  cases unmarshal original with
  | ok t =>
    obtain ⟨g', e, q1, q2, q3, q4, q5, q6⟩ := storeTexts_ok texts (texts.map fun _ => none) (newLogument [] t none).1.lgm (by
      rw [List.map_map]
      exact List.map_congr_left h)
    have hpool : g'.pool = none := q6.2 ⟨rfl, by simp⟩
    obtain ⟨v, c, s, pt, pl⟩ := g'
    simp only [newLogument] at q1 q2 q3 q4 hpool
    subst q1 q2 q3 q4 hpool
    simp only [e]
    rfl
  | err => rfl
  | panic => rfl

example : patchHandler (fun _ => true) b!"{\"a\" <5>: true}" [] = .panic := C78_none_fails _ _ (by simp)

/-- **C78** fails for empty patches: nothing changed, but the response is null instead of the data set. -/
theorem C78_empty_fails (P : Nat → Bool) {original : Bytes} {t : Tson} (ho : unmarshal original = .ok t) {texts : List Bytes}
    (hne : texts ≠ []) (h : ∀ b ∈ texts, unmarshalPatch b = .ok (some [])) : patchHandler P original texts = .ok b!"null" := by
  rw [C78_response P ho (ps := texts.map fun _ => some []) (by rw [List.map_map]; exact List.map_congr_left h)
    (by cases texts with | nil => exact absurd rfl hne | cons b bs => exact ⟨some [], by simp, by simp⟩)]
  have : allOps (texts.map fun _ => some []) = [] := by simp [allOps]
  rw [this]
  rfl

example : unmarshalPatch b!"[\n\n]" = .ok (some []) := by rfl

/-! ### Paths with a leading slash -/

theorem writeParts_slash (p : Bytes) : ∃ ps, writeParts (bSlash :: p) = [] :: ps := by
  cases p with
  | nil => exact ⟨_, rfl⟩
  | cons d r =>
    refine ⟨split bSlash (dotsToSlashes (decode (d :: r))), ?_⟩
    have h : bSlash ≠ bTilde := by decide
    rw [writeParts, decode, if_neg (fun e => h e.1), if_neg (fun e => h e.1)]
    have h2 : (if bSlash = bDot then bSlash else bSlash) = bSlash := by decide
    rw [dotsToSlashes, List.map_cons, h2, split, if_pos rfl]
    rfl

/-- One operation whose path begins with a slash leaves the members with a name alone. -/
theorem slash_op_frame {m : List (Bytes × Tson)} (hm : (Tson.obj m).Wf) {op : Op} (ho : ∃ p, op.path = bSlash :: p) {m' : List (Bytes × Tson)}
    (h : applyDoc (.obj m) op = .ok (.obj m')) {k : Bytes} (hk : k ≠ []) : mget m' k = mget m k := by
  obtain ⟨p, hp⟩ := ho
  obtain ⟨ps, hw⟩ := writeParts_slash p
  have hr : ∀ u, Reaches (.obj m') [k] u ↔ Reaches (.obj m) [k] u := fun u =>
    C25_frame_partial m hm op _ h [k] (by rw [hp, hw]; exact .here _ _ _ _ _ hk.symm) u
  have hg : ∀ (n : List (Bytes × Tson)) u, Reaches (.obj n) [k] u ↔ mget n k = some u := by
    intro n u
    constructor
    · intro h
      cases h with
      | member _ _ _ c _ h1 h2 => cases h2; exact h1
    · intro h; exact .member _ _ _ _ _ h (.here _)
  cases h1 : mget m k with
  | some u => exact (hg _ _).1 ((hr u).2 ((hg _ _).2 h1))
  | none =>
    cases h2 : mget m' k with
    | none => rfl
    | some u => rw [(hg _ _).1 ((hr u).1 ((hg _ _).2 h2))] at h1; cases h1

theorem slash_ops_frame : ∀ (ops : List Op) {m : List (Bytes × Tson)}, (Tson.obj m).Wf → (∀ o ∈ ops, ∃ p, o.path = bSlash :: p) →
    ∀ {m' : List (Bytes × Tson)}, replay (.obj m) ops = .ok (.obj m') → ∀ {k : Bytes}, k ≠ [] → mget m' k = mget m k := by
  intro ops
  induction ops with
  | nil => intro m _ _ m' h k _; cases h; rfl
  | cons op ops ih =>
    intro m hm ho m' h k hk
    simp only [replay, Res.bind_eq_ok] at h
    obtain ⟨t, h1, h2⟩ := h
    obtain ⟨⟨m1, rfl⟩, hw⟩ := replay_obj (ops := [op]) hm (t := t) (by simp only [replay, h1, Res.bind_ok])
    rw [ih hw (fun o h => ho o (List.mem_cons_of_mem _ h)) h2 hk]
    exact slash_op_frame hm (ho op (List.mem_cons_self ..)) h1 hk

/-- **C78** fails for generated patches: their paths begin with a slash (C76), and then the response shows every member of the
first data set that has a name as it was. -/
theorem C78_unchanged_fails (P : Nat → Bool) {original : Bytes} {m : List (Bytes × Tson)} (ho : unmarshal original = .ok (.obj m))
    {texts : List Bytes} {ps : List (Option (List POp))} (hp : texts.map unmarshalPatch = ps.map .ok) (hne : allOps ps ≠ [])
    (hs : ∀ o ∈ allOps ps, ∃ p, o.path = bSlash :: p) {r : Bytes} (hr : patchHandler P original texts = .ok r) :
    ∃ m', r = marshalIndent P (.obj m') [] b!"  " ∧ ∀ k, k ≠ [] → mget m' k = mget m k := by
  rw [C78_sequence P ho hp hne] at hr
  cases h : replay (.obj m) (allOps ps) with
  | ok t =>
    rw [h] at hr
    obtain ⟨⟨m', rfl⟩, -⟩ := replay_obj (unmarshal_wf ho) h
    cases hr
    exact ⟨m', rfl, fun k hk => slash_ops_frame _ (unmarshal_wf ho) hs h hk⟩
  | err => rw [h] at hr; cases hr
  | panic => rw [h] at hr; cases hr

set_option maxRecDepth 8000 in
/-- The new value is written beside the old one. -/
example : patchHandler (fun _ => true) b!"{\n    \"V\" <5>: true\n}"
    [b!"[\n    { \"op\": \"replace\", \"path\": \"/V\", \"value\": false, \"timestamp\": 9 }\n]"] =
    .ok b!"{\n  \"V\" <5>: true,\n  \"\": {\n    \"V\" <9>: false\n  }\n}" := by decide +kernel

/-! ### Generation of the files -/

/-- **C78** fails at the start: `Generate` needs a rate that neither the command line nor the defaults provide, and panics. -/
theorem C78_generate_fails (dataset : Bytes) (cars files : Int) (changeRate size : F64) :
    genArgs (parseArgs dataset cars files changeRate size) = .panic ∧ genArgs (defaultArgs changeRate size) = .panic := ⟨rfl, rfl⟩

/-- With the rate, the arguments are taken as they are. -/
theorem C78_arguments (dataset : Bytes) (cars files : Int) (changeRate maintainRate size : F64) :
    genArgs (parseArgs dataset cars files changeRate size ++ [(b!"maintain_rate", .float maintainRate)]) =
      .ok ⟨dataset, cars, files, changeRate, maintainRate, size⟩ := rfl

/-- The rounds of the inner loop. -/
theorem genCar_go {P : Nat → Bool} {first : List (Bytes × Js)} : ∀ {rounds : List (Int × (Bytes → NextDraw))},
    (∀ r ∈ rounds, ∃ f, genFile P first r.1 r.2 = .ok f) →
    ∃ files, genCar.go P first rounds = .ok files ∧ files.length = rounds.length ∧
      ∀ (i : Nat) r, rounds[i]? = some r → ∃ f, files[i]? = some f ∧ genFile P first r.1 r.2 = .ok f := by
  intro rounds
  induction rounds with
  | nil => intro _; exact ⟨[], rfl, rfl, fun i r h => by simp at h⟩
  | cons r rs ih =>
    intro h
    rw [List.forall_mem_cons] at h
    obtain ⟨f, hf⟩ := h.1
    obtain ⟨files, h1, h2, h3⟩ := ih h.2
    refine ⟨f :: files, by rw [genCar.go, hf, Res.bind_ok, h1, Res.map_ok], by simp [h2], fun i q hq => ?_⟩
    cases i with
    | zero => cases hq; exact ⟨f, rfl, hf⟩
    | succ i => exact h3 i q hq

theorem redrawn_plain {P : Nat → Bool} {x : Js} {s : Bytes} (h : Redrawn x (.str s)) : PlainText P s := by
  cases h with
  | str s i h1 h2 =>
    refine plain_ascii fun c hc => ?_
    rcases List.mem_append.1 hc with hc | hc
    · exact (by decide : ∀ c ∈ b!"TEST_STRING_VALUE_", 32 ≤ c ∧ c ≤ 126) c hc
    · have : ∀ n : Fin 21, ∀ c ∈ itoa (n.1 : Int), 32 ≤ c ∧ c ≤ 126 := by decide +kernel
      exact this ⟨i, by omega⟩ c hc

/-- The readings of data have paths and texts that need no escapes. -/
def PlainReadings (P : Nat → Bool) (m : List (Bytes × Js)) : Prop :=
  ∀ ks x t, ReadingAt (.obj m) ks x t → RawText (pointer ks) ∧ ∀ s, x = .str s → PlainText P s

/-- **C78.** The files of a car: the data set of every round, and a patch that, read back, has exactly one operation for each
reading that is not as in the *first* data set. -/
theorem C78_files_partial (P : Nat → Bool) {first : List (Bytes × Js)} (hm : VehicleData first) (he : NoEmptyMap (.obj first))
    (hd : DataTree (.obj first)) (hdep : (Js.obj first).depth ≤ 10000) (hp : PlainReadings P first)
    {rounds : List (Int × (Bytes → NextDraw))} (hr : ∀ r ∈ rounds, minInt64 ≤ r.1 ∧ r.1 ≤ maxInt64 ∧ ∀ n, (r.2 n).Fair) :
    ∃ files, genCar P first rounds = .ok files ∧ files.length = rounds.length + 1 ∧
      (∃ f, files[0]? = some (f, f) ∧ vssSave P (.obj first) = .ok f) ∧
      ∀ (i : Nat) r, rounds[i]? = some r → ∃ a b next ops, files[i + 1]? = some (a, b) ∧
        generateNext r.1 r.2 (.obj first) = .ok next ∧ vssSave P (.obj next) = .ok a ∧ unmarshalPatch b = .ok (some ops) ∧
        ops.Nodup ∧ ∀ o, o ∈ ops ↔ ∃ ks x t y u v, ReadingAt (.obj first) ks x t ∧ ReadingAt (.obj next) ks y u ∧
          ¬ SameReading x t y u ∧ Decoded y v ∧ o = ⟨b!"replace", pointer ks, .any v, jsonStamp u⟩ := by
  have one : ∀ r ∈ rounds, ∃ a b next ops, genFile P first r.1 r.2 = .ok (a, b) ∧
        generateNext r.1 r.2 (.obj first) = .ok next ∧ vssSave P (.obj next) = .ok a ∧ unmarshalPatch b = .ok (some ops) ∧
        ops.Nodup ∧ ∀ o, o ∈ ops ↔ ∃ ks x t y u v, ReadingAt (.obj first) ks x t ∧ ReadingAt (.obj next) ks y u ∧
          ¬ SameReading x t y u ∧ Decoded y v ∧ o = ⟨b!"replace", pointer ks, .any v, jsonStamp u⟩ := by
    intro r hmem
    obtain ⟨h1, h2, hf⟩ := hr r hmem
    obtain ⟨n, e, -, -, ha⟩ := next_alike hm he hd h1 h2 hf
    obtain ⟨patch, txt, ops, q1, q2, q3, q4, q5⟩ := C77_between_partial P hd ha.tree ha.same hdep (by rw [ha.depth]; exact hdep) (by
      intro ks y u hy
      obtain ⟨x, t, hx⟩ := (sameData_places ha.same ks).2 ⟨y, u, hy⟩
      obtain ⟨p1, p2⟩ := hp ks x t hx
      refine ⟨p1, fun s hs => ?_⟩
      subst hs
      rcases ha.moved _ _ _ _ _ hx hy with ⟨-, h | h⟩ | ⟨h, -⟩
      · exact p2 s h.symm
      · exact redrawn_plain h
      · exact p2 s h.symm)
    have hs := vssSave_text ha.tree P
    exact ⟨_, txt, n, ops, by rw [genFile, e, Res.bind_ok, q1, Res.bind_ok, hs, Res.bind_ok, q2, Res.map_ok], e, hs, q3, q4, q5⟩
  obtain ⟨files, g1, g2, g3⟩ := genCar_go (P := P) (first := first) (rounds := rounds) fun r h => by
    obtain ⟨a, b, -, -, h, -⟩ := one r h; exact ⟨_, h⟩
  have hs := vssSave_text hd P
  refine ⟨_ :: files, by rw [genCar, hs, Res.bind_ok, g1, Res.map_ok], by simp [g2], ⟨_, rfl, hs⟩, fun i r hi => ?_⟩
  obtain ⟨f, hf, hg⟩ := g3 i r hi
  obtain ⟨a, b, next, ops, h, rest⟩ := one r (List.mem_of_getElem? hi)
  rw [h] at hg
  cases hg
  exact ⟨a, b, next, ops, hf, rest⟩

/-- **C78** fails for the files of a car: whatever was drawn, and whatever number of patches is asked for, a response shows every
named member of the first data set as it was (or nothing at all, if no reading changed). -/
theorem C78_served_fails (P : Nat → Bool) {first : List (Bytes × Js)} (hm : VehicleData first) (he : NoEmptyMap (.obj first))
    (hd : DataTree (.obj first)) (hdep : (Js.obj first).depth ≤ 10000) (hp : PlainReadings P first) (hrd : ReadableData P (.obj first))
    {rounds : List (Int × (Bytes → NextDraw))} (hr : ∀ r ∈ rounds, minInt64 ≤ r.1 ∧ r.1 ≤ maxInt64 ∧ ∀ n, (r.2 n).Fair)
    {f : Bytes × Bytes} {files : List (Bytes × Bytes)} (hg : genCar P first rounds = .ok (f :: files)) (j : Nat) {res : Bytes}
    (hres : patchHandler P f.1 ((files.take j).map (·.2)) = .ok res) :
    res = b!"null" ∨ ∃ n n', SavedAs (.obj first) (.obj n) ∧ res = marshalIndent P (.obj n') [] b!"  " ∧
      ∀ k, k ≠ [] → mget n' k = mget n k := by
  obtain ⟨files', e, hlen, ⟨f', hf0, hf⟩, hfiles⟩ := C78_files_partial P hm he hd hdep hp hr
  rw [hg] at e
  cases e
  cases hf0
  obtain ⟨txt, t, s1, s2, s3⟩ := C77_data_partial P hd hm.1.root hrd
  rw [hf] at s1
  cases s1
  obtain ⟨n, rfl⟩ : ∃ n, t = .obj n := by
    generalize hj : Js.obj first = j at s3
    cases s3 with
    | reading x ts p h =>
      cases hj
      exact absurd hm.1.root (by simp [mkeys])
    | map m n => exact ⟨n, rfl⟩
    | array => cases hj
  -- the patches are read
  have hread : ∀ b ∈ (files.take j).map (·.2), ∃ ops, unmarshalPatch b = .ok (some ops) ∧ ∀ o ∈ ops, ∃ p, o.path = bSlash :: p := by
    intro b hb
    obtain ⟨x, hx, rfl⟩ := List.mem_map.1 hb
    obtain ⟨i, hi⟩ := List.getElem?_of_mem (List.mem_of_mem_take hx)
    have hil : i < rounds.length := by
      have := (List.getElem?_eq_some_iff.1 hi).1
      simp only [List.length_cons] at hlen
      omega
    obtain ⟨a, b, next, ops, h1, h2, -, h3, -, h4⟩ := hfiles i _ (List.getElem?_eq_getElem hil)
    rw [List.getElem?_cons_succ, hi] at h1
    cases h1
    refine ⟨ops, h3, fun o ho => ?_⟩
    obtain ⟨ks, x, t, y, u, v, r1, -, -, -, rfl⟩ := (h4 o).1 ho
    obtain ⟨k, c, r, rfl, -⟩ := (readingAt_map hm.1.root).1 r1
    exact ⟨_, rfl⟩
  generalize (files.take j).map (·.2) = texts at hread hres
  obtain ⟨ps, hps, hsl⟩ : ∃ ps : List (Option (List POp)), texts.map unmarshalPatch = ps.map .ok ∧ (∀ p ∈ ps, p ≠ none) ∧
      ∀ o ∈ allOps ps, ∃ p, o.path = bSlash :: p := by
    clear hres
    induction texts with
    | nil => exact ⟨[], rfl, by simp, by simp [allOps]⟩
    | cons b bs ih =>
      rw [List.forall_mem_cons] at hread
      obtain ⟨ops, h1, h2⟩ := hread.1
      obtain ⟨ps, h3, h4, h5⟩ := ih hread.2
      refine ⟨some ops :: ps, by rw [List.map_cons, List.map_cons, h1, h3], by simpa using h4, fun o ho => ?_⟩
      simp only [allOps, List.flatMap_cons, Option.getD_some, List.map_append, List.mem_append] at ho
      rcases ho with ho | ho
      · obtain ⟨q, hq, rfl⟩ := List.mem_map.1 ho
        exact h2 q hq
      · exact h5 o ho
  by_cases hne : allOps ps = []
  · left
    cases texts with
    | nil => rw [C78_none_fails P _ (by simp)] at hres; cases hres
    | cons b bs =>
      cases ps with
      | nil => cases hps
      | cons p ps =>
        rw [C78_response P s2 hps ⟨p, by simp, hsl.1 p (by simp)⟩, hne] at hres
        cases hres
        rfl
  · right
    obtain ⟨n', h1, h2⟩ := C78_unchanged_fails P s2 hps hne hsl.2 hres
    exact ⟨n, n', s3, h1, h2⟩

/-! ### Examples -/

/-- Two readings. -/
def demoData : List (Bytes × Js) := [(b!"V", .obj [(b!"a", readingJs (.bool true) 5), (b!"b", readingJs (.bool true) 5)])]

/-- Draws that change one reading. -/
def demoDraw (name : Bytes) (path : Bytes) : NextDraw := ⟨if path = name then .change else .keep, 0, F64.ofInt 5, 0⟩

set_option maxRecDepth 8000 in
/-- **C78** fails for the patches between data sets: the patch beside data set 3 belongs to data set 1.  From data set 2 to data set
3 the reading `a` changes back from false to true, but the third patch has no operation for it. -/
theorem C78_between_fails (P : Nat → Bool) : genCar P demoData [(7, demoDraw b!"V.a"), (9, demoDraw b!"V.b")] = .ok
    [(b!"{\n    \"V\": {\n        \"a\" <5>: true,\n        \"b\" <5>: true\n    }\n}",
      b!"{\n    \"V\": {\n        \"a\" <5>: true,\n        \"b\" <5>: true\n    }\n}"),
     (b!"{\n    \"V\": {\n        \"a\" <7>: false,\n        \"b\" <5>: true\n    }\n}",
      b!"[\n    { \"op\": \"replace\", \"path\": \"/V/a\", \"value\": false, \"timestamp\": 7 }\n]"),
     (b!"{\n    \"V\": {\n        \"a\" <5>: true,\n        \"b\" <9>: false\n    }\n}",
      b!"[\n    { \"op\": \"replace\", \"path\": \"/V/b\", \"value\": false, \"timestamp\": 9 }\n]")] := by rfl

theorem exData_readable (P : Nat → Bool) : ReadableData P (.obj exData) := by
  refine .map _ (by decide) (by
    intro k hk
    simp only [exData, mkeys, List.map_cons, List.map_nil, List.mem_singleton] at hk
    subst hk
    exact plain_ascii (by decide)) ?_
  intro p hp
  simp only [exData, List.mem_singleton] at hp
  subst hp
  refine .map _ (by decide) (by
    intro k hk
    simp only [mkeys, List.map_cons, List.map_nil, List.mem_cons, List.not_mem_nil, or_false] at hk
    rcases hk with rfl | rfl <;> exact plain_ascii (by decide)) ?_
  intro p hp
  simp only [List.mem_cons, List.not_mem_nil, or_false] at hp
  rcases hp with rfl | rfl
  · exact .reading _ 7 (.num _ ((C33_whole_plain 5 (by decide)).2 (by decide)))
  · exact .reading _ 7 (.str _ (plain_ascii (by decide)))

theorem exData_plain (P : Nat → Bool) : PlainReadings P exData := by
  intro ks x t h0
  obtain ⟨k, c, r, rfl, h1, h2⟩ := (readingAt_map (by decide)).1 h0
  clear h0
  simp only [exData, mget] at h1
  split at h1
  · cases h1
    subst k
    obtain ⟨k, c, r, rfl, h1, h⟩ := (readingAt_map (by decide)).1 h2
    simp only [mget] at h1
    split at h1
    · cases h1
      subst k
      obtain ⟨rfl, rfl, -⟩ := readingAt_reading (x := .num (F64.ofInt 5)) (t := 7) h
      exact ⟨rawText_ascii (by decide), by intro s h; cases h⟩
    · split at h1
      · cases h1
        subst k
        obtain ⟨rfl, rfl, -⟩ := readingAt_reading (x := .str b!"TEST_STRING_VALUE_2") (t := 7) h
        exact ⟨rawText_ascii (by decide), by intro s h; cases h; exact plain_ascii (by decide)⟩
      · cases h1
  · cases h1

/-- The hypotheses of `C78_files_partial` and `C78_served_fails` are met. -/
example : ∃ files, genCar (fun _ => true) exData [(9, exNext)] = .ok files ∧ files.length = 2 := by
  obtain ⟨files, h1, h2, -⟩ := C78_files_partial (fun _ => true) exData_vehicle.2 exData_tree.2.2 exData_tree.1 exData_tree.2.1
    (exData_plain _) (rounds := [(9, exNext)]) (by
      intro r hr
      rw [List.mem_singleton] at hr
      subst hr
      exact ⟨by decide, by decide, fun n => ⟨by simp [exNext], below100_five, by simp [exNext]⟩⟩)
  exact ⟨files, h1, h2⟩

set_option maxRecDepth 8000 in
/-- A response to a request for the second data set of `C78_between_fails`. -/
example : patchHandler (fun _ => true) b!"{\n    \"V\": {\n        \"a\" <5>: true,\n        \"b\" <5>: true\n    }\n}"
    [b!"[\n    { \"op\": \"replace\", \"path\": \"/V/a\", \"value\": false, \"timestamp\": 7 }\n]"] =
    .ok b!"{\n  \"V\": {\n    \"a\" <5>: true,\n    \"b\" <5>: true\n  },\n  \"\": {\n    \"V\": {\n      \"a\" <7>: false\n    }\n  }\n}" := by
  decide +kernel

end Verif
