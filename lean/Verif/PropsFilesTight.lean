import Verif.PropsExpDirs
import Verif.ExpOut
/-
Which directory and which document the temporal experiments take (C87, C88), for any directories.
-/
namespace Verif

/-- The names of experiment directories: eight digits, an underscore, six digits. -/
def StampName (s : Bytes) : Prop :=
  ∃ a b : Bytes, s = a ++ 95 :: b ∧ a.length = 8 ∧ b.length = 6 ∧ ∀ c ∈ a ++ b, 48 ≤ c ∧ c ≤ 57

theorem all_isDigit {l : Bytes} : l.all isDigit = true ↔ ∀ c ∈ l, 48 ≤ c ∧ c ≤ 57 := by
  simp [List.all_eq_true, isDigit]

/-- **C88, pattern.**  Exactly the names of this form count as experiments. -/
theorem C88_stamp (s : Bytes) : isStamp s = true ↔ StampName s := by
  constructor
  · intro h
    unfold isStamp at h
    simp only [Bool.and_eq_true, decide_eq_true_eq, beq_iff_eq] at h
    obtain ⟨⟨⟨h1, h2⟩, h3⟩, h4⟩ := h
    have hlt : 8 < s.length := by omega
    rw [List.getElem?_eq_getElem hlt, Option.some.injEq] at h3
    refine ⟨s.take 8, s.drop 9, ?_, by simp; omega, by simp; omega, ?_⟩
    · rw [← h3, ← List.drop_eq_getElem_cons hlt, List.take_append_drop]
    · intro c hc
      rcases List.mem_append.1 hc with hc | hc
      · exact all_isDigit.1 h2 c hc
      · exact all_isDigit.1 h4 c hc
  · rintro ⟨a, b, rfl, ha, hb, hd⟩
    have h1 : (a ++ 95 :: b).take 8 = a := by rw [← ha]; simp
    have h2 : (a ++ 95 :: b)[8]? = some 95 := by
      rw [List.getElem?_append_right (by omega), ha]; rfl
    have h3 : (a ++ 95 :: b).drop 9 = b := by
      rw [show 9 = a.length + 1 by omega, List.drop_append]; simp
    unfold isStamp
    rw [h1, h2, h3, all_isDigit.2 fun c hc => hd c (List.mem_append_left _ hc),
      all_isDigit.2 fun c hc => hd c (List.mem_append_right _ hc)]
    simp [ha, hb]

example : StampName b!"20250703_090012" ∧ ¬ StampName b!"20250703_0900120" :=
  ⟨(C88_stamp _).1 (by decide), fun h => absurd ((C88_stamp _).2 h) (by decide)⟩

/-- **C88, choice.**  The directory taken has such a name and no directory with such a name is later; none is taken exactly if there
is no such name. -/
theorem C88_taken (ds : List (Bytes × Dir)) :
    (latestDir ds = none ↔ ∀ d ∈ ds, ¬ StampName d.1) ∧
    ∀ d, latestDir ds = some d → d ∈ ds ∧ StampName d.1 ∧ ∀ d' ∈ ds, StampName d'.1 → bytesLe d'.1 d.1 = true := by
  unfold latestDir
  constructor
  · rw [List.getLast?_eq_none_iff, ← List.length_eq_zero_iff, sortM_length, List.length_eq_zero_iff, List.filter_eq_nil_iff]
    exact forall_congr' fun d => imp_congr_right fun _ => not_congr (C88_stamp d.1)
  · intro d hd
    have hmem := (sortM_perm _).mem_iff.1 (List.mem_of_getLast? hd)
    obtain ⟨h1, h2⟩ := List.mem_filter.1 hmem
    refine ⟨h1, (C88_stamp _).1 h2, fun d' h1' h2' => ?_⟩
    have hm' : d' ∈ sortM (ds.filter fun d => isStamp d.1) :=
      (sortM_perm _).mem_iff.2 (List.mem_filter.2 ⟨h1', (C88_stamp _).2 h2'⟩)
    have hs := sortM_sorted (ds.filter fun d => isStamp d.1)
    obtain ⟨l, e⟩ := List.getLast?_eq_some_iff.1 hd
    rw [e] at hm' hs
    rcases List.mem_append.1 hm' with h | h
    · exact (List.pairwise_append.1 hs).2.2 d' h d (by simp)
    · rw [List.mem_singleton.1 h]
      exact bytesLe_refl _

example : latestDir [(b!"20250703_090012", []), (b!"20250703_0900120", [(b!"a", b!"b")]), (b!"20250704_000000", []), (b!"readme", [])] =
    some (b!"20250704_000000", []) := by decide +kernel

/-- **C87, document.**  The document of a directory is the map in `initial_json.json`; `null` stands for the empty map, and nothing
else is taken.  Reading it never panics. -/
theorem C87_document (dir : Dir) (m : List (Bytes × Js)) :
    (dir.loadDoc = .ok m ↔ ∃ s, mget dir b!"initial_json.json" = some s ∧
      (unmarshalText s = .ok (.obj m) ∨ unmarshalText s = .ok .null ∧ m = [])) ∧
    dir.loadDoc ≠ .panic := by
  unfold Dir.loadDoc
  cases mget dir b!"initial_json.json" with
  | none => simp
  | some s =>
    dsimp only
    cases e : unmarshalText s with
    | err => simp [e]
    | panic => simp [e]
    | ok j => cases j <;> simp [e, eq_comm]

example : Dir.loadDoc [(b!"initial_json.json", b!" null")] = .ok [] := by
  refine (C87_document _ _).1.2 ⟨b!" null", by decide +kernel, .inr ⟨by rfl, rfl⟩⟩

/-- **C87, without data.**  The experiments end quietly exactly if there is no directory of an experiment or its patches cannot be
read; with patches but without a document they panic. -/
theorem C87_stops (h : Heap) (c : TemporalDraws) (ds : List (Bytes × Dir)) :
    (temporalFiles h c ds = .ok none ↔
      (∀ d ∈ ds, ¬ StampName d.1) ∨ ∃ name dir, latestDir ds = some (name, dir) ∧ ∀ ps, dir.loadPatches ≠ .ok ps) ∧
    ∀ name dir ps, latestDir ds = some (name, dir) → dir.loadPatches = .ok ps → (∀ doc, dir.loadDoc ≠ .ok doc) → temporalFiles h c ds = .panic := by
  have hnone := (C88_taken ds).1
  unfold temporalFiles
  cases hl : latestDir ds with
  | none => exact ⟨iff_of_true rfl (.inl (hnone.1 hl)), by simp⟩
  | some d =>
    obtain ⟨name, dir⟩ := d
    have hno : ¬ ∀ d ∈ ds, ¬ StampName d.1 := fun e => by rw [hnone.2 e] at hl; cases hl
    dsimp only
    constructor
    · cases hp : dir.loadPatches with
      | ok rs =>
        refine iff_of_false ?_ ?_
        · dsimp only
          cases dir.loadDoc with
          | err => simp
          | panic => simp
          | ok doc =>
            dsimp only
            cases temporalRun h c doc rs <;> simp [Res.map]
        · rintro (e | ⟨n, d', e, e'⟩)
          · exact hno e
          · cases e
            exact e' rs hp
      | err => exact iff_of_true rfl (.inr ⟨name, dir, rfl, by simp [hp]⟩)
      | panic => exact iff_of_true rfl (.inr ⟨name, dir, rfl, by simp [hp]⟩)
    · rintro n d' ps e hp hd
      cases e
      rw [hp]
      dsimp only
      cases hd' : dir.loadDoc with
      | ok doc => exact absurd hd' (hd doc)
      | err => rfl
      | panic => rfl

/-- A directory with patches that cannot be read, and one with patches but without the document. -/
example (h : Heap) (c : TemporalDraws) :
    temporalFiles h c [(b!"20250703_090012", [(b!"all_tson_patches.json", b!"{")])] = .ok none ∧
    temporalFiles h c [(b!"20250703_090012", [(b!"all_tson_patches.json", b!"[]")])] = .panic := by
  refine ⟨(C87_stops h c _).1.2 (.inr ⟨_, _, rfl, fun ps => ?_⟩), (C87_stops h c _).2 _ _ [] rfl (by rfl) fun doc e => ?_⟩
  · rw [show Dir.loadPatches [(b!"all_tson_patches.json", b!"{")] = .err by rfl]
    simp
  · cases e

theorem latest_hidden {t u : Civil} (ht : t.Valid) (hu : u.Valid) (htu : t.Before u) (r₀ r : Trip) :
    latestDir (saveExperiment [(u.name, [])] t r₀ r) = some (u.name, []) := by
  have hne : t.name ≠ u.name := by
    intro e
    have := (C88_names hu ht).1 (by rw [e]; exact bytesLe_refl _)
    unfold Civil.Before at this htu
    rcases this with h | rfl <;> omega
  have hs : saveExperiment [(u.name, [])] t r₀ r = [(u.name, []), (t.name, Dir.saveRun [] r₀ r)] := by
    unfold saveExperiment
    simp [mset, mget, Ne.symm hne]
  cases hl : latestDir (saveExperiment [(u.name, [])] t r₀ r) with
  | none =>
    exact absurd ((C88_stamp _).1 hu.stamp) ((C88_taken _).1.1 hl (u.name, []) (by rw [hs]; simp))
  | some d =>
    obtain ⟨h1, -, -⟩ := (C88_taken _).2 d hl
    have h2 := C88_clock_fails (ds := [(u.name, [])]) ht hu htu (by simp [mkeys]) r₀ r
    rw [hs] at h1
    simp only [List.mem_cons, List.not_mem_nil, or_false] at h1
    rcases h1 with rfl | rfl
    · rfl
    · exact absurd hl (h2 _)

/-- **C87 fails when the clock is set back.**  If there is a directory of a later time, even an empty one, the temporal experiments do not find the drive
that was just saved: here they panic, because the empty directory has no document. -/
theorem C87_clock_fails (h : Heap) (c : TemporalDraws) {t u : Civil} (ht : t.Valid) (hu : u.Valid) (htu : t.Before u) (r₀ r : Trip) :
    temporalFiles h c (saveExperiment [(u.name, [])] t r₀ r) = .panic :=
  (C87_stops h c _).2 _ _ [] (latest_hidden ht hu htu r₀ r) rfl fun doc e => by cases e

/-- **C92 fails when the clock is set back**: the program panics before it writes anything. -/
theorem C92_clock_fails (h : Heap) (c : TemporalDraws) (k : QueryClocks) (scenario : Bytes) {t u : Civil} (ht : t.Valid) (hu : u.Valid) (htu : t.Before u)
    (r₀ r : Trip) (out : TemporalOutput) : temporalSaved h c k scenario (saveExperiment [(u.name, [])] t r₀ r) out = .panic := by
  unfold temporalSaved
  rw [latest_hidden ht hu htu r₀ r]
  rfl

example : (⟨2025, 7, 3, 9, 0, 12⟩ : Civil).Valid ∧ (⟨2025, 7, 3, 9, 0, 12⟩ : Civil).Before ⟨2025, 7, 3, 9, 0, 13⟩ :=
  ⟨⟨by decide, by decide, by decide, by decide, by decide, by decide⟩, by unfold Civil.Before; decide⟩

end Verif
