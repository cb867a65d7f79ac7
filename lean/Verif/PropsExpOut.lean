import Verif.ExpOut
import Verif.PropsExpCsv
import Verif.PropsPercent
/-
C92: the results of the temporal experiments as saved, for any results: tables and file names.
-/
namespace Verif

/-! ### Tables -/

/-- A row shows a result: the texts, the durations and sizes as numbers, and the differences in percent of what the TJSON store
needs, if it needs anything. -/
structure ShowsQuery (h w : List Bytes) (x : QueryResult) : Prop where
  scenario : cell h w b!"Scenario" = some x.scenario
  query : cell h w b!"QueryType" = some x.query
  parameter : cell h w b!"Parameter" = some x.parameter
  lgmNs : number h w b!"LogumentTimeNs" = some (x.lgmNs : Int)
  tjsonNs : number h w b!"TJSONTimeNs" = some (x.tjsonNs : Int)
  lgmSize : number h w b!"LogumentResultSize" = some (x.lgmSize : Int)
  tjsonSize : number h w b!"TJSONResultSize" = some (x.tjsonSize : Int)
  time : 0 < x.tjsonNs → x.tjsonNs < 2 ^ 53 → x.lgmNs < 2 ^ 53 →
    ∃ s, cell h w b!"TimeDiffPct" = some s ∧ ShowsPct s ((x.lgmNs : Int) - x.tjsonNs) x.tjsonNs (x.lgmNs + x.tjsonNs)
  size : 0 < x.tjsonSize → x.tjsonSize < 2 ^ 53 → x.lgmSize < 2 ^ 53 →
    ∃ s, cell h w b!"SizeDiffPct" = some s ∧ ShowsPct s ((x.lgmSize : Int) - x.tjsonSize) x.tjsonSize (x.lgmSize + x.tjsonSize)

theorem query_cells (x : QueryResult) : ShowsQuery queryHeader (queryRow x) x where
  scenario := rfl
  query := rfl
  parameter := rfl
  lgmNs := nat_reads _
  tjsonNs := nat_reads _
  lgmSize := nat_reads _
  tjsonSize := nat_reads _
  time h1 h2 h3 := by
    have e : cell queryHeader (queryRow x) b!"TimeDiffPct" = some (fmtFixed 2 (diffPct x.lgmNs x.tjsonNs)) := rfl
    exact ⟨_, e, C91_diff h3 h1 h2⟩
  size h1 h2 h3 := by
    have e : cell queryHeader (queryRow x) b!"SizeDiffPct" = some (fmtFixed 2 (diffPct x.lgmSize x.tjsonSize)) := rfl
    exact ⟨_, e, C91_diff h3 h1 h2⟩

/-- **C92, tables.**  A table saved by `SaveResults` is read back as a header and one row for each result, which shows it. -/
theorem C92_table (rs : List QueryResult) :
    ∃ h rows, readTable (saveResults rs) = some (h :: rows) ∧ h.length = 9 ∧ rows.length = rs.length ∧
      ∀ (i : Nat) (x : QueryResult), rs[i]? = some x → ∃ w, rows[i]? = some w ∧ w.length = 9 ∧ ShowsQuery h w x := by
  refine ⟨queryHeader, rs.map queryRow, C89_table fun fs hfs => ?_, rfl, by simp, fun i x hx => ⟨queryRow x, by simp [hx], rfl, query_cells x⟩⟩
  rcases List.mem_cons.1 hfs with rfl | h
  · simp [queryHeader]
  · obtain ⟨x, -, rfl⟩ := List.mem_map.1 h
    simp [queryRow]

example : ∃ x : QueryResult, x.lgmNs = 150 ∧ 0 < x.tjsonNs ∧ x.tjsonNs < 2 ^ 53 ∧ x.lgmNs < 2 ^ 53 ∧
    saveResults [x] = b!"Scenario,QueryType,Parameter,LogumentTimeNs,TJSONTimeNs,TimeDiffPct,LogumentResultSize,TJSONResultSize,SizeDiffPct\n" ++
      b!"urban_traffic,TemporalSnapshot,500,150,100,50.00,7,0,0.00\n" :=
  ⟨⟨b!"urban_traffic", b!"TemporalSnapshot", b!"500", 150, 100, 7, 0⟩, rfl, by decide, by decide, by decide, by decide +kernel⟩

/-! ### File names -/

theorem natDigits_no {c : UInt8} (hc : isDigit c = false) (n : Nat) : c ∉ natDigits n := fun h => by
  have := List.all_eq_true.1 (natDigits_isDigit n) c h
  rw [hc] at this
  cases this

/-- A number before an underscore can be read. -/
theorem tag_inj {i j : Nat} {a b : Bytes} (h : natDigits i ++ 95 :: a = natDigits j ++ 95 :: b) : i = j := by
  have hs : split 95 (natDigits i ++ 95 :: a) = natDigits i :: split 95 a := split_append_sep 95 _ _ (natDigits_no (by decide) i)
  have hs' : split 95 (natDigits j ++ 95 :: b) = natDigits j :: split 95 b := split_append_sep 95 _ _ (natDigits_no (by decide) j)
  rw [h, hs'] at hs
  have := (List.cons.inj hs).1
  have h1 := C89_int i
  have h2 := C89_int j
  rw [show itoa (i : Int) = natDigits i by simp [itoa], ← this] at h1
  rw [show itoa (j : Int) = natDigits j by simp [itoa]] at h2
  rw [h2] at h1
  have := Option.some.inj h1
  omega

/-- The names of a list made from numbered entries are distinct. -/
theorem numbered_nodup {α β : Type} (l : List α) (f : Nat → α → β) (h : ∀ i j x y, f i x = f j y → i = j) : (l.mapIdx f).Nodup := by
  rw [List.Nodup, List.pairwise_iff_getElem]
  intro i j hi hj hij e
  rw [List.getElem_mapIdx, List.getElem_mapIdx] at e
  have := h _ _ _ _ e
  omega

theorem map_numbered {α β γ : Type} (l : List α) (f : Nat → α → β) (g : β → γ) : (l.mapIdx f).map g = l.mapIdx fun i x => g (f i x) := by
  apply List.ext_getElem?
  intro i
  rw [List.getElem?_map, List.getElem?_mapIdx, List.getElem?_mapIdx]
  cases l[i]? <;> rfl

/-- All queries of the three experiments. -/
def allQueries (span : Int × Int) (res : TemporalResults) : List SavedQuery :=
  snapshotQueries res.snapshots ++
  ((match res.tracks with | some T => trackQueries span.1 span.2 (trackPaths.zip T) | none => []) ++
   (match res.events with
    | some E => eventQueries b!"Vehicle.Speed" res.window.1 res.window.2 (eventThresholds.zip E) | none => []))

/-- The names are made of a word, a number and a rest. -/
def NamedBy (w : Bytes) (n : Bytes) : Prop := ∃ (i : Nat) (r : Bytes), n = w ++ (natDigits i ++ 95 :: r)

theorem jsonName_eq (w : Bytes) (i : Nat) (r : Bytes) : jsonName w (natDigits i ++ 95 :: r) = w ++ (natDigits i ++ 95 :: (r ++ b!".json")) := by
  simp [jsonName]

theorem jsonName_inj {w : Bytes} {i j : Nat} {r r' : Bytes} (h : jsonName w (natDigits i ++ 95 :: r) = jsonName w (natDigits j ++ 95 :: r')) :
    i = j := by
  rw [jsonName_eq, jsonName_eq] at h
  exact tag_inj (List.append_cancel_left h)

/-- The names of the queries of an experiment. -/
structure Names (w w' : Bytes) (qs : List SavedQuery) : Prop where
  lgm : (qs.map SavedQuery.lgmName).Nodup ∧ ∀ q ∈ qs, NamedBy w q.lgmName
  tjson : (qs.map SavedQuery.tjsonName).Nodup ∧ ∀ q ∈ qs, NamedBy w' q.tjsonName

theorem snapshot_names (S : List (Int × Res (Option Tson) × Js)) : Names b!"snapshot_logument_" b!"snapshot_tjson_" (snapshotQueries S) := by
  unfold snapshotQueries
  refine ⟨⟨?_, fun q hq => ?_⟩, ⟨?_, fun q hq => ?_⟩⟩
  · rw [map_numbered]; exact numbered_nodup _ _ fun i j x y h => jsonName_inj h
  · obtain ⟨i, hi, rfl⟩ := List.mem_mapIdx.1 hq
    exact ⟨i, _, jsonName_eq _ _ _⟩
  · rw [map_numbered]; exact numbered_nodup _ _ fun i j x y h => jsonName_inj h
  · obtain ⟨i, hi, rfl⟩ := List.mem_mapIdx.1 hq
    exact ⟨i, _, jsonName_eq _ _ _⟩

theorem track_names (a b : Int) (T : List (Bytes × List (Nat × List Op) × List TVersion)) :
    Names b!"track_logument_" b!"track_tjson_" (trackQueries a b T) := by
  unfold trackQueries
  refine ⟨⟨?_, fun q hq => ?_⟩, ⟨?_, fun q hq => ?_⟩⟩
  · rw [map_numbered]; exact numbered_nodup _ _ fun i j x y h => jsonName_inj h
  · obtain ⟨i, hi, rfl⟩ := List.mem_mapIdx.1 hq
    exact ⟨i, _, jsonName_eq _ _ _⟩
  · rw [map_numbered]; exact numbered_nodup _ _ fun i j x y h => jsonName_inj h
  · obtain ⟨i, hi, rfl⟩ := List.mem_mapIdx.1 hq
    exact ⟨i, _, jsonName_eq _ _ _⟩

theorem event_names (path : Bytes) (a b : Int) (E : List (F64 × List Int × List Int)) :
    Names b!"event_logument_" b!"event_tjson_" (eventQueries path a b E) := by
  unfold eventQueries
  refine ⟨⟨?_, fun q hq => ?_⟩, ⟨?_, fun q hq => ?_⟩⟩
  · rw [map_numbered]; exact numbered_nodup _ _ fun i j x y h => jsonName_inj h
  · obtain ⟨i, hi, rfl⟩ := List.mem_mapIdx.1 hq
    exact ⟨i, _, jsonName_eq _ _ _⟩
  · rw [map_numbered]; exact numbered_nodup _ _ fun i j x y h => jsonName_inj h
  · obtain ⟨i, hi, rfl⟩ := List.mem_mapIdx.1 hq
    exact ⟨i, _, jsonName_eq _ _ _⟩

theorem names_nil (w w' : Bytes) : Names w w' [] := ⟨⟨by simp, by simp⟩, ⟨by simp, by simp⟩⟩

theorem namedBy_ne {c c' : UInt8} {w w' n : Bytes} (h : NamedBy (c :: w) n) (h' : NamedBy (c' :: w') n) (hc : c ≠ c') : False := by
  obtain ⟨i, r, rfl⟩ := h
  obtain ⟨j, r', e⟩ := h'
  exact hc (List.cons.inj e).1

/-- **C92, file names.**  No two queries of the experiments have a file of the same name, whatever the results are. -/
theorem C92_names (span : Int × Int) (res : TemporalResults) :
    ((allQueries span res).map SavedQuery.lgmName).Nodup ∧ ((allQueries span res).map SavedQuery.tjsonName).Nodup := by
  have h1 := snapshot_names res.snapshots
  obtain ⟨Q2, hQ2⟩ : ∃ Q, Q = (match res.tracks with | some T => trackQueries span.1 span.2 (trackPaths.zip T) | none => []) := ⟨_, rfl⟩
  obtain ⟨Q3, hQ3⟩ : ∃ Q, Q = (match res.events with
    | some E => eventQueries b!"Vehicle.Speed" res.window.1 res.window.2 (eventThresholds.zip E) | none => []) := ⟨_, rfl⟩
  have h2 : Names b!"track_logument_" b!"track_tjson_" Q2 := by
    rw [hQ2]; split
    · exact track_names _ _ _
    · exact names_nil _ _
  have h3 : Names b!"event_logument_" b!"event_tjson_" Q3 := by
    rw [hQ3]; split
    · exact event_names _ _ _ _
    · exact names_nil _ _
  rw [allQueries, ← hQ2, ← hQ3]
  simp only [List.map_append]
  constructor
  · rw [List.nodup_append, List.nodup_append]
    refine ⟨h1.lgm.1, ⟨h2.lgm.1, h3.lgm.1, ?_⟩, ?_⟩
    · intro a ha b hb e
      subst e
      obtain ⟨q, hq, rfl⟩ := List.mem_map.1 ha
      obtain ⟨q', hq', e⟩ := List.mem_map.1 hb
      exact namedBy_ne (h2.lgm.2 q hq) (e ▸ h3.lgm.2 q' hq') (by decide)
    · intro a ha b hb e
      subst e
      obtain ⟨q, hq, rfl⟩ := List.mem_map.1 ha
      rcases List.mem_append.1 hb with hb | hb
      · obtain ⟨q', hq', e⟩ := List.mem_map.1 hb
        exact namedBy_ne (h1.lgm.2 q hq) (e ▸ h2.lgm.2 q' hq') (by decide)
      · obtain ⟨q', hq', e⟩ := List.mem_map.1 hb
        exact namedBy_ne (h1.lgm.2 q hq) (e ▸ h3.lgm.2 q' hq') (by decide)
  · rw [List.nodup_append, List.nodup_append]
    refine ⟨h1.tjson.1, ⟨h2.tjson.1, h3.tjson.1, ?_⟩, ?_⟩
    · intro a ha b hb e
      subst e
      obtain ⟨q, hq, rfl⟩ := List.mem_map.1 ha
      obtain ⟨q', hq', e⟩ := List.mem_map.1 hb
      exact namedBy_ne (h2.tjson.2 q hq) (e ▸ h3.tjson.2 q' hq') (by decide)
    · intro a ha b hb e
      subst e
      obtain ⟨q, hq, rfl⟩ := List.mem_map.1 ha
      rcases List.mem_append.1 hb with hb | hb
      · obtain ⟨q', hq', e⟩ := List.mem_map.1 hb
        exact namedBy_ne (h1.tjson.2 q hq) (e ▸ h2.tjson.2 q' hq') (by decide)
      · obtain ⟨q', hq', e⟩ := List.mem_map.1 hb
        exact namedBy_ne (h1.tjson.2 q hq) (e ▸ h3.tjson.2 q' hq') (by decide)

/-! ### The files -/

theorem mget_saves : ∀ (l : List (Bytes × Res Bytes)) (dir : Dir), (l.map Prod.fst).Nodup →
    (∀ n s, (n, .ok s) ∈ l → mget (l.foldl (fun (d : Dir) x => d.save x.1 x.2) dir) n = some (appendIndent 2 .out 0 false s)) ∧
    (∀ n, n ∉ l.map Prod.fst → mget (l.foldl (fun (d : Dir) x => d.save x.1 x.2) dir) n = mget dir n)
  | [], dir, _ => ⟨by simp, by simp⟩
  | (a, b) :: l, dir, h => by
    rw [List.map_cons, List.nodup_cons] at h
    obtain ⟨h1, h2⟩ := mget_saves l (dir.save a b) h.2
    refine ⟨fun n s hs => ?_, fun n hn => ?_⟩
    · rw [List.foldl_cons]
      rcases List.mem_cons.1 hs with e | hs
      · cases e
        rw [h2 _ h.1, mget_save, if_pos rfl]
        rfl
      · exact h1 n s hs
    · rw [List.map_cons, List.mem_cons, not_or] at hn
      rw [List.foldl_cons, h2 n hn.2, mget_save, if_neg hn.1]

theorem fold_query (qs : List SavedQuery) : ∀ out : TemporalOutput,
    qs.foldl TemporalOutput.query out =
      ⟨(qs.map fun q => (q.lgmName, q.lgm)).foldl (fun (d : Dir) x => d.save x.1 x.2) out.lgm,
       (qs.map fun q => (q.tjsonName, q.tjson)).foldl (fun (d : Dir) x => d.save x.1 x.2) out.tjson, out.tables⟩ := by
  induction qs with
  | nil => intro out; rfl
  | cons q qs ih => intro out; rw [List.foldl_cons, ih]; rfl

theorem results_dirs (out : TemporalOutput) (k : QueryClocks) (sc : Bytes) (span : Int × Int) (res : TemporalResults) :
    (out.results k sc span res).lgm =
      ((allQueries span res).map fun q => (q.lgmName, q.lgm)).foldl (fun (d : Dir) x => d.save x.1 x.2) out.lgm ∧
    (out.results k sc span res).tjson =
      ((allQueries span res).map fun q => (q.tjsonName, q.tjson)).foldl (fun (d : Dir) x => d.save x.1 x.2) out.tjson := by
  unfold TemporalOutput.results allQueries TemporalOutput.experiment
  cases res.tracks <;> cases res.events <;> simp only [fold_query, List.map_append, List.foldl_append, List.map_nil, List.foldl_nil, and_self]

theorem results_tables (out : TemporalOutput) (k : QueryClocks) (sc : Bytes) (span : Int × Int) (res : TemporalResults) :
    mget (out.results k sc span res).tables b!"snapshot_results.csv" =
      some (saveResults ((snapshotQueries res.snapshots).mapIdx (SavedQuery.result k.snapshot sc))) ∧
    (∀ T, res.tracks = some T → mget (out.results k sc span res).tables b!"track_results.csv" =
      some (saveResults ((trackQueries span.1 span.2 (trackPaths.zip T)).mapIdx (SavedQuery.result k.track sc)))) ∧
    (∀ E, res.events = some E → mget (out.results k sc span res).tables b!"event_search_results.csv" =
      some (saveResults ((eventQueries b!"Vehicle.Speed" res.window.1 res.window.2 (eventThresholds.zip E)).mapIdx
        (SavedQuery.result k.event sc)))) ∧
    ∀ n, n ≠ b!"snapshot_results.csv" → n ≠ b!"track_results.csv" → n ≠ b!"event_search_results.csv" →
      mget (out.results k sc span res).tables n = mget out.tables n := by
  have h12 : b!"snapshot_results.csv" ≠ b!"track_results.csv" := by decide
  have h13 : b!"snapshot_results.csv" ≠ b!"event_search_results.csv" := by decide
  have h23 : b!"track_results.csv" ≠ b!"event_search_results.csv" := by decide
  unfold TemporalOutput.results TemporalOutput.experiment
  simp only [fold_query]
  refine ⟨?_, ?_, ?_, ?_⟩
  · cases res.tracks <;> cases res.events <;> simp only [mget_mset_ne _ _ h12, mget_mset_ne _ _ h13, mget_mset_self]
  · intro T hT
    rw [hT]
    cases res.events <;> simp only [mget_mset_ne _ _ h23, mget_mset_self]
  · intro E hE
    rw [hE]
    simp only [mget_mset_self]
  · intro n h1 h2 h3
    cases res.tracks <;> cases res.events <;> simp only [mget_mset_ne _ _ h1, mget_mset_ne _ _ h2, mget_mset_ne _ _ h3]

/-- **C92, files.**  Every result whose text can be made is found in its file, indented, and no other file is changed. -/
theorem C92_files (out : TemporalOutput) (k : QueryClocks) (sc : Bytes) (span : Int × Int) (res : TemporalResults) :
    (∀ q ∈ allQueries span res, ∀ s, q.lgm = .ok s →
      mget (out.results k sc span res).lgm q.lgmName = some (appendIndent 2 .out 0 false s)) ∧
    (∀ q ∈ allQueries span res, ∀ s, q.tjson = .ok s →
      mget (out.results k sc span res).tjson q.tjsonName = some (appendIndent 2 .out 0 false s)) ∧
    (∀ n, n ∉ (allQueries span res).map SavedQuery.lgmName → mget (out.results k sc span res).lgm n = mget out.lgm n) ∧
    (∀ n, n ∉ (allQueries span res).map SavedQuery.tjsonName → mget (out.results k sc span res).tjson n = mget out.tjson n) := by
  obtain ⟨e1, e2⟩ := results_dirs out k sc span res
  obtain ⟨n1, n2⟩ := C92_names span res
  obtain ⟨a1, a2⟩ := mget_saves ((allQueries span res).map fun q => (q.lgmName, q.lgm)) out.lgm (by rw [List.map_map]; exact n1)
  obtain ⟨b1, b2⟩ := mget_saves ((allQueries span res).map fun q => (q.tjsonName, q.tjson)) out.tjson (by rw [List.map_map]; exact n2)
  rw [e1, e2]
  refine ⟨fun q hq s hs => a1 _ _ (List.mem_map.2 ⟨q, hq, by rw [hs]⟩), fun q hq s hs => b1 _ _ (List.mem_map.2 ⟨q, hq, by rw [hs]⟩),
    fun n hn => a2 n (by rw [List.map_map]; exact hn), fun n hn => b2 n (by rw [List.map_map]; exact hn)⟩

/-- Two snapshots and a search without results: four queries with the files they have. -/
example : (allQueries (0, 9) ⟨[(0, .ok none, .null), (9, .ok (some (.leaf (.bool true) 9)), .bool true)], none, (2, 5),
      some [([3], []), ([], [])]⟩).map (fun q => (q.lgmName, q.lgm)) =
    [(b!"snapshot_logument_0_0.json", .err), (b!"snapshot_logument_1_9.json", .ok b!"{\"value\":true,\"timestamp\":9}"),
      (b!"event_logument_0_Vehicle_Speed_10.0_2_5.json", .ok b!"[3]"), (b!"event_logument_1_Vehicle_Speed_30.0_2_5.json", .ok b!"[]")] := by
  decide +kernel

end Verif
