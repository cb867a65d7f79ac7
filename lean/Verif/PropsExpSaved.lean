import Verif.PropsExpBack
import Verif.PropsExpOut
/-
C92: the results of the temporal experiments on a simulated drive, as found in the files and tables.
-/
namespace Verif

/-! ### The parts of a run -/

theorem run_inv {h : Heap} {c : TemporalDraws} {doc : List (Bytes × Js)} {rs : List TPatch} {res : TemporalResults}
    (hr : temporalRun h c doc rs = .ok res) :
    ∃ s ts, createLogument h doc rs = .ok s ∧ sampleTimes c.unix rs 61 = .ok ts ∧
      res.snapshots = (ts.zip (s.queries (ts.mapIdx fun i t => (c.snap i, t))).2).map (fun x =>
        (x.1, x.2, tSnapshot (fromPatches c.store c.now (c.sort (createInitialPatches doc ++ rs))) x.1)) ∧
      (∀ T, res.tracks = some T → trackRun (s.queries (ts.mapIdx fun i t => (c.snap i, t))).1.lgm
        (fromPatches c.store c.now (c.sort (createInitialPatches doc ++ rs))) (timeRange c.unix rs).1 (timeRange c.unix rs).2
        (trackPaths.mapIdx fun i p => (c.track i, p)) = .ok T) ∧
      (∀ E, res.events = some E → eventRun (s.queries (ts.mapIdx fun i t => (c.snap i, t))).1.lgm
        (fromPatches c.store c.now (c.sort (createInitialPatches doc ++ rs))) res.window.1 res.window.2
        (eventThresholds.mapIdx fun i x => ⟨c.order, c.event i, b!"Vehicle.Speed", x⟩) = .ok E) := by
  unfold temporalRun at hr
  cases hs : createLogument h doc rs with
  | err => rw [hs] at hr; cases hr
  | panic => rw [hs] at hr; cases hr
  | ok s =>
    rw [hs, Res.bind] at hr
    cases ht : sampleTimes c.unix rs 61 with
    | err => rw [ht] at hr; cases hr
    | panic => rw [ht] at hr; cases hr
    | ok ts =>
      rw [ht, Res.bind] at hr
      dsimp only at hr
      refine ⟨s, ts, rfl, rfl, ?_⟩
      split at hr
      · cases hr
      · split at hr
        · cases hr
        · split at hr
          · cases hr
          · split at hr
            · cases hr
            · have hr := Res.ok.inj hr
              subst hr
              refine ⟨rfl, fun T hT => ?_, fun E hE => ?_⟩
              · dsimp only at hT
                split at hT
                · rename_i e
                  cases hT
                  exact e
                · cases hT
              · dsimp only at hE
                split at hE
                · rename_i e
                  cases hE
                  exact e
                · cases hE

theorem trackRun_shape {g : Lgm} {d : TDoc} {a b : Int} {l : List Op} (hg : g.patches = [(1, l)]) :
    ∀ {ps : List (TOracle × Bytes)} {T : List (List (Nat × List Op) × List TVersion)}, trackRun g d a b ps = .ok T →
    ∀ x ∈ T, (x.1 = [] ∨ ∃ l', l' ≠ [] ∧ x.1 = [(1, l')]) ∧ ∃ o p, tTrack o d p a b = .ok x.2
  | [], T, h, x, hx => by
    cases h
    cases hx
  | (o, p) :: ps, T, h, x, hx => by
    rw [trackRun] at h
    cases ht : g.temporalTrack a b with
    | mk g' r =>
      rw [ht] at h
      cases r with
      | err => cases h
      | panic => cases h
      | ok tr =>
        dsimp only at h
        have htr : g' = g ∧ (tr = [] ∨ ∃ l', tr = [(1, l')]) := by
          unfold Lgm.temporalTrack at ht
          split at ht
          · cases ht
          · have hk : sortedKeys g.patches = [1] := by rw [hg]; rfl
            rw [hk, trackVersions] at ht
            cases hc : compactOps (selWindow a b) [] (g.patchOf 1) with
            | none => rw [hc] at ht; cases ht
            | some y =>
              rw [hc] at ht
              dsimp only [trackVersions, Option.map] at ht
              cases ht
              refine ⟨rfl, ?_⟩
              split
              · exact .inl rfl
              · exact .inr ⟨_, rfl⟩
        obtain ⟨rfl, htr⟩ := htr
        cases hB : tTrack o d p a b with
        | err => rw [hB] at h; cases h
        | panic => rw [hB] at h; cases h
        | ok B =>
          rw [hB] at h
          dsimp only at h
          cases hR : trackRun g' d a b ps with
          | err => rw [hR] at h; cases h
          | panic => rw [hR] at h; cases h
          | ok R =>
            rw [hR] at h
            have h := Res.ok.inj h
            subst h
            rcases List.mem_cons.1 hx with rfl | hx
            · refine ⟨?_, o, p, hB⟩
              rcases htr with rfl | ⟨l', rfl⟩
              · exact .inl rfl
              · dsimp only [filterTrack, List.filterMap_cons, List.filterMap_nil]
                by_cases hl : l'.filter (fun q => decide (q.path = p)) = []
                · rw [if_pos hl]; exact .inl rfl
                · rw [if_neg hl]; exact .inr ⟨_, hl, rfl⟩
            · exact trackRun_shape hg hR x hx

theorem parseIntLossy_bounds (s : Bytes) : (parseIntLossy s).natAbs < 2 ^ 64 := by
  unfold parseIntLossy
  have h1 : maxInt64 = 9223372036854775807 := rfl
  have h2 : minInt64 = -9223372036854775808 := rfl
  split
  · omega
  · split
    · omega
    · split <;> omega

theorem parsePeriod_bounds (s : Bytes) : (parsePeriod s).1.natAbs < 2 ^ 64 := by
  unfold parsePeriod
  split
  · exact parseIntLossy_bounds _
  · decide

theorem eventRun_shape {d : TDoc} {a b : Int} : ∀ {qs : List EventQuery} {g : Lgm} {E : List (List Int × List Int)},
    eventRun g d a b qs = .ok E → ∀ x ∈ E, ∀ t ∈ x.2, t.natAbs < 2 ^ 64
  | [], g, E, h, x, hx => by
    cases h
    cases hx
  | q :: qs, g, E, h, x, hx => by
    rw [eventRun] at h
    cases hf : findEvents q.order g q.path a b q.threshold with
    | mk g' r =>
      rw [hf] at h
      cases r with
      | err => cases h
      | panic => cases h
      | ok ev =>
        dsimp only at h
        cases hB : tFindEvents q.o d q.path a b (exceeds q.threshold) with
        | err => rw [hB] at h; cases h
        | panic => rw [hB] at h; cases h
        | ok B =>
          rw [hB] at h
          dsimp only at h
          cases hR : eventRun g' d a b qs with
          | err => rw [hR] at h; cases h
          | panic => rw [hR] at h; cases h
          | ok R =>
            rw [hR] at h
            have h := Res.ok.inj h
            subst h
            rcases List.mem_cons.1 hx with rfl | hx
            · intro t ht
              unfold tFindEvents at hB
              cases hT : tTrack q.o d q.path a b with
              | err => rw [hT] at hB; cases hB
              | panic => rw [hT] at hB; cases hB
              | ok V =>
                rw [hT] at hB
                have hB := Res.ok.inj hB
                subst hB
                obtain ⟨v, -, rfl⟩ := List.mem_map.1 ht
                exact parsePeriod_bounds _
            · exact eventRun_shape hR x hx

/-! ### What is saved -/

/-- The table has `n` rows, and row `i` shows the result. -/
def TableRow (tables : Dir) (name : Bytes) (n i : Nat) (x : QueryResult) : Prop :=
  ∃ f h rows w, mget tables name = some f ∧ readTable f = some (h :: rows) ∧ rows.length = n ∧ rows[i]? = some w ∧ ShowsQuery h w x

theorem tableRow_of {tables : Dir} {name : Bytes} {rs : List QueryResult} (h : mget tables name = some (saveResults rs)) {i : Nat}
    {x : QueryResult} (hx : rs[i]? = some x) : TableRow tables name rs.length i x := by
  obtain ⟨hd, rows, h1, -, h3, h4⟩ := C92_table rs
  obtain ⟨w, w1, -, w3⟩ := h4 i x hx
  exact ⟨_, hd, rows, w, h, h1, h3, w1, w3⟩

/-- What is found in the output after the temporal experiments on a drive whose last recorded patch is at `hi`.  For every snapshot,
track and search there are a file of the logument and a file of the TJSON store, which are read back as the results, and a row of the
table with the durations shown by the clock and the sizes of the compact texts. -/
structure SavedResults (Q : Prop) (scenario : Bytes) (k : QueryClocks) (r : Trip) (hi : Int) (res : TemporalResults)
    (T : List (List (Nat × List Op) × List TVersion)) (E : List (List Int × List Int)) (out : TemporalOutput) : Prop where
  snapshots : ∀ (i : Nat) (t : Int) (u : Tson) (j : Js), res.snapshots[i]? = some (t, .ok (some u), j) → ∃ f f' u' j' b b',
    mget out.lgm (b!"snapshot_logument_" ++ natDigits i ++ b!"_" ++ itoa t ++ b!".json") = some f ∧ fromCompatibleText f = .ok u' ∧ SameDoc u u' ∧
    mget out.tjson (b!"snapshot_tjson_" ++ natDigits i ++ b!"_" ++ itoa t ++ b!".json") = some f' ∧ unmarshalText f' = .ok j' ∧ SameJson j j' ∧
    toCompatibleText u = .ok b ∧ marshalAny j = .ok b' ∧
    TableRow out.tables b!"snapshot_results.csv" 61 i
      ⟨scenario, b!"TemporalSnapshot", itoa t, (k.snapshot i).1, (k.snapshot i).2, b.length, b'.length⟩
  tracks : ∀ (i : Nat) (p tag : Bytes) (A : List (Nat × List Op)) (B : List TVersion),
    [(b!"Vehicle.Speed", b!"Vehicle_Speed"), (b!"Vehicle.CurrentLocation.Latitude", b!"Vehicle_CurrentLocation_Latitude"),
      (b!"Vehicle.CurrentLocation.Longitude", b!"Vehicle_CurrentLocation_Longitude"),
      (b!"Vehicle.Powertrain.TractionBattery.StateOfCharge.Current",
        b!"Vehicle_Powertrain_TractionBattery_StateOfCharge_Current")][i]? = some (p, tag) →
    T[i]? = some (A, B) → ∃ f f' j l b b',
      mget out.lgm (b!"track_logument_" ++ natDigits i ++ b!"_" ++ tag ++ b!"_0_" ++ itoa hi ++ b!".json") = some f ∧ unmarshalText f = .ok j ∧
      IsTrack j (changesFrom none (patchesOn r.sim.tsonPatches p)) ∧ (Q → IsTrack j (patchesOn r.sim.tsonPatches p)) ∧
      mget out.tjson (b!"track_tjson_" ++ natDigits i ++ b!"_" ++ tag ++ b!"_0_" ++ itoa hi ++ b!".json") = some f' ∧
      unmarshalText f' = .ok (.arr l) ∧ l.length = B.length ∧
      (∀ (n : Nat) (v : TVersion), B[n]? = some v → ∃ y, l[n]? = some y ∧ IsVersion y v) ∧
      trackText A = .ok b ∧ versionsText B = .ok b' ∧
      TableRow out.tables b!"track_results.csv" 4 i
        ⟨scenario, b!"TemporalTrack", p ++ b!" (0-" ++ itoa hi ++ b!")", (k.track i).1, (k.track i).2, b.length, b'.length⟩
  events : ∀ (i : Nat) (x : F64) (s : Bytes) (F G : List Int),
    [(dec 10 1, b!"10.0"), (dec 30 1, b!"30.0"), (dec 50 1, b!"50.0")][i]? = some (x, s) → E[i]? = some (F, G) → ∃ f f' b b',
      mget out.lgm (b!"event_logument_" ++ natDigits i ++ b!"_Vehicle_Speed_" ++ s ++ b!"_" ++ itoa res.window.1 ++ b!"_" ++ itoa res.window.2 ++
        b!".json") = some f ∧ unmarshalText f = .ok (.arr (F.map fun t => .num (.ofInt t))) ∧
      mget out.tjson (b!"event_tjson_" ++ natDigits i ++ b!"_Vehicle_Speed_" ++ s ++ b!"_" ++ itoa res.window.1 ++ b!"_" ++ itoa res.window.2 ++
        b!".json") = some f' ∧ unmarshalText f' = .ok (.arr (G.map fun t => .num (.ofInt t))) ∧
      timesText F = .ok b ∧ timesText G = .ok b' ∧
      TableRow out.tables b!"event_search_results.csv" 3 i
        ⟨scenario, b!"EventSearch", b!"Vehicle.Speed > " ++ s ++ b!" (" ++ itoa res.window.1 ++ b!"-" ++ itoa res.window.2 ++ b!")",
          (k.event i).1, (k.event i).2, b.length, b'.length⟩

theorem textSize_ok {b : Bytes} {t : Res Bytes} (h : t = .ok b) : textSize t = b.length := by rw [h]; rfl

/-- The results are saved, if they can be written. -/
theorem saved_results {Q : Prop} (scenario : Bytes) (k : QueryClocks) {h : Heap} {c : TemporalDraws} (hc : c.Good) {r₀ r : Trip} {doc m : List (Bytes × Js)}
    (H : Ready Q r₀ r doc m) {hi : Int} (hhi : hi < 2 ^ 53) {res : TemporalResults} {T : List (List (Nat × List Op) × List TVersion)}
    {E : List (List Int × List Int)} (hr : temporalRun h c doc r.sim.tsonPatches = .ok res) (D : DriveResult Q r₀ r hi res T E)
    (hne : r₀.vehicle ≠ []) (hpl : KeptReadings r.sim.tsonPatches) (hsp : ∀ p ∈ r.sim.tsonPatches, SensorPatch p) (out : TemporalOutput) :
    SavedResults Q scenario k r hi res T E (out.results k scenario (0, hi) res) := by
  have hhi0 := D.last.1
  obtain ⟨s, ts, i1, i2, i3, i4, i5⟩ := run_inv hr
  obtain ⟨ts', t1, t2, -, -, t5, -⟩ := C84_times_partial D.last.2 (by decide) (by unfold maxInt64; omega) (by omega) c.unix (count := 61)
    (by decide) (by decide)
  obtain rfl : ts = ts' := by
    have t1' : sampleTimes c.unix r.sim.tsonPatches 61 = .ok ts' := t1
    rw [i2] at t1'
    exact Res.ok.inj t1'
  have hq : (ts.mapIdx fun i t => (c.snap i, t)).Pairwise (fun a b => a.2 ≤ b.2) := by
    rw [List.pairwise_iff_getElem] at t5 ⊢
    intro i j hi hj hij
    rw [List.length_mapIdx] at hi hj
    simp only [List.getElem_mapIdx]
    exact t5 i j hi hj hij
  have hqne : (ts.mapIdx fun i t => (c.snap i, t)) ≠ [] := by
    intro k
    have := congrArg List.length k
    rw [List.length_mapIdx, t2] at this
    cases this
  have hps : (c.sort (createInitialPatches doc ++ r.sim.tsonPatches)).Perm (initialPatches [] (.obj m) ++ r.sim.tsonPatches) := by
    have := hc.sort (createInitialPatches doc ++ r.sim.tsonPatches)
    unfold createInitialPatches at this ⊢
    rw [H.plain] at this ⊢
    exact this
  have hdoc := snapshots_kept h H.plain H.keys H.values H.depth H.readings hpl hq i1
  have hst := store_kept c.store c.now H.keys H.values H.readings hpl hps
  have hn := H.shallow
  obtain ⟨hf1, hf2, -⟩ := C92_files out k scenario (0, hi) res
  obtain ⟨hb1, hb2, hb3, -⟩ := results_tables out k scenario (0, hi) res
  have hb2 := hb2 T D.found.1
  have hb3 := hb3 E D.found.2
  have hall : allQueries (0, hi) res = snapshotQueries res.snapshots ++ (trackQueries 0 hi (trackPaths.zip T) ++
      eventQueries b!"Vehicle.Speed" res.window.1 res.window.2 (eventThresholds.zip E)) := by
    rw [allQueries, D.found.1, D.found.2]
  rw [hall] at hf1 hf2
  refine ⟨?_, ?_, ?_⟩
  · intro i t u j hx
    have hm := List.mem_of_getElem? hx
    obtain ⟨-, -, u2, hu2, hreach⟩ := D.snapshots.2.2.2 _ hm
    cases hu2
    have hin : .ok (some u) ∈ (s.queries (ts.mapIdx fun i t => (c.snap i, t))).2 ∧
        j = tSnapshot (fromPatches c.store c.now (c.sort (createInitialPatches doc ++ r.sim.tsonPatches))) t := by
      rw [i3] at hm
      obtain ⟨⟨y1, y2⟩, hy, e⟩ := List.mem_map.1 hm
      cases e
      exact ⟨(List.of_mem_zip hy).2, rfl⟩
    have hu : KeptDoc ((Js.obj m).depth + 1) u := by
      rcases hdoc u hin.1 with rfl | hu
      · cases hv : r₀.vehicle with
        | nil => exact absurd hv hne
        | cons v vs =>
          obtain ⟨⟨p, ts', hR, -⟩, -⟩ := hreach v (by rw [hv]; simp)
          generalize split bDot v.path = ks at hR
          cases hR
      · exact hu
    obtain ⟨b, u', g1, g2, g3, -⟩ := doc_back (by omega) hu
    obtain ⟨hp1, hp2⟩ := tSnapshot_kept (by omega) hst t
    rw [← hin.2] at hp1 hp2
    obtain ⟨b', g4, g5, g6⟩ := value_back (plain_textJson hp1) (by omega)
    have hq : (snapshotQueries res.snapshots)[i]? = some ⟨b!"TemporalSnapshot", itoa t, jsonName b!"snapshot_logument_" (natDigits i ++ 95 :: itoa t),
        jsonName b!"snapshot_tjson_" (natDigits i ++ 95 :: itoa t), toCompatibleText u, marshalAny j⟩ := by
      rw [snapshotQueries, List.getElem?_mapIdx, hx]; rfl
    have hqm := List.mem_append_left (trackQueries 0 hi (trackPaths.zip T) ++
      eventQueries b!"Vehicle.Speed" res.window.1 res.window.2 (eventThresholds.zip E)) (List.mem_of_getElem? hq)
    have w1 := hf1 _ hqm b g1
    have w2 := hf2 _ hqm b' g4
    refine ⟨_, _, u', ordAny j, b, b', ?_, g2, g3, ?_, g5, g6, g1, g4, ?_⟩
    · rw [← w1]; simp [jsonName]
    · rw [← w2]; simp [jsonName]
    · have := tableRow_of hb1 (i := i) (by rw [List.getElem?_mapIdx, hq]; rfl)
      rw [List.length_mapIdx, snapshotQueries, List.length_mapIdx, D.snapshots.1] at this
      simp only [SavedQuery.result, textSize_ok g1, textSize_ok g4] at this
      exact this
  · intro i p tag A B hp hAB
    have hp' : trackPaths[i]? = some p ∧ fileTag p = tag := by
      have hl : [(b!"Vehicle.Speed", b!"Vehicle_Speed"), (b!"Vehicle.CurrentLocation.Latitude", b!"Vehicle_CurrentLocation_Latitude"),
        (b!"Vehicle.CurrentLocation.Longitude", b!"Vehicle_CurrentLocation_Longitude"),
        (b!"Vehicle.Powertrain.TractionBattery.StateOfCharge.Current",
          b!"Vehicle_Powertrain_TractionBattery_StateOfCharge_Current")] = trackPaths.map fun q => (q, fileTag q) := by decide +kernel
      rw [hl, List.getElem?_map, Option.map_eq_some_iff] at hp
      obtain ⟨q, h1, h2⟩ := hp
      cases h2
      exact ⟨h1, rfl⟩
    obtain ⟨hp1, rfl⟩ := hp'
    obtain ⟨A', B', e1, e2, e3⟩ := D.tracks.2 i p hp1
    rw [hAB] at e1
    cases e1
    have htr := i4 T D.found.1
    obtain ⟨s', c1, l, c2, -⟩ := created_recorded h H.plain H.keys H.values H.depth H.readings hq hqne
    obtain rfl : s = s' := by rw [i1] at c1; exact Res.ok.inj c1
    obtain ⟨hA, o, p', hB⟩ := trackRun_shape c2 htr _ (List.mem_of_getElem? hAB)
    dsimp only at hA hB
    have hC := changesFrom_sublist (patchesOn r.sim.tsonPatches p) none
    generalize hCe : changesFrom none (patchesOn r.sim.tsonPatches p) = C at *
    have hA' : A = if C = [] then [] else [(1, C.map TPatch.toOp)] := by
      rcases hA with rfl | ⟨l', h1, rfl⟩
      · have : C = [] := by
          have := congrArg List.length e2
          rw [List.length_map] at this
          exact List.length_eq_zero_iff.1 this.symm
        rw [if_pos this]
      · rw [List.flatMap_cons, List.flatMap_nil, List.append_nil] at e2
        dsimp only at e2
        rw [if_neg (fun k => h1 (by rw [e2, k]; rfl)), e2]
    have hCQ : Q → C = patchesOn r.sim.tsonPatches p := fun hQ => hC.eq_of_length (by
      have := congrArg List.length (e2.symm.trans (e3 hQ))
      rwa [List.length_map, List.length_map] at this)
    obtain ⟨b, j, g1, g2, g3⟩ := track_back hA' fun q hq => hsp q (List.mem_filter.1 (hC.subset hq)).1
    obtain ⟨b', l, g4, g5, g6, g7⟩ := versions_back (by omega) (tTrack_kept hst hB)
    have hq : (trackQueries 0 hi (trackPaths.zip T))[i]? = some ⟨b!"TemporalTrack", p ++ spanText 0 hi,
        jsonName b!"track_logument_" (natDigits i ++ 95 :: (fileTag p ++ 95 :: (itoa 0 ++ 95 :: itoa hi))),
        jsonName b!"track_tjson_" (natDigits i ++ 95 :: (fileTag p ++ 95 :: (itoa 0 ++ 95 :: itoa hi))), trackText A, versionsText B⟩ := by
      rw [trackQueries, List.getElem?_mapIdx, List.getElem?_zip_eq_some (z := (p, (A, B))).2 ⟨hp1, hAB⟩]; rfl
    have hqm := List.mem_append_right (snapshotQueries res.snapshots) (List.mem_append_left
      (eventQueries b!"Vehicle.Speed" res.window.1 res.window.2 (eventThresholds.zip E)) (List.mem_of_getElem? hq))
    have w1 := hf1 _ hqm b g1
    have w2 := hf2 _ hqm b' g4
    have e0 : itoa 0 = [48] := by decide
    refine ⟨_, _, j, l, b, b', ?_, g2, g3, (fun hQ => by rw [← hCQ hQ]; exact g3), ?_, g5, g6, g7, g1, g4, ?_⟩
    · rw [← w1]; simp [jsonName, e0]
    · rw [← w2]; simp [jsonName, e0]
    · have := tableRow_of hb2 (i := i) (by rw [List.getElem?_mapIdx, hq]; rfl)
      rw [List.length_mapIdx, trackQueries, List.length_mapIdx, List.length_zip, D.tracks.1] at this
      simp only [SavedQuery.result, textSize_ok g1, textSize_ok g4, spanText, e0] at this
      simpa [trackPaths] using this
  · intro i x sx F G hx hFG
    have hx' : eventThresholds[i]? = some x ∧ fmtFixed 1 x = sx := by
      have hl : [(dec 10 1, b!"10.0"), (dec 30 1, b!"30.0"), (dec 50 1, b!"50.0")] = eventThresholds.map fun q => (q, fmtFixed 1 q) := by
        decide +kernel
      rw [hl, List.getElem?_map, Option.map_eq_some_iff] at hx
      obtain ⟨q, h1, h2⟩ := hx
      cases h2
      exact ⟨h1, rfl⟩
    obtain ⟨hx1, rfl⟩ := hx'
    have hF : ∀ t ∈ F, t.natAbs < 2 ^ 64 := by
      obtain ⟨F', G', e, e1, -⟩ := D.events i x hx1
      rw [hFG] at e
      cases e
      intro t ht
      rw [e1] at ht
      obtain ⟨q, hq, rfl⟩ := List.mem_map.1 ht
      exact (hsp q (List.mem_filter.1 (List.mem_filter.1 ((changesFrom_sublist _ _).subset (List.mem_filter.1 hq).1)).1).1).ts
    have hG := eventRun_shape (i5 E D.found.2) _ (List.mem_of_getElem? hFG)
    obtain ⟨b, g1, g2⟩ := times_back hF
    obtain ⟨b', g4, g5⟩ := times_back hG
    have hq : (eventQueries b!"Vehicle.Speed" res.window.1 res.window.2 (eventThresholds.zip E))[i]? = some ⟨b!"EventSearch",
        b!"Vehicle.Speed" ++ b!" > " ++ fmtFixed 1 x ++ spanText res.window.1 res.window.2,
        jsonName b!"event_logument_" (natDigits i ++ 95 :: (fileTag b!"Vehicle.Speed" ++ 95 :: (fmtFixed 1 x ++ 95 :: (itoa res.window.1 ++ 95 :: itoa res.window.2)))),
        jsonName b!"event_tjson_" (natDigits i ++ 95 :: (fileTag b!"Vehicle.Speed" ++ 95 :: (fmtFixed 1 x ++ 95 :: (itoa res.window.1 ++ 95 :: itoa res.window.2)))),
        timesText F, timesText G⟩ := by
      rw [eventQueries, List.getElem?_mapIdx, List.getElem?_zip_eq_some (z := (x, (F, G))).2 ⟨hx1, hFG⟩]; rfl
    have hqm := List.mem_append_right (snapshotQueries res.snapshots) (List.mem_append_right (trackQueries 0 hi (trackPaths.zip T))
      (List.mem_of_getElem? hq))
    have w1 := hf1 _ hqm b g1
    have w2 := hf2 _ hqm b' g4
    have e0 : fileTag b!"Vehicle.Speed" = b!"Vehicle_Speed" := by decide
    refine ⟨_, _, b, b', ?_, g2, ?_, g5, g1, g4, ?_⟩
    · rw [← w1]; simp [jsonName, e0]
    · rw [← w2]; simp [jsonName, e0]
    · have := tableRow_of hb3 (i := i) (by rw [List.getElem?_mapIdx, hq]; rfl)
      rw [List.length_mapIdx, eventQueries, List.length_mapIdx, List.length_zip, D.window.2.2.2] at this
      simp only [SavedQuery.result, textSize_ok g1, textSize_ok g4, spanText] at this
      simpa [eventThresholds] using this

/-- **C92, simulation, files, experiments and results, every scenario.**  A drive of more than 10 s is simulated and its files are
written; the temporal experiments on the scenario directory end and find what was recorded; and what they found is in the files and
tables of the output. -/
theorem C92_all_partial (h : Heap) {dur : Nat} (hdur : 10000 < dur) (hdur' : dur ≤ 2 ^ 53) {d : Draws} (hd : d.Good) (hclk : d.Clock)
    {scenario : Bytes} (hs : scenario ∈ scenarioNames)
    {c : TemporalDraws} (hc : c.Good) (hn : dur ≤ c.now) (hn' : c.now ≤ maxInt64) {ds : List (Bytes × Dir)} {t : Civil} (ht : t.Valid)
    (hds : UpTo ds t) (k : QueryClocks) (out₀ : TemporalOutput) :
    ∃ (r₀ r : Trip) (res : TemporalResults) (T : List (List (Nat × List Op) × List TVersion)) (E : List (List Int × List Int)) (hi : Int)
      (out : TemporalOutput),
      Trip.start d scenario = .ok r₀ ∧ experiment dur d scenario = .ok (some r) ∧
      temporalFiles h c (saveExperiment ds t r₀ r) = .ok (some res) ∧ temporalSaved h c k scenario (saveExperiment ds t r₀ r) out₀ = .ok out ∧
      hi < dur ∧ DriveResult (NoSwitch dur scenario) r₀ r hi res T E ∧
      SavedResults (NoSwitch dur scenario) scenario k r hi res T E out := by
  obtain ⟨r₀, r, doc, m, dir, h1, h2, hpath, h3, h4, h5, H⟩ := C87_handed_partial hdur' hd hclk hs ht hds
  obtain ⟨r₀', r', o⟩ := ended hdur' hd hs
  obtain rfl : r₀ = r₀' := by have := o.first.start; rw [h1] at this; cases this; rfl
  obtain rfl : r = r' := by have := o.runs; rw [h2] at this; cases this; rfl
  obtain ⟨hi, hT, k1, k2⟩ := drive_times (by omega) hdur' hd hs o
  obtain ⟨res, T, E, g1, g2⟩ := ready_run h hc H hpath hT (k1 hdur) (by omega) (by omega) hn'
  have hsen : ∀ q ∈ r.sim.tsonPatches, SensorPatch q ∧ q.ts ≤ 9007199254740992 := by
    intro q hq
    obtain ⟨a0, a1, a2, a3, v, hv, e, -⟩ := o.readings q (o.kept.subset hq)
    have hp : ValidUtf8 q.path := valid_ascii fun c hc => table_ascii v hv c (by rw [e]; exact hc)
    exact ⟨⟨.inr a0, hp, a3, by omega⟩, by omega⟩
  have hne : r₀.vehicle ≠ [] := by
    intro e
    have := congrArg List.length hpath
    rw [e, List.map_nil, List.length_map] at this
    revert this
    decide +kernel
  refine ⟨r₀, r, res, T, E, hi, out₀.results k scenario (0, hi) res, h1, h2, ?_, ?_, k2, g2,
    saved_results scenario k hc H (by omega) g1 g2 hne (fun q hq => ⟨(hsen q hq).1.value, (hsen q hq).2⟩) (fun q hq => (hsen q hq).1) out₀⟩
  · unfold temporalFiles
    rw [h3]
    dsimp only
    rw [h4]
    dsimp only
    rw [h5]
    dsimp only
    rw [g1]
    rfl
  · unfold temporalSaved
    rw [h3]
    dsimp only
    rw [h4]
    dsimp only
    rw [h5]
    dsimp only
    rw [g1, hT.range]
    rfl

/-- Six minutes on the highway: the second row of the table of searches shows the threshold of 30 and what the clock showed. -/
example : ∃ (out : TemporalOutput) (x : QueryResult), TableRow out.tables b!"event_search_results.csv" 3 1 x ∧ x.lgmNs = 1001 ∧ x.tjsonNs = 2001 := by
  obtain ⟨r₀, r, res, T, E, hi, out, -, -, -, -, -, h1, h2⟩ := C92_all_partial [] (dur := 360000) (by decide) (by decide) halfDraws_good halfDraws_clock
    (scenario := b!"highway_cruising") (by decide) plainTemporal_good (by decide) (by decide) someTime_valid upTo_some
    ⟨fun i => (i, i), fun i => (i, i), fun i => (1000 + i, 2000 + i)⟩ ⟨[], [], []⟩
  obtain ⟨D, F, hF, -⟩ := h1.events 1 (dec 30 1) rfl
  obtain ⟨f, f', b, b', -, -, -, -, -, -, h⟩ := h2.events 1 _ _ _ _ rfl hF
  exact ⟨out, _, h, rfl, rfl⟩

end Verif
