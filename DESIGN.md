# Design: a machine-checked model of logument

The packages `tson`, `tsonpatch` and `logument` under `/repo/internal`, and parts of `exp` (see section 4), are modelled function
by function in Lean 4, under `lean/Verif/`.  Properties are listed in `properties.jsonl`; the
theorem names that carry each property, with their status, are in `MANIFEST.json`.  Wrong
programs tried against the theorems are logged in `seeded/LOG.jsonl`.

Build: `cd lean && lake build` (about three minutes, no network, no Mathlib import).

## 1. How Go is modelled

| Go | Lean | remark |
|---|---|---|
| `string`, `[]byte` | `Bytes = List UInt8` | Go strings are byte strings; no UTF-8 assumption |
| `int64`, `int` | `Int` | range checks are modelled where the code (or `strconv`) performs them |
| `uint64` versions | `Nat` | versions are list lengths; wrap-around at 2^64 is not modelled |
| `float64` | `F64` (NaN, ±Inf, sign/mantissa/exponent, canonical) | `==`, int conversion, decimal parsing and `%v` printing are *defined*, not assumed |
| error return | `Res.err` | error texts are not modelled |
| panic | `Res.panic` | explicit outcome, the state reached so far is kept (a caller may `recover`) |
| `map` | association list; iteration order = list order | every theorem quantifies over the list, hence over every iteration order |
| `map`/slice identity (aliasing) | explicit heap of cells: `HVal.obj addr`, `HVal.arr addr len` | only for the code that mutates in place: `applyTraverse`, `ApplyOperation`, `ApplyPatch` and all of `logument.go` |
| `sort.Slice` (unstable) | an arbitrary sorted permutation, chosen by an oracle | theorems quantify over the oracle |
| `any` in `Operation.Value` | `GVal` | `!=` on interfaces is modelled including the run-time panic on uncomparable dynamic types |
| JSON text | `Js`, the syntax tree with members in text order | `JsonText` models the bytes; C44 shows that they can be replaced by the syntax trees |

Two layers are used for documents:

* **trees** (`Tson`) for the pure functions (`GetValue`, `GetLatestTimestamp`, diff,
  serialization, conversions);
* **heap values** (`HVal` + `Heap`) for mutation.  `Rep h v t F` says that the heap value `v`
  denotes the tree `t` and owns exactly the cells `F` (no sharing inside the document).
  A refinement theorem (`Refine`) relates the heap code of `applyTraverse` to a function on
  trees and gives the frame (cells outside `F` are untouched).

A property the code violates is handled by (a) a theorem that *refutes* the English statement with
a concrete witness (name ends in `_fails` / `_violated`) and (b) the strongest true part, named `…_partial`.
Section 5 lists all of them.

## 2. Modules

| modules | contents |
|---|---|
| `Basic`, `Text`, `F64` | bytes, outcomes, association lists; `strings`/`strconv` functions; floats |
| `Tson`, `View` | documents, `GetValue`, `GetLatestTimestamp` |
| `Patch`, `ApplyTree`, `Rep`, `Refine`, `ApplyLemmas` | operations, heap, `applyTraverse`; its effect on trees; the refinement |
| `Logument`, `LogLemmas`, `SnapLemmas`, `CompactLemmas` | the state machine: all exported methods, and call histories (`Call`, `step`, `run`) |
| `Diff` | `GeneratePatch`, `GeneratePatchWithTimestamp` |
| `FloatText`, `Quote`, `Codec` | `%v` and `ParseFloat`; `strconv.Quote`; `Marshal`, `MarshalIndent`, `Unmarshal` |
| `FloatLemmas`, `QuoteLemmas`, `CodecLemmas`, `RoundTrip`, `LexLemmas`, `LexSim`, `LexSpace`, `ParseInv` | lemmas about the text format |
| `Json`, `JsonLemmas`, `JsonTrip`, `JsonImport`, `JsonOrder` | conversions to and from JSON, equality functions, and lemmas |
| `JsonText`, `JsonTextLemmas`, `JsonTextRead`, `JsonTextFuel` | `encoding/json` on bytes: writer and reader, and the proof that the reader reads what is written |
| `PatchText`, `PatchTextLemmas` | `Patch.String`, `Operation.Marshal`, `tsonpatch.Unmarshal`, `tsonpatch.FromJson` |
| `TJson`, `TJsonLemmas` | the TJSON store of the experiments (`exp/tjson.go`): `AddItem`, `TemporalSnapshot`, `TemporalTrack`, `FindEvents`, `FromTSONPatches` |
| `Exp` | the documents, patches and counters of the simulated vehicle (`exp/utils.go`, the loop of `exp/exp_scenario.go`) |
| `ExpQuery` | preparation of the temporal experiments (`transformJsonStructure`, `generateInitialPatches`), queries on a logument (`filterTrackByPath`, `findEventsInLogument`), `getTimeRange`, scenario switching |
| `ExpRun` | the logument of the temporal experiments (`createLogumentFromPatches`) and the sequence of its queries (`RunTemporalSnapshotExperiment`) |
| `Vss` | the vehicle data generator: reading a catalogue, its leaf nodes, building nested maps from leaf nodes (`internal/vssgen/vss.go:41-136`, `extension.go:44-123`); C71-C73 |
| `VssGen` | generating vehicle data (`Generate`, `GenerateNext`, `genRandomString`, `internal/vssgen/vss.go:138-342, 413-445`); C74, C75 |
| `PropsTight` | details the main theorems left open, found by mutation: escapes of control characters (C33), sorted form with nil (C41), unexported parser on int64 timestamps (C42) |
| `VssPatch` | the patch that `GenerateNext` returns beside the next data set (`internal/vssgen/vss.go:352-376, 418-421`); C76 |
| `FloatOrder`, `PropsFloatRange` | rounding to float64 keeps the order; which numbers are written without exponent (C33), order of timestamps after JSON (C76) |
| `VssSave` | saving data sets and patches (`internal/vssgen/vss.go:379-410`), with `MarshalIndent` on plain Go data (`internal/tson/serialization.go:186-286`); C77 |
| `PropsEscapes` | which escapes the TSON reader and the JSON reader accept, stated byte by byte (C33, C44), and the types of patch operations read from text (C46) |
| `WebDemo`, `PropsWebDemo` | the web demonstration (`web_demo.go`) and the files it is fed with (`internal/vssgen/args.go`); C78 |
| `ParseWf` | parsed documents have distinct keys (C37) |
| `PropsPlainMap` | conversion of data sets to plain maps (`internal/vssgen/extension.go:18-41`); C79 |
| `PropsExpPatches` | what the JSON patches of the simulation do (C60) |
| `FloatArith`, `FloatBound` | addition, multiplication, division and comparison of float64, exact with one rounding; order and bounds of sums and products |
| `VssTable` | the table of simulated sensors (`exp/vss_config.go:59-445`) |
| `ExpSched`, `PropsExpSched` | when the simulation reads its sensors (loop of `exp/exp_scenario.go`) and `calculateExpectedUpdateCount`; C80 |
| `ExpValue`, `PropsExpEqual`, `PropsExpValue` | values of simulated sensors: `isEqual`, `calculateNewValue` and its parts (`exp/utils.go:94-116, 223-485`), patterns and settings of scenarios (`exp/scenario.go:14-409, 721-734`); C82, C83 |
| `FloatStep` | subtracting a small float64: closed form within a binade |
| `ExpLoop`, `ExpLoopLemmas`, `ExpLoopStart`, `ExpLoopMixed`, `PropsExpLoop` | the experiment as a whole (`runRealisticExperiment`, `exp/exp_scenario.go:314-629`; `RecordSensorData`, `exp/sensor_data_save.go:71-130`) without a switch of the scenario; C81 |
| `ExpLoopSwitch`, `PropsExpSwitch` | experiments of any duration, with switches; the first switch of the mixed scenario; C81 |
| `ExpTrack`, `FloatError`, `PropsExpTimes` | the times of the snapshots of the temporal experiments (`generateTimestamps`, `exp/exp_temporal.go:157-190`); error of a division and a product of float64; C84 |
| `SpecExpTrack`, `PropsExpTrack` | tracks and event searches of the temporal experiments (`exp/utils_temporal.go:161-291`); C85 |
| `PropsExpZero` | the stores of the temporal experiments for readings from time 0 on; C86 |
| `ExpLoopTame` | every value of a simulated drive stays finite and within 2^60, also after the switches of the mixed scenario |
| `PropsExpDoc`, `PropsExpPlain`, `PropsExpWhole` | what the simulation hands to the temporal experiments: document, keys, values, recorded patches; C86 |
| `ExpTemporal`, `PropsExpTemporal` | the temporal experiments as a whole (`exp/exp_temporal.go:43-101`), on the data of a simulated drive in traffic; C86 |
| `SpecVssTight`, `PropsVssTight` | more precise statements on the VSS catalogue: keys removed, data that is not a map, paths with array indices, ranges drawn; C71–C74 |
| `ExpFiles` | the files between simulation and temporal experiments (`exp/doc_data_save.go:18-106`, `exp/exp_temporal.go:26-154, 215-242`): indented JSON texts, names of directories, the latest directory; C87, C88 |
| `JsonIndent`, `JsonIndentRead` | the layout that `json.MarshalIndent` makes of a text of `json.Marshal`, and its reading |
| `PropsExpFiles`, `PropsExpDirs`, `PropsFilesTight` | C87, C88 |
| `PropsExpAll` | C86 and C87 for every scenario |
| `PropsSaveTight` | more precise statements on saving: empty files, lines that cannot be written, rounding; C77 |
| `VssPrint`, `PropsVssPrint` | printing of data sets and patches, with and without line numbers; C100 |
| `TsonPrint`, `PropsTsonPrint` | documents as JSON texts indented by four spaces, numbered lines of a data set; C101, C100 |
| `Csv`, `ExpCsv` | the tables of results (`exp/exp_scenario.go:113-311, 440-601`, `exp/sensor_data_save.go:30-145`, `exp/utils_temporal.go:294-349`): CSV texts, numbers with a fixed number of digits, the loop with its timing records |
| `SpecCsv` | reading tables and decimal numbers |
| `FloatNear` | errors of single float64 operations with whole numbers |
| `PropsCsv`, `PropsExpCsv`, `PropsExpSize`, `PropsPercent` | C89, C90, C91 |
| `PropsExpTight` | C83: the parameters of the patterns, and which values make the choice of them panic |
| `ExpOut` | the results of the temporal experiments as written: texts, names of files, tables |
| `PropsExpOut`, `PropsExpKept`, `PropsExpBack`, `PropsExpSaved` | C92 |
| `ExpSnaps` | `CreateSnapshot`: one saved snapshot per patch |
| `PropsExpSnaps` | C93 |
| `SpecOne` | a logument without a heap: one document, flags for nil (a specification, not a model of the code) |
| `PropsOne` | C94 |
| `PatchMem` | the methods of a logument with the arrays behind patch slices: `append` in place, sorting in place, sharing with the caller |
| `SpecMem`, `MemLemmas`, `PropsMem` | C95 |
| `WebFs` | the web demonstration with its files (`web_demo.go:22-112`, `internal/vssgen/args.go:16-115`): paths as the operating system follows them, requests, the start of the program; C96, C97 |
| `PropsWebFs` | C96, C97 |
| `PropsDamage` | C10: exactly what a failing operation leaves behind |
| `PropsPatchDamage` | C10, C27: what a whole patch leaves of the caller's document |
| `PropsCsvTight` | C90: the scenario named in each row of `timing.csv`; what the texts of values say |
| `PropsExpRows` | C81, C90: the rows of the sensor recorder in every scenario, also at and after the switches |
| `PropsRootArr` | C27: what a root array handed over earlier shows after a removal |
| `PropsSortedForm` | C41: what the sorted compatible form of a document is |
| `ExpLoopDrift`, `PropsExpDrift` | C81, C83: how far the numbers with noise can drift after switches; all numbers within the limits of the table |
| `PropsWebArgs` | C78: which arguments the generation needs |
| `PropsExpNumbered` | C98: the numbered files of an experiment (`exp/doc_data_save.go`), model and property |
| `ExpCycle`, `PropsExpCycle` | C81, C83: the battery is emptied and charged again and again; the numbers leave the limits of the table after many switches |
| `ExpMain`, `PropsExpMain` | the program as a whole: all scenarios, the package variable, the directories, the seed; C99 |
| `WebPage`, `PropsWebPage`, `PropsWebState` | the script of `index.html` (236-363): colouring of texts, C102; the page as a state machine, C103 |
| `PropsDiffNeeds` | C31: why the hypotheses on names and arrays are needed |
| `PropsRootPatch` | C27: whole patches on documents of any kind, in particular on root arrays |
| `PropsTsonJson` | C104: texts of documents are not JSON |
| `PropsTsonJsonConv` | C104: without timestamps, with plain names, they are |
| `PropsDemoPage` | C103: the page together with its server (model `demoServer`) and the generated files |
| `PropsRootOps` | C10, C24, C25, C26: single operations on documents of any kind, in particular on root arrays |
| `PropsRecordPerm` | C02 with temporal snapshots and temporal slices: permutations inside versions |
| `PropsSliceUse` | C105: slices of slices, `Track`, `Append` and `Set` on slices |
| `PropsGrouping` | C106: the grouping of operations into versions |
| `PropsWindows` | C107: tracks over windows inside windows |
| `PropsCompactTrack` | C108: tracks of a compacted log |
| `PropsHistoryTrack` | C109: histories and tracks |
| `PropsTrackOk` | C107, C108, C109: when tracks and compactions return |
| `PropsDiffLog` | C110: loguments fed with generated patches |
| `PropsNulls` | C45: null members in patch texts; C48: periods beyond int64 |
| `PropsDiffRaw` | C110: patches as generated below an empty name; timestamps |
| `PropsDiffTimes` | C110: series of documents with timestamps |
| `PropsDiffSeries` | C110: conditions on the documents only |
| `PropsDiffKept` | C111: compaction and tracks of generated patches |
| `PropsTransform` | C62: readings inside slices |
| `PropsPatchAny` | C47: patches given as maps and slices |
| `Spec*` | small independent specifications in which the properties are stated |
| `Props*` | the property theorems, each with an example meeting its hypotheses |

## 3. Per property: what is modelled, how it is proved

* C01 `Logument` step function over a call alphabet; invariant by induction over the call list.
* C02 same step function, ghost list of accepted operations; invariant by induction. `PropsRecordPerm`: the same as permutations when versions are re-sorted.
* C03 `Append`; direct case analysis under the C01 invariant.
* C04 `Store` with all packagings; algebra of lists with the nil/empty distinction.
* C05 `findLatest`: `sort.Search` on the sorted key list characterised by "greatest key ≤ v".
* C06 `Snapshot` on the heap; loop invariant "base document denotes the replay so far", using the refinement of `ApplyPatch`. Exception: a version whose patch is empty yields nil.
* C07 aliasing: snapshots of all versions are one Go map. Universal aliasing theorem and a witness; partial: stability when no operation is applied.
* C08 `Set`; read-back on the current state; isolation of version 0 refuted because of aliasing.
* C09 `TestSet` decision table.
* C10 refuted (`j[part], err = …` stores nil on error): witness and universal characterisation; partial: single-segment paths.
* C11/C12 `TemporalTrack`: fold characterised by an independent declarative specification.
* C13/C14 `Track`: range theorem; read-only is false (write-back of compacted patches): witness plus characterisation of what is written back.
* C15/C16 `Compact`: characterised by the same declarative specification; idempotence.
* C17 replay equivalence: false in general (remove of a parent, removes with a value, elements of arrays addressed in two ways): witnesses; partial for logs of add/replace at members or array elements and removes of members, on paths that are equal or part at some segment.
* C18 `History`: content theorem up to permutation of versions; order claim refuted (map iteration).
* C19 `Slice`: content theorem; self-containedness refuted; partial when the start version has a stored snapshot or none is in range.
* C20 `TemporalSlice`: content theorem; version list duplicates refuted.
* C21 `TemporalSnapshot`: refuted for multi-version logs and for empty selection (nil); partial for the one-version case.
* C22 escape/unescape: induction on the byte string.
* C23 `GetValue`: split/join lemma; refuted for keys containing '/'; partial for keys without '/'.
* C24–C26 `ApplyOperation` on trees: set/get, frame, remove; refuted for leading-slash paths as a read/write mismatch.
* C27 `ApplyPatch`: induction; refuted for the empty patch (returns nil).
* C28–C31 diff on trees by mutual induction on documents; C31 refuted, partial for slash-free keys with the leading separator dropped.
* C32 structural induction.
* C33–C37 codec: parser with explicit fuel shown sufficient; round trip by structural induction; exceptions (exponent floats, unprintable strings, null) refuted.
* C38–C40 `Json` conversions: on representable documents every function is computed in closed form by induction; exceptions for |timestamp| > 2^53, NaN/Inf, invalid UTF-8, null, root leaves, depth.
* C41 permutation lemmas: maps with the same entries have the same sorted member list.
* C42/C43 `parseValue`, `ToArray`: structural induction.
* C44 `JsonText`: the reader applied to the writer's bytes, by induction on the value; fuel is shown to be irrelevant (C44_fuel).
* C45/C46 texts of patches and operations: the reader is run symbolically over the layout; refuted for characters that need escapes.
* C47 `FromJson`: the same for the compact layout, where texts are escaped.
* C48-C52 `TJson`: period texts by the lemmas on decimal numbers; `AddItem` by induction on the path; queries by the oracle for the sort.
* C53-C55 `FromTSONPatches`: the loop is projected to one path (`perStep`), on which an invariant relates periods to the value in force; the final loop is order independent on each path.
* C56/C57 `applyTraverse` on trees: success and panic as inductive predicates on document and path, equivalence by induction on the path.
* C58-C61 `Exp`: update and building of nested maps by induction on the path; the simulation by an invariant over the readings, for every comparison function.
* C62-C66 `ExpQuery`: documents by recursion on trees and paths; events by the marking of C20/C22; scenarios by an invariant over the ticks.
* C67 `TJSON store of the experiments`: `C53_snapshot_partial` applied to the initial patches (described by C63) and the readings; paths are joined and split injectively.
* C68/C69 `ExpRun`: invariant over the queries (the shared document is the initial one outside of the paths written so far, parents of all paths stay objects); agreement by C67 and C68.
* C71-C73 `Vss`: recursion on the data, members through `mget`; names by `takeWhile` up to the dot; building by an invariant on the leaves of the map (no leaf above or below another), then maps with the same leaves are equal.
* C74/C75 `VssGen`: groups are the signals, by the last dot of the name; no name is above another, so the nodes are placed independently of the order; then the invariant of C73 on the leaves; chains by induction.
* C30 `PropsDiffFull`: completeness and exactness by induction on the second document, with the operations of one member or element picked out of the whole list.
* C76 `VssPatch`: the document read from the JSON text of a data set is found by induction on the data (`DocOf`), so the two documents have the same shape and C30 gives the operations; their JSON text is read back by C47; C75 supplies the next data set.
* C33/C76 `PropsFloatRange`: a float is a whole number of units 2^-1074; correct rounding of a fraction is monotone in these units.
* C77 `VssSave`: the text of a data set is the text of a layout, read back by induction as in C33; the lines of a patch are read as in C47, with Go's syntax of numbers and strings shown to be JSON.
* C78 `WebDemo`: storing patches joins their operations, and a snapshot at one time applies them all; a path that begins with a slash writes only below the member with the empty name, so by induction over the operations the others stay.
* C79 `PropsPlainMap`: the end of a string is found by a scanner that both the JSON reader and the quoting of TSON agree with; then by induction on the data the JSON reader refuses the text or there is no reading.
* C84 `PropsExpTimes`: a quotient or product is off by at most half a unit in the last place, so the computed time is less than one ms below the exact one; correct rounding is monotone, so the times ascend.
* C85 `PropsExpTrack`: the operations on a path are the readings in the order of their times, because a sorted list with distinct times is unique; compaction and the periods of the TJSON store are followed along this list.
* C86 `PropsExpZero`: the values of a path in the TJSON store are followed through the patches of time 0 in any order, after which the later readings find one value that is the initial one or was read at time 0.  `PropsExpWhole`: the values of a sensor stay plain scalars along the drive, so that recorded values differ from those before.  `PropsExpTemporal`: the charge of the battery has a closed form for 800 readings, so that a patch is recorded at 0 and at 10 s.
* C71–C74 `PropsVssTight`: the parts of a path are turned into steps (key, or key with index); writing along steps is read back along the same steps and leaves apart places alone, by induction on the steps.
* C87 `JsonIndent`, `PropsExpFiles`: indenting is followed byte by byte through strings, numbers and nested values, which gives the layout as a recursive text; this text is read by induction on the value.  The document with sorted members is again a document of the simulation (`Stamped.sorted`).
* C88 `PropsExpDirs`: numbers with the same count of digits are compared like numbers; the last of the sorted names is the greatest.
* C86, C87 `PropsExpAll`: for every scenario the level of the battery starts between 20 and 80 and changes by 0.02 or 0.04 with each reading, up to a rounding error of less than 2^-46, so that it changes with each of the first 190 readings and a patch is recorded at 0 and at 10 s.
* C77 `PropsSaveTight`: by induction on the data, `MarshalIndent` fails exactly for the data described by `Unsavable`.
* C89 `PropsCsv`: the reader is followed through each field, quoted or not, by induction; digits of the rounded quotient are read back.
* C90 `PropsExpCsv`, `PropsExpSize`: the loop with timing records refines the one without; its invariant (`Timings`) relates the records to the patches.  The sizes are compared update by update (`Sized`).
* C91 `PropsPercent`: each float64 operation is within a relative error of 2^-53, so that the result is within about 2^-31 of a digit of the exact one.
* C92 `PropsExpKept`: by invariants over the queries and over the building of the TJSON store, every document and version stays within what the texts keep (valid UTF-8, finite numbers, no nil, bounded depth).  `PropsExpBack` reads the texts back, `PropsExpOut` shows that no file is overwritten.
* C93 `PropsExpSnaps`: an invariant of the loop of `CreateSnapshot` (what each sensor shows, and that the document can be written), then the same text as for C92 read back; the logument is compared through C68.
* C94 `PropsOne`: simulation.  Each method on the heap is matched with a step of the machine of `SpecOne`; the state is the machine's with the document at one address, by the refinement of patches to trees (`View`, `Refine`), and the invariant is that version 0 is stored and not nil, versions are consecutive and snapshots exist for versions only.
* C95 `PropsMem`: refinement.  The invariant `Own` (each version and the pool in an array of its own) is kept by every careful call, and under it each method of `PatchMem` does what the one of `Logument` does to the operations seen; `C95_frame` needs no invariant.
* C96, C97 `PropsWebFs`: a path with a slash in the text of the car comes back to the name of the car inside `tson` or `patches`, which is no directory; a start is followed through the tree of files.
* C102 `PropsWebPage`: a cut through an escaped text lies between characters or inside a reference; no token ends inside a reference, so the coloured text is read back part by part.  C103 `PropsWebState`: an invariant while an answer is awaited (the only open request for a result is the one of the selection, or its answer is shown).
* C104 `PropsTsonJson`: induction over the document: the JSON reader refuses the text of a value, or the value has no timestamp and the reader stops exactly behind it. `PropsTsonJsonConv`: conversely, without timestamps and with plain names the reader reads the whole text.
* C105 `PropsSliceUse`: restrictions of restrictions, and the invariant that no call gives a logument without current document a new one.
* C106 `PropsGrouping`: the loops over versions as one loop over all operations (`compactOps_append`), so that the places of `Append` do not matter.
* C107 `PropsWindows`: the result of `TemporalTrack` path by path (`temporalTrack_path`), cut at the ends of the inner window.
* C108 `PropsCompactTrack`: what `Compact` leaves path by path (`compact_path`), combined with the tracks path by path of C107.
* C109 `PropsHistoryTrack`: C18 combined with the tracks and compactions path by path.
* C110 `PropsDiffLog`: C31 for each difference, carried over to a document with the same values (`SameVals.replayIn`), the versions of a fed logument (`fed_new`), and C06.
* C111 `PropsDiffKept`: the invariant that the last value on each path is the value of the document, unless the object or array around it is gone (`LatestOf`, `HoldsNow`), so that each operation of the next difference has another value; a generated patch never makes an object, an array or a nil (`inner_before`) and only names places of the two documents (`handleValues_places`), so that paths that are gone do not come back.

## 4. Simplifications and what is not modelled

* Error message texts, `Print` of loguments and of TJSON documents, memory exhaustion, stack exhaustion on deeply nested input, wrap-around of `uint64`
  versions, data races (the code has no synchronisation and is assumed to run in one goroutine).
* In `Logument` patch slices are values.  `PatchMem` models the arrays behind them; C95 proves that values are right as long
  as the caller keeps off the logument's arrays, and shows what happens otherwise (`C95_reuse_fails`, `C95_sort_fails`,
  `C95_slice_fails`).  The other properties of `logument.go` are about histories in which patches are values.
* `make` never fails; an index up to the `int` range extends an array.
* `unicode.IsPrint` is an arbitrary predicate `P : Nat → Bool` in `Quote`; theorems quantify over it.
* NaN payloads are identified.
* `MarshalIndent` on plain Go values (`map[string]any`, `[]any`; serialization.go:187-287) is modelled in `VssSave`, for the data sets
  that the generator saves; maps come in the order of the member list.
* `FromJson` changes the caller's maps and slices in place; the model returns the changed value.  A nil map and an empty
  map are not distinguished in documents.
* In `Json` (C38-C43) JSON texts are syntax trees; `JsonText` models writer and reader of `encoding/json` on bytes, and C44
  connects the two.  `ParseFloat` cuts off exponents at 10000, which the reader does not model.
* In `Operation.Value` a TSON document, or JSON made of non-nil maps and slices, strings, floats, integers and booleans
  is considered when patches are written (`PatchText`).
* `GeneratePatch` tests `err != nil && eq`, which is never true; the comparison is therefore left out of `Diff`.
* `exp`: modelled are `exp/tjson.go` except printing; values are `Js`, items are trees, `lastValues` and `lastTimes` of
  `FromTSONPatches` are one map, and that the function also sorts the caller's slice is not modelled.  A map compared with
  itself is equal for `reflect.DeepEqual` even if it contains NaN, which `jsEq` does not model.
* `Exp`: how new sensor values are calculated (random numbers, `math.Sin`) is not modelled, readings are arbitrary; `isEqual`
  is a parameter.  Times of readings and the durations measured are not modelled.
* `ExpQuery`: reading files, printing and measuring are not modelled; map iteration is a permutation chosen by the caller of
  the model (`order`) or the order of the member list; scenario settings of the sensors are not modelled.
* `ExpRun`: files are values, results are looked at right after the query; sizes and durations are not modelled.
* `Vss`: a map is the list of its members in the order the runtime visits them, each map being visited once; `int` and `int64`
  are the same constructor of `Js`; reading files and `json.Unmarshal` of the catalogue are not part of `newVss` (see `JsonText`).
* `VssGen`: what `math/rand` returns is a parameter, one for each call; the clock is read once for each data set; sizes and
  rates are not modelled (the rates only decide which fate is drawn), nor is `SAVE_METADATA`, which is false.
* `VssPatch`: the value of a generated operation that is not nil or the value of a leaf becomes nil; such operations are not generated.
* `VssSave`: the file system is not modelled; `%#v` of maps and slices and `%s` of values that are not strings do not occur in
  generated patches and are treated as nil.
* `WebDemo`: HTTP, templates, the file system and the command line are not modelled; the handler is a function of the texts of the files.
* `FloatArith`: every operation rounds once, as on amd64; compilers for other processors may fuse a product and a sum.
* `ExpValue`: what `math/rand` and `math.Sin` return are parameters; C83 assumes numbers from 0 to 1 (without 1) and sines
  between -1 and 1.  Times are less than 2^53 ms.  Products of counters and intervals do not overflow.
* `ExpLoop`: durations measured, texts printed and files are not modelled.  What is drawn, the clock, and the orders of maps are
  parameters (`Draws`); C81 assumes that the orders are permutations of the table and that numbers drawn are from 0 to 1 (without
  1).  The groups of sensors are one list with the group as a field, so that a time step visits the sensors in any order.
* `ExpTrack`: converting NaN to int64 gives the least int64, as on amd64.
* `ExpTemporal`: the document is what decoding JSON gives for the document of the simulation (`decAny`), and the patches are the
  recorded ones; the files between are in `ExpFiles`.  Results are not written.
* `ExpFiles`: a directory is a list of files; errors of the file system and directories inside the directory of a run are not
  modelled.  Times of the clock are numbers of years, months, days, hours, minutes and seconds.
* `ExpCsv`: durations are given by a clock (`Clocks`) and never negative, their sums do not overflow; the tables are written at
  once (in the code row by row, flushed at the end); what is printed on the console is not modelled.
* `ExpOut`: the durations of the queries are given by a clock; the memory used and the console are not modelled; the files of queries
  before one that fails are not modelled.
* `ExpSnaps`: the document is given as read from its file; `CreateSnapshot` itself is only called in a comment (exp/utils_temporal.go:90).
* `PatchMem`: how much an array grows is a parameter of each call (`spare`); patches and results that the code builds from nothing are
  new arrays.  Slices of documents (`[]any` inside a value) are in the heap of `Logument`.
* `WebFs`: links, rights, limits of path lengths, errors of the disk, the reading of the command line and of the query are not modelled; the directories of the cars are made at once.  The only call of `WebDemo` would be in `main.go`, which calls the experiments instead.
* `WebPage`: `JSON.parse` with `JSON.stringify` and the server are parameters; the browser's reading of HTML is modelled for what the page makes (text, three references, `span`), without its treatment of carriage returns and NUL; answers arrive in any order or never.

## 5. Where the code and the intended behaviour disagree

Each line is a proved theorem.

* `C24_leading_slash_fails` (PropsApply.lean): C24 fails for a path with leading separator, i.e. for the very string accepted by `GetValue`: the value is stored below a member with an empty name and not found again.
* `C24_dot_fails` (PropsApply.lean): C24 fails for a key with a dot, which the write splits but the lookup does not.
* `C24_below_array_fails` (PropsApply.lean): C24 fails below an array element: the rest of the path is dropped and the whole element overwritten.
* `C24_unsupported_value_fails` (PropsApply.lean): C24 fails for unsupported values: the call succeeds, nothing is written, and the array is replaced by one of its elements.
* `C25_array_fails` (PropsApply.lean): C25 fails below an array: a sibling of the addressed member is lost.
* `C26_below_array_fails` (PropsApply.lean): Below an array element the rest of the path is dropped: the whole element is removed.
* `C27_empty_fails` (PropsApply.lean): C27 fails for the empty patch: nil is returned instead of the document.
* `C27_root_array_fails` (PropsApply.lean): C27 fails for a root array: every operation starts from the original slice header, so an append followed by another operation is lost.
* `C10_error_damages_fails` (PropsApply.lean): C10 fails: an error below the root replaces the whole member on the way by nil.
* `C10_panic_damages_fails` (PropsApply.lean): C10 fails for panics too: a container created on the way stays behind.
* `C33_control_char_fails` (PropsCodec.lean): The property fails for a string with the control character `\a`: `Quote` writes `"\a"`, which the parser does not understand.
* `C33_exponent_fails` (PropsCodec.lean): The property fails for a document with the number 21000000, which `%v` writes as `2.1e+07`.
* `C33_top_leaf_fails` (PropsCodec.lean): For a leaf as whole document the exponent and the timestamp are dropped without an error: 21000000 at time 5 is read as 2.1 without timestamp.
* `C34_null_fails` (PropsCodec.lean): With nil in the document `Marshal` fails, but `MarshalIndent` writes `null`, on which `Unmarshal` panics.
* `C35_null_fails` (PropsCodec.lean): The property fails: `null` inside an object or an array makes `Unmarshal` panic.
* `C36_empty_timestamp_fails` (PropsCodec.lean): The property fails for the closing bracket of an empty timestamp: `<>` is accepted, `< >` is not.
* `C14_track_modifies_fails` (PropsCompact.lean): C14 fails: `Track` writes the compacted patches back, so a later `Track` (and the recorded log) differs.
* `C16_unordered_fails` (PropsCompact.lean): C16, second half, fails without the time order: the log `a=true<5>, a=false<50>, a=true<6>` has no repeated values, but `TemporalTrack(5, 6)` drops the operation of time 6.
* `C108_first_fails` (PropsCompactTrack.lean): C108 fails for the first operation in a window: before the compaction the value of `a` at time 7 is reported, afterwards it is not.
* `C89_empty_fails` (PropsCsv.lean): C89 for a record without fields: it is written as a record with an empty field.
* `C31_generated_patch_violated` (PropsDiffApply.lean): C31 is violated for every pair of object documents that differ and have no member with an empty name: if applying the generated patch succeeds at all, the result is not equal to `b`. (The generated paths start with the separator, which `ApplyOperation` takes for an empty first segment.)
* `C31_times_violated` (PropsDiffApply.lean): `C31_generated_patch_violated` for `GeneratePatchWithTimestamp`.
* `C31_leading_slash_fails` (PropsDiffApply.lean): The situation of `C31_generated_patch_violated`: the member `a` keeps its value, the new one is stored below a member with an empty name.
* `C31_array_length_fails` (PropsDiffApply.lean): C31 fails for arrays of different length even with stripped paths: the element to be inserted before `x` overwrites it.
* `C31_times_length_fails` (PropsDiffApply.lean): The same for `GeneratePatchWithTimestamp`: after the element `x` is removed, `b` is expected where nothing is.
* `C111_arrays_fails` (PropsDiffKept.lean): C111 is violated for arrays whose lengths change: both removals are `null` on the same path, and `Compact` drops the second one.
* `C111_empty_fails` (PropsDiffKept.lean): C111 is violated for empty names: the paths of two members are the same, and `Compact` drops the second change.
* `C111_times_fails` (PropsDiffKept.lean): C111 is violated for `GeneratePatchWithTimestamp`: a value reported again with a later time is an operation with the same value, and `Compact` drops it together with its time.
* `C110_generated_violated` (PropsDiffLog.lean): C110 is violated for the patches as generated: for any two object documents that differ and have no member with an empty name, the logument of the first that was fed with the generated patch does not show the second.
* `C31_nested_fails` (PropsDiffNeeds.lean): C31 fails for containers inside arrays: an operation for a member of an element replaces the whole element.
* `C31_nested_array_fails` (PropsDiffNeeds.lean): The same for arrays inside arrays.
* `C31_dot_fails` (PropsDiffNeeds.lean): C31 fails for names with a dot: the path is cut at the dot when it is applied.
* `C31_slash_fails` (PropsDiffNeeds.lean): C31 fails for names with a slash: its escape is undone before the path is cut.
* `C30_empty_key_fails` (PropsDiffOps.lean): C30 fails with an empty key: two operations get the same path.
* `C110_times_violated` (PropsDiffRaw.lean): C110 is violated for the patches of `GeneratePatchWithTimestamp` as they are, as in `C110_generated_violated`.
* `C58_tson_inside_fails` (PropsExp.lean): C58 fails for the TSON document: the members inside the updated sensor are lost.
* `C58_above_fails` (PropsExp.lean): C58 fails on the way to the sensor: a value there is replaced by a map, in both documents.
* `C59_order_fails` (PropsExp.lean): C59 fails for a sensor inside another one: what is kept depends on the order of the map iteration.
* `C59_panic_fails` (PropsExp.lean): C59 fails for a sensor inside the value of another one: panic.
* `C60_json_patches_fails` (PropsExp.lean): C60 fails for the JSON patches: whenever two different values are considered equal, there is a simulation after which writing the recorded JSON patches into the first JSON document does not give the last one.
* `C86_zero_all_fails` (PropsExpAll.lean): **C86, refuted for every scenario: readings after time 0 only.** A patch of the battery is recorded at time 0, which is also the time of its initial patch.
* `C86_short_all_fails` (PropsExpAll.lean): **C86, refuted for short drives, every scenario.** The temporal experiments panic on the data of a drive of at most 10 s.
* `C91_nothing_fails` (PropsExpCsv.lean): **C91, refuted for an experiment without time.** The reduction is shown as `NaN`, since nothing is divided by nothing, and the bandwidths as `+Inf`, since an empty list of patches has a text of two bytes.
* `C90_mixed_fails` (PropsExpCsv.lean): **C90, refuted for the duration of the experiment.** In 300 seconds a mixed scenario has no table of switches.
* `C83_range_fails` (PropsExpCycle.lean): **C83, violated.** A run of the mixed scenario gets there: with each return to traffic the noise of the tire is around a pressure that is higher by 0.02, and after a hundred returns the vehicle has a pressure above the limit of the table.
* `C88_clock_fails` (PropsExpDirs.lean): **C88, refuted if the clock was set back.** If there is a directory of a later time, the experiments never read the new one.
* `C88_year_fails` (PropsExpDirs.lean): **C88, refuted for years of five digits.** No directory is found.
* `C88_second_fails` (PropsExpDirs.lean): **C88, refuted for two experiments in one second.** The second one has no directory of its own, and the patches found are those of the second.
* `C83_drift_fails` (PropsExpDrift.lean): C83: a return to traffic makes the noise start from the value of the sensor, not from that of the table: a pressure within its limits leaves them with the next reading. Each return adds at most 0.041; that a run gets there is `C83_range_fails` (`PropsExpCycle`).
* `C82_nan_fails` (PropsExpEqual.lean): NaN and the infinities are not taken for equal to themselves: every reading of them counts as a change.
* `C82_trans_fails` (PropsExpEqual.lean): The comparison is not transitive.
* `C82_boundary_fails` (PropsExpEqual.lean): Whether a step of 0.005 counts as a change depends on the rounding of the numbers.
* `C81_mixed_fails` (PropsExpLoop.lean): C81: the mixed scenario never switches in the time the experiment takes (300 seconds), whatever numbers are drawn: the battery is set to 60 and loses 0.02 every 200 ms, so it is at 29.9999999999957 in the end, while the limit is 10.
* `C81_clock_fails` (PropsExpLoop.lean): C81: the first JSON document has the time of the clock (`time.Now().UnixNano()`) for every sensor, while the last one has a time of the simulation: less than its duration. The time goes backwards if the clock shows more than that.
* `C99_scenarios_fails` (PropsExpMain.lean): **C99, violated.** The temporal experiments are not run for all scenarios: after the program and the temporal experiments there are data of three scenarios, and results for traffic only.
* `C99_seed_fails` (PropsExpMain.lean): **C99, violated.** The seed does not fix the results: two runs of the program on the same files at the same times, with the same durations and the same orders of all maps, whose results differ by what the global generator gives.
* `C98_order_fails` (PropsExpNumbered.lean): **C98, order, refuted.** Above the width and below zero the names are in another order.
* `C62_names_fails` (PropsExpQuery.lean): C62, refuted part: a branch with children named `timestamp` and `value` is taken for a sensor, and its other children are lost.
* `C62_null_fails` (PropsExpQuery.lean): C62, refuted part: a sensor without a value gets one.
* `C63_once_fails` (PropsExpQuery.lean): C63, refuted part: a patch is made more than once, the one for a map as often as it has members.
* `C63_empty_key_fails` (PropsExpQuery.lean): C63, refuted part: with an empty key the paths no longer lead to the values.
* `C64_all_fails` (PropsExpQuery.lean): C64, refuted part: not every operation above the threshold is found, a repeated value is not; and in another order of the map the events are not ordered by time.
* `C64_fresh_fails` (PropsExpQuery.lean): C64, refuted part: in a logument made like the one of the experiments (exp/utils_temporal.go:388), with all operations given to `NewLogument`, no event is found before the first call that appends them.
* `C65_source_fails` (PropsExpQuery.lean): C65, refuted part: the transition back is recorded as one from urban traffic to urban traffic.
* `C65_cooldown_fails` (PropsExpQuery.lean): C65, refuted part: the cooldown is a minute, not the 30 seconds announced.
* `C65_stuck_fails` (PropsExpQuery.lean): C65, refuted part: from any other first scenario there is no transition at all.
* `C90_values_fails` (PropsExpRows.lean): **C90, refuted after a switch.** That the rows show the value of the last patch before them, as they do up to the first switch (`C90_values_partial`): with draws of 0.5 a mixed scenario of 500 seconds shows in its last row the speed 0, while the patches so far leave it at 50.
* `C68_before_fails` (PropsExpRun.lean): **C68, refuted before the first operation.** The answer is nil instead of the document.
* `C68_descending_fails` (PropsExpRun.lean): **C68, refuted for descending times.** After a query for time 30, the answer for time 25 has the value of time 28.
* `C68_kept_fails` (PropsExpRun.lean): **C68, refuted for answers that are kept.** The document returned for time 25 is changed by the query for time 30.
* `C69_before_fails` (PropsExpRun.lean): **C69, refuted before the first reading.** The TJSON store shows the initial value, the logument nil.
* `C69_zero_fails` (PropsExpRun.lean): **C69, refuted for readings at time 0.** The logument shows the reading; the TJSON store may show the initial value instead.
* `C80_zero_fails` (PropsExpSched.lean): An interval of 0 stops the simulation with a panic.
* `C80_estimate_fails` (PropsExpSched.lean): The simulation of the experiment: the speed is to be read every 20 ms but is read every 100 ms; 34,082 readings are taken, while 91,080 are expected.
* `C93_place_fails` (PropsExpSnaps.lean): A patch on a place that is not in the document ends the program; the files before it stay.
* `C67_lost_fails` (PropsExpStore.lean): **C67, refuted for readings at time 0.** The first readings of the simulation bear the time 0, as the initial patches do. If the sort puts them first they are lost: the initial value is shown at all times up to the next reading.
* `C67_top_fails` (PropsExpStore.lean): **C67, refuted for members of the document itself.** A sensor that is not inside a map is never shown.
* `C67_list_fails` (PropsExpStore.lean): **C67, refuted for lists.** The store shows a list as a map of its elements.
* `C81_documents_fails` (PropsExpSwitch.lean): C81: the documents of the mixed scenario do not agree once it has switched: with draws of 0.5 the vehicle drives at 50 and stops at 499900 ms, which the TSON document never shows. (In all scenarios without a switch they agree up to 0.005: `C81_documents_partial`.)
* `C86_zero_fails` (PropsExpTemporal.lean): **C86, refuted: readings after time 0 only.** In every drive in traffic, a patch of the battery is recorded at time 0, which is also the time of its initial patch.
* `C86_short_fails` (PropsExpTemporal.lean): **C86, refuted for short drives.** The temporal experiments panic on the data of a drive of at most 10 s in traffic.
* `C84_exact_fails` (PropsExpTimes.lean): **C84, refuted: exact times.** Of 61 times over 300 s, the one at 55 s is 1 ms early, although the exact time is whole.
* `C84_single_fails` (PropsExpTimes.lean): **C84, refuted: a single time.** For one time, 0 is divided by 0, and the time is far outside.
* `C85_before_fails` (PropsExpTrack.lean): **C85, refuted: both stores report the same events.** The speed rises to 60 at 20, before the window from 50 to 80 begins: the TJSON store reports 20, the logument nothing.
* `C85_repeat_fails` (PropsExpTrack.lean): **C85, refuted for readings that repeat the value.** The logument reports the repeated value in the window, the TJSON store when it was first read.
* `C85_fresh_fails` (PropsExpTrack.lean): **C85, refuted without snapshots before.** The operations are still pending, and the logument reports nothing.
* `C85_missing_fails` (PropsExpTrack.lean): **C85, refuted for paths that do not exist.** One of them ends the run, and the tracks of the others are lost.
* `C83_longitude_fails` (PropsExpValue.lean): On the highway the longitude is to grow by 0.1 every second, but every reading is taken for the value before and the value never changes.
* `C83_temperature_fails` (PropsExpValue.lean): While charging the temperature of the battery is to grow by 0.001 every second, but it never changes.
* `C83_brake_fails` (PropsExpValue.lean): On the highway the brake is to be used with a probability of 0.01 at every reading, but the value never changes.
* `C83_choices_fails` (PropsExpValue.lean): A string sensor with random values but without their number: the reading panics.
* `C83_loop_fails` (PropsExpValue.lean): A string sensor with one value only, the value it has: whatever is drawn, no other value is found and the loop does not end.
* `C86_twice_fails` (PropsExpZero.lean): **C86, refuted: a time reported once.** The speed is 40 at the beginning and 60 is read at time 0: the TJSON store reports time 0 twice, the logument once.
* `C86_dropped_fails` (PropsExpZero.lean): **C86, refuted: readings after time 0 are kept.** The speed is 40 at the beginning, 60 is read at time 0 and 40 again at 30. If the sort puts the reading at time 0 before the initial value, the TJSON store drops the reading at 30 as well: it shows 40 for all times, and its track has no value that begins at 30.
* `C87_clock_fails` (PropsFilesTight.lean): **C87 fails when the clock is set back.** If there is a directory of a later time, even an empty one, the temporal experiments do not find the drive that was just saved: here they panic, because the empty directory has no document.
* `C92_clock_fails` (PropsFilesTight.lean): **C92 fails when the clock is set back**: the program panics before it writes anything.
* `C76_order_fails` (PropsFloatRange.lean): Timestamps at the end of the range become the smallest one.
* `C106_temporalSnapshot_fails` (PropsGrouping.lean): C106 fails for `TemporalSnapshot`: with the same committed operations, the one grouping gives `a` the value of time 9, the other still the one of time 5.
* `C106_empty_fails` (PropsGrouping.lean): C106 fails for `Snapshot` if the newest version is empty: the operations are the same, the snapshot is nil.
* `C18_order_fails` (PropsHistory.lean): C18 fails in general: the order of the history is the runtime's order of visiting the map.
* `C18_initial_value_fails` (PropsHistory.lean): C18 fails after `Set`: the "initial" value is the current one, with the timestamp of the `Set`.
* `C18_new_path_fails` (PropsHistory.lean): C18 fails for a path that the initial document does not have: `History` panics.
* `C109_order_fails` (PropsHistoryTrack.lean): C109 fails if the runtime visits the versions in another order: the operations are listed in another order than in the track.
* `C109_new_path_fails` (PropsHistoryTrack.lean): C109 fails for a path that the initial document does not have: the track reports the operation, `History` panics.
* `C38_timestamp_fails` (PropsJson.lean): C38 fails: the timestamp 2^53 + 1 comes back as 2^53.
* `C38_nan_fails` (PropsJson.lean): C38 fails: NaN and infinities cannot be written.
* `C38_utf8_fails` (PropsJson.lean): C38 fails: invalid UTF-8 is replaced.
* `C38_key_fails` (PropsJson.lean): C38 fails: a member can disappear, because two keys become the same.
* `C38_null_fails` (PropsJson.lean): C38 fails: nil panics.
* `C39_null_fails` (PropsJson.lean): C39 fails: null panics.
* `C39_depth_fails` (PropsJson.lean): C39 fails: JSON text of 10000 levels is read by `encoding/json`, but not by `FromJson`, because every primitive value becomes an object.
* `C40_timestamp_fails` (PropsJson.lean): C40 fails: timestamps beyond 2^53 that are different are equal.
* `C40_utf8_fails` (PropsJson.lean): C40 fails: different invalid UTF-8 is equal.
* `C40_root_leaf_fails` (PropsJson.lean): C40 fails: two single leaves that differ in their timestamps only are not equal without timestamps.
* `C40_infinite_fails` (PropsJson.lean): C40 fails: documents with infinite numbers give an error from `Equal`, and are all equal without timestamps.
* `C95_reuse_fails` (PropsMem.lean): C95 (the code violates it): `Store` keeps the caller's slice and `append`s to it in place. The caller stores the same slice for two versions and writes to nothing; what is stored for version 2 then replaces an operation already recorded for version 1.
* `C95_sort_fails` (PropsMem.lean): C95 (the code violates it): a slice stored for two versions is one array: `TemporalSnapshot`, which sorts the patch of version 1, reorders version 2 as well, and the caller's slice.
* `C95_slice_fails` (PropsMem.lean): C95 (the code violates it): the logument handed out by `Slice` has the arrays of the logument sliced: a `TemporalSnapshot` of the slice reorders a version recorded there.
* `C45_null_value_fails` (PropsNulls.lean): C45: but a member `value` that is null replaces an earlier value.
* `C56_root_array_fails` (PropsOutcome.lean): C56 fails on a root array: below a leaf in the array any operation "succeeds" without doing anything.
* `C45_injection_fails` (PropsPatchText.lean): C45 fails: a quotation mark in a path is not escaped, so that a path can change the type of its operation, here from `test` to `remove`.
* `C45_smuggle_fails` (PropsPatchText.lean): C45 fails: a path can add operations to the text.
* `C45_escape_fails` (PropsPatchText.lean): C45 fails: backslashes and control characters in a path are not escaped: the path changes or the text cannot be read.
* `C45_value_fails` (PropsPatchText.lean): C45 fails: values change their types in the text: an integer becomes a float and a leaf becomes a map; and a patch with NaN has a text that cannot be read.
* `C46_read_fails` (PropsPatchText.lean): C46 fails: `Marshal` does not escape the path either: the text of an operation can be read as another operation, or not at all.
* `C47_utf8_fails` (PropsPatchText.lean): C47 fails for invalid UTF-8: two different paths become the same.
* `C91_zero_fails` (PropsPercent.lean): **C91, refuted without numbers to compare with.** The reduction of nothing is shown as `NaN`, that of something as `-Inf`; the other differences are shown as 0 whatever the first number is.
* `C91_bandwidth_fails` (PropsPercent.lean): **C91, refuted without time.** Nothing per no time is shown as `NaN`, something as `+Inf`.
* `C79_reading_fails` (PropsPlainMap.lean): **C79**, violated whenever there is something to convert: a data set with at least one reading has no plain map. `Save` writes timestamps behind keys and before elements, which is not JSON.
* `C23_slash_key_fails` (PropsPointer.lean): C23 fails for a key containing the separator: the pointer is unescaped before it is split.
* `C23_slash_key_wrong_member_fails` (PropsPointer.lean): C23 fails for keys containing the separator even worse: another member may be returned.
* `C23_root_fails` (PropsPointer.lean): C23 fails for the empty pointer, which spells the whole document: the lookup panics.
* `C17_parent_remove_fails` (PropsReplay.lean): C17 fails when a parent is removed between two equal writes: the second write is dropped although the value is gone.
* `C17_remove_with_value_fails` (PropsReplay.lean): C17 fails for a remove that carries a value: it is dropped as a repetition of the write before.
* `C17_below_element_fails` (PropsReplayArr.lean): C17 fails for paths running below an element of an array: `l/0/x` and `l/0/y` both write the element itself, but they are different paths, so that the third write is dropped as a repetition of the first.
* `C17_spelling_fails` (PropsReplayArr.lean): C17 fails for two spellings of one index: `l/0` and `l/00` are the same element but different paths.
* `C17_element_remove_fails` (PropsReplayArr.lean): C17 fails for removes of elements: the second remove of `l/0` takes away another element, but is dropped as a repetition.
* `C24_lost_fails` (PropsRootOps.lean): **C24 is violated** below leaves in root arrays: every operation on a path that goes on behind a leaf element, even one with an unknown type, succeeds without doing anything.
* `C10_root_array_fails` (PropsRootOps.lean): The element on the way of a failed operation is lost: `C10` fails in root arrays as it does in objects.
* `C27_array_growth_fails` (PropsRootPatch.lean): **C27 is violated** by every operation that makes a root array longer, unless it is the last one: it has no effect at all.
* `C27_array_removal_fails` (PropsRootPatch.lean): A removal before the last operation: the operations after it find the last element twice.
* `C19_missing_base_violated` (PropsSlice.lean): C19 fails whenever the oldest stored snapshot of the range is newer than a version of the range: the slice panics for that version, whatever the original answers.
* `C19_missing_base_fails` (PropsSlice.lean): C19 fails: after `Snapshot(2)`, the slice of versions 1 and 2 cannot answer version 1, the original can.
* `C19_version_zero_fails` (PropsSlice.lean): C19 fails for the range `0..0`: the slice has no version at all and panics, the original answers.
* `C20_duplicate_versions_violated` (PropsSlice.lean): C20 fails whenever a version has two operations in the window: the slice lists the version twice, and every method that checks the versions panics on the slice.
* `C20_empty_window_fails` (PropsSlice.lean): C20 fails: a window without operations and without stored snapshots makes `TemporalSlice` panic.
* `C20_gap_fails` (PropsSlice.lean): C20 fails: a version without operation in the window leaves a gap in the version list, and `Snapshot` on the slice panics.
* `C105_set_fails` (PropsSliceUse.lean): **C105**, violated for every slice: whatever is done with a slice, `Set` panics for every operation that it should apply.
* `C105_dead_fails` (PropsSliceUse.lean): **C105**, the same for a logument that is no slice: after one `Set` with an error, `Set` panics for ever.
* `C105_temporalTrack_fails` (PropsSliceUse.lean): **C105**, violated: `TemporalTrack` on a slice reports an operation that it does not report for the original, as the value before the slice is unknown.
* `C06_empty_patch_fails` (PropsSnapshot.lean): C06 fails for a version whose patch is empty: the replay is the initial document, `Snapshot(1)` hands out nil.
* `C06_descending_fails` (PropsSnapshot.lean): C06 fails if snapshots are not taken in ascending order: after `Snapshot(2)`, `Snapshot(1)` hands out a document in which `a` has the value of version 2 at a path only version 2 writes.
* `C07_all_versions_alias_violated` (PropsSnapshot.lean): C07 is violated systematically: in every state reached from an object document, the non-nil documents stored for any two versions, and the current state, are the very same Go map. They therefore denote the same document, whatever happens.
* `C07_later_snapshot_fails` (PropsSnapshot.lean): C07 fails: the document stored for version 1 changes when version 2 is asked for.
* `C08_set_changes_versions_violated` (PropsSnapshot.lean): C08 is violated: after a successful `Set`, every stored non-nil version shows the new state, since all versions are the same document.
* `C08_version_zero_fails` (PropsSnapshot.lean): C08 fails concretely: `Set` changes the document of version 0.
* `C10_set_loses_state_fails` (PropsSnapshot.lean): C10 at the level of `Set`: an operation that fails with an error makes the whole current state nil; every later `Set` then panics.
* `C48_negative_fails` (PropsTJson.lean): **C48, refuted in general.** A period with a negative bound is read as the period from 0 to 0, so that a value that was valid only before time 0 is reported as valid at time 0.
* `C49_single_fails` (PropsTJson.lean): **C49, refuted for paths of one segment.** The value is not recorded anywhere.
* `C50_empty_fails` (PropsTJson.lean): **C50, refuted for reversed bounds.** A value replaced at the time it was set has a period that contains no time (5 to 4), but is returned for windows around it.
* `C52_outside_fails` (PropsTJson.lean): **C52, refuted in general.** A value is shown before it was ever valid, and after its last period.
* `C52_prefix_fails` (PropsTJson.lean): **C52, refuted in general.** A value recorded for a prefix of the path hides the values below it.
* `C53_zero_fails` (PropsTJson.lean): **C53, refuted at time 0.** If a value set at time 0 is replaced at time 0 (initial patches have time 0, and so has the first step of a scenario), the text of its period is not readable and the old value is the one reported for time 0.
* `C53_tie_fails` (PropsTJson.lean): **C53, refuted for equal times.** Which of two values set at the same time is in force depends on the unstable sort.
* `C53_removed_fails` (PropsTJson.lean): **C53, refuted for removed values.** After its removal a value is still shown, and also before it was added.
* `C53_single_fails` (PropsTJson.lean): **C53, refuted for paths of one segment.** No version is recorded for them and no snapshot shows them.
* `C54_collision_fails` (PropsTJson.lean): **C54, refuted in general.** A member whose name contains a dot is confused with a path, and escapes are not decoded: the values of two different members are recorded as versions of one.
* `C55_window_fails` (PropsTJson.lean): **C55, refuted in general.** Events are reported that lie before the window (the value was set earlier and is still in force), and a value that was replaced at the time it was set, and so was never in force, is reported too.
* `C21_one_version_only_fails` (PropsTemporal.lean): C21 fails: only the version after the base is looked at; `a` is written at 9 in version 2, but the value of time 10 is that of time 5.
* `C21_nothing_selected_fails` (PropsTemporal.lean): C21 fails: with no operation up to `t`, the result is nil instead of the initial document.
* `C21_tie_fails` (PropsTemporal.lean): C21 fails for two operations with the same path and timestamp: the value depends on the runtime's sort.
* `C21_later_value_fails` (PropsTemporal.lean): C21 fails after `Snapshot(1)`: the result for time 5 contains the value written at time 6.
* `C44_duplicate_fails` (PropsText.lean): C44 fails: a text accepted by `FromJsonBytes` can be written differently by `ToJsonBytes`; two members with the same key become one.
* `C107_inner_returns_fails` (PropsTrackOk.lean): Without the order of times an inner window may panic although the larger one returns.
* `C101_nan_fails` (PropsTsonPrint.lean): C101 fails: with a number that is not finite the function panics, although its signature promises a text.
* `C101_deep_fails` (PropsTsonPrint.lean): C101 fails: a document can be too deep for the indented text, although `ToCompatibleTsonBytes` gives its bytes.
* `C101_timestamp_fails` (PropsTsonPrint.lean): C101 fails: the text shows a timestamp beyond 2^53 in full, but it is read as another one.
* `C04_empty_packaging_fails` (PropsVersions.lean): C04 boundary: for *no* operations the packaging matters. `Store(Patch{})` marks an empty patch as pending, so the next `Append` creates an (empty) version; `Store([]Patch{})` does not.
* `C71_key_remains_fails` (PropsVss.lean): C71: a key of the list can remain, in a map with only maps as members.
* `C72_distinct_fails` (PropsVss.lean): C72: with a neighbour of `children` two leaves can get the same name.
* `C72_timestamp_fails` (PropsVss.lean): C72: a member called `timestamp` hides its neighbours.
* `C73_empty_fails` (PropsVss.lean): C73: an empty map is lost.
* `C73_children_fails` (PropsVss.lean): C73: `children` does not come back.
* `C73_dot_fails` (PropsVss.lean): C73: a key with a dot becomes two maps.
* `C74_allowed_array_fails` (PropsVssGen.lean): C74: for an array type with allowed values a single value is drawn.
* `C74_allowed_ignored_fails` (PropsVssGen.lean): C74: allowed values of small integers are not looked at.
* `C74_min_max_fails` (PropsVssGen.lean): C74: the largest and the smallest value are not looked at.
* `C74_unknown_fails` (PropsVssGen.lean): C74: for the other array types nothing is drawn; an empty map remains.
* `C74_top_leaf_fails` (PropsVssGen.lean): C74: a leaf directly below the top ends the program with a panic.
* `C74_no_allowed_fails` (PropsVssGen.lean): C74: a list of allowed values that is empty ends the program with a panic.
* `C75_change_fails` (PropsVssGen.lean): C75: a value that is to be changed can be drawn again.
* `C75_nil_fails` (PropsVssGen.lean): C75: a nil value that is to be changed is replaced by an empty map, so it is no longer a leaf.
* `C75_array_fails` (PropsVssGen.lean): C75: an array of values without timestamp ends the program with a panic.
* `C76_stamp_fails` (PropsVssPatch.lean): C76: timestamps in nanoseconds are not kept.
* `C76_soon_fails` (PropsVssPatch.lean): C76: a reading that got a new timestamp soon after is not in the patch.
* `C76_infinite_fails` (PropsVssPatch.lean): C76: a number that JSON cannot represent ends the program with a panic.
* `C76_empty_fails` (PropsVssPatch.lean): C76: a map that is new and empty gives no patch but null.
* `C100_columns_fails` (PropsVssPrint.lean): **C100, the column does not hold.** There are texts (of 100000 lines) whose last line begins one column further to the right.
* `C100_patch_fails` (PropsVssPrint.lean): **C100, patches.** Numbers in patches are printed without their fraction: setting 1/2 and setting 0 look the same, although they are saved differently.
* `C77_exponent_fails` (PropsVssSave.lean): C77: a number below 0.0001 or from 1000000 on is written with an exponent; the file is not read.
* `C77_nil_fails` (PropsVssSave.lean): C77: if a data set contains a reading without value, the file is empty.
* `C77_nil_patch_fails` (PropsVssSave.lean): C77: a patch item without value is written with the Go syntax `<nil>`, which is not JSON.
* `C77_quote_fails` (PropsVssSave.lean): C77: the path is written without escapes; with a quotation mark in a key the file is not read.
* `C73_brackets_fails` (PropsVssTight.lean): C73, refuted: a value is stored whatever its path is. After a last part in brackets that is not an index, the value is lost.
* `C78_none_fails` (PropsWebDemo.lean): **C78** fails without patches: a request for the first data set, or one whose patches are all null, ends in a panic.
* `C78_empty_fails` (PropsWebDemo.lean): **C78** fails for empty patches: nothing changed, but the response is null instead of the data set.
* `C78_unchanged_fails` (PropsWebDemo.lean): **C78** fails for generated patches: their paths begin with a slash (C76), and then the response shows every member of the first data set that has a name as it was.
* `C78_generate_fails` (PropsWebDemo.lean): **C78** fails at the start: `Generate` needs a rate that neither the command line nor the defaults provide, and panics.
* `C78_served_fails` (PropsWebDemo.lean): **C78** fails for the files of a car: whatever was drawn, and whatever number of patches is asked for, a response shows every named member of the first data set as it was (or nothing at all, if no reading changed).
* `C78_between_fails` (PropsWebDemo.lean): **C78** fails for the patches between data sets: the patch beside data set 3 belongs to data set 1. From data set 2 to data set 3 the reading `a` changes back from false to true, but the third patch has no operation for it.
* `C96_outside_fails` (PropsWebFs.lean): **C96** fails in general: with a directory `patches/1` elsewhere, a text with slashes reads a file outside of the data.
* `C97_start_fails` (PropsWebFs.lean): **C97** fails for every start: the program never serves a request. Either the numbers of cars or files are missing, and it ends without a change, or it panics, and then all the data that was there is lost and only the metadata is written.
* `C103_selection_fails` (PropsWebState.lean): **C103 is violated** by a change of the selection: after "Append" for the first patch and its answer, the user chooses the second patch and waits for all answers; "Snapshot" then stores the result of the first patch under the name of the second.
* `C103_car_fails` (PropsWebState.lean): The same for cars: the result of the first car is stored under the name of the second.
* `C103_early_fails` (PropsWebState.lean): **C103 is violated** by a second press before the answer: an empty snapshot is stored.
* `C103_order_fails` (PropsWebState.lean): The view of a patch can stay behind, too: the answers of two choices may arrive in the other order; the page then shows the patch of the earlier choice beside the later selection.
* `C107_unordered_fails` (PropsWindows.lean): C107 fails for operations recorded out of order: the operation of time 6 is reported over the window 5 to 20, but not over the window 5 to 6.

## 6. Trusted base

* Lean 4.33 kernel.  No axioms were added; there is no `sorry`, `native_decide` or `bv_decide`.
* The correspondence between `/repo` and the model definitions (each definition cites file and lines).
* Go language semantics as described in section 1, and the standard library functions modelled from their
  documentation and source: `strings.Split/ReplaceAll/HasPrefix/NewReplacer`, `strconv.Atoi/ParseInt/ParseFloat/FormatInt/Quote`,
  `fmt %v/%d/%q`, `sort.Slice`, `sort.Search`, `sort.Strings`, `encoding/json`, `reflect.DeepEqual`.

Axioms each property theorem depends on (`#print axioms`):

* none: C76_order_fails, C76_stamp_fails, C89_empty_fails, C98_order_fails
* `propext`: C04_store_appends, C04_empty_packaging_fails, C06_empty_patch_fails, C06_descending_fails, C08_other_kinds_and_version, C08_version_zero_fails, C10_error_damages_fails, C10_panic_damages_fails, C10_root_array_fails, C11_consequences, C12_temporalTrack_readonly, C14_track_modifies_fails, C15_consequences, C16_unordered_fails, C17_parent_remove_fails, C17_remove_with_value_fails, C17_below_element_fails, C17_spelling_fails, C17_element_remove_fails, C19_missing_base_fails, C19_version_zero_fails, C22_escape_roundtrip, C22_escape_injective, C23_slash_key_fails, C23_slash_key_wrong_member_fails, C23_root_fails, C24_leading_slash_fails, C24_dot_fails, C24_below_array_fails, C24_unsupported_value_fails, C25_array_fails, C26_below_array_fails, C27_empty_fails, C27_root_array_fails, C27_array_removal_fails, C33_control_char_fails, C33_exponent_fails, C33_top_leaf_fails, C33_control_text, C34_null_fails, C35_null_fails, C35_top_null, C36_empty_timestamp_fails, C37_empty, C37_suffix_dropped, C38_timestamp_fails, C38_nan_fails, C38_utf8_fails, C38_key_fails, C38_null_fails, C39_null_fails, C40_lost_error, C40_timestamp_fails, C40_utf8_fails, C40_root_leaf_fails, C40_infinite_fails, C42_int_panics, C43_not_leaf, C44_duplicate_fails, C45_null_value_fails, C45_injection_fails, C45_smuggle_fails, C45_escape_fails, C45_value_fails, C46_types, C46_read_fails, C47_utf8_fails, C52_outside_fails, C52_prefix_fails, C54_path_partial, C54_injective_partial, C56_root_array_fails, C58_tson_inside_fails, C58_above_fails, C59_order_fails, C59_panic_fails, C60_tson_patches, C61_patches, C62_names_fails, C62_null_fails, C63_once_fails, C63_empty_key_fails, C64_all_fails, C64_fresh_fails, C65_source_fails, C65_cooldown_fails, C71_key_remains_fails, C72_distinct_fails, C72_timestamp_fails, C72_root, C73_empty_fails, C73_children_fails, C73_dot_fails, C73_brackets_fails, C74_allowed_array_fails, C74_top_leaf_fails, C74_no_allowed_fails, C75_change_fails, C75_nil_fails, C75_array_fails, C77_lines_panic, C77_unnamed_line, C77_nil_fails, C77_nil_patch_fails, C77_quote_fails, C77_absent_panics, C78_args, C78_original, C78_unreadable, C78_generate_fails, C78_arguments, C79_empty_partial, C82_nan_fails, C82_trans_fails, C82_boundary_fails, C83_drift_fails, C83_pattern_panics, C83_pattern_params, C83_slopes, C83_constant, C83_toggle, C83_choices_fails, C84_exact_fails, C84_single_fails, C88_year_fails, C89_special, C91_zero_fails, C91_bandwidth_fails, C93_place_fails, C95_reuse_fails, C97_file, C98_apart, C100_data_nan, C100_patch_fails, C101_nan_fails, C102_string, C102_words, C103_selection_fails, C103_car_fails, C103_early_fails, C103_order_fails, C103_button, C104_names_needed, C105_temporalTrack_fails, C107_inner_returns_fails, C107_unordered_fails, C108_first_fails
* `Quot.sound`, `propext`: C03_append_any, C04_packaging_irrelevant, C07_later_snapshot_fails, C18_order_fails, C18_initial_value_fails, C18_new_path_fails, C20_empty_window_fails, C20_gap_fails, C21_selection_partial, C21_one_version_only_fails, C21_nothing_selected_fails, C21_tie_fails, C21_later_value_fails, C23_getValue_partial, C23_reaches_unique, C23_decimal_index, C28_nan_differs, C30_container, C30_empty_key_fails, C31_leading_slash_fails, C31_array_length_fails, C31_times_length_fails, C31_nested_fails, C31_nested_array_fails, C31_dot_fails, C31_slash_fails, C33_escapes, C35_fuel, C41_content, C41_nil, C44_fuel, C45_null_members, C46_text, C48_beyond, C49_add_partial, C49_single_fails, C49_exists, C50_track, C50_mem, C50_empty_fails, C51_events, C52_snapshot_partial, C52_wf, C52_members_partial, C53_disjoint_partial, C53_inForce_partial, C53_zero_fails, C53_tie_fails, C53_removed_fails, C53_single_fails, C54_collision_fails, C55_sound_partial, C55_complete_partial, C55_window_fails, C58_json_written, C58_tson_written, C58_frame, C58_json_inside, C59_built_partial, C59_start_partial, C60_json_patches_fails, C62_below, C62_sensor, C62_only, C62_elements, C63_patches_partial, C64_filter, C65_switches, C65_alternates_partial, C65_stuck_fails, C67_lost_fails, C67_top_fails, C67_list_fails, C68_before_fails, C68_descending_fails, C68_kept_fails, C69_before_fails, C69_zero_fails, C70_times_succeeds, C71_panics, C75_value, C76_leaves, C76_soon_fails, C76_infinite_fails, C76_empty_fails, C77_line, C78_response, C78_none_fails, C78_empty_fails, C78_between_fails, C83_kind, C83_stuck, C83_longitude_fails, C83_temperature_fails, C83_toggled_number, C83_brake_fails, C83_loop_fails, C85_before_fails, C85_repeat_fails, C85_fresh_fails, C85_missing_fails, C86_twice_fails, C86_dropped_fails, C87_document, C89_table, C89_int, C95_frame, C95_sort_fails, C95_slice_fails, C96_plain, C96_only_partial, C96_patch, C96_patch_frame, C96_home, C97_start_fails, C98_names, C98_order_partial, C98_contents, C98_reading, C99_only_traffic, C99_stops, C99_variable, C100_numbered, C100_text, C100_injective, C102_key, C103_names, C105_set_fails, C105_dead_fails, C106_temporalSnapshot_fails, C109_order_fails, C109_new_path_fails, C111_arrays_fails, C111_empty_fails, C111_times_fails
* `Classical.choice`, `Quot.sound`, `propext`: C01_versions_gap_free, C01_stored_snapshots, C02_resorted, C02_version_kept, C02_no_operation_lost, C02_from_start, C03_append_commits_pool, C05_base_snapshot, C06_snapshot_is_replay_partial, C06_first_snapshot_partial, C07_all_versions_alias_violated, C07_reference_stable_partial, C07_passive_calls_partial, C08_set_partial, C08_set_read_back, C08_set_changes_versions_violated, C09_testSet_decision, C10_single_segment_partial, C10_damage_confined_partial, C10_panic_leaves, C10_error_exact, C10_patch_exact, C10_root_array, C10_set_loses_state_fails, C11_temporalTrack, C12_slice_keeps_log, C13_track_range, C14_track_effect_partial, C14_track_readonly_partial, C15_compact, C16_compact_idempotent, C16_track_of_compacted_partial, C17_compact_replay_partial, C17_elements_partial, C18_history_partial, C18_history_returns_partial, C19_slice_contents_partial, C19_slice_answers_partial, C19_start_stored_partial, C19_missing_base_violated, C20_temporalSlice_contents_partial, C20_snapshots_partial, C20_outcome_partial, C20_duplicate_versions_violated, C20_versions_partial, C21_considered_partial, C21_latest_values_partial, C24_written_leaf, C24_read_back_partial, C24_element_read_back, C24_any, C24_lost_fails, C25_frame_partial, C25_elements_partial, C25_root_array, C26_remove_member, C26_remove_element, C26_root_array, C27_sequential, C27_split_partial, C27_in_place, C27_caller, C27_array_remove, C27_each, C27_array_partial, C27_array_growth_fails, C28_equal_no_patch, C29_empty_patch_equal, C30_complete_partial, C30_same_shape, C30_sound_partial, C31_stripped_partial, C31_times_partial, C31_below_empty_name_partial, C31_below_times_partial, C31_generated_patch_violated, C31_times_violated, C32_latest_timestamp, C32_order_independent, C32_newest, C33_roundtrip_partial, C33_exact_partial, C33_unreadable, C33_no_silent_change, C33_marshal_nil, C33_plain_number, C33_whole_text, C33_whole_plain, C34_indent_partial, C35_total_partial, C36_tokens, C36_insert, C36_front, C36_angle, C37_container, C37_leaf, C37_range, C37_default, C37_distinct, C38_roundtrip_partial, C38_rounding, C38_null, C38_too_deep, C39_roundtrip_partial, C39_bytes_partial, C39_depth_fails, C40_equal_partial, C40_equal_float, C40_untimed_partial, C40_equivalence, C41_sorted, C41_compatible, C41_text, C42_parseValue, C42_agrees, C43_toArray, C44_escapes, C44_exponents, C44_value, C44_document, C44_roundtrip_partial, C44_fromJson, C44_toJson, C44_equal, C44_json_partial, C45_text, C45_roundtrip_partial, C45_store_partial, C46_read_partial, C47_maps, C47_fromJson, C47_roundtrip_partial, C48_period_partial, C48_negative_fails, C52_only, C53_latest_partial, C53_before_partial, C53_snapshot_partial, C56_refused_partial, C56_patch_partial, C56_index, C57_write_outcome, C57_remove_outcome, C57_nil_refused, C60_documents, C60_json_patches_partial, C61_counts, C62_vehicle_partial, C64_events, C64_found, C66_range, C67_store_partial, C68_queries_partial, C69_agree_partial, C70_equal, C70_matches, C70_plain, C70_plain_succeeds, C70_times, C71_values, C71_maps, C71_idempotent, C71_catalogue, C72_exact, C72_distinct_partial, C73_roundtrip_partial, C73_path, C73_fresh, C74_value_partial, C74_allowed_ignored_fails, C74_min_max_fails, C74_unknown_fails, C74_names, C74_signals_partial, C74_range_partial, C75_next_partial, C75_follows, C75_chain, C76_order, C76_again, C76_document, C76_patch_partial, C76_next_partial, C76_stamp, C76_moved, C77_empty, C77_whole, C77_data_partial, C77_unreadable, C77_patch_partial, C77_between_partial, C77_exponent_fails, C78_sequence, C78_unchanged_fails, C78_files_partial, C78_served_fails, C79_reading_fails, C80_times, C80_count, C80_each, C80_zero_fails, C80_estimate_partial, C80_estimate_fails, C82_close, C82_near, C82_kinds, C82_same, C82_refl, C82_symm, C82_documents, C83_range_fails, C83_noise, C83_sine, C83_linear, C83_walk, C83_stepped, C83_range_partial, C81_switches, C81_range_long_partial, C81_documents_partial, C81_range_partial, C81_rows_partial, C81_mixed_fails, C81_clock_fails, C81_rows, C81_updates, C81_vectors, C81_switch, C81_documents_fails, C81_finite, C84_times_partial, C84_even_partial, C84_agree_partial, C85_tracks_partial, C85_events_partial, C85_agree_partial, C86_all_partial, C86_zero_all_fails, C86_short_all_fails, C86_run_partial, C86_urban_partial, C86_zero_fails, C86_short_fails, C86_handed_partial, C86_snapshots_partial, C86_tracks_partial, C86_events_partial, C87_all_partial, C87_handed_partial, C87_urban_partial, C87_patches_partial, C87_stops, C87_clock_fails, C88_names, C88_latest_partial, C88_upTo, C88_clock_fails, C88_second_fails, C88_stamp, C88_taken, C89_fixed, C89_order, C90_scenario, C90_shown_partial, C90_files, C90_results, C90_cumulative, C90_timing, C90_sensors, C90_values_partial, C90_switch, C90_mixed_fails, C90_values, C90_values_fails, C90_sizes_partial, C91_patches, C91_nothing_fails, C91_timing, C91_diff, C91_reduction, C91_range, C91_sign, C91_bandwidth, C92_table, C92_names, C92_files, C92_all_partial, C92_clock_fails, C93_files_partial, C93_logument_partial, C93_drive_partial, C94_one_document, C94_anywhere, C94_only_given, C95_values_partial, C95_track, C96_served, C96_outside_fails, C96_response, C97_generated_partial, C99_runs, C99_whole_partial, C99_scenarios_fails, C99_seed_fails, C99_restart, C100_data_lines, C100_columns, C100_columns_fails, C100_data, C100_data_read_partial, C100_patch_whole, C101_outcome, C101_layout, C101_reads, C101_roundtrip_partial, C101_deep_fails, C101_timestamp_fails, C102_shown, C102_block, C103_data_partial, C103_saved_partial, C103_view, C104_not_json, C104_json_iff, C105_slice_partial, C105_track_partial, C105_append, C106_temporalTrack_partial, C106_compact_partial, C106_track_partial, C106_snapshot_partial, C106_empty_fails, C107_inner_returns_partial, C107_inner_partial, C107_cut_partial, C108_all_partial, C108_window_partial, C108_all_returns, C109_track_partial, C109_paths, C109_again_partial, C109_returns, C110_snapshot_partial, C110_generated_violated, C110_below_partial, C110_times_partial, C110_times_violated, C110_series_partial, C110_series_times_partial, C110_times_series_partial, C110_times_below_partial, C111_compact_partial, C111_track_partial, C111_window_partial
