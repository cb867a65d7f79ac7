{"id": "C01", "title": "Version numbers stay gap-free over every call history", "statement": "Starting from NewLogument, after any finite sequence of Store, Append, Set, TestSet, Snapshot, TemporalSnapshot, Track, TemporalTrack, Slice, TemporalSlice, Compact and History calls (including calls that panic and are recovered by the caller), the version list is exactly 0,1,...,n in this order, a patch is recorded for exactly the versions 1..n, and consequently Append never reports 'versions are not grown' or 'patch for the next version already exists' and no later call panics with 'Versions are not continuous'.", "quantifier": "all initial documents, all call sequences of any length with any arguments, all map-iteration and sort orders chosen by the runtime", "why_tests_cant": "a test fixes one short call sequence; the claim is an invariant over unboundedly many histories, including recovered panics", "anchors": ["internal/logument/logument.go:NewLogument", "internal/logument/logument.go:Append", "internal/logument/logument.go:isContinuous", "internal/logument/logument.go:isGrown", "internal/logument/logument.go:Store", "internal/logument/logument.go:Set", "internal/logument/logument.go:TestSet"]}
{"id": "C02", "title": "No accepted operation is lost, duplicated or reordered", "statement": "As long as the log is not explicitly compacted (no Track, Compact, History) and no TemporalSnapshot re-sorts a version, the operations recorded in versions 1..n read in version order, followed by the operations still waiting in the pool, are exactly the operations accepted so far by Store, Set and TestSet, in the order in which they were accepted, each exactly once.", "quantifier": "all call sequences of any length over Store/Set/TestSet/Append/Snapshot/TemporalTrack/Slice, all operations", "why_tests_cant": "loss or reordering shows up only for particular interleavings of Store/Set and Append; tests sample a handful", "anchors": ["internal/logument/logument.go:Store", "internal/logument/logument.go:Append", "internal/logument/logument.go:Set", "internal/logument/logument.go:TestSet"]}
{"id": "C03", "title": "Append commits the whole pool as exactly one new version", "statement": "When operations (or an empty non-nil patch) are pending, Append creates exactly one new version, numbered one above the latest; its patch is the pending list unchanged and in order; the pool becomes empty; every earlier version's patch, every stored snapshot and the current state are untouched. When nothing is pending Append changes nothing and reports success. An Append directly after an Append is therefore always a no-op.", "quantifier": "all loguments satisfying the version invariant, all pool contents (nil, empty, any length)", "why_tests_cant": "tests use one or two fixed pools; the nil/empty distinction and untouched older versions must hold for all states", "anchors": ["internal/logument/logument.go:Append"]}
{"id": "C04", "title": "Store is insensitive to the packaging of the operations", "statement": "Storing a list of operations one by one, as one Patch, as a []Operation, or split arbitrarily into a []Patch appends the same operations in the same order to the pool; storing x and then y leaves the same pool as storing x followed by y in one call. Store never touches versions, snapshots, recorded patches or the current state.", "quantifier": "all operation lists, all ways of splitting them, all previous pool contents", "why_tests_cant": "tests cover one packaging each; the claim is over all splittings and all pool states", "anchors": ["internal/logument/logument.go:Store"]}
{"id": "C05", "title": "The base snapshot used for version v is the newest one not newer than v", "statement": "Snapshot(v) starts from the stored snapshot with the greatest version not exceeding v: if a snapshot for v is already stored it is returned as is, without applying anything and without changing the logument; if v exceeds the latest version, or no stored snapshot is old enough, the call panics and leaves the logument unchanged.", "quantifier": "all sets of stored snapshot versions, all v", "why_tests_cant": "the binary search over a sorted copy of the map keys has boundary cases for every set of versions; tests try a few", "anchors": ["internal/logument/logument.go:findLatest", "internal/logument/logument.go:Snapshot", "internal/logument/logument.go:getSortedVersions"]}
{"id": "C06", "title": "Snapshot(v) equals replaying every recorded operation up to version v", "statement": "For a logument built by NewLogument from an object document and grown only by Store and Append (no earlier Snapshot of a newer version, no Set), the first Snapshot(v) returns the document obtained by applying, in order, every operation of versions 1..v to the initial document.", "quantifier": "all object documents, all operation lists per version, all v up to the latest version", "why_tests_cant": "the replay result depends on the whole operation history; the code always re-applies to the base document and is right only because of in-place mutation, which no finite set of tests can establish in general", "anchors": ["internal/logument/logument.go:Snapshot", "internal/tsonpatch/tsonpatch.go:ApplyPatch", "internal/tsonpatch/tsonpatch.go:ApplyOperation"]}
{"id": "C07", "title": "A snapshot handed out or stored for a version never changes afterwards", "statement": "Once Snapshot(v) has been taken (or version 0 created by NewLogument), later calls (Snapshot of other versions, Set, TestSet, TemporalSnapshot) do not change the document stored for version v, so asking for version v again yields the same document.", "quantifier": "all histories, all versions v, all later calls", "why_tests_cant": "requires comparing the state of one version across arbitrarily long later histories; aliasing bugs surface only in particular orders of calls", "anchors": ["internal/logument/logument.go:Snapshot", "internal/logument/logument.go:NewLogument", "internal/logument/logument.go:Set", "internal/tsonpatch/tsonpatch.go:ApplyPatch"]}
{"id": "C08", "title": "Set and TestSet change the current state only", "statement": "Set(add/replace) makes the addressed leaf of the current state carry the new value and timestamp and records exactly that operation in the pool; it leaves versions, recorded patches and the documents stored for older versions (in particular version 0) untouched. Set with any other operation kind changes nothing. The version argument has no influence.", "quantifier": "all loguments, all operations, all version arguments", "why_tests_cant": "the aliasing between current state and stored snapshots is invisible to a test that looks only at the current state", "anchors": ["internal/logument/logument.go:Set", "internal/logument/logument.go:NewLogument", "internal/tsonpatch/tsonpatch.go:ApplyOperation"]}
{"id": "C09", "title": "TestSet records an operation exactly when the value changes", "statement": "TestSet(replace, path, v) compares v with the value at path in the latest version's stored document: if that document has the same value of the same type there, nothing is recorded and nothing changes; if the path is missing the operation is recorded as an add; otherwise it is recorded as given. TestSet(add) always records. Other kinds are ignored.", "quantifier": "all loguments, all documents, all paths and values, all timestamps", "why_tests_cant": "decision logic over the full product of document shape, path existence and value types", "anchors": ["internal/logument/logument.go:TestSet", "internal/logument/logument.go:leafCompareValue", "internal/tson/tson.go:GetValue"]}
{"id": "C10", "title": "A failing operation leaves the document unchanged", "statement": "If ApplyOperation (or Set) reports an error or panics, the document it was applied to is the same as before the call.", "quantifier": "all documents, all operations, all failure points inside the traversal", "why_tests_cant": "atomicity must hold at every failure point of the recursion; tests exercise success paths", "anchors": ["internal/tsonpatch/tsonpatch.go:ApplyOperation", "internal/tsonpatch/tsonpatch.go:applyTraverse", "internal/logument/logument.go:Set"]}
{"id": "C11", "title": "TemporalTrack returns exactly the value changes inside the time window", "statement": "TemporalTrack(tsi,tsj) returns, grouped by version and in recorded order, exactly those recorded operations whose timestamp lies in [tsi,tsj] and whose value differs from the value of the last returned operation on the same path (the first operation per path in the window is always returned). No operation outside the window is returned, versions without a returned operation are absent, and per path no two consecutive returned operations carry the same value.", "quantifier": "all logs, all windows, all values (excluding values whose comparison panics in Go)", "why_tests_cant": "exact characterisation over all logs; sampling cannot exclude a missed boundary or dropped change", "anchors": ["internal/logument/logument.go:TemporalTrack"]}
{"id": "C12", "title": "TemporalTrack and Slice-style queries do not modify the log", "statement": "TemporalTrack leaves the logument exactly as it was (versions, snapshots, patches, pool, documents), for every window, and an inverted window (tsi > tsj) panics without change.", "quantifier": "all loguments, all windows", "why_tests_cant": "absence of side effects must hold for every state", "anchors": ["internal/logument/logument.go:TemporalTrack"]}
{"id": "C13", "title": "Track reports the operations of the requested version range", "statement": "Track(vi,vj) with vi<=vj<=latest returns for exactly the recorded versions in [vi,vj] the operations recorded for them at the time of the call; every other range panics and changes nothing.", "quantifier": "all loguments, all vi, vj", "why_tests_cant": "range boundaries for every log length", "anchors": ["internal/logument/logument.go:Track"]}
{"id": "C14", "title": "Track is a read-only query", "statement": "Track(vi,vj) does not change the recorded patches, so a later Snapshot or Track gives the same answer as without the call.", "quantifier": "all loguments, all vi, vj", "why_tests_cant": "a hidden write-back is only visible through a second query on particular logs", "anchors": ["internal/logument/logument.go:Track"]}
{"id": "C15", "title": "Compact only removes redundant operations", "statement": "Compact(prefix) keeps every version (possibly with an empty patch), keeps the relative order, keeps every operation whose path does not start with prefix, keeps for each matching path its first operation and every operation whose value differs from the previously kept one on that path, and removes nothing else; afterwards no two consecutive operations on the same matching path carry the same value. It does not touch snapshots, versions or the pool.", "quantifier": "all logs, all prefixes, all values (excluding values whose comparison panics in Go)", "why_tests_cant": "exact characterisation over unbounded logs", "anchors": ["internal/logument/logument.go:Compact"]}
{"id": "C16", "title": "Compaction is idempotent", "statement": "Calling Compact with the same prefix twice leaves the same log as calling it once; likewise TemporalTrack over an already compacted log returns the operations in the window unchanged up to window-initial duplicates.", "quantifier": "all logs, all prefixes", "why_tests_cant": "idempotence over unbounded logs", "anchors": ["internal/logument/logument.go:Compact", "internal/logument/logument.go:TemporalTrack"]}
{"id": "C17", "title": "Compaction preserves the values at every version", "statement": "For every version v, replaying the compacted log up to v gives a document that has the same value at every path as replaying the original log (only timestamps may differ).", "quantifier": "all logs, all prefixes, all versions, all initial documents", "why_tests_cant": "replay equivalence over all logs; counterexamples need a remove of a parent between two equal writes", "anchors": ["internal/logument/logument.go:Compact", "internal/logument/logument.go:Snapshot", "internal/tsonpatch/tsonpatch.go:ApplyPatch"]}
{"id": "C18", "title": "History lists every distinct value of every matching path, oldest first", "statement": "History(prefix) returns for exactly the matching paths of the log the value the path had in the initial snapshot followed by all value-changing operations on the path in the order in which they were recorded.", "quantifier": "all logs, all prefixes, all map iteration orders", "why_tests_cant": "depends on Go's randomized map iteration order, which a test run samples once", "anchors": ["internal/logument/logument.go:History", "internal/logument/logument.go:Compact"]}
{"id": "C19", "title": "A slice is a self-contained logument with the same answers", "statement": "Slice(vi,vj) contains exactly the patches of versions vi..vj and the stored snapshots of this range, never modifies the patches of the original, and for every v in [vi,vj] the slice can answer Snapshot(v) with the same document as the original.", "quantifier": "all loguments, all vi<=vj<=latest, all sets of stored snapshots", "why_tests_cant": "self-containedness must hold for every set of previously stored snapshots and both range ends including 0", "anchors": ["internal/logument/logument.go:Slice", "internal/logument/logument.go:Snapshot"]}
{"id": "C20", "title": "A temporal slice contains exactly the operations of the window and is usable", "statement": "TemporalSlice(tsi,tsj) contains exactly the recorded operations with timestamp in [tsi,tsj], per version in recorded order; its version list has each version once, in ascending order, so that later calls on the slice do not panic.", "quantifier": "all loguments, all windows", "why_tests_cant": "a duplicate in the version list appears only when a version has two or more operations in the window", "anchors": ["internal/logument/logument.go:TemporalSlice"]}
{"id": "C21", "title": "TemporalSnapshot(t) reflects all operations up to time t and nothing later", "statement": "TemporalSnapshot(t) returns a document in which every path carries the value of the latest recorded operation on it with timestamp <= t (over all versions), or its initial value if there is none.", "quantifier": "all logs, all t, all sort and map iteration orders", "why_tests_cant": "time-travel reads must be right for every log and every t; the order of equal timestamps and of map iteration is chosen by the runtime", "anchors": ["internal/logument/logument.go:TemporalSnapshot"]}
{"id": "C22", "title": "JSON-pointer escaping is lossless", "statement": "Decoding the RFC 6901 escape of any key gives back the key, for every byte string.", "quantifier": "all byte strings, including those containing '~0', '~1', '~01'", "why_tests_cant": "escape sequences can combine in unboundedly many ways", "anchors": ["internal/tsonpatch/tsonpatch.go:rfc6901Encoder", "internal/tsonpatch/tsonpatch.go:rfc6901Decoder", "internal/tson/tson.go:GetValue"]}
{"id": "C23", "title": "GetValue resolves a pointer to the nested member it spells", "statement": "For every sequence of keys, GetValue on the pointer '/' k1 '/' k2 ... (each key escaped) returns exactly the member reached by following k1, k2, ... through objects (by key) and arrays (by decimal index), and an error if there is none.", "quantifier": "all documents, all key sequences, all keys", "why_tests_cant": "arbitrary nesting and arbitrary key content including '/', '~', '.' and empty keys", "anchors": ["internal/tson/tson.go:GetValue", "internal/tsonpatch/tsonpatch.go:makePath"]}
{"id": "C24", "title": "A written value can be read back", "statement": "After ApplyOperation(add or replace, path, v, ts) succeeds on an object document, looking up the same path returns a leaf with value v and timestamp ts.", "quantifier": "all documents, all paths, all values and timestamps", "why_tests_cant": "set-get law over all documents and paths", "anchors": ["internal/tsonpatch/tsonpatch.go:ApplyOperation", "internal/tsonpatch/tsonpatch.go:applyTraverse", "internal/tson/tson.go:GetValue"]}
{"id": "C25", "title": "An operation affects only the addressed location", "statement": "After a successful ApplyOperation on an object document every location that is neither a prefix nor an extension of the addressed path holds the same value and timestamp as before.", "quantifier": "all documents, all operations, all other locations", "why_tests_cant": "frame property over all pairs of paths", "anchors": ["internal/tsonpatch/tsonpatch.go:ApplyOperation", "internal/tsonpatch/tsonpatch.go:applyTraverse"]}
{"id": "C26", "title": "Remove makes the path unreadable and nothing else", "statement": "After a successful ApplyOperation(remove, path) whose parent is an object, lookups at or below the path fail; removing an array element shifts exactly the later elements down by one.", "quantifier": "all documents and paths", "why_tests_cant": "law over all documents", "anchors": ["internal/tsonpatch/tsonpatch.go:ApplyOperation", "internal/tsonpatch/tsonpatch.go:applyTraverse"]}
{"id": "C27", "title": "Applying a patch applies its operations one after another", "statement": "On an object document ApplyPatch(p followed by q) has the same effect as ApplyPatch(p) and then ApplyPatch(q); the returned document is the mutated input document; the empty patch returns the document itself.", "quantifier": "all documents, all patches and splittings", "why_tests_cant": "the loop re-reads the original document each time; sequential composition for all patches is an induction", "anchors": ["internal/tsonpatch/tsonpatch.go:ApplyPatch"]}
{"id": "C28", "title": "Documents with equal values generate no patch", "statement": "GeneratePatch(a,b) is empty whenever a and b have the same structure and the same leaf values (timestamps may differ); GeneratePatchWithTimestamp(a,b) is empty whenever additionally the timestamps agree; neither fails or panics on such inputs.", "quantifier": "all pairs of documents, all map iteration orders", "why_tests_cant": "over all document pairs", "anchors": ["internal/tsonpatch/tsonpatch.go:GeneratePatch", "internal/tsonpatch/tsonpatch.go:GeneratePatchWithTimestamp", "internal/tsonpatch/tsonpatch.go:handleValues", "internal/tsonpatch/tsonpatch.go:handleValuesWithTimestamp", "internal/tsonpatch/tsonpatch.go:diff"]}
{"id": "C29", "title": "An empty patch means equal values", "statement": "If GeneratePatch(a,b) succeeds and is empty then a and b have the same structure and leaf values; if GeneratePatchWithTimestamp(a,b) succeeds and is empty they also agree in all timestamps.", "quantifier": "all pairs of documents", "why_tests_cant": "completeness of the diff over all document pairs", "anchors": ["internal/tsonpatch/tsonpatch.go:GeneratePatch", "internal/tsonpatch/tsonpatch.go:diff", "internal/tsonpatch/tsonpatch.go:compareArray", "internal/tsonpatch/tsonpatch.go:processArray"]}
{"id": "C30", "title": "Every generated operation describes a real difference", "statement": "Every operation in GeneratePatch(a,b) is an add of a path missing in a with the value and timestamp it has in b, a remove of a path missing in b, or a replace of a path whose value differs, carrying b's value and timestamp (array-length changes excepted); every path occurs at most once.", "quantifier": "all pairs of documents without arrays of different length, all map iteration orders", "why_tests_cant": "minimality and soundness over all document pairs", "anchors": ["internal/tsonpatch/tsonpatch.go:GeneratePatch", "internal/tsonpatch/tsonpatch.go:diff", "internal/tsonpatch/tsonpatch.go:handleValues"]}
{"id": "C31", "title": "Diff and apply are inverse", "statement": "If GeneratePatch(a,b) succeeds, applying the patch to a yields a document with the same values as b.", "quantifier": "all pairs of object documents", "why_tests_cant": "round trip over all document pairs", "anchors": ["internal/tsonpatch/tsonpatch.go:GeneratePatch", "internal/tsonpatch/tsonpatch.go:ApplyPatch"]}
{"id": "C32", "title": "GetLatestTimestamp is the maximum leaf timestamp", "statement": "For an object or array GetLatestTimestamp is the least number that is >= 0 and >= every leaf timestamp inside (0 if all are negative or there are none), independent of the iteration order; for a leaf it is its timestamp; it panics exactly if the document contains a null.", "quantifier": "all documents, all map iteration orders", "why_tests_cant": "over all document shapes", "anchors": ["internal/tson/tson.go:GetLatestTimestamp"]}
{"id": "C33", "title": "Text serialization round-trips", "statement": "Unmarshal(Marshal(t)) yields t again (negative timestamps read back as -1) for every document.", "quantifier": "all documents, all map iteration orders of Marshal", "why_tests_cant": "round trip over all strings, numbers and nestings", "anchors": ["internal/tson/serialization.go:Marshal", "internal/tson/serialization.go:Unmarshal"]}
{"id": "C34", "title": "Indented serialization denotes the same document", "statement": "For every indentation consisting of white space, Unmarshal(MarshalIndent(t)) yields the same document as Unmarshal(Marshal(t)).", "quantifier": "all documents, all white-space prefixes and indents", "why_tests_cant": "over all documents and indentations", "anchors": ["internal/tson/serialization.go:MarshalIndent", "internal/tson/serialization.go:Unmarshal"]}
{"id": "C35", "title": "The parser is total", "statement": "Unmarshal terminates on every byte string with a document or an error and never crashes.", "quantifier": "all byte strings", "why_tests_cant": "fuzzing samples inputs; totality ranges over all of them", "anchors": ["internal/tson/serialization.go:Unmarshal", "internal/tson/serialization.go:wrapIfPrimitive"]}
{"id": "C36", "title": "White space between tokens is irrelevant", "statement": "Inserting spaces, tabs or newlines in front of a value, or before any closing token accepted by the parser, does not change the parsed document.", "quantifier": "all byte strings and all white-space insertions", "why_tests_cant": "over all inputs", "anchors": ["internal/tson/serialization.go:skipWhitespace", "internal/tson/serialization.go:parseVal", "internal/tson/serialization.go:expect"]}
{"id": "C37", "title": "Parsed timestamps are well-formed", "statement": "Every leaf timestamp produced by Unmarshal is -1 or in 0..2^63-1; a member without timestamp gets 0 inside containers and -1 at top level; '<>' gives -1.", "quantifier": "all byte strings", "why_tests_cant": "over all inputs", "anchors": ["internal/tson/serialization.go:parseTimestamp", "internal/tson/serialization.go:parseObject", "internal/tson/serialization.go:parseArray"]}
{"id": "C38", "title": "Compatible-JSON conversion round-trips", "statement": "FromCompatibleTsonBytes(ToCompatibleTsonBytes(t)) yields t for every document.", "quantifier": "all documents, all int64 timestamps", "why_tests_cant": "precision loss appears only for timestamps above 2^53", "anchors": ["internal/tson/tson.go:ToCompatibleTsonBytes", "internal/tson/tson.go:FromCompatibleTsonBytes", "internal/tson/tson.go:checkLeaf"]}
{"id": "C39", "title": "Plain-JSON import and export are inverse", "statement": "ToJson(FromJson(j)) = j for every JSON object or array j, and all leaves created by FromJson have timestamp -1.", "quantifier": "all JSON documents", "why_tests_cant": "including user data that looks like a leaf encoding; over all documents", "anchors": ["internal/tson/tson.go:FromJson", "internal/tson/tson.go:ToJson", "internal/tson/tson.go:checkLeaf"]}
{"id": "C40", "title": "Equal and EqualWithoutTimestamp decide document equality", "statement": "Equal(a,b) is true exactly if a and b have the same structure, values and timestamps; EqualWithoutTimestamp(a,b) is true exactly if they have the same structure and values.", "quantifier": "all pairs of documents", "why_tests_cant": "both directions over all document pairs", "anchors": ["internal/tson/tson.go:Equal", "internal/tson/tson.go:EqualWithoutTimestamp"]}
{"id": "C41", "title": "Text and sorted compatible forms do not depend on map order", "statement": "Two documents that are equal as Go maps (same entries) give parse-equal Marshal texts and identical ToCompatibleTsonBytesSorted results, whatever order the runtime iterates in.", "quantifier": "all documents, all iteration orders", "why_tests_cant": "map iteration order is randomized per run", "anchors": ["internal/tson/serialization.go:marshalObject", "internal/tson/tson.go:toSortedInterface"]}
{"id": "C42", "title": "The decoded-JSON parser agrees with the compatible form", "statement": "parseValue applied to the decoded compatible form of a document yields the document, nil included, for timestamps that fit a float64; on nil-free documents it agrees with FromCompatibleTsonBytes.", "quantifier": "all documents that JSON can represent", "why_tests_cant": "the function is unexported and not called; agreement of two independent decoders over all documents", "anchors": ["internal/tson/tson.go:parseValue", "internal/tson/tson.go:parseObject", "internal/tson/tson.go:parseArray", "internal/tson/tson.go:parseLeaf"]}
{"id": "C43", "title": "ToArray succeeds exactly on arrays of leaves", "statement": "ToArray(a) succeeds exactly if every element of a is a leaf, and then returns the values of the leaves in order; any other element, nil included, is an error and never a panic.", "quantifier": "all arrays", "why_tests_cant": "over arrays of any length with the offending element at any position", "anchors": ["internal/tson/tson.go:ToArray"]}
{"id": "C44", "title": "JSON texts are read back as bytes", "statement": "The bytes written for a value or document, with escapes, surrogates, number formats and sorted members, are read by the JSON reader as the value or document that was written; FromJsonBytes, ToJsonBytes, Equal and EqualWithoutTimestamp therefore behave on bytes as the properties C38 to C43 say.", "quantifier": "all values and documents with 64-bit integers, all texts", "why_tests_cant": "all strings, floats and nestings; every combination of escapes", "anchors": ["internal/tson/tson.go:ToCompatibleTsonBytes", "internal/tson/tson.go:FromCompatibleTsonBytes", "internal/tson/tson.go:FromJsonBytes", "internal/tson/tson.go:ToJsonBytes", "internal/tson/tson.go:Equal"]}
{"id": "C45", "title": "The text of a patch is read back", "statement": "Unmarshal applied to the text that Patch.String gives for a patch returns the same operations, and storing the text is storing the patch.", "quantifier": "all patches", "why_tests_cant": "paths and values contain arbitrary text; injection through quotation marks needs adversarial inputs", "anchors": ["internal/tsonpatch/tsonpatch.go:String", "internal/tsonpatch/tsonpatch.go:Unmarshal", "internal/logument/logument.go:Store"]}
{"id": "C46", "title": "Operation.Marshal", "statement": "Marshal of an operation fails exactly if the value cannot be written; its text is the text of String, the value left out only if it is nil and the operation is not add, replace or test; reading the text gives the operation.", "quantifier": "all operations", "why_tests_cant": "all operation types, paths and values", "anchors": ["internal/tsonpatch/tsonpatch.go:Marshal", "internal/tsonpatch/tsonpatch.go:Unmarshal"]}
{"id": "C47", "title": "FromJson of a patch", "statement": "FromJson applied to a patch returns the same operations, one for each, whatever characters types, paths and values contain.", "quantifier": "all patches", "why_tests_cant": "all texts, including quotation marks, control characters and invalid UTF-8", "anchors": ["internal/tsonpatch/tsonpatch.go:FromJson", "internal/tsonpatch/tsonpatch.go:Unmarshal"]}
{"id": "C48", "title": "Periods of the TJSON store", "statement": "A period written as text is read back with the same bounds.", "quantifier": "all pairs of int64 bounds", "why_tests_cant": "unbounded numbers, including negative ones and the limits of int64", "anchors": ["exp/tjson.go:AddItem", "exp/tjson.go:parseTimeRange"]}
{"id": "C49", "title": "AddItem", "statement": "AddItem appends one version with the given period and value to the versions of the path and changes no other path.", "quantifier": "all documents, paths, periods, values", "why_tests_cant": "arbitrary documents and paths", "anchors": ["exp/tjson.go:AddItem"]}
{"id": "C50", "title": "TJSON TemporalTrack", "statement": "TemporalTrack returns exactly the versions of the path valid at some time of the window, ordered by start; it fails exactly if the path does not exist.", "quantifier": "all documents, paths, windows, and all results of the unstable sort", "why_tests_cant": "arbitrary documents and every sort order", "anchors": ["exp/tjson.go:TemporalTrack"]}
{"id": "C51", "title": "TJSON FindEvents", "statement": "FindEvents returns in ascending order the starts of the versions meeting the window whose value satisfies the predicate.", "quantifier": "all documents, paths, windows, predicates, sort results", "why_tests_cant": "arbitrary predicates and documents", "anchors": ["exp/tjson.go:FindEvents"]}
{"id": "C52", "title": "TJSON TemporalSnapshot", "statement": "A snapshot shows at every path the value valid at the time, and nothing where none is valid.", "quantifier": "all documents, paths, times", "why_tests_cant": "arbitrary nesting and version lists", "anchors": ["exp/tjson.go:TemporalSnapshot", "exp/tjson.go:getSnapshotForItem"]}
{"id": "C53", "title": "FromTSONPatches", "statement": "After converting patches, at every time up to the conversion the version of a path covering the time carries the value of the latest patch for the path; periods are disjoint; removed values are not valid.", "quantifier": "all lists of patches, all sort results and map orders, all paths and times", "why_tests_cant": "arbitrary patch lists and every sort order", "anchors": ["exp/tjson.go:FromTSONPatches"]}
{"id": "C54", "title": "Paths of converted patches", "statement": "Patches for different members become versions of different paths.", "quantifier": "all JSON pointers", "why_tests_cant": "arbitrary member names", "anchors": ["exp/tjson.go:FromTSONPatches"]}
{"id": "C55", "title": "Events of converted patches", "statement": "An event search in converted patches finds exactly the times in the window at which the path was set to a value satisfying the predicate.", "quantifier": "all patch lists, windows, predicates, sort results", "why_tests_cant": "arbitrary patch lists and predicates", "anchors": ["exp/tjson.go:FromTSONPatches", "exp/tjson.go:FindEvents"]}
{"id": "C56", "title": "Only add, replace and remove do anything", "statement": "An operation of another kind (move, copy, test, any other name) never succeeds, alone or in a patch.", "quantifier": "all documents, paths, operation names and values", "why_tests_cant": "arbitrary operation names and nesting", "anchors": ["internal/tsonpatch/tsonpatch.go:applyTraverse", "internal/tsonpatch/tsonpatch.go:ApplyPatch"]}
{"id": "C57", "title": "When an operation succeeds, fails or panics", "statement": "Whether a write or a removal on an object document succeeds, returns an error or panics is determined by the containers on its path and the numbers in it, exactly as specified.", "quantifier": "all object documents, all paths, all writable values", "why_tests_cant": "every combination of nesting, missing members and indices", "anchors": ["internal/tsonpatch/tsonpatch.go:applyTraverse", "internal/tsonpatch/tsonpatch.go:ApplyOperation"]}
{"id": "C58", "title": "Updating the documents of the simulation", "statement": "Updating a sensor in the JSON or TSON document makes it readable there with value and timestamp and changes nothing else.", "quantifier": "all documents, paths, values, timestamps", "why_tests_cant": "arbitrary documents", "anchors": ["exp/utils.go:updateJsonDoc", "exp/utils.go:updateTsonDoc"]}
{"id": "C59", "title": "Building the documents of the simulation", "statement": "The first documents hold exactly the sensors, independently of map iteration order, and building them does not panic.", "quantifier": "all sets of sensors, all iteration orders", "why_tests_cant": "every order of map iteration", "anchors": ["exp/utils.go:vehicleDataToJsonDoc", "exp/utils.go:vehicleDataToTsonDoc", "exp/utils.go:addPathToJsonDoc", "exp/utils.go:addPathToTsonDoc"]}
{"id": "C60", "title": "The documents during the simulation", "statement": "At any time the JSON document holds the last reading of every sensor, the TSON document the value kept for it, and both differ only in ways the comparison ignores; the recorded patches reproduce the documents.", "quantifier": "all sequences of readings, all comparison functions", "why_tests_cant": "unbounded simulations, arbitrary readings", "anchors": ["exp/exp_scenario.go:runRealisticExperiment", "exp/utils.go:isEqual"]}
{"id": "C61", "title": "The counters of the simulation", "statement": "Updates are changes plus unchanged readings; there is one set patch per reading, one TSON patch per change and one or two JSON patches per reading.", "quantifier": "all sequences of readings, all comparison functions", "why_tests_cant": "unbounded simulations", "anchors": ["exp/exp_scenario.go:runRealisticExperiment"]}
{"id": "C62", "title": "Turning sensor documents into value documents", "statement": "transformJsonStructure puts at the path of every sensor its value, keeps everything else and invents nothing.", "quantifier": "all documents, all paths", "why_tests_cant": "arbitrary nesting of sensors and maps", "anchors": ["exp/utils_temporal.go:transformJsonStructure"]}
{"id": "C63", "title": "The initial patches", "statement": "generateInitialPatches adds exactly the atoms of the document, and for maps their primitive members, each at its dotted path at time 0.", "quantifier": "all documents with non-empty keys", "why_tests_cant": "arbitrary nesting and map contents", "anchors": ["exp/utils_temporal.go:generateInitialPatches", "exp/utils_temporal.go:isPrimitive"]}
{"id": "C64", "title": "Finding events in a logument", "statement": "filterTrackByPath keeps exactly the operations on a path; findEventsInLogument returns the timestamps of the kept operations above the threshold, and every recorded exceeding value in the window is represented.", "quantifier": "all reachable loguments, windows, paths, thresholds, iteration orders", "why_tests_cant": "unbounded histories, map iteration order", "anchors": ["exp/utils_temporal.go:filterTrackByPath", "exp/utils_temporal.go:findEventsInLogument"]}
{"id": "C65", "title": "Switching scenarios", "statement": "The scenario changes exactly when the cooldown is over and the battery is low (or full while charging); scenarios alternate and the transitions name where they come from.", "quantifier": "all sequences of ticks and battery levels", "why_tests_cant": "unbounded simulations", "anchors": ["exp/scenario.go:UpdateScenarioState", "exp/scenario.go:NewScenarioState"]}
{"id": "C66", "title": "The time range of patches", "statement": "getTimeRange returns the smallest and the largest timestamp of the patches.", "quantifier": "all non-empty patch lists", "why_tests_cant": "arbitrary timestamps", "anchors": ["exp/exp_temporal.go:getTimeRange"]}
{"id": "C67", "title": "The TJSON store of the temporal experiments", "statement": "The store made from the initial document and the readings shows, at every time, for every sensor the value of its latest reading up to that time, and its initial value as long as there is none.", "quantifier": "all documents, all reading sequences, all orders of the patches, all sorting outcomes, all query times and sensors", "why_tests_cant": "unbounded reading sequences and nested documents; instability of the sorts", "anchors": ["exp/utils_temporal.go:NewTemporalQueryExperiment", "exp/utils_temporal.go:CreateInitialPatchesFromJSON", "exp/tjson.go:FromTSONPatches", "exp/tjson.go:TemporalSnapshot"]}
{"id": "C68", "title": "The sequence of temporal snapshots of the experiments", "statement": "Temporal snapshots taken one after the other on the logument of an experiment never panic, and each shows the document as it was at its time: the latest value on every path, the initial document elsewhere.", "quantifier": "all documents without nil, all logs of plain operations on members of objects, all ascending sequences of query times, all runtime orders", "why_tests_cant": "unbounded logs and query sequences; the queries change the stored document", "anchors": ["exp/utils_temporal.go:createLogumentFromPatches", "exp/utils_temporal.go:RunTemporalSnapshotExperiment", "internal/logument/logument.go:TemporalSnapshot"]}
{"id": "C69", "title": "Both stores of the experiments agree", "statement": "At every query time the logument and the TJSON store show the same value for every sensor.", "quantifier": "all documents, sensors, readings, ascending query times, runtime orders", "why_tests_cant": "unbounded readings; two independent implementations", "anchors": ["exp/utils_temporal.go:NewTemporalQueryExperiment", "exp/utils_temporal.go:RunTemporalSnapshotExperiment", "exp/utils_temporal.go:createLogumentFromPatches", "exp/tjson.go:FromTSONPatches"]}
{"id": "C70", "title": "Patches for arrays of different lengths", "statement": "For two arrays of different lengths the generated operations first remove, from the end, exactly the elements of the old array that have no partner in the new one (counting equal elements), and then write the elements of the new array that need it, in ascending order of their index and with their own value and timestamp; generation fails only for elements that are not leaves.", "quantifier": "all pairs of arrays of different lengths, all paths, both patch generators", "why_tests_cant": "unbounded arrays with repeated elements; matching is by a greedy search with used indices", "anchors": ["internal/tsonpatch/tsonpatch.go:processArray", "internal/tsonpatch/tsonpatch.go:compareArray", "internal/tsonpatch/tsonpatch.go:compareArrayWithTimestamp", "internal/tsonpatch/tsonpatch.go:matchesValue", "internal/tsonpatch/tsonpatch.go:matchTimestamp"]}
{"id": "C71", "title": "Reading a catalogue removes the descriptive keys and nothing else", "statement": "Removing keys from a catalogue deletes a member exactly if its key is in the list and its map has a member that is not a map; every other value stays at its place. Removing the keys again changes nothing, and data that is not a map is a panic.", "quantifier": "all JSON data, all lists of keys, all orders in which maps are visited", "why_tests_cant": "the traversal deletes keys while it ranges over the map, so what happens depends on the iteration order the runtime chooses", "anchors": ["internal/vssgen/vss.go:NewVssJson", "internal/vssgen/vss.go:removeKeys"]}
{"id": "C72", "title": "The leaf nodes of a catalogue are exactly its leaves", "statement": "LeafNodes yields each value that is not a map, or is a map with a timestamp and lies in no such map, exactly once, with the name made of the keys on the way, without the key children.", "quantifier": "all maps with non-empty root keys, all iteration orders", "why_tests_cant": "unbounded nesting and arbitrary keys", "anchors": ["internal/vssgen/vss.go:LeafNodes"]}
{"id": "C73", "title": "Building nested maps from leaf nodes gives the data back", "statement": "BuildFromLeafNodes gives back the data whose leaf nodes it is given, in whatever order they come.", "quantifier": "all data, all orders of the leaf nodes", "why_tests_cant": "unbounded data; every order of the leaf nodes", "anchors": ["internal/vssgen/extension.go:BuildFromLeafNodes", "internal/vssgen/extension.go:buildNestedStructure", "internal/vssgen/vss.go:LeafNodes"]}
{"id": "C74", "title": "The generated vehicle data has one reading of the declared type for each signal", "statement": "Generate puts a reading, or an array of one to five readings, of the declared datatype and out of the allowed values at the place of each signal of the catalogue that is not left out, and nothing else.", "quantifier": "all catalogues, all random draws, all iteration orders", "why_tests_cant": "all values are random, and the maps are visited in random order", "anchors": ["internal/vssgen/vss.go:Generate", "internal/vssgen/vss.go:genRandomString"]}
{"id": "C75", "title": "The next data set has the same places, each leaf following from the old one", "statement": "GenerateNext makes a data set with leaves at the same places; each is changed, gets the new timestamp or is kept as drawn, and its kind stays the same. This holds for any number of data sets made one from the other.", "quantifier": "all vehicle data, all random draws, all iteration orders, any number of steps", "why_tests_cant": "random draws and unbounded sequences of data sets", "anchors": ["internal/vssgen/vss.go:GenerateNext"]}
{"id": "C76", "title": "The patch beside the next data set lists exactly the readings that changed", "statement": "GenerateNext returns, beside the next data set, a patch with exactly one item for each reading that changed in value or timestamp: a replacement with the path of the reading, its new value and the new timestamp.", "quantifier": "all vehicle data, all random draws, all timestamps of 64 bits", "why_tests_cant": "random draws; the data goes through JSON text, TSON documents, a generated patch and JSON text again", "anchors": ["internal/vssgen/vss.go:GenerateNext", "internal/vssgen/vss.go:mapToJson", "internal/tsonpatch/tsonpatch.go:GeneratePatchWithTimestamp"]}
{"id": "C77", "title": "Saved data sets and saved patches can be read back", "statement": "The file that Save writes for a data set, read with tson.Unmarshal, gives the document with the same keys, values and timestamps; the file it writes for a patch, read with tsonpatch.Unmarshal, gives the operations of the patch.", "quantifier": "all data sets, all generated patches", "why_tests_cant": "the files use two different syntaxes, written by string formatting; only values with unusual sizes or characters reveal the difference", "anchors": ["internal/vssgen/vss.go:Save", "internal/tson/serialization.go:marshalIndentValue", "internal/tsonpatch/tsonpatch.go:Unmarshal"]}
{"id": "C78", "title": "The web demonstration shows the data sets that were generated", "statement": "A response of the patch handler is the first data set with the changes of the requested patches applied in order, so it shows the data set generated in that round; generation with the default arguments writes one data set and one patch per round, the patch being the difference to the data set before.", "quantifier": "all data sets, all draws, all numbers of patches", "why_tests_cant": "the handler joins the TSON reader, the patch reader, the pool, snapshots and the writer; the defect shows only when responses are compared with the generated data", "anchors": ["web_demo.go:patchHandler", "web_demo.go:generateVss", "internal/vssgen/args.go:Generate"]}
{"id": "C79", "title": "A data set converts to a plain map", "statement": "ToMapStringInterface returns a map with the structure of the data set.", "quantifier": "all data sets", "why_tests_cant": "the function writes and reads a file with two syntaxes that agree on data without readings", "anchors": ["internal/vssgen/extension.go:ToMapStringInterface", "internal/vssgen/vss.go:Save"]}
{"id": "C80", "title": "The simulation reads every sensor at its interval", "statement": "In the simulation a sensor is read exactly at the times that are multiples of its interval, and the number of updates announced before the run is the number of readings taken.", "quantifier": "all durations, steps, lists of sensors and orders of maps", "why_tests_cant": "the loop runs for minutes and the estimate is only printed", "anchors": ["exp/exp_scenario.go:runRealisticExperiment", "exp/utils.go:calculateExpectedUpdateCount", "exp/scenario.go:InitializeVehicleData"]}
{"id": "C82", "title": "Values taken for unchanged are close", "statement": "isEqual takes values for equal exactly if they are the same or numbers that differ by less than 0.005, so that the TSON document never differs from the JSON document by more than that.", "quantifier": "all values, all sequences of readings", "why_tests_cant": "rounding decides at the boundary, and tests compare few numbers", "anchors": ["exp/utils.go:isEqual", "exp/exp_scenario.go:runRealisticExperiment"]}
{"id": "C83", "title": "The values of simulated sensors follow their patterns within their limits", "statement": "Every value calculated for a sensor follows the pattern of the sensor, has the type of the sensor and lies between its limits.", "quantifier": "all draws, all numbers of readings, all four scenarios", "why_tests_cant": "values are random, and a sensor that never changes looks like one that has not changed yet", "anchors": ["exp/utils.go:calculateNewValue", "exp/utils.go:calculateNewNumberValue", "exp/utils.go:calculateNewBooleanValue", "exp/utils.go:calculateNewStringValue", "exp/scenario.go:updateAllSensorPatterns", "exp/scenario.go:applyScenarioSettings", "exp/scenario.go:InitializeVehicleData"]}
{"id": "C81", "title": "An experiment as a whole keeps its documents, patches and records in step", "statement": "A simulated experiment ends, takes exactly the readings of its schedule, keeps every number within its limits, and its two documents, its patches, its vectors and the rows of its recorder agree with the values of the vehicle, also when the mixed scenario switches.", "quantifier": "all durations, scenarios, draws and orders of maps", "why_tests_cant": "a run takes minutes, is random, and switches only after more than eight minutes", "anchors": ["exp/exp_scenario.go:runRealisticExperiment", "exp/scenario.go:UpdateScenarioState", "exp/scenario.go:applyScenarioSettingsForMixed", "exp/sensor_data_save.go:RecordSensorData", "exp/utils.go:calculateNewValue"]}
{"id": "C84", "title": "The times of the snapshots of the temporal experiments are spread evenly over the readings", "statement": "The times the experiment takes snapshots at are as many as asked for, begin with the first reading, end with the last, ascend and are evenly spread; at all of them the logument and the TJSON store show the same values.", "quantifier": "all lists of readings with a range below 2^53 ms and all numbers of times up to 2^53", "why_tests_cant": "the times are computed with float64, which rounds differently for every range and number of times", "anchors": ["exp/exp_temporal.go:generateTimestamps", "exp/exp_temporal.go:RunTemporalQueryExperiments", "exp/utils_temporal.go:RunTemporalSnapshotExperiment"]}
{"id": "C85", "title": "Tracks and event searches of the temporal experiments report the changes in the window", "statement": "After the snapshots, the tracks and event searches of the experiment end without error. The logument reports the readings in the window that change the value, the TJSON store the values that hold at some time of the window with their periods; if every reading changes the value, the TJSON store reports what the logument reports and before it only the value that holds when the window begins.", "quantifier": "all documents, readings after time 0 with different times per path, windows, thresholds, paths of at least two segments and choices of the runtime", "why_tests_cant": "tests compare single windows and thresholds; the order of maps and of equal times is up to the runtime", "anchors": ["exp/utils_temporal.go:RunTemporalTrackExperiment", "exp/utils_temporal.go:RunEventSearchExperiment", "exp/utils_temporal.go:filterTrackByPath", "exp/utils_temporal.go:findEventsInLogument", "exp/tjson.go:TemporalTrack", "exp/tjson.go:FindEvents"]}
{"id": "C86", "title": "The temporal experiments end without error on the data of a simulated drive, and the logument reports what was recorded", "statement": "For a drive in traffic of more than 10 s, whatever is drawn, the temporal experiments on the document and the patches it recorded take 61 snapshots from time 0 to the last patch, four tracks and three event searches without error or panic. Every snapshot of the logument shows the last recorded value of every sensor, the tracks are the recorded patches, and the TJSON store agrees with the logument on every sensor with a patch after time 0 or none at time 0.", "quantifier": "all draws of the simulation and choices of the runtime (sort of equal times, map orders, window), durations of more than 10 s and up to 2^53 ms, all sensors", "why_tests_cant": "a test sees single drives; the order of patches with equal times and of maps changes between runs", "anchors": ["exp/exp_temporal.go:RunTemporalQueryExperiments", "exp/utils_temporal.go:NewTemporalQueryExperiment", "exp/exp_scenario.go:runRealisticExperiment", "exp/tjson.go:FromTSONPatches", "exp/exp_temporal.go:getTimeRange"]}
{"id": "C87", "title": "The temporal experiments read from the files exactly the patches that the simulation recorded", "statement": "The files all_tson_patches.json and initial_json.json written by a simulated experiment with json.MarshalIndent are read again by the temporal experiments: the patches are the recorded ones with their times, values and order, and the document holds the first value of every sensor. After a drive in traffic of more than 10 s the temporal experiments on the scenario directory end without error and report what was recorded.", "quantifier": "all patches with finite numbers and 64-bit times; all draws of the simulation and choices of the runtime; all scenarios (the mixed one up to 499.9 s); all earlier contents of the scenario directory with times up to the present one", "why_tests_cant": "tests use fixed small files; the texts depend on every value drawn, and on escapes, number formats and nesting", "anchors": ["exp/doc_data_save.go:saveJSONToFile", "exp/doc_data_save.go:SaveAllTSONPatches", "exp/exp_temporal.go:loadTSONPatches", "exp/exp_temporal.go:RunTemporalQueryExperiments", "exp/utils_temporal.go:createLogumentFromPatches"]}
{"id": "C88", "title": "The temporal experiments take the directory of the last simulated experiment", "statement": "findLatestTimestampDir returns the directory of the experiment that was run last, because names made from the clock are ordered like times.", "quantifier": "all times of the clock up to the year 9999 and all contents of the scenario directory with times up to the present one", "why_tests_cant": "tests run with one or two directories and one clock", "anchors": ["exp/exp_temporal.go:findLatestTimestampDir", "exp/doc_data_save.go:NewDataStorage"]}
{"id": "C89", "title": "A table written as CSV is read back as the same fields, and its numbers to the last digit shown", "statement": "Every table with at least one field in each row, written with encoding/csv, is read by a reader of RFC 4180 as the same rows and fields, whatever bytes they hold. Whole numbers are read back exactly; numbers written with %.nf differ from the number by at most half of the last digit and keep their order.", "quantifier": "all tables of byte strings without empty rows; all integers; all finite float64 and all n >= 1", "why_tests_cant": "tests use a few fields without quotes, commas or line breaks; rounding depends on every float", "anchors": ["exp/exp_scenario.go:RealworldScenario", "exp/sensor_data_save.go:RecordSensorData", "exp/utils_temporal.go:SaveResults"]}
{"id": "C90", "title": "The tables of results of a simulated experiment say what happened in it", "statement": "For every scenario the experiment writes its tables, and each is read as a header with different names and rows of as many fields. results.csv has the counts of updates, changes and patches, the total durations, and the sizes of the texts of the patches; cumulative.csv has every 10 s the numbers of patches so far; timing.csv has a row for each update, and its rows with a changed value are the TSON patches; the file of each key sensor has the value it had at every 100 ms; transitions.csv has the switches of a mixed scenario.", "quantifier": "all durations in seconds, all scenarios, all draws of the simulation and choices of the runtime, all clocks", "why_tests_cant": "a run takes minutes and gives one of many outcomes; tests compare at most some rows", "anchors": ["exp/exp_scenario.go:RealworldScenario", "exp/exp_scenario.go:runRealisticExperiment", "exp/sensor_data_save.go:NewSensorDataRecorder", "exp/sensor_data_save.go:RecordSensorData"]}
{"id": "C91", "title": "The percentages and bandwidths in the tables are those of the numbers they compare", "statement": "PatchReduction, ProcessingTimeDiffPct, TimeDiffPct, SizeDiffPct and the bandwidths are computed in float64 and shown with two digits; what is shown differs from the exact value by little more than half of the last digit, has the right sign and is never more than 100 percent for a reduction.", "quantifier": "all numbers below 2^53; for experiments all scenarios, draws and clocks", "why_tests_cant": "floating point errors depend on every pair of numbers", "anchors": ["exp/exp_scenario.go:RealworldScenario", "exp/exp_scenario.go:runRealisticExperiment", "exp/utils_temporal.go:SaveResults"]}
{"id": "C92", "title": "The results of the temporal experiments are found in their files and tables", "statement": "For every scenario and every drive of more than 10 s, simulated, saved and queried: each of the 61 snapshots, four tracks and three searches has a file of the logument and a file of the TJSON store, whose names differ, and which are read back as the results: the documents with all their values and times, the recorded patches of the tracked sensors, the versions with their periods, and the times of the events. Each of the three tables has a row for each query, with its parameter, the durations shown by the clock, the sizes of the compact texts, and the differences in percent.", "quantifier": "all scenarios, drives of more than 10 s and at most 2^53 ms, draws, choices of the runtime, clocks and previous contents of the output; names, files and tables for any results", "why_tests_cant": "a run takes minutes and depends on draws; no test reads the results back", "anchors": ["exp/utils_temporal.go:RunTemporalSnapshotExperiment", "exp/utils_temporal.go:RunTemporalTrackExperiment", "exp/utils_temporal.go:RunEventSearchExperiment", "exp/utils_temporal.go:SaveResults", "exp/utils_temporal.go:saveResultToFile", "exp/exp_temporal.go:RunTemporalQueryExperiments"]}
{"id": "C93", "title": "One saved snapshot per patch shows the readings up to it", "statement": "Given a vehicle document and readings of its sensors, CreateSnapshot writes a file for the beginning and one after each reading, and changes no other file. The n-th file is read back as a document that shows at each sensor the last of the first n readings on it with its time, or the value at the beginning; all else is as at the beginning. For readings in the order of time, as every simulated drive records them, the file after the last reading up to a time shows for each sensor what the logument returns for that time.", "quantifier": "all plain documents, lists of readings of their sensors, previous contents of the directory, heaps; all scenarios and drives for the second part; all sequences of queries at ascending times", "why_tests_cant": "the function is not called; the number of files is that of the patches, thousands in a drive", "anchors": ["exp/utils_temporal.go:CreateSnapshot", "exp/utils_temporal.go:saveResultToFile"]}
{"id": "C94", "title": "A logument over an object is one document with flags", "statement": "For every history of calls on a logument made from an object document, the logument behaves exactly like a machine without any sharing that has a single document and, for the current state and each stored snapshot, a flag saying whether it is that document or nil. Every call has the same outcome as on the machine (results, errors and panics), the document is the machine's, and the results do not depend on where the document lies in memory. The document is always the initial one with operations applied that the caller stored or set.", "quantifier": "all well-formed object documents, heaps, initial patches and histories of the twelve exported methods of any length, including calls that panic and are recovered; all choices of the unstable sort and of map iteration", "why_tests_cant": "sharing of one mutable map between all versions shows only after particular sequences of calls; tests compare single snapshots", "anchors": ["internal/logument/logument.go:Snapshot", "internal/logument/logument.go:TemporalSnapshot", "internal/logument/logument.go:Slice", "internal/logument/logument.go:TemporalSlice", "internal/logument/logument.go:Set", "internal/logument/logument.go:TestSet", "internal/logument/logument.go:History", "internal/logument/logument.go:Append", "internal/logument/logument.go:Store", "internal/logument/logument.go:Track", "internal/logument/logument.go:TemporalTrack", "internal/logument/logument.go:Compact"]}
{"id": "C95", "title": "Recorded patches belong to the logument", "statement": "A logument records each patch as a slice of an array of operations and may share that array with the caller. Whatever the caller does with its own slices, and whatever further calls do, the operations recorded for a version and pending in the pool are those that were stored, and the slices of the caller and the patches handed out do not change.", "quantifier": "all documents, arrays, capacities chosen by the runtime and histories of the twelve exported methods of any length, interleaved with arbitrary writes of the caller to arrays", "why_tests_cant": "whether append works in place depends on capacities that the runtime chooses; sharing shows only when the same slice is used again", "anchors": ["internal/logument/logument.go:Store", "internal/logument/logument.go:Append", "internal/logument/logument.go:Set", "internal/logument/logument.go:TestSet", "internal/logument/logument.go:Snapshot", "internal/logument/logument.go:TemporalSnapshot", "internal/logument/logument.go:Slice", "internal/logument/logument.go:TemporalSlice", "internal/logument/logument.go:Track", "internal/logument/logument.go:TemporalTrack", "internal/logument/logument.go:Compact", "internal/logument/logument.go:History"]}
{"id": "C96", "title": "Requests read only the files of the data", "statement": "A request of the web demonstration reads only the file of the data that it is meant for: the first data set or a patch of the car in the query. Whatever texts the query has, no other file of the machine is sent.", "quantifier": "all trees of files, working directories and texts in the query", "why_tests_cant": "the texts go into a path without a check, so every text of any length with any dots and slashes is a different path; whether one leads outside depends on the directories of the machine", "anchors": ["web_demo.go:updateHandler", "web_demo.go:patchHandler", "web_demo.go:homeHandler"]}
{"id": "C97", "title": "The web demonstration starts with its data", "statement": "Started without arguments, the program generates the data and serves it; started with arguments, it generates the data and ends. Data that is already there is replaced only by new data.", "quantifier": "all trees of files, working directories and command lines", "why_tests_cant": "the whole program with its files; the panic comes after the old data is removed", "anchors": ["web_demo.go:WebDemo", "web_demo.go:generateVss", "internal/vssgen/args.go:PrepareOutputDir", "internal/vssgen/args.go:SaveMetadata", "internal/vssgen/args.go:Generate"]}
{"id": "C98", "title": "Numbered files", "statement": "Single patches and snapshots of an experiment are saved in files named by their kind and number. Different kinds and numbers get different files, each file holds what was saved last, the names are in the order of the numbers, and no other file of the experiment is touched.", "quantifier": "all sequences of calls, all numbers of 64 bits (negative too), all data and all directories", "why_tests_cant": "names are built from numbers padded to a fixed width; collisions and a wrong order show only for numbers beyond the width or below zero, and nothing in the code calls these functions", "anchors": ["exp/doc_data_save.go:SaveJSONPatch", "exp/doc_data_save.go:SaveTSONPatch", "exp/doc_data_save.go:SaveJSONSnapshot", "exp/doc_data_save.go:SaveTSONSnapshot", "exp/doc_data_save.go:saveJSONToFile"]}
{"id": "C99", "title": "The program as a whole", "statement": "Running the program simulates every scenario once and leaves the results of each in its own directory without touching the others; the temporal experiments run afterwards cover all these scenarios and work on the latest run of each; and since a generator is made from the seed 42, two runs under the same conditions give the same results.", "quantifier": "all draws, all orders of maps, all clocks, all earlier contents of the directories up to the time of the run", "why_tests_cant": "the functions share a package variable and directories; which scenarios are covered and whether the seed has any effect shows only when the parts are run together", "anchors": ["main.go:main", "main.go:ScenarioExperiment", "main.go:TemporalQueryExperiment", "exp/exp_scenario.go:RealworldScenario", "exp/exp_temporal.go:RunTemporalQueryExperiments"]}
{"id": "C100", "title": "Printing", "statement": "Print shows a data set in the form in which it is saved and a patch with the values it sets; PrintWithIndex shows the text of the data line by line, every line with its number in a column of five digits, and nothing of the text is lost.", "quantifier": "all data sets, patches and texts, all numbers of lines", "why_tests_cant": "the width of the column and the fractions of numbers show only for long texts and for values that are not whole", "anchors": ["internal/vssgen/vss.go:Print", "internal/vssgen/vss.go:PrintWithIndex"]}
{"id": "C101", "title": "Documents as indented JSON texts", "statement": "ToCompatibleTsonString gives for every document a text with one member or element on a line, indented by four spaces for every level; the text is read like the bytes of ToCompatibleTsonBytes, and reading it with FromCompatibleTson gives the document back.", "quantifier": "all documents, of any depth", "why_tests_cant": "the limits show only for documents nested more than 10000 deep, for numbers that are not finite and for timestamps beyond 2^53", "anchors": ["internal/tson/serialization.go:ToCompatibleTsonString", "internal/tson/tson.go:FromCompatibleTsonBytes"]}
{"id": "C102", "title": "What the page of the demo shows", "statement": "syntaxHighlight puts coloured parts around the tokens of a text and changes nothing else: the browser shows exactly the given text, whatever markup is in it; strings followed by a colon are coloured as keys, other strings as strings, true and false as booleans, null as null.", "quantifier": "all texts", "why_tests_cant": "a token that cuts a character reference, or markup in a value, would change the page only for particular texts", "anchors": ["index.html:syntaxHighlight", "index.html:setCodeBlockContent"]}
{"id": "C103", "title": "Snapshots saved on the page of the demo", "statement": "A snapshot saved under the name of a car and a patch holds what the server answered for this car and this patch.", "quantifier": "all sequences of choices, presses and arrivals of answers", "why_tests_cant": "the snapshot depends on the order of choices, presses and answers", "anchors": ["index.html:onAppendSnapshotClicked", "index.html:saveSnapshot", "index.html:applyPatches", "index.html:updateSnapshotView"]}
{"id": "C104", "title": "Documents are never taken for JSON", "statement": "The text of a document that has a timestamp anywhere, with or without indentation, is not JSON, so a JSON reader gives an error for it and never drops the timestamps silently.", "quantifier": "all documents with at least one timestamp, all names and values, all indentations of white space", "why_tests_cant": "the place of the first timestamp can be arbitrarily deep behind parts that are JSON", "anchors": ["internal/tson/serialization.go:Marshal", "internal/tson/serialization.go:MarshalIndent", "internal/tson/tson.go:FromCompatibleTsonBytes", "index.html:setCodeBlockContent"]}
{"id": "C105", "title": "Slices can be used like loguments", "statement": "Inside its range of versions a slice gives the same answers as the original: a slice of a slice is the slice of the original, Track and TemporalTrack return the same operations, what is stored becomes the next version, and Set works as on any logument.", "quantifier": "all reachable loguments, all ranges, all later calls on the slice, all operations", "why_tests_cant": "the failure of Set shows only when a slice is worked with further, for which there is no test; the equalities range over all logs and pairs of ranges", "anchors": ["internal/logument/logument.go:Slice", "internal/logument/logument.go:TemporalSlice", "internal/logument/logument.go:Track", "internal/logument/logument.go:Set", "internal/logument/logument.go:Append"]}
{"id": "C106", "title": "The grouping of operations into versions does not matter", "statement": "Let two loguments be built by arbitrary calls from the same initial document so that the sequences of their committed operations, read in version order, are equal, although the calls of Append fell at different places. Then TemporalTrack over any window reports the same operations in the same order, Compact with any prefix and Track over all versions keep the same operations, the snapshots of the newest versions are the same document, and each of these calls fails for the one exactly if it fails for the other.", "quantifier": "for all pairs of reachable loguments with equal committed operation sequences, all windows, all prefixes, all initial object documents", "why_tests_cant": "Tests fix one sequence of Append calls; the claim compares all ways to cut a sequence of any length into versions.", "anchors": ["internal/logument/logument.go:192-213", "internal/logument/logument.go:215-242", "internal/logument/logument.go:244-302", "internal/logument/logument.go:418-476", "internal/logument/logument.go:478-519", "internal/logument/logument.go:596-632"]}
{"id": "C107", "title": "Tracks over windows inside windows", "statement": "TemporalTrack over a window inside a larger window reports on each path the operations that it reports over the larger window at times of the inner one, in the same order, preceded by at most one more operation: the first one recorded on the path in the inner window, when it repeats a value already reported earlier over the larger window. Consequently a window can be cut in two: the changes over the whole window are those over the first part followed by those over the second part, of which only the first on each path may be superfluous.", "quantifier": "for all reachable loguments, all nested windows, all paths, all positions of a cut", "why_tests_cant": "The claim relates the results of several calls over all logs and windows; tests look at single windows over short logs.", "anchors": ["internal/logument/logument.go:478-519"]}
{"id": "C108", "title": "Tracks of a compacted log", "statement": "Compact does not change what TemporalTrack reports: for every window and every path, the operations reported after compaction are the operations reported before it.", "quantifier": "for all reachable loguments, all prefixes, all windows, all paths", "why_tests_cant": "The claim compares the answers before and after a compaction over all logs and windows; tests compact short logs and look at the patches only.", "anchors": ["internal/logument/logument.go:478-519", "internal/logument/logument.go:596-632"]}
{"id": "C109", "title": "Histories and tracks agree", "statement": "For every path that matches a prefix, History with this prefix lists, after the entry for the initial value, exactly the operations that TemporalTrack reports for the path over a window containing all recorded times, in the same order; History has an entry for a matching path exactly if the track reports an operation on it; asking again gives the same lists.", "quantifier": "for all reachable loguments, all prefixes, all windows containing the recorded times, all orders in which the runtime visits maps", "why_tests_cant": "The claim compares two query methods over all logs; tests look at each method alone on short logs.", "anchors": ["internal/logument/logument.go:478-519", "internal/logument/logument.go:596-632", "internal/logument/logument.go:634-672"]}
{"id": "C110", "title": "A logument fed with generated patches shows the documents", "statement": "Take a series of documents, make a logument of the first, and store and append the patch generated from each document to the next: Snapshot of version v then has the values of the document v of the series.", "quantifier": "for all series of object documents of any length, all versions of the logument, all heaps", "why_tests_cant": "The claim combines patch generation, application, versioning and snapshots over series of documents of any length; tests check single patches.", "anchors": ["internal/tsonpatch/tsonpatch.go:124-131", "internal/tsonpatch/tsonpatch.go:142-164", "internal/logument/logument.go:130-212", "internal/logument/logument.go:215-242"]}
{"id": "C111", "title": "Compact and tracks keep every generated difference", "statement": "Take a series of documents, store and append the patch generated from each document to the next: Compact with any prefix leaves the logument as it is, Track of any range of versions returns the stored patches and leaves the logument as it is, and TemporalTrack over a window with all times returns the stored patches.", "quantifier": "for all series of object documents of any length, all prefixes, all ranges of versions, all windows that contain the times", "why_tests_cant": "The claim compares each operation with the last value on its path over series of any length; tests compact a handful of patches.", "anchors": ["internal/tsonpatch/tsonpatch.go:124-131", "internal/tsonpatch/tsonpatch.go:142-164", "internal/logument/logument.go:418-476", "internal/logument/logument.go:478-519", "internal/logument/logument.go:596-632"]}
