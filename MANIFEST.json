{
 "claims": [
  {
   "property": "C01",
   "status": "proved",
   "theorems": [
    "C01_versions_gap_free",
    "C01_stored_snapshots"
   ],
   "note": "Invariant over every call history, including recovered panics and outside changes of documents. C01_stored_snapshots: snapshots exist only for recorded versions, once each, and always for version 0."
  },
  {
   "property": "C02",
   "status": "proved",
   "theorems": [
    "C02_resorted",
    "C02_version_kept",
    "C02_no_operation_lost",
    "C02_from_start"
   ],
   "note": "Exact equality of the recorded operations with the accepted ones, over all call histories without compaction and re-sorting. C02_resorted, C02_version_kept: with TemporalSnapshot and TemporalSlice mixed in, the same up to the order inside a version."
  },
  {
   "property": "C03",
   "status": "proved",
   "theorems": [
    "C03_append_commits_pool",
    "C03_append_any"
   ],
   "note": "Case analysis under the version invariant. C03_append_any describes Append on arbitrary loguments, also with gaps and without versions."
  },
  {
   "property": "C04",
   "status": "partial",
   "theorems": [
    "C04_store_appends",
    "C04_packaging_irrelevant",
    "C04_empty_packaging_fails"
   ],
   "note": "All packagings with at least one operation are equivalent; the empty []Patch{} leaves the pool nil whereas Patch{} makes it non-nil (C04_empty_packaging_fails), so packaging of zero operations is visible to Append."
  },
  {
   "property": "C05",
   "status": "proved",
   "theorems": [
    "C05_base_snapshot"
   ],
   "note": "Base is the newest stored snapshot not newer than v; stored snapshots are returned unchanged; otherwise panic without change."
  },
  {
   "property": "C06",
   "status": "partial",
   "theorems": [
    "C06_snapshot_is_replay_partial",
    "C06_first_snapshot_partial",
    "C06_empty_patch_fails",
    "C06_descending_fails"
   ],
   "note": "Proved for the first snapshot calls in ascending order on a freshly built logument: the result is the replay of the base and the recorded operations. Refuted for an empty patch in the range and for descending snapshot calls (the stored documents share structure)."
  },
  {
   "property": "C07",
   "status": "partial",
   "theorems": [
    "C07_all_versions_alias_violated",
    "C07_later_snapshot_fails",
    "C07_reference_stable_partial",
    "C07_passive_calls_partial"
   ],
   "note": "Refuted (C07_all_versions_alias_violated, C07_later_snapshot_fails): all documents of a logument are one object, so later snapshots change earlier ones. Proved: the reference stays the same, and calls that apply nothing leave every document unchanged."
  },
  {
   "property": "C08",
   "status": "partial",
   "theorems": [
    "C08_set_partial",
    "C08_set_read_back",
    "C08_other_kinds_and_version",
    "C08_set_changes_versions_violated",
    "C08_version_zero_fails"
   ],
   "note": "Refuted: Set changes the documents of all stored versions, including version 0. Proved: what Set writes at its path in the current state, that other operation kinds are recorded nowhere, and the version is unchanged."
  },
  {
   "property": "C09",
   "status": "proved",
   "theorems": [
    "C09_testSet_decision"
   ],
   "note": "Decision table proved for every reachable state."
  },
  {
   "property": "C10",
   "status": "partial",
   "theorems": [
    "C10_single_segment_partial",
    "C10_damage_confined_partial",
    "C10_error_damages_fails",
    "C10_panic_damages_fails",
    "C10_panic_leaves",
    "C10_error_exact",
    "C10_patch_exact",
    "C10_root_array",
    "C10_root_array_fails",
    "C10_set_loses_state_fails"
   ],
   "note": "Refuted in general (C10_error_damages_fails, C10_panic_damages_fails): a failing operation overwrites the member it descended into. Proved: single-segment paths are safe, damage is confined to the first path segment, C10_error_exact says exactly what the document is after any operation that returned an error, and C10_panic_leaves that an operation that panics keeps every leaf and adds none. C10_patch_exact: a failing patch leaves exactly what its failing operation leaves of the document made by those before it. C10_root_array and C10_root_array_fails: root arrays."
  },
  {
   "property": "C11",
   "status": "proved",
   "theorems": [
    "C11_temporalTrack",
    "C11_consequences"
   ],
   "note": "Full specification of which operations are kept, for every history."
  },
  {
   "property": "C12",
   "status": "proved",
   "theorems": [
    "C12_temporalTrack_readonly",
    "C12_slice_keeps_log"
   ],
   "note": "Proved for every state."
  },
  {
   "property": "C13",
   "status": "proved",
   "theorems": [
    "C13_track_range"
   ],
   "note": "Proved: tracking a range equals tracking the restriction of the log to that range."
  },
  {
   "property": "C14",
   "status": "partial",
   "theorems": [
    "C14_track_modifies_fails",
    "C14_track_effect_partial",
    "C14_track_readonly_partial"
   ],
   "note": "Refuted: Track writes marked operations into the log. Proved: the exact effect, and read-only when nothing is dropped."
  },
  {
   "property": "C15",
   "status": "proved",
   "theorems": [
    "C15_compact",
    "C15_consequences"
   ],
   "note": "Full specification of the compacted log."
  },
  {
   "property": "C16",
   "status": "partial",
   "theorems": [
    "C16_compact_idempotent",
    "C16_track_of_compacted_partial",
    "C16_unordered_fails"
   ],
   "note": "Idempotence proved for every history; commutation with tracking for logs in time order, refuted otherwise."
  },
  {
   "property": "C17",
   "status": "partial",
   "theorems": [
    "C17_compact_replay_partial",
    "C17_parent_remove_fails",
    "C17_remove_with_value_fails",
    "C17_elements_partial",
    "C17_below_element_fails",
    "C17_spelling_fails",
    "C17_element_remove_fails"
   ],
   "note": "C17_elements_partial: logs of add/replace of a primitive at members or at elements of arrays (last segment), and removes of members without value, on paths that are equal or part at some segment, for every version and prefix; C17_compact_replay_partial is the case without indices (SimpleLog.elemLog). Refuted: a parent removed between two equal writes, removes carrying a value, removes of elements, paths running below an element, and two spellings of one index (C17_*_fails)."
  },
  {
   "property": "C18",
   "status": "partial",
   "theorems": [
    "C18_history_partial",
    "C18_order_fails",
    "C18_initial_value_fails",
    "C18_history_returns_partial",
    "C18_new_path_fails"
   ],
   "note": "Proved: key set, initial value, exact list of value-changing operations per path for every map order, ascending order if the runtime visits versions in order; and when the call returns. Refuted: order depends on map iteration, the initial value may be a later one, a path missing in the initial document panics."
  },
  {
   "property": "C19",
   "status": "partial",
   "theorems": [
    "C19_slice_contents_partial",
    "C19_slice_answers_partial",
    "C19_start_stored_partial",
    "C19_missing_base_violated",
    "C19_missing_base_fails",
    "C19_version_zero_fails"
   ],
   "note": "Proved: exact contents, and equal answers for every version of the range if a snapshot of vi is stored. Refuted: a range whose oldest stored snapshot is newer than a version of the range (general theorem plus witness), and the range 0..0."
  },
  {
   "property": "C20",
   "status": "partial",
   "theorems": [
    "C20_temporalSlice_contents_partial",
    "C20_snapshots_partial",
    "C20_outcome_partial",
    "C20_duplicate_versions_violated",
    "C20_versions_partial",
    "C20_empty_window_fails",
    "C20_gap_fails"
   ],
   "note": "Proved: exact contents. Refuted in general: a version with two operations in the window is listed twice and every checking method panics on the slice; gaps and empty windows also fail. Proved usable if each version has at most one operation in the window and there are no gaps. C20_snapshots_partial: exactly the stored versions whose document has its newest time in the window are kept. C20_outcome_partial: the outcome of every call."
  },
  {
   "property": "C21",
   "status": "partial",
   "theorems": [
    "C21_selection_partial",
    "C21_considered_partial",
    "C21_latest_values_partial",
    "C21_one_version_only_fails",
    "C21_nothing_selected_fails",
    "C21_tie_fails",
    "C21_later_value_fails"
   ],
   "note": "Proved: the selection (one latest operation per path of the version after the base, for every runtime order), and, for plain operations on independent paths and a base not newer than t, that every path has the value of its latest operation and everything else is unchanged. Refuted: other versions are ignored, nil for an empty selection, ties depend on the unstable sort, shared documents show later values. C21_considered_partial: which version is the base, that pending operations are committed first and that the recorded patch is only reordered."
  },
  {
   "property": "C22",
   "status": "proved",
   "theorems": [
    "C22_escape_roundtrip",
    "C22_escape_injective"
   ],
   "note": "Round trip and injectivity for every byte string."
  },
  {
   "property": "C23",
   "status": "partial",
   "theorems": [
    "C23_getValue_partial",
    "C23_reaches_unique",
    "C23_decimal_index",
    "C23_slash_key_fails",
    "C23_slash_key_wrong_member_fails",
    "C23_root_fails"
   ],
   "note": "Refuted for keys containing '/' (unescaping happens before splitting) and for the root pointer; proved for all keys without '/'."
  },
  {
   "property": "C24",
   "status": "partial",
   "theorems": [
    "C24_written_leaf",
    "C24_read_back_partial",
    "C24_element_read_back",
    "C24_leading_slash_fails",
    "C24_dot_fails",
    "C24_below_array_fails",
    "C24_unsupported_value_fails",
    "C24_any",
    "C24_lost_fails"
   ],
   "note": "Proved: the written leaf is stored at the path (or at the array element on it). Reading back through the same path string fails with leading '/', '.', paths running below an array and unsupported values (witnesses). C24_any is for documents of any kind; C24_lost_fails: in root arrays a path that goes on behind a leaf succeeds without any effect (in objects it panics)."
  },
  {
   "property": "C25",
   "status": "partial",
   "theorems": [
    "C25_frame_partial",
    "C25_elements_partial",
    "C25_array_fails",
    "C25_root_array"
   ],
   "note": "Frame proved for locations parting at an object, and at existing array elements; refuted for array extension/removal inside arrays. C25_root_array: root arrays."
  },
  {
   "property": "C26",
   "status": "partial",
   "theorems": [
    "C26_remove_member",
    "C26_remove_element",
    "C26_below_array_fails",
    "C26_root_array"
   ],
   "note": "Proved for object parents and for array elements; a remove running below an array element deletes the whole element (witness). C26_root_array: root arrays, with an error instead of a panic for an element that is not there."
  },
  {
   "property": "C27",
   "status": "partial",
   "theorems": [
    "C27_sequential",
    "C27_split_partial",
    "C27_in_place",
    "C27_empty_fails",
    "C27_root_array_fails",
    "C27_caller",
    "C27_array_remove",
    "C27_each",
    "C27_array_partial",
    "C27_array_growth_fails",
    "C27_array_removal_fails"
   ],
   "note": "Refuted for the empty patch (returns nil) and for array roots; proved for non-empty patches on object documents. C27_array_remove: what a document given to Append before shows after a removal from its root array. C27_caller: the caller's own document is changed to the same result. C27_each: for any document, every operation is applied to the document of the caller as the operations before left it, and the result is that of the last one. C27_array_partial: on root arrays the operations act one after another as long as those before the last go to existing elements and remove none; C27_array_growth_fails: an operation that makes the array longer has no effect unless it is the last; C27_array_removal_fails: after a removal the last element is there twice."
  },
  {
   "property": "C28",
   "status": "proved",
   "theorems": [
    "C28_equal_no_patch",
    "C28_nan_differs"
   ],
   "note": "Full, for both generators, with Go's == on values (NaN differs from itself, shown by C28_nan_differs) and structural equality up to member order; documents are well formed (no duplicate keys in an object, as in a Go map)."
  },
  {
   "property": "C29",
   "status": "proved",
   "theorems": [
    "C29_empty_patch_equal"
   ],
   "note": "Full, for both generators."
  },
  {
   "property": "C30",
   "status": "partial",
   "theorems": [
    "C30_complete_partial",
    "C30_same_shape",
    "C30_container",
    "C30_sound_partial",
    "C30_empty_key_fails"
   ],
   "note": "Every operation carries the pointer of a location where the documents differ as claimed, with b's value and timestamp; no path occurs twice (C30_sound_partial). Conversely nothing is left out: every leaf of b is in a or written by an operation, every member only in a is removed (C30_complete_partial). For documents of the same shape the patch always exists and is exactly the set of replacements of the differing leaves (C30_same_shape). Hypotheses: no empty keys, arrays at the same location have the same length (as in the statement) and fit an int. With an empty key the claim is false (C30_empty_key_fails). A member that becomes a container of another type ends the generation with an error, never a panic, once the members before it are dealt with (C30_container)."
  },
  {
   "property": "C31",
   "status": "partial",
   "theorems": [
    "C31_stripped_partial",
    "C31_times_partial",
    "C31_below_empty_name_partial",
    "C31_below_times_partial",
    "C31_generated_patch_violated",
    "C31_times_violated",
    "C31_leading_slash_fails",
    "C31_array_length_fails",
    "C31_times_length_fails",
    "C31_nested_fails",
    "C31_nested_array_fails",
    "C31_dot_fails",
    "C31_slash_fails"
   ],
   "note": "Violated in general: C31_generated_patch_violated shows for every pair of differing object documents without an empty member name that a successful application never yields b, because generated paths start with '/', which ApplyOperation reads as an empty first segment. Proved instead: with the leading separator stripped from each path, or for a document stored below the empty name, applying the generated patch gives b's values (plain keys; arrays equal or arrays of leaves of equal length); for GeneratePatchWithTimestamp it gives b's values and timestamps. Array-length changes fail also then (C31_array_length_fails, C31_times_length_fails). Names with '.' or '/' and containers inside arrays fail also with stripped paths (C31_dot_fails, C31_slash_fails, C31_nested_fails, C31_nested_array_fails)."
  },
  {
   "property": "C32",
   "status": "proved",
   "theorems": [
    "C32_latest_timestamp",
    "C32_order_independent",
    "C32_newest"
   ],
   "note": "Exact characterisation, including the panic condition and independence of map order. C32_newest states it against an independent definition of the newest time."
  },
  {
   "property": "C33",
   "status": "partial",
   "theorems": [
    "C33_roundtrip_partial",
    "C33_exact_partial",
    "C33_unreadable",
    "C33_no_silent_change",
    "C33_marshal_nil",
    "C33_control_char_fails",
    "C33_exponent_fails",
    "C33_top_leaf_fails",
    "C33_escapes",
    "C33_plain_number",
    "C33_whole_text",
    "C33_whole_plain",
    "C33_control_text"
   ],
   "note": "Proved for every document whose keys and strings consist of printable characters and \\b \\t \\n \\f \\r, whose numbers are printed without exponent (exactly zero and 0.0001 <= |f| < 1000000, C33_plain_number; whole numbers below 10^6, C33_whole_plain), and without nil (C33_roundtrip_partial); negative timestamps read back as -1. For objects and arrays the converse is proved as well: every other document gives an error when written or read (C33_unreadable), so a container is never silently changed (C33_no_silent_change). The full property is false: witnesses C33_control_char_fails, C33_exponent_fails, C33_top_leaf_fails."
  },
  {
   "property": "C34",
   "status": "partial",
   "theorems": [
    "C34_indent_partial",
    "C34_null_fails"
   ],
   "note": "Proved for all documents without nil and all white-space prefixes and indents. With nil the two functions disagree (C34_null_fails)."
  },
  {
   "property": "C35",
   "status": "partial",
   "theorems": [
    "C35_fuel",
    "C35_total_partial",
    "C35_null_fails",
    "C35_top_null"
   ],
   "note": "Termination is proved (C35_fuel), and the absence of panics for all texts that do not contain null. The full property is false: null inside a container panics (C35_null_fails). Stack exhaustion on deeply nested input is not modelled."
  },
  {
   "property": "C36",
   "status": "partial",
   "theorems": [
    "C36_tokens",
    "C36_insert",
    "C36_front",
    "C36_angle",
    "C36_empty_timestamp_fails"
   ],
   "note": "Proved: the outcome depends on the tokens only, white space between any two tokens is irrelevant, and white space in front of the closing bracket of a non-empty timestamp is irrelevant. It fails for the closing bracket of an empty timestamp (C36_empty_timestamp_fails)."
  },
  {
   "property": "C37",
   "status": "proved",
   "theorems": [
    "C37_container",
    "C37_leaf",
    "C37_range",
    "C37_default",
    "C37_empty",
    "C37_suffix_dropped",
    "C37_distinct"
   ],
   "note": "Proved: range, sources and defaults of all timestamps of parsed documents; their objects have distinct keys (C37_distinct)."
  },
  {
   "property": "C38",
   "status": "partial",
   "theorems": [
    "C38_roundtrip_partial",
    "C38_rounding",
    "C38_null",
    "C38_too_deep",
    "C38_timestamp_fails",
    "C38_nan_fails",
    "C38_utf8_fails",
    "C38_key_fails",
    "C38_null_fails"
   ],
   "note": "Proved for documents without nil, with valid UTF-8 text, finite numbers, timestamps between -2^53 and 2^53 and at most 10000 levels (C38_roundtrip_partial). For all other timestamps the result is characterised: each is rounded to float64 (C38_rounding). The full property is false: witnesses C38_*_fails."
  },
  {
   "property": "C39",
   "status": "partial",
   "theorems": [
    "C39_roundtrip_partial",
    "C39_bytes_partial",
    "C39_null_fails",
    "C39_depth_fails"
   ],
   "note": "Proved for JSON objects and arrays without null, with valid UTF-8 and fewer than 10000 levels, including data that looks like an encoded leaf (C39_roundtrip_partial, C39_bytes_partial). The full property is false: null panics (C39_null_fails), and nesting of exactly 10000 is refused (C39_depth_fails)."
  },
  {
   "property": "C40",
   "status": "partial",
   "theorems": [
    "C40_equal_partial",
    "C40_equal_float",
    "C40_untimed_partial",
    "C40_equivalence",
    "C40_lost_error",
    "C40_timestamp_fails",
    "C40_utf8_fails",
    "C40_root_leaf_fails",
    "C40_infinite_fails"
   ],
   "note": "Proved for documents JSON can represent (C40_equal_partial, C40_untimed_partial); with any timestamps, they are compared as float64 (C40_equal_float). The full property is false: witnesses C40_*_fails; errors are lost in general (C40_lost_error)."
  },
  {
   "property": "C41",
   "status": "proved",
   "theorems": [
    "C41_sorted",
    "C41_compatible",
    "C41_text",
    "C41_content",
    "C41_nil"
   ],
   "note": "Proved for all documents and all orders of members; with nil the sorted form does not exist (C41_nil). C41_content: for a document without nil the sorted form is the compatible form with the two members of every leaf swapped."
  },
  {
   "property": "C42",
   "status": "proved",
   "theorems": [
    "C42_parseValue",
    "C42_agrees",
    "C42_int_panics"
   ],
   "note": "Proved for documents JSON can represent, nil included; timestamps of type int64 make the unexported parser panic (C42_int_panics)."
  },
  {
   "property": "C43",
   "status": "proved",
   "theorems": [
    "C43_toArray",
    "C43_not_leaf"
   ],
   "note": "Proved for all arrays."
  },
  {
   "property": "C44",
   "status": "partial",
   "theorems": [
    "C44_escapes",
    "C44_exponents",
    "C44_value",
    "C44_document",
    "C44_roundtrip_partial",
    "C44_fromJson",
    "C44_toJson",
    "C44_equal",
    "C44_json_partial",
    "C44_fuel",
    "C44_duplicate_fails"
   ],
   "note": "Writing and reading as bytes equals writing and reading as syntax trees, for all values (C44_value), documents with int64 timestamps (C44_document), FromJsonBytes on every text (C44_fromJson), ToJsonBytes and the equality functions. Round trips hold in the range of C38/C39 (C44_roundtrip_partial, C44_json_partial); C44_duplicate_fails: two members with the same key become one. Exponents are accepted with e or E and with any of the signs to the same effect (C44_exponents)."
  },
  {
   "property": "C45",
   "status": "partial",
   "theorems": [
    "C45_null_members",
    "C45_null_value_fails",
    "C45_text",
    "C45_roundtrip_partial",
    "C45_store_partial",
    "C45_injection_fails",
    "C45_smuggle_fails",
    "C45_escape_fails",
    "C45_value_fails"
   ],
   "note": "C45_text says exactly what is read, and when reading fails, for operation types and paths that need no escapes. The full property is false: quotation marks, backslashes and control characters are not escaped, so that a path can change its operation or add others (C45_injection_fails, C45_smuggle_fails, C45_escape_fails), and values change their types (C45_value_fails). C45_roundtrip_partial and C45_store_partial hold for JSON values and plain paths. Null members other than the value change nothing (C45_null_members, C45_null_value_fails)."
  },
  {
   "property": "C46",
   "status": "partial",
   "theorems": [
    "C46_types",
    "C46_text",
    "C46_read_fails",
    "C46_read_partial"
   ],
   "note": "Proved for all operations (text) and, for reading, for operation types and paths that need no escapes; for others see C46_read_fails. The value is what is read from its JSON text."
  },
  {
   "property": "C47",
   "status": "partial",
   "theorems": [
    "C47_maps",
    "C47_fromJson",
    "C47_roundtrip_partial",
    "C47_utf8_fails"
   ],
   "note": "C47_fromJson says exactly what is read, and when it fails, for all patches. The operations are the same for JSON values and valid UTF-8 (C47_roundtrip_partial); invalid UTF-8 is replaced (C47_utf8_fails). C47_maps: patches given as slices of maps."
  },
  {
   "property": "C48",
   "status": "partial",
   "theorems": [
    "C48_beyond",
    "C48_period_partial",
    "C48_negative_fails"
   ],
   "note": "Exactly the periods with non-negative bounds are read back; all others are read as 0 to 0 (C48_negative_fails). Bounds beyond int64 are cut off (C48_beyond)."
  },
  {
   "property": "C49",
   "status": "partial",
   "theorems": [
    "C49_add_partial",
    "C49_single_fails",
    "C49_exists"
   ],
   "note": "Proved for paths of at least two segments; for one segment the value is lost (C49_single_fails)."
  },
  {
   "property": "C50",
   "status": "partial",
   "theorems": [
    "C50_track",
    "C50_mem",
    "C50_empty_fails"
   ],
   "note": "Proved exactly; versions with an empty period (replaced at the time they were set) are returned although never valid (C50_empty_fails)."
  },
  {
   "property": "C51",
   "status": "proved",
   "theorems": [
    "C51_events"
   ],
   "note": "Exact characterisation."
  },
  {
   "property": "C52",
   "status": "partial",
   "theorems": [
    "C52_snapshot_partial",
    "C52_only",
    "C52_wf",
    "C52_members_partial",
    "C52_outside_fails",
    "C52_prefix_fails"
   ],
   "note": "Proved which version is shown where the versions of every prefix show objects (or there are none), and conversely that every scalar shown comes from a version of a prefix of its path (C52_only). Refuted: values are shown before and after their validity, and a scalar at a prefix hides what is below."
  },
  {
   "property": "C53",
   "status": "partial",
   "theorems": [
    "C53_disjoint_partial",
    "C53_inForce_partial",
    "C53_latest_partial",
    "C53_before_partial",
    "C53_snapshot_partial",
    "C53_zero_fails",
    "C53_tie_fails",
    "C53_removed_fails",
    "C53_single_fails"
   ],
   "note": "Proved for non-negative times with at most one value per path at time 0 and paths of at least two segments, up to reflect.DeepEqual; end to end for snapshots whenever patches on prefixes set objects. Refuted at time 0, for equal times, for removed values and for paths of one segment."
  },
  {
   "property": "C54",
   "status": "partial",
   "theorems": [
    "C54_path_partial",
    "C54_injective_partial",
    "C54_collision_fails"
   ],
   "note": "Proved for segments without dots and slashes; refuted for names with dots; escapes are not decoded."
  },
  {
   "property": "C55",
   "status": "partial",
   "theorems": [
    "C55_sound_partial",
    "C55_complete_partial",
    "C55_window_fails"
   ],
   "note": "Proved: every event found is such a patch, not after the window; whenever the predicate holds inside the window some event not later is found. Refuted: events before the window and events of values never in force."
  },
  {
   "property": "C56",
   "status": "partial",
   "theorems": [
    "C56_refused_partial",
    "C56_patch_partial",
    "C56_root_array_fails",
    "C56_index"
   ],
   "note": "Proved for object documents, with an independent description of the segments that count as indices (C56_index); refuted for root arrays, where below a leaf every operation reports success (C56_root_array_fails)."
  },
  {
   "property": "C57",
   "status": "proved",
   "theorems": [
    "C57_write_outcome",
    "C57_remove_outcome",
    "C57_nil_refused"
   ],
   "note": "Exact: equivalences for success and panic, of writes and removals; writes of nil never succeed."
  },
  {
   "property": "C58",
   "status": "partial",
   "theorems": [
    "C58_json_written",
    "C58_tson_written",
    "C58_frame",
    "C58_json_inside",
    "C58_tson_inside_fails",
    "C58_above_fails"
   ],
   "note": "Proved for the updated sensor and for every location that neither contains it nor lies inside; the JSON document also keeps what lies inside. Refuted: the TSON document loses what lies inside, both replace values on the way by maps."
  },
  {
   "property": "C59",
   "status": "partial",
   "theorems": [
    "C59_built_partial",
    "C59_start_partial",
    "C59_order_fails",
    "C59_panic_fails"
   ],
   "note": "Proved if no sensor lies inside another (true for the sensors configured); refuted otherwise: the result depends on the order, or panics."
  },
  {
   "property": "C60",
   "status": "partial",
   "theorems": [
    "C60_documents",
    "C60_tson_patches",
    "C60_json_patches_fails",
    "C60_json_patches_partial"
   ],
   "note": "Proved for the documents and the TSON patches, and for the values and times that the JSON patches write (C60_json_patches_partial, sensor names without slashes); refuted for the JSON patches, which omit values that the JSON document does take over (C60_json_patches_fails, for every comparison identifying different values)."
  },
  {
   "property": "C61",
   "status": "proved",
   "theorems": [
    "C61_counts",
    "C61_patches"
   ],
   "note": "Proved; the TSON patches are a sublist of the set patches, which are the readings."
  },
  {
   "property": "C62",
   "status": "partial",
   "theorems": [
    "C62_below",
    "C62_sensor",
    "C62_only",
    "C62_names_fails",
    "C62_null_fails",
    "C62_vehicle_partial",
    "C62_elements"
   ],
   "note": "Proved below maps that are not sensors, and for every vehicle document whose sensors do not lie inside each other. Refuted: maps that happen to have the members value and timestamp lose their other members; a nil value becomes the empty string."
  },
  {
   "property": "C63",
   "status": "partial",
   "theorems": [
    "C63_patches_partial",
    "C63_once_fails",
    "C63_empty_key_fails"
   ],
   "note": "Exact description of the set of patches; refuted: maps are recorded once per primitive member, and empty keys lead to wrong paths."
  },
  {
   "property": "C64",
   "status": "partial",
   "theorems": [
    "C64_filter",
    "C64_events",
    "C64_found",
    "C64_all_fails",
    "C64_fresh_fails"
   ],
   "note": "Proved for every reachable logument; refuted: repeated values are reported once and the order is arbitrary; pending operations are not seen."
  },
  {
   "property": "C65",
   "status": "partial",
   "theorems": [
    "C65_switches",
    "C65_alternates_partial",
    "C65_source_fails",
    "C65_cooldown_fails",
    "C65_stuck_fails"
   ],
   "note": "Exact condition proved, and alternation of targets for simulations starting in urban traffic; refuted: the recorded source of every second transition is wrong, the cooldown is 60 s instead of 30 s, any other first scenario is never left."
  },
  {
   "property": "C66",
   "status": "proved",
   "theorems": [
    "C66_range"
   ],
   "note": "Proved."
  },
  {
   "property": "C67",
   "status": "partial",
   "theorems": [
    "C67_store_partial",
    "C67_lost_fails",
    "C67_top_fails",
    "C67_list_fails"
   ],
   "note": "Proved for sensors inside at least one map and readings after time 0. Refuted: readings at time 0, which the simulation makes for every sensor, can be lost to the initial patch of the same time; members of the document itself are never shown; lists become maps."
  },
  {
   "property": "C68",
   "status": "partial",
   "theorems": [
    "C68_queries_partial",
    "C68_before_fails",
    "C68_descending_fails",
    "C68_kept_fails"
   ],
   "note": "Proved for ascending query times by an invariant over the queries. Refuted: nil instead of the document before the first operation; wrong answers for descending times; an answer that is kept is changed by later queries."
  },
  {
   "property": "C69",
   "status": "partial",
   "theorems": [
    "C69_agree_partial",
    "C69_before_fails",
    "C69_zero_fails"
   ],
   "note": "Proved from C67 and C68 for query times from the first reading on, sensors inside a map, and readings after time 0 whose times differ. Refuted: before the first reading, and for readings at time 0."
  },
  {
   "property": "C70",
   "status": "proved",
   "theorems": [
    "C70_equal",
    "C70_matches",
    "C70_plain",
    "C70_plain_succeeds",
    "C70_times",
    "C70_times_succeeds"
   ],
   "note": "Proved for both generators, with the exact condition for success (otherwise a panic), and with independent characterisations of the three comparison functions. That applying these operations does not in general give the new array is recorded under C31."
  },
  {
   "property": "C71",
   "status": "partial",
   "theorems": [
    "C71_values",
    "C71_maps",
    "C71_idempotent",
    "C71_panics",
    "C71_key_remains_fails",
    "C71_catalogue"
   ],
   "note": "Proved for every value (C71_values, C71_maps), idempotence and the panic. C71_key_remains_fails: a key of the list remains in a map with only maps as members. C71_catalogue: the keys removed from a catalogue are exactly the six descriptive ones."
  },
  {
   "property": "C72",
   "status": "partial",
   "theorems": [
    "C72_exact",
    "C72_distinct_partial",
    "C72_distinct_fails",
    "C72_timestamp_fails",
    "C72_root"
   ],
   "note": "The leaves and their names are characterised exactly (C72_exact). That the names are distinct is proved for keys without dots and with children standing alone; C72_distinct_fails and C72_timestamp_fails show what happens otherwise. C72_root: data that is not a map has no leaf nodes."
  },
  {
   "property": "C73",
   "status": "partial",
   "theorems": [
    "C73_roundtrip_partial",
    "C73_empty_fails",
    "C73_children_fails",
    "C73_dot_fails",
    "C73_path",
    "C73_fresh",
    "C73_brackets_fails"
   ],
   "note": "Proved for data without empty maps inside, whose keys have no dots, are not in brackets and are not children (C73_roundtrip_partial). The other cases are refuted by witnesses. C73_path: what a call does for a path with names and indices. C73_fresh: building from nothing panics exactly for a negative index and is never an error. C73_brackets_fails: a value whose last part is brackets without an index is lost."
  },
  {
   "property": "C74",
   "status": "partial",
   "theorems": [
    "C74_value_partial",
    "C74_allowed_array_fails",
    "C74_allowed_ignored_fails",
    "C74_min_max_fails",
    "C74_unknown_fails",
    "C74_names",
    "C74_signals_partial",
    "C74_top_leaf_fails",
    "C74_no_allowed_fails",
    "C74_range_partial"
   ],
   "note": "C74_signals_partial: exactly the signals, at distinct places (C74_names), for well-formed catalogues with known datatypes; C74_value_partial: type, range and allowed values. The other cases are refuted: allowed values of small integers and of array types, min and max, unknown array types, leaves at the top, empty lists. C74_range_partial: the range of the numbers drawn."
  },
  {
   "property": "C75",
   "status": "partial",
   "theorems": [
    "C75_value",
    "C75_next_partial",
    "C75_follows",
    "C75_chain",
    "C75_change_fails",
    "C75_nil_fails",
    "C75_array_fails"
   ],
   "note": "C75_follows and C75_chain for data with readings that are not nil; arrays always get the new timestamp and never change. Refuted: a changed value differs from the old one (C75_change_fails); nil values (C75_nil_fails); arrays without readings (C75_array_fails)."
  },
  {
   "property": "C76",
   "status": "partial",
   "theorems": [
    "C76_order",
    "C76_order_fails",
    "C76_again",
    "C76_document",
    "C76_leaves",
    "C76_patch_partial",
    "C76_next_partial",
    "C76_stamp",
    "C76_moved",
    "C76_stamp_fails",
    "C76_soon_fails",
    "C76_infinite_fails",
    "C76_empty_fails"
   ],
   "note": "C76_next_partial and C76_patch_partial, for data that JSON keeps (finite numbers, valid UTF-8, no empty keys, no empty maps); timestamps are compared after rounding to float64, which moves them by at most 128 below 2^61 (C76_stamp), so readings more than 256 later are in the patch (C76_moved). Refuted: exact timestamps (C76_stamp_fails, C76_soon_fails), infinite numbers (C76_infinite_fails), new empty maps (C76_empty_fails). The way through JSON keeps the order of timestamps up to 2^63-513 (C76_order; refuted above, C76_order_fails) and changes a timestamp once at most (C76_again)."
  },
  {
   "property": "C77",
   "status": "partial",
   "theorems": [
    "C77_empty",
    "C77_line",
    "C77_lines_panic",
    "C77_unnamed_line",
    "C77_whole",
    "C77_data_partial",
    "C77_unreadable",
    "C77_patch_partial",
    "C77_between_partial",
    "C77_exponent_fails",
    "C77_nil_fails",
    "C77_nil_patch_fails",
    "C77_quote_fails",
    "C77_absent_panics"
   ],
   "note": "C77_data_partial for data whose keys and strings are plain text and whose float values are zero or have 0.0001 <= |f| < 1000000 (integers are all readable); every other data set gives a file that is refused (C77_unreadable). C77_patch_partial for items whose paths need no escapes and whose values are booleans, finite numbers or plain text; C77_between_partial for the patch between two data sets. Refuted: numbers with exponent (C77_exponent_fails), nil values (C77_nil_fails, C77_nil_patch_fails), keys with quotation marks in patches (C77_quote_fails), absent patches (C77_absent_panics). C77_empty: exactly which data sets give an empty file; C77_line, C77_lines_panic, C77_unnamed_line: which lines of a patch can be written and how; C77_whole: rounding of plain numbers."
  },
  {
   "property": "C78",
   "status": "partial",
   "theorems": [
    "C78_args",
    "C78_response",
    "C78_sequence",
    "C78_original",
    "C78_unreadable",
    "C78_none_fails",
    "C78_empty_fails",
    "C78_unchanged_fails",
    "C78_generate_fails",
    "C78_arguments",
    "C78_files_partial",
    "C78_served_fails",
    "C78_between_fails"
   ],
   "note": "C78_response and C78_sequence: the response is the first data set with all operations applied one after another; C78_original and C78_unreadable: it panics if a file cannot be read (C78_response: also if an operation fails). C78_files_partial: which files a car gets and what their patches contain. Refuted: without patches it panics (C78_none_fails), empty patches give null (C78_empty_fails), generated paths begin with a slash, so named members never change (C78_unchanged_fails, C78_served_fails), the default arguments lack a rate and panic (C78_generate_fails), patches belong to the first data set instead of the one before (C78_between_fails). C78_args: the generation starts exactly if all six arguments are there with their types, and panics otherwise."
  },
  {
   "property": "C79",
   "status": "partial",
   "theorems": [
    "C79_reading_fails",
    "C79_empty_partial"
   ],
   "note": "Refuted for every data set with at least one reading: the conversion is an error (C79_reading_fails), because Save writes timestamps that JSON does not allow. C79_empty_partial: the empty data set converts."
  },
  {
   "property": "C80",
   "status": "partial",
   "theorems": [
    "C80_times",
    "C80_count",
    "C80_each",
    "C80_zero_fails",
    "C80_estimate_partial",
    "C80_estimate_fails"
   ],
   "note": "C80_times: a sensor is read exactly at the times before the end that are multiples of the step and of the interval, in the order of time. C80_count and C80_each: the number of readings of all and of one sensor. C80_estimate_partial: the estimate is right if intervals are multiples of the step that divide the duration and there are no attributes. Refuted: an interval of 0 panics (C80_zero_fails); with the table of the experiment the speed (every 20 ms) is read every 100 ms, 34082 readings are taken and 91080 announced (C80_estimate_fails)."
  },
  {
   "property": "C82",
   "status": "partial",
   "theorems": [
    "C82_close",
    "C82_near",
    "C82_kinds",
    "C82_same",
    "C82_refl",
    "C82_symm",
    "C82_documents",
    "C82_nan_fails",
    "C82_trans_fails",
    "C82_boundary_fails"
   ],
   "note": "C82_close and C82_near: numbers taken for equal are finite and differ by less than the float64 nearest to 0.005, and all finite numbers that differ by at most the next smaller float64 are taken for equal. C82_kinds, C82_same: other values are equal only if they are the same. C82_refl, C82_symm. C82_documents: after any readings the two documents differ by less than 0.005 in every value. Refuted: NaN and the infinities differ from themselves (C82_nan_fails), the relation is not transitive (C82_trans_fails), whether a step of 0.005 counts depends on rounding (C82_boundary_fails)."
  },
  {
   "property": "C83",
   "status": "partial",
   "theorems": [
    "C83_range_fails",
    "C83_drift_fails",
    "C83_pattern_panics",
    "C83_pattern_params",
    "C83_slopes",
    "C83_constant",
    "C83_noise",
    "C83_sine",
    "C83_linear",
    "C83_walk",
    "C83_stepped",
    "C83_toggle",
    "C83_kind",
    "C83_range_partial",
    "C83_stuck",
    "C83_longitude_fails",
    "C83_temperature_fails",
    "C83_toggled_number",
    "C83_brake_fails",
    "C83_choices_fails",
    "C83_loop_fails"
   ],
   "note": "C83_constant, C83_noise, C83_sine, C83_linear, C83_walk, C83_stepped, C83_toggle: the values of each pattern. C83_kind: readings have the type of the sensor. C83_range_partial: the vehicle can be made in every scenario and every number stays within the limits of the table after any number of readings, whatever is drawn; C81_range_long_partial: the same for whole experiments, in the mixed scenario with its switches for up to 86 minutes (the experiment runs 5, its comment says 60); not so beyond that, since each return to traffic makes the noise start from the value reached (C83_drift_fails: a pressure within its limits leaves them with the reading after such a switch; C83_range_fails: a run of the mixed scenario of less than 56 hours after which the pressure of a tire is above its limit). Refuted besides: on the highway the longitude never changes although it is to grow by 0.1 per second (C83_longitude_fails, by C83_stuck), nor does the temperature of the battery while charging (C83_temperature_fails) or the brake on the highway, whose pattern is that of booleans (C83_brake_fails, by C83_toggled_number); random strings without num_choices panic (C83_choices_fails), and with one choice the loop need not end (C83_loop_fails). C83_stuck and C83_toggled_number hold for all sensors. C83_pattern_panics, C83_pattern_params and C83_slopes: when the making of a pattern panics, its parameters, and the slopes in each scenario."
  },
  {
   "property": "C81",
   "status": "partial",
   "theorems": [
    "C81_switches",
    "C81_range_long_partial",
    "C81_documents_partial",
    "C81_range_partial",
    "C81_rows_partial",
    "C81_mixed_fails",
    "C81_clock_fails",
    "C81_rows",
    "C81_updates",
    "C81_vectors",
    "C81_switch",
    "C81_documents_fails",
    "C81_finite"
   ],
   "note": "C81_updates: experiments of any duration end in any scenario; which readings they take, their counts and numbers of patches. C81_vectors: the numbers noted every 10 seconds are the numbers of patches with earlier times. C81_documents_partial: the TSON document holds the values of the vehicle, the JSON document the values read last, which differ by less than 0.005. C81_range_partial: all numbers recorded lie within the limits of the table; C81_range_long_partial: also after switches of the mixed scenario, for up to 86 minutes; C83_range_fails: not beyond that. C81_switches: the mixed scenario goes on switching for ever, with at least two switches every 2001 seconds, whatever is drawn. C81_rows_partial: the rows of the recorder hold the values before the readings of their time. C81_finite: in any scenario and duration (to 2^53 ms), also after switches, every reading is of a sensor of the table, in the order of time, and plain, with numbers of at most 2^60. C81_rows: the rows of the recorder in every scenario and duration: the value in the vehicle which a drive up to their time ends with, or after the settings of a switch at this time. The theorems named _partial need that the mixed scenario has not switched (durations up to 499900 ms). C81_switch: what happens at the first switch, for all draws. Refuted: within the 300 s of the experiment the mixed scenario never switches (C81_mixed_fails); after a switch the TSON document keeps the old speed while the vehicle has stopped (C81_documents_fails); the timestamps of the JSON document start with the clock and go back to the time of the simulation (C81_clock_fails)."
  },
  {
   "property": "C84",
   "status": "partial",
   "theorems": [
    "C84_times_partial",
    "C84_even_partial",
    "C84_exact_fails",
    "C84_single_fails",
    "C84_agree_partial"
   ],
   "note": "C84_times_partial: number, first, last, order and range of the times, for at least two. C84_even_partial: each time is the exact one rounded down, or one less if that is a whole number of ms. C84_agree_partial: with C69, both stores show the same values at all these times. Missing: equality with the exact time rounded down, refuted by C84_exact_fails (54999 instead of 55000 for 61 times over 300 s); a single time, refuted by C84_single_fails (0 is divided by 0)."
  },
  {
   "property": "C85",
   "status": "partial",
   "theorems": [
    "C85_tracks_partial",
    "C85_events_partial",
    "C85_agree_partial",
    "C85_before_fails",
    "C85_repeat_fails",
    "C85_fresh_fails",
    "C85_missing_fails"
   ],
   "note": "C85_tracks_partial: the exact tracks of both stores for every path. C85_events_partial: the exact events. C85_agree_partial: if every reading changes the value, the TJSON store reports the events of the logument and before them at most the time of the value that holds when the window begins. Missing: equal results, refuted by C85_before_fails (value read before the window) and C85_repeat_fails (reading that repeats the value); runs without snapshots before, refuted by C85_fresh_fails; unknown paths, refuted by C85_missing_fails (one ends the run). Readings at time 0 are excluded."
  },
  {
   "property": "C86",
   "status": "partial",
   "theorems": [
    "C86_all_partial",
    "C86_zero_all_fails",
    "C86_short_all_fails",
    "C86_run_partial",
    "C86_urban_partial",
    "C86_zero_fails",
    "C86_short_fails",
    "C86_handed_partial",
    "C86_snapshots_partial",
    "C86_tracks_partial",
    "C86_events_partial",
    "C86_twice_fails",
    "C86_dropped_fails"
   ],
   "note": "C86_all_partial: the whole chain from the simulation to the results, for every scenario and duration over 10 s, also after switches of the mixed scenario (there the logument leaves out recorded patches that repeat a value; in all other drives there are none); C86_urban_partial is the case of traffic. C86_run_partial: the experiments for any document and readings from time 0 on that span at least 10 s. C86_handed_partial: in every scenario the document and the recorded patches meet the conditions of the temporal experiments. C86_snapshots_partial, C86_tracks_partial, C86_events_partial: each experiment for readings from time 0 on. Missing: the same value in both stores at time 0, refuted by C86_zero_fails and C86_zero_all_fails (every drive records a patch at time 0, the time of the initial patches; with C69_zero_fails), C86_twice_fails (the TJSON store reports time 0 twice) and C86_dropped_fails (a later reading is dropped); drives of at most 10 s, refuted by C86_short_fails and C86_short_all_fails (panic). The files between are in C87."
  },
  {
   "property": "C87",
   "status": "partial",
   "theorems": [
    "C87_all_partial",
    "C87_handed_partial",
    "C87_urban_partial",
    "C87_patches_partial",
    "C87_document",
    "C87_stops",
    "C87_clock_fails"
   ],
   "note": "C87_patches_partial: what json.MarshalIndent writes for a slice of patches is read as the same patches, up to invalid UTF-8, the order of members in objects, and integers (which become float64); times are read exactly. C87_handed_partial: for every scenario the latest directory holds exactly the recorded patches and a document with the first values. C87_all_partial: simulation, files and temporal experiments as a whole for drives of more than 10 s in every scenario, also after switches; C87_urban_partial is the case of traffic. Missing: errors of the file system and directories inside the directory of a run. For any directories C87_document says which document is taken and C87_stops when the experiments end quietly and when they panic for want of data. C87_clock_fails: with a directory of a later time the drive just saved is not found and the experiments can panic."
  },
  {
   "property": "C88",
   "status": "partial",
   "theorems": [
    "C88_names",
    "C88_latest_partial",
    "C88_upTo",
    "C88_clock_fails",
    "C88_year_fails",
    "C88_second_fails",
    "C88_stamp",
    "C88_taken"
   ],
   "note": "C88_names: the order of names is the order of times. C88_latest_partial: the directory found is the one written last; C88_upTo: the condition is kept by every experiment. Missing: clocks set back, refuted by C88_clock_fails (with local time this happens every autumn: the older directory is taken); years of five digits, refuted by C88_year_fails; two experiments in the same second, refuted by C88_second_fails (the second one overwrites the files of the first). C88_stamp and C88_taken: for any directories, exactly the names of eight digits, an underscore and six digits count, and the greatest of them is taken."
  },
  {
   "property": "C89",
   "status": "proved",
   "theorems": [
    "C89_table",
    "C89_empty_fails",
    "C89_int",
    "C89_fixed",
    "C89_order",
    "C89_special"
   ],
   "note": "C89_table: all tables without rows of no fields; C89_empty_fails: a row of no fields and one of an empty field have the same text. C89_int: integers. C89_fixed: error at most half of the last digit; C89_order: order is kept; C89_special: NaN and infinities do not read as numbers."
  },
  {
   "property": "C90",
   "status": "partial",
   "theorems": [
    "C90_scenario",
    "C90_shown_partial",
    "C90_files",
    "C90_results",
    "C90_cumulative",
    "C90_timing",
    "C90_sensors",
    "C90_values_partial",
    "C90_switch",
    "C90_mixed_fails",
    "C90_values",
    "C90_values_fails",
    "C90_sizes_partial"
   ],
   "note": "C90_files, C90_results, C90_cumulative, C90_timing, C90_scenario and C90_sensors hold for every scenario and duration. C90_sizes_partial (the sizes, and that TSON needs at least 50 bytes less for each update) holds for every scenario up to 10^9 s. C90_values (every scenario and duration): the rows of a key sensor show its value at their time, after a switch of this time, to the nearest ten-thousandth. C90_values_partial and C90_shown_partial: up to the first switch this is the value of the last patch before; after a switch it is not (C90_values_fails). C90_switch: the one switch of a mixed scenario of 500 s, at a battery level shown as 10.00. Refuted as stated by C90_mixed_fails: in the 300 s of the experiment a mixed scenario has no table of switches. Errors of the file system are not modelled."
  },
  {
   "property": "C91",
   "status": "partial",
   "theorems": [
    "C91_patches",
    "C91_nothing_fails",
    "C91_timing",
    "C91_diff",
    "C91_reduction",
    "C91_range",
    "C91_sign",
    "C91_zero_fails",
    "C91_bandwidth",
    "C91_bandwidth_fails"
   ],
   "note": "C91_diff, C91_reduction, C91_bandwidth: what is shown, with an explicit bound of the error; C91_range and C91_sign: range and sign. C91_timing: for the rows of timing.csv. C91_patches: PatchReduction of an experiment is from 50 to 100 percent whatever the data is, since JSON patches are counted twice for each change and once for each other update. Refuted without numbers to compare with: C91_zero_fails (NaN, -Inf, or 0.00, which looks as if there were no difference), C91_bandwidth_fails, C91_nothing_fails (an experiment of 0 s)."
  },
  {
   "property": "C92",
   "status": "partial",
   "theorems": [
    "C92_table",
    "C92_names",
    "C92_files",
    "C92_all_partial",
    "C92_clock_fails"
   ],
   "note": "C92_table, C92_names and C92_files hold for any results: a row for each query, no two files of the same name, each result that can be written is in its file and no other file is changed. C92_all_partial: the chain from the simulation to the saved results, for every scenario, also after switches. Missing: errors of the file system, and the files written before a query that fails (a failing query is not possible here, by C87_all_partial). C92_clock_fails: the same with a directory of a later time."
  },
  {
   "property": "C93",
   "status": "partial",
   "theorems": [
    "C93_files_partial",
    "C93_logument_partial",
    "C93_drive_partial",
    "C93_place_fails"
   ],
   "note": "C93_files_partial: any readings (from time 0, at most 2^53) of a plain document. C93_logument_partial: agreement with the snapshots of the logument. C93_drive_partial: both for the data saved by a drive of any scenario, also after switches. For other patches the statement is false: C93_place_fails, a patch on a place that does not exist ends the program after the files before it."
  },
  {
   "property": "C94",
   "status": "proved",
   "theorems": [
    "C94_one_document",
    "C94_anywhere",
    "C94_only_given"
   ],
   "note": "C94_one_document: simulation by a machine without a heap. C94_anywhere: independence of the address. C94_only_given: only given operations are ever applied."
  },
  {
   "property": "C95",
   "status": "partial",
   "theorems": [
    "C95_values_partial",
    "C95_frame",
    "C95_track",
    "C95_reuse_fails",
    "C95_sort_fails",
    "C95_slice_fails"
   ],
   "note": "Refuted: storing a slice twice lets Store overwrite a recorded operation (C95_reuse_fails), TemporalSnapshot reorders other versions and the caller's slice (C95_sort_fails), and a slice taken with Slice reorders the original (C95_slice_fails). Proved: as long as the caller gives the logument no array it already has and does not write to its arrays, every history is as if patches were values (C95_values_partial); the logument never writes to an array that it was not given (C95_frame); what Track hands out stays (C95_track). Missing is only what is refuted."
  },
  {
   "property": "C96",
   "status": "partial",
   "theorems": [
    "C96_plain",
    "C96_only_partial",
    "C96_served",
    "C96_outside_fails",
    "C96_patch",
    "C96_patch_frame",
    "C96_response",
    "C96_home"
   ],
   "note": "C96_plain: texts without slashes get the file they are meant for, or nothing. C96_only_partial: so do all texts, if no directory called tson or patches, anywhere on the machine, has a directory in it named like a car. Refuted otherwise: C96_outside_fails sends a file outside of the data. C96_served: after the generation each car and patch is found. C96_patch, C96_patch_frame: a patch request reads only the directory of its car; C96_response: after the generation it is answered from the first data set and the patches up to the number in the query. Links and rights are not modelled."
  },
  {
   "property": "C97",
   "status": "partial",
   "theorems": [
    "C97_start_fails",
    "C97_generated_partial",
    "C97_file"
   ],
   "note": "Refuted for every start: C97_start_fails, the program never serves a request; unless the numbers of cars or files are missing it panics, after all the data has been removed, and leaves only the metadata. C97_generated_partial: with the missing rate the data is generated, nothing else is changed, and the requests get it. C97_file: if dataset is a file, nothing is changed. Links, rights and errors of the disk are not modelled."
  },
  {
   "property": "C98",
   "status": "partial",
   "theorems": [
    "C98_names",
    "C98_order_partial",
    "C98_order_fails",
    "C98_contents",
    "C98_apart",
    "C98_reading"
   ],
   "note": "C98_names: the names are different. C98_contents: each file holds the last data that could be written. C98_apart: no other file is touched. C98_reading: what is read from the directory does not change. C98_order_partial: the names are in the order of the numbers from zero to the width; refuted beyond it and for negative numbers (C98_order_fails)."
  },
  {
   "property": "C99",
   "status": "partial",
   "theorems": [
    "C99_runs",
    "C99_whole_partial",
    "C99_only_traffic",
    "C99_stops",
    "C99_variable",
    "C99_scenarios_fails",
    "C99_seed_fails",
    "C99_restart"
   ],
   "note": "C99_runs: every scenario is simulated, the latest run in its directory holds the recorded patches and the first document of this simulation, its tables are those of this simulation, and nothing else is changed. C99_whole_partial: the temporal experiments after it give and save the results of this run for traffic. C99_stops: what they do without data. C99_only_traffic: they change no results of other scenarios and set the list of scenarios to traffic; C99_variable: called after them, RealworldScenario changes the directory of no other scenario. Refuted: not all scenarios are covered (C99_scenarios_fails); the generator made from the seed is not used, and the results differ with what the global generator gives (C99_seed_fails). Files that cannot be made are not modelled."
  },
  {
   "property": "C100",
   "status": "partial",
   "theorems": [
    "C100_data_lines",
    "C100_data_nan",
    "C100_numbered",
    "C100_text",
    "C100_injective",
    "C100_columns",
    "C100_columns_fails",
    "C100_data",
    "C100_data_read_partial",
    "C100_patch_whole",
    "C100_patch_fails"
   ],
   "note": "C100_numbered: the printed lines bear their numbers and the lines of the text; C100_text, C100_injective: the text can be read off; C100_columns: the column holds exactly below 100000 lines, refuted beyond (C100_columns_fails). C100_data: a data set is printed as it is saved; C100_data_read_partial: readable ones read as the data. Refuted: numbers in patches are printed as whole numbers (C100_patch_whole), so different patches look the same (C100_patch_fails). C100_data_lines: the numbered lines of a data set, without their numbers, read as the data; data that cannot be marshalled is printed as one empty line (C100_data_nan)."
  },
  {
   "property": "C101",
   "status": "partial",
   "theorems": [
    "C101_outcome",
    "C101_layout",
    "C101_reads",
    "C101_roundtrip_partial",
    "C101_nan_fails",
    "C101_deep_fails",
    "C101_timestamp_fails"
   ],
   "note": "C101_outcome: the text exists exactly for documents with finite numbers that are nested at most 10000 deep; for all others the function panics (C101_nan_fails, C101_deep_fails: the latter although ToCompatibleTsonBytes gives the bytes). C101_layout: the text is the indented layout with the members sorted. C101_reads: it is read like the bytes. C101_roundtrip_partial: documents without nil, with valid UTF-8 and timestamps within 2^53 are read back; beyond, the timestamp changes (C101_timestamp_fails)."
  },
  {
   "property": "C102",
   "status": "proved",
   "theorems": [
    "C102_shown",
    "C102_block",
    "C102_key",
    "C102_string",
    "C102_words"
   ],
   "note": "C102_shown: for every list of UTF-16 units, the text content of the coloured text is the text. C102_block: a block shows the answer, or its pretty form. C102_key, C102_string, C102_words: the classes, for strings with any escapes that JSON has. The browser is modelled for the markup that the page makes: text, the three references and span elements; carriage returns and NUL, which browsers normalise, are not treated."
  },
  {
   "property": "C103",
   "status": "partial",
   "theorems": [
    "C103_data_partial",
    "C103_names",
    "C103_selection_fails",
    "C103_car_fails",
    "C103_early_fails",
    "C103_order_fails",
    "C103_saved_partial",
    "C103_view",
    "C103_button"
   ],
   "note": "Refuted: C103_selection_fails and C103_car_fails (a choice between Append and Snapshot: the old result is stored under the new name, as the functions that would set the button back are called from nowhere: C103_button), C103_early_fails (a second press before the answer stores an empty text), C103_order_fails (answers in another order leave the patch of an earlier choice in view). Proved: C103_saved_partial for rounds without choices between the presses and with the answer there; C103_names: names are distinct for distinct cars and patches; C103_view: a chosen snapshot is shown. Failures of the network are requests whose answers never arrive. C103_data_partial connects the page with the handlers of the server and the generated files: the saved text is the first data set with the operations of the patches up to the selected one applied in order, as MarshalIndent writes it; it is shown as it is because it is not JSON (C104)."
  },
  {
   "property": "C104",
   "status": "proved",
   "theorems": [
    "C104_not_json",
    "C104_json_iff",
    "C104_names_needed"
   ],
   "note": "C104_not_json, for Marshal and MarshalIndent, any depth of nesting; IsJson has no bound on the depth, and the reader with the bound of encoding/json gives an error. A document with an empty object only is an example whose text is JSON. C104_json_iff: where all names are plain text, the text is JSON exactly if the document has no timestamp; C104_names_needed: the condition on names is needed (the character 7 is written as \\a)."
  },
  {
   "property": "C105",
   "status": "partial",
   "theorems": [
    "C105_slice_partial",
    "C105_track_partial",
    "C105_append",
    "C105_set_fails",
    "C105_dead_fails",
    "C105_temporalTrack_fails"
   ],
   "note": "Refuted: Slice and TemporalSlice set no current document, so Set panics on every slice for every add and replace, whatever calls come between (C105_set_fails); the same holds for any logument after one Set with an error (C105_dead_fails); TemporalTrack on a slice reports operations that it does not report for the original (C105_temporalTrack_fails). Proved: slices of slices if a snapshot of the first version is stored (C105_slice_partial), Track (C105_track_partial), Store and Append (C105_append)."
  },
  {
   "property": "C106",
   "status": "partial",
   "theorems": [
    "C106_temporalTrack_partial",
    "C106_compact_partial",
    "C106_track_partial",
    "C106_snapshot_partial",
    "C106_temporalSnapshot_fails",
    "C106_empty_fails"
   ],
   "note": "TemporalTrack, Compact, Track over all versions and the first snapshot of the newest version are shown to depend only on the committed operations (C106_temporalTrack_partial, C106_compact_partial, C106_track_partial, C106_snapshot_partial). Refuted in general: TemporalSnapshot depends on the grouping (C106_temporalSnapshot_fails), and an empty newest version makes Snapshot hand out nil (C106_empty_fails)."
  },
  {
   "property": "C107",
   "status": "partial",
   "theorems": [
    "C107_inner_returns_partial",
    "C107_inner_returns_fails",
    "C107_inner_partial",
    "C107_cut_partial",
    "C107_unordered_fails"
   ],
   "note": "Shown for logs whose operations on each path are recorded in order of their times (C107_inner_partial, C107_cut_partial). Refuted for operations recorded out of order: an operation reported over the larger window and lying in the inner one is not reported over the inner one (C107_unordered_fails). The inner track returns whenever the outer one does (C107_inner_returns_partial), which needs the order of times (C107_inner_returns_fails)."
  },
  {
   "property": "C108",
   "status": "partial",
   "theorems": [
    "C108_all_partial",
    "C108_window_partial",
    "C108_first_fails",
    "C108_all_returns"
   ],
   "note": "Shown for windows that contain all recorded times (C108_all_partial), and for any window over logs whose operations on each path are recorded in order of time, up to the first operation on a path in the window when it repeats an earlier value (C108_window_partial). Refuted for that operation (C108_first_fails): a value that is confirmed inside the window is no longer reported after compaction. After a compaction a track over all times returns if it did before (C108_all_returns)."
  },
  {
   "property": "C109",
   "status": "partial",
   "theorems": [
    "C109_track_partial",
    "C109_paths",
    "C109_again_partial",
    "C109_order_fails",
    "C109_new_path_fails",
    "C109_returns"
   ],
   "note": "The paths agree (C109_paths); the lists agree up to order, and in order if the runtime visits the versions in ascending order (C109_track_partial); a second history has the same operations (C109_again_partial). Refuted: other orders of the runtime (C109_order_fails) and paths the initial document does not have, for which History panics (C109_new_path_fails). A track over all times returns exactly if compacting everything does (C109_returns)."
  },
  {
   "property": "C110",
   "status": "partial",
   "theorems": [
    "C110_snapshot_partial",
    "C110_generated_violated",
    "C110_below_partial",
    "C110_times_partial",
    "C110_times_violated",
    "C110_series_partial",
    "C110_series_times_partial",
    "C110_times_series_partial",
    "C110_times_below_partial"
   ],
   "note": "Proved for patches whose paths lose their leading separator, documents with plain keys, and arrays that are equal or arrays of leaves of the same length (C110_snapshot_partial). Refuted for the patches as generated, for every two differing documents without an empty member name: the snapshot panics or is not the second document (C110_generated_violated). The patches as generated work for a logument that holds the documents below an empty name (C110_below_partial). With timestamps: C110_times_series_partial, C110_times_below_partial, C110_times_violated. With conditions on the documents only: C110_series_partial, C110_series_times_partial."
  },
  {
   "property": "C111",
   "status": "partial",
   "theorems": [
    "C111_compact_partial",
    "C111_track_partial",
    "C111_window_partial",
    "C111_arrays_fails",
    "C111_empty_fails",
    "C111_times_fails"
   ],
   "note": "Proved for documents of any depth without empty names whose arrays keep their lengths (C111_compact_partial, C111_track_partial, C111_window_partial). Refuted for arrays whose lengths change (C111_arrays_fails), for empty names, after which makePath leaves out a slash (C111_empty_fails), and for GeneratePatchWithTimestamp (C111_times_fails)."
  }
 ]
}