{
 "claims": [
  {
   "property": "C01",
   "status": "proved",
   "theorems": [
    "Verif.C01_label_encode_eq_iff",
    "Verif.C01_resource_prefix_separated"
   ],
   "note": "exact collision characterisation"
  },
  {
   "property": "C02",
   "status": "proved",
   "theorems": [
    "Verif.C02_same_iff",
    "Verif.C02_labels_injective_refuted",
    "Verif.C02_labels_injective_partial"
   ],
   "note": "plain injectivity is false of the code for keys containing '=' (refuted with a witness); the exact condition is proved for all pairs of labels"
  },
  {
   "property": "C03",
   "status": "proved",
   "theorems": [
    "Verif.C03_sample_key_injective",
    "Verif.C03_prefix_selects_resource"
   ],
   "note": ""
  },
  {
   "property": "C04",
   "status": "proved",
   "theorems": [
    "Verif.C04_id_roundtrip",
    "Verif.C04_id_injective",
    "Verif.C04_id_order"
   ],
   "note": ""
  },
  {
   "property": "C05",
   "status": "proved",
   "theorems": [
    "Verif.C05_ids_stable"
   ],
   "note": "all histories with crashes, commit conflicts and reopens, every slice capacity"
  },
  {
   "property": "C06",
   "status": "proved",
   "theorems": [
    "Verif.C06_book",
    "Verif.C06_first_life_exact",
    "Verif.C06_first_life_alias",
    "Verif.C06_ids_distinct_partial",
    "Verif.C06_short_lives_partial",
    "Verif.C06_ids_distinct_refuted",
    "Verif.C06_alias_always_duplicates"
   ],
   "note": "C06_book is the exact statement over all histories (Spec/Ids.lean); ids_distinct for one counter, first_life_* and short_lives for two; ids_distinct_refuted: the deployed program gives one id to two keys"
  },
  {
   "property": "C07",
   "status": "proved",
   "theorems": [
    "Verif.C07_exact",
    "Verif.C06_book",
    "Verif.C07_inverse_partial",
    "Verif.C07_only_assigned_partial",
    "Verif.C07_bulk_partial",
    "Verif.C07_bulk_missing_partial",
    "Verif.C07_short_lives_partial",
    "Verif.C07_inverse_refuted"
   ],
   "note": "C07_exact for TranslateID at every point of every history and every capacity; C06_book gives the bulk answers too; the _partial theorems are the intended statement for one counter and for short lives"
  },
  {
   "property": "C08",
   "status": "proved",
   "theorems": [
    "Verif.C08_find_exact"
   ],
   "note": ""
  },
  {
   "property": "C09",
   "status": "proved",
   "theorems": [
    "Verif.C09_sample_ids_increasing",
    "Verif.C09_sample_ids_unique"
   ],
   "note": ""
  },
  {
   "property": "C10",
   "status": "proved",
   "theorems": [
    "Verif.C10_cache_transparent",
    "Verif.C10_collision_wrong_id"
   ],
   "note": "the hash is a parameter; injectivity on the keys used is an explicit hypothesis and shown necessary"
  },
  {
   "property": "C100",
   "status": "proved",
   "theorems": [
    "Verif.Jn.C100_text",
    "Verif.Jn.C100_injective",
    "Verif.Jn.C100_line",
    "Verif.Jn.C100_fails",
    "Verif.Jn.C100_names",
    "Verif.Jn.C100_numbers",
    "Verif.Jn.golden_script",
    "Verif.Jn.golden_decoded"
   ],
   "note": "protojson's encoder (prepareNext, appendString, appendFloat, marshalMessage, marshalSingular, base64) is transcribed, the names and order of the fields come from opentelemetry-proto v1.2.0; checked against the samples in /repo/internal/test/samples/metrics, which protojson wrote. The digits of doubles are a parameter with FormatFloat's promise, as in C90."
  },
  {
   "property": "C101",
   "status": "proved",
   "theorems": [
    "Verif.Pk.C101_prints",
    "Verif.Pk.C101_differ",
    "Verif.Pk.script_at",
    "Verif.Ex.visit_at"
   ],
   "note": "End to end over the models of C100 (JSON), C99 (scripts over the network), C98 (form of answers) and C52 (store history), with a new invariant: the client's own filtering keeps data of the form that can be written. Errors of the writer that the script prints to are left out."
  },
  {
   "property": "C102",
   "status": "proved",
   "theorems": [
    "Verif.Pk.C102_script",
    "Verif.Rd.C102_crash",
    "Verif.Pk.C102_reached"
   ],
   "note": "Over C70's model of the text and the end-to-end models of C99 and C101; the attributes without a value are told of the message alone (Spec/RenderWire.lean). How numbers and tables look is arbitrary. That a Go panic in a function called by a script ends the process (goja does not catch it) is as in C41 and C70."
  },
  {
   "property": "C11",
   "status": "proved",
   "theorems": [
    "Verif.C11_views_of_timestamp",
    "Verif.C11_views_nested"
   ],
   "note": "against an independent day-counting Gregorian calendar"
  },
  {
   "property": "C12",
   "status": "proved",
   "theorems": [
    "Verif.C12_hour_view_iff",
    "Verif.C12_day_view_iff",
    "Verif.C12_month_year_view_iff"
   ],
   "note": ""
  },
  {
   "property": "C13",
   "status": "proved",
   "theorems": [
    "Verif.C13_quantum_by_length",
    "Verif.C13_quantum_monotone",
    "Verif.St.C13_scan_views"
   ],
   "note": ""
  },
  {
   "property": "C14",
   "status": "proved",
   "theorems": [
    "Verif.C14_explicit_range",
    "Verif.C14_default_range",
    "Verif.St.C14_scan_views"
   ],
   "note": ""
  },
  {
   "property": "C15",
   "status": "proved",
   "theorems": [
    "Verif.C15_batch_bits",
    "Verif.C15_batch_sample_label"
   ],
   "note": ""
  },
  {
   "property": "C16",
   "status": "proved",
   "theorems": [
    "Verif.C16_position_decodes",
    "Verif.C16_position_injective",
    "Verif.C16_first_collision",
    "Verif.C16_container_keys"
   ],
   "note": ""
  },
  {
   "property": "C17",
   "status": "proved",
   "theorems": [
    "Verif.C17_no_leak"
   ],
   "note": ""
  },
  {
   "property": "C18",
   "status": "proved",
   "theorems": [
    "Verif.C18_labels_exact",
    "Verif.C18_processing_total"
   ],
   "note": "over any lawful dictionary; the code's translator is one (C28)"
  },
  {
   "property": "C19",
   "status": "proved",
   "theorems": [
    "Verif.C19_min_exact",
    "Verif.C19_min_iff",
    "Verif.C19_min_partial",
    "Verif.C19_min_refuted",
    "Verif.C19_min_attained",
    "Verif.C19_max_exact"
   ],
   "note": "the minimum is false of the code when a timestamp is 0 (refuted with a witness); its exact value is proved for every payload, and the maximum always"
  },
  {
   "property": "C20",
   "status": "proved",
   "theorems": [
    "Verif.C20_label_of_previous",
    "Verif.C20_own_signal_partial",
    "Verif.C20_own_signal_refuted"
   ],
   "note": "exact; the intuitive property is refuted by a witness"
  },
  {
   "property": "C21",
   "status": "proved",
   "theorems": [
    "Verif.Sh.C21_lookup_exact",
    "Verif.Sh.C21_order_independent",
    "Verif.Sh.C21_finds_all",
    "Verif.Sh.C21_intersection_partial",
    "Verif.Sh.C21_single_shard_partial",
    "Verif.Sh.C21_returns_matching_partial",
    "Verif.Sh.C21_refuted"
   ],
   "note": "exact for all histories and orders; the intuitive property is refuted by a witness"
  },
  {
   "property": "C22",
   "status": "proved",
   "theorems": [
    "Verif.Sh.C22_blind_after_restart",
    "Verif.Sh.C21_lookup_exact",
    "Verif.Sh.C22_after_reopening_partial",
    "Verif.Sh.C22_refuted"
   ],
   "note": "exact (what a lookup returns depends on the opened shards only through C21_lookup_exact); the intuitive property is refuted for every database"
  },
  {
   "property": "C23",
   "status": "proved",
   "theorems": [
    "Verif.Df.C23_layout_exact",
    "Verif.Df.C23_row_is_id_partial",
    "Verif.Df.C23_newest_row_missing",
    "Verif.Df.C23_row_of_next",
    "Verif.Df.C23_refuted"
   ],
   "note": "exact layout for all histories; the intuitive property is refuted"
  },
  {
   "property": "C24",
   "status": "proved",
   "theorems": [
    "Verif.Df.C24_reads_requested_kind",
    "Verif.Df.C24_missing_view",
    "Verif.Df.C24_other_views_untouched",
    "Verif.Df.C24_payloads_partial"
   ],
   "note": "ids proved for all histories; payloads proved for views that start with sample 0 (see C23)"
  },
  {
   "property": "C25",
   "status": "proved",
   "theorems": [
    "Verif.St.C25_no_dangling_index",
    "Verif.St.C25_payload_without_index"
   ],
   "note": "every history of flushes cut off at any commit, and restarts; for every lawful dictionary"
  },
  {
   "property": "C26",
   "status": "proved",
   "theorems": [
    "Verif.St.C26_columns_exact",
    "Verif.St.C26_unknown_matches_nothing",
    "Verif.St.C26_never_widens",
    "Verif.St.C29_scan_exact",
    "Verif.St.C26_never_widens_partial",
    "Verif.St.C26_widens_refuted"
   ],
   "note": "unknown labels match nothing; widening happens only if a shard finds nothing at all, and then it can"
  },
  {
   "property": "C27",
   "status": "proved",
   "theorems": [
    "Verif.St.C27_instant_exact",
    "Verif.St.C29_scan_exact",
    "Verif.St.C27_instant_latest_partial",
    "Verif.St.C27_refuted"
   ],
   "note": "exact for every history (C27_instant_exact is about the answer of C29_scan_exact); the intuitive property is refuted by a witness"
  },
  {
   "property": "C28",
   "status": "proved",
   "theorems": [
    "Verif.St.C28_found_numbers",
    "Verif.St.C28_found_matches",
    "Verif.St.C28_one_shard",
    "Verif.St.rowAt_own",
    "Verif.St.rowAt_next",
    "Verif.St.C29_scan_exact",
    "Verif.St.C28_only_matching_partial",
    "Verif.St.C28_match_or_next",
    "Verif.St.C28_refuted"
   ],
   "note": "exact for every history; the intuitive property is refuted by a witness"
  },
  {
   "property": "C29",
   "status": "proved",
   "theorems": [
    "Verif.St.C29_scan_exact",
    "Verif.St.C29_found_iff",
    "Verif.St.C29_scan_exact_partial",
    "Verif.St.C29_small_store_partial",
    "Verif.St.C29_log_records_partial",
    "Verif.St.C29_spans_partial",
    "Verif.St.C29_data_points_partial",
    "Verif.St.C29_blind_after_restart",
    "Verif.St.C29_refuted"
   ],
   "note": "exact result of every scan after every history; C29_refuted shows what this means after a restart and for later views"
  },
  {
   "property": "C30",
   "status": "proved",
   "theorems": [
    "Verif.St.C30_err_iff",
    "Verif.St.C30_index_errors_partial",
    "Verif.St.C30_frame_errors_dropped",
    "Verif.St.C30_refuted"
   ],
   "note": "exact; the intuitive property is refuted by a witness"
  },
  {
   "property": "C31",
   "status": "proved",
   "theorems": [
    "Verif.St.C31_ignored",
    "Verif.St.C31_refuted"
   ],
   "note": "the intuitive property is refuted; both fields are never consulted"
  },
  {
   "property": "C32",
   "status": "proved",
   "theorems": [
    "Verif.St.C32_labels_exact",
    "Verif.St.C32_labels_partial",
    "Verif.St.C32_refuted"
   ],
   "note": "exact; complete below 2^20 labels; refuted after a restart"
  },
  {
   "property": "C33",
   "status": "proved",
   "theorems": [
    "Verif.Dt.C33_logs",
    "Verif.Dt.C33_traces",
    "Verif.Dt.C33_metrics"
   ],
   "note": "for every hash function; grouping part under absence of collisions between scopes of different resources / metrics of different scopes"
  },
  {
   "property": "C34",
   "status": "proved",
   "theorems": [
    "Verif.Dt.C34_logs",
    "Verif.Dt.C34_traces",
    "Verif.Dt.C34_metrics",
    "Verif.Dt.C34_order_irrelevant"
   ],
   "note": "two or more payloads (a single payload is returned unmerged); map iteration order irrelevant"
  },
  {
   "property": "C35",
   "status": "proved",
   "theorems": [
    "Verif.Dt.C35_panic_iff",
    "Verif.Dt.C35_no_panic_partial",
    "Verif.Dt.C35_two_metrics",
    "Verif.Dt.C35_refuted",
    "Verif.Dt.C35_mixed_panics"
   ],
   "note": "exact crash condition; the intuitive property (never crashes) is refuted"
  },
  {
   "property": "C36",
   "status": "proved",
   "theorems": [
    "Verif.Dt.C36_exact",
    "Verif.Dt.C36_apart_partial",
    "Verif.Dt.C36_nested",
    "Verif.Dt.C36_groups_apart",
    "Verif.Dt.C36_refuted",
    "Verif.Dt.C36_resources",
    "Verif.Dt.C36_words",
    "Verif.Dt.C36_metric_words",
    "Verif.Dt.C36_unconfused"
   ],
   "note": "exact; the intuitive property is refuted: fields are hashed without separators. C36_words, C36_metric_words, C36_unconfused: for 64-bit hashes that tell only the texts of the merged payloads apart (met by xxHash64: twoScopes_distinct)"
  },
  {
   "property": "C37",
   "status": "proved",
   "theorems": [
    "Verif.Vs.C38_exact",
    "Verif.Vs.C39_enforced_partial",
    "Verif.Vs.C37_only_matching_partial",
    "Verif.Vs.C39_refuted"
   ],
   "note": "for filters as the code reads them (C39) and hash functions that do not confuse them with the payload; with the plain reading it holds for the supported kinds (C37_only_matching_partial)"
  },
  {
   "property": "C38",
   "status": "proved",
   "theorems": [
    "Verif.Vs.C38_exact",
    "Verif.Vs.C38_intended_partial",
    "Verif.Vs.C38_all_matching_partial",
    "Verif.Vs.C38_no_filters",
    "Verif.Vs.C39_refuted"
   ],
   "note": "exact result of filtering for every payload, filters as the code reads them (C39)"
  },
  {
   "property": "C39",
   "status": "proved",
   "theorems": [
    "Verif.Vs.C38_exact",
    "Verif.Vs.C39_enforced_partial",
    "Verif.Vs.C38_intended_partial",
    "Verif.Vs.C39_refuted"
   ],
   "note": "exact reading of every filter kind; the intuitive property is refuted by eight witnesses"
  },
  {
   "property": "C40",
   "status": "proved",
   "theorems": [
    "Verif.Js.C40_builder",
    "Verif.Js.C40_fixed"
   ],
   "note": "C40_builder: any time zone table; C40_fixed: zones without clock changes (UTC), unconditionally; windows against the calendar of Spec/Calendar.lean"
  },
  {
   "property": "C41",
   "status": "proved",
   "theorems": [
    "Verif.Js.C41_untouched",
    "Verif.Js.C41_errors",
    "Verif.Js.C41_exact",
    "Verif.Js.C41_before_1970",
    "Verif.Js.C41_trimmed_partial",
    "Verif.Js.C41_query",
    "Verif.Js.C41_refuted"
   ],
   "note": "C41_exact gives the result for every answer of the scan function (hashing faithful on the texts involved); C41_before_1970 and C41_refuted: what the unsigned window bounds and a nil payload do"
  },
  {
   "property": "C42",
   "status": "proved",
   "theorems": [
    "Verif.Sv.C42_exactly_once_in_order",
    "Verif.Sv.C42_store_history",
    "Verif.Sv.C42_consecutive"
   ],
   "note": "bounds on the number of exports keep ids below 2^64 (2^44 for the store)"
  },
  {
   "property": "C43",
   "status": "proved",
   "theorems": [
    "Verif.Sv.C43_exact",
    "Verif.Sv.C43_flushed_partial",
    "Verif.Sv.C43_at_rest_partial",
    "Verif.Sv.C43_exit_is_final",
    "Verif.Sv.C43_refuted_shutdown",
    "Verif.Sv.C43_refuted_failure"
   ],
   "note": "exact; the intended property is refuted by two witnesses"
  },
  {
   "property": "C44",
   "status": "proved",
   "theorems": [
    "Verif.Rw.C44_new",
    "Verif.Rw.C44_bitmap",
    "Verif.Rw.C44_shard",
    "Verif.Rw.C44_setBit",
    "Verif.Rw.C44_merge",
    "Verif.Rw.C44_union",
    "Verif.Rw.C44_intersect",
    "Verif.Rw.C44_xor",
    "Verif.Rw.C44_difference"
   ],
   "note": "every program over the package, with an explicit heap so that shared bitmaps are visible"
  },
  {
   "property": "C45",
   "status": "proved",
   "theorems": [
    "Verif.Rw.C45_observers",
    "Verif.Rw.C45_count_le",
    "Verif.Rw.C45_count_partial",
    "Verif.Rw.C45_count_iff",
    "Verif.Rw.C45_count_refuted"
   ],
   "note": "Columns, Any, Includes, Clone and the bound on Count for all programs; Count and IsEmpty exact for safe programs, and C45_count_iff: safe calls are exactly those after which counts stay right; refutation of the unrestricted claim"
  },
  {
   "property": "C46",
   "status": "proved",
   "theorems": [
    "Verif.Rw.C46_new_rows",
    "Verif.Rw.C46_operands_partial",
    "Verif.Rw.C46_safe_iff",
    "Verif.Rw.C46_always_safe",
    "Verif.Rw.C46_refuted"
   ],
   "note": "C46_safe_iff characterises exactly the calls after which rows are independent; refutation of the unrestricted claim for union, xor, difference and merge"
  },
  {
   "property": "C47",
   "status": "proved",
   "theorems": [
    "Verif.Sh.C47_row_read_back",
    "Verif.Sh.C47_row_order_independent"
   ],
   "note": "over the heap model of rows (C44)"
  },
  {
   "property": "C48",
   "status": "proved",
   "theorems": [
    "Verif.Vs.C38_exact",
    "Verif.Vs.C48_scope_schema_lost",
    "Verif.Vs.C48_metric_rest_lost",
    "Verif.Vs.C48_refuted"
   ],
   "note": "exact: what is kept (C38_exact) and what is lost, for every payload"
  },
  {
   "property": "C49",
   "status": "proved",
   "theorems": [
    "Verif.Vs.C49_iff",
    "Verif.Vs.C49_never_alike",
    "Verif.Vs.C49_apart_partial",
    "Verif.Vs.C49_confused",
    "Verif.Vs.C49_refuted"
   ],
   "note": "exact; the intuitive property is refuted"
  },
  {
   "property": "C50",
   "status": "proved",
   "theorems": [
    "Verif.Vs.C50_panic_iff",
    "Verif.Vs.C50_no_panic_partial",
    "Verif.Vs.C50_refuted"
   ],
   "note": "exact; the intuitive property is refuted"
  },
  {
   "property": "C51",
   "status": "proved",
   "theorems": [
    "Verif.Sv.C51_calls_can_finish"
   ],
   "note": ""
  },
  {
   "property": "C52",
   "status": "proved",
   "theorems": [
    "Verif.Sv.C52_nothing_invented",
    "Verif.Sv.C52_scripts"
   ],
   "note": "dictionary arbitrary; map orders are permutations"
  },
  {
   "property": "C53",
   "status": "proved",
   "theorems": [
    "Verif.Sv.C53_deployed_exact",
    "Verif.Sv.C53_exact",
    "Verif.Sv.C53_range_partial",
    "Verif.Sv.C53_latest_partial",
    "Verif.Sv.C53_sound_partial"
   ],
   "note": "C53_deployed_exact: deployed dictionary and cache, hash injective on the labels that occur; C53_exact: any lawful dictionary; range/latest: the settled case without internal notions"
  },
  {
   "property": "C54",
   "status": "proved",
   "theorems": [
    "Verif.Shr.C54_isolated"
   ],
   "note": "view values are opaque bytes; badger transactions are atomic steps"
  },
  {
   "property": "C55",
   "status": "proved",
   "theorems": [
    "Verif.A3.C55_round_trip",
    "Verif.A3.C55_grow",
    "Verif.A3.C55_schema"
   ],
   "note": "Serializing AnyValue is a parameter with the hypothesis Coder.Faithful; Pb.C92_columns proves it of the protobuf wire format (and Pb.C92_round_trip_columns is the instance). The parquet file format is not modelled."
  },
  {
   "property": "C56",
   "status": "proved",
   "theorems": [
    "Verif.A3.C56_supported",
    "Verif.A3.C56_recursive",
    "Verif.A3.C56_hollow",
    "Verif.A3.C56_data",
    "Verif.A3.C56_looped"
   ],
   "note": "C56_data is the concrete schema of rq.v1.Data, transcribed in Model/ArrowOtlp.lean. That pqarrow.ToParquet refuses a struct without fields, and nothing else this schema can hold, is read off the library, not the repository."
  },
  {
   "property": "C57",
   "status": "proved",
   "theorems": [
    "Verif.A3.C57_columns",
    "Verif.A3.C57_read",
    "Verif.A3.C57_data",
    "Verif.A3.C57_counts"
   ],
   "note": "Path names of parquet columns are modelled from the schema files in testdata."
  },
  {
   "property": "C58",
   "status": "proved",
   "theorems": [
    "Verif.St.C58_exact",
    "Verif.St.C58_complete",
    "Verif.St.C58_scan_while_flushing_partial",
    "Verif.St.C58_atomic_partial",
    "Verif.St.C58_refuted"
   ],
   "note": "exact for every history and interleaving; atomicity is refuted by a witness for labels in several shards and holds for one shard (C58_atomic_partial)"
  },
  {
   "property": "C59",
   "status": "proved",
   "theorems": [
    "Verif.Rw.C59_pivot",
    "Verif.Rw.C59_reports_zero",
    "Verif.Rw.C59_refuted"
   ],
   "note": "Every program and up to 64 bit rows; an offset needs a right Count of the filter (refuted with a witness otherwise). The value 0 is reported too, contrary to the comment."
  },
  {
   "property": "C60",
   "status": "proved",
   "theorems": [
    "Verif.Rw.C60_add",
    "Verif.Rw.C60_later",
    "Verif.Rw.C60_refuted"
   ],
   "note": "Sums, counts and unchanged rows during the call for every program; C60_later says exactly which later writes to the result change an existing row"
  },
  {
   "property": "C61",
   "status": "proved",
   "theorems": [
    "Verif.Rw.C61_row",
    "Verif.Rw.C61_row_ascending",
    "Verif.Rw.C61_bsi",
    "Verif.Rw.C61_build_add_pivot",
    "Verif.Rw.C61_refuted"
   ],
   "note": "Columns ascending within each container of 2^16 (containers in any order), which includes the documented contract; a repeated column makes the count wrong (refuted with a witness)."
  },
  {
   "property": "C62",
   "status": "proved",
   "theorems": [
    "Verif.Fl.C62_rows",
    "Verif.Fl.C62_crash_iff",
    "Verif.Fl.histories_last",
    "Verif.Fl.C62_rows_partial",
    "Verif.Fl.C62_total_partial",
    "Verif.Fl.C62_stale",
    "Verif.Fl.C62_crash"
   ],
   "note": "exact; the intuitive property is refuted for points and attributes without value"
  },
  {
   "property": "C63",
   "status": "proved",
   "theorems": [
    "Verif.Fl.C63_positions",
    "Verif.Fl.C63_pos",
    "Verif.Fl.C63_refuted",
    "Verif.Fl.C63_collide",
    "Verif.Fl.C63_ambiguous"
   ],
   "note": "exact; the intuitive property is refuted"
  },
  {
   "property": "C64",
   "status": "proved",
   "theorems": [
    "Verif.Fl.C64_hash",
    "Verif.Fl.C64_refuted"
   ],
   "note": "exact for hashes that tell the bitmaps of the two rows apart; the intuitive property is refuted"
  },
  {
   "property": "C65",
   "status": "proved",
   "theorems": [
    "Verif.Sf.C65_grouped",
    "Verif.Sf.C65_once",
    "Verif.Sf.C65_refuted"
   ],
   "note": "Attribute sets and converted spans are opaque; C65_refuted shows that schema URLs of later spans are lost."
  },
  {
   "property": "C66",
   "status": "proved",
   "theorems": [
    "Verif.Sf.C66_values",
    "Verif.Sf.C66_refuted"
   ],
   "note": "exact characterization of the pairs that are confused"
  },
  {
   "property": "C67",
   "status": "proved",
   "theorems": [
    "Verif.Sf.C67_metrics",
    "Verif.Sf.C67_scopes",
    "Verif.Sf.C67_export",
    "Verif.Sf.C67_is",
    "Verif.Sf.C67_refuted"
   ],
   "note": "Conversion of single data points is opaque. C67_refuted: valid metrics are not sent if any other is invalid."
  },
  {
   "property": "C68",
   "status": "proved",
   "theorems": [
    "Verif.Qc.C68_exact",
    "Verif.Qc.C68_full_iff",
    "Verif.Qc.C68_own_script",
    "Verif.Qc.C68_exact_partial",
    "Verif.Qc.C68_frozen",
    "Verif.Qc.C68_cut",
    "Verif.Qc.C68_early",
    "Verif.Qc.C68_upgrade",
    "Verif.Qc.C68_collision",
    "Verif.Qc.C68_gap"
   ],
   "note": "exact for all executions (C68_exact, C68_full_iff); the intended property is refuted by five witnesses. Hashes are asked to differ for the scripts that are run only"
  },
  {
   "property": "C69",
   "status": "proved",
   "theorems": [
    "Verif.Ar.C69",
    "Verif.Ar.C69_writer",
    "Verif.Ar.C69_returns",
    "Verif.Ar.C69_released"
   ],
   "note": "C69_released: bytes do not survive the release, as documented by the code."
  },
  {
   "property": "C70",
   "status": "proved",
   "theorems": [
    "Verif.Rd.C70_exact",
    "Verif.Rd.C70_crash_all",
    "Verif.Rd.C70_crash",
    "Verif.Rd.C70_page",
    "Verif.Rd.C70_lines",
    "Verif.Rd.C70_unambiguous_partial",
    "Verif.Rd.C70_hidden",
    "Verif.Rd.C70_bytes",
    "Verif.Rd.C70_number",
    "Verif.Rd.C70_key",
    "Verif.Rd.C70_bare",
    "Verif.Rd.C70_time",
    "Verif.Rd.C70_unit"
   ],
   "note": "exact for keys without spaces; with spaces in keys refuted (C70_key); C70_page: the whole page as a grammar; C70_time, C70_unit: the texts of times and units"
  },
  {
   "property": "C71",
   "status": "proved",
   "theorems": [
    "Verif.Cd.C71_compress",
    "Verif.Cd.C71_decompress",
    "Verif.Cd.C71_panic_iff",
    "Verif.Cd.C71_roundtrip",
    "Verif.Cd.C71_again"
   ],
   "note": "zstd is a parameter."
  },
  {
   "property": "C72",
   "status": "proved",
   "theorems": [
    "Verif.Qm.C72_contract",
    "Verif.Qm.C72_range",
    "Verif.Qm.C72_instant",
    "Verif.Qm.C72_last_period",
    "Verif.Qm.C72_hours",
    "Verif.Qm.C72_start",
    "Verif.Qm.C72_history",
    "Verif.Qm.C72_month_empty",
    "Verif.Qm.C72_covers_refuted",
    "Verif.Qm.C72_instant_example",
    "Verif.Qm.idealViews_covers"
   ],
   "note": "C72_contract: for any view function that covers its ranges (satisfiable: idealViews_covers). The other theorems are exact for the published library function (Model/Quantum.lean), whose source is not in /repo: it is a transcription of the Pilosa/FeatureBase function it was taken from, so they rest on that transcription; C72_covers_refuted and the examples show where it falls short. C72_history links to the histories of C29."
  },
  {
   "property": "C73",
   "status": "proved",
   "theorems": [
    "Verif.Flt.C73_matches",
    "Verif.Flt.C73_field",
    "Verif.Flt.C73_attr",
    "Verif.Flt.C73_attr_clean",
    "Verif.Flt.C73_span_attributes",
    "Verif.Flt.C73_unfiltered",
    "Verif.Flt.C73_hexDecode",
    "Verif.Flt.C73_upper_case"
   ],
   "note": "attributes of spans are never found (C73_span_attributes); upper-case ids (C73_upper_case)"
  },
  {
   "property": "C74",
   "status": "proved",
   "theorems": [
    "Verif.Shr.C74_layout",
    "Verif.C74_label_text",
    "Verif.C74_sample_text",
    "Verif.Shr.someOps_layout"
   ],
   "note": ""
  },
  {
   "property": "C75",
   "status": "proved",
   "theorems": [
    "Verif.C75_as_if_alone",
    "Verif.C75_never_stuck",
    "Verif.C75_finishes",
    "Verif.C75_jobs_proper",
    "Verif.C75_translators_proper",
    "Verif.C75_scan",
    "Verif.C75_flush",
    "Verif.C75_trim",
    "Verif.C75_translate",
    "Verif.C75_jobs_happen",
    "Verif.C75_improper_refuted"
   ],
   "note": "the functions are written again as programs that name every Get, use, Put and database access (Model/Pool*.lean); proved equal to the functions of the model (St.scan, St.saveSamples, Js.jsScan, Tr.translateKey). Slices are what they show: spare capacity is not modelled here. Arenas are in C69, the zstd pools in C71; scripts' own pool (rq.go) is not used by the service. The pools of retry.go, render and f2 are not in it."
  },
  {
   "property": "C76",
   "status": "proved",
   "theorems": [
    "Verif.C76_as_one_step",
    "Verif.C76_labels",
    "Verif.C76_finds",
    "Verif.C76_exact",
    "Verif.C76_short_refuted"
   ],
   "note": "append is atomic in the model (in the safe case nothing shared is written at all); capacities as Go's size classes give them: the prefix of one byte has a capacity of eight"
  },
  {
   "property": "C77",
   "status": "proved",
   "theorems": [
    "Verif.Sv.C77_straight",
    "Verif.Sv.C77_distinct",
    "Verif.Sv.C77_query",
    "Verif.Sv.C77_latest",
    "Verif.Dt.C77_merge",
    "Verif.Sv.toy_script"
   ],
   "note": "C77_query, C77_latest: any filters, as C38 reads them; C77_straight: filters on what records are filed under, in the plain reading; C77_distinct: with conditions on the texts hashed instead of the hashes; toy_script: all hypotheses met by a run"
  },
  {
   "property": "C78",
   "status": "proved",
   "theorems": [
    "Verif.Sf.C78_held",
    "Verif.Sf.C78_span",
    "Verif.Sf.C78_point_held",
    "Verif.Sf.C78_point",
    "Verif.Sf.C78_metric",
    "Verif.Sf.C78_lost",
    "Verif.Sf.C78_wrapped"
   ],
   "note": "float64(int64) is a parameter; C78_lost and C78_wrapped say what is not preserved"
  },
  {
   "property": "C79",
   "status": "proved",
   "theorems": [
    "Verif.Rw.C79_table",
    "Verif.Rw.C79_lines",
    "Verif.Rw.C79_json",
    "Verif.Rw.C79_shard_columns",
    "Verif.Rw.C79_intersections",
    "Verif.Rw.C79_roaring",
    "Verif.Rw.C79_clear",
    "Verif.Rw.C79_shift",
    "Verif.Rw.C79_shift_count",
    "Verif.Rw.C79_double",
    "Verif.Rw.C79_values",
    "Verif.Rw.C79_freeze"
   ],
   "note": "JSON of rows without string keys (nothing sets them). C79_shift, C79_double, C79_freeze: exact, with the defects"
  },
  {
   "property": "C80",
   "status": "proved",
   "theorems": [
    "Verif.En.C80_own",
    "Verif.En.C80_mine",
    "Verif.En.C80_writes",
    "Verif.En.C80_silent",
    "Verif.En.C80_first",
    "Verif.En.C80_leak",
    "Verif.En.C80_again",
    "Verif.En.C80_programs",
    "Verif.En.C80_collision"
   ],
   "note": "The runtime's contents, clocks, scan functions and writers are opaque; a script is any function of what it can see. C80_leak and C80_again are witnesses of what does not hold. The program calls GetProgramData nowhere."
  },
  {
   "property": "C81",
   "status": "proved",
   "theorems": [
    "Verif.Pa.C81_server",
    "Verif.Pa.C81_home",
    "Verif.Pa.C81_apart",
    "Verif.Pa.C81_same",
    "Verif.Pa.C81_spelling",
    "Verif.Pa.C81_shards",
    "Verif.Pa.C81_scripts",
    "Verif.Pa.C81_windows"
   ],
   "note": "Go's filepath.Clean and Join are modelled for Unix from their documentation (part by part); symbolic links and errors of MkdirAll are not. On Windows only Dir is modelled."
  },
  {
   "property": "C82",
   "status": "proved",
   "theorems": [
    "Verif.Un.C82_reads",
    "Verif.Un.C82_injective",
    "Verif.Un.C82_form",
    "Verif.Un.C82_exact",
    "Verif.Un.C82_near",
    "Verif.Un.C82_double",
    "Verif.Un.C82_other"
   ],
   "note": "IEEE 754 double multiplication is modelled as rounding of the exact product to 53 bits; Go's Duration.String is transcribed. fmt.Sprint of a double (C90) and humanize.IBytes (C91) are parameters here; the conversion of out-of-range floats is one."
  },
  {
   "property": "C83",
   "status": "proved",
   "theorems": [
    "Verif.C83_flush",
    "Verif.C83_scan",
    "Verif.C83_dictionary",
    "Verif.C75_jobs_happen"
   ],
   "note": "about the programs of Model/Pool*.lean, which C75 shows to be those of the model. A batch commit is one access: that a failed commit leaves nothing is trusted of badger and rbf."
  },
  {
   "property": "C84",
   "status": "proved",
   "theorems": [
    "Verif.C84_order",
    "Verif.C84_nested",
    "Verif.C84_stays_open",
    "Verif.C84_exit",
    "Verif.C84_uses",
    "Verif.C84_use_after_close",
    "Verif.C84_stops"
   ],
   "note": "what using a closed database does is up to badger; C83 says what a flush does when an access fails, C25 what a flush that does not finish leaves."
  },
  {
   "property": "C85",
   "status": "proved",
   "theorems": [
    "Verif.Pk.C85_query",
    "Verif.Pk.C85_throws",
    "Verif.Pk.C85_value",
    "Verif.Pk.C85_whole"
   ],
   "note": "the script package over the builder of C40 and the scans of C41; builders live in a heap and objects hold addresses"
  },
  {
   "property": "C86",
   "status": "proved",
   "theorems": [
    "Verif.Un.C86_reads",
    "Verif.Un.C86_accepts",
    "Verif.Un.C86_zero",
    "Verif.Un.C86_back",
    "Verif.Un.C86_wrap",
    "Verif.Un.C86_ago",
    "Verif.Un.C86_offset",
    "Verif.Un.C86_throws",
    "Verif.Un.C86_query"
   ],
   "note": "Go's time.ParseDuration modelled with 64-bit and floating point arithmetic; Spec/Parse.lean says how durations are spelled and what they are worth; C86_wrap is the odd case; C86_query is C85 without a premise about reading durations"
  },
  {
   "property": "C87",
   "status": "proved",
   "theorems": [
    "Verif.Qt.C87_literal",
    "Verif.Qt.C87_reads",
    "Verif.Qt.C87_quotes",
    "Verif.Qt.C87_unambiguous",
    "Verif.Qt.C87_exact",
    "Verif.Qt.C87_line",
    "Verif.Qt.C87_utf8",
    "Verif.Qt.C87_seen",
    "Verif.Qt.C87_plain"
   ],
   "note": "Go's strconv.Quote and utf8.DecodeRuneInString, byte by byte, against the grammar of Go string literals and Lean's own UTF-8 (String.utf8EncodeChar). Which characters above U+00FF are printable is a parameter: every claim holds for every choice. Keys are not quoted (the last example); C87_exact takes from the printing of doubles (%v) only that it has no spaces, commas, brackets, braces or quotes, which C90_attributes shows."
  },
  {
   "property": "C88",
   "status": "proved",
   "theorems": [
    "Verif.Tw.C88_chars",
    "Verif.Tw.C88_table",
    "Verif.Tw.C88_ink",
    "Verif.Tw.C88_lines",
    "Verif.Tw.C88_attributes",
    "Verif.Tw.C88_points",
    "Verif.Tw.C88_scope",
    "Verif.Tw.C88_resource",
    "Verif.Tw.C88_metric",
    "Verif.Tw.C88_forged"
   ],
   "note": "Go's text/tabwriter (Write, format, writeLines, escapes, flushes) with the parameters that the code gives it. Cells carry their text instead of positions in a buffer. CleanNumbers: the numbers that Go's fmt (%v, Sprint) and humanize print have no tabs or line ends, which C91_numbers shows; strings are C87's, durations C82's."
  },
  {
   "property": "C89",
   "status": "proved",
   "theorems": [
    "Verif.Cp.C89_own",
    "Verif.Cp.C89_function",
    "Verif.Cp.C89_dirs",
    "Verif.Cp.C89_removed",
    "Verif.Cp.C89_left",
    "Verif.Cp.C89_leak",
    "Verif.Cp.C89_rq",
    "Verif.Cp.C89_example",
    "Verif.Cp.C89_clash",
    "Verif.Cp.C89_killed"
   ],
   "note": "esbuild is an arbitrary function of version, aliases and working directory; other programs do not touch the temporary directory. That a failed write leaks the directory is proved as it is in the code (C89_leak)"
  },
  {
   "property": "C90",
   "status": "proved",
   "theorems": [
    "Verif.Fp.C90_reads",
    "Verif.Fp.C90_point",
    "Verif.Fp.C90_injective",
    "Verif.Fp.C90_letters",
    "Verif.Fp.C90_letters_sprint",
    "Verif.Fp.C90_length",
    "Verif.Fp.C90_form",
    "Verif.Fp.C90_count",
    "Verif.Fp.C90_plain",
    "Verif.Fp.C90_attributes",
    "Verif.Fp.C90_attribute"
   ],
   "note": "strconv's formatting (genericFtoa, formatDigits %g, fmtE, fmtF) and fmt's sign of infinities are transcribed. The digits (Ryu) are a parameter with FormatFloat's promise: decimal digits that read as the double, and no fewer do; right_exists shows the promise can be kept."
  },
  {
   "property": "C91",
   "status": "proved",
   "theorems": [
    "Verif.Hu.C91_shows",
    "Verif.Hu.C91_small",
    "Verif.Hu.C91_close",
    "Verif.Hu.C91_total",
    "Verif.Hu.C91_cell",
    "Verif.Hu.C91_value",
    "Verif.Hu.C91_numbers"
   ],
   "note": "humanize.IBytes v1.0.1 with its floating point arithmetic (rounded products, sums and quotients, floor, %.0f and %.1f). math.Log's quotient is a parameter asked to be accurate (Near; near_log shows the exact logarithm is); the conversion of values outside uint64 is a parameter without any assumption."
  },
  {
   "property": "C92",
   "status": "proved",
   "theorems": [
    "Verif.Pb.C92_reads",
    "Verif.Pb.C92_writes",
    "Verif.Pb.C92_fails",
    "Verif.Pb.C92_round_trip",
    "Verif.Pb.C92_injective",
    "Verif.Pb.C92_value",
    "Verif.Pb.C92_columns",
    "Verif.Pb.C92_round_trip_columns",
    "Verif.Pb.otlp_proper"
   ],
   "note": "the protobuf library is modelled (v1.33.0), message types are a parameter; otlp_proper: those of OTLP and Data meet the hypothesis. Messages of fewer than 2^64 bytes"
  },
  {
   "property": "C93",
   "status": "proved",
   "theorems": [
    "Verif.Pb.C93_accepted",
    "Verif.Pb.C93_length",
    "Verif.Pb.C93_again",
    "Verif.Pb.otlp_proper"
   ],
   "note": "as C92"
  },
  {
   "property": "C94",
   "status": "proved",
   "theorems": [
    "Verif.Pb.C94_attributes",
    "Verif.Pb.C94_resource_words",
    "Verif.Pb.C94_scope_words",
    "Verif.Pb.C94_merged",
    "Verif.Pb.C94_spelled_apart",
    "Verif.Pb.C94_encoding",
    "Verif.Pb.C94_ok",
    "Verif.Pb.C94_empty_key",
    "Verif.Pb.C94_empty",
    "Verif.Pb.C94_line_feed"
   ],
   "note": "C94_encoding: the hashed text is what proto.Marshal (C92) gives; C94_ok: attributes as they are sent meet the hypothesis; C94_empty_key, C94_empty, C94_line_feed: the conditions are needed. Discharges SpelledApart of C36/C77 but for shifts between schema URL, name and version"
  },
  {
   "property": "C95",
   "status": "proved",
   "theorems": [
    "Verif.Pb.C95_exact",
    "Verif.Pb.C95_one",
    "Verif.Pb.C95_concat"
   ],
   "note": ""
  },
  {
   "property": "C96",
   "status": "proved",
   "theorems": [
    "Verif.Rq.C96_arrives",
    "Verif.Rq.C96_bounds",
    "Verif.Rq.C96_answer",
    "Verif.Rq.C96_limit",
    "Verif.Rq.C96_any",
    "Verif.Rq.C96_any_answer",
    "Verif.Rq.C96_script_now",
    "Verif.Rq.C96_script_offset",
    "Verif.Rq.C96_script",
    "Verif.Rq.C96_future"
   ],
   "note": "The request is modelled as bytes in the protobuf format of C92 with the message types of scan.proto, and TimeBounds with Go's wrapping and saturating int64 arithmetic. The answer theorems suppose that the clock and the times are less than 2^62 seconds away and that the two parts of a duration have the same sign, as protobuf asks."
  },
  {
   "property": "C97",
   "status": "proved",
   "theorems": [
    "Verif.Ex.C97_arrives",
    "Verif.Ex.C97_any",
    "Verif.Ex.C97_sent_back",
    "Verif.Ex.C97_too_deep"
   ],
   "note": "The bytes of the request are read by the model of protobuf of C92/C93; the fields of OTLP v1.2.0 are those of Model/WireOtlp. Of resources and scopes the number of dropped attributes and unknown fields are not in the data the other models use; of values that are text, unknown fields are not."
  },
  {
   "property": "C98",
   "status": "proved",
   "theorems": [
    "Verif.Ex.C98_form",
    "Verif.Ex.C98_answer",
    "Verif.Ex.C98_sent",
    "Verif.Ex.C98_sendable",
    "Verif.Ex.C98_scan",
    "Verif.Ex.C98_query"
   ],
   "note": "The bytes are those of the protobuf model of C92/C93/C96/C97, between the store of C52 and the scripts' `rpc` of C41. gRPC itself is its limit of 4 MiB per received message (the default, which cmd/rq and internal/commands do not change) and the rule that a panic or an error of the server is an error of the call. What resources and scopes have beside the fields the program reads is left out, as in C97."
  },
  {
   "property": "C99",
   "status": "proved",
   "theorems": [
    "Verif.Pk.C99_script",
    "Verif.Pk.C99_exported"
   ],
   "note": "End to end over the models of C85 (scripts), C86 (durations), C40 (builder, time zones), C96 and C98 (bytes of request and answer), C97 (bytes of exports) and C52 (store history). Time of operations: clock readings within 64-bit nanoseconds."
  }
 ]
}