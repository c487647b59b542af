"""Writes MANIFEST.json. Each entry: property id -> (status, theorems, note)."""
import json
M = {}
def m(pid, status, theorems, note=""):
    M[pid] = dict(property=pid, status=status, theorems=["Verif."+t for t in theorems.split()], note=note)
m("C01","proved","C01_label_encode_eq_iff C01_resource_prefix_separated","exact collision characterisation")
m("C02","proved","C02_same_iff C02_labels_injective_refuted C02_labels_injective_partial","plain injectivity is false of the code for keys containing '=' (refuted with a witness); the exact condition is proved for all pairs of labels")
m("C03","proved","C03_sample_key_injective C03_prefix_selects_resource")
m("C04","proved","C04_id_roundtrip C04_id_injective C04_id_order")
m("C05","proved","C05_ids_stable","all histories with crashes, commit conflicts and reopens, every slice capacity")
m("C06","proved","C06_book C06_first_life_exact C06_first_life_alias C06_ids_distinct_partial C06_short_lives_partial C06_ids_distinct_refuted C06_alias_always_duplicates","C06_book is the exact statement over all histories (Spec/Ids.lean); ids_distinct for one counter, first_life_* and short_lives for two; ids_distinct_refuted: the deployed program gives one id to two keys")
m("C07","proved","C07_exact C06_book C07_inverse_partial C07_only_assigned_partial C07_bulk_partial C07_bulk_missing_partial C07_short_lives_partial C07_inverse_refuted","C07_exact for TranslateID at every point of every history and every capacity; C06_book gives the bulk answers too; the _partial theorems are the intended statement for one counter and for short lives")
m("C08","proved","C08_find_exact")
m("C09","proved","C09_sample_ids_increasing C09_sample_ids_unique")
m("C10","proved","C10_cache_transparent C10_collision_wrong_id","the hash is a parameter; injectivity on the keys used is an explicit hypothesis and shown necessary")
m("C11","proved","C11_views_of_timestamp C11_views_nested","against an independent day-counting Gregorian calendar")
m("C12","proved","C12_hour_view_iff C12_day_view_iff C12_month_year_view_iff")
m("C13","proved","C13_quantum_by_length C13_quantum_monotone St.C13_scan_views")
m("C14","proved","C14_explicit_range C14_default_range St.C14_scan_views")
m("C15","proved","C15_batch_bits C15_batch_sample_label")
m("C16","proved","C16_position_decodes C16_position_injective C16_first_collision C16_container_keys")
m("C17","proved","C17_no_leak")
m("C18","proved","C18_labels_exact C18_processing_total","over any lawful dictionary; the code's translator is one (C28)")
m("C19","proved","C19_min_exact C19_min_iff C19_min_partial C19_min_refuted C19_min_attained C19_max_exact","the minimum is false of the code when a timestamp is 0 (refuted with a witness); its exact value is proved for every payload, and the maximum always")
m("C20","proved","C20_label_of_previous C20_own_signal_partial C20_own_signal_refuted","exact; the intuitive property is refuted by a witness")
m("C44","proved","Rw.C44_new Rw.C44_bitmap Rw.C44_shard Rw.C44_setBit Rw.C44_merge Rw.C44_union Rw.C44_intersect Rw.C44_xor Rw.C44_difference","every program over the package, with an explicit heap so that shared bitmaps are visible")
m("C45","proved","Rw.C45_observers Rw.C45_count_le Rw.C45_count_partial Rw.C45_count_iff Rw.C45_count_refuted","Columns, Any, Includes, Clone and the bound on Count for all programs; Count and IsEmpty exact for safe programs, and C45_count_iff: safe calls are exactly those after which counts stay right; refutation of the unrestricted claim")
m("C46","proved","Rw.C46_new_rows Rw.C46_operands_partial Rw.C46_safe_iff Rw.C46_always_safe Rw.C46_refuted","C46_safe_iff characterises exactly the calls after which rows are independent; refutation of the unrestricted claim for union, xor, difference and merge")
m("C21","proved","Sh.C21_lookup_exact Sh.C21_order_independent Sh.C21_finds_all Sh.C21_intersection_partial Sh.C21_single_shard_partial Sh.C21_returns_matching_partial Sh.C21_refuted","exact for all histories and orders; the intuitive property is refuted by a witness")
m("C22","proved","Sh.C22_blind_after_restart Sh.C21_lookup_exact Sh.C22_after_reopening_partial Sh.C22_refuted","exact (what a lookup returns depends on the opened shards only through C21_lookup_exact); the intuitive property is refuted for every database")
m("C47","proved","Sh.C47_row_read_back Sh.C47_row_order_independent","over the heap model of rows (C44)")
m("C23","proved","Df.C23_layout_exact Df.C23_row_is_id_partial Df.C23_newest_row_missing Df.C23_row_of_next Df.C23_refuted","exact layout for all histories; the intuitive property is refuted")
m("C24","proved","Df.C24_reads_requested_kind Df.C24_missing_view Df.C24_other_views_untouched Df.C24_payloads_partial","ids proved for all histories; payloads proved for views that start with sample 0 (see C23)")
m("C33","proved","Dt.C33_logs Dt.C33_traces Dt.C33_metrics","for every hash function; grouping part under absence of collisions between scopes of different resources / metrics of different scopes")
m("C34","proved","Dt.C34_logs Dt.C34_traces Dt.C34_metrics Dt.C34_order_irrelevant","two or more payloads (a single payload is returned unmerged); map iteration order irrelevant")
m("C35","proved","Dt.C35_panic_iff Dt.C35_no_panic_partial Dt.C35_two_metrics Dt.C35_refuted Dt.C35_mixed_panics","exact crash condition; the intuitive property (never crashes) is refuted")
m("C36","proved","Dt.C36_exact Dt.C36_apart_partial Dt.C36_nested Dt.C36_groups_apart Dt.C36_refuted Dt.C36_resources Dt.C36_words Dt.C36_metric_words Dt.C36_unconfused","exact; the intuitive property is refuted: fields are hashed without separators. C36_words, C36_metric_words, C36_unconfused: for 64-bit hashes that tell only the texts of the merged payloads apart (met by xxHash64: twoScopes_distinct)")
m("C25","proved","St.C25_no_dangling_index St.C25_payload_without_index","every history of flushes cut off at any commit, and restarts; for every lawful dictionary")
m("C26","proved","St.C26_columns_exact St.C26_unknown_matches_nothing St.C26_never_widens St.C29_scan_exact St.C26_never_widens_partial St.C26_widens_refuted","unknown labels match nothing; widening happens only if a shard finds nothing at all, and then it can")
m("C27","proved","St.C27_instant_exact St.C29_scan_exact St.C27_instant_latest_partial St.C27_refuted","exact for every history (C27_instant_exact is about the answer of C29_scan_exact); the intuitive property is refuted by a witness")
m("C28","proved","St.C28_found_numbers St.C28_found_matches St.C28_one_shard St.rowAt_own St.rowAt_next St.C29_scan_exact St.C28_only_matching_partial St.C28_match_or_next St.C28_refuted","exact for every history; the intuitive property is refuted by a witness")
m("C29","proved","St.C29_scan_exact St.C29_found_iff St.C29_scan_exact_partial St.C29_small_store_partial St.C29_log_records_partial St.C29_spans_partial St.C29_data_points_partial St.C29_blind_after_restart St.C29_refuted","exact result of every scan after every history; C29_refuted shows what this means after a restart and for later views")
m("C30","proved","St.C30_err_iff St.C30_index_errors_partial St.C30_frame_errors_dropped St.C30_refuted","exact; the intuitive property is refuted by a witness")
m("C31","proved","St.C31_ignored St.C31_refuted","the intuitive property is refuted; both fields are never consulted")
m("C32","proved","St.C32_labels_exact St.C32_labels_partial St.C32_refuted","exact; complete below 2^20 labels; refuted after a restart")
m("C37","proved","Vs.C38_exact Vs.C39_enforced_partial Vs.C37_only_matching_partial Vs.C39_refuted","for filters as the code reads them (C39) and hash functions that do not confuse them with the payload; with the plain reading it holds for the supported kinds (C37_only_matching_partial)")
m("C38","proved","Vs.C38_exact Vs.C38_intended_partial Vs.C38_all_matching_partial Vs.C38_no_filters Vs.C39_refuted","exact result of filtering for every payload, filters as the code reads them (C39)")
m("C39","proved","Vs.C38_exact Vs.C39_enforced_partial Vs.C38_intended_partial Vs.C39_refuted","exact reading of every filter kind; the intuitive property is refuted by eight witnesses")
m("C48","proved","Vs.C38_exact Vs.C48_scope_schema_lost Vs.C48_metric_rest_lost Vs.C48_refuted","exact: what is kept (C38_exact) and what is lost, for every payload")
m("C49","proved","Vs.C49_iff Vs.C49_never_alike Vs.C49_apart_partial Vs.C49_confused Vs.C49_refuted","exact; the intuitive property is refuted")
m("C50","proved","Vs.C50_panic_iff Vs.C50_no_panic_partial Vs.C50_refuted","exact; the intuitive property is refuted")
m("C40","proved","Js.C40_builder Js.C40_fixed","C40_builder: any time zone table; C40_fixed: zones without clock changes (UTC), unconditionally; windows against the calendar of Spec/Calendar.lean")
m("C41","proved","Js.C41_untouched Js.C41_errors Js.C41_exact Js.C41_before_1970 Js.C41_trimmed_partial Js.C41_query Js.C41_refuted","C41_exact gives the result for every answer of the scan function (hashing faithful on the texts involved); C41_before_1970 and C41_refuted: what the unsigned window bounds and a nil payload do")
m("C42","proved","Sv.C42_exactly_once_in_order Sv.C42_store_history Sv.C42_consecutive","bounds on the number of exports keep ids below 2^64 (2^44 for the store)")
m("C43","proved","Sv.C43_exact Sv.C43_flushed_partial Sv.C43_at_rest_partial Sv.C43_exit_is_final Sv.C43_refuted_shutdown Sv.C43_refuted_failure","exact; the intended property is refuted by two witnesses")
m("C51","proved","Sv.C51_calls_can_finish","")
m("C52","proved","Sv.C52_nothing_invented Sv.C52_scripts","dictionary arbitrary; map orders are permutations")
m("C53","proved","Sv.C53_deployed_exact Sv.C53_exact Sv.C53_range_partial Sv.C53_latest_partial Sv.C53_sound_partial","C53_deployed_exact: deployed dictionary and cache, hash injective on the labels that occur; C53_exact: any lawful dictionary; range/latest: the settled case without internal notions")
m("C54","proved","Shr.C54_isolated","view values are opaque bytes; badger transactions are atomic steps")
m("C55","proved","A3.C55_round_trip A3.C55_grow A3.C55_schema","Serializing AnyValue is a parameter with the hypothesis Coder.Faithful; Pb.C92_columns proves it of the protobuf wire format (and Pb.C92_round_trip_columns is the instance). The parquet file format is not modelled.")
m("C56","proved","A3.C56_supported A3.C56_recursive A3.C56_hollow A3.C56_data A3.C56_looped","C56_data is the concrete schema of rq.v1.Data, transcribed in Model/ArrowOtlp.lean. That pqarrow.ToParquet refuses a struct without fields, and nothing else this schema can hold, is read off the library, not the repository.")
m("C57","proved","A3.C57_columns A3.C57_read A3.C57_data A3.C57_counts","Path names of parquet columns are modelled from the schema files in testdata.")
m("C58","proved","St.C58_exact St.C58_complete St.C58_scan_while_flushing_partial St.C58_atomic_partial St.C58_refuted","exact for every history and interleaving; atomicity is refuted by a witness for labels in several shards and holds for one shard (C58_atomic_partial)")
m("C59","proved","Rw.C59_pivot Rw.C59_reports_zero Rw.C59_refuted","Every program and up to 64 bit rows; an offset needs a right Count of the filter (refuted with a witness otherwise). The value 0 is reported too, contrary to the comment.")
m("C60","proved","Rw.C60_add Rw.C60_later Rw.C60_refuted","Sums, counts and unchanged rows during the call for every program; C60_later says exactly which later writes to the result change an existing row")
m("C61","proved","Rw.C61_row Rw.C61_row_ascending Rw.C61_bsi Rw.C61_build_add_pivot Rw.C61_refuted","Columns ascending within each container of 2^16 (containers in any order), which includes the documented contract; a repeated column makes the count wrong (refuted with a witness).")
m("C62","proved","Fl.C62_rows Fl.C62_crash_iff Fl.histories_last Fl.C62_rows_partial Fl.C62_total_partial Fl.C62_stale Fl.C62_crash","exact; the intuitive property is refuted for points and attributes without value")
m("C63","proved","Fl.C63_positions Fl.C63_pos Fl.C63_refuted Fl.C63_collide Fl.C63_ambiguous","exact; the intuitive property is refuted")
m("C64","proved","Fl.C64_hash Fl.C64_refuted","exact for hashes that tell the bitmaps of the two rows apart; the intuitive property is refuted")
m("C65","proved","Sf.C65_grouped Sf.C65_once Sf.C65_refuted","Attribute sets and converted spans are opaque; C65_refuted shows that schema URLs of later spans are lost.")
m("C66","proved","Sf.C66_values Sf.C66_refuted","exact characterization of the pairs that are confused")
m("C67","proved","Sf.C67_metrics Sf.C67_scopes Sf.C67_export Sf.C67_is Sf.C67_refuted","Conversion of single data points is opaque. C67_refuted: valid metrics are not sent if any other is invalid.")
m("C68","proved","Qc.C68_exact Qc.C68_full_iff Qc.C68_own_script Qc.C68_exact_partial Qc.C68_frozen Qc.C68_cut Qc.C68_early Qc.C68_upgrade Qc.C68_collision Qc.C68_gap","exact for all executions (C68_exact, C68_full_iff); the intended property is refuted by five witnesses. Hashes are asked to differ for the scripts that are run only")
m("C69","proved","Ar.C69 Ar.C69_writer Ar.C69_returns Ar.C69_released","C69_released: bytes do not survive the release, as documented by the code.")
m("C70","proved","Rd.C70_exact Rd.C70_crash_all Rd.C70_crash Rd.C70_page Rd.C70_lines Rd.C70_unambiguous_partial Rd.C70_hidden Rd.C70_bytes Rd.C70_number Rd.C70_key Rd.C70_bare Rd.C70_time Rd.C70_unit","exact for keys without spaces; with spaces in keys refuted (C70_key); C70_page: the whole page as a grammar; C70_time, C70_unit: the texts of times and units")
m("C71","proved","Cd.C71_compress Cd.C71_decompress Cd.C71_panic_iff Cd.C71_roundtrip Cd.C71_again","zstd is a parameter.")
m("C72","proved","Qm.C72_contract Qm.C72_range Qm.C72_instant Qm.C72_last_period Qm.C72_hours Qm.C72_start Qm.C72_history Qm.C72_month_empty Qm.C72_covers_refuted Qm.C72_instant_example Qm.idealViews_covers","C72_contract: for any view function that covers its ranges (satisfiable: idealViews_covers). The other theorems are exact for the published library function (Model/Quantum.lean), whose source is not in /repo: it is a transcription of the Pilosa/FeatureBase function it was taken from, so they rest on that transcription; C72_covers_refuted and the examples show where it falls short. C72_history links to the histories of C29.")
m("C73","proved","Flt.C73_matches Flt.C73_field Flt.C73_attr Flt.C73_attr_clean Flt.C73_span_attributes Flt.C73_unfiltered Flt.C73_hexDecode Flt.C73_upper_case","attributes of spans are never found (C73_span_attributes); upper-case ids (C73_upper_case)")
m("C74","proved","Shr.C74_layout C74_label_text C74_sample_text Shr.someOps_layout","")
m("C75","proved","C75_as_if_alone C75_never_stuck C75_finishes C75_jobs_proper C75_translators_proper C75_scan C75_flush C75_trim C75_translate C75_jobs_happen C75_improper_refuted","the functions are written again as programs that name every Get, use, Put and database access (Model/Pool*.lean); proved equal to the functions of the model (St.scan, St.saveSamples, Js.jsScan, Tr.translateKey). Slices are what they show: spare capacity is not modelled here. Arenas are in C69, the zstd pools in C71; scripts' own pool (rq.go) is not used by the service. The pools of retry.go, render and f2 are not in it.")
m("C76","proved","C76_as_one_step C76_labels C76_finds C76_exact C76_short_refuted","append is atomic in the model (in the safe case nothing shared is written at all); capacities as Go's size classes give them: the prefix of one byte has a capacity of eight")
m("C77","proved","Sv.C77_straight Sv.C77_distinct Sv.C77_query Sv.C77_latest Dt.C77_merge Sv.toy_script","C77_query, C77_latest: any filters, as C38 reads them; C77_straight: filters on what records are filed under, in the plain reading; C77_distinct: with conditions on the texts hashed instead of the hashes; toy_script: all hypotheses met by a run")
m("C78","proved","Sf.C78_held Sf.C78_span Sf.C78_point_held Sf.C78_point Sf.C78_metric Sf.C78_lost Sf.C78_wrapped","float64(int64) is a parameter; C78_lost and C78_wrapped say what is not preserved")
m("C79","proved","Rw.C79_table Rw.C79_lines Rw.C79_json Rw.C79_shard_columns Rw.C79_intersections Rw.C79_roaring Rw.C79_clear Rw.C79_shift Rw.C79_shift_count Rw.C79_double Rw.C79_values Rw.C79_freeze","JSON of rows without string keys (nothing sets them). C79_shift, C79_double, C79_freeze: exact, with the defects")
m("C80","proved","En.C80_own En.C80_mine En.C80_writes En.C80_silent En.C80_first En.C80_leak En.C80_again En.C80_programs En.C80_collision","The runtime's contents, clocks, scan functions and writers are opaque; a script is any function of what it can see. C80_leak and C80_again are witnesses of what does not hold. The program calls GetProgramData nowhere.")
m("C81","proved","Pa.C81_server Pa.C81_home Pa.C81_apart Pa.C81_same Pa.C81_spelling Pa.C81_shards Pa.C81_scripts Pa.C81_windows","Go's filepath.Clean and Join are modelled for Unix from their documentation (part by part); symbolic links and errors of MkdirAll are not. On Windows only Dir is modelled.")
m("C82","proved","Un.C82_reads Un.C82_injective Un.C82_form Un.C82_exact Un.C82_near Un.C82_double Un.C82_other","IEEE 754 double multiplication is modelled as rounding of the exact product to 53 bits; Go's Duration.String is transcribed. fmt.Sprint of a double (C90) and humanize.IBytes (C91) are parameters here; the conversion of out-of-range floats is one.")
m("C83","proved","C83_flush C83_scan C83_dictionary C75_jobs_happen","about the programs of Model/Pool*.lean, which C75 shows to be those of the model. A batch commit is one access: that a failed commit leaves nothing is trusted of badger and rbf.")
m("C84","proved","C84_order C84_nested C84_stays_open C84_exit C84_uses C84_use_after_close C84_stops","what using a closed database does is up to badger; C83 says what a flush does when an access fails, C25 what a flush that does not finish leaves.")
m("C85","proved","Pk.C85_query Pk.C85_throws Pk.C85_value Pk.C85_whole","the script package over the builder of C40 and the scans of C41; builders live in a heap and objects hold addresses")
m("C86","proved","Un.C86_reads Un.C86_accepts Un.C86_zero Un.C86_back Un.C86_wrap Un.C86_ago Un.C86_offset Un.C86_throws Un.C86_query","Go's time.ParseDuration modelled with 64-bit and floating point arithmetic; Spec/Parse.lean says how durations are spelled and what they are worth; C86_wrap is the odd case; C86_query is C85 without a premise about reading durations")
m("C87","proved","Qt.C87_literal Qt.C87_reads Qt.C87_quotes Qt.C87_unambiguous Qt.C87_exact Qt.C87_line Qt.C87_utf8 Qt.C87_seen Qt.C87_plain","Go's strconv.Quote and utf8.DecodeRuneInString, byte by byte, against the grammar of Go string literals and Lean's own UTF-8 (String.utf8EncodeChar). Which characters above U+00FF are printable is a parameter: every claim holds for every choice. Keys are not quoted (the last example); C87_exact takes from the printing of doubles (%v) only that it has no spaces, commas, brackets, braces or quotes, which C90_attributes shows.")
m("C88","proved","Tw.C88_chars Tw.C88_table Tw.C88_ink Tw.C88_lines Tw.C88_attributes Tw.C88_points Tw.C88_scope Tw.C88_resource Tw.C88_metric Tw.C88_forged","Go's text/tabwriter (Write, format, writeLines, escapes, flushes) with the parameters that the code gives it. Cells carry their text instead of positions in a buffer. CleanNumbers: the numbers that Go's fmt (%v, Sprint) and humanize print have no tabs or line ends, which C91_numbers shows; strings are C87's, durations C82's.")
m("C89","proved","Cp.C89_own Cp.C89_function Cp.C89_dirs Cp.C89_removed Cp.C89_left Cp.C89_leak Cp.C89_rq Cp.C89_example Cp.C89_clash Cp.C89_killed","esbuild is an arbitrary function of version, aliases and working directory; other programs do not touch the temporary directory. That a failed write leaks the directory is proved as it is in the code (C89_leak)")
m("C90","proved","Fp.C90_reads Fp.C90_point Fp.C90_injective Fp.C90_letters Fp.C90_letters_sprint Fp.C90_length Fp.C90_form Fp.C90_count Fp.C90_plain Fp.C90_attributes Fp.C90_attribute","strconv's formatting (genericFtoa, formatDigits %g, fmtE, fmtF) and fmt's sign of infinities are transcribed. The digits (Ryu) are a parameter with FormatFloat's promise: decimal digits that read as the double, and no fewer do; right_exists shows the promise can be kept.")
m("C91","proved","Hu.C91_shows Hu.C91_small Hu.C91_close Hu.C91_total Hu.C91_cell Hu.C91_value Hu.C91_numbers","humanize.IBytes v1.0.1 with its floating point arithmetic (rounded products, sums and quotients, floor, %.0f and %.1f). math.Log's quotient is a parameter asked to be accurate (Near; near_log shows the exact logarithm is); the conversion of values outside uint64 is a parameter without any assumption.")
m("C92","proved","Pb.C92_reads Pb.C92_writes Pb.C92_fails Pb.C92_round_trip Pb.C92_injective Pb.C92_value Pb.C92_columns Pb.C92_round_trip_columns Pb.otlp_proper","the protobuf library is modelled (v1.33.0), message types are a parameter; otlp_proper: those of OTLP and Data meet the hypothesis. Messages of fewer than 2^64 bytes")
m("C93","proved","Pb.C93_accepted Pb.C93_length Pb.C93_again Pb.otlp_proper","as C92")
m("C94","proved","Pb.C94_attributes Pb.C94_resource_words Pb.C94_scope_words Pb.C94_merged Pb.C94_spelled_apart Pb.C94_encoding Pb.C94_ok Pb.C94_empty_key Pb.C94_empty Pb.C94_line_feed","C94_encoding: the hashed text is what proto.Marshal (C92) gives; C94_ok: attributes as they are sent meet the hypothesis; C94_empty_key, C94_empty, C94_line_feed: the conditions are needed. Discharges SpelledApart of C36/C77 but for shifts between schema URL, name and version")
m("C95","proved","Pb.C95_exact Pb.C95_one Pb.C95_concat","")
m("C96","proved","Rq.C96_arrives Rq.C96_bounds Rq.C96_answer Rq.C96_limit Rq.C96_any Rq.C96_any_answer Rq.C96_script_now Rq.C96_script_offset Rq.C96_script Rq.C96_future","The request is modelled as bytes in the protobuf format of C92 with the message types of scan.proto, and TimeBounds with Go's wrapping and saturating int64 arithmetic. The answer theorems suppose that the clock and the times are less than 2^62 seconds away and that the two parts of a duration have the same sign, as protobuf asks.")
m("C97","proved","Ex.C97_arrives Ex.C97_any Ex.C97_sent_back Ex.C97_too_deep","The bytes of the request are read by the model of protobuf of C92/C93; the fields of OTLP v1.2.0 are those of Model/WireOtlp. Of resources and scopes the number of dropped attributes and unknown fields are not in the data the other models use; of values that are text, unknown fields are not.")
m("C98","proved","Ex.C98_form Ex.C98_answer Ex.C98_sent Ex.C98_sendable Ex.C98_scan Ex.C98_query","The bytes are those of the protobuf model of C92/C93/C96/C97, between the store of C52 and the scripts' `rpc` of C41. gRPC itself is its limit of 4 MiB per received message (the default, which cmd/rq and internal/commands do not change) and the rule that a panic or an error of the server is an error of the call. What resources and scopes have beside the fields the program reads is left out, as in C97.")
m("C99","proved","Pk.C99_script Pk.C99_exported","End to end over the models of C85 (scripts), C86 (durations), C40 (builder, time zones), C96 and C98 (bytes of request and answer), C97 (bytes of exports) and C52 (store history). Time of operations: clock readings within 64-bit nanoseconds.")
m("C100","proved","Jn.C100_text Jn.C100_injective Jn.C100_line Jn.C100_fails Jn.C100_names Jn.C100_numbers Jn.golden_script Jn.golden_decoded","protojson's encoder (prepareNext, appendString, appendFloat, marshalMessage, marshalSingular, base64) is transcribed, the names and order of the fields come from opentelemetry-proto v1.2.0; checked against the samples in /repo/internal/test/samples/metrics, which protojson wrote. The digits of doubles are a parameter with FormatFloat's promise, as in C90.")
m("C101","proved","Pk.C101_prints Pk.C101_differ Pk.script_at Ex.visit_at","End to end over the models of C100 (JSON), C99 (scripts over the network), C98 (form of answers) and C52 (store history), with a new invariant: the client's own filtering keeps data of the form that can be written. Errors of the writer that the script prints to are left out.")
m("C102","proved","Pk.C102_script Rd.C102_crash Pk.C102_reached","Over C70's model of the text and the end-to-end models of C99 and C101; the attributes without a value are told of the message alone (Spec/RenderWire.lean). How numbers and tables look is arbitrary. That a Go panic in a function called by a script ends the process (goja does not catch it) is as in C41 and C70.")
json.dump({"claims":[M[k] for k in sorted(M)]}, open('/verif/MANIFEST.json','w'), indent=1)
