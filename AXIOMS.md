# Axioms

Generated by tools/axioms.py from `#print axioms`, for every theorem of MANIFEST.json. `propext`, `Classical.choice` and
`Quot.sound` are the axioms of Lean itself; there are no others.

## none

* `Verif.St.C28_found_numbers`
* `Verif.St.C28_found_matches`
* `Verif.St.C28_one_shard`
* `Verif.St.rowAt_own`
* `Verif.Dt.C36_resources`
* `Verif.Fl.C62_crash`
* `Verif.Sf.C66_refuted`
* `Verif.Rw.C79_double`
* `Verif.En.C80_collision`

## propext

* `Verif.C10_collision_wrong_id`
* `Verif.C14_explicit_range`
* `Verif.C19_min_refuted`
* `Verif.C20_own_signal_refuted`
* `Verif.Dt.C36_exact`
* `Verif.Dt.C36_apart_partial`
* `Verif.Rw.C46_always_safe`
* `Verif.Vs.C49_never_alike`
* `Verif.Vs.C49_apart_partial`
* `Verif.Vs.C49_confused`
* `Verif.Fl.C62_stale`
* `Verif.Fl.C63_collide`
* `Verif.Fl.C63_ambiguous`
* `Verif.Fl.C64_refuted`
* `Verif.Sf.C67_refuted`
* `Verif.Qc.C68_cut`
* `Verif.Qc.C68_early`
* `Verif.Qc.C68_upgrade`
* `Verif.Qc.C68_collision`
* `Verif.Qc.C68_gap`
* `Verif.Ar.C69_returns`
* `Verif.Ar.C69_released`
* `Verif.Rd.C70_hidden`
* `Verif.Rd.C70_bytes`
* `Verif.Qm.C72_month_empty`
* `Verif.C75_improper_refuted`
* `Verif.C76_short_refuted`
* `Verif.Sf.C78_lost`
* `Verif.Rw.C79_shard_columns`
* `Verif.Rw.C79_freeze`
* `Verif.En.C80_silent`
* `Verif.En.C80_leak`
* `Verif.En.C80_again`
* `Verif.C84_use_after_close`
* `Verif.Pk.C85_value`
* `Verif.Cp.C89_example`
* `Verif.Cp.C89_clash`
* `Verif.Cp.C89_killed`

## Quot.sound, propext

* `Verif.C04_id_roundtrip`
* `Verif.C04_id_injective`
* `Verif.C05_ids_stable`
* `Verif.C06_book`
* `Verif.C06_ids_distinct_partial`
* `Verif.C07_inverse_partial`
* `Verif.C07_only_assigned_partial`
* `Verif.C07_bulk_partial`
* `Verif.C07_bulk_missing_partial`
* `Verif.C08_find_exact`
* `Verif.C10_cache_transparent`
* `Verif.Ex.visit_at`
* `Verif.C13_quantum_monotone`
* `Verif.C14_default_range`
* `Verif.St.C14_scan_views`
* `Verif.C16_first_collision`
* `Verif.C17_no_leak`
* `Verif.C18_labels_exact`
* `Verif.C18_processing_total`
* `Verif.C19_min_partial`
* `Verif.C19_min_attained`
* `Verif.C19_max_exact`
* `Verif.C20_own_signal_partial`
* `Verif.Sh.C21_refuted`
* `Verif.Df.C23_refuted`
* `Verif.St.C25_payload_without_index`
* `Verif.St.C26_columns_exact`
* `Verif.St.C26_never_widens`
* `Verif.St.C26_widens_refuted`
* `Verif.St.C27_refuted`
* `Verif.St.rowAt_next`
* `Verif.St.C28_refuted`
* `Verif.St.C29_found_iff`
* `Verif.St.C29_refuted`
* `Verif.St.C30_frame_errors_dropped`
* `Verif.St.C30_refuted`
* `Verif.St.C31_ignored`
* `Verif.St.C31_refuted`
* `Verif.St.C32_refuted`
* `Verif.Dt.C35_two_metrics`
* `Verif.Dt.C35_refuted`
* `Verif.Dt.C35_mixed_panics`
* `Verif.Dt.C36_nested`
* `Verif.Dt.C36_groups_apart`
* `Verif.Dt.C36_words`
* `Verif.Dt.C36_metric_words`
* `Verif.Dt.C36_unconfused`
* `Verif.Vs.C39_refuted`
* `Verif.Js.C41_untouched`
* `Verif.Js.C41_errors`
* `Verif.Js.C41_query`
* `Verif.Sv.C43_exit_is_final`
* `Verif.Rw.C45_count_refuted`
* `Verif.Rw.C46_refuted`
* `Verif.Vs.C48_scope_schema_lost`
* `Verif.Vs.C48_metric_rest_lost`
* `Verif.Vs.C48_refuted`
* `Verif.Vs.C49_iff`
* `Verif.Vs.C49_refuted`
* `Verif.Vs.C50_no_panic_partial`
* `Verif.Vs.C50_refuted`
* `Verif.Sv.C52_scripts`
* `Verif.Shr.C54_isolated`
* `Verif.A3.C55_round_trip`
* `Verif.A3.C55_grow`
* `Verif.A3.C55_schema`
* `Verif.Rw.C59_refuted`
* `Verif.Rw.C60_refuted`
* `Verif.Rw.C61_refuted`
* `Verif.Fl.C62_rows`
* `Verif.Fl.C62_crash_iff`
* `Verif.Fl.histories_last`
* `Verif.Fl.C62_rows_partial`
* `Verif.Fl.C62_total_partial`
* `Verif.Fl.C63_positions`
* `Verif.Fl.C63_refuted`
* `Verif.Fl.C64_hash`
* `Verif.Sf.C65_refuted`
* `Verif.Sf.C67_metrics`
* `Verif.Sf.C67_scopes`
* `Verif.Sf.C67_is`
* `Verif.Rd.C70_crash_all`
* `Verif.Rd.C70_crash`
* `Verif.Rd.C70_lines`
* `Verif.Rd.C70_number`
* `Verif.Rd.C70_key`
* `Verif.Rd.C70_bare`
* `Verif.Rd.C70_unit`
* `Verif.Cd.C71_again`
* `Verif.Qm.C72_instant_example`
* `Verif.Flt.C73_hexDecode`
* `Verif.C75_translators_proper`
* `Verif.C76_as_one_step`
* `Verif.C76_labels`
* `Verif.C76_finds`
* `Verif.Sf.C78_point_held`
* `Verif.Rw.C79_values`
* `Verif.En.C80_programs`
* `Verif.C84_order`
* `Verif.C84_nested`
* `Verif.C84_stays_open`
* `Verif.C84_exit`
* `Verif.C84_uses`
* `Verif.C84_stops`
* `Verif.Pk.C85_whole`
* `Verif.Cp.C89_rq`
* `Verif.Pb.otlp_proper`
* `Verif.Pb.C94_ok`
* `Verif.Pb.C94_empty_key`
* `Verif.Pb.C94_empty`
* `Verif.Pb.C94_line_feed`
* `Verif.Rq.C96_limit`
* `Verif.Ex.C98_form`

## Classical.choice, Quot.sound, propext

* `Verif.C01_label_encode_eq_iff`
* `Verif.C01_resource_prefix_separated`
* `Verif.C02_same_iff`
* `Verif.C02_labels_injective_refuted`
* `Verif.C02_labels_injective_partial`
* `Verif.C03_sample_key_injective`
* `Verif.C03_prefix_selects_resource`
* `Verif.C04_id_order`
* `Verif.C06_first_life_exact`
* `Verif.C06_first_life_alias`
* `Verif.C06_short_lives_partial`
* `Verif.C06_ids_distinct_refuted`
* `Verif.C06_alias_always_duplicates`
* `Verif.C07_exact`
* `Verif.C07_short_lives_partial`
* `Verif.C07_inverse_refuted`
* `Verif.C09_sample_ids_increasing`
* `Verif.C09_sample_ids_unique`
* `Verif.Jn.C100_text`
* `Verif.Jn.C100_injective`
* `Verif.Jn.C100_line`
* `Verif.Jn.C100_fails`
* `Verif.Jn.C100_names`
* `Verif.Jn.C100_numbers`
* `Verif.Jn.golden_script`
* `Verif.Jn.golden_decoded`
* `Verif.Pk.C101_prints`
* `Verif.Pk.C101_differ`
* `Verif.Pk.script_at`
* `Verif.Pk.C102_script`
* `Verif.Rd.C102_crash`
* `Verif.Pk.C102_reached`
* `Verif.C11_views_of_timestamp`
* `Verif.C11_views_nested`
* `Verif.C12_hour_view_iff`
* `Verif.C12_day_view_iff`
* `Verif.C12_month_year_view_iff`
* `Verif.C13_quantum_by_length`
* `Verif.St.C13_scan_views`
* `Verif.C15_batch_bits`
* `Verif.C15_batch_sample_label`
* `Verif.C16_position_decodes`
* `Verif.C16_position_injective`
* `Verif.C16_container_keys`
* `Verif.C19_min_exact`
* `Verif.C19_min_iff`
* `Verif.C20_label_of_previous`
* `Verif.Sh.C21_lookup_exact`
* `Verif.Sh.C21_order_independent`
* `Verif.Sh.C21_finds_all`
* `Verif.Sh.C21_intersection_partial`
* `Verif.Sh.C21_single_shard_partial`
* `Verif.Sh.C21_returns_matching_partial`
* `Verif.Sh.C22_blind_after_restart`
* `Verif.Sh.C22_after_reopening_partial`
* `Verif.Sh.C22_refuted`
* `Verif.Df.C23_layout_exact`
* `Verif.Df.C23_row_is_id_partial`
* `Verif.Df.C23_newest_row_missing`
* `Verif.Df.C23_row_of_next`
* `Verif.Df.C24_reads_requested_kind`
* `Verif.Df.C24_missing_view`
* `Verif.Df.C24_other_views_untouched`
* `Verif.Df.C24_payloads_partial`
* `Verif.St.C25_no_dangling_index`
* `Verif.St.C26_unknown_matches_nothing`
* `Verif.St.C29_scan_exact`
* `Verif.St.C26_never_widens_partial`
* `Verif.St.C27_instant_exact`
* `Verif.St.C27_instant_latest_partial`
* `Verif.St.C28_only_matching_partial`
* `Verif.St.C28_match_or_next`
* `Verif.St.C29_scan_exact_partial`
* `Verif.St.C29_small_store_partial`
* `Verif.St.C29_log_records_partial`
* `Verif.St.C29_spans_partial`
* `Verif.St.C29_data_points_partial`
* `Verif.St.C29_blind_after_restart`
* `Verif.St.C30_err_iff`
* `Verif.St.C30_index_errors_partial`
* `Verif.St.C32_labels_exact`
* `Verif.St.C32_labels_partial`
* `Verif.Dt.C33_logs`
* `Verif.Dt.C33_traces`
* `Verif.Dt.C33_metrics`
* `Verif.Dt.C34_logs`
* `Verif.Dt.C34_traces`
* `Verif.Dt.C34_metrics`
* `Verif.Dt.C34_order_irrelevant`
* `Verif.Dt.C35_panic_iff`
* `Verif.Dt.C35_no_panic_partial`
* `Verif.Dt.C36_refuted`
* `Verif.Vs.C38_exact`
* `Verif.Vs.C39_enforced_partial`
* `Verif.Vs.C37_only_matching_partial`
* `Verif.Vs.C38_intended_partial`
* `Verif.Vs.C38_all_matching_partial`
* `Verif.Vs.C38_no_filters`
* `Verif.Js.C40_builder`
* `Verif.Js.C40_fixed`
* `Verif.Js.C41_exact`
* `Verif.Js.C41_before_1970`
* `Verif.Js.C41_trimmed_partial`
* `Verif.Js.C41_refuted`
* `Verif.Sv.C42_exactly_once_in_order`
* `Verif.Sv.C42_store_history`
* `Verif.Sv.C42_consecutive`
* `Verif.Sv.C43_exact`
* `Verif.Sv.C43_flushed_partial`
* `Verif.Sv.C43_at_rest_partial`
* `Verif.Sv.C43_refuted_shutdown`
* `Verif.Sv.C43_refuted_failure`
* `Verif.Rw.C44_new`
* `Verif.Rw.C44_bitmap`
* `Verif.Rw.C44_shard`
* `Verif.Rw.C44_setBit`
* `Verif.Rw.C44_merge`
* `Verif.Rw.C44_union`
* `Verif.Rw.C44_intersect`
* `Verif.Rw.C44_xor`
* `Verif.Rw.C44_difference`
* `Verif.Rw.C45_observers`
* `Verif.Rw.C45_count_le`
* `Verif.Rw.C45_count_partial`
* `Verif.Rw.C45_count_iff`
* `Verif.Rw.C46_new_rows`
* `Verif.Rw.C46_operands_partial`
* `Verif.Rw.C46_safe_iff`
* `Verif.Sh.C47_row_read_back`
* `Verif.Sh.C47_row_order_independent`
* `Verif.Vs.C50_panic_iff`
* `Verif.Sv.C51_calls_can_finish`
* `Verif.Sv.C52_nothing_invented`
* `Verif.Sv.C53_deployed_exact`
* `Verif.Sv.C53_exact`
* `Verif.Sv.C53_range_partial`
* `Verif.Sv.C53_latest_partial`
* `Verif.Sv.C53_sound_partial`
* `Verif.A3.C56_supported`
* `Verif.A3.C56_recursive`
* `Verif.A3.C56_hollow`
* `Verif.A3.C56_data`
* `Verif.A3.C56_looped`
* `Verif.A3.C57_columns`
* `Verif.A3.C57_read`
* `Verif.A3.C57_data`
* `Verif.A3.C57_counts`
* `Verif.St.C58_exact`
* `Verif.St.C58_complete`
* `Verif.St.C58_scan_while_flushing_partial`
* `Verif.St.C58_atomic_partial`
* `Verif.St.C58_refuted`
* `Verif.Rw.C59_pivot`
* `Verif.Rw.C59_reports_zero`
* `Verif.Rw.C60_add`
* `Verif.Rw.C60_later`
* `Verif.Rw.C61_row`
* `Verif.Rw.C61_row_ascending`
* `Verif.Rw.C61_bsi`
* `Verif.Rw.C61_build_add_pivot`
* `Verif.Fl.C63_pos`
* `Verif.Sf.C65_grouped`
* `Verif.Sf.C65_once`
* `Verif.Sf.C66_values`
* `Verif.Sf.C67_export`
* `Verif.Qc.C68_exact`
* `Verif.Qc.C68_full_iff`
* `Verif.Qc.C68_own_script`
* `Verif.Qc.C68_exact_partial`
* `Verif.Qc.C68_frozen`
* `Verif.Ar.C69`
* `Verif.Ar.C69_writer`
* `Verif.Rd.C70_exact`
* `Verif.Rd.C70_page`
* `Verif.Rd.C70_unambiguous_partial`
* `Verif.Rd.C70_time`
* `Verif.Cd.C71_compress`
* `Verif.Cd.C71_decompress`
* `Verif.Cd.C71_panic_iff`
* `Verif.Cd.C71_roundtrip`
* `Verif.Qm.C72_contract`
* `Verif.Qm.C72_range`
* `Verif.Qm.C72_instant`
* `Verif.Qm.C72_last_period`
* `Verif.Qm.C72_hours`
* `Verif.Qm.C72_start`
* `Verif.Qm.C72_history`
* `Verif.Qm.C72_covers_refuted`
* `Verif.Qm.idealViews_covers`
* `Verif.Flt.C73_matches`
* `Verif.Flt.C73_field`
* `Verif.Flt.C73_attr`
* `Verif.Flt.C73_attr_clean`
* `Verif.Flt.C73_span_attributes`
* `Verif.Flt.C73_unfiltered`
* `Verif.Flt.C73_upper_case`
* `Verif.Shr.C74_layout`
* `Verif.C74_label_text`
* `Verif.C74_sample_text`
* `Verif.Shr.someOps_layout`
* `Verif.C75_as_if_alone`
* `Verif.C75_never_stuck`
* `Verif.C75_finishes`
* `Verif.C75_jobs_proper`
* `Verif.C75_scan`
* `Verif.C75_flush`
* `Verif.C75_trim`
* `Verif.C75_translate`
* `Verif.C75_jobs_happen`
* `Verif.C76_exact`
* `Verif.Sv.C77_straight`
* `Verif.Sv.C77_distinct`
* `Verif.Sv.C77_query`
* `Verif.Sv.C77_latest`
* `Verif.Dt.C77_merge`
* `Verif.Sv.toy_script`
* `Verif.Sf.C78_held`
* `Verif.Sf.C78_span`
* `Verif.Sf.C78_point`
* `Verif.Sf.C78_metric`
* `Verif.Sf.C78_wrapped`
* `Verif.Rw.C79_table`
* `Verif.Rw.C79_lines`
* `Verif.Rw.C79_json`
* `Verif.Rw.C79_intersections`
* `Verif.Rw.C79_roaring`
* `Verif.Rw.C79_clear`
* `Verif.Rw.C79_shift`
* `Verif.Rw.C79_shift_count`
* `Verif.En.C80_own`
* `Verif.En.C80_mine`
* `Verif.En.C80_writes`
* `Verif.En.C80_first`
* `Verif.Pa.C81_server`
* `Verif.Pa.C81_home`
* `Verif.Pa.C81_apart`
* `Verif.Pa.C81_same`
* `Verif.Pa.C81_spelling`
* `Verif.Pa.C81_shards`
* `Verif.Pa.C81_scripts`
* `Verif.Pa.C81_windows`
* `Verif.Un.C82_reads`
* `Verif.Un.C82_injective`
* `Verif.Un.C82_form`
* `Verif.Un.C82_exact`
* `Verif.Un.C82_near`
* `Verif.Un.C82_double`
* `Verif.Un.C82_other`
* `Verif.C83_flush`
* `Verif.C83_scan`
* `Verif.C83_dictionary`
* `Verif.Pk.C85_query`
* `Verif.Pk.C85_throws`
* `Verif.Un.C86_reads`
* `Verif.Un.C86_accepts`
* `Verif.Un.C86_zero`
* `Verif.Un.C86_back`
* `Verif.Un.C86_wrap`
* `Verif.Un.C86_ago`
* `Verif.Un.C86_offset`
* `Verif.Un.C86_throws`
* `Verif.Un.C86_query`
* `Verif.Qt.C87_literal`
* `Verif.Qt.C87_reads`
* `Verif.Qt.C87_quotes`
* `Verif.Qt.C87_unambiguous`
* `Verif.Qt.C87_exact`
* `Verif.Qt.C87_line`
* `Verif.Qt.C87_utf8`
* `Verif.Qt.C87_seen`
* `Verif.Qt.C87_plain`
* `Verif.Tw.C88_chars`
* `Verif.Tw.C88_table`
* `Verif.Tw.C88_ink`
* `Verif.Tw.C88_lines`
* `Verif.Tw.C88_attributes`
* `Verif.Tw.C88_points`
* `Verif.Tw.C88_scope`
* `Verif.Tw.C88_resource`
* `Verif.Tw.C88_metric`
* `Verif.Tw.C88_forged`
* `Verif.Cp.C89_own`
* `Verif.Cp.C89_function`
* `Verif.Cp.C89_dirs`
* `Verif.Cp.C89_removed`
* `Verif.Cp.C89_left`
* `Verif.Cp.C89_leak`
* `Verif.Fp.C90_reads`
* `Verif.Fp.C90_point`
* `Verif.Fp.C90_injective`
* `Verif.Fp.C90_letters`
* `Verif.Fp.C90_letters_sprint`
* `Verif.Fp.C90_length`
* `Verif.Fp.C90_form`
* `Verif.Fp.C90_count`
* `Verif.Fp.C90_plain`
* `Verif.Fp.C90_attributes`
* `Verif.Fp.C90_attribute`
* `Verif.Hu.C91_shows`
* `Verif.Hu.C91_small`
* `Verif.Hu.C91_close`
* `Verif.Hu.C91_total`
* `Verif.Hu.C91_cell`
* `Verif.Hu.C91_value`
* `Verif.Hu.C91_numbers`
* `Verif.Pb.C92_reads`
* `Verif.Pb.C92_writes`
* `Verif.Pb.C92_fails`
* `Verif.Pb.C92_round_trip`
* `Verif.Pb.C92_injective`
* `Verif.Pb.C92_value`
* `Verif.Pb.C92_columns`
* `Verif.Pb.C92_round_trip_columns`
* `Verif.Pb.C93_accepted`
* `Verif.Pb.C93_length`
* `Verif.Pb.C93_again`
* `Verif.Pb.C94_attributes`
* `Verif.Pb.C94_resource_words`
* `Verif.Pb.C94_scope_words`
* `Verif.Pb.C94_merged`
* `Verif.Pb.C94_spelled_apart`
* `Verif.Pb.C94_encoding`
* `Verif.Pb.C95_exact`
* `Verif.Pb.C95_one`
* `Verif.Pb.C95_concat`
* `Verif.Rq.C96_arrives`
* `Verif.Rq.C96_bounds`
* `Verif.Rq.C96_answer`
* `Verif.Rq.C96_any`
* `Verif.Rq.C96_any_answer`
* `Verif.Rq.C96_script_now`
* `Verif.Rq.C96_script_offset`
* `Verif.Rq.C96_script`
* `Verif.Rq.C96_future`
* `Verif.Ex.C97_arrives`
* `Verif.Ex.C97_any`
* `Verif.Ex.C97_sent_back`
* `Verif.Ex.C97_too_deep`
* `Verif.Ex.C98_answer`
* `Verif.Ex.C98_sent`
* `Verif.Ex.C98_sendable`
* `Verif.Ex.C98_scan`
* `Verif.Ex.C98_query`
* `Verif.Pk.C99_script`
* `Verif.Pk.C99_exported`
