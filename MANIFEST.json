{
 "claims": [
  {
   "property": "C01",
   "status": "proved",
   "theorems": [
    "BaikalDB.KeyEnc.C01_order_i8",
    "BaikalDB.KeyEnc.C01_order_i16",
    "BaikalDB.KeyEnc.C01_order_i32",
    "BaikalDB.KeyEnc.C01_order_i64",
    "BaikalDB.KeyEnc.C01_order_u8",
    "BaikalDB.KeyEnc.C01_order_u16",
    "BaikalDB.KeyEnc.C01_order_u32",
    "BaikalDB.KeyEnc.C01_order_u64",
    "BaikalDB.KeyEnc.C01_order_bool",
    "BaikalDB.KeyEnc.C01_range_scan_i64"
   ],
   "note": "All widths; order iff theorem per type and a range-scan corollary."
  },
  {
   "property": "C02",
   "status": "proved",
   "theorems": [
    "BaikalDB.KeyEnc.C02_roundtrip_i8",
    "BaikalDB.KeyEnc.C02_roundtrip_i16",
    "BaikalDB.KeyEnc.C02_roundtrip_i32",
    "BaikalDB.KeyEnc.C02_roundtrip_i64",
    "BaikalDB.KeyEnc.C02_roundtrip_u8",
    "BaikalDB.KeyEnc.C02_roundtrip_u16",
    "BaikalDB.KeyEnc.C02_roundtrip_u32",
    "BaikalDB.KeyEnc.C02_roundtrip_u64",
    "BaikalDB.KeyEnc.C02_roundtrip_bool",
    "BaikalDB.KeyEnc.C02_replace_u8",
    "BaikalDB.KeyEnc.C02_replace_i32",
    "BaikalDB.KeyEnc.C02_replace_u32",
    "BaikalDB.KeyEnc.C02_replace_i64",
    "BaikalDB.KeyEnc.C02_replace_u64"
   ],
   "note": "All widths, any surrounding bytes; in-place replacement included."
  },
  {
   "property": "C03",
   "status": "proved",
   "theorems": [
    "BaikalDB.KeyEnc.C03_order_double",
    "BaikalDB.KeyEnc.C03_order_float",
    "BaikalDB.KeyEnc.C03_roundtrip_double",
    "BaikalDB.KeyEnc.C03_roundtrip_float",
    "BaikalDB.KeyEnc.C03_negzero_counterexample",
    "BaikalDB.KeyEnc.C03_nan_counterexample_double",
    "BaikalDB.KeyEnc.C03_nan_counterexample_float"
   ],
   "note": "Order and round trip proved for every bit pattern that is not NaN / -0.0; the behaviour on NaN and -0.0 is a proved deviation of the code (counterexample theorems), and is part of the statement."
  },
  {
   "property": "C04",
   "status": "proved",
   "theorems": [
    "BaikalDB.KeyEnc.C04_tuple_encodes",
    "BaikalDB.KeyEnc.C04_composite_order",
    "BaikalDB.KeyEnc.C04_embedded_nul_counterexample",
    "BaikalDB.KeyEnc.C04_embedded_nul_collision_counterexample",
    "BaikalDB.KeyEnc.C04_composite_injective",
    "BaikalDB.KeyEnc.C04_bound_keys_match_row_keys",
    "BaikalDB.KeyEnc.C04_like_prefix_bound_iff"
   ],
   "note": "All type lists and tuples with NUL-free strings; counterexamples for strings with 0x00 bytes."
  },
  {
   "property": "C05",
   "status": "proved",
   "theorems": [
    "BaikalDB.IndexKey.C05_secondary_roundtrip",
    "BaikalDB.IndexKey.C05_primary_roundtrip",
    "BaikalDB.IndexKey.C05_project_lookup",
    "BaikalDB.IndexKey.C05_needed_columns_roundtrip",
    "BaikalDB.IndexKey.C05_needed_columns_primary",
    "BaikalDB.IndexKey.C05_entry_pk_roundtrip",
    "BaikalDB.IndexKey.C05_missing_pk_refused",
    "BaikalDB.IndexKey.C05_too_many_nullable_refused",
    "BaikalDB.IndexKey.C05_rollup_counterexample",
    "BaikalDB.IndexKey.C05_rollup_collision_counterexample"
   ],
   "note": "Primary, unique and ordinary indexes; the rollup deviation is proved as counterexamples."
  },
  {
   "property": "C06",
   "status": "proved",
   "theorems": [
    "BaikalDB.KeyEnc.C06_prefix_order",
    "BaikalDB.KeyEnc.C06_contiguous",
    "BaikalDB.KeyEnc.C06_disjoint",
    "BaikalDB.KeyEnc.C06_ids_readable",
    "BaikalDB.KeyEnc.C06_region_range"
   ],
   "note": ""
  },
  {
   "property": "C07",
   "status": "proved",
   "theorems": [
    "BaikalDB.IndexKey.C07_entry_follows_row",
    "BaikalDB.IndexKey.C07_primary_or_global",
    "BaikalDB.IndexKey.C07_split_exactly_one"
   ],
   "note": "Entries are those built by the write path model (put_secondary); primary key columns are NOT NULL as the DDL planner enforces."
  },
  {
   "property": "C08",
   "status": "proved",
   "theorems": [
    "BaikalDB.SplitFilter.C08_primary_or_global",
    "BaikalDB.SplitFilter.C08_column",
    "BaikalDB.SplitFilter.C08_secondary",
    "BaikalDB.SplitFilter.C08_keeps_everything_else",
    "BaikalDB.SplitFilter.C08_keeps_short_keys",
    "BaikalDB.SplitFilter.C08_set_region",
    "BaikalDB.SplitFilter.C08_stale_ttl_counterexample"
   ],
   "note": "Exact drop condition per index kind; the stale-TTL deviation is a counterexample theorem."
  },
  {
   "property": "C09",
   "status": "proved",
   "theorems": [
    "BaikalDB.KeyEnc.C09_end_key_order",
    "BaikalDB.Region.C09_fits",
    "BaikalDB.Region.C09_one_writer",
    "BaikalDB.Region.C09_no_gap",
    "BaikalDB.Region.C09_partition",
    "BaikalDB.Region.C09_blocked_only_when_busy",
    "BaikalDB.Region.C09_split_exact",
    "BaikalDB.Region.C09_version_fixes_range",
    "BaikalDB.Region.C09_stale_request",
    "BaikalDB.Region.C09_current_request",
    "BaikalDB.Region.C09_multi_bounds_ascend",
    "BaikalDB.Region.C09_multi_bounds_wrap_counterexample",
    "BaikalDB.Region.C09_split_interrupted_counterexample",
    "BaikalDB.Region.C09_merge_interrupted_counterexample"
   ],
   "note": "Ranges, versions and readiness to take writes; raft inside a region and the copying of rows are not part of this model."
  },
  {
   "property": "C10",
   "status": "proved",
   "theorems": [
    "BaikalDB.Region.C10_tiling",
    "BaikalDB.Region.C10_no_blind_insert",
    "BaikalDB.Region.C10_merge_tiling",
    "BaikalDB.Region.C10_good_of_tiles",
    "BaikalDB.Region.C10_versions_grow",
    "BaikalDB.Region.C10_stale_refused",
    "BaikalDB.Region.C10_split_completes",
    "BaikalDB.Region.C10_merge_completes",
    "BaikalDB.Region.C10_report_ignored",
    "BaikalDB.Region.C10_recycle_keeps",
    "BaikalDB.Region.C10_recycle_drops",
    "BaikalDB.Region.C10_reports_honest",
    "BaikalDB.Region.C10_stale_new_region_counterexample",
    "BaikalDB.Region.C10_merged_region_counterexample",
    "BaikalDB.Region.C10_waiting_region",
    "BaikalDB.Region.C10_presplit_empty"
   ],
   "note": "One partition.  Split-only histories are closed under every interleaving (C10_tiling, with C10_reports_honest linking the reports to the store model); with merges the per-request theorem needs the conditions of MergeOk, and the two counterexamples show that the code does not ensure them."
  },
  {
   "property": "C11",
   "status": "proved",
   "theorems": [
    "BaikalDB.Route.C11_complete",
    "BaikalDB.Route.C11_sound",
    "BaikalDB.Route.C11_sound_open",
    "BaikalDB.Route.C11_order",
    "BaikalDB.Route.C11_full_export",
    "BaikalDB.Route.C11_eq_bounds",
    "BaikalDB.Route.C11_range_bounds",
    "BaikalDB.Route.C11_ranges",
    "BaikalDB.Route.C11_ranges_sound",
    "BaikalDB.Route.C11_binlog",
    "BaikalDB.Route.C11_recovery",
    "BaikalDB.Route.C11_record",
    "BaikalDB.Route.C11_owner_covers"
   ],
   "note": "The map is any sorted map; C11_owner_covers ties \"holds the key\" to the region ranges of the meta server's map (C10)."
  },
  {
   "property": "C12",
   "status": "proved",
   "theorems": [
    "BaikalDB.Tso.C12_increasing_under_one_leader",
    "BaikalDB.Tso.C12_grants_well_formed",
    "BaikalDB.Tso.C12_reset_same_ms_counterexample",
    "BaikalDB.Tso.C12_reset_race_counterexample",
    "BaikalDB.Tso.C12_negative_count_counterexample",
    "BaikalDB.Tso.C12_timer_makes_room"
   ],
   "note": "Transition system with any number of nodes; exclusions are stated in the property and each has a counterexample theorem."
  },
  {
   "property": "C13",
   "status": "proved",
   "theorems": [
    "BaikalDB.Tso.C13_new_leader_above",
    "BaikalDB.Tso.C13_never_twice",
    "BaikalDB.Tso.C13_retry_after_step_down_counterexample",
    "BaikalDB.Tso.C13_late_flag_counterexample",
    "BaikalDB.Tso.C13_reset_save_counterexample",
    "BaikalDB.Tso.C13_stays_unhealthy_counterexample"
   ],
   "note": "Same system; leader completeness of raft (a new leader has all committed entries) is an assumption built into the model's elect step."
  },
  {
   "property": "C14",
   "status": "proved",
   "theorems": [
    "BaikalDB.Tso.C14_counts",
    "BaikalDB.Tso.C14_disjoint",
    "BaikalDB.Tso.C14_cover",
    "BaikalDB.Tso.C14_error_reported",
    "BaikalDB.Tso.C14_store_within_grants",
    "BaikalDB.Tso.C14_store_increasing",
    "BaikalDB.Tso.C14_degraded_increasing",
    "BaikalDB.Tso.C14_degraded_two_processes_counterexample",
    "BaikalDB.Tso.C14_degraded_clock_back_counterexample",
    "BaikalDB.Tso.C14_degraded_overflow_counterexample"
   ],
   "note": "Deviations of the degraded mode are counterexample theorems."
  },
  {
   "property": "C15",
   "status": "proved",
   "theorems": [
    "BaikalDB.AutoIncr.C15_tables_independent",
    "BaikalDB.AutoIncr.C15_grant",
    "BaikalDB.AutoIncr.C15_grants_increase",
    "BaikalDB.AutoIncr.C15_update_respected",
    "BaikalDB.AutoIncr.C15_unknown_table",
    "BaikalDB.AutoIncr.C15_readd_keeps_counter",
    "BaikalDB.AutoIncr.C15_snapshot",
    "BaikalDB.AutoIncr.C15_restore_then_same",
    "BaikalDB.AutoIncr.C15_forced_update_counterexample",
    "BaikalDB.AutoIncr.C15_wrap_counterexample",
    "BaikalDB.AutoIncr.C15_insert",
    "BaikalDB.AutoIncr.C15_inserts",
    "BaikalDB.AutoIncr.C15_noskip_counterexample"
   ],
   "note": "Deviations (forced update, 64-bit wrap, noskip) are counterexample theorems."
  },
  {
   "property": "C16",
   "status": "proved",
   "theorems": [
    "BaikalDB.Lru.C16_size",
    "BaikalDB.Lru.C16_find_latest",
    "BaikalDB.Lru.C16_check",
    "BaikalDB.Lru.C16_find_keeps",
    "BaikalDB.Lru.C16_recent_kept",
    "BaikalDB.Lru.C16_old_evicted",
    "BaikalDB.Lru.C16_del"
   ],
   "note": "Any capacity, any operation sequence."
  },
  {
   "property": "C17",
   "status": "proved",
   "theorems": [
    "BaikalDB.RaftLog.C17_terms",
    "BaikalDB.RaftLog.C17_refuses"
   ],
   "note": ""
  },
  {
   "property": "C18",
   "status": "proved",
   "theorems": [
    "BaikalDB.RaftLog.C18_key_order",
    "BaikalDB.RaftLog.C18_key_decodes",
    "BaikalDB.RaftLog.C18_key_prefix",
    "BaikalDB.RaftLog.C18_storage_is_log",
    "BaikalDB.RaftLog.C18_append_accepted",
    "BaikalDB.RaftLog.C18_gap_refused",
    "BaikalDB.RaftLog.C18_reset_back_counterexample"
   ],
   "note": "All executions including crashes and compactions; binlog regions (key-value separation) not modelled."
  },
  {
   "property": "C19",
   "status": "proved",
   "theorems": [
    "BaikalDB.RaftLog.C19_recovery",
    "BaikalDB.RaftLog.C19_atomic",
    "BaikalDB.RaftLog.C19_term_order_counterexample",
    "BaikalDB.RaftLog.C19_lost_delete_counterexample"
   ],
   "note": "Atomic RocksDB writes assumed; the two excluded cases are counterexample theorems."
  },
  {
   "property": "C20",
   "status": "proved",
   "theorems": [
    "BaikalDB.RaftLog.C20_filter_exact",
    "BaikalDB.RaftLog.C20_compaction_safe"
   ],
   "note": "Exact drop condition on byte keys; compaction is a step of the executions of C18/C19."
  },
  {
   "property": "C21",
   "status": "proved",
   "theorems": [
    "BaikalDB.Merge.C21_grouping",
    "BaikalDB.Merge.C21_grouping_default",
    "BaikalDB.Merge.C21_sum",
    "BaikalDB.Merge.C21_replay",
    "BaikalDB.Merge.C21_rollup",
    "BaikalDB.Merge.C21_null_version_counterexample",
    "BaikalDB.Merge.C21_other_columns_counterexample"
   ],
   "note": "Any number of records, any nesting of partial merges; the excluded cases are counterexample theorems."
  },
  {
   "property": "C22",
   "status": "proved",
   "theorems": [
    "BaikalDB.Sort.C22_compare_is_order_by",
    "BaikalDB.Sort.C22_total_preorder",
    "BaikalDB.Sort.C22_order_by",
    "BaikalDB.Sort.C22_no_columns",
    "BaikalDB.Sort.C22_empty_batch_counterexample"
   ],
   "note": "Any number of rows, batches, columns; std::sort is represented by its contract (a sorted permutation for a strict weak order), the heap code is transcribed.  Columns hold NULL or values of their type, no NaN."
  },
  {
   "property": "C23",
   "status": "proved",
   "theorems": [
    "BaikalDB.Sort.C23_topn",
    "BaikalDB.Sort.C23_limit_zero_counterexample"
   ],
   "note": "Bounded heap transcribed; any input, any batch sizes."
  },
  {
   "property": "C24",
   "status": "proved",
   "theorems": [
    "BaikalDB.Sort.C24_limit",
    "BaikalDB.Sort.C24_distributed"
   ],
   "note": "Empty batches included for the limit node; any number of regions.  Push-down of the limit through other plan nodes is not modelled."
  },
  {
   "property": "C25",
   "status": "proved",
   "theorems": [
    "BaikalDB.Pred.C25_three_valued",
    "BaikalDB.Pred.C25_filter",
    "BaikalDB.Pred.C25_pushed_down",
    "BaikalDB.Pred.C25_shipped_not_in_counterexample",
    "BaikalDB.Pred.C25_unsigned_counterexample",
    "BaikalDB.Pred.C25_mixed_sign_counterexample",
    "BaikalDB.Pred.C25_fraction_counterexample",
    "BaikalDB.Pred.C25_like_null_counterexample"
   ],
   "note": "Operand pairs are column/literal, column/column, literal/literal within the integers or within one of STRING, DOUBLE, DATETIME, TIMESTAMP, DATE, TIME (literals already of that type); function calls, arithmetic and row constructors are not modelled."
  },
  {
   "property": "C26",
   "status": "proved",
   "theorems": [
    "BaikalDB.Like.C26_like",
    "BaikalDB.Like.C26_like_binary",
    "BaikalDB.Like.C26_fallback",
    "BaikalDB.Like.C26_index_prefix",
    "BaikalDB.Like.C26_index_eq",
    "BaikalDB.Like.C26_dangling_escape_counterexample",
    "BaikalDB.Like.C26_gbk_prefix_counterexample",
    "BaikalDB.Like.C26_range",
    "BaikalDB.Like.C26_range_shape",
    "BaikalDB.Like.C26_range_escape_counterexample",
    "BaikalDB.Like.C26_range_ff_counterexample",
    "BaikalDB.Like.C26_char",
    "BaikalDB.Like.C26_is_prefix"
   ],
   "note": "Two-pointer matcher transcribed; any pattern and string.  The RE2/regex variants and LIKE on a NULL operand are not part of this claim."
  },
  {
   "property": "C27",
   "status": "proved",
   "theorems": [
    "BaikalDB.Pred.C27_in_list",
    "BaikalDB.Pred.C27_not_in",
    "BaikalDB.Pred.C27_narrow_column_counterexample"
   ],
   "note": "Single-column IN with literal list; row IN not modelled."
  },
  {
   "property": "C28",
   "status": "proved",
   "theorems": [
    "BaikalDB.Expr.C28_compare_is_value_order",
    "BaikalDB.Expr.C28_total_preorder",
    "BaikalDB.Expr.C28_nan_counterexample",
    "BaikalDB.Expr.C28_equal_values_equal_hash",
    "BaikalDB.Expr.C28_flat_hash",
    "BaikalDB.Expr.C28_flat_hash_counterexample",
    "BaikalDB.Expr.C28_negzero_counterexample",
    "BaikalDB.Expr.C28_int_cast",
    "BaikalDB.Expr.C28_mixed_integers",
    "BaikalDB.Expr.C28_mixed_sign_counterexample",
    "BaikalDB.Expr.C28_mixed_strings",
    "BaikalDB.Expr.C28_proto_round_trip",
    "BaikalDB.Expr.C28_null_first",
    "BaikalDB.Expr.C28_null_right_counterexample",
    "BaikalDB.Expr.C28_maxvalue_last",
    "BaikalDB.Expr.C28_bool_cast",
    "BaikalDB.Expr.C28_wire_number"
   ],
   "note": "All values of all comparable types, including arbitrary unused bytes of the union; the excluded cases are counterexample theorems.  Floating-point values are read through the IEEE bit layout; casts to and from floating point are not modelled."
  },
  {
   "property": "C29",
   "status": "proved",
   "theorems": [
    "BaikalDB.Datetime.C29_calendar",
    "BaikalDB.Datetime.C29_day_number",
    "BaikalDB.Datetime.C29_order",
    "BaikalDB.Datetime.C29_later",
    "BaikalDB.Datetime.C29_localtime",
    "BaikalDB.Datetime.C29_mktime_localtime",
    "BaikalDB.Datetime.C29_localtime_mktime",
    "BaikalDB.Datetime.C29_timestamp_fields",
    "BaikalDB.Datetime.C29_timestamp_roundtrip",
    "BaikalDB.Datetime.C29_datetime_roundtrip",
    "BaikalDB.Datetime.C29_zero_date",
    "BaikalDB.Datetime.C29_before_epoch_counterexample",
    "BaikalDB.Datetime.C29_invalid_day_counterexample"
   ],
   "note": "The calendar laws are for all integers, the TIMESTAMP round trip for every second of the supported range."
  },
  {
   "property": "C30",
   "status": "proved",
   "theorems": [
    "BaikalDB.Datetime.C30_fields",
    "BaikalDB.Datetime.C30_order",
    "BaikalDB.Datetime.C30_date",
    "BaikalDB.Datetime.C30_date_order",
    "BaikalDB.Datetime.C30_binary_year_counterexample",
    "BaikalDB.Datetime.C30_binary",
    "BaikalDB.Datetime.C30_binary_invalid",
    "BaikalDB.Datetime.C30_text",
    "BaikalDB.Datetime.C30_date_text",
    "BaikalDB.Datetime.C30_compact",
    "BaikalDB.Datetime.C30_two_digit_year",
    "BaikalDB.Datetime.C30_text_in_range"
   ],
   "note": "Text forms: the one the server prints (with 0 to 6 fraction digits), DATE text, YYYYMMDD, YYYYMMDDHHMMSS and the two-digit-year forms; every other text is covered by the in-range theorem.  sscanf is modelled from the C standard."
  },
  {
   "property": "C31",
   "status": "proved",
   "theorems": [
    "BaikalDB.Datetime.C31_seconds",
    "BaikalDB.Datetime.C31_time",
    "BaikalDB.Datetime.C31_order",
    "BaikalDB.Datetime.C31_hours_counterexample",
    "BaikalDB.Datetime.C31_of_datetime",
    "BaikalDB.Datetime.C31_text",
    "BaikalDB.Datetime.C31_digits",
    "BaikalDB.Datetime.C31_days",
    "BaikalDB.Datetime.C31_invalid"
   ],
   "note": "Round trips for hours below 1024."
  },
  {
   "property": "C32",
   "status": "proved",
   "theorems": [
    "BaikalDB.Datetime.C32_timestamp",
    "BaikalDB.Datetime.C32_months_exact",
    "BaikalDB.Datetime.C32_months",
    "BaikalDB.Datetime.C32_months_counterexample",
    "BaikalDB.Datetime.C32_years",
    "BaikalDB.Datetime.C32_days",
    "BaikalDB.Datetime.C32_days_later",
    "BaikalDB.Datetime.C32_fixed",
    "BaikalDB.Datetime.C32_sub",
    "BaikalDB.Datetime.C32_day_start"
   ],
   "note": "All timestamps and counts; month subtraction landing on a multiple of twelve below zero is off by a year (exact behaviour in C32_months_exact)."
  },
  {
   "property": "C33",
   "status": "partial",
   "theorems": [
    "BaikalDB.Wire.C33_lenenc_server",
    "BaikalDB.Wire.C33_execute_partial",
    "BaikalDB.Wire.C33_execute_year_counterexample",
    "BaikalDB.Wire.C33_execute_time_counterexample",
    "BaikalDB.Wire.C33_execute_bounds_partial",
    "BaikalDB.Wire.C33_execute_types",
    "BaikalDB.Wire.C33_execute_types_counterexample",
    "BaikalDB.Wire.C33_execute_length_counterexample",
    "BaikalDB.Wire.C33_lenenc",
    "BaikalDB.Wire.C33_string",
    "BaikalDB.Wire.C33_text_cell",
    "BaikalDB.Wire.C33_text_date",
    "BaikalDB.Wire.C33_text_row",
    "BaikalDB.Wire.C33_result_text",
    "BaikalDB.Wire.C33_column_type",
    "BaikalDB.Wire.C33_column_codes",
    "BaikalDB.Wire.C33_result_binary",
    "BaikalDB.Wire.C33_binary_value_partial",
    "BaikalDB.Wire.C33_binary_time_counterexample",
    "BaikalDB.Wire.C33_binary_micro_counterexample",
    "BaikalDB.Wire.C33_binary_timestamp_counterexample",
    "BaikalDB.Wire.C33_text_value",
    "BaikalDB.Wire.C33_read_chunks",
    "BaikalDB.Wire.C33_ok_packet",
    "BaikalDB.Wire.C33_show_row_partial",
    "BaikalDB.Wire.C33_show_empty_counterexample",
    "BaikalDB.Wire.C33_show_long_counterexample"
   ],
   "note": "Proved in full: length-encoded integers and strings, text cells (numbers read back by value), text rows and result sets of any size, column definitions and types, OK packets, command reading in any pieces, types kept by a statement.  Binary result sets: what the client reads is proved for every value; it equals the value except for DATETIME microseconds, TIMESTAMP 0 and whole-day TIMEs (counterexamples).  Prepared parameters: all but years below 100, TIME microseconds and TIME zero (counterexamples).  Reads outside the packet: exactly two ways remain, both shown.  SHOW rows: below 16 MB and with empty strings sent as NULL (counterexamples).  Not modelled: printf of floats (a parameter of the model), authentication, compression, SSL, the Arrow result path."
  },
  {
   "property": "C34",
   "status": "proved",
   "theorems": [
    "BaikalDB.Txn.C34_agreement",
    "BaikalDB.Txn.C34_commit_all",
    "BaikalDB.Txn.C34_client_commit",
    "BaikalDB.Txn.C34_client_abort",
    "BaikalDB.Txn.C34_final",
    "BaikalDB.Txn.C34_recovers",
    "BaikalDB.Txn.C34_waits",
    "BaikalDB.Txn.C34_no_blocking",
    "BaikalDB.Txn.C34_commits",
    "BaikalDB.Txn.C34_rolls_back",
    "BaikalDB.Txn.C34_stale_query_counterexample",
    "BaikalDB.Txn.C34_empty_primary_counterexample",
    "BaikalDB.Txn.C34_empty_primary_leader_counterexample",
    "BaikalDB.Txn.C34_commit_needs_prepare"
   ],
   "note": "Three behaviours of the code break agreement and are excluded from the runs the theorems speak of; each is shown on a run: C34_stale_query_counterexample, C34_empty_primary_counterexample, C35_forgotten_counterexample.  Region splits during the transaction are not modelled."
  },
  {
   "property": "C35",
   "status": "proved",
   "theorems": [
    "BaikalDB.Stmt.C35_apply",
    "BaikalDB.Stmt.C35_leader",
    "BaikalDB.Stmt.C35_failed",
    "BaikalDB.Stmt.C35_lost",
    "BaikalDB.Stmt.C35_repeat",
    "BaikalDB.Stmt.C35_no_duplicate",
    "BaikalDB.Stmt.C35_open",
    "BaikalDB.Stmt.C35_exact",
    "BaikalDB.Stmt.C35_exact_stable",
    "BaikalDB.Stmt.C35_acked",
    "BaikalDB.Stmt.C35_save_point",
    "BaikalDB.Txn.C35_once",
    "BaikalDB.Txn.C35_forgotten_counterexample"
   ],
   "note": "Cached statements beyond the one carried by a one-phase PREPARE are covered request by request (C35_apply, C35_leader, C35_failed, C35_lost for any list), not in the run model."
  },
  {
   "property": "C36",
   "status": "proved",
   "theorems": [
    "BaikalDB.Ddl.Ex.C36_update_counterexample",
    "BaikalDB.Ddl.Ex.C36_rollup_counterexample",
    "BaikalDB.Ddl.Ex.C36_unknown_node_counterexample",
    "BaikalDB.Ddl.Ex.C36_report_counterexample",
    "BaikalDB.Ddl.C36_reader_exact",
    "BaikalDB.Ddl.C36_published_exact",
    "BaikalDB.Ddl.C36_no_orphan",
    "BaikalDB.Ddl.C36_views",
    "BaikalDB.Ddl.C36_no_old_txn",
    "BaikalDB.Ddl.C36_steps",
    "BaikalDB.Ddl.C36_waits",
    "BaikalDB.Ddl.C36_public_means_done",
    "BaikalDB.Ddl.C36_rollup_means_done",
    "BaikalDB.Ddl.C36_failure_drops",
    "BaikalDB.Ddl.C36_drop_ends",
    "BaikalDB.Ddl.C36_all_done_publishes"
   ],
   "note": "Assumptions are those in the statement; C36_update_counterexample, C36_unknown_node_counterexample, C36_report_counterexample and C36_rollup_counterexample show what the code does where they fail.  Not modelled: unique and global indexes' filling (duplicates, the lock node's plan), clocks (a wait is over when all nodes have heard), the raft log under the meta server (a request goes through or not), splits during the filling."
  },
  {
   "property": "C37",
   "status": "proved",
   "theorems": [
    "BaikalDB.Agg.C37_group_key",
    "BaikalDB.Agg.C37_group_key_nul_counterexample",
    "BaikalDB.Agg.C37_group_key_nine_counterexample",
    "BaikalDB.Agg.C37_rb_and_counterexample",
    "BaikalDB.Agg.C37_multi_distinct_counterexample",
    "BaikalDB.Agg.C37_multi_sum_counterexample",
    "BaikalDB.Agg.C37_concat_order_counterexample",
    "BaikalDB.Agg.C37_regions",
    "BaikalDB.Agg.C37_distinct",
    "BaikalDB.Agg.C37_single"
   ],
   "note": "Row engine only; doubles are added without rounding; HLL and t-digest aggregates are not modelled.  Hypotheses that exclude behaviour the code gets wrong, each shown on a run: a region with only NULLs for RB_AND_AGG (C37_rb_and_counterexample) or for several DISTINCT aggregates (C37_multi_distinct_counterexample), the latter over no rows (C37_multi_sum_counterexample), empty strings in ordered GROUP_CONCAT (C37_concat_order_counterexample), more than 8 GROUP BY columns and strings with NUL (C37_group_key_*_counterexample)."
  },
  {
   "property": "C38",
   "status": "partial",
   "theorems": [
    "BaikalDB.Join.C38_filter_keeps_partners",
    "BaikalDB.Join.C38_filter_drops_null",
    "BaikalDB.Join.C38_key_is_equality",
    "BaikalDB.Join.C38_hash_inner",
    "BaikalDB.Join.C38_hash_inner_ends",
    "BaikalDB.Join.C38_nested_inner",
    "BaikalDB.Join.C38_nested_inner_limit_partial",
    "BaikalDB.Join.C38_nested_inner_ends",
    "BaikalDB.Join.C38_hash_left_partial",
    "BaikalDB.Join.C38_hash_left_ends",
    "BaikalDB.Join.C38_nested_left_partial",
    "BaikalDB.Join.C38_semi_hash",
    "BaikalDB.Join.C38_semi_hash_ends",
    "BaikalDB.Join.C38_semi_chunks",
    "BaikalDB.Join.C38_semi_chunks_ends",
    "BaikalDB.Join.C38_anti_hash",
    "BaikalDB.Join.C38_anti_hash_ends",
    "BaikalDB.Join.C38_apply_matched",
    "BaikalDB.Join.C38_apply_left_hash_partial",
    "BaikalDB.Join.C38_semi_nested",
    "BaikalDB.Join.C38_anti_nested",
    "BaikalDB.Join.C38_scalar_nested",
    "BaikalDB.Join.C38_nested_apply_ends",
    "BaikalDB.Join.C38_subquery_filter",
    "BaikalDB.Join.C38_semi_per_row",
    "BaikalDB.Join.C38_anti_per_row",
    "BaikalDB.Join.C38_hash_left_counterexample",
    "BaikalDB.Join.C38_nested_left_counterexample",
    "BaikalDB.Join.C38_nested_inner_limit_counterexample",
    "BaikalDB.Join.C38_apply_left_counterexample",
    "BaikalDB.Join.C38_null_key_counterexample",
    "BaikalDB.Join.C38_nul_key_counterexample",
    "BaikalDB.Join.C38_json_key_counterexample",
    "BaikalDB.Join.C38_text_key_counterexample",
    "BaikalDB.Join.C38_set_null_counterexample",
    "BaikalDB.Join.C38_subquery_overflow_counterexample",
    "BaikalDB.Join.C38_negzero_counterexample",
    "BaikalDB.Join.C38_not_in_null_counterexample"
   ],
   "note": "Row engine only (no Arrow execution).  Proved in full: hash INNER JOIN, nested-loop INNER JOIN without LIMIT, EXISTS and NOT EXISTS (hash, chunked, nested), scalar subqueries run per outer row.  Restricted, because the code gives other rows otherwise (each shown on a run): hash LEFT JOIN when the other ON conditions hold on key-equal pairs, nested-loop LEFT JOIN within one batch, nested-loop INNER JOIN under LIMIT (only that the rows returned are right), scalar subqueries over the hash map.  Join columns: integers of any widths, or one type among strings without NUL, dates, times, doubles without -0.0; FLOAT, BOOL and mixed types are not covered; `NOT IN` with NULLs is wrong (C38_not_in_null_counterexample)."
  },
  {
   "property": "C39",
   "status": "proved",
   "theorems": [
    "BaikalDB.RowCodec.C39_online_new_primary_row",
    "BaikalDB.Ttl.C39_roundtrip",
    "BaikalDB.Ttl.C39_expired_iff_before_read_time",
    "BaikalDB.Ttl.C39_no_ttl",
    "BaikalDB.Ttl.C39_nonpositive_expiry_counterexample",
    "BaikalDB.Ttl.C39_online_new_secondary",
    "BaikalDB.Ttl.C39_online_new_primary",
    "BaikalDB.Ttl.C39_online_old",
    "BaikalDB.Ttl.C39_online_old_uniq_counterexample",
    "BaikalDB.Ttl.C39_online_old_primary_counterexample",
    "BaikalDB.Ttl.C39_verification_hang_counterexample"
   ],
   "note": "Deviations are counterexample theorems."
  },
  {
   "property": "C40",
   "status": "proved",
   "theorems": [
    "BaikalDB.RowCodec.C40_codec_roundtrip",
    "BaikalDB.RowCodec.C40_left_out_iff_default",
    "BaikalDB.RowCodec.C40_write_read",
    "BaikalDB.RowCodec.C40_null_reads_default",
    "BaikalDB.RowCodec.C40_null_with_default_counterexample",
    "BaikalDB.RowCodec.C40_unsupported_type_counterexample"
   ],
   "note": "Deviations are counterexample theorems."
  },
  {
   "property": "C41",
   "status": "proved",
   "theorems": [
    "BaikalDB.RowCodec.C41_row_roundtrip",
    "BaikalDB.RowCodec.C41_verification_accepts_rows",
    "BaikalDB.RowCodec.C41_null_reads_default",
    "BaikalDB.RowCodec.C41_null_with_default_counterexample",
    "BaikalDB.RowCodec.C41_column_type_fits",
    "BaikalDB.RowCodec.C41_fixed_size"
   ],
   "note": ""
  },
  {
   "property": "C42",
   "status": "proved",
   "theorems": [
    "BaikalDB.Expr.C42_integer_text_round_trip",
    "BaikalDB.Expr.C42_text_prefix",
    "BaikalDB.Expr.C42_hex_literal"
   ],
   "note": "All integer types and values; the text form is produced and read by the transcribed routines."
  },
  {
   "property": "C43",
   "status": "proved",
   "theorems": [
    "BaikalDB.IndexKey.C43_like_prefix_key"
   ],
   "note": "Any number of columns before and after the LIKE column, with and without the null-flag byte."
  },
  {
   "property": "C45",
   "status": "proved",
   "theorems": [
    "BaikalDB.Pred.C45_simplify",
    "BaikalDB.Pred.C45_filter",
    "BaikalDB.Pred.C45_null_bound_counterexample",
    "BaikalDB.Pred.C45_null_list_counterexample"
   ],
   "note": "Row constructors are not modelled; std::sort of the bounds is represented by choosing a tightest one.  Conjuncts on a column against constants have non-NULL literals within the integers or one of the direct types, IN lists and ORs on integer or string columns, LIKE patterns that do not end in an escaped %; all other conjuncts are arbitrary."
  },
  {
   "property": "C44",
   "status": "partial",
   "theorems": [
    "BaikalDB.Scan.C44_row_equality_after_counterexample",
    "BaikalDB.Scan.C44_row_equality_before_counterexample",
    "BaikalDB.Scan.C44_row_in_counterexample",
    "BaikalDB.Scan.C44_row_repeated_column_counterexample",
    "BaikalDB.Scan.C44_in_before_like_counterexample",
    "BaikalDB.Scan.C44_both_row_ends_counterexample",
    "BaikalDB.Scan.C44_full_text_counterexample",
    "BaikalDB.Scan.C44_row_null_counterexample",
    "BaikalDB.Scan.C44_never_fails",
    "BaikalDB.Scan.C44_empty",
    "BaikalDB.Scan.C44_plan_exact_partial",
    "BaikalDB.Scan.C44_plan_exact_no_like",
    "BaikalDB.Scan.C44_any_index_partial",
    "BaikalDB.Scan.C44_once",
    "BaikalDB.Scan.C44_point",
    "BaikalDB.Scan.C44_primary_key",
    "BaikalDB.Scan.C44_secondary_key"
   ],
   "note": "Proved for queries with no IN before a LIKE prefix search (there rows are lost: counterexample) and outside the other exclusions, each with a counterexample.  C44_plan_exact_no_like covers all queries without LIKE in full, C44_once all queries.  Constants are taken to have the type of their column.  Not modelled: partition ids in ranges, full-text and vector index plans, the cost-based choice (any choice is covered), date_range_to_in (off by default)."
  },
  {
   "property": "C53",
   "status": "partial",
   "theorems": [
    "BaikalDB.Iter.C53_largest_values_counterexample",
    "BaikalDB.Iter.C53_largest_values_backward_counterexample",
    "BaikalDB.Iter.C53_forward",
    "BaikalDB.Iter.C53_backward",
    "BaikalDB.Iter.C53_select_partial",
    "BaikalDB.Iter.C53_select_once_partial"
   ],
   "note": "C53_forward and C53_backward are exact up to keys that continue a closed upper end with 24 bytes FF (counterexamples).  The end-to-end theorems inherit the restriction of C44 to plans without IN before a LIKE prefix.  Not modelled: MVCC and transaction overlays, TTL (C39), key lookups of the row after a secondary index entry (C07), errors of the engine."
  },
  {
   "property": "C54",
   "status": "proved",
   "theorems": [
    "BaikalDB.Iter.C54_column_scan"
   ],
   "note": ""
  },
  {
   "property": "C52",
   "status": "proved",
   "theorems": [
    "BaikalDB.Iter.C52_region",
    "BaikalDB.Scan.C52_range_order"
   ],
   "note": "Keys that continue a range end with 24 bytes FF are excluded as in C53; index columns are NOT NULL (enforced by the planner of CREATE TABLE).  The sorter is a parameter, given its contract (C22); merging the regions' answers is C22/C24."
  },
  {
   "property": "C50",
   "status": "proved",
   "theorems": [
    "BaikalDB.Plan.C50_never",
    "BaikalDB.Plan.C50_never_inner",
    "BaikalDB.Plan.Examples.C50_never_counterexample",
    "BaikalDB.Plan.Examples.C50_on_condition_counterexample",
    "BaikalDB.Plan.Examples.C50_nullif_counterexample",
    "BaikalDB.Plan.Examples.C50_is_not_true_counterexample",
    "BaikalDB.Plan.Examples.C50_not_and_counterexample",
    "BaikalDB.Plan.Examples.C50_or_constant_counterexample",
    "BaikalDB.Plan.Examples.C50_in_columns_counterexample",
    "BaikalDB.Plan.Examples.C50_full_constant_counterexample",
    "BaikalDB.Plan.Examples.C50_correlated_counterexample",
    "BaikalDB.Plan.C50_pushdown",
    "BaikalDB.Plan.C50_inner",
    "BaikalDB.Plan.C50_plain",
    "BaikalDB.Plan.C50_select"
   ],
   "note": "The conditions asked for are those in the statement (C50_plain gives a checkable class, C50_inner asks for none); the C50_*_counterexample theorems show what the code does outside.  Not modelled here: derived tables below a scan, HAVING, subqueries in conditions (apply nodes), row comparisons as such (they are calls)."
  },
  {
   "property": "C55",
   "status": "proved",
   "theorems": [
    "BaikalDB.Plan.C55_reorder",
    "BaikalDB.Plan.C55_answered",
    "BaikalDB.Plan.C55_select",
    "BaikalDB.Plan.Examples.C55_unlinked_counterexample"
   ],
   "note": "C55_unlinked_counterexample is the case excluded.  Equalities of row expressions are not counted as equalities."
  },
  {
   "property": "C49",
   "status": "proved",
   "theorems": [
    "BaikalDB.Limit.Examples.C49_full_counterexample",
    "BaikalDB.Limit.Examples.C49_having_counterexample",
    "BaikalDB.Limit.Examples.C49_nested_counterexample",
    "BaikalDB.Limit.C49_limit",
    "BaikalDB.Limit.C49_rows",
    "BaikalDB.Limit.C49_separate"
   ],
   "note": "The class is Query.Ok of Verif/Limit/Spec.lean; the C49_*_counterexample theorems show what the code does outside.  SORT and the merge of sorted regions are taken as sorting (C22, C23), joins as handing out rows by driving row (C38)."
  },
  {
   "property": "C57",
   "status": "proved",
   "theorems": [
    "BaikalDB.Dml.Examples.C57_moved_counterexample",
    "BaikalDB.Dml.Examples.C57_column_dup_counterexample",
    "BaikalDB.Dml.Examples.C57_column_expired_counterexample",
    "BaikalDB.Dml.Examples.C57_null_default_counterexample",
    "BaikalDB.Dml.Examples.C57_null_unique_counterexample",
    "BaikalDB.Dml.Examples.C57_batches_counterexample",
    "BaikalDB.Dml.C57_exec",
    "BaikalDB.Dml.C57_unique",
    "BaikalDB.Dml.C57_later",
    "BaikalDB.Dml.C57_history",
    "BaikalDB.Dml.C57_determined",
    "BaikalDB.Dml.C57_batches"
   ],
   "note": "The class of statements is Stmt.Ok of Verif/Dml/Spec.lean; the C57_*_counterexample theorems show what the code does outside.  One transaction at a time (for concurrency between transactions the row locks of RocksDB are trusted); full-text, vector, rollup and global indexes are not modelled."
  },
  {
   "property": "C58",
   "status": "proved",
   "theorems": [
    "BaikalDB.Priv.C58_db_grant_counterexample",
    "BaikalDB.Priv.C58_global_grant_counterexample",
    "BaikalDB.Priv.C58_same_name_counterexample",
    "BaikalDB.Priv.C58_revoke_counterexample",
    "BaikalDB.Priv.C58_super_counterexample",
    "BaikalDB.Priv.C58_level_revoke_counterexample",
    "BaikalDB.Priv.C58_drop_user_counterexample",
    "BaikalDB.Priv.C58_recreate_counterexample",
    "BaikalDB.Priv.C58_grant_option_counterexample",
    "BaikalDB.Priv.C58_unassigned_counterexample",
    "BaikalDB.Priv.C58_replica_counterexample",
    "BaikalDB.Priv.C58_granted",
    "BaikalDB.Priv.C58_levels",
    "BaikalDB.Priv.C58_level",
    "BaikalDB.Priv.C58_default_deny",
    "BaikalDB.Priv.C58_write_sound",
    "BaikalDB.Priv.C58_information_schema",
    "BaikalDB.Priv.C58_ddl",
    "BaikalDB.Priv.C58_isolated",
    "BaikalDB.Priv.C58_version",
    "BaikalDB.Priv.C58_accounts",
    "BaikalDB.Priv.C58_drop_object",
    "BaikalDB.Priv.C58_reload",
    "BaikalDB.Priv.C58_heartbeat",
    "BaikalDB.Priv.C58_refresh",
    "BaikalDB.Priv.C58_end_to_end",
    "BaikalDB.Priv.C58_login"
   ],
   "note": "The class of histories is CleanHist of Verif/Priv/Spec.lean; the C58_*_counterexample theorems show what the code does outside.  Scrambling of passwords and the encoding of records are not modelled; settings of an account that play no part in access are left out."
  },
  {
   "property": "C48",
   "status": "proved",
   "theorems": [
    "BaikalDB.ClientMap.C48_stuck_counterexample",
    "BaikalDB.ClientMap.C48_orphan_counterexample",
    "BaikalDB.ClientMap.C48_gap_counterexample",
    "BaikalDB.ClientMap.C48_tiles",
    "BaikalDB.ClientMap.C48_placed",
    "BaikalDB.ClientMap.C48_run",
    "BaikalDB.ClientMap.C48_follows",
    "BaikalDB.ClientMap.C48_first_load"
   ],
   "note": "One partition; deletions only in the counterexample.  The two classes of the convergence claims are Reported and Change of Verif/ClientMap/Props.lean."
  },
  {
   "property": "C59",
   "status": "proved",
   "theorems": [
    "BaikalDB.Binlog.C59_capturer",
    "BaikalDB.Binlog.C59_capturer_progress",
    "BaikalDB.Binlog.C59_read_answers",
    "BaikalDB.Binlog.C59_restart_counterexample",
    "BaikalDB.Binlog.C59_snapshot_counterexample",
    "BaikalDB.Binlog.C59_reset_counterexample",
    "BaikalDB.Binlog.C59_unopened_counterexample",
    "BaikalDB.Binlog.C59_twice_counterexample",
    "BaikalDB.Binlog.C59_read",
    "BaikalDB.Binlog.C59_read_nonempty",
    "BaikalDB.Binlog.C59_consumer",
    "BaikalDB.Binlog.C59_progress",
    "BaikalDB.Binlog.C59_restart_progress",
    "BaikalDB.Binlog.C59_load_refuses"
   ],
   "note": "Without TTL of records, offline binlogs, flash-back reading and the cache of answers (off by default)."
  },
  {
   "property": "C47",
   "status": "proved",
   "theorems": [
    "BaikalDB.DateFn.C47_date_format",
    "BaikalDB.DateFn.C47_date_format_counterexample",
    "BaikalDB.DateFn.C47_day_of_week",
    "BaikalDB.DateFn.C47_day_of_year",
    "BaikalDB.DateFn.C47_unknown",
    "BaikalDB.DateFn.C47_week_own",
    "BaikalDB.DateFn.C47_week_default",
    "BaikalDB.DateFn.C47_week_year",
    "BaikalDB.DateFn.C47_week_unique",
    "BaikalDB.DateFn.C47_week_four",
    "BaikalDB.DateFn.C47_week53_counterexample",
    "BaikalDB.DateFn.C47_next_year_counterexample",
    "BaikalDB.DateFn.C47_to_days",
    "BaikalDB.DateFn.C47_datediff",
    "BaikalDB.DateFn.C47_datediff_counterexample",
    "BaikalDB.DateFn.C47_timestampdiff",
    "BaikalDB.DateFn.C47_timestampdiff_counterexample",
    "BaikalDB.DateFn.C47_timediff",
    "BaikalDB.DateFn.C47_timestampadd",
    "BaikalDB.DateFn.C47_extract",
    "BaikalDB.DateFn.C47_time_parts",
    "BaikalDB.DateFn.C47_negative_time_counterexample",
    "BaikalDB.DateFn.C47_seconds",
    "BaikalDB.DateFn.C47_time_to_sec",
    "BaikalDB.DateFn.C47_quarter",
    "BaikalDB.DateFn.C47_period_add",
    "BaikalDB.DateFn.C47_period_diff_counterexample"
   ],
   "note": "Arguments after their conversion to DATETIME or TIME (C30, C31).  Boost's day numbers and the C library's strftime are taken by what they are documented to do; WEEKOFYEAR is Boost's own and is left out."
  },
  {
   "property": "C46",
   "status": "proved",
   "theorems": [
    "BaikalDB.StrFn.C46_split_exists",
    "BaikalDB.StrFn.C46_replace",
    "BaikalDB.StrFn.C46_split_part",
    "BaikalDB.StrFn.C46_substring_index",
    "BaikalDB.StrFn.C46_substring_index_byte",
    "BaikalDB.StrFn.C46_substring_index_counterexample",
    "BaikalDB.StrFn.C46_locate",
    "BaikalDB.StrFn.C46_instr",
    "BaikalDB.StrFn.C46_find_in_set",
    "BaikalDB.StrFn.C46_find_in_set_counterexample",
    "BaikalDB.StrFn.C46_field",
    "BaikalDB.StrFn.C46_elt_null",
    "BaikalDB.StrFn.C46_substr",
    "BaikalDB.StrFn.C46_left_right",
    "BaikalDB.StrFn.C46_left_number_counterexample",
    "BaikalDB.StrFn.C46_bytes_counterexample",
    "BaikalDB.StrFn.C46_trim",
    "BaikalDB.StrFn.C46_trim_null_counterexample",
    "BaikalDB.StrFn.C46_insert",
    "BaikalDB.StrFn.C46_insert_end",
    "BaikalDB.StrFn.C46_insert_counterexample",
    "BaikalDB.StrFn.C46_concat",
    "BaikalDB.StrFn.C46_concat_ws",
    "BaikalDB.StrFn.C46_repeat",
    "BaikalDB.StrFn.C46_space",
    "BaikalDB.StrFn.C46_repeat_counterexample",
    "BaikalDB.StrFn.C46_reverse",
    "BaikalDB.StrFn.C46_pad",
    "BaikalDB.StrFn.C46_pad_null_counterexample",
    "BaikalDB.StrFn.C46_case",
    "BaikalDB.StrFn.C46_lower_gbk",
    "BaikalDB.StrFn.C46_lower_gbk_counterexample",
    "BaikalDB.StrFn.C46_char_length",
    "BaikalDB.StrFn.C46_char_length_counterexample",
    "BaikalDB.StrFn.C46_length",
    "BaikalDB.StrFn.C46_bit_count",
    "BaikalDB.StrFn.C46_export_set",
    "BaikalDB.StrFn.C46_make_set",
    "BaikalDB.StrFn.C46_bin",
    "BaikalDB.StrFn.C46_unhex_hex",
    "BaikalDB.StrFn.C46_hex_unhex",
    "BaikalDB.StrFn.C46_unhex_null",
    "BaikalDB.StrFn.C46_char",
    "BaikalDB.StrFn.C46_char_counterexample",
    "BaikalDB.StrFn.C46_quote",
    "BaikalDB.StrFn.C46_format",
    "BaikalDB.StrFn.C46_format_counterexample"
   ],
   "note": "Arguments after their cast to text or to integers (C42); OCT, SOUNDEX, the digests and the regular expressions are left out, FORMAT starts from the number's text in fixed notation."
  },
  {
   "property": "C61",
   "status": "proved",
   "theorems": [
    "BaikalDB.Global.C61_ignore_counterexample",
    "BaikalDB.Global.C61_on_dup_crash_counterexample",
    "BaikalDB.Global.C61_on_dup_lost_counterexample",
    "BaikalDB.Global.C61_on_dup_insert",
    "BaikalDB.Global.C61_on_dup_update",
    "BaikalDB.Global.C61_agree",
    "BaikalDB.Global.C61_unique",
    "BaikalDB.Global.C61_on_dup_many",
    "BaikalDB.Global.C61_insert",
    "BaikalDB.Global.C61_insert_fails",
    "BaikalDB.Global.C61_ignore",
    "BaikalDB.Global.C61_ignore_subset",
    "BaikalDB.Global.C61_ignore_same",
    "BaikalDB.Global.C61_replace",
    "BaikalDB.Global.C61_delete",
    "BaikalDB.Global.C61_update",
    "BaikalDB.Global.C61_update_ok"
   ],
   "note": "One transaction alone, PUBLIC global indexes only (local indexes: C57), no TTL; the numbers of affected rows of REPLACE and ON DUPLICATE KEY UPDATE are left out.  ON DUPLICATE KEY UPDATE of several records: agreement of the indexes is proved for all tables, the rows for tables without UNIQUE global indexes (with them several records can lose one, counterexamples)."
  },
  {
   "property": "C60",
   "status": "proved",
   "theorems": [
    "BaikalDB.Ops.C60_compare",
    "BaikalDB.Ops.C60_negative_counterexample",
    "BaikalDB.Ops.C60_fraction_counterexample",
    "BaikalDB.Ops.C60_fraction_arithmetic_counterexample",
    "BaikalDB.Ops.C60_undefined_counterexample",
    "BaikalDB.Ops.C60_wrap_counterexample",
    "BaikalDB.Ops.C60_literal_counterexample",
    "BaikalDB.Ops.C60_null_rows_counterexample",
    "BaikalDB.Ops.C60_arithmetic",
    "BaikalDB.Ops.C60_unsigned_wraps",
    "BaikalDB.Ops.C60_null",
    "BaikalDB.Ops.C60_division",
    "BaikalDB.Ops.C60_text",
    "BaikalDB.Ops.C60_dates",
    "BaikalDB.Ops.C60_column_number",
    "BaikalDB.Ops.C60_literal",
    "BaikalDB.Ops.C60_rows"
   ],
   "note": "Floating-point arithmetic is abstract; conversions to date types and of dates to text, and the arrow evaluation, are left out."
  },
  {
   "property": "C62",
   "status": "proved",
   "theorems": [
    "BaikalDB.Window.C62_merge_counterexample",
    "BaikalDB.Window.C62_rows_bound_counterexample",
    "BaikalDB.Window.C62_following_counterexample",
    "BaikalDB.Window.C62_nth_value_counterexample",
    "BaikalDB.Window.C62_lead_counterexample",
    "BaikalDB.Window.C62_empty_batch_counterexample",
    "BaikalDB.Window.C62_nul_counterexample",
    "BaikalDB.Window.C62_nine_counterexample",
    "BaikalDB.Window.C62_windows",
    "BaikalDB.Window.C62_places",
    "BaikalDB.Window.C62_planned",
    "BaikalDB.Window.C62_plan_total"
   ],
   "note": "Arithmetic on doubles is abstract (two laws of division are assumed for CUME_DIST and PERCENT_RANK); the limit of windows made by subquery rewriting and the cutting of the output into batches are left out."
  },
  {
   "property": "C63",
   "status": "proved",
   "theorems": [
    "BaikalDB.Subq.C63_ne_any_counterexample",
    "BaikalDB.Subq.C63_eq_all_null_counterexample",
    "BaikalDB.Subq.C63_gt_all_null_counterexample",
    "BaikalDB.Subq.C63_lt_all_empty_counterexample",
    "BaikalDB.Subq.C63_select_min_counterexample",
    "BaikalDB.Subq.C63_exists",
    "BaikalDB.Subq.C63_scalar",
    "BaikalDB.Subq.C63_in",
    "BaikalDB.Subq.C63_in_value",
    "BaikalDB.Subq.C63_not_in",
    "BaikalDB.Subq.C63_not_in_empty_counterexample",
    "BaikalDB.Subq.C63_eq_any_ne_all",
    "BaikalDB.Subq.C63_eq_all",
    "BaikalDB.Subq.C63_ne_any_partial",
    "BaikalDB.Subq.C63_cmp_any",
    "BaikalDB.Subq.C63_cmp_all",
    "BaikalDB.Subq.C63_select_max",
    "BaikalDB.Subq.C63_select_min_partial"
   ],
   "note": "One column on the left of the operator and values that fit its type (integers within int64 and the column, otherwise the same type); row-by-row execution.  `<> ANY` and `SELECT MIN` are right only without different values / without NULLs (counterexamples), hence the two theorems named _partial.  Subqueries that refer to the outer query: C51 and C38."
  },
  {
   "property": "C51",
   "status": "proved",
   "theorems": [
    "BaikalDB.Corr.C51_slot_clash_counterexample",
    "BaikalDB.Corr.C51_two_tables_counterexample",
    "BaikalDB.Corr.C51_count_counterexample",
    "BaikalDB.Corr.C51_exists_counterexample",
    "BaikalDB.Corr.C51_inequality_counterexample",
    "BaikalDB.Corr.C51_limit_counterexample",
    "BaikalDB.Corr.C51_group_limit_counterexample",
    "BaikalDB.Corr.C51_two_rows_counterexample",
    "BaikalDB.Corr.C51_one_row_counterexample",
    "BaikalDB.Corr.C51_group_rows_counterexample",
    "BaikalDB.Corr.C51_without_aggregate",
    "BaikalDB.Corr.C51_aggregate",
    "BaikalDB.Corr.C51_aggregate_kept",
    "BaikalDB.Corr.C51_once",
    "BaikalDB.Corr.C51_regions"
   ],
   "note": "Conditions are functions of the outer row and a row of the subquery, with the attributes the code reads off them (mentions the outer query, bare columns in an equality, equality of two columns); tables and joins below the WHERE are a list of rows; ON conditions, derived tables, windows and check_unique_key are not modelled.  How pairs are matched at execution: C38."
  },
  {
   "property": "C56",
   "status": "proved",
   "theorems": [
    "BaikalDB.Derived.C56_agg_one",
    "BaikalDB.Derived.C56_agg_scalar",
    "BaikalDB.Derived.C56_agg_union",
    "BaikalDB.Derived.C56_bare_column_counterexample",
    "BaikalDB.Derived.C56_bare_column_window_counterexample",
    "BaikalDB.Derived.C56_constant_column_counterexample",
    "BaikalDB.Derived.C56_agg_constant_condition_counterexample",
    "BaikalDB.Derived.C56_table",
    "BaikalDB.Derived.C56_pushdown",
    "BaikalDB.Derived.C56_union"
   ],
   "note": "Functions in expressions, aggregate functions and windows are arbitrary functions of values and rows; the tables and joins of a subquery are a list of rows; the state of an aggregate function is the values it has seen (C37 for that).  Grouping and partition keys are taken to be injective (C03, C62 for when they are).  Not modelled: ORDER BY inside a derived table, the cast of a projected value to its column type, UNION of branches with different types (not cast by the code), and the renumbering of columns when unused ones are pruned."
  },
  {
   "property": "C64",
   "status": "proved",
   "theorems": [
    "BaikalDB.Fetch.C64_stale_merge_counterexample",
    "BaikalDB.Fetch.C64_merge_during_counterexample",
    "BaikalDB.Fetch.C64_merge_twice_counterexample",
    "BaikalDB.Fetch.C64_reload_counterexample",
    "BaikalDB.Fetch.C64_exactly_once",
    "BaikalDB.Fetch.C64_absent",
    "BaikalDB.Fetch.C64_at_most_once",
    "BaikalDB.Fetch.C64_finishes",
    "BaikalDB.Fetch.C64_merged"
   ],
   "note": "The rows of a region are their keys; a request is answered by the region as it is at one moment.  Not modelled: leaders and network errors, transactions, regions that have been removed from the store (a merged region that does not exist any more counts as answered), the row order of the result (C22), the exchange of MPP plans.  That the new region of a split can be read before the old one has its new version is left out."
  },
  {
   "property": "C65",
   "status": "proved",
   "theorems": [
    "BaikalDB.Reverse.C65_search",
    "BaikalDB.Reverse.C65_background",
    "BaikalDB.Reverse.C65_split",
    "BaikalDB.Reverse.C65_seek",
    "BaikalDB.Reverse.C65_first_node_counterexample",
    "BaikalDB.Reverse.C65_clock_counterexample",
    "BaikalDB.Reverse.C65_empty_operand_counterexample"
   ],
   "note": "How a text is cut into terms is a parameter (a function of the text).  Not modelled: weights, the caches of levels 2 and 3, the is_fast mode, WeightedBooleanExecutor, terms with NUL bytes, RocksDB errors, regions that grow by a merge; the order of level 1 is that of primary key and time (C01-C03 for the encoding of keys)."
  },
  {
   "property": "C66",
   "status": "proved",
   "theorems": [
    "BaikalDB.Segment.C66_terms",
    "BaikalDB.Segment.C66_cut",
    "BaikalDB.Segment.C66_pieces",
    "BaikalDB.Segment.C66_exact_pattern",
    "BaikalDB.Segment.C66_like",
    "BaikalDB.Segment.C66_none_lost",
    "BaikalDB.Segment.C66_exact_like",
    "BaikalDB.Segment.C66_like_short",
    "BaikalDB.Segment.C66_like_counterexample",
    "BaikalDB.Segment.C66_equal_counterexample",
    "BaikalDB.Segment.C66_short_counterexample",
    "BaikalDB.Segment.C66_blank_counterexample",
    "BaikalDB.Segment.C66_wildcard_counterexample",
    "BaikalDB.Segment.C66_empty_counterexample",
    "BaikalDB.Segment.C66_gbk_counterexample",
    "BaikalDB.Segment.C66_empty_string_counterexample"
   ],
   "note": "The set of punctuation (a file not in the repository) is a parameter.  Not modelled: ES_STANDARD and the tokenizers that call a service, weights, EXACT LIKE by RE2 (off by default), patterns that are not constant, several full-text conditions in one query (C65 for AND and OR)."
  },
  {
   "property": "C67",
   "status": "proved",
   "theorems": [
    "BaikalDB.Recover.C67_state_is_a_prefix",
    "BaikalDB.Recover.C67_restart_keeps_rows",
    "BaikalDB.Recover.C67_rows_after_the_log",
    "BaikalDB.Recover.C67_row_count_when_quiet",
    "BaikalDB.Recover.C67_first_crash",
    "BaikalDB.Recover.C67_stale_mark_counterexample",
    "BaikalDB.Recover.C67_crash_in_restart_counterexample",
    "BaikalDB.Recover.C67_one_phase_counterexample",
    "BaikalDB.Recover.C67_row_count_counterexample",
    "BaikalDB.Recover.C67_shipped_row_count_counterexample"
   ],
   "note": "The path of followers and replays, for tables whose statements are shipped as key-value batches.  Not modelled: splits, snapshots loaded from another peer, truncation of the log below an open transaction, statements shipped as plans, RocksDB errors.  The leader differs in where a statement is executed first."
  },
  {
   "property": "C68",
   "status": "proved",
   "theorems": [
    "BaikalDB.Handover.C68_sends_every_entry",
    "BaikalDB.Handover.C68_rows",
    "BaikalDB.Handover.C68_open_transactions",
    "BaikalDB.Handover.C68_unique_entries_kept",
    "BaikalDB.Handover.C68_unique_entries_untouched",
    "BaikalDB.Handover.C68_ranges",
    "BaikalDB.Handover.C68_as_without_split",
    "BaikalDB.Handover.C68_unique_delete_counterexample",
    "BaikalDB.Handover.C68_columns_counterexample",
    "BaikalDB.Handover.C68_open_row_counts_counterexample",
    "BaikalDB.Handover.C68_commands_are_reported"
   ],
   "note": "Tables whose statements are shipped as key-value batches (put and delete).  Not modelled: fulltext, vector and global indexes, merge operations, partial rollback, TTL, splits at the tail of a table and into several regions, requests sent again after the leader of the new region changed."
  },
  {
   "property": "C69",
   "status": "proved",
   "theorems": [
    "BaikalDB.Transfer.C69_rows_in_order",
    "BaikalDB.Transfer.C69_all_rows",
    "BaikalDB.Transfer.C69_all_meta_keys",
    "BaikalDB.Transfer.C69_lost_answer",
    "BaikalDB.Transfer.C69_ends",
    "BaikalDB.Transfer.C69_rows_not_sent",
    "BaikalDB.Transfer.C69_larger_retry_counterexample",
    "BaikalDB.Transfer.C69_lost_transaction_counterexample"
   ],
   "note": "braft is not in the repository: that the receiver asks from where it is and takes a short answer, or one that ends at size(), for the last one is an assumption, stated in the model.  Not modelled: shutdown, errors of RocksDB, the limit of one reader at a time."
  },
  {
   "property": "C70",
   "status": "proved",
   "theorems": [
    "BaikalDB.Install.C70_state_is_a_prefix",
    "BaikalDB.Install.C70_rows_after_the_log",
    "BaikalDB.Install.C70_rows_of_the_leader",
    "BaikalDB.Install.C70_rows_need_not_be_sent",
    "BaikalDB.Install.C70_peer_behind_counterexample",
    "BaikalDB.Install.C70_peer_restarted_counterexample",
    "BaikalDB.Install.C70_interrupted_commit_counterexample",
    "BaikalDB.Install.C70_truncated_log_counterexample"
   ],
   "note": "The path of followers, as in C67.  Not modelled: a crash while the snapshot is being loaded, learners, cold and column files, vector indexes, the leader changing while it sends; the leader decides by the peer that asks (the code takes the first one that is installing a snapshot)."
  },
  {
   "property": "C71",
   "status": "proved",
   "theorems": [
    "BaikalDB.Absorb.C71_late_writer_counterexample",
    "BaikalDB.Absorb.C71_open_transaction_counterexample",
    "BaikalDB.Absorb.C71_failed_source_counterexample",
    "BaikalDB.Absorb.C71_lost_answer_counterexample",
    "BaikalDB.Absorb.C71_stale_read_counterexample",
    "BaikalDB.Absorb.C71_rows",
    "BaikalDB.Absorb.C71_transactions",
    "BaikalDB.Absorb.C71_every_key",
    "BaikalDB.Absorb.C71_one_writer",
    "BaikalDB.Absorb.C71_closed",
    "BaikalDB.Absorb.C71_only_empty",
    "BaikalDB.Absorb.C71_not_merged",
    "BaikalDB.Absorb.C71_completes"
   ],
   "note": "The leaders of the two regions; PREPARE and COMMIT are one step, statements of transactions are applied when they are given to raft.  Not modelled: a split of one of the regions during the merge, entries of a lost leader that a later one commits, locks, followers, restarts, the meta server taking over the new ranges (C10) and SQL nodes (C48)."
  },
  {
   "property": "C72",
   "status": "proved",
   "theorems": [
    "BaikalDB.Alter.C72_lost_default_counterexample",
    "BaikalDB.Alter.C72_columnar_default_counterexample",
    "BaikalDB.Alter.C72_same_name_counterexample",
    "BaikalDB.Alter.C72_case_counterexample",
    "BaikalDB.Alter.C72_dropped_index_column_counterexample",
    "BaikalDB.Alter.C72_dropped_partition_column_counterexample",
    "BaikalDB.Alter.C72_dropped_ttl_column_counterexample",
    "BaikalDB.Alter.C72_rows",
    "BaikalDB.Alter.C72_by_name",
    "BaikalDB.Alter.C72_numbers",
    "BaikalDB.Alter.C72_accepted",
    "BaikalDB.Alter.C72_in_use",
    "BaikalDB.Alter.C72_changed_default"
   ],
   "note": "The columns of one table at its current schema.  Not modelled: types and their changes (C42), NOT NULL, adding and dropping indexes (C36), a node that still works with an earlier version of the schema, requests for several columns other than ADD (the SQL planner sends none).  NULL written into a column whose default is not NULL reads as the default (C41) and is excluded."
  },
  {
   "property": "C73",
   "status": "proved",
   "theorems": [
    "BaikalDB.Hll.C73_registers",
    "BaikalDB.Hll.C73_estimate",
    "BaikalDB.Hll.C73_same",
    "BaikalDB.Hll.C73_total",
    "BaikalDB.Hll.C73_codec",
    "BaikalDB.Hll.C73_size",
    "BaikalDB.Hll.C73_values",
    "BaikalDB.Hll.C73_merged",
    "BaikalDB.Hll.C73_estimate_fn",
    "BaikalDB.Hll.C73_regions",
    "BaikalDB.Hll.C73_merge_raw_counterexample",
    "BaikalDB.Hll.C73_merge_agg_counterexample"
   ],
   "note": "The formula from the histogram to the number (floating point) is a parameter, of which only the value for an empty sketch is assumed to be zero, as in the code.  The hash of a value is an input (C28).  Not modelled: byte strings that no function has made (HLL columns accept any string with the right magic), failures of allocation."
  },
  {
   "property": "C74",
   "status": "proved",
   "theorems": [
    "BaikalDB.Part.C74_modify",
    "BaikalDB.Part.C74_modify_primary",
    "BaikalDB.Part.C74_modify_cold",
    "BaikalDB.Part.C74_modify_accepted",
    "BaikalDB.Part.C74_all",
    "BaikalDB.Part.C74_named",
    "BaikalDB.Part.C74_insert_named",
    "BaikalDB.Part.C74_truncate",
    "BaikalDB.Part.C74_named_case_counterexample",
    "BaikalDB.Part.C74_write",
    "BaikalDB.Part.C74_one",
    "BaikalDB.Part.C74_write_switch",
    "BaikalDB.Part.C74_prune",
    "BaikalDB.Part.C74_prune_switch",
    "BaikalDB.Part.C74_readback",
    "BaikalDB.Part.C74_own",
    "BaikalDB.Part.C74_create",
    "BaikalDB.Part.C74_create_cover",
    "BaikalDB.Part.C74_create_all",
    "BaikalDB.Part.C74_add",
    "BaikalDB.Part.C74_drop",
    "BaikalDB.Part.C74_add_accepted",
    "BaikalDB.Part.C74_drop_accepted",
    "BaikalDB.Part.C74_ok",
    "BaikalDB.Part.C74_fresh",
    "BaikalDB.Part.C74_hash_range",
    "BaikalDB.Part.C74_hash_number",
    "BaikalDB.Part.C74_hash_prune",
    "BaikalDB.Part.C74_row_lt_counterexample",
    "BaikalDB.Part.C74_like_counterexample",
    "BaikalDB.Part.C74_expr_additional_counterexample",
    "BaikalDB.Part.C74_expr_types_counterexample",
    "BaikalDB.Part.C74_hash_negative_counterexample",
    "BaikalDB.Part.C74_hash_like_counterexample",
    "BaikalDB.Part.C74_add_less_counterexample"
   ],
   "note": "Integers, DATE and DATETIME as numbers of one type; constants are already cast to the type of the column and are not NULL.  The hash of a value, the partition expression and the map to lower case are parameters.  Not modelled: regions within a partition, resource tags and pre-split keys, dynamic partitions as a background job (its requests are), unstable std::sort."
  },
  {
   "property": "C75",
   "status": "proved",
   "theorems": [
    "BaikalDB.Cond.C75_choice",
    "BaikalDB.Cond.C75_case_when",
    "BaikalDB.Cond.C75_if",
    "BaikalDB.Cond.C75_ifnull",
    "BaikalDB.Cond.C75_case_expr",
    "BaikalDB.Cond.C75_nullif",
    "BaikalDB.Cond.C75_nullif_null",
    "BaikalDB.Cond.C75_same_as_case",
    "BaikalDB.Cond.C75_arity",
    "BaikalDB.Cond.C75_null_counterexample",
    "BaikalDB.Cond.C75_in_place_counterexample",
    "BaikalDB.Cond.C75_unsigned_counterexample",
    "BaikalDB.Cond.C75_bigint_unsigned_counterexample",
    "BaikalDB.Cond.C75_text_condition_counterexample"
   ],
   "note": "Doubles and the conversions between doubles, numbers and texts are parameters.  Not modelled: FLOAT, dates and times, HEX, JSON, the Arrow execution."
  },
  {
   "property": "C76",
   "status": "proved",
   "theorems": [
    "BaikalDB.Cond.C76_export_set",
    "BaikalDB.Cond.C76_null",
    "BaikalDB.Cond.C76_elt",
    "BaikalDB.Cond.C76_field",
    "BaikalDB.Cond.C76_elt_field",
    "BaikalDB.Cond.C76_find_in_set",
    "BaikalDB.Cond.C76_find_in_set_text",
    "BaikalDB.Cond.C76_make_set",
    "BaikalDB.Cond.C76_greatest",
    "BaikalDB.Cond.C76_least",
    "BaikalDB.Cond.C76_arity",
    "BaikalDB.Cond.C76_unused_null_counterexample",
    "BaikalDB.Cond.C76_greatest_counterexample",
    "BaikalDB.Cond.C76_empty_set_counterexample"
   ],
   "note": "Doubles, their order and the conversions between doubles, numbers and texts are parameters.  FIELD compares texts also for numbers, as the code does.  Not modelled: character sets."
  }
 ]
}
