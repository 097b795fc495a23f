# Formal model of BaikalDB in Lean 4

## What is trusted

- Lean 4.33.0's kernel, and the three standard axioms `propext`, `Classical.choice`, `Quot.sound`.
  No axiom is added; no `sorry`, `admit`, `native_decide`, `bv_decide`, `unsafe` or `implemented_by` is used.
  The axioms each property theorem depends on are listed in the section "Axioms".
- The reading of the C++ source: each model definition cites the file and lines it transcribes.  The
  transcription was made by hand from `/repo`; nothing checks it mechanically against a compiler.
- The environment assumptions listed under "Not modelled".

## How the model is organised

`lean/Verif/<Area>/Model.lean` transcribes the code function by function,
`Spec.lean` (or the top of `Props.lean`) states the requirement without using the model's helpers,
`Lemmas.lean` holds proofs in between and `Props.lean` holds the property theorems and, beside each, an
`example` with a concrete state that meets the hypotheses.

Conventions:

- Machine integers are `BitVec`/`UInt` where wrap-around or bit operations matter, `Int`/`Nat` with range
  hypotheses where the code stays in range; each definition says which.
- Loops become structural or well-founded recursion; error codes become `Option`/`Except`/inductive results.
- Undefined behaviour is a separate outcome, or excluded by a stated hypothesis.
- Where the code does not satisfy the property, the negation is proved on a concrete witness
  (`..._counterexample`) and the strongest true version is kept with suffix `_partial`.

## Not modelled

- RocksDB, braft, brpc, protobuf, Arrow and FAISS internals.  RocksDB is taken as an ordered byte-string map
  with atomic write batches; braft as a source of one totally ordered log.
- Memory management, locks inside one process (each modelled step is taken to be atomic where the code holds the
  lock; said at each definition), logging, metrics, configuration flags other than those named.
- SQL parsing, plan optimisation other than the pieces named below.


## Properties: plan and status

### C01 Integer keys sort like integers

- Plan: Model bytes as BitVec 8 lists, encode by xor with the sign mask and big-endian split; prove lexicographic order iff numeric order by induction on byte count.
- Status: proved — All widths; order iff theorem per type and a range-scan corollary.
- Theorems: `BaikalDB.KeyEnc.C01_order_i8`, `BaikalDB.KeyEnc.C01_order_i16`, `BaikalDB.KeyEnc.C01_order_i32`, `BaikalDB.KeyEnc.C01_order_i64`, `BaikalDB.KeyEnc.C01_order_u8`, `BaikalDB.KeyEnc.C01_order_u16`, `BaikalDB.KeyEnc.C01_order_u32`, `BaikalDB.KeyEnc.C01_order_u64`, `BaikalDB.KeyEnc.C01_order_bool`, `BaikalDB.KeyEnc.C01_range_scan_i64`

### C02 Integer keys decode to the value written

- Plan: decode (prefix ++ encode v ++ suffix) at |prefix| = v, BitVec and list lemmas.
- Status: proved — All widths, any surrounding bytes; in-place replacement included.
- Theorems: `BaikalDB.KeyEnc.C02_roundtrip_i8`, `BaikalDB.KeyEnc.C02_roundtrip_i16`, `BaikalDB.KeyEnc.C02_roundtrip_i32`, `BaikalDB.KeyEnc.C02_roundtrip_i64`, `BaikalDB.KeyEnc.C02_roundtrip_u8`, `BaikalDB.KeyEnc.C02_roundtrip_u16`, `BaikalDB.KeyEnc.C02_roundtrip_u32`, `BaikalDB.KeyEnc.C02_roundtrip_u64`, `BaikalDB.KeyEnc.C02_roundtrip_bool`, `BaikalDB.KeyEnc.C02_replace_u8`, `BaikalDB.KeyEnc.C02_replace_i32`, `BaikalDB.KeyEnc.C02_replace_u32`, `BaikalDB.KeyEnc.C02_replace_i64`, `BaikalDB.KeyEnc.C02_replace_u64`

### C03 Float and double keys sort like numbers and decode back

- Plan: Model IEEE comparison on bit patterns (sign/magnitude), prove order and round trip for ordinary values, prove the exact behaviour on NaN and -0.0.
- Status: proved — Order and round trip proved for every bit pattern that is not NaN / -0.0; the behaviour on NaN and -0.0 is a proved deviation of the code (counterexample theorems), and is part of the statement.
- Theorems: `BaikalDB.KeyEnc.C03_order_double`, `BaikalDB.KeyEnc.C03_order_float`, `BaikalDB.KeyEnc.C03_roundtrip_double`, `BaikalDB.KeyEnc.C03_roundtrip_float`, `BaikalDB.KeyEnc.C03_negzero_counterexample`, `BaikalDB.KeyEnc.C03_nan_counterexample_double`, `BaikalDB.KeyEnc.C03_nan_counterexample_float`

### C04 Composite keys sort column by column

- Plan: Induction over the column list using a prefix-free lemma for each column encoding; counterexample theorem for embedded NUL.
- Status: proved — All type lists and tuples with NUL-free strings; counterexamples for strings with 0x00 bytes.
- Theorems: `BaikalDB.KeyEnc.C04_tuple_encodes`, `BaikalDB.KeyEnc.C04_composite_order`, `BaikalDB.KeyEnc.C04_embedded_nul_counterexample`, `BaikalDB.KeyEnc.C04_embedded_nul_collision_counterexample`, `BaikalDB.KeyEnc.C04_composite_injective`, `BaikalDB.KeyEnc.C04_bound_keys_match_row_keys`, `BaikalDB.KeyEnc.C04_like_prefix_bound_iff`

### C05 Index keys decode to the row columns they were built from

- Plan: Model encode_key/decode_key with null-flag byte; induction over fields with bit position invariant.
- Status: proved — Primary, unique and ordinary indexes; the rollup deviation is proved as counterexamples.
- Theorems: `BaikalDB.IndexKey.C05_secondary_roundtrip`, `BaikalDB.IndexKey.C05_primary_roundtrip`, `BaikalDB.IndexKey.C05_project_lookup`, `BaikalDB.IndexKey.C05_needed_columns_roundtrip`, `BaikalDB.IndexKey.C05_needed_columns_primary`, `BaikalDB.IndexKey.C05_entry_pk_roundtrip`, `BaikalDB.IndexKey.C05_missing_pk_refused`, `BaikalDB.IndexKey.C05_too_many_nullable_refused`, `BaikalDB.IndexKey.C05_rollup_counterexample`, `BaikalDB.IndexKey.C05_rollup_collision_counterexample`

### C06 Keys of different regions and indexes never mix

- Plan: Corollary of the order theorem on 16-byte prefixes.
- Status: proved
- Theorems: `BaikalDB.KeyEnc.C06_prefix_order`, `BaikalDB.KeyEnc.C06_contiguous`, `BaikalDB.KeyEnc.C06_disjoint`, `BaikalDB.KeyEnc.C06_ids_readable`, `BaikalDB.KeyEnc.C06_region_range`

### C07 A secondary index entry belongs to the region that owns its row

- Plan: Model the slicing walk and prove it recovers exactly the primary key suffix of an entry produced by put_secondary's key construction.
- Status: proved — Entries are those built by the write path model (put_secondary); primary key columns are NOT NULL as the DDL planner enforces.
- Theorems: `BaikalDB.IndexKey.C07_entry_follows_row`, `BaikalDB.IndexKey.C07_primary_or_global`, `BaikalDB.IndexKey.C07_split_exactly_one`

### C08 Background compaction never deletes live rows

- Plan: Model Filter on top of the C07 model; iff theorem.
- Status: proved — Exact drop condition per index kind; the stale-TTL deviation is a counterexample theorem.
- Theorems: `BaikalDB.SplitFilter.C08_primary_or_global`, `BaikalDB.SplitFilter.C08_column`, `BaikalDB.SplitFilter.C08_secondary`, `BaikalDB.SplitFilter.C08_keeps_everything_else`, `BaikalDB.SplitFilter.C08_keeps_short_keys`, `BaikalDB.SplitFilter.C08_set_region`, `BaikalDB.SplitFilter.C08_stale_ttl_counterexample`

### C09 A split hands over each key to exactly one region

- Plan: Ranges as half-open intervals over byte strings with empty = infinity; induction over splits.
- Status: proved — Ranges, versions and readiness to take writes; raft inside a region and the copying of rows are not part of this model.
- Theorems: `BaikalDB.KeyEnc.C09_end_key_order`, `BaikalDB.Region.C09_fits`, `BaikalDB.Region.C09_one_writer`, `BaikalDB.Region.C09_no_gap`, `BaikalDB.Region.C09_partition`, `BaikalDB.Region.C09_blocked_only_when_busy`, `BaikalDB.Region.C09_split_exact`, `BaikalDB.Region.C09_version_fixes_range`, `BaikalDB.Region.C09_stale_request`, `BaikalDB.Region.C09_current_request`, `BaikalDB.Region.C09_multi_bounds_ascend`, `BaikalDB.Region.C09_multi_bounds_wrap_counterexample`, `BaikalDB.Region.C09_split_interrupted_counterexample`, `BaikalDB.Region.C09_merge_interrupted_counterexample`

### C10 Meta server's region map always tiles the key space

- Plan: State machine with chain-of-intervals invariant.
- Status: proved — One partition.  Split-only histories are closed under every interleaving (C10_tiling, with C10_reports_honest linking the reports to the store model); with merges the per-request theorem needs the conditions of MergeOk, and the two counterexamples show that the code does not ensure them.
- Theorems: `BaikalDB.Region.C10_tiling`, `BaikalDB.Region.C10_no_blind_insert`, `BaikalDB.Region.C10_merge_tiling`, `BaikalDB.Region.C10_good_of_tiles`, `BaikalDB.Region.C10_versions_grow`, `BaikalDB.Region.C10_stale_refused`, `BaikalDB.Region.C10_split_completes`, `BaikalDB.Region.C10_merge_completes`, `BaikalDB.Region.C10_report_ignored`, `BaikalDB.Region.C10_recycle_keeps`, `BaikalDB.Region.C10_recycle_drops`, `BaikalDB.Region.C10_reports_honest`, `BaikalDB.Region.C10_stale_new_region_counterexample`, `BaikalDB.Region.C10_merged_region_counterexample`, `BaikalDB.Region.C10_waiting_region`, `BaikalDB.Region.C10_presplit_empty`

### C11 Query routing covers exactly the matching regions

- Plan: Model the upper_bound walk over the ordered map; prove soundness and completeness.
- Status: proved — The map is any sorted map; C11_owner_covers ties "holds the key" to the region ranges of the meta server's map (C10).
- Theorems: `BaikalDB.Route.C11_complete`, `BaikalDB.Route.C11_sound`, `BaikalDB.Route.C11_sound_open`, `BaikalDB.Route.C11_order`, `BaikalDB.Route.C11_full_export`, `BaikalDB.Route.C11_eq_bounds`, `BaikalDB.Route.C11_range_bounds`, `BaikalDB.Route.C11_ranges`, `BaikalDB.Route.C11_ranges_sound`, `BaikalDB.Route.C11_binlog`, `BaikalDB.Route.C11_recovery`, `BaikalDB.Route.C11_record`, `BaikalDB.Route.C11_owner_covers`

### C12 Timestamps from the oracle are unique and increasing

- Plan: Transition system; invariant that every issued range lies below the in-memory (physical, logical) pair.
- Status: proved — Transition system with any number of nodes; exclusions are stated in the property and each has a counterexample theorem.
- Theorems: `BaikalDB.Tso.C12_increasing_under_one_leader`, `BaikalDB.Tso.C12_grants_well_formed`, `BaikalDB.Tso.C12_reset_same_ms_counterexample`, `BaikalDB.Tso.C12_reset_race_counterexample`, `BaikalDB.Tso.C12_negative_count_counterexample`, `BaikalDB.Tso.C12_timer_makes_room`

### C13 A new timestamp leader never reuses timestamps

- Plan: Replicated state = last_save_physical; invariant issued physical < last_save.
- Status: proved — Same system; leader completeness of raft (a new leader has all committed entries) is an assumption built into the model's elect step.
- Theorems: `BaikalDB.Tso.C13_new_leader_above`, `BaikalDB.Tso.C13_never_twice`, `BaikalDB.Tso.C13_retry_after_step_down_counterexample`, `BaikalDB.Tso.C13_late_flag_counterexample`, `BaikalDB.Tso.C13_reset_save_counterexample`, `BaikalDB.Tso.C13_stays_unhealthy_counterexample`

### C14 Batched timestamp requests get disjoint sub-ranges

- Plan: Fold over requests; pairwise disjointness by induction.
- Status: proved — Deviations of the degraded mode are counterexample theorems.
- Theorems: `BaikalDB.Tso.C14_counts`, `BaikalDB.Tso.C14_disjoint`, `BaikalDB.Tso.C14_cover`, `BaikalDB.Tso.C14_error_reported`, `BaikalDB.Tso.C14_store_within_grants`, `BaikalDB.Tso.C14_store_increasing`, `BaikalDB.Tso.C14_degraded_increasing`, `BaikalDB.Tso.C14_degraded_two_processes_counterexample`, `BaikalDB.Tso.C14_degraded_clock_back_counterexample`, `BaikalDB.Tso.C14_degraded_overflow_counterexample`

### C15 Auto-increment ids are never handed out twice

- Plan: State machine over a map; invariant issued ranges below next id.
- Status: proved — Deviations (forced update, 64-bit wrap, noskip) are counterexample theorems.
- Theorems: `BaikalDB.AutoIncr.C15_tables_independent`, `BaikalDB.AutoIncr.C15_grant`, `BaikalDB.AutoIncr.C15_grants_increase`, `BaikalDB.AutoIncr.C15_update_respected`, `BaikalDB.AutoIncr.C15_unknown_table`, `BaikalDB.AutoIncr.C15_readd_keeps_counter`, `BaikalDB.AutoIncr.C15_snapshot`, `BaikalDB.AutoIncr.C15_restore_then_same`, `BaikalDB.AutoIncr.C15_forced_update_counterexample`, `BaikalDB.AutoIncr.C15_wrap_counterexample`, `BaikalDB.AutoIncr.C15_insert`, `BaikalDB.AutoIncr.C15_inserts`, `BaikalDB.AutoIncr.C15_noskip_counterexample`

### C16 LRU caches return the latest value and evict the oldest

- Plan: Refinement to an abstract recency list.
- Status: proved — Any capacity, any operation sequence.
- Theorems: `BaikalDB.Lru.C16_size`, `BaikalDB.Lru.C16_find_latest`, `BaikalDB.Lru.C16_check`, `BaikalDB.Lru.C16_find_keeps`, `BaikalDB.Lru.C16_recent_kept`, `BaikalDB.Lru.C16_old_evicted`, `BaikalDB.Lru.C16_del`

### C17 Raft log terms are reported correctly

- Plan: Refinement to a list of (index, term) pairs.
- Status: proved
- Theorems: `BaikalDB.RaftLog.C17_terms`, `BaikalDB.RaftLog.C17_refuses`

### C18 Raft log storage behaves like a contiguous log

- Plan: State machine with a key-value store; refinement to (first, list of entries).
- Status: proved — All executions including crashes and compactions; binlog regions (key-value separation) not modelled.
- Theorems: `BaikalDB.RaftLog.C18_key_order`, `BaikalDB.RaftLog.C18_key_decodes`, `BaikalDB.RaftLog.C18_key_prefix`, `BaikalDB.RaftLog.C18_storage_is_log`, `BaikalDB.RaftLog.C18_append_accepted`, `BaikalDB.RaftLog.C18_gap_refused`, `BaikalDB.RaftLog.C18_reset_back_counterexample`

### C19 Raft log survives a crash at any point

- Plan: Persistent state separated from memory state; init on the persistent state after each atomic write.
- Status: proved — Atomic RocksDB writes assumed; the two excluded cases are counterexample theorems.
- Theorems: `BaikalDB.RaftLog.C19_recovery`, `BaikalDB.RaftLog.C19_atomic`, `BaikalDB.RaftLog.C19_term_order_counterexample`, `BaikalDB.RaftLog.C19_lost_delete_counterexample`

### C20 Raft log garbage collection only deletes truncated entries

- Plan: Decision function; iff theorem on decoded keys.
- Status: proved — Exact drop condition on byte keys; compaction is a step of the executions of C18/C19.
- Theorems: `BaikalDB.RaftLog.C20_filter_exact`, `BaikalDB.RaftLog.C20_compaction_safe`

### C21 Rollup merges do not depend on compaction timing

- Plan: Fold model; prove grouping independence where it holds, counterexample elsewhere.
- Status: proved — Any number of records, any nesting of partial merges; the excluded cases are counterexample theorems.
- Theorems: `BaikalDB.Merge.C21_grouping`, `BaikalDB.Merge.C21_grouping_default`, `BaikalDB.Merge.C21_sum`, `BaikalDB.Merge.C21_replay`, `BaikalDB.Merge.C21_rollup`, `BaikalDB.Merge.C21_null_version_counterexample`, `BaikalDB.Merge.C21_other_columns_counterexample`

### C22 ORDER BY returns a sorted permutation

- Plan: Heap-merge model, permutation and sortedness by induction.
- Status: proved — Any number of rows, batches, columns; std::sort is represented by its contract (a sorted permutation for a strict weak order), the heap code is transcribed.  Columns hold NULL or values of their type, no NaN.
- Theorems: `BaikalDB.Sort.C22_compare_is_order_by`, `BaikalDB.Sort.C22_total_preorder`, `BaikalDB.Sort.C22_order_by`, `BaikalDB.Sort.C22_no_columns`, `BaikalDB.Sort.C22_empty_batch_counterexample`

### C23 ORDER BY ... LIMIT k equals sort then take k

- Plan: Heap model with invariants (heap order, multiset = k smallest).
- Status: proved — Bounded heap transcribed; any input, any batch sizes.
- Theorems: `BaikalDB.Sort.C23_topn`, `BaikalDB.Sort.C23_limit_zero_counterexample`

### C24 LIMIT/OFFSET return exactly the requested slice

- Plan: State machine over batches, equals take/drop of the concatenation.
- Status: proved — Empty batches included for the limit node; any number of regions.  Push-down of the limit through other plan nodes is not modelled.
- Theorems: `BaikalDB.Sort.C24_limit`, `BaikalDB.Sort.C24_distributed`

### C25 WHERE logic is SQL three-valued logic

- Plan: Structural recursion, compare with Kleene min/max semantics.
- Status: proved — Operand pairs are column/literal, column/column, literal/literal within the integers or within one of STRING, DOUBLE, DATETIME, TIMESTAMP, DATE, TIME (literals already of that type); function calls, arithmetic and row constructors are not modelled.
- Theorems: `BaikalDB.Pred.C25_three_valued`, `BaikalDB.Pred.C25_filter`, `BaikalDB.Pred.C25_pushed_down`, `BaikalDB.Pred.C25_shipped_not_in_counterexample`, `BaikalDB.Pred.C25_unsigned_counterexample`, `BaikalDB.Pred.C25_mixed_sign_counterexample`, `BaikalDB.Pred.C25_fraction_counterexample`, `BaikalDB.Pred.C25_like_null_counterexample`

### C26 LIKE matches exactly the SQL pattern language

- Plan: Transcribe the two-pointer loop, prove equivalence with a declarative match relation.
- Status: proved — Two-pointer matcher transcribed; any pattern and string.  The RE2/regex variants and LIKE on a NULL operand are not part of this claim.
- Theorems: `BaikalDB.Like.C26_like`, `BaikalDB.Like.C26_like_binary`, `BaikalDB.Like.C26_fallback`, `BaikalDB.Like.C26_index_prefix`, `BaikalDB.Like.C26_index_eq`, `BaikalDB.Like.C26_dangling_escape_counterexample`, `BaikalDB.Like.C26_gbk_prefix_counterexample`, `BaikalDB.Like.C26_range`, `BaikalDB.Like.C26_range_shape`, `BaikalDB.Like.C26_range_escape_counterexample`, `BaikalDB.Like.C26_range_ff_counterexample`, `BaikalDB.Like.C26_char`, `BaikalDB.Like.C26_is_prefix`

### C27 IN lists behave like a chain of ORs

- Plan: Set-membership model against OR-of-equalities spec.
- Status: proved — Single-column IN with literal list; row IN not modelled.
- Theorems: `BaikalDB.Pred.C27_in_list`, `BaikalDB.Pred.C27_not_in`, `BaikalDB.Pred.C27_narrow_column_counterexample`

### C28 Value comparison is a total order

- Plan: Per-type theorems plus counterexamples.
- Status: proved — All values of all comparable types, including arbitrary unused bytes of the union; the excluded cases are counterexample theorems.  Floating-point values are read through the IEEE bit layout; casts to and from floating point are not modelled.
- Theorems: `BaikalDB.Expr.C28_compare_is_value_order`, `BaikalDB.Expr.C28_total_preorder`, `BaikalDB.Expr.C28_nan_counterexample`, `BaikalDB.Expr.C28_equal_values_equal_hash`, `BaikalDB.Expr.C28_flat_hash`, `BaikalDB.Expr.C28_flat_hash_counterexample`, `BaikalDB.Expr.C28_negzero_counterexample`, `BaikalDB.Expr.C28_int_cast`, `BaikalDB.Expr.C28_mixed_integers`, `BaikalDB.Expr.C28_mixed_sign_counterexample`, `BaikalDB.Expr.C28_mixed_strings`, `BaikalDB.Expr.C28_proto_round_trip`, `BaikalDB.Expr.C28_null_first`, `BaikalDB.Expr.C28_null_right_counterexample`, `BaikalDB.Expr.C28_maxvalue_last`, `BaikalDB.Expr.C28_bool_cast`, `BaikalDB.Expr.C28_wire_number`

### C29 Calendar conversions are exact inverses

- Plan: Integer arithmetic with div/mod; round trips by omega-style reasoning.
- Status: proved — The calendar laws are for all integers, the TIMESTAMP round trip for every second of the supported range.
- Theorems: `BaikalDB.Datetime.C29_calendar`, `BaikalDB.Datetime.C29_day_number`, `BaikalDB.Datetime.C29_order`, `BaikalDB.Datetime.C29_later`, `BaikalDB.Datetime.C29_localtime`, `BaikalDB.Datetime.C29_mktime_localtime`, `BaikalDB.Datetime.C29_localtime_mktime`, `BaikalDB.Datetime.C29_timestamp_fields`, `BaikalDB.Datetime.C29_timestamp_roundtrip`, `BaikalDB.Datetime.C29_datetime_roundtrip`, `BaikalDB.Datetime.C29_zero_date`, `BaikalDB.Datetime.C29_before_epoch_counterexample`, `BaikalDB.Datetime.C29_invalid_day_counterexample`

### C30 DATETIME packing keeps every field and the order

- Plan: Shift/or model as arithmetic; round trip and lexicographic order.
- Status: proved — Text forms: the one the server prints (with 0 to 6 fraction digits), DATE text, YYYYMMDD, YYYYMMDDHHMMSS and the two-digit-year forms; every other text is covered by the in-range theorem.  sscanf is modelled from the C standard.
- Theorems: `BaikalDB.Datetime.C30_fields`, `BaikalDB.Datetime.C30_order`, `BaikalDB.Datetime.C30_date`, `BaikalDB.Datetime.C30_date_order`, `BaikalDB.Datetime.C30_binary_year_counterexample`, `BaikalDB.Datetime.C30_binary`, `BaikalDB.Datetime.C30_binary_invalid`, `BaikalDB.Datetime.C30_text`, `BaikalDB.Datetime.C30_date_text`, `BaikalDB.Datetime.C30_compact`, `BaikalDB.Datetime.C30_two_digit_year`, `BaikalDB.Datetime.C30_text_in_range`

### C31 TIME values survive conversion

- Plan: Model and arithmetic proof.
- Status: proved — Round trips for hours below 1024.
- Theorems: `BaikalDB.Datetime.C31_seconds`, `BaikalDB.Datetime.C31_time`, `BaikalDB.Datetime.C31_order`, `BaikalDB.Datetime.C31_hours_counterexample`, `BaikalDB.Datetime.C31_of_datetime`, `BaikalDB.Datetime.C31_text`, `BaikalDB.Datetime.C31_digits`, `BaikalDB.Datetime.C31_days`, `BaikalDB.Datetime.C31_invalid`

### C32 Adding an interval moves the date by that interval

- Plan: Model on the calendar functions; compare with month arithmetic spec; counterexample theorem.
- Status: proved — All timestamps and counts; month subtraction landing on a multiple of twelve below zero is off by a year (exact behaviour in C32_months_exact).
- Theorems: `BaikalDB.Datetime.C32_timestamp`, `BaikalDB.Datetime.C32_months_exact`, `BaikalDB.Datetime.C32_months`, `BaikalDB.Datetime.C32_months_counterexample`, `BaikalDB.Datetime.C32_years`, `BaikalDB.Datetime.C32_days`, `BaikalDB.Datetime.C32_days_later`, `BaikalDB.Datetime.C32_fixed`, `BaikalDB.Datetime.C32_sub`, `BaikalDB.Datetime.C32_day_start`

### C33 A MySQL client reads the result sent and the server runs the statement sent

- Plan: Byte-list model of the send buffer and of the readers; independent decoder and encoder written from the protocol specification; the composition is proved by induction over columns, rows, packets and pieces.
- Status: partial — Proved in full: length-encoded integers and strings, text cells (numbers read back by value), text rows and result sets of any size, column definitions and types, OK packets, command reading in any pieces, types kept by a statement.  Binary result sets: what the client reads is proved for every value; it equals the value except for DATETIME microseconds, TIMESTAMP 0 and whole-day TIMEs (counterexamples).  Prepared parameters: all but years below 100, TIME microseconds and TIME zero (counterexamples).  Reads outside the packet: exactly two ways remain, both shown.  SHOW rows: below 16 MB and with empty strings sent as NULL (counterexamples).  Not modelled: printf of floats (a parameter of the model), authentication, compression, SSL, the Arrow result path.
- Theorems: `BaikalDB.Wire.C33_lenenc_server`, `BaikalDB.Wire.C33_execute_partial`, `BaikalDB.Wire.C33_execute_year_counterexample`, `BaikalDB.Wire.C33_execute_time_counterexample`, `BaikalDB.Wire.C33_execute_bounds_partial`, `BaikalDB.Wire.C33_execute_types`, `BaikalDB.Wire.C33_execute_types_counterexample`, `BaikalDB.Wire.C33_execute_length_counterexample`, `BaikalDB.Wire.C33_lenenc`, `BaikalDB.Wire.C33_string`, `BaikalDB.Wire.C33_text_cell`, `BaikalDB.Wire.C33_text_date`, `BaikalDB.Wire.C33_text_row`, `BaikalDB.Wire.C33_result_text`, `BaikalDB.Wire.C33_column_type`, `BaikalDB.Wire.C33_column_codes`, `BaikalDB.Wire.C33_result_binary`, `BaikalDB.Wire.C33_binary_value_partial`, `BaikalDB.Wire.C33_binary_time_counterexample`, `BaikalDB.Wire.C33_binary_micro_counterexample`, `BaikalDB.Wire.C33_binary_timestamp_counterexample`, `BaikalDB.Wire.C33_text_value`, `BaikalDB.Wire.C33_read_chunks`, `BaikalDB.Wire.C33_ok_packet`, `BaikalDB.Wire.C33_show_row_partial`, `BaikalDB.Wire.C33_show_empty_counterexample`, `BaikalDB.Wire.C33_show_long_counterexample`

### C34 A distributed transaction ends the same way everywhere

- Plan: Transition system with primary, secondaries and coordinator; agreement invariant.
- Status: proved — Three behaviours of the code break agreement and are excluded from the runs the theorems speak of; each is shown on a run: C34_stale_query_counterexample, C34_empty_primary_counterexample, C35_forgotten_counterexample.  Region splits during the transaction are not modelled.
- Theorems: `BaikalDB.Txn.C34_agreement`, `BaikalDB.Txn.C34_commit_all`, `BaikalDB.Txn.C34_client_commit`, `BaikalDB.Txn.C34_client_abort`, `BaikalDB.Txn.C34_final`, `BaikalDB.Txn.C34_recovers`, `BaikalDB.Txn.C34_waits`, `BaikalDB.Txn.C34_no_blocking`, `BaikalDB.Txn.C34_commits`, `BaikalDB.Txn.C34_rolls_back`, `BaikalDB.Txn.C34_stale_query_counterexample`, `BaikalDB.Txn.C34_empty_primary_counterexample`, `BaikalDB.Txn.C34_empty_primary_leader_counterexample`, `BaikalDB.Txn.C34_commit_needs_prepare`

### C35 Retrying a statement of a transaction has no second effect

- Plan: State machine on seq ids; executed list is a prefix without duplicates.
- Status: proved — Cached statements beyond the one carried by a one-phase PREPARE are covered request by request (C35_apply, C35_leader, C35_failed, C35_lost for any list), not in the run model.
- Theorems: `BaikalDB.Stmt.C35_apply`, `BaikalDB.Stmt.C35_leader`, `BaikalDB.Stmt.C35_failed`, `BaikalDB.Stmt.C35_lost`, `BaikalDB.Stmt.C35_repeat`, `BaikalDB.Stmt.C35_no_duplicate`, `BaikalDB.Stmt.C35_open`, `BaikalDB.Stmt.C35_exact`, `BaikalDB.Stmt.C35_exact_stable`, `BaikalDB.Stmt.C35_acked`, `BaikalDB.Stmt.C35_save_point`, `BaikalDB.Txn.C35_once`, `BaikalDB.Txn.C35_forgotten_counterexample`

### C36 An index added while rows are written is complete when it is first read

- Plan: One inductive invariant over a transition system of meta server, SQL nodes, stores, transactions with row locks and filling tasks: what each node may take the state to be, no entry without its row, transactions that began before the index had to be written are gone, each filling task's rows up to its position are indexed.  The meta server's own functions are modelled one by one.
- Status: proved — Assumptions are those in the statement; C36_update_counterexample, C36_unknown_node_counterexample, C36_report_counterexample and C36_rollup_counterexample show what the code does where they fail.  Not modelled: unique and global indexes' filling (duplicates, the lock node's plan), clocks (a wait is over when all nodes have heard), the raft log under the meta server (a request goes through or not), splits during the filling.
- Theorems: `BaikalDB.Ddl.Ex.C36_update_counterexample`, `BaikalDB.Ddl.Ex.C36_rollup_counterexample`, `BaikalDB.Ddl.Ex.C36_unknown_node_counterexample`, `BaikalDB.Ddl.Ex.C36_report_counterexample`, `BaikalDB.Ddl.C36_reader_exact`, `BaikalDB.Ddl.C36_published_exact`, `BaikalDB.Ddl.C36_no_orphan`, `BaikalDB.Ddl.C36_views`, `BaikalDB.Ddl.C36_no_old_txn`, `BaikalDB.Ddl.C36_steps`, `BaikalDB.Ddl.C36_waits`, `BaikalDB.Ddl.C36_public_means_done`, `BaikalDB.Ddl.C36_rollup_means_done`, `BaikalDB.Ddl.C36_failure_drops`, `BaikalDB.Ddl.C36_drop_ends`, `BaikalDB.Ddl.C36_all_done_publishes`

### C37 Distributed aggregation equals single-node aggregation

- Plan: Every aggregate's state and partial result is given a meaning as a statement about the rows seen (Inv, Rep); update, merge and finalize are shown to keep it; the node's hash table is shown to keep one entry per key; plans are composed.
- Status: proved — Row engine only; doubles are added without rounding; HLL and t-digest aggregates are not modelled.  Hypotheses that exclude behaviour the code gets wrong, each shown on a run: a region with only NULLs for RB_AND_AGG (C37_rb_and_counterexample) or for several DISTINCT aggregates (C37_multi_distinct_counterexample), the latter over no rows (C37_multi_sum_counterexample), empty strings in ordered GROUP_CONCAT (C37_concat_order_counterexample), more than 8 GROUP BY columns and strings with NUL (C37_group_key_*_counterexample).
- Theorems: `BaikalDB.Agg.C37_group_key`, `BaikalDB.Agg.C37_group_key_nul_counterexample`, `BaikalDB.Agg.C37_group_key_nine_counterexample`, `BaikalDB.Agg.C37_rb_and_counterexample`, `BaikalDB.Agg.C37_multi_distinct_counterexample`, `BaikalDB.Agg.C37_multi_sum_counterexample`, `BaikalDB.Agg.C37_concat_order_counterexample`, `BaikalDB.Agg.C37_regions`, `BaikalDB.Agg.C37_distinct`, `BaikalDB.Agg.C37_single`

### C38 Joins and correlated subqueries return the rows SQL defines

- Plan: Hash table model against the comprehension spec.
- Status: partial — Row engine only (no Arrow execution).  Proved in full: hash INNER JOIN, nested-loop INNER JOIN without LIMIT, EXISTS and NOT EXISTS (hash, chunked, nested), scalar subqueries run per outer row.  Restricted, because the code gives other rows otherwise (each shown on a run): hash LEFT JOIN when the other ON conditions hold on key-equal pairs, nested-loop LEFT JOIN within one batch, nested-loop INNER JOIN under LIMIT (only that the rows returned are right), scalar subqueries over the hash map.  Join columns: integers of any widths, or one type among strings without NUL, dates, times, doubles without -0.0; FLOAT, BOOL and mixed types are not covered; `NOT IN` with NULLs is wrong (C38_not_in_null_counterexample).
- Theorems: `BaikalDB.Join.C38_filter_keeps_partners`, `BaikalDB.Join.C38_filter_drops_null`, `BaikalDB.Join.C38_key_is_equality`, `BaikalDB.Join.C38_hash_inner`, `BaikalDB.Join.C38_hash_inner_ends`, `BaikalDB.Join.C38_nested_inner`, `BaikalDB.Join.C38_nested_inner_limit_partial`, `BaikalDB.Join.C38_nested_inner_ends`, `BaikalDB.Join.C38_hash_left_partial`, `BaikalDB.Join.C38_hash_left_ends`, `BaikalDB.Join.C38_nested_left_partial`, `BaikalDB.Join.C38_semi_hash`, `BaikalDB.Join.C38_semi_hash_ends`, `BaikalDB.Join.C38_semi_chunks`, `BaikalDB.Join.C38_semi_chunks_ends`, `BaikalDB.Join.C38_anti_hash`, `BaikalDB.Join.C38_anti_hash_ends`, `BaikalDB.Join.C38_apply_matched`, `BaikalDB.Join.C38_apply_left_hash_partial`, `BaikalDB.Join.C38_semi_nested`, `BaikalDB.Join.C38_anti_nested`, `BaikalDB.Join.C38_scalar_nested`, `BaikalDB.Join.C38_nested_apply_ends`, `BaikalDB.Join.C38_subquery_filter`, `BaikalDB.Join.C38_semi_per_row`, `BaikalDB.Join.C38_anti_per_row`, `BaikalDB.Join.C38_hash_left_counterexample`, `BaikalDB.Join.C38_nested_left_counterexample`, `BaikalDB.Join.C38_nested_inner_limit_counterexample`, `BaikalDB.Join.C38_apply_left_counterexample`, `BaikalDB.Join.C38_null_key_counterexample`, `BaikalDB.Join.C38_nul_key_counterexample`, `BaikalDB.Join.C38_json_key_counterexample`, `BaikalDB.Join.C38_text_key_counterexample`, `BaikalDB.Join.C38_set_null_counterexample`, `BaikalDB.Join.C38_subquery_overflow_counterexample`, `BaikalDB.Join.C38_negzero_counterexample`, `BaikalDB.Join.C38_not_in_null_counterexample`

### C39 TTL prefix is transparent

- Plan: Byte codec round trip.
- Status: proved — Deviations are counterexample theorems.
- Theorems: `BaikalDB.RowCodec.C39_online_new_primary_row`, `BaikalDB.Ttl.C39_roundtrip`, `BaikalDB.Ttl.C39_expired_iff_before_read_time`, `BaikalDB.Ttl.C39_no_ttl`, `BaikalDB.Ttl.C39_nonpositive_expiry_counterexample`, `BaikalDB.Ttl.C39_online_new_secondary`, `BaikalDB.Ttl.C39_online_new_primary`, `BaikalDB.Ttl.C39_online_old`, `BaikalDB.Ttl.C39_online_old_uniq_counterexample`, `BaikalDB.Ttl.C39_online_old_primary_counterexample`, `BaikalDB.Ttl.C39_verification_hang_counterexample`

### C40 Column-store field encoding round-trips

- Plan: Little-endian codec round trip.
- Status: proved — Deviations are counterexample theorems.
- Theorems: `BaikalDB.RowCodec.C40_codec_roundtrip`, `BaikalDB.RowCodec.C40_left_out_iff_default`, `BaikalDB.RowCodec.C40_write_read`, `BaikalDB.RowCodec.C40_null_reads_default`, `BaikalDB.RowCodec.C40_null_with_default_counterexample`, `BaikalDB.RowCodec.C40_unsupported_type_counterexample`

### C41 Partial row reads return the stored columns

- Plan: Wire-format walk transcribed; induction over the fields of the serialized row.
- Status: proved
- Theorems: `BaikalDB.RowCodec.C41_row_roundtrip`, `BaikalDB.RowCodec.C41_verification_accepts_rows`, `BaikalDB.RowCodec.C41_null_reads_default`, `BaikalDB.RowCodec.C41_null_with_default_counterexample`, `BaikalDB.RowCodec.C41_column_type_fits`, `BaikalDB.RowCodec.C41_fixed_size`

### C42 Integers survive the trip through text

- Plan: std::to_string / strtoull transcribed on byte lists; induction on digits.
- Status: proved — All integer types and values; the text form is produced and read by the transcribed routines.
- Theorems: `BaikalDB.Expr.C42_integer_text_round_trip`, `BaikalDB.Expr.C42_text_prefix`, `BaikalDB.Expr.C42_hex_literal`

### C43 A LIKE prefix search key selects exactly the matching rows

- Plan: Key encoding model with the like_prefix flag; prefix reasoning on byte lists.
- Status: proved — Any number of columns before and after the LIKE column, with and without the null-flag byte.
- Theorems: `BaikalDB.IndexKey.C43_like_prefix_key`

### C45 Simplifying WHERE conditions never changes the rows returned

- Plan: Rewrites transcribed on expression trees; each is shown to keep the set of rows, composed over columns by induction.
- Status: proved — Row constructors are not modelled; std::sort of the bounds is represented by choosing a tightest one.  Conjuncts on a column against constants have non-NULL literals within the integers or one of the direct types, IN lists and ORs on integer or string columns, LIKE patterns that do not end in an escaped %; all other conjuncts are arbitrary.
- Theorems: `BaikalDB.Pred.C45_simplify`, `BaikalDB.Pred.C45_filter`, `BaikalDB.Pred.C45_null_bound_counterexample`, `BaikalDB.Pred.C45_null_list_counterexample`

### C44 The key ranges of an index stand for the conditions they replace

- Plan: Field ranges and both walks over the key columns transcribed; an invariant over the walks relates the keys to the conditions dropped; keys compared by the order theorems of C04.
- Status: partial — Proved for queries with no IN before a LIKE prefix search (there rows are lost: counterexample) and outside the other exclusions, each with a counterexample.  C44_plan_exact_no_like covers all queries without LIKE in full, C44_once all queries.  Constants are taken to have the type of their column.  Not modelled: partition ids in ranges, full-text and vector index plans, the cost-based choice (any choice is covered), date_range_to_in (off by default).
- Theorems: `BaikalDB.Scan.C44_row_equality_after_counterexample`, `BaikalDB.Scan.C44_row_equality_before_counterexample`, `BaikalDB.Scan.C44_row_in_counterexample`, `BaikalDB.Scan.C44_row_repeated_column_counterexample`, `BaikalDB.Scan.C44_in_before_like_counterexample`, `BaikalDB.Scan.C44_both_row_ends_counterexample`, `BaikalDB.Scan.C44_full_text_counterexample`, `BaikalDB.Scan.C44_row_null_counterexample`, `BaikalDB.Scan.C44_never_fails`, `BaikalDB.Scan.C44_empty`, `BaikalDB.Scan.C44_plan_exact_partial`, `BaikalDB.Scan.C44_plan_exact_no_like`, `BaikalDB.Scan.C44_any_index_partial`, `BaikalDB.Scan.C44_once`, `BaikalDB.Scan.C44_point`, `BaikalDB.Scan.C44_primary_key`, `BaikalDB.Scan.C44_secondary_key`

### C53 A scan hands out exactly the entries of its key range

- Plan: Iterator opened on a sorted list; both bounds related to byte order and prefixes; composed with the routing theorems of C11 and the plan theorems of C44.
- Status: partial — C53_forward and C53_backward are exact up to keys that continue a closed upper end with 24 bytes FF (counterexamples).  The end-to-end theorems inherit the restriction of C44 to plans without IN before a LIKE prefix.  Not modelled: MVCC and transaction overlays, TTL (C39), key lookups of the row after a secondary index entry (C07), errors of the engine.
- Theorems: `BaikalDB.Iter.C53_largest_values_counterexample`, `BaikalDB.Iter.C53_largest_values_backward_counterexample`, `BaikalDB.Iter.C53_forward`, `BaikalDB.Iter.C53_backward`, `BaikalDB.Iter.C53_select_partial`, `BaikalDB.Iter.C53_select_once_partial`

### C54 Columnar reads give every row its own column value

- Plan: The merge of the row list with the column's entries transcribed; the position of the column iterator is an invariant over the rows.
- Status: proved
- Theorems: `BaikalDB.Iter.C54_column_scan`

### C52 ORDER BY answered by an index gives the order asked for

- Plan: Key order and ORDER BY order are both byte order of encoded tuples (C04); the fixed columns of a range are equal in all its rows (C44); the cut at LIMIT by counting.
- Status: proved — Keys that continue a range end with 24 bytes FF are excluded as in C53; index columns are NOT NULL (enforced by the planner of CREATE TABLE).  The sorter is a parameter, given its contract (C22); merging the regions' answers is C22/C24.
- Theorems: `BaikalDB.Iter.C52_region`, `BaikalDB.Scan.C52_range_order`

### C50 Moving conditions and converting outer joins does not change the rows

- Plan: Plans as trees with a bag semantics; the conversion and the push-down transcribed; join laws for filters on either side; induction on the tree.
- Status: proved — The conditions asked for are those in the statement (C50_plain gives a checkable class, C50_inner asks for none); the C50_*_counterexample theorems show what the code does outside.  Not modelled here: derived tables below a scan, HAVING, subqueries in conditions (apply nodes), row comparisons as such (they are calls).
- Theorems: `BaikalDB.Plan.C50_never`, `BaikalDB.Plan.C50_never_inner`, `BaikalDB.Plan.Examples.C50_never_counterexample`, `BaikalDB.Plan.Examples.C50_on_condition_counterexample`, `BaikalDB.Plan.Examples.C50_nullif_counterexample`, `BaikalDB.Plan.Examples.C50_is_not_true_counterexample`, `BaikalDB.Plan.Examples.C50_not_and_counterexample`, `BaikalDB.Plan.Examples.C50_or_constant_counterexample`, `BaikalDB.Plan.Examples.C50_in_columns_counterexample`, `BaikalDB.Plan.Examples.C50_full_constant_counterexample`, `BaikalDB.Plan.Examples.C50_correlated_counterexample`, `BaikalDB.Plan.C50_pushdown`, `BaikalDB.Plan.C50_inner`, `BaikalDB.Plan.C50_plain`, `BaikalDB.Plan.C50_select`

### C55 Joining tables in another order does not change the rows

- Plan: A block of inner joins is a filtered product; products commute; the order found is a permutation of the tables; conditions handed out by C50.
- Status: proved — C55_unlinked_counterexample is the case excluded.  Equalities of row expressions are not counted as equalities.
- Theorems: `BaikalDB.Plan.C55_reorder`, `BaikalDB.Plan.C55_answered`, `BaikalDB.Plan.C55_select`, `BaikalDB.Plan.Examples.C55_unlinked_counterexample`

### C49 LIMIT pushed into the plan gives a right answer

- Plan: Plans as trees with a run function; induction on the plan shows that limited plans have the same first rows in some allowed order; moved chains shown to keep the rows.
- Status: proved — The class is Query.Ok of Verif/Limit/Spec.lean; the C49_*_counterexample theorems show what the code does outside.  SORT and the merge of sorted regions are taken as sorting (C22, C23), joins as handing out rows by driving row (C38).
- Theorems: `BaikalDB.Limit.Examples.C49_full_counterexample`, `BaikalDB.Limit.Examples.C49_having_counterexample`, `BaikalDB.Limit.Examples.C49_nested_counterexample`, `BaikalDB.Limit.C49_limit`, `BaikalDB.Limit.C49_rows`, `BaikalDB.Limit.C49_separate`

### C57 INSERT, REPLACE, UPDATE and DELETE change exactly the rows they should, and the indexes with them

- Plan: Rows and index entries as partial maps; the operations of the transaction and the DML nodes transcribed; invariant: live entries and live rows correspond; each statement refines a small relational specification.
- Status: proved — The class of statements is Stmt.Ok of Verif/Dml/Spec.lean; the C57_*_counterexample theorems show what the code does outside.  One transaction at a time (for concurrency between transactions the row locks of RocksDB are trusted); full-text, vector, rollup and global indexes are not modelled.
- Theorems: `BaikalDB.Dml.Examples.C57_moved_counterexample`, `BaikalDB.Dml.Examples.C57_column_dup_counterexample`, `BaikalDB.Dml.Examples.C57_column_expired_counterexample`, `BaikalDB.Dml.Examples.C57_null_default_counterexample`, `BaikalDB.Dml.Examples.C57_null_unique_counterexample`, `BaikalDB.Dml.Examples.C57_batches_counterexample`, `BaikalDB.Dml.C57_exec`, `BaikalDB.Dml.C57_unique`, `BaikalDB.Dml.C57_later`, `BaikalDB.Dml.C57_history`, `BaikalDB.Dml.C57_determined`, `BaikalDB.Dml.C57_batches`

### C58 An account may do what has been granted to it and nothing else

- Plan: A ledger of rights computed from the requests alone; simulation between it and the records, RocksDB and the reverse maps of the meta server; versions rise with every change, so heartbeats bring nodes up to date; the checks computed on the node's copy.
- Status: proved — The class of histories is CleanHist of Verif/Priv/Spec.lean; the C58_*_counterexample theorems show what the code does outside.  Scrambling of passwords and the encoding of records are not modelled; settings of an account that play no part in access are left out.
- Theorems: `BaikalDB.Priv.C58_db_grant_counterexample`, `BaikalDB.Priv.C58_global_grant_counterexample`, `BaikalDB.Priv.C58_same_name_counterexample`, `BaikalDB.Priv.C58_revoke_counterexample`, `BaikalDB.Priv.C58_super_counterexample`, `BaikalDB.Priv.C58_level_revoke_counterexample`, `BaikalDB.Priv.C58_drop_user_counterexample`, `BaikalDB.Priv.C58_recreate_counterexample`, `BaikalDB.Priv.C58_grant_option_counterexample`, `BaikalDB.Priv.C58_unassigned_counterexample`, `BaikalDB.Priv.C58_replica_counterexample`, `BaikalDB.Priv.C58_granted`, `BaikalDB.Priv.C58_levels`, `BaikalDB.Priv.C58_level`, `BaikalDB.Priv.C58_default_deny`, `BaikalDB.Priv.C58_write_sound`, `BaikalDB.Priv.C58_information_schema`, `BaikalDB.Priv.C58_ddl`, `BaikalDB.Priv.C58_isolated`, `BaikalDB.Priv.C58_version`, `BaikalDB.Priv.C58_accounts`, `BaikalDB.Priv.C58_drop_object`, `BaikalDB.Priv.C58_reload`, `BaikalDB.Priv.C58_heartbeat`, `BaikalDB.Priv.C58_refresh`, `BaikalDB.Priv.C58_end_to_end`, `BaikalDB.Priv.C58_login`

### C48 A SQL node's region map stays whole and follows splits and merges

- Plan: The loop over reported regions transcribed; invariant: the map is a list of adjoining regions, and the pending chain adjoins it; each step replaces a run of regions by another with the same ends.
- Status: proved — One partition; deletions only in the counterexample.  The two classes of the convergence claims are Reported and Change of Verif/ClientMap/Props.lean.
- Theorems: `BaikalDB.ClientMap.C48_stuck_counterexample`, `BaikalDB.ClientMap.C48_orphan_counterexample`, `BaikalDB.ClientMap.C48_gap_counterexample`, `BaikalDB.ClientMap.C48_tiles`, `BaikalDB.ClientMap.C48_placed`, `BaikalDB.ClientMap.C48_run`, `BaikalDB.ClientMap.C48_follows`, `BaikalDB.ClientMap.C48_first_load`

### C59 Readers of the binlog get each committed transaction once, in commit order

- Plan: Peers as states reachable by apply, re-apply, restart, load; invariant: what is open is in the map and not below the check point, and the check point is not above all that was applied; so a commit at or below the check point is among what was applied.  Answers are beginnings of the visible records; the capturer's caches are gapless parts.
- Status: proved — Without TTL of records, offline binlogs, flash-back reading and the cache of answers (off by default).
- Theorems: `BaikalDB.Binlog.C59_capturer`, `BaikalDB.Binlog.C59_capturer_progress`, `BaikalDB.Binlog.C59_read_answers`, `BaikalDB.Binlog.C59_restart_counterexample`, `BaikalDB.Binlog.C59_snapshot_counterexample`, `BaikalDB.Binlog.C59_reset_counterexample`, `BaikalDB.Binlog.C59_unopened_counterexample`, `BaikalDB.Binlog.C59_twice_counterexample`, `BaikalDB.Binlog.C59_read`, `BaikalDB.Binlog.C59_read_nonempty`, `BaikalDB.Binlog.C59_consumer`, `BaikalDB.Binlog.C59_progress`, `BaikalDB.Binlog.C59_restart_progress`, `BaikalDB.Binlog.C59_load_refuses`

### C47 Date and time functions follow the calendar

- Plan: Day numbers are counted day by day from 1970-01-01; week 1 is described by its days in the year; the code's arithmetic is compared with the first day of week 1 of two years.  Formats are lists of tokens; each rewritten token is a piece that strftime turns into its meaning.
- Status: proved — Arguments after their conversion to DATETIME or TIME (C30, C31).  Boost's day numbers and the C library's strftime are taken by what they are documented to do; WEEKOFYEAR is Boost's own and is left out.
- Theorems: `BaikalDB.DateFn.C47_date_format`, `BaikalDB.DateFn.C47_date_format_counterexample`, `BaikalDB.DateFn.C47_day_of_week`, `BaikalDB.DateFn.C47_day_of_year`, `BaikalDB.DateFn.C47_unknown`, `BaikalDB.DateFn.C47_week_own`, `BaikalDB.DateFn.C47_week_default`, `BaikalDB.DateFn.C47_week_year`, `BaikalDB.DateFn.C47_week_unique`, `BaikalDB.DateFn.C47_week_four`, `BaikalDB.DateFn.C47_week53_counterexample`, `BaikalDB.DateFn.C47_next_year_counterexample`, `BaikalDB.DateFn.C47_to_days`, `BaikalDB.DateFn.C47_datediff`, `BaikalDB.DateFn.C47_datediff_counterexample`, `BaikalDB.DateFn.C47_timestampdiff`, `BaikalDB.DateFn.C47_timestampdiff_counterexample`, `BaikalDB.DateFn.C47_timediff`, `BaikalDB.DateFn.C47_timestampadd`, `BaikalDB.DateFn.C47_extract`, `BaikalDB.DateFn.C47_time_parts`, `BaikalDB.DateFn.C47_negative_time_counterexample`, `BaikalDB.DateFn.C47_seconds`, `BaikalDB.DateFn.C47_time_to_sec`, `BaikalDB.DateFn.C47_quarter`, `BaikalDB.DateFn.C47_period_add`, `BaikalDB.DateFn.C47_period_diff_counterexample`

### C46 String functions compute what they say

- Plan: Occurrences and splits of a string as relations; each search loop by induction against them; numbers against the values their digits denote; a small reader of SQL literals for QUOTE.
- Status: proved — Arguments after their cast to text or to integers (C42); OCT, SOUNDEX, the digests and the regular expressions are left out, FORMAT starts from the number's text in fixed notation.
- Theorems: `BaikalDB.StrFn.C46_split_exists`, `BaikalDB.StrFn.C46_replace`, `BaikalDB.StrFn.C46_split_part`, `BaikalDB.StrFn.C46_substring_index`, `BaikalDB.StrFn.C46_substring_index_byte`, `BaikalDB.StrFn.C46_substring_index_counterexample`, `BaikalDB.StrFn.C46_locate`, `BaikalDB.StrFn.C46_instr`, `BaikalDB.StrFn.C46_find_in_set`, `BaikalDB.StrFn.C46_find_in_set_counterexample`, `BaikalDB.StrFn.C46_field`, `BaikalDB.StrFn.C46_elt_null`, `BaikalDB.StrFn.C46_substr`, `BaikalDB.StrFn.C46_left_right`, `BaikalDB.StrFn.C46_left_number_counterexample`, `BaikalDB.StrFn.C46_bytes_counterexample`, `BaikalDB.StrFn.C46_trim`, `BaikalDB.StrFn.C46_trim_null_counterexample`, `BaikalDB.StrFn.C46_insert`, `BaikalDB.StrFn.C46_insert_end`, `BaikalDB.StrFn.C46_insert_counterexample`, `BaikalDB.StrFn.C46_concat`, `BaikalDB.StrFn.C46_concat_ws`, `BaikalDB.StrFn.C46_repeat`, `BaikalDB.StrFn.C46_space`, `BaikalDB.StrFn.C46_repeat_counterexample`, `BaikalDB.StrFn.C46_reverse`, `BaikalDB.StrFn.C46_pad`, `BaikalDB.StrFn.C46_pad_null_counterexample`, `BaikalDB.StrFn.C46_case`, `BaikalDB.StrFn.C46_lower_gbk`, `BaikalDB.StrFn.C46_lower_gbk_counterexample`, `BaikalDB.StrFn.C46_char_length`, `BaikalDB.StrFn.C46_char_length_counterexample`, `BaikalDB.StrFn.C46_length`, `BaikalDB.StrFn.C46_bit_count`, `BaikalDB.StrFn.C46_export_set`, `BaikalDB.StrFn.C46_make_set`, `BaikalDB.StrFn.C46_bin`, `BaikalDB.StrFn.C46_unhex_hex`, `BaikalDB.StrFn.C46_hex_unhex`, `BaikalDB.StrFn.C46_unhex_null`, `BaikalDB.StrFn.C46_char`, `BaikalDB.StrFn.C46_char_counterexample`, `BaikalDB.StrFn.C46_quote`, `BaikalDB.StrFn.C46_format`, `BaikalDB.StrFn.C46_format_counterexample`

### C61 Statements on a table with global indexes keep all indexes right and do what they say

- Plan: Table and indexes as maps; one lemma: deleting some rows and writing others in table and indexes alike keeps them in agreement if the rows fit; for each statement the rows deleted and written are characterized and compared with the row-by-row meaning.
- Status: proved — One transaction alone, PUBLIC global indexes only (local indexes: C57), no TTL; the numbers of affected rows of REPLACE and ON DUPLICATE KEY UPDATE are left out.  ON DUPLICATE KEY UPDATE of several records: agreement of the indexes is proved for all tables, the rows for tables without UNIQUE global indexes (with them several records can lose one, counterexamples).
- Theorems: `BaikalDB.Global.C61_ignore_counterexample`, `BaikalDB.Global.C61_on_dup_crash_counterexample`, `BaikalDB.Global.C61_on_dup_lost_counterexample`, `BaikalDB.Global.C61_on_dup_insert`, `BaikalDB.Global.C61_on_dup_update`, `BaikalDB.Global.C61_agree`, `BaikalDB.Global.C61_unique`, `BaikalDB.Global.C61_on_dup_many`, `BaikalDB.Global.C61_insert`, `BaikalDB.Global.C61_insert_fails`, `BaikalDB.Global.C61_ignore`, `BaikalDB.Global.C61_ignore_subset`, `BaikalDB.Global.C61_ignore_same`, `BaikalDB.Global.C61_replace`, `BaikalDB.Global.C61_delete`, `BaikalDB.Global.C61_update`, `BaikalDB.Global.C61_update_ok`

### C60 Operators compute the mathematical result

- Plan: Expressions as trees; folding, type inference and evaluation as three functions on them; a relation between tree and mathematical value carried through all three by induction on the tree.
- Status: proved — Floating-point arithmetic is abstract; conversions to date types and of dates to text, and the arrow evaluation, are left out.
- Theorems: `BaikalDB.Ops.C60_compare`, `BaikalDB.Ops.C60_negative_counterexample`, `BaikalDB.Ops.C60_fraction_counterexample`, `BaikalDB.Ops.C60_fraction_arithmetic_counterexample`, `BaikalDB.Ops.C60_undefined_counterexample`, `BaikalDB.Ops.C60_wrap_counterexample`, `BaikalDB.Ops.C60_literal_counterexample`, `BaikalDB.Ops.C60_null_rows_counterexample`, `BaikalDB.Ops.C60_arithmetic`, `BaikalDB.Ops.C60_unsigned_wraps`, `BaikalDB.Ops.C60_null`, `BaikalDB.Ops.C60_division`, `BaikalDB.Ops.C60_text`, `BaikalDB.Ops.C60_dates`, `BaikalDB.Ops.C60_column_number`, `BaikalDB.Ops.C60_literal`, `BaikalDB.Ops.C60_rows`

### C62 Window functions give every row its value

- Plan: Each function as a state machine with an invariant giving its state from the rows read; frames as index ranges of a sorted partition; partition cutting by an invariant on the cached stretches; the chain of sorts and windows by induction with the rows' earlier values carried along; the planner's merge by induction on the functions.
- Status: proved — Arithmetic on doubles is abstract (two laws of division are assumed for CUME_DIST and PERCENT_RANK); the limit of windows made by subquery rewriting and the cutting of the output into batches are left out.
- Theorems: `BaikalDB.Window.C62_merge_counterexample`, `BaikalDB.Window.C62_rows_bound_counterexample`, `BaikalDB.Window.C62_following_counterexample`, `BaikalDB.Window.C62_nth_value_counterexample`, `BaikalDB.Window.C62_lead_counterexample`, `BaikalDB.Window.C62_empty_batch_counterexample`, `BaikalDB.Window.C62_nul_counterexample`, `BaikalDB.Window.C62_nine_counterexample`, `BaikalDB.Window.C62_windows`, `BaikalDB.Window.C62_places`, `BaikalDB.Window.C62_planned`, `BaikalDB.Window.C62_plan_total`

### C63 Conditions with a subquery that does not refer to the outer query have the value SQL gives them

- Plan: The condition as a function of the values returned, a tree of the conditions of C25; ANY and ALL defined by quantifiers over three-valued comparisons; the extreme value by an invariant on the fold, and monotonicity of the comparison.
- Status: proved — One column on the left of the operator and values that fit its type (integers within int64 and the column, otherwise the same type); row-by-row execution.  `<> ANY` and `SELECT MIN` are right only without different values / without NULLs (counterexamples), hence the two theorems named _partial.  Subqueries that refer to the outer query: C51 and C38.
- Theorems: `BaikalDB.Subq.C63_ne_any_counterexample`, `BaikalDB.Subq.C63_eq_all_null_counterexample`, `BaikalDB.Subq.C63_gt_all_null_counterexample`, `BaikalDB.Subq.C63_lt_all_empty_counterexample`, `BaikalDB.Subq.C63_select_min_counterexample`, `BaikalDB.Subq.C63_exists`, `BaikalDB.Subq.C63_scalar`, `BaikalDB.Subq.C63_in`, `BaikalDB.Subq.C63_in_value`, `BaikalDB.Subq.C63_not_in`, `BaikalDB.Subq.C63_not_in_empty_counterexample`, `BaikalDB.Subq.C63_eq_any_ne_all`, `BaikalDB.Subq.C63_eq_all`, `BaikalDB.Subq.C63_ne_any_partial`, `BaikalDB.Subq.C63_cmp_any`, `BaikalDB.Subq.C63_cmp_all`, `BaikalDB.Subq.C63_select_max`, `BaikalDB.Subq.C63_select_min_partial`

### C51 A subquery that refers to the outer query selects the rows it selects when evaluated for each of them

- Plan: The plan as a chain of nodes with the pair of aggregation nodes in it; the subquery's rows defined separately; lifting past filters, sorts and limits by induction on the chain; past the aggregation by showing that the groups that meet the conditions are the groups of the rows that meet them.
- Status: proved — Conditions are functions of the outer row and a row of the subquery, with the attributes the code reads off them (mentions the outer query, bare columns in an equality, equality of two columns); tables and joins below the WHERE are a list of rows; ON conditions, derived tables, windows and check_unique_key are not modelled.  How pairs are matched at execution: C38.
- Theorems: `BaikalDB.Corr.C51_slot_clash_counterexample`, `BaikalDB.Corr.C51_two_tables_counterexample`, `BaikalDB.Corr.C51_count_counterexample`, `BaikalDB.Corr.C51_exists_counterexample`, `BaikalDB.Corr.C51_inequality_counterexample`, `BaikalDB.Corr.C51_limit_counterexample`, `BaikalDB.Corr.C51_group_limit_counterexample`, `BaikalDB.Corr.C51_two_rows_counterexample`, `BaikalDB.Corr.C51_one_row_counterexample`, `BaikalDB.Corr.C51_group_rows_counterexample`, `BaikalDB.Corr.C51_without_aggregate`, `BaikalDB.Corr.C51_aggregate`, `BaikalDB.Corr.C51_aggregate_kept`, `BaikalDB.Corr.C51_once`, `BaikalDB.Corr.C51_regions`

### C56 Conditions and aggregations over a derived table or a union mean the same when moved into the subqueries

- Plan: Expressions as trees over slots; replacement of slots by projections commutes with evaluation; grouping and windows commute with conditions that are determined by their keys, by induction on the rows; the merge of the branches by the lemma that groups of groups are the groups of all rows.
- Status: proved — Functions in expressions, aggregate functions and windows are arbitrary functions of values and rows; the tables and joins of a subquery are a list of rows; the state of an aggregate function is the values it has seen (C37 for that).  Grouping and partition keys are taken to be injective (C03, C62 for when they are).  Not modelled: ORDER BY inside a derived table, the cast of a projected value to its column type, UNION of branches with different types (not cast by the code), and the renumbering of columns when unused ones are pruned.
- Theorems: `BaikalDB.Derived.C56_agg_one`, `BaikalDB.Derived.C56_agg_scalar`, `BaikalDB.Derived.C56_agg_union`, `BaikalDB.Derived.C56_bare_column_counterexample`, `BaikalDB.Derived.C56_bare_column_window_counterexample`, `BaikalDB.Derived.C56_constant_column_counterexample`, `BaikalDB.Derived.C56_agg_constant_condition_counterexample`, `BaikalDB.Derived.C56_table`, `BaikalDB.Derived.C56_pushdown`, `BaikalDB.Derived.C56_union`

### C64 A query over regions that split while it runs returns every row exactly once

- Plan: The regions as a map from ids, the query as requests, answers under way and batches by region id; an invariant that for every key exactly one request, answer or batch is responsible for it, kept by every request, answer and change of the regions; termination by a measure on the tree of new regions.
- Status: proved — The rows of a region are their keys; a request is answered by the region as it is at one moment.  Not modelled: leaders and network errors, transactions, regions that have been removed from the store (a merged region that does not exist any more counts as answered), the row order of the result (C22), the exchange of MPP plans.  That the new region of a split can be read before the old one has its new version is left out.
- Theorems: `BaikalDB.Fetch.C64_stale_merge_counterexample`, `BaikalDB.Fetch.C64_merge_during_counterexample`, `BaikalDB.Fetch.C64_merge_twice_counterexample`, `BaikalDB.Fetch.C64_reload_counterexample`, `BaikalDB.Fetch.C64_exactly_once`, `BaikalDB.Fetch.C64_absent`, `BaikalDB.Fetch.C64_at_most_once`, `BaikalDB.Fetch.C64_finishes`, `BaikalDB.Fetch.C64_merged`

### C65 A full-text search finds exactly the rows that have the terms asked for, each once

- Plan: What an executor will still give as a sorted list; a contract for next and advance that terms meet (binary search, merge of two sorted lists) and that AND (rotating pivot, by a measure on the keys left) and OR (heap, with duplicates only below the root) keep, so any nesting does by induction on its depth; the levels by what they say about each key, an invariant of all writes, merges and splits.
- Status: proved — How a text is cut into terms is a parameter (a function of the text).  Not modelled: weights, the caches of levels 2 and 3, the is_fast mode, WeightedBooleanExecutor, terms with NUL bytes, RocksDB errors, regions that grow by a merge; the order of level 1 is that of primary key and time (C01-C03 for the encoding of keys).
- Theorems: `BaikalDB.Reverse.C65_search`, `BaikalDB.Reverse.C65_background`, `BaikalDB.Reverse.C65_split`, `BaikalDB.Reverse.C65_seek`, `BaikalDB.Reverse.C65_first_node_counterexample`, `BaikalDB.Reverse.C65_clock_counterexample`, `BaikalDB.Reverse.C65_empty_operand_counterexample`

### C66 EXACT LIKE by a full-text index finds exactly the rows for which the condition holds

- Plan: The byte loops as windows of the list of characters (induction over the rest of the text); an infix has no windows that the text lacks; the pattern's pieces by induction over the strings; C65 for the search, C26 for the check of each row.
- Status: proved — The set of punctuation (a file not in the repository) is a parameter.  Not modelled: ES_STANDARD and the tokenizers that call a service, weights, EXACT LIKE by RE2 (off by default), patterns that are not constant, several full-text conditions in one query (C65 for AND and OR).
- Theorems: `BaikalDB.Segment.C66_terms`, `BaikalDB.Segment.C66_cut`, `BaikalDB.Segment.C66_pieces`, `BaikalDB.Segment.C66_exact_pattern`, `BaikalDB.Segment.C66_like`, `BaikalDB.Segment.C66_none_lost`, `BaikalDB.Segment.C66_exact_like`, `BaikalDB.Segment.C66_like_short`, `BaikalDB.Segment.C66_like_counterexample`, `BaikalDB.Segment.C66_equal_counterexample`, `BaikalDB.Segment.C66_short_counterexample`, `BaikalDB.Segment.C66_blank_counterexample`, `BaikalDB.Segment.C66_wildcard_counterexample`, `BaikalDB.Segment.C66_empty_counterexample`, `BaikalDB.Segment.C66_gbk_counterexample`, `BaikalDB.Segment.C66_empty_string_counterexample`

### C67 A region that crashes between any two writes has, after restarting, exactly the rows and open transactions of its log

- Plan: Disk as the content of RocksDB, every atomic write a function on it; an invariant that the disk stands at a prefix P whose open transactions do not change between the recorded index and P, kept by every entry; a case analysis of the disks inside a commit or rollback; the replay of the open transactions by induction over the log.
- Status: proved — The path of followers and replays, for tables whose statements are shipped as key-value batches.  Not modelled: splits, snapshots loaded from another peer, truncation of the log below an open transaction, statements shipped as plans, RocksDB errors.  The leader differs in where a statement is executed first.
- Theorems: `BaikalDB.Recover.C67_state_is_a_prefix`, `BaikalDB.Recover.C67_restart_keeps_rows`, `BaikalDB.Recover.C67_rows_after_the_log`, `BaikalDB.Recover.C67_row_count_when_quiet`, `BaikalDB.Recover.C67_first_crash`, `BaikalDB.Recover.C67_stale_mark_counterexample`, `BaikalDB.Recover.C67_crash_in_restart_counterexample`, `BaikalDB.Recover.C67_one_phase_counterexample`, `BaikalDB.Recover.C67_row_count_counterexample`, `BaikalDB.Recover.C67_shipped_row_count_counterexample`

### C68 A split hands every write over to the new region: afterwards the table is what it would be without the split

- Plan: A region follows its history, the entries it has applied with the part of each batch it has carried out (induction over the log); the replay of the open transactions is a log whose entries of each transaction are those of the old region's; the passes send adjacent segments of the log; two histories that do the same to some keys leave the same values there.
- Status: proved — Tables whose statements are shipped as key-value batches (put and delete).  Not modelled: fulltext, vector and global indexes, merge operations, partial rollback, TTL, splits at the tail of a table and into several regions, requests sent again after the leader of the new region changed.
- Theorems: `BaikalDB.Handover.C68_sends_every_entry`, `BaikalDB.Handover.C68_rows`, `BaikalDB.Handover.C68_open_transactions`, `BaikalDB.Handover.C68_unique_entries_kept`, `BaikalDB.Handover.C68_unique_entries_untouched`, `BaikalDB.Handover.C68_ranges`, `BaikalDB.Handover.C68_as_without_split`, `BaikalDB.Handover.C68_unique_delete_counterexample`, `BaikalDB.Handover.C68_columns_counterexample`, `BaikalDB.Handover.C68_open_row_counts_counterexample`, `BaikalDB.Handover.C68_commands_are_reported`

### C69 The snapshot a peer gets from the leader is the leader's: every row and every open transaction's requests, each once and in order

- Plan: An invariant that what the receiver has and what the iterator still gives make up the stream, kept by every request, answered from the iterator, from the kept packet or after a reset; packets are whole pairs, so reading them gives the pairs back; the order of the meta keys from the order of their encodings.
- Status: proved — braft is not in the repository: that the receiver asks from where it is and takes a short answer, or one that ends at size(), for the last one is an assumption, stated in the model.  Not modelled: shutdown, errors of RocksDB, the limit of one reader at a time.
- Theorems: `BaikalDB.Transfer.C69_rows_in_order`, `BaikalDB.Transfer.C69_all_rows`, `BaikalDB.Transfer.C69_all_meta_keys`, `BaikalDB.Transfer.C69_lost_answer`, `BaikalDB.Transfer.C69_ends`, `BaikalDB.Transfer.C69_rows_not_sent`, `BaikalDB.Transfer.C69_larger_retry_counterexample`, `BaikalDB.Transfer.C69_lost_transaction_counterexample`

### C70 A peer that joins, or loads the leader's snapshot, ends up with exactly the rows and open transactions of the log

- Plan: The region of C67 with the index of the last data entry in memory and on disk; an invariant that the rows do not change between that index and where the region is; loading a snapshot re-establishes the invariant of C67, by the induction that rebuilds open transactions there, now from a disk without their first indexes.
- Status: proved — The path of followers, as in C67.  Not modelled: a crash while the snapshot is being loaded, learners, cold and column files, vector indexes, the leader changing while it sends; the leader decides by the peer that asks (the code takes the first one that is installing a snapshot).
- Theorems: `BaikalDB.Install.C70_state_is_a_prefix`, `BaikalDB.Install.C70_rows_after_the_log`, `BaikalDB.Install.C70_rows_of_the_leader`, `BaikalDB.Install.C70_rows_need_not_be_sent`, `BaikalDB.Install.C70_peer_behind_counterexample`, `BaikalDB.Install.C70_peer_restarted_counterexample`, `BaikalDB.Install.C70_interrupted_commit_counterexample`, `BaikalDB.Install.C70_truncated_log_counterexample`

### C71 Merging an empty region into its neighbour loses no row and no key

- Plan: A transition system of the two regions, the merge and the clients with requests that carry any range ever published; an invariant by the phase of the merge (which entries are in which log, which ranges, what is held up), per-key agreement of rows and open statements with what clients were told.
- Status: proved — The leaders of the two regions; PREPARE and COMMIT are one step, statements of transactions are applied when they are given to raft.  Not modelled: a split of one of the regions during the merge, entries of a lost leader that a later one commits, locks, followers, restarts, the meta server taking over the new ranges (C10) and SQL nodes (C48).
- Theorems: `BaikalDB.Absorb.C71_late_writer_counterexample`, `BaikalDB.Absorb.C71_open_transaction_counterexample`, `BaikalDB.Absorb.C71_failed_source_counterexample`, `BaikalDB.Absorb.C71_lost_answer_counterexample`, `BaikalDB.Absorb.C71_stale_read_counterexample`, `BaikalDB.Absorb.C71_rows`, `BaikalDB.Absorb.C71_transactions`, `BaikalDB.Absorb.C71_every_key`, `BaikalDB.Absorb.C71_one_writer`, `BaikalDB.Absorb.C71_closed`, `BaikalDB.Absorb.C71_only_empty`, `BaikalDB.Absorb.C71_not_merged`, `BaikalDB.Absorb.C71_completes`

### C72 After any ALTER TABLE on columns, every row has the values that the statements say

- Plan: The table as its user sees it, changed directly by each statement, beside the schema, the name map and the stored rows; an invariant (numbers unique and bounded, the map has the live columns, no row has a later number) under which SELECT * is that table, by induction over the statements.
- Status: proved — The columns of one table at its current schema.  Not modelled: types and their changes (C42), NOT NULL, adding and dropping indexes (C36), a node that still works with an earlier version of the schema, requests for several columns other than ADD (the SQL planner sends none).  NULL written into a column whose default is not NULL reads as the default (C41) and is excluded.
- Theorems: `BaikalDB.Alter.C72_lost_default_counterexample`, `BaikalDB.Alter.C72_columnar_default_counterexample`, `BaikalDB.Alter.C72_same_name_counterexample`, `BaikalDB.Alter.C72_case_counterexample`, `BaikalDB.Alter.C72_dropped_index_column_counterexample`, `BaikalDB.Alter.C72_dropped_partition_column_counterexample`, `BaikalDB.Alter.C72_dropped_ttl_column_counterexample`, `BaikalDB.Alter.C72_rows`, `BaikalDB.Alter.C72_by_name`, `BaikalDB.Alter.C72_numbers`, `BaikalDB.Alter.C72_accepted`, `BaikalDB.Alter.C72_in_use`, `BaikalDB.Alter.C72_changed_default`

### C73 A HyperLogLog sketch, and its estimate, depend only on the set of values

- Plan: Bit by bit, a 6-bit register that is written is read back and no other changes; opcodes expand to registers, and setting one sets that register; every operation is then the pointwise maximum of registers, by induction over the operations the registers of the set of hashes; the histogram of each encoding counts the registers.
- Status: proved — The formula from the histogram to the number (floating point) is a parameter, of which only the value for an empty sketch is assumed to be zero, as in the code.  The hash of a value is an input (C28).  Not modelled: byte strings that no function has made (HLL columns accept any string with the right magic), failures of allocation.
- Theorems: `BaikalDB.Hll.C73_registers`, `BaikalDB.Hll.C73_estimate`, `BaikalDB.Hll.C73_same`, `BaikalDB.Hll.C73_total`, `BaikalDB.Hll.C73_codec`, `BaikalDB.Hll.C73_size`, `BaikalDB.Hll.C73_values`, `BaikalDB.Hll.C73_merged`, `BaikalDB.Hll.C73_estimate_fn`, `BaikalDB.Hll.C73_regions`, `BaikalDB.Hll.C73_merge_raw_counterexample`, `BaikalDB.Hll.C73_merge_agg_counterexample`

### C74 A row of a partitioned table is in one partition, and every statement that can concern it looks there

- Plan: The range that the conditions so far set for the partition column, with the invariant that a row meeting them lies in it, by induction over the conditions; ranges of one kind that share no value make the partition of a value unique; the overlap test of the meta server is equivalent to sharing a value, so every statement keeps ranges apart, by induction over the statements.
- Status: proved — Integers, DATE and DATETIME as numbers of one type; constants are already cast to the type of the column and are not NULL.  The hash of a value, the partition expression and the map to lower case are parameters.  Not modelled: regions within a partition, resource tags and pre-split keys, dynamic partitions as a background job (its requests are), unstable std::sort.
- Theorems: `BaikalDB.Part.C74_modify`, `BaikalDB.Part.C74_modify_primary`, `BaikalDB.Part.C74_modify_cold`, `BaikalDB.Part.C74_modify_accepted`, `BaikalDB.Part.C74_all`, `BaikalDB.Part.C74_named`, `BaikalDB.Part.C74_insert_named`, `BaikalDB.Part.C74_truncate`, `BaikalDB.Part.C74_named_case_counterexample`, `BaikalDB.Part.C74_write`, `BaikalDB.Part.C74_one`, `BaikalDB.Part.C74_write_switch`, `BaikalDB.Part.C74_prune`, `BaikalDB.Part.C74_prune_switch`, `BaikalDB.Part.C74_readback`, `BaikalDB.Part.C74_own`, `BaikalDB.Part.C74_create`, `BaikalDB.Part.C74_create_cover`, `BaikalDB.Part.C74_create_all`, `BaikalDB.Part.C74_add`, `BaikalDB.Part.C74_drop`, `BaikalDB.Part.C74_add_accepted`, `BaikalDB.Part.C74_drop_accepted`, `BaikalDB.Part.C74_ok`, `BaikalDB.Part.C74_fresh`, `BaikalDB.Part.C74_hash_range`, `BaikalDB.Part.C74_hash_number`, `BaikalDB.Part.C74_hash_prune`, `BaikalDB.Part.C74_row_lt_counterexample`, `BaikalDB.Part.C74_like_counterexample`, `BaikalDB.Part.C74_expr_additional_counterexample`, `BaikalDB.Part.C74_expr_types_counterexample`, `BaikalDB.Part.C74_hash_negative_counterexample`, `BaikalDB.Part.C74_hash_like_counterexample`, `BaikalDB.Part.C74_add_less_counterexample`

### C75 CASE, IF, IFNULL and NULLIF return the value of the branch that applies, with its number or text kept

- Plan: The chosen branch as a relation, met by the loop by induction over the branches, with the invariant that the first value compares as before although it is cast in place; the merged type by cases on the list of types, and casts that keep every number within the range of the merged type.
- Status: proved — Doubles and the conversions between doubles, numbers and texts are parameters.  Not modelled: FLOAT, dates and times, HEX, JSON, the Arrow execution.
- Theorems: `BaikalDB.Cond.C75_choice`, `BaikalDB.Cond.C75_case_when`, `BaikalDB.Cond.C75_if`, `BaikalDB.Cond.C75_ifnull`, `BaikalDB.Cond.C75_case_expr`, `BaikalDB.Cond.C75_nullif`, `BaikalDB.Cond.C75_nullif_null`, `BaikalDB.Cond.C75_same_as_case`, `BaikalDB.Cond.C75_arity`, `BaikalDB.Cond.C75_null_counterexample`, `BaikalDB.Cond.C75_in_place_counterexample`, `BaikalDB.Cond.C75_unsigned_counterexample`, `BaikalDB.Cond.C75_bigint_unsigned_counterexample`, `BaikalDB.Cond.C75_text_condition_counterexample`

### C76 ELT, FIELD, FIND_IN_SET, MAKE_SET, EXPORT_SET, GREATEST and LEAST pick the argument they say

- Plan: Loops by induction over the arguments; the split at commas is shown to undo the join; the bits of a number by induction with the number halved; the best so far with the invariant that none of the earlier ones is better.
- Status: proved — Doubles, their order and the conversions between doubles, numbers and texts are parameters.  FIELD compares texts also for numbers, as the code does.  Not modelled: character sets.
- Theorems: `BaikalDB.Cond.C76_export_set`, `BaikalDB.Cond.C76_null`, `BaikalDB.Cond.C76_elt`, `BaikalDB.Cond.C76_field`, `BaikalDB.Cond.C76_elt_field`, `BaikalDB.Cond.C76_find_in_set`, `BaikalDB.Cond.C76_find_in_set_text`, `BaikalDB.Cond.C76_make_set`, `BaikalDB.Cond.C76_greatest`, `BaikalDB.Cond.C76_least`, `BaikalDB.Cond.C76_arity`, `BaikalDB.Cond.C76_unused_null_counterexample`, `BaikalDB.Cond.C76_greatest_counterexample`, `BaikalDB.Cond.C76_empty_set_counterexample`

## What the code does that a user would not expect

Found while transcribing the code.  "(thm)" marks those with a `..._counterexample` theorem or a theorem whose hypotheses exclude
exactly that case; the others are readings of the source that lie outside the modelled part.

Keys and rows
- NaN and -0.0 do not encode to keys in the order of the values; a string key with an embedded NUL byte is cut (thm).
- The null flag of a rollup row is not written (table_record.cpp 210); the null bit of a column index above 7 is shifted by a negative amount.
- Turning TTL on makes old unique entries and old primary rows misread; a TTL time stamp ≤ 0 writes no prefix although the reader strips one (thm).
- The split compaction filter works with a stale TTL setting when it was changed after the filter was made.
- NULL in a column with a non-NULL default reads back as the default; column storage drops HLL, BITMAP and TDIGEST values.
- `verification_fields` can loop forever when a length makes the 64-bit offset wrap.
- An index column made nullable by MODIFY COLUMN has no entries for the NULL rows, so an index scan misses them.

Time stamps and automatic ids
- `gen_tso` retries without checking that it is still leader: duplicate time stamps after a step-down (thm).
- The thread of `on_leader_start` can set the leader flag after `on_leader_stop`; `_is_healty` stays false after a failed start.
- A reset to the same millisecond lowers the logical part; a reset that saves less than the physical part, followed by a snapshot restore, repeats time stamps.
- The fallback clock: operator precedence makes the carry and the instance id dead code; a clock set back repeats time stamps.
- Automatic ids: uint64 wrap of `start_id + 1`, a forced update may go back, explicit ids above 2^63-1 are ignored, a negative count is accepted.

Caches and raft storage
- The LRU cache keeps max(1, T-1) entries, not T.
- `append_entries` failing on the term map after the DB write leaves a storage that cannot be reopened; `truncate_suffix` ignores a failed DB write; `reset` with next ≤ first leaves first unchanged.

Expressions
- Comparison of signed with unsigned, of narrow columns with IN lists, of fractions with integer columns uses a type that loses the difference (thm).
- NaN compares equal to everything; 0.0 and -0.0 hash differently; the hash of a value set sees stale union bytes.
- `a NOT IN (IFNULL(NULL,1),2)` keeps the NULL flag; row comparison never yields NULL; row IN with a NUL byte inside a string component collides; doubles in IN lists are keyed by their printed form.
- `float_col IN (0.1)` is true where `float_col = 0.1` is false.
- WHERE simplification: `(a=1 AND a=1 AND b=2) OR (a=5 AND b=6 AND b=6)` loses the row (5,6); `(a,a)=(1,2)` becomes `a=1`; a NULL bound is dropped as weaker (thm).
- LIKE: a trailing backslash becomes an equality through the index; a GBK trail byte 0x5C counts as an escape in the index prefix; an all-0xFF prefix gives an empty range (thm).
- `lt_le_less` and `gt_ge_less` are not strict weak orders.
- TopN with limit 0 is undefined behaviour; `SortNode` stops at an empty batch that is not the last one.

Dates
- `PERIOD_DIFF` is always 0; WEEK in the 4-day modes is wrong at the end of the year; DATEDIFF, TO_DAYS and DATE_ADD go through uint32, so dates before 1970 or after 2106 are wrong; TIMESTAMPADD and CONVERT_TZ wrap.
- Adding a negative multiple of 12 months is one year off (thm); non-existent days roll over; MINUTE and SECOND of a negative TIME mask the two's complement.
- `str_to_datetime` reads past the buffer when the text has leading blanks; binary dates: year 70 is not 1970, year 0 becomes 2000; microseconds are dropped in binary results.

Regions
- A split interrupted after the child is activated, and a merge failing after the destination was extended, leave two regions that accept the same keys.
- Tail split boundaries wrap at the INT32 maximum; the first and last region are never merged.
- The meta server's map: a stale entry for a new region makes one id occur twice in a request (hole); an empty merged region lowers the smallest start key and erases entries (thm).
- The SQL layer inserts an unknown region after checking only its predecessor for overlap.

Transactions
- A recovery query built before PREPARE and answered after the primary committed rolls a prepared region back (thm).
- A primary without writes (its first statement met a duplicate key) leaves no mark when it rolls back: prepared regions then commit (thm).
- The mark of a finished transaction is in memory and dropped after 10–20 minutes: a delayed duplicate executes and commits again (thm).
- A killed COMMIT reports failure although the transaction may have committed.
- A leader pops the save points of given-up statements for a request that then fails, without replicating that; followers catch up at the next request (this is why C35_open speaks of the newest end).

Aggregates
- RB_AND_AGG: a region whose values are all NULL, arriving first, counts as the empty bitmap; arriving later it is ignored (thm).
- Several DISTINCT aggregates: a region whose values are all NULL sends an empty string, which `multi_distinct_unserialize` reads as a header (thm).  SUM over no rows is 0 and GROUP_CONCAT over no rows is '' instead of NULL (thm).  The sum of unsigned or string values is taken in INT64.
- GROUP_CONCAT with ORDER BY or DISTINCT omits the separator after leading empty strings (thm).
- GROUP BY with more than 8 columns shifts by a negative amount (thm); two string columns with NUL bytes can merge different groups (thm).
- AVG(DISTINCT b) is not counted by `check_multi_distinct`: with COUNT(DISTINCT a) the single-distinct plan groups by (g, a, b) and both count distinct pairs.


Joins and subqueries
- Hash LEFT JOIN with a further ON condition adds a NULL row for each key-equal pair that fails it, also beside matches (thm).  Over the apply node such a pair gives two rows (thm).
- Nested-loop LEFT JOIN: when the output batch fills right after a match and no later inner row matches, the driving row also comes out with NULLs, for any batch size (thm).
- Nested-loop INNER JOIN under LIMIT: after the first match each inner row visited counts as returned, so fewer rows than LIMIT come back (thm).
- `NOT IN (subquery)` and `<> ALL` treat an UNKNOWN comparison as no match: rows come out that SQL excludes (thm).
- Multi-column keys: an outer NULL appends nothing to the key, so (NULL, s) can meet (n, ''); strings with NUL bytes can meet unequal ones (thm).
- JSON columns have an empty key: every row meets every row (thm).  Columns of different kinds meet as text: 1 does not meet '01' (thm), a DATE no DATETIME.
- The set of outer keys compares a stored NULL equal to a new 0 or '' of the same bucket: that key is left out of the IN filter and its partners are lost (thm).
- A subquery run per outer row relies on the IN filter alone, whose literals are cast to the inner type: 300 finds a TINYINT 44 (thm).
- Row IN filters print doubles with 12 digits: 0.0 does not find -0.0 (thm).

MySQL protocol
- Binary rows: a TIME of whole days (24:00:00) is sent as zero (thm); DATETIME microseconds are dropped (thm); TIMESTAMP 0 is 1970-01-01 08:00:00 in binary rows and 0000-00-00 in text rows (thm).
- SHOW rows: an empty string is sent as NULL (thm); a row of 16 MB or more gets a header of the wrong length (thm).
- Prepared statements: a TIME parameter of zero swallows the next byte, shifting all later parameters (thm); TIME microseconds are dropped, years below 100 change (thm).
- A COM_STMT_EXECUTE that ends before its types, or with a string length near 2^64, makes the server read outside the packet (thm, both).

Index ranges
- `b = 5 AND (a, b) = (1, 2)` on KEY (a, b) returns the row (1, 2): the row equality replaces `b = 5` but the range is taken to stand for both (thm).  `(a, b) = (1, 2) AND a = 5` and `(a, b) IN ((1, 2)) AND a = 5` return (5, 2) (thms).
- `(a, a) = (1, 2)` returns the rows with a = 2 (thm).
- `a IN (1, 2) AND c LIKE 'x%'` on KEY (a, c): the upper end of each range has the prefix twice, so (1, 'xz') is not found (thm).
- `(c, b) > ('x', 1) AND (c, id) < ('x', 5)` on KEY (c, b), PRIMARY KEY (c, id), c text: rows are lost (thm).
- MATCH on column a with `b = 1` on KEY (a, b): the whole index is read and `b = 1` not evaluated (thm).
- `(a, b) > (1, NULL)` is answered with no rows although rows with a > 1 qualify (thm).
- LIKE on a column that is not text: `a LIKE '05'` becomes a = 5 (not modelled).

Scans
- The upper end of a closed range is the key with 24 bytes FF behind it: an entry whose further columns are all FF for 24 bytes (three BIGINT columns at the maximum, or a text of FF bytes) is not found, e.g. a = 1 on KEY (a, b, c, id) with b, c, id at their maximum (thm, both directions).

Online index changes
- The stores are told that an index must be written, but only SQL nodes are waited for; UPDATE does not carry `ddl_need_write`, so on a store that has not heard of IS_WRITE_ONLY it removes the old entry and writes none: the public index has lost the row (thm).
- A rollup index whose partition has no range becomes public with nothing filled (thm); the same if the table's schema cannot be read (ddl_manager.cpp:1024-1027).
- SQL nodes the meta leader does not know (it was just elected, or they take no DDL work) are not waited for (thm).
- Reports of filling tasks are matched by table and region only: a late report for an earlier index of the table ends the work of the present one (thm).  The same holds for answers about waiting for transactions.
- With `ddl_need_write` set for an index being added, INSERT also checks and writes a UNIQUE index that lingers in IS_DELETE_LOCAL after DROP INDEX (dml_node.cpp:361-408): spurious duplicate-key errors (not modelled).
- `write_only_time` is taken before the new schema is visible (schema_factory.cpp:1043-1049): a transaction that begins between counts as new but plans with the old schema (not modelled).
- If the change to PUBLIC is lost after the work was marked finished, the work is deleted and the index stays in IS_WRITE_LOCAL (not modelled).

Joins rewritten by the planner
- ON conditions of an outer join are taken to convert joins on its preserved side: `a LEFT JOIN b ON a.id = b.id LEFT JOIN c ON b.x = 1` loses the rows of a without partner in b (thm).
- Conditions taken to reject NULL that do not: nullif and other registered functions outside the list of five, IS NOT TRUE, NOT (a.x = 1 AND b.y = 2), b.x = 1 OR TRUE, a.x IN (b.y, 5) (thms).
- `a FULL JOIN b ON ... WHERE 1` becomes a LEFT JOIN (thm).
- In a correlated subquery over an outer join the correlated WHERE condition is dropped (join_node.cpp:70-85, 111) (thm).
- A condition that is never true empties the whole query, also when it stands in the ON clause of an outer join: `a LEFT JOIN b ON a.id = b.id AND 1 = 2` has no rows (thm).
- Join reorder leaves out a table that is in no equality: `a, b, c WHERE b.id = c.id AND b.k = 5` with an index on b.k returns rows of b and c only (thm).

LIMIT in the plan
- `a FULL JOIN b ... LIMIT n` reads only n rows of each side (limit_calc.cpp:57-66): rows get NULL partners though they have partners (thm).
- HAVING without GROUP BY is moved below an outer join together with SORT, because only WHERE and TABLE filters are looked at (separate.cpp:428-431, 469-474): `a LEFT JOIN b ... HAVING b.x = 3 LIMIT 5` has no rows (thm).
- ORDER BY and LIMIT over `c RIGHT JOIN (a LEFT JOIN b ...)`: the second rearrangement takes `parent->children(0)` (separate.cpp:483) for the chain, which is the other side of the RIGHT JOIN; tables c and a change places and a gets no request to the stores (thm).

DML in a region
- `INSERT ... ON DUPLICATE KEY UPDATE` that changes the primary key to one of another region deletes the row: `insert_row` gets -3 and returns 0 (dml_node.cpp:286-289), `update_row` reports success; only UPDATE takes the global flow in that case (thm).
- In a column store without TTL, ON DUPLICATE KEY UPDATE reads only the fields of changed indexes (dml_node.cpp:178-207; `add_delete_conditon_fields` is for UPDATE and DELETE): `cnt = cnt + 1` is computed from NULL (thm).
- In a column store with TTL, INSERT over an expired row skips columns with the default value (put_primary_columns, transaction.cpp:1584-1646), so the expired row's values show (thm).
- `UPDATE ... SET f = NULL` on a column with a default value: the row then shows the default value, the index entry is written with NULL; later statements leave the entry behind (thm).
- A UNIQUE index refuses a second row with NULL, unlike SQL (thm).
- UPDATE outside of a transaction commits every batch but the last on its own (update_node.cpp:96-135): after an error earlier batches stay changed (thm).
- Not modelled, seen while reading: with the hint to keep a row's TTL, the member `_ttl_timestamp_us` stays overwritten, so later new rows of a multi-row INSERT ... ON DUPLICATE KEY UPDATE get an earlier row's TTL; assignments see the old row (MySQL: left to right); ON DUPLICATE KEY UPDATE always counts 2; a local UNIQUE index is unique within a region only.

Accounts and privileges
- `UserInfo::allow_op` consults privileges only if `acl_database.count(db) > 1` (never true for a std::map) or the table has an entry of its own (user_info.h:200-206): GRANT ... ON db.* and ON *.* have no effect, except that an entry for a database without a level counts as READ: GRANT INSERT ON a.* allows SELECT and not INSERT (thm).
- Levels are also looked up by bare table name (user_info.h:107-131): WRITE on a.t allows writing to b.t (thm).
- REVOKE INSERT on a table where the account has the WRITE level sets an empty set of privileges, after which everything on the table is refused (thm); a superuser granted SELECT on a table can no longer write to it (thm); a REVOKE that lowers a level loses the privileges held beside it (thm).
- DROP USER never reaches the SQL nodes: the account can still log in (thm). Created again, its version starts at 1 and nodes keep the old password and rights (thm).
- An account holding every privilege and GRANT OPTION may not GRANT (the second check is made without database and table and falls back to levels), while an account with no privileges at all may GRANT, CREATE USER and DROP TABLE under default flags (thm).
- CREATE VIEW, RESTORE TABLE and other statements without an assigned privilege need none (thm).
- REVOKE of single privileges takes the account off `_db_user_map` although its entry stays; a replica that loads a snapshot lists it again; DROP DATABASE then leaves the replicas with different records (thm).

The SQL node's region map
- If a region splits and the split-off part merges into the next region before a node hears of it, the node is told two newer regions, neither of which has a matching end with what it knows, and it takes over neither, in this and in all later heartbeats (update_regions_table, schema_factory.cpp:1452-1498) (thm).
- A region not known so far that starts where a known one starts (the known one has merged into it) is entered in `region_info_mapping` but not in `key_region_mapping` (`insert` does not overwrite, 1300-1307): it is never routed to, later heartbeats find it known at the same version, and when it splits, half of it is entered, so that keys belong to two entries (thm).
- After a deletion a gap stays, and an unknown region is checked against its left neighbour only (1437-1447): it may overlap the right one (thm).

Binlog
- A prewrite that arrives after the written check point has passed its start timestamp is forgotten by a restart, which scans from the check point on (region_binlog.cpp:445-475, 517-595): readers go past the transaction and never get it (thm).
- A peer that takes over a snapshot keeps its `max_ts_applied` and skips records older than it, open prewrites among them (478-514, 606-609): the transaction is lost for readers of that peer (thm).
- `binlog_update_check_point` after a restart writes `max_ts_applied`, which is -1 if the first record scanned is a commit (788-828): after the next restart the region opens anew at the next fake record, and what was open is forgotten (thm; needs the 10 s interval to have passed at that time).
- A prewrite before the first fake record is not entered in the map (667-696): its transaction is lost or stops readers with an error (thm).
- The timeout check commits with the last commit timestamp of all the partitions of a transaction, or with a new timestamp if the primary region no longer knows it (fetcher_store.cpp:210, binlog_context.h:116-123, region.cpp:731): if the SQL node's commit arrives as well, the transaction is handed out twice (thm).
- Not modelled, seen while reading: a failed write of a record is answered with SUCCESS (941-960); in flash-back mode the `continue`s at baikal_capturer.cpp:275-283 do not pop the queue, so a filter by user or transaction never ends; commits written by the timeout check lack the fields flash-back reading filters by.

Date functions
- `calc_week` decides whether the last days of a year belong to week 1 of the next by `contain_days`, which is that of the current year (internal_functions.cpp:2018): with four-day weeks every day of a week 53 is given as week 1 of the following year, WEEK('2020-12-31', 3) = 1 and YEARWEEK('2021-01-01', 3) = 202101, and 2012-12-31 (2013-W01) is given as 201253 (thm).
- PERIOD_DIFF reads both periods from its first argument and is always 0 (1398-1401) (thm).
- DATEDIFF, TO_DAYS, TIMESTAMPDIFF and the like go by way of TIMESTAMP: dates before 1970 count as its first second, DATEDIFF('1960-03-01', '1960-02-01') = 0, DATEDIFF('1970-01-03', '1970-01-01') = 1 (thm); TIMESTAMPDIFF over more than 68 years has the wrong sign (thm).
- MINUTE and SECOND of a negative TIME look at the two's complement: MINUTE('-01:02:03') = 61 (thm).
- DATE_FORMAT: %u counts weeks from the first Monday, %V is the ISO week, %x and %X are the calendar year and not the week's, %f is always 000000 (thm); a result of 128 characters or more is read from a buffer that was not filled.

String functions
- CHAR_LENGTH counts characters of one and two bytes only; those of three and four bytes count 0, CHAR_LENGTH('中文') = 0 (internal_functions.cpp:3203-3238) (thm).
- SUBSTR, LEFT, RIGHT, REVERSE, INSERT, LPAD, RPAD, LOCATE and INSTR count bytes and can cut UTF-8 characters (thm); LOWER changes the second byte of GBK characters (thm).
- LEFT, RIGHT, TRIM, LTRIM, RTRIM, INSERT and REPLACE read the string field of the value without a cast: of a number they see '' (thm for LEFT).
- INSERT with length 0 or less inserts nothing; REPEAT(s, 0) and SPACE(0) are NULL; TRIM(NULL) is '' and LPAD(NULL, n, p) pads ''; FIND_IN_SET('', '') = 1; CHAR(0) is empty (thm); CONCAT_WS of NULLs only is NULL; MAKE_SET, ELT, FIELD and CHAR are NULL when any argument is.
- SUBSTRING_INDEX with a negative count looks for the delimiter from the left: SUBSTRING_INDEX('aaa', 'aa', -1) = 'a' (thm).
- FORMAT of a negative number with 3, 6, ... digits has a comma behind the sign, '-,123' (thm).
- fn_manager.cpp registers SHA and SHA1 as MD5; RB_FLIP with several positions flips the first of them each time.

Statements on tables with global indexes
- INSERT IGNORE drops a record because of an earlier record of the statement that is itself dropped: VALUES (1,'a'), (2,'a'), (2,'b') with a UNIQUE second field inserts only the first (insert_manager_node.cpp:864-906) (thm).
- ON DUPLICATE KEY UPDATE: a record whose only conflict is with an earlier record of the statement that was itself absorbed by a stored row is lost: its update is applied to a record that is not inserted (557-569) (thm).
- ON DUPLICATE KEY UPDATE follows a null pointer when two records have the same stored row in their way through two UNIQUE indexes and the primary key of the row is not among the records' (`reverse_main_table` registers only the first index, 737-755, and 552 reads the other) (thm).
- The erasing of records from the key sets at 899-906 works on copies and has no effect.
- Seen, not modelled: the affected rows of REPLACE count a stored row once for each record that conflicts with it by primary key but only once by a UNIQUE index.

Operators
- Next to an integer column a constant is converted to an integer: with x = 1, `x = 1.5` is true and `x < 1.5` false (scalar_fn_call.cpp:66-69, 110-115); the same for '1.5' (thm).
- Next to an unsigned column or operand a negative number counts as a huge one: `u > -1` is false (fn_manager.cpp:325-330) (thm).
- `'1.5' + 1` is 2 and `5.5 % 3.0` is 2: text in arithmetic and doubles in % are converted to integers (fn_manager.cpp:347-366) (thm).
- Undefined behaviour from SQL: signed overflow, the smallest BIGINT % -1, shifts by 64 or more, the negation of an unsigned 2^63 (operators.cpp) (thm).
- Unsigned subtraction wraps, and so does unary minus of an unsigned number (thm).
- Numbers from 2^63 on in SQL text become negative: `x < 9223372036854775808` is false (sqlparser/expr.h:299) (thm).
- Rows treat NULL as a value: `(NULL, 1) = (NULL, 1)` and `('', 1) = (NULL, 1)` are true (scalar_fn_call.h:61-70) (thm).

Window functions
- `ROW_NUMBER() OVER (ORDER BY a), SUM(b) OVER (ORDER BY a)`: the windows are merged by their text, and the merged one has the frame of the first function, which has none, so SUM is over the whole partition; in the other order both are right (select_planner.cpp:1501-1531, logical_planner.cpp:2384-2437) (thm).
- Numbers in frames are narrowed to `int`: ROWS 4294967297 PRECEDING means 1 PRECEDING, and NTH_VALUE(b, 4294967297) is the first value (window_node.cpp:344-393, window_fn_call.cpp) (thm).
- `ROWS BETWEEN CURRENT ROW AND 2147483647 FOLLOWING` and LEAD with offset 9223372036854775807 overflow from the second row on (undefined) (thm).
- A frame clause without ORDER BY, and one for a function that ignores frames, is an error (MySQL takes both) (thm: the accepted windows).
- Partitions go by a key of bytes: strings with NUL bytes can fall into one partition, and from the ninth item on the NULL flag is a shift by a negative number (exec_node.cpp:555-571) (thm).
- An empty batch from the child that is not the last ends the current partition (window_node.cpp:149-176) (thm).

Subqueries
- `x NOT IN (SELECT ...)` with a subquery without rows becomes NOT IN (NULL) and selects nothing instead of everything (logical_planner.cpp:2979-2998) (thm).
- `x <> ANY (SELECT ...)` is replaced by FALSE when the values differ, where it is TRUE for every x that is not NULL (3140-3159, 3229-3240) (thm).
- `x = ALL (0, NULL)` is true for x = 0: the NULL is compared as the number 0 (3092-3111) (thm).
- `x > ALL (S)` ignores NULLs in S and is TRUE for S = (NULL) (3175-3195); `x < ALL (S)` for an empty S selects nothing (thm).
- `SELECT MIN(a)` is planned as ORDER BY a LIMIT 1, where NULLs come first: with a NULL in the column the minimum is NULL (select_planner.cpp:394-448), and `x > ANY (SELECT a ...)` selects nothing (thm). The user's LIMIT and OFFSET are overwritten by LIMIT 0, 1.
- Seen, not modelled: in vectorized execution the number of children of `= ANY` and `<> ALL` is taken from the row-mode result (3122, 3171), which is empty, so the expression is malformed.

Correlated subqueries
- `add_group_expr` (agg_node.h:65-77) skips a column whose slot id is already used, without looking at the tuple; the set starts with the slot ids of the aggregate functions (agg_node.cpp:45-49), and ids count from 1 in every tuple. `x = (SELECT MAX(b.a) FROM b WHERE b.a = t.a)`, `... SUM(1) ... WHERE b.a = t.a` and correlated columns of two tables with the same id are therefore not grouped: MAX is over rows of all groups and rows are lost or wrongly selected (thm, two forms).
- `0 = (SELECT COUNT(b.y) FROM b WHERE b.a = t.a)` and `EXISTS (SELECT MAX(...) ...)` do not select outer rows without rows in b: the row of the empty group is gone (only COUNT(*) is exempted, apply_node.cpp:170-176) (thm).
- A correlated condition that is not `column = ...` below an aggregation (`b.a < t.a`, `b.a + 1 = t.a`) is tested on one row of the aggregation of everything (118-135) (thm).
- `x IN (SELECT ... WHERE b.a = t.a LIMIT 1)`: the limit applies to all rows of b; with GROUP BY the LIMIT is deleted (143-158) (thm).
- `x = (SELECT b.y FROM b WHERE b.a = t.a)` does not fail with several rows unless several equal x; with a correlated condition that is no equality of columns it fails although there is one row (413-436); with GROUP BY it never fails (108-110) (thm).

Derived tables and unions
- A condition that is just a column (`SELECT * FROM (SELECT b1, b2, COUNT(*) FROM b GROUP BY b1) t WHERE b2`) is moved below the aggregation although it is not a grouping column, and below windows although it is not a partition column: `get_all_subquery_tuple_slot_ids` looks at the children of an expression only (expr_node.cpp:300-330) (thm, two forms).
- A condition on a constant column of an aggregation without GROUP BY is moved below it: `SELECT * FROM (SELECT 7 AS c, COUNT(*) FROM b) t WHERE c = 8` returns the row (7, 0) (dual_scan_node.cpp:642-713) (thm).
- With enable_agg_pushdown (off by default): `SELECT COUNT(*) FROM (SELECT ...) t WHERE 0` has no row instead of one (agg_node.cpp:361-404) (thm).
- Seen, not modelled: the branches of a union are not cast to common types (TODO in union_node.cpp:222).

Regions that split and merge during a query
- A merged region answers VERSION_OLD with the region it was merged into only (region.cpp:482-494), not with the regions split off it before. A SQL node whose info is from before two splits and a merge asks only that one: the rows of the other new region are lost without an error (thm).
- Batches are kept by region id (fetcher_store.cpp:1104-1114). If a region has been read, splits, and the empty region before it is merged into it, the request for the empty one leads to it again and its second batch replaces the first: rows are lost; if the first answer arrives last, rows are returned twice (thm, two forms).
- A replica that loads a snapshot clears the list of regions split off (region.cpp:5487). With a later split the list is not empty, the answer passes the check of handle_version_old, and rows of the earlier new region are lost without an error (thm). Without a later split the query fails ("store region not overlap local region").

Full-text search
- `CommRindexNodeParser::_init` compares the first node of a term with the end of the region's range only if the range has a start (reverse_interface.hpp:31-68). In the first region of a table, after a split and until what is out of the range is removed, a search gives the key of a row that belongs to the new region (thm).
- Entries of level 1 are ordered by the local clock at the time of the write (reverse_index.hpp:641-675). If the clock goes back between an insert and a delete of the row, the deleted row is found; the order in the raft log is not used (thm).
- An operand of AND without executor, a search for a text that has no terms, is left out (reverse_index.cpp init_operator_executor, logical_query.hpp): `MATCH(a) AGAINST ('x') AND MATCH(b) AGAINST ('')` gives the rows of the first, while the second alone gives none (thm).
- Seen, not modelled: a term with a NUL byte is cut at it when level 1 is merged (get_term_from_reverse_key), so its rows move to another term; with the cache on, a reader that has cached level 3 before a merge does not see the rows that the merge moves from level 2 to 3 until the end of the merge pass.

LIKE by a full-text index
- LIKE on a column with a full-text index is not checked again on the rows found (access_path.cpp:643-648): with bigrams `LIKE '%aba%'` finds `ba ab` (thm), and `LIKE 'ab'` without '%' finds `cab` (thm): the result of the same query differs from that without the index.
- EXACT LIKE is checked again, but the index loses rows: strings shorter than a term (thm), strings of punctuation only (thm), wildcards inside the string, which are searched for as characters (thm), and `EXACT LIKE '%'`, which finds nothing (thm).
- EXACT LIKE splits its pattern at every '|' byte (predicate.cpp:336), also inside a GBK character whose second byte is 0x7C; the part after it becomes '%', so the condition holds for every text (thm).

Restart after a crash
- The mark that COMMIT and ROLLBACK write before they change the rows (`pre_commit_key`) is left on disk when the restart finds the transaction still prepared (region.cpp:5230-5231, only the other branch clears it). If the store dies again before the PREPARE has been applied again, the next restart takes the mark for a finished commit, skips the transaction, and its rows are lost on this replica (thm).
- Replaying an open transaction writes the index of its first entry as the applied index (meta_writer.cpp:273-286); it is put right after the replay (region.cpp:5514-5518). If the store dies in between, all entries after that index are applied again: a merge is added twice (thm).
- One-phase commit: if the store dies between the commit and write_meta_after_commit, the restart finds an OP_PREPARE at the marked index, which it does not accept (region.cpp:5253); it forgets the transaction but does not move the applied index, so the later statements and the commit are applied again (thm), and the row count is too small (thm).
- Statements replayed at a restart do not count their rows (`term != 0`, region.cpp:4092): after the commit the region's row count is too small (thm). The count decides splits and the statistics.
- The leader sends the sum so far with each statement of a transaction (region.cpp:1162), followers add these sums up (region.cpp:4093-4095): two statements of one row each count three (thm).
- Seen, not modelled: statements shipped as plans are executed again on later rows; the log may be truncated below the first entry of an open transaction.

Splitting a region
- A delete of a UNIQUE index entry is shipped without a value (transaction.h:632-638), and a region that is being filled decides by the value whether the entry is its own (transaction.cpp:326-333): an entry deleted during the split stays in the new region, and the value can never be inserted again there (thm).
- `check_key_fits_region_range` reads an index id from the key (region.cpp:3903-3909); the keys of columns of a ROCKSDB_CSTORE table have the table and the column there, no index is found and the write is dropped: columns written during the split are lost or have their old value (thm).
- `get_cache_plan_infos(_, true)` never sets `has_applied` and always returns -1 (transaction.h:388-402), so `update_txn_num_rows_after_split` is never given anything: the old region counts the rows that open transactions have added to the new one (thm).
- Seen, not modelled: the empty request that asks for the applied index has no attachment, `attachment_datas[idx]` is out of bounds (region.cpp:7283-7310); if the new region answers NOT_LEADER without a leader, the position to go on from is not taken over and entries are sent twice (7316-7320); for a UNIQUE index with `overlap` the empty value of a delete is read past its end (get_full_primary_key).

Sending a snapshot
- The packet kept for a repeated request is given back whatever size is asked for (rocksdb_file_system_adaptor.cpp:146-155); if that is more than it was, the answer is short, braft takes it for the end of the file and the rest of the rows is missing on the new peer (thm).  The size only changes if raft_max_byte_count is changed at run time or a throttle is set.
- If the log entries of an open transaction cannot be read, `done` is set and the loop goes on (rocksdb_file_system_adaptor.cpp:210-218): the peer never learns of the transaction, its PREPARE and COMMIT do nothing there; and as `size()` is then the current offset, the transfer can end in front of the remaining meta keys (thm).

Loading a snapshot
- The leader leaves out the rows if its data index is below the peer's next_index (rocksdb_file_system_adaptor.cpp:694-696), the peer removes its rows if its own data index, of what it has applied, is smaller than the leader's (region.cpp:5368-5378): a peer that has got the last data entry but not applied it removes all rows and gets none (thm).
- After a restart the data index is the one on disk, which a further statement or PREPARE of a transaction does not write: such a peer, too, removes all its rows and gets none (thm).
- A restart that completes an interrupted commit writes the index of the commit with the old data index (region.cpp:5259-5260): the leader then takes the commit for an entry that changes no rows, does not send its rows to a peer that lacks it, and the peer skips it: the commit is lost on that peer (thm).
- Entries of an open transaction below the first index of the log are left out without an error (log_entry_reader.cpp:69-107); truncate_prefix does not look at open transactions: the transaction commits on the new peer without them (thm).
- Seen, not modelled: `need_copy_data` is decided by the first stable follower that is installing a snapshot, not by the one that asks (rocksdb_file_system_adaptor.cpp:685-693), and is kept for later readers of the same snapshot; the size check is skipped when either size is 0 (region.cpp:5661-5672).

Merging an empty region
- A statement waits for _disable_write_cond and only then increases _real_writing_cond (region.cpp:1104-1114, 769-792): one that is between the two is seen by neither side of the merge, passes the version check, is applied after the region was found empty, and its row is lost when the region's empty range is applied; the split has a check for this when its last entry is applied (region.cpp:4735), the merge has none (region.cpp:4685-4721) (thm).
- Open transactions do not keep a region from being merged (region.cpp:5994-6012 looks at committed rows and the applied index only).  The next command is turned away with VERSION_OLD and sent to the destination; `last_seq_id` is read there (fetcher_store.cpp:730) but no store sets it, so no earlier statement is sent again, and COMMIT brings none in any case (fetcher_store.cpp:228): the transaction commits without its rows (thm).
- If the source fails to apply its empty range, or gets no answer after the destination has taken the keys, both regions keep the keys (closure.cpp:150-152 is a TODO): rows written to one are not found at the other, and a source with a row is never merged again (thm).
- Between the two changes of range a client that knows the old range of the source does not see rows that the destination has acknowledged (thm).

ALTER TABLE on columns
- MODIFY and CHANGE COLUMN without a DEFAULT clause send the default `__NULL__` (ddl_planner.cpp:300-305), which removes the default of the column (table_manager.cpp:2865-2871); rows from before ADD COLUMN ... DEFAULT do not store the column and turn from the default to NULL (thm).
- In column storage a value equal to the default is not stored (table_record.cpp:360-491), so a changed default changes values that were written explicitly (thm).
- ADD COLUMN looks each name up in the map from before the request (table_manager.cpp:2553): two columns of one name in one statement are accepted (thm), and the protobuf descriptor of the table can then no longer be built (schema_factory.cpp:869).
- Names are compared by case in the meta server and without case in the SQL node: a column that differs by case only can be added, statements that name it work on the other one (thm).
- CHANGE COLUMN does not rename the column in the indexes (table_manager.cpp:2902-2907), unlike RENAME; DROP COLUMN looks for the name there, so a column of an index can be dropped afterwards (thm).
- RENAME and CHANGE do not follow the names kept for the partition and the TTL column; they can be dropped afterwards (thm), and a node that loads the table after the rename of the TTL column fails on it (schema_factory.cpp:741-750).
- CHANGE COLUMN with the same name (to change the type) is refused as `already exist` (table_manager.cpp:2793).

HyperLogLog
- `hll_merge` has no case for a raw first sketch (hll_common.cpp:791-800): HLL_MERGE(HLL_ADD_AGG(x), s) returns the first argument and drops `s` unless `s` is dense; with the arguments exchanged nothing is lost (thm).  The result of HLL_ADD_AGG is raw unless the flag transfor_hll_raw_to_sparse is set, which it is not by default.
- `hll_merge_agg` of a raw sketch into one that is not raw writes one byte per register over 6-bit registers and behind the end of the string (hll_common.cpp:656-661) (thm).  The aggregates start from a raw sketch.

Partitioned tables
- WHERE (a, b) < (5, 3) with partition column `a`: the range takes over the open right end of the row comparison (index_selector.cpp:313-338, schema_factory.h:660-668), so the partition that starts at 5 is not read although it may have (5, 2) (thm).
- LIKE on an integer or date partition column puts its literal part into the equality values as text (index_selector.cpp:676-713); compared with a number it is below or above every range, so no partition is read and no row found (thm).
- On a table partitioned by an expression a range condition selects all partitions that are not additional, of any type (schema_factory.h:620-625): rows in additional partitions are missed, rows of the other copy are returned (thm).  Equalities and no condition at all follow the account settings.
- PARTITION BY HASH of a negative number: the remainder of the language is negative, the INSERT fails and a query for the value is an error (schema_factory.cpp:3567-3581) (thm).
- LIKE without wildcards on a numeric hash partition column hashes the text, not the number (thm).
- ADD PARTITION ... VALUES LESS THAN is converted to a range from the least value of the type (meta_util.cpp:408-440) and refused when there is a lower partition of the kind (thm); only the range form can extend a table.
- Partition names are compared by case at the meta server (schema_manager.cpp:1441-1446, table_manager.cpp:1474) and kept in lower case in the SQL node (schema_factory.cpp:3709-3711): with `P1` and `p1`, PARTITION (P1) means `p1`, for SELECT, DELETE and TRUNCATE alike (thm).

CASE, IF, IFNULL, NULLIF
- `case_expr_when` and `nullif` compare with NULL as with zero or the empty text (expr_value.h:892-944): CASE 0 WHEN NULL, CASE NULL WHEN NULL, CASE '' WHEN NULL match, NULLIF(0, NULL) is NULL (thm).
- `compare_diff_type` casts in place (expr_value.h:954-989), and `case_expr_when` (internal_functions.cpp:2367-2381) uses the changed value for the next WHEN: CASE '01' WHEN 5 THEN 'a' WHEN '1' THEN 'b' ELSE 'c' END is 'b', without the first branch it is 'c' (thm).
- A negative number beside an unsigned type is compared as unsigned: CASE -1 WHEN 18446744073709551615 matches (thm).
- BIGINT UNSIGNED beside a signed branch becomes DOUBLE (type_utils.h:550-555), so IFNULL(id, 0) of an unsigned key loses digits above 2^53 (thm).
- A text as a condition is read as an integer (expr_value.h:373-375): IF('0.5', a, b) is b (thm).

ELT, FIELD, FIND_IN_SET, MAKE_SET, GREATEST, LEAST
- `elt`, `make_set` and `field` return NULL for a NULL in any argument (internal_functions.cpp:3189, 3048, 3265), also in one that is not chosen; FIELD(NULL, ...) is NULL, not 0 (thm).
- GREATEST and LEAST convert to double (internal_functions.cpp:265-317): texts are read as numbers, BIGINT loses digits above 2^53 (thm).
- FIND_IN_SET('', '') is 1, since the split of an empty text has one empty part (internal_functions.cpp:2973) (thm).

## Axioms

Output of `#print axioms` for every theorem named in MANIFEST.json, grouped by the set of axioms.

- **`Classical.choice`, `Quot.sound`, `propext`** (481 theorems): `KeyEnc.C01_order_i8`, `KeyEnc.C01_order_i16`, `KeyEnc.C01_order_i32`, `KeyEnc.C01_order_i64`, `KeyEnc.C01_order_u8`, `KeyEnc.C01_order_u16`, `KeyEnc.C01_order_u32`, `KeyEnc.C01_order_u64`, `KeyEnc.C01_order_bool`, `KeyEnc.C01_range_scan_i64`, `KeyEnc.C02_roundtrip_i8`, `KeyEnc.C02_roundtrip_i16`, `KeyEnc.C02_roundtrip_i32`, `KeyEnc.C02_roundtrip_i64`, `KeyEnc.C02_roundtrip_u8`, `KeyEnc.C02_roundtrip_u16`, `KeyEnc.C02_roundtrip_u32`, `KeyEnc.C02_roundtrip_u64`, `KeyEnc.C02_roundtrip_bool`, `KeyEnc.C03_order_double`, `KeyEnc.C03_order_float`, `KeyEnc.C03_roundtrip_double`, `KeyEnc.C03_roundtrip_float`, `KeyEnc.C03_negzero_counterexample`, `KeyEnc.C03_nan_counterexample_double`, `KeyEnc.C03_nan_counterexample_float`, `KeyEnc.C04_composite_order`, `KeyEnc.C04_composite_injective`, `IndexKey.C05_secondary_roundtrip`, `IndexKey.C05_primary_roundtrip`, `IndexKey.C05_project_lookup`, `IndexKey.C05_needed_columns_roundtrip`, `IndexKey.C05_needed_columns_primary`, `IndexKey.C05_entry_pk_roundtrip`, `KeyEnc.C06_prefix_order`, `KeyEnc.C06_contiguous`, `KeyEnc.C06_disjoint`, `KeyEnc.C06_ids_readable`, `KeyEnc.C06_region_range`, `IndexKey.C07_entry_follows_row`, `IndexKey.C07_split_exactly_one`, `SplitFilter.C08_primary_or_global`, `SplitFilter.C08_column`, `SplitFilter.C08_secondary`, `SplitFilter.C08_keeps_everything_else`, `Region.C09_one_writer`, `Region.C09_no_gap`, `Region.C09_partition`, `Region.C09_blocked_only_when_busy`, `Region.C09_version_fixes_range`, `Region.C09_stale_request`, `Region.C09_multi_bounds_ascend`, `Region.C10_tiling`, `Region.C10_no_blind_insert`, `Region.C10_merge_tiling`, `Region.C10_good_of_tiles`, `Region.C10_versions_grow`, `Region.C10_stale_refused`, `Region.C10_split_completes`, `Region.C10_merge_completes`, `Region.C10_reports_honest`, `Route.C11_complete`, `Route.C11_sound`, `Route.C11_sound_open`, `Route.C11_range_bounds`, `Route.C11_ranges`, `Route.C11_recovery`, `Route.C11_owner_covers`, `Tso.C12_increasing_under_one_leader`, `Tso.C12_grants_well_formed`, `Tso.C13_new_leader_above`, `Tso.C13_never_twice`, `Tso.C14_cover`, `Tso.C14_store_within_grants`, `Tso.C14_store_increasing`, `AutoIncr.C15_grants_increase`, `AutoIncr.C15_update_respected`, `AutoIncr.C15_insert`, `AutoIncr.C15_inserts`, `Lru.C16_find_latest`, `Lru.C16_find_keeps`, `Lru.C16_recent_kept`, `Lru.C16_old_evicted`, `RaftLog.C17_terms`, `RaftLog.C18_key_order`, `RaftLog.C18_key_decodes`, `RaftLog.C18_key_prefix`, `RaftLog.C18_storage_is_log`, `RaftLog.C18_append_accepted`, `RaftLog.C19_recovery`, `RaftLog.C20_filter_exact`, `RaftLog.C20_compaction_safe`, `Sort.C22_compare_is_order_by`, `Sort.C22_order_by`, `Sort.C22_no_columns`, `Sort.C23_topn`, `Sort.C24_limit`, `Sort.C24_distributed`, `Pred.C25_three_valued`, `Pred.C25_filter`, `Pred.C25_pushed_down`, `Pred.C25_mixed_sign_counterexample`, `Pred.C25_fraction_counterexample`, `Like.C26_like`, `Like.C26_like_binary`, `Like.C26_fallback`, `Like.C26_index_prefix`, `Like.C26_index_eq`, `Like.C26_range`, `Like.C26_range_shape`, `Like.C26_char`, `Pred.C27_in_list`, `Pred.C27_not_in`, `Expr.C28_compare_is_value_order`, `Expr.C28_total_preorder`, `Expr.C28_equal_values_equal_hash`, `Expr.C28_flat_hash`, `Expr.C28_mixed_integers`, `Datetime.C29_calendar`, `Datetime.C29_day_number`, `Datetime.C29_order`, `Datetime.C29_later`, `Datetime.C29_localtime`, `Datetime.C29_mktime_localtime`, `Datetime.C29_localtime_mktime`, `Datetime.C29_timestamp_fields`, `Datetime.C29_timestamp_roundtrip`, `Datetime.C29_datetime_roundtrip`, `Datetime.C29_zero_date`, `Datetime.C30_fields`, `Datetime.C30_order`, `Datetime.C30_date`, `Datetime.C30_date_order`, `Datetime.C30_binary`, `Datetime.C30_text`, `Datetime.C30_date_text`, `Datetime.C30_compact`, `Datetime.C30_two_digit_year`, `Datetime.C31_seconds`, `Datetime.C31_time`, `Datetime.C31_order`, `Datetime.C31_of_datetime`, `Datetime.C31_text`, `Datetime.C31_digits`, `Datetime.C31_days`, `Datetime.C32_timestamp`, `Datetime.C32_months_exact`, `Datetime.C32_months`, `Datetime.C32_years`, `Datetime.C32_days`, `Datetime.C32_days_later`, `Datetime.C32_day_start`, `Wire.C33_lenenc_server`, `Wire.C33_execute_partial`, `Wire.C33_execute_year_counterexample`, `Wire.C33_execute_bounds_partial`, `Wire.C33_lenenc`, `Wire.C33_string`, `Wire.C33_text_cell`, `Wire.C33_text_date`, `Wire.C33_text_row`, `Wire.C33_result_text`, `Wire.C33_result_binary`, `Wire.C33_binary_value_partial`, `Wire.C33_text_value`, `Wire.C33_read_chunks`, `Wire.C33_ok_packet`, `Wire.C33_show_row_partial`, `Wire.C33_show_long_counterexample`, `Txn.C34_agreement`, `Txn.C34_commit_all`, `Txn.C34_client_commit`, `Txn.C34_client_abort`, `Txn.C34_final`, `Txn.C34_recovers`, `Txn.C34_no_blocking`, `Txn.C34_commits`, `Txn.C34_rolls_back`, `Txn.C34_commit_needs_prepare`, `Stmt.C35_apply`, `Stmt.C35_leader`, `Stmt.C35_failed`, `Stmt.C35_lost`, `Stmt.C35_no_duplicate`, `Stmt.C35_open`, `Stmt.C35_exact`, `Stmt.C35_exact_stable`, `Stmt.C35_acked`, `Txn.C35_once`, `Ddl.C36_reader_exact`, `Ddl.C36_published_exact`, `Ddl.C36_no_orphan`, `Ddl.C36_views`, `Ddl.C36_no_old_txn`, `Agg.C37_group_key`, `Agg.C37_multi_sum_counterexample`, `Agg.C37_concat_order_counterexample`, `Agg.C37_regions`, `Agg.C37_distinct`, `Agg.C37_single`, `Join.C38_filter_keeps_partners`, `Join.C38_key_is_equality`, `Join.C38_hash_inner`, `Join.C38_nested_inner`, `Join.C38_nested_inner_limit_partial`, `Join.C38_nested_inner_ends`, `Join.C38_hash_left_partial`, `Join.C38_nested_left_partial`, `Join.C38_semi_hash`, `Join.C38_semi_hash_ends`, `Join.C38_semi_chunks`, `Join.C38_semi_chunks_ends`, `Join.C38_anti_hash`, `Join.C38_apply_left_hash_partial`, `Join.C38_semi_nested`, `Join.C38_anti_nested`, `Join.C38_scalar_nested`, `Join.C38_nested_apply_ends`, `Join.C38_subquery_filter`, `Join.C38_semi_per_row`, `Join.C38_anti_per_row`, `Join.C38_nested_left_counterexample`, `RowCodec.C39_online_new_primary_row`, `Ttl.C39_roundtrip`, `Ttl.C39_expired_iff_before_read_time`, `Ttl.C39_online_new_secondary`, `Ttl.C39_online_new_primary`, `RowCodec.C40_codec_roundtrip`, `RowCodec.C40_left_out_iff_default`, `RowCodec.C40_write_read`, `RowCodec.C41_row_roundtrip`, `RowCodec.C41_verification_accepts_rows`, `Expr.C42_integer_text_round_trip`, `Expr.C42_text_prefix`, `IndexKey.C43_like_prefix_key`, `Pred.C45_simplify`, `Pred.C45_filter`, `Scan.C44_never_fails`, `Scan.C44_empty`, `Scan.C44_plan_exact_partial`, `Scan.C44_plan_exact_no_like`, `Scan.C44_any_index_partial`, `Scan.C44_once`, `Scan.C44_point`, `Scan.C44_primary_key`, `Scan.C44_secondary_key`, `Iter.C53_forward`, `Iter.C53_backward`, `Iter.C53_select_partial`, `Iter.C53_select_once_partial`, `Iter.C54_column_scan`, `Iter.C52_region`, `Scan.C52_range_order`, `Plan.C50_never`, `Plan.C50_never_inner`, `Plan.C50_pushdown`, `Plan.C50_inner`, `Plan.C50_plain`, `Plan.C50_select`, `Plan.C55_reorder`, `Plan.C55_answered`, `Plan.C55_select`, `Limit.C49_limit`, `Limit.C49_rows`, `Limit.C49_separate`, `Dml.C57_exec`, `Dml.C57_history`, `Dml.C57_determined`, `Priv.C58_granted`, `Priv.C58_levels`, `Priv.C58_level`, `Priv.C58_default_deny`, `Priv.C58_write_sound`, `Priv.C58_information_schema`, `Priv.C58_ddl`, `Priv.C58_accounts`, `Priv.C58_drop_object`, `Priv.C58_reload`, `Priv.C58_heartbeat`, `Priv.C58_refresh`, `Priv.C58_end_to_end`, `Priv.C58_login`, `ClientMap.C48_stuck_counterexample`, `ClientMap.C48_orphan_counterexample`, `ClientMap.C48_gap_counterexample`, `ClientMap.C48_tiles`, `ClientMap.C48_placed`, `ClientMap.C48_run`, `ClientMap.C48_follows`, `Binlog.C59_capturer`, `Binlog.C59_capturer_progress`, `Binlog.C59_read_answers`, `Binlog.C59_read`, `Binlog.C59_read_nonempty`, `Binlog.C59_consumer`, `Binlog.C59_progress`, `Binlog.C59_restart_progress`, `DateFn.C47_date_format`, `DateFn.C47_date_format_counterexample`, `DateFn.C47_day_of_week`, `DateFn.C47_day_of_year`, `DateFn.C47_unknown`, `DateFn.C47_week_own`, `DateFn.C47_week_year`, `DateFn.C47_week_unique`, `DateFn.C47_week_four`, `DateFn.C47_week53_counterexample`, `DateFn.C47_next_year_counterexample`, `DateFn.C47_to_days`, `DateFn.C47_datediff`, `DateFn.C47_timestampdiff`, `DateFn.C47_timediff`, `DateFn.C47_timestampadd`, `DateFn.C47_extract`, `DateFn.C47_time_parts`, `DateFn.C47_seconds`, `DateFn.C47_time_to_sec`, `DateFn.C47_quarter`, `DateFn.C47_period_add`, `StrFn.C46_replace`, `StrFn.C46_substring_index`, `StrFn.C46_substring_index_byte`, `StrFn.C46_locate`, `StrFn.C46_substr`, `StrFn.C46_trim`, `StrFn.C46_concat_ws`, `StrFn.C46_case`, `StrFn.C46_char_length`, `StrFn.C46_bit_count`, `StrFn.C46_export_set`, `StrFn.C46_make_set`, `StrFn.C46_bin`, `StrFn.C46_unhex_hex`, `StrFn.C46_hex_unhex`, `StrFn.C46_format`, `Global.C61_ignore_counterexample`, `Global.C61_on_dup_insert`, `Global.C61_on_dup_update`, `Global.C61_agree`, `Global.C61_unique`, `Global.C61_on_dup_many`, `Global.C61_insert`, `Global.C61_insert_fails`, `Global.C61_ignore`, `Global.C61_ignore_subset`, `Global.C61_ignore_same`, `Global.C61_replace`, `Global.C61_delete`, `Global.C61_update`, `Global.C61_update_ok`, `Ops.C60_compare`, `Ops.C60_arithmetic`, `Ops.C60_text`, `Ops.C60_dates`, `Ops.C60_column_number`, `Ops.C60_rows`, `Window.C62_windows`, `Window.C62_places`, `Subq.C63_eq_all_null_counterexample`, `Subq.C63_gt_all_null_counterexample`, `Subq.C63_scalar`, `Subq.C63_in`, `Subq.C63_in_value`, `Subq.C63_not_in`, `Subq.C63_not_in_empty_counterexample`, `Subq.C63_eq_any_ne_all`, `Subq.C63_eq_all`, `Subq.C63_ne_any_partial`, `Subq.C63_cmp_any`, `Subq.C63_cmp_all`, `Subq.C63_select_max`, `Subq.C63_select_min_partial`, `Corr.C51_without_aggregate`, `Corr.C51_aggregate`, `Corr.C51_aggregate_kept`, `Corr.C51_regions`, `Derived.C56_agg_one`, `Derived.C56_agg_scalar`, `Derived.C56_agg_union`, `Derived.C56_table`, `Derived.C56_pushdown`, `Derived.C56_union`, `Fetch.C64_exactly_once`, `Fetch.C64_absent`, `Fetch.C64_at_most_once`, `Fetch.C64_finishes`, `Fetch.C64_merged`, `Reverse.C65_search`, `Reverse.C65_background`, `Reverse.C65_split`, `Reverse.C65_seek`, `Reverse.C65_first_node_counterexample`, `Segment.C66_terms`, `Segment.C66_exact_pattern`, `Segment.C66_like`, `Segment.C66_none_lost`, `Segment.C66_exact_like`, `Segment.C66_like_short`, `Recover.C67_state_is_a_prefix`, `Recover.C67_restart_keeps_rows`, `Recover.C67_rows_after_the_log`, `Recover.C67_row_count_when_quiet`, `Recover.C67_first_crash`, `Handover.C68_sends_every_entry`, `Handover.C68_rows`, `Handover.C68_open_transactions`, `Handover.C68_unique_entries_kept`, `Handover.C68_unique_entries_untouched`, `Handover.C68_as_without_split`, `Transfer.C69_rows_in_order`, `Transfer.C69_all_rows`, `Transfer.C69_all_meta_keys`, `Install.C70_state_is_a_prefix`, `Install.C70_rows_after_the_log`, `Install.C70_rows_of_the_leader`, `Install.C70_rows_need_not_be_sent`, `Absorb.C71_rows`, `Absorb.C71_transactions`, `Absorb.C71_every_key`, `Absorb.C71_one_writer`, `Absorb.C71_closed`, `Absorb.C71_only_empty`, `Absorb.C71_not_merged`, `Absorb.C71_completes`, `Alter.C72_rows`, `Alter.C72_by_name`, `Alter.C72_numbers`, `Alter.C72_accepted`, `Alter.C72_in_use`, `Alter.C72_changed_default`, `Hll.C73_registers`, `Hll.C73_estimate`, `Hll.C73_same`, `Hll.C73_total`, `Hll.C73_codec`, `Hll.C73_size`, `Hll.C73_values`, `Hll.C73_merged`, `Hll.C73_estimate_fn`, `Hll.C73_regions`, `Hll.C73_merge_agg_counterexample`, `Part.C74_modify`, `Part.C74_modify_primary`, `Part.C74_modify_cold`, `Part.C74_modify_accepted`, `Part.C74_all`, `Part.C74_named`, `Part.C74_insert_named`, `Part.C74_truncate`, `Part.C74_write`, `Part.C74_prune`, `Part.C74_prune_switch`, `Part.C74_readback`, `Part.C74_own`, `Part.C74_create`, `Part.C74_create_cover`, `Part.C74_create_all`, `Part.C74_add`, `Part.C74_add_accepted`, `Part.C74_drop_accepted`, `Part.C74_ok`, `Part.C74_fresh`, `Part.C74_hash_prune`, `Part.C74_row_lt_counterexample`, `Cond.C75_choice`, `Cond.C75_case_when`, `Cond.C75_if`, `Cond.C75_ifnull`, `Cond.C75_case_expr`, `Cond.C75_nullif`, `Cond.C75_nullif_null`, `Cond.C75_same_as_case`, `Cond.C75_in_place_counterexample`, `Cond.C76_export_set`, `Cond.C76_null`, `Cond.C76_elt_field`, `Cond.C76_find_in_set`, `Cond.C76_find_in_set_text`, `Cond.C76_make_set`, `Cond.C76_arity`, `Cond.C76_empty_set_counterexample`
- **`Quot.sound`, `propext`** (254 theorems): `KeyEnc.C02_replace_u8`, `KeyEnc.C02_replace_i32`, `KeyEnc.C02_replace_u32`, `KeyEnc.C02_replace_i64`, `KeyEnc.C02_replace_u64`, `KeyEnc.C04_tuple_encodes`, `KeyEnc.C04_embedded_nul_counterexample`, `KeyEnc.C04_embedded_nul_collision_counterexample`, `KeyEnc.C04_bound_keys_match_row_keys`, `KeyEnc.C04_like_prefix_bound_iff`, `IndexKey.C05_missing_pk_refused`, `IndexKey.C05_too_many_nullable_refused`, `IndexKey.C05_rollup_counterexample`, `IndexKey.C05_rollup_collision_counterexample`, `IndexKey.C07_primary_or_global`, `SplitFilter.C08_keeps_short_keys`, `SplitFilter.C08_stale_ttl_counterexample`, `KeyEnc.C09_end_key_order`, `Region.C09_fits`, `Region.C09_split_exact`, `Region.C09_multi_bounds_wrap_counterexample`, `Region.C10_recycle_keeps`, `Region.C10_recycle_drops`, `Region.C10_waiting_region`, `Route.C11_order`, `Route.C11_eq_bounds`, `Route.C11_ranges_sound`, `Route.C11_binlog`, `Route.C11_record`, `Tso.C12_reset_same_ms_counterexample`, `Tso.C12_reset_race_counterexample`, `Tso.C12_negative_count_counterexample`, `Tso.C12_timer_makes_room`, `Tso.C13_retry_after_step_down_counterexample`, `Tso.C13_late_flag_counterexample`, `Tso.C13_reset_save_counterexample`, `Tso.C13_stays_unhealthy_counterexample`, `Tso.C14_disjoint`, `Tso.C14_degraded_increasing`, `Tso.C14_degraded_two_processes_counterexample`, `Tso.C14_degraded_clock_back_counterexample`, `Tso.C14_degraded_overflow_counterexample`, `AutoIncr.C15_grant`, `AutoIncr.C15_snapshot`, `AutoIncr.C15_restore_then_same`, `Lru.C16_size`, `Lru.C16_del`, `Merge.C21_grouping`, `Merge.C21_grouping_default`, `Merge.C21_sum`, `Merge.C21_replay`, `Merge.C21_rollup`, `Merge.C21_null_version_counterexample`, `Merge.C21_other_columns_counterexample`, `Sort.C22_total_preorder`, `Sort.C22_empty_batch_counterexample`, `Sort.C23_limit_zero_counterexample`, `Pred.C25_shipped_not_in_counterexample`, `Pred.C25_unsigned_counterexample`, `Pred.C25_like_null_counterexample`, `Like.C26_dangling_escape_counterexample`, `Like.C26_gbk_prefix_counterexample`, `Like.C26_range_escape_counterexample`, `Like.C26_range_ff_counterexample`, `Like.C26_is_prefix`, `Pred.C27_narrow_column_counterexample`, `Expr.C28_nan_counterexample`, `Expr.C28_flat_hash_counterexample`, `Expr.C28_int_cast`, `Expr.C28_mixed_sign_counterexample`, `Expr.C28_mixed_strings`, `Expr.C28_proto_round_trip`, `Expr.C28_bool_cast`, `Expr.C28_wire_number`, `Datetime.C30_binary_invalid`, `Datetime.C30_text_in_range`, `Datetime.C31_invalid`, `Datetime.C32_fixed`, `Wire.C33_execute_time_counterexample`, `Wire.C33_execute_types`, `Wire.C33_column_type`, `Wire.C33_binary_time_counterexample`, `Wire.C33_binary_timestamp_counterexample`, `Wire.C33_show_empty_counterexample`, `Txn.C34_waits`, `Txn.C34_stale_query_counterexample`, `Txn.C34_empty_primary_counterexample`, `Txn.C34_empty_primary_leader_counterexample`, `Stmt.C35_repeat`, `Txn.C35_forgotten_counterexample`, `Ddl.Ex.C36_update_counterexample`, `Ddl.C36_steps`, `Ddl.C36_public_means_done`, `Ddl.C36_rollup_means_done`, `Ddl.C36_drop_ends`, `Agg.C37_group_key_nul_counterexample`, `Agg.C37_group_key_nine_counterexample`, `Agg.C37_rb_and_counterexample`, `Agg.C37_multi_distinct_counterexample`, `Join.C38_filter_drops_null`, `Join.C38_hash_inner_ends`, `Join.C38_hash_left_ends`, `Join.C38_anti_hash_ends`, `Join.C38_apply_matched`, `Join.C38_null_key_counterexample`, `Join.C38_nul_key_counterexample`, `Join.C38_json_key_counterexample`, `Join.C38_text_key_counterexample`, `Join.C38_set_null_counterexample`, `Join.C38_subquery_overflow_counterexample`, `Join.C38_negzero_counterexample`, `Ttl.C39_no_ttl`, `Ttl.C39_nonpositive_expiry_counterexample`, `Ttl.C39_online_old`, `Ttl.C39_online_old_uniq_counterexample`, `Ttl.C39_online_old_primary_counterexample`, `Ttl.C39_verification_hang_counterexample`, `RowCodec.C40_null_reads_default`, `RowCodec.C40_null_with_default_counterexample`, `RowCodec.C40_unsupported_type_counterexample`, `RowCodec.C41_null_reads_default`, `RowCodec.C41_null_with_default_counterexample`, `RowCodec.C41_column_type_fits`, `RowCodec.C41_fixed_size`, `Expr.C42_hex_literal`, `Pred.C45_null_bound_counterexample`, `Pred.C45_null_list_counterexample`, `Scan.C44_row_equality_after_counterexample`, `Scan.C44_row_equality_before_counterexample`, `Scan.C44_row_in_counterexample`, `Scan.C44_row_repeated_column_counterexample`, `Scan.C44_in_before_like_counterexample`, `Scan.C44_both_row_ends_counterexample`, `Scan.C44_full_text_counterexample`, `Scan.C44_row_null_counterexample`, `Iter.C53_largest_values_counterexample`, `Iter.C53_largest_values_backward_counterexample`, `Plan.Examples.C50_never_counterexample`, `Plan.Examples.C50_on_condition_counterexample`, `Plan.Examples.C50_nullif_counterexample`, `Plan.Examples.C50_is_not_true_counterexample`, `Plan.Examples.C50_not_and_counterexample`, `Plan.Examples.C50_or_constant_counterexample`, `Plan.Examples.C50_in_columns_counterexample`, `Plan.Examples.C50_full_constant_counterexample`, `Plan.Examples.C50_correlated_counterexample`, `Plan.Examples.C55_unlinked_counterexample`, `Limit.Examples.C49_full_counterexample`, `Limit.Examples.C49_having_counterexample`, `Dml.Examples.C57_moved_counterexample`, `Dml.Examples.C57_column_dup_counterexample`, `Dml.Examples.C57_column_expired_counterexample`, `Dml.Examples.C57_null_default_counterexample`, `Dml.Examples.C57_null_unique_counterexample`, `Dml.Examples.C57_batches_counterexample`, `Dml.C57_unique`, `Dml.C57_later`, `Dml.C57_batches`, `Priv.C58_db_grant_counterexample`, `Priv.C58_global_grant_counterexample`, `Priv.C58_same_name_counterexample`, `Priv.C58_revoke_counterexample`, `Priv.C58_super_counterexample`, `Priv.C58_level_revoke_counterexample`, `Priv.C58_drop_user_counterexample`, `Priv.C58_recreate_counterexample`, `Priv.C58_grant_option_counterexample`, `Priv.C58_unassigned_counterexample`, `Priv.C58_replica_counterexample`, `Priv.C58_isolated`, `Priv.C58_version`, `ClientMap.C48_first_load`, `Binlog.C59_restart_counterexample`, `Binlog.C59_snapshot_counterexample`, `Binlog.C59_reset_counterexample`, `Binlog.C59_unopened_counterexample`, `Binlog.C59_load_refuses`, `StrFn.C46_split_exists`, `StrFn.C46_split_part`, `StrFn.C46_find_in_set`, `StrFn.C46_field`, `StrFn.C46_left_right`, `StrFn.C46_insert`, `StrFn.C46_insert_end`, `StrFn.C46_concat`, `StrFn.C46_repeat`, `StrFn.C46_space`, `StrFn.C46_pad`, `StrFn.C46_lower_gbk`, `StrFn.C46_char`, `Global.C61_on_dup_crash_counterexample`, `Global.C61_on_dup_lost_counterexample`, `Ops.C60_negative_counterexample`, `Ops.C60_fraction_counterexample`, `Ops.C60_fraction_arithmetic_counterexample`, `Ops.C60_undefined_counterexample`, `Ops.C60_wrap_counterexample`, `Ops.C60_literal_counterexample`, `Ops.C60_null_rows_counterexample`, `Ops.C60_unsigned_wraps`, `Ops.C60_null`, `Ops.C60_division`, `Ops.C60_literal`, `Window.C62_merge_counterexample`, `Window.C62_rows_bound_counterexample`, `Window.C62_following_counterexample`, `Window.C62_empty_batch_counterexample`, `Window.C62_nul_counterexample`, `Window.C62_nine_counterexample`, `Window.C62_planned`, `Window.C62_plan_total`, `Subq.C63_ne_any_counterexample`, `Subq.C63_lt_all_empty_counterexample`, `Subq.C63_select_min_counterexample`, `Subq.C63_exists`, `Corr.C51_exists_counterexample`, `Corr.C51_inequality_counterexample`, `Corr.C51_once`, `Fetch.C64_stale_merge_counterexample`, `Fetch.C64_merge_during_counterexample`, `Fetch.C64_merge_twice_counterexample`, `Fetch.C64_reload_counterexample`, `Reverse.C65_empty_operand_counterexample`, `Segment.C66_cut`, `Segment.C66_pieces`, `Segment.C66_like_counterexample`, `Segment.C66_equal_counterexample`, `Segment.C66_short_counterexample`, `Segment.C66_blank_counterexample`, `Segment.C66_wildcard_counterexample`, `Segment.C66_empty_counterexample`, `Segment.C66_gbk_counterexample`, `Segment.C66_empty_string_counterexample`, `Handover.C68_ranges`, `Handover.C68_commands_are_reported`, `Transfer.C69_lost_answer`, `Transfer.C69_ends`, `Transfer.C69_rows_not_sent`, `Transfer.C69_larger_retry_counterexample`, `Transfer.C69_lost_transaction_counterexample`, `Alter.C72_case_counterexample`, `Alter.C72_dropped_index_column_counterexample`, `Hll.C73_merge_raw_counterexample`, `Part.C74_drop`, `Part.C74_hash_range`, `Part.C74_hash_number`, `Cond.C75_null_counterexample`, `Cond.C75_unsigned_counterexample`, `Cond.C75_bigint_unsigned_counterexample`, `Cond.C75_text_condition_counterexample`, `Cond.C76_elt`, `Cond.C76_field`, `Cond.C76_greatest`, `Cond.C76_least`
- **`propext`** (104 theorems): `SplitFilter.C08_set_region`, `Region.C09_current_request`, `Region.C09_split_interrupted_counterexample`, `Region.C09_merge_interrupted_counterexample`, `Region.C10_report_ignored`, `Region.C10_stale_new_region_counterexample`, `Region.C10_merged_region_counterexample`, `Region.C10_presplit_empty`, `Route.C11_full_export`, `Tso.C14_counts`, `Tso.C14_error_reported`, `AutoIncr.C15_tables_independent`, `AutoIncr.C15_unknown_table`, `AutoIncr.C15_readd_keeps_counter`, `AutoIncr.C15_noskip_counterexample`, `RaftLog.C17_refuses`, `RaftLog.C18_reset_back_counterexample`, `RaftLog.C19_atomic`, `Expr.C28_negzero_counterexample`, `Expr.C28_null_first`, `Expr.C28_null_right_counterexample`, `Expr.C28_maxvalue_last`, `Datetime.C29_before_epoch_counterexample`, `Datetime.C29_invalid_day_counterexample`, `Datetime.C30_binary_year_counterexample`, `Datetime.C31_hours_counterexample`, `Datetime.C32_months_counterexample`, `Wire.C33_execute_types_counterexample`, `Wire.C33_execute_length_counterexample`, `Wire.C33_column_codes`, `Wire.C33_binary_micro_counterexample`, `Stmt.C35_save_point`, `Ddl.Ex.C36_rollup_counterexample`, `Ddl.Ex.C36_unknown_node_counterexample`, `Ddl.C36_waits`, `Ddl.C36_failure_drops`, `Ddl.C36_all_done_publishes`, `Join.C38_not_in_null_counterexample`, `Limit.Examples.C49_nested_counterexample`, `Binlog.C59_twice_counterexample`, `DateFn.C47_week_default`, `DateFn.C47_datediff_counterexample`, `DateFn.C47_timestampdiff_counterexample`, `DateFn.C47_negative_time_counterexample`, `DateFn.C47_period_diff_counterexample`, `StrFn.C46_substring_index_counterexample`, `StrFn.C46_instr`, `StrFn.C46_find_in_set_counterexample`, `StrFn.C46_elt_null`, `StrFn.C46_left_number_counterexample`, `StrFn.C46_bytes_counterexample`, `StrFn.C46_trim_null_counterexample`, `StrFn.C46_insert_counterexample`, `StrFn.C46_repeat_counterexample`, `StrFn.C46_reverse`, `StrFn.C46_lower_gbk_counterexample`, `StrFn.C46_char_length_counterexample`, `StrFn.C46_length`, `StrFn.C46_unhex_null`, `StrFn.C46_quote`, `Window.C62_nth_value_counterexample`, `Window.C62_lead_counterexample`, `Corr.C51_slot_clash_counterexample`, `Corr.C51_two_tables_counterexample`, `Corr.C51_count_counterexample`, `Corr.C51_limit_counterexample`, `Corr.C51_group_limit_counterexample`, `Corr.C51_two_rows_counterexample`, `Corr.C51_one_row_counterexample`, `Corr.C51_group_rows_counterexample`, `Derived.C56_bare_column_counterexample`, `Derived.C56_bare_column_window_counterexample`, `Derived.C56_constant_column_counterexample`, `Derived.C56_agg_constant_condition_counterexample`, `Reverse.C65_clock_counterexample`, `Recover.C67_stale_mark_counterexample`, `Recover.C67_crash_in_restart_counterexample`, `Recover.C67_one_phase_counterexample`, `Recover.C67_row_count_counterexample`, `Handover.C68_unique_delete_counterexample`, `Handover.C68_columns_counterexample`, `Install.C70_peer_behind_counterexample`, `Install.C70_peer_restarted_counterexample`, `Install.C70_interrupted_commit_counterexample`, `Install.C70_truncated_log_counterexample`, `Absorb.C71_late_writer_counterexample`, `Absorb.C71_open_transaction_counterexample`, `Absorb.C71_failed_source_counterexample`, `Absorb.C71_lost_answer_counterexample`, `Absorb.C71_stale_read_counterexample`, `Alter.C72_lost_default_counterexample`, `Alter.C72_columnar_default_counterexample`, `Alter.C72_dropped_partition_column_counterexample`, `Alter.C72_dropped_ttl_column_counterexample`, `Part.C74_one`, `Part.C74_write_switch`, `Part.C74_like_counterexample`, `Part.C74_expr_additional_counterexample`, `Part.C74_expr_types_counterexample`, `Part.C74_hash_negative_counterexample`, `Part.C74_hash_like_counterexample`, `Cond.C75_arity`, `Cond.C76_unused_null_counterexample`, `Cond.C76_greatest_counterexample`
- **none** (19 theorems): `AutoIncr.C15_forced_update_counterexample`, `AutoIncr.C15_wrap_counterexample`, `Lru.C16_check`, `RaftLog.C18_gap_refused`, `RaftLog.C19_term_order_counterexample`, `RaftLog.C19_lost_delete_counterexample`, `Datetime.C32_sub`, `Ddl.Ex.C36_report_counterexample`, `Join.C38_hash_left_counterexample`, `Join.C38_nested_inner_limit_counterexample`, `Join.C38_apply_left_counterexample`, `StrFn.C46_pad_null_counterexample`, `StrFn.C46_char_counterexample`, `StrFn.C46_format_counterexample`, `Recover.C67_shipped_row_count_counterexample`, `Handover.C68_open_row_counts_counterexample`, `Alter.C72_same_name_counterexample`, `Part.C74_named_case_counterexample`, `Part.C74_add_less_counterexample`
