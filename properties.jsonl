{"id": "C01", "title": "Integer keys sort like integers", "statement": "For every signed or unsigned integer column type (8/16/32/64 bit) and bool, appending the value to a key produces bytes whose unsigned lexicographic order is exactly the numeric order of the values, so a range scan over the encoded keys returns exactly the rows whose column lies in the range.", "quantifier": "all pairs of values of each integer width", "why_tests_cant": "There are 2^128 pairs for 64-bit columns; boundary sign/endianness errors only show on particular bit patterns.", "anchors": ["include/common/key_encoder.h:KeyEncoder::encode_i8..encode_i64,to_endian_u16..u64", "include/common/mut_table_key.h:MutTableKey::append_i8..append_u64,append_boolean"]}
{"id": "C02", "title": "Integer keys decode to the value written", "statement": "Reading back an integer, bool or unsigned column from the position where it was appended returns exactly the appended value, whatever bytes precede or follow it in the key.", "quantifier": "all values, all prefixes and suffixes", "why_tests_cant": "Round trip must hold for every bit pattern and every surrounding key.", "anchors": ["include/common/key_encoder.h:KeyEncoder::decode_i8..decode_i64", "include/common/table_key.h:TableKey::extract_i8..extract_u64"]}
{"id": "C03", "title": "Float and double keys sort like numbers and decode back", "statement": "For float and double columns the key byte order is the IEEE numeric order and decoding returns the value written.  True for every value that is neither NaN nor -0.0; the code breaks it for NaN with clear sign bit (decodes to a different bit pattern and sorts below all numbers) and -0.0 decodes to +0.0.", "quantifier": "all pairs of 32-bit and 64-bit floating point bit patterns", "why_tests_cant": "2^128 pairs; special values (NaN, signed zero, infinities, subnormals) are rarely in test data.", "anchors": ["include/common/key_encoder.h:KeyEncoder::encode_f32,encode_f64,decode_f32,decode_f64"]}
{"id": "C04", "title": "Composite keys sort column by column", "statement": "A key built by appending several columns (integers, bool, floats and strings) compares bytewise exactly like the tuple of values compared column by column, strings by bytes.  Requires strings not to contain the byte 0x00; the code breaks it otherwise.", "quantifier": "all column type lists, all pairs of value tuples", "why_tests_cant": "Unbounded number of columns and string lengths; embedded terminators are adversarial inputs.", "anchors": ["include/common/mut_table_key.h:append_value,append_string", "src/common/table_record.cpp:TableRecord::encode_key"]}
{"id": "C05", "title": "Index keys decode to the row columns they were built from", "statement": "For primary, unique and ordinary secondary indexes, building the index key of a row and decoding it gives back every indexed column, including which columns are NULL; decoding also consumes exactly the bytes written.  Fails for a rollup index with a NULL column.", "quantifier": "all index definitions with at most eight nullable columns, all rows", "why_tests_cant": "Ranges over every schema, null pattern and value.", "anchors": ["src/common/table_record.cpp:TableRecord::encode_key,decode_key", "src/common/table_key.cpp:TableKey::decode_field,skip_field"]}
{"id": "C06", "title": "Keys of different regions and indexes never mix", "statement": "Keys of two different (region, index) pairs are different and never interleave: all keys of one pair form a contiguous block in key order, blocks ordered by (region, index) numerically; so scanning or range-deleting one index never touches another.", "quantifier": "all region ids, index ids and key suffixes", "why_tests_cant": "Quantifies over all ids and suffixes.", "anchors": ["include/common/mut_table_key.h:append_i64", "src/engine/transaction.cpp:put_kv_without_lock", "src/store/region.cpp:check_key_fits_region_range"]}
{"id": "C07", "title": "A secondary index entry belongs to the region that owns its row", "statement": "The range check applied to local index entries accepts an entry iff the primary key of the row it points to lies in [start,end) of the region (empty end = unbounded), for primary, unique and ordinary indexes.", "quantifier": "all index layouts, rows and region ranges", "why_tests_cant": "The check re-parses variable-length keys; correctness depends on every null pattern and string content.", "anchors": ["src/engine/transaction.cpp:Transaction::fits_region_range,get_full_primary_key"]}
{"id": "C08", "title": "Background compaction never deletes live rows", "statement": "After a split, the compaction filter removes an index entry exactly if its index is known, the region is known and split, and the primary key the entry belongs to is at or beyond the region end key; at upper levels it removes nothing.  It relies on the registered TTL setting being current: the code does not refresh it when only the TTL changes, and then live entries of a unique index can be removed (deviation).", "quantifier": "all keys, region ranges and index kinds", "why_tests_cant": "Compaction runs at arbitrary times on arbitrary data.", "anchors": ["include/engine/split_compaction_filter.h:SplitCompactionFilter::Filter"]}
{"id": "C09", "title": "A split hands over each key to exactly one region", "statement": "However splits and merges of a table's regions follow each other, as long as none of them is cut off half-way: at any moment at most one region takes writes for a given key, every key lies in some region's range, when no split or merge is under way exactly one region holds each key, and a key is unwritable only while a region holding it is being split or merged.  A version number of a region stands for one range for ever, so a request carrying the region's current version was made for its current range and an older one is refused.  Inner boundaries of a multi-way tail split ascend.  Shown to break: a split cut off after a new region was switched on, or a merge whose last step fails, leaves two regions that both take writes for the same key; boundaries of a multi-way split wrap around at the column's largest value.", "quantifier": "all ranges, all sequences of split keys", "why_tests_cant": "All keys and arbitrary sequences of splits.", "anchors": ["src/store/region.cpp:start_process_split,validate_and_add_version,adjustkey_and_add_version"]}
{"id": "C10", "title": "Meta server's region map always tiles the key space", "statement": "The meta server's map from start keys to regions of a partition sends every key to exactly one region, and each entry is filed under its region's start key, for every history of creation, presplit, splits and peer changes, however heartbeats and update requests are delayed, repeated, lost or reordered; an update never lowers a version and a stale request changes nothing; once both halves of a split (or both sides of a merge) have reported, the update is accepted and replaces exactly those entries.  With merges the same holds for every request built from a good map, provided the waiting reports are current.  Shown to break: a stale waiting report of a new region, or of a region merged away after it took over keys to the left, leaves a key without region.", "quantifier": "all sequences of region heartbeat updates", "why_tests_cant": "Updates arrive in arbitrary order from many stores.", "anchors": ["src/meta_server/table_manager.cpp:check_region_when_update,add_or_update_update,check_startkey_regionid_map"]}
{"id": "C11", "title": "Query routing covers exactly the matching regions", "statement": "The SQL layer sends each key range of a query to every region that holds a key matching the range: bounds may be closed or open, keys may be prefixes of the stored keys, and an equality on a prefix asks for exactly the keys that begin with it.  It sends it only to regions that reach into the range (closed left bound: that contain a key between the bounds), in key order and each once.  With several ranges and partitions, every region that receives the query receives every range that matches some key it holds in a partition the range is meant for.  A full export visits the first of these regions, a binlog query all regions, transaction recovery exactly the regions overlapping the old region's range, and a record goes to the region whose range contains its key; with a map that begins at the empty key no record is passed over.", "quantifier": "all region maps that tile the key space and all ranges", "why_tests_cant": "All maps and all ranges.", "anchors": ["src/common/schema_factory.cpp:SchemaFactory::get_region_by_key"]}
{"id": "C12", "title": "Timestamps from the oracle are unique and increasing", "statement": "Every timestamp range handed out by the timestamp oracle is disjoint from, and above, every range handed out earlier by the same leader, under any interleaving of requests with clock updates, including clocks that stop or jump backwards and operator resets that move time forward.  Excluded, and shown to break it: resets that stay in the same millisecond or race with a clock update in flight, and requests with a negative count.", "quantifier": "all interleavings of allocation requests and timer ticks, all clock readings", "why_tests_cant": "Schedules and clock behaviours are unbounded.", "anchors": ["src/meta_server/tso_state_machine.cpp:gen_tso,update_timestamp"]}
{"id": "C13", "title": "A new timestamp leader never reuses timestamps", "statement": "After leader change or restart from snapshot at any point, timestamps issued by the new leader are above all timestamps issued by previous leaders, whatever the new machine's clock says, so no timestamp is ever issued twice.  Excluded, and shown to break it: a request that keeps retrying after its node stepped down, a node that marks itself leader after it has lost leadership, and operator resets with a save point below the new time.", "quantifier": "all histories of leader changes, clock skews, snapshots and crash points", "why_tests_cant": "Crash points and clock skew are unbounded.", "anchors": ["src/meta_server/tso_state_machine.cpp:on_leader_start,reset_tso,update_tso,on_snapshot_save,on_snapshot_load"]}
{"id": "C14", "title": "Batched timestamp requests get disjoint sub-ranges", "statement": "When the client-side proxy merges concurrent timestamp requests into one call, each caller receives its own sub-range; sub-ranges are pairwise disjoint, lie inside the granted range and cover it; a failed call is reported to every caller.  A store that takes timestamps from a cached range hands out increasing timestamps that all lie in ranges it was granted.  In degraded (local clock) mode timestamps increase within one process as long as its clock does not go back and fewer than 2^18 are taken per tick.", "quantifier": "all batches", "why_tests_cant": "Unbounded batches.", "anchors": ["src/common/tso_proxy.cpp:process_response"]}
{"id": "C15", "title": "Auto-increment ids are never handed out twice", "statement": "For one table, id ranges returned to different requests never overlap and increase, under any interleaving of allocation, user-supplied start values, non-forced updates and snapshot save/load; ids generated for the rows of INSERTs are distinct and above all earlier generated and given ids.  Excluded, and shown to break it: forced updates, dropped tables, ids beyond 64 bits, and (for given ids) columns with the noskip flag.", "quantifier": "all operation sequences", "why_tests_cant": "Unbounded histories.", "anchors": ["src/meta_server/auto_incr_state_machine.cpp:gen_id,update,add_table_id,drop_table_id,parse_json_string,save_auto_increment"]}
{"id": "C16", "title": "LRU caches return the latest value and evict the oldest", "statement": "A lookup returns the value of the latest add of that key if it has not been deleted or evicted; the entries kept are exactly the most recently used ones; the number of entries never exceeds the larger of one and the configured threshold minus one (the cache evicts as soon as the threshold is reached).", "quantifier": "all operation sequences and capacities", "why_tests_cant": "Unbounded op sequences.", "anchors": ["include/common/lru_cache.hpp:Cache::find,add,del,check,clear"]}
{"id": "C17", "title": "Raft log terms are reported correctly", "statement": "The compressed index-to-term table returns for each live log index the term with which that index was appended, after any sequence of appends and prefix/suffix truncations, and rejects non-monotone appends.", "quantifier": "all operation sequences", "why_tests_cant": "Unbounded op sequences.", "anchors": ["include/raft/index_term_map.h:IndexTermMap"]}
{"id": "C18", "title": "Raft log storage behaves like a contiguous log", "statement": "After any sequence of appends, prefix and suffix truncations and resets that raft may issue, with any restarts and background compactions in between, the first and last index, every entry from the first to the last index and every term are those of the log raft wrote; nothing is found above the last index, terms outside the log are reported as 0, and an append that would leave a hole is refused without effect.", "quantifier": "all operation sequences, all entries", "why_tests_cant": "Unbounded histories.", "anchors": ["src/raft/my_raft_log_storage.cpp:append_entries,truncate_prefix,truncate_suffix,reset,get_entry,get_term"]}
{"id": "C19", "title": "Raft log survives a crash at any point", "statement": "Reopening after a crash between any two storage writes of any operation succeeds and recovers the log as it was before or after that operation (a reset interrupted midway may leave the log with only its prefix removed), and reports exactly the configuration entries in it.  Excluded, and shown to break it: a delete that the database fails to perform but the storage reports as done, and a batch with decreasing terms, which is refused but already written.", "quantifier": "all crash points in all operation sequences", "why_tests_cant": "Crash points are unbounded.", "anchors": ["src/raft/my_raft_log_storage.cpp:init,truncate_prefix,append_entries"]}
{"id": "C20", "title": "Raft log garbage collection only deletes truncated entries", "statement": "Compaction deletes a log entry only when its index is below both the first live index and the split protection index of that region; log metadata and other regions' entries are never touched.", "quantifier": "all keys and filter maps", "why_tests_cant": "Compaction runs at arbitrary times.", "anchors": ["include/raft/raft_log_compaction_filter.h:RaftLogCompactionFilter::Filter"]}
{"id": "C21", "title": "Rollup merges do not depend on compaction timing", "statement": "The counters and the version read from a rollup key are the same however the storage engine grouped the pending records into partial merges before the final merge, and with partial merging off (the default) so is the whole record; each counter is the sum of all non-NULL values merged into it; a record delivered again with a version already applied has no effect; over any history of row inserts and deletes the counter equals inserted minus deleted.  Excluded, and shown to break it: records with a NULL version, and the other columns when partial merging is on.", "quantifier": "all record lists and groupings", "why_tests_cant": "Compaction grouping is nondeterministic.", "anchors": ["src/engine/rocksdb_merge_operator.cpp:OLAPMergeOperator::FullMergeV2,PartialMerge"]}
{"id": "C22", "title": "ORDER BY returns a sorted permutation", "statement": "A sort returns exactly the rows its input produced, each as often as it was produced, ordered by the ORDER BY columns with each column's direction and NULL placement, whatever batches the rows come in and go out in; without ORDER BY columns rows pass through unchanged.  Excluded, and shown to break it: an input that delivers an empty batch before its last one.", "quantifier": "all batch lists, all sort specifications", "why_tests_cant": "Unbounded inputs.", "anchors": ["src/runtime/sorter.cpp:Sorter", "src/mem_row/mem_row_compare.cpp:MemRowCompare::compare"]}
{"id": "C23", "title": "ORDER BY ... LIMIT k equals sort then take k", "statement": "ORDER BY ... LIMIT k returns exactly the first k rows of the stable sort of the input, in order (without ORDER BY columns: the first k rows).  Excluded, and shown to break it: k = 0 with ORDER BY columns.", "quantifier": "all inputs and k > 0", "why_tests_cant": "Unbounded inputs.", "anchors": ["src/runtime/topn_sorter.cpp:TopNSorter"]}
{"id": "C24", "title": "LIMIT/OFFSET return exactly the requested slice", "statement": "LIMIT offset, count emits exactly rows offset .. offset+count-1 of its input whatever the batch sizes; ORDER BY ... LIMIT offset, count over several regions, each sending only its first offset+count rows, gives the window of a full sort of all rows of all regions.", "quantifier": "all batchings of all streams", "why_tests_cant": "Batch boundaries are arbitrary.", "anchors": ["src/exec/limit_node.cpp:LimitNode::get_next"]}
{"id": "C25", "title": "WHERE logic is SQL three-valued logic", "statement": "For every WHERE condition built from column and constant operands by the six comparisons, IN, LIKE, AND, OR, XOR, NOT, IS NULL and IS TRUE to any depth, constant folding, type inference and evaluation together give the value of SQL's three-valued logic, and a filter keeps exactly the rows on which every conjunct is true, also when the conditions are sent to the storage nodes.  Excluded, and shown to break it: comparing an unsigned column with a negative number or a signed with an unsigned column, an integer column with a fractional literal, LIKE on NULL, and on storage nodes a NOT, XOR or IS NULL above an IN whose list has a NULL.", "quantifier": "all expression trees and rows", "why_tests_cant": "Unbounded nesting.", "anchors": ["include/expr/predicate.h:AndPredicate,OrPredicate,XorPredicate,NotPredicate,IsNullPredicate,IsTruePredicate"]}
{"id": "C26", "title": "LIKE matches exactly the SQL pattern language", "statement": "The LIKE matcher returns true iff the pattern matches the whole string under: % any sequence, _ any one character, backslash escapes the next character, characters being those of the column's charset (single bytes when either string is not valid in it); it always terminates.  The index prefix derived from a pattern is a prefix of every matching string, an all-literal pattern is an equality, and the range that replaces LIKE 'p%' holds on exactly the matching strings.  Excluded, and shown to break the last three: GBK columns (index prefix), a pattern ending in a lone backslash, a pattern ending in an escaped %, a prefix of 0xFF bytes only.", "quantifier": "all patterns and strings", "why_tests_cant": "The matcher backtracks; unbounded strings.", "anchors": ["include/expr/predicate.h:LikePredicate::like"]}
{"id": "C27", "title": "IN lists behave like a chain of ORs", "statement": "column IN (list) is true exactly when some element equals the column's value, unknown exactly when the column is NULL or no element equals it but the list has a NULL, false otherwise; NOT IN keeps a row exactly when the column is not NULL and every element is non-NULL and different.  The elements are NULL or values the column's type can hold; an element that does not fit is shown to match wrongly.", "quantifier": "all lists and values of one type", "why_tests_cant": "Unbounded lists.", "anchors": ["src/expr/predicate.cpp:InPredicate::open,get_value"]}
{"id": "C28", "title": "Value comparison is a total order", "statement": "Comparing two values of one type orders them as the values they stand for (numbers numerically, text by bytes), reflexively, antisymmetrically and transitively; equal values hash equal; integers of different types compare by value unless a negative one meets an unsigned type; casting between integer types keeps every value that fits; a value shipped to another node arrives unchanged.  Excluded, and shown to break it: NaN, hashing 0.0 against -0.0, hashing a value after a narrowing cast, comparing a negative with an unsigned value.", "quantifier": "all values of each comparable type", "why_tests_cant": "All values; transitivity ranges over triples.", "anchors": ["include/common/expr_value.h:ExprValue::compare,compare_diff_type,HashFunction"]}
{"id": "C29", "title": "Calendar conversions are exact inverses", "statement": "Converting seconds since the epoch to calendar fields gives a day and month that exist in the proleptic Gregorian calendar, with the right weekday and day of the year, one day following another as the calendar says; converting back gives the same second, and so does a TIMESTAMP turned into a DATETIME and back.  Shown to break: a DATETIME before 1970-01-01 08:00:00 becomes the zero TIMESTAMP and a day that does not exist rolls over.", "quantifier": "all timestamps in the supported range / all valid dates", "why_tests_cant": "Every day of every 400-year cycle, leap rules.", "anchors": ["src/common/datetime.cpp:days_from_civil,mktime_fixed_r,localtime_fixed_r"]}
{"id": "C30", "title": "DATETIME packing keeps every field and the order", "statement": "Packing year..microsecond into the 64-bit DATETIME and unpacking returns the same fields, and the integer order of packed values is chronological order; a DATETIME or DATE printed as text reads back as the same value, also from the compact digit forms; whatever text is given, the value read has fields in range; the binary protocol form gives the same value for years 70 < y.  Shown to break: binary years 0 to 70.", "quantifier": "all field values in range", "why_tests_cant": "All field combinations.", "anchors": ["src/common/datetime.cpp:datetime_to_str,bin_date_to_datetime,datetime_to_timestamp,timestamp_to_datetime"]}
{"id": "C31", "title": "TIME values survive conversion", "statement": "A TIME below 1024 hours converts to seconds and back unchanged, is ordered by its length, and its text reads back as the same value, negatives included; the digit form HHMMSS and the form 'D HH:MM:SS' stand for what they spell, and minutes or seconds above 59 give 0.  Shown to break: hours from 1024 up wrap when shown.", "quantifier": "all TIME values", "why_tests_cant": "All values including negatives.", "anchors": ["src/common/datetime.cpp:time_to_seconds,seconds_to_time,time_to_str"]}
{"id": "C32", "title": "Adding an interval moves the date by that interval", "statement": "date_add/date_sub with a unit moves the date by exactly that many units (clamping the day of month for MONTH/YEAR).  Fails for month subtraction that lands exactly on a negative multiple of twelve.", "quantifier": "all dates and intervals", "why_tests_cant": "All dates, units and counts.", "anchors": ["src/common/datetime.cpp:date_add_interval,date_sub_interval"]}
{"id": "C33", "title": "A MySQL client reads the result sent and the server runs the statement sent", "statement": "What the server writes to a client connection decodes, by the protocol's own rules, to what it meant: the columns and rows of a text or binary result set (NULLs, strings of any content and length, numbers, dates), the counts of an OK packet; whatever the buffer size, and when a message exceeds 16 MB.  Conversely, however the network cuts the bytes, the server reads from a command exactly the bytes the client wrote, and executes a prepared statement with the values bound.  No packet makes it read outside the packet.", "quantifier": "all columns, rows, values, sequence numbers and buffer capacities; all ways of cutting the stream; all lists of parameters and types; for memory safety, all packets", "why_tests_cant": "Boundary lengths 250/251/2^16/2^24 and 16 MB, every split of the stream, every parameter list.", "anchors": ["src/protocol/data_buffer.cpp:DataBuffer", "src/protocol/mysql_wrapper.cpp:MysqlWrapper::make_simple_ok_packet,protocol_get_length_coded_int,decode_binary_protocol_value", "src/exec/packet_node.cpp:PacketNode::pack_head,pack_fields,pack_text_row,pack_binary_row,pack_eof", "src/protocol/mysql_wrapper.cpp:MysqlWrapper::real_read,real_read_header", "src/protocol/state_machine.cpp:_read_packet,_query_read_stmt_execute", "include/expr/literal.h:Literal"]}
{"id": "C34", "title": "A distributed transaction ends the same way everywhere", "statement": "Two regions never end a distributed transaction differently: if one committed, none rolls back, whatever is delayed, lost, repeated or reordered, whenever the coordinator crashes, statements time out, leaders change or regions ask the primary.  When one region has committed, every region that was written to has prepared and commits when it hears of the outcome.  A client told \"committed\" finds it so everywhere; a client told \"rolled back\" finds no region committed.  An outcome once reached is final.  A prepared region that asks the primary reaches the outcome; from every reachable state there is a schedule that ends the transaction everywhere.", "quantifier": "all schedules of commit, rollback, timeout and recovery messages", "why_tests_cant": "Schedules and failures are unbounded.", "anchors": ["src/store/region.cpp:exec_txn_query_primary_region,exec_in_txn_query,apply_txn_request", "src/engine/transaction_pool.cpp:txn_query_primary_region"]}
{"id": "C35", "title": "Retrying a statement of a transaction has no second effect", "statement": "A statement of a transaction that is sent again, arrives late or twice, is executed in part and fails, is executed but not replicated, or is given up by the SQL layer, never has a second effect, and a given-up one none.  When PREPARE has been answered, the leader and every replica hold exactly the statements sent to the region and not given up, each once and in order; later deliveries change nothing.  A statement answered to the client is in the write batch of every replica.  A request carrying cached statements adds exactly those the region has not seen and that were not given up.  A COMMIT delivered any number of times takes effect once.", "quantifier": "all sequences of requests with retries, leader changes with cached plans", "why_tests_cant": "Retries and leader changes happen at arbitrary points.", "anchors": ["src/store/region.cpp:execute_cached_cmd,exec_in_txn_query,apply_txn_request"]}
{"id": "C36", "title": "An index added while rows are written is complete when it is first read", "statement": "While ADD INDEX or DROP INDEX runs, rows are inserted, replaced, updated and deleted by any transactions, SQL nodes and stores hear of the index's states in any order, filling tasks are handed out, fail, are repeated and reported late, and the meta leader changes.  As long as any SQL node takes the (non-unique, local) index to be public, the index holds exactly the rows, committed or not.  The states are taken one at a time in order, the index is public only when the filling is done for every region, no transaction that began before the index had to be written is left when filling begins, a failed addition becomes a drop, and a drop ends.  Assumed: nodes hear of a state within the time the meta server waits, and a store has heard of IS_WRITE_ONLY when it executes an UPDATE.", "quantifier": "all executions: any number of SQL nodes, stores, regions, transactions, filling tasks and retries, any interleaving", "why_tests_cant": "Needs a race between a schema change, heartbeats, transactions and background tasks on several machines.", "anchors": ["src/meta_server/ddl_manager.cpp:DDLManager::add_index_ddlwork,drop_index_ddlwork,DBManager::execute_task,execute_broadcast_task,process_common_task_hearbeat,process_broadcast_task_hearbeat", "src/meta_server/table_manager.cpp:update_index_status", "src/exec/dml_node.cpp:insert_row,remove_row,update_row", "src/exec/insert_node.cpp", "src/physical_plan/ddl_work_planner.cpp:execute", "src/exec/rocksdb_scan_node.cpp:index_ddl_work", "src/protocol/task_manager.cpp"]}
{"id": "C37", "title": "Distributed aggregation equals single-node aggregation", "statement": "A GROUP BY query computed by the stores region by region and merged by the SQL layer answers one row per distinct combination of the GROUP BY values (NULL is one of them), whatever the split of the table into regions and the order in which the stores' rows arrive; COUNT(*), COUNT, SUM, AVG, MIN, MAX, GROUP_CONCAT (with ORDER BY: in that order), RB_OR/AND/XOR/BUILD and the DISTINCT aggregates have the value over all rows of the group, NULLs left out.  Without GROUP BY there is exactly one row, also for no rows.  A DISTINCT aggregate is the value over one row per distinct argument.", "quantifier": "all tables, splits into regions, arrival orders of partial rows, lists of aggregates and GROUP BY expressions", "why_tests_cant": "Splits and arrival orders are arbitrary.", "anchors": ["src/expr/agg_fn_call.cpp:AggFnCall::initialize,update,merge,finalize,multi_distinct_serialize", "src/exec/agg_node.cpp:AggNode::open,process_row_batch,get_next", "src/exec/exec_node.cpp:encode_exprs_key"]}
{"id": "C38", "title": "Joins and correlated subqueries return the rows SQL defines", "statement": "A join or correlated subquery returns the rows SQL defines, whatever the batches in which rows arrive and leave: INNER JOIN the pairs satisfying ON; LEFT/RIGHT JOIN also each driving row without a partner, once, with NULLs; EXISTS/IN each outer row with a partner, once; NOT EXISTS each outer row without one; a scalar subquery each outer row once.  NULL join keys match nothing, columns of different integer types meet by value, and the filter derived from one side and sent to the other loses no partner.  Under LIMIT at least LIMIT many of these rows come back.", "quantifier": "all inputs", "why_tests_cant": "Unbounded inputs.", "anchors": ["src/exec/join_node.cpp", "src/exec/joiner.cpp", "src/exec/apply_node.cpp", "src/expr/predicate.cpp:RowExpr make_key, InPredicate"]}
{"id": "C39", "title": "TTL prefix is transparent", "statement": "Writing a value with a TTL and reading it back returns the value and the expiry written; an entry is treated as expired iff its expiry is before the read time.  Where TTL was switched on later, new values and recognisable old values are read back exactly; deviations: expiry <= 0, old values that look like a timestamp, and a verification walk that does not end.", "quantifier": "all values and times", "why_tests_cant": "All values.", "anchors": ["src/engine/transaction.cpp:ttl_decode,put_kv_without_lock"]}
{"id": "C40", "title": "Column-store field encoding round-trips", "statement": "A non-default column value stored in columnar format is read back unchanged; default values are not stored and read back as default.  Deviations: NULL in a column with a non-NULL default reads back as the default; columns of HLL/BITMAP/TDIGEST type are dropped.", "quantifier": "all values per type", "why_tests_cant": "All values.", "anchors": ["src/common/table_record.cpp:encode_field_for_cstore,decode_field"]}
{"id": "C41", "title": "Partial row reads return the stored columns", "statement": "Reading any subset of a row's columns from the stored protobuf bytes returns each stored value exactly, and the column default for columns the row does not have, whatever other columns lie between; and such bytes always pass the row verification used by online TTL.  A NULL in a column with a non-NULL default is stored as absent, so it reads back as the default (deviation).", "quantifier": "all rows (any columns, types and values) and all ascending subsets of requested columns", "why_tests_cant": "All rows and all column subsets; varints of all lengths.", "anchors": ["src/common/tuple_record.cpp:TupleRecord::decode_fields,verification_fields", "include/common/tuple_record.h"]}
{"id": "C42", "title": "Integers survive the trip through text", "statement": "Casting an integer to text and the text back to any integer type that can hold it gives the same integer; text that starts with blanks and digits casts to the number those digits spell, whatever follows.", "quantifier": "all integer types, all values, all texts of that shape", "why_tests_cant": "Every 64-bit value and every trailing text.", "anchors": ["include/common/expr_value.h:ExprValue::cast_to,get_string,get_numberic"]}
{"id": "C43", "title": "A LIKE prefix search key selects exactly the matching rows", "statement": "The search key built for c1 = .. AND .. AND cn LIKE 'p%' is a byte prefix of an index key exactly when the row agrees on the earlier columns' values and its column cn starts with p; rows are neither missed nor added, whatever columns follow.", "quantifier": "all indexes, all column values, all prefixes without NUL", "why_tests_cant": "All strings and prefixes, all numbers of columns.", "anchors": ["src/common/table_record.cpp:TableRecord::encode_key", "include/common/mut_table_key.h:append_string_prefix"]}
{"id": "C45", "title": "Simplifying WHERE conditions never changes the rows returned", "statement": "Whatever the planner does to the conjuncts of a WHERE clause - substituting a column known to equal a constant into the other conjuncts, intersecting IN lists, filtering them by bounds, keeping only the tightest bounds, turning an OR of equalities into an IN and LIKE 'p%' into a range, dropping conjuncts that are constant, or answering with an empty result outright - the query returns exactly the rows the original conjuncts select.  Excluded, and shown to break it: a NULL literal among several conjuncts on one column.", "quantifier": "all lists of conjuncts (any length), all literals, all tables", "why_tests_cant": "All combinations of conjuncts on a column and all values; a wrong conclusion shows only for particular bounds.", "anchors": ["src/exec/filter_node.cpp:FilterNode::expr_optimize,predicate_cut", "src/expr/expr_node.cpp:or_node_optimize,like_node_optimize,change_or_node_to_in"]}
{"id": "C44", "title": "The key ranges of an index stand for the conditions they replace", "statement": "For every index and every WHERE clause of AND-ed conditions (=, <, <=, >, >=, IN, LIKE, row comparisons and row IN on columns, and anything else), a row meets all conditions exactly if its index entry lies in one of the key ranges read and the row meets the conditions left to evaluate; each entry lies in one range only; which index is chosen does not matter; a query answered with no rows because of a NULL has none; point reads stand for exactly one key.  Excluded, and each shown to break it: a column fixed by a row equality and by another condition, (a, a) = (1, 2), IN before a LIKE prefix, full-text conditions on index columns, row bounds from both sides over a repeated column, a NULL in a row comparison by order.", "quantifier": "all indexes (PRIMARY, UNIQUE, KEY, any columns), all lists of conditions, all rows, all settings of the IN limits", "why_tests_cant": "Which conditions end up in ranges depends on the interplay of all conditions and index columns; a dropped condition shows only for particular rows.", "anchors": ["src/physical_plan/index_selector.cpp:hit_field_range,hit_row_field_range,hit_match_against_field_range", "src/exec/access_path.cpp:calc_normal,calc_index_range,calc_row_expr_range", "include/exec/access_path.h"]}
{"id": "C53", "title": "A scan hands out exactly the entries of its key range", "statement": "Scanning a key range inside a region of an index hands out, in key order (ASC) or reverse key order (DESC), exactly the stored entries of that index that lie in the region and in the range, whatever ends are open and whatever the entries around them; and for a query, whatever the regions, the rows of the table whose WHERE clause is true are exactly those whose index entry is handed out by some region and that meet the conditions left to evaluate, each entry once.  Excluded, and shown to break it: entries that continue the upper end of a closed range with 24 bytes FF.", "quantifier": "all stored key-value pairs, prefixes, regions, ranges, directions; for queries all tables, splits, WHERE clauses of C44", "why_tests_cant": "Every combination of range ends, region ends and neighbouring keys.", "anchors": ["src/engine/table_iterator.cpp:Iterator::open,_fits_left_bound,_fits_right_bound,RowIterator::get_next_internal,IndexIterator::get_next", "src/engine/rocks_wrapper.cpp", "src/common/schema_factory.cpp:get_region_by_key"]}
{"id": "C54", "title": "Columnar reads give every row its own column value", "statement": "When a columnar table is scanned, each row that passed the earlier filters gets in every column the value stored for that row, or the default if the row stores none, whatever rows lack a stored value, whatever batches the rows come in and whichever direction the scan runs.", "quantifier": "all columns (sorted entries), all row sequences in scan order, all batches, all filters", "why_tests_cant": "Any pattern of stored and missing values against any pattern of rows read.", "anchors": ["src/engine/table_iterator.cpp:RowIterator::get_column,get_columns"]}
{"id": "C52", "title": "ORDER BY answered by an index gives the order asked for", "statement": "When the store leaves out the sort because it reads an index in order, or cuts each key range off after LIMIT rows, the answer is still right: without LIMIT it is the matching rows in ORDER BY order; under LIMIT n its first n rows are the first n of the matching rows put in that order - for every index (PRIMARY, UNIQUE, KEY), WHERE clause, list of ORDER BY columns, direction, and set of ranges sent to the region.", "quantifier": "all indexes, conditions, ORDER BY lists, LIMITs, stored entries, subsets of the ranges", "why_tests_cant": "The order of index keys against the order of ORDER BY columns depends on all rows and on which columns the conditions fix.", "anchors": ["src/exec/access_path.cpp:AccessPath::check_sort_use_index,calc_normal", "src/exec/rocksdb_scan_node.cpp:RocksdbScanNode::choose_index,get_next_by_table_get", "include/exec/rocksdb_scan_node.h:range_reach_limit", "src/exec/sort_node.cpp:SortNode::init,get_next", "include/exec/sort_node.h:sort_property"]}
{"id": "C50", "title": "Moving conditions and converting outer joins does not change the rows", "statement": "For every SELECT over tables joined by INNER, LEFT, RIGHT and FULL JOIN with WHERE and ON conditions, the plan after WHERE and ON conditions have been moved below joins and outer joins turned into other joins returns the same rows (with the same multiplicity) as the query says, whatever the tables hold.  With INNER JOINs only, nothing is asked of the conditions; with outer joins the conditions must be built from functions that are NULL when an argument is NULL by AND, OR, XOR, NOT, IN (or contain one of the functions the planner knows to take NULL).  A query emptied because a condition never holds has no rows if no row can get around that condition.  Excluded, and each shown to break it: an ON condition about the outer-joined side of a join below on the preserved side, NULL-taking functions the planner does not know, IS NOT TRUE, NOT over an AND across tables, OR with a constant, IN with columns in the list, a constant condition above a FULL JOIN, a correlated condition above an outer join, a never-true condition in the ON clause of an outer join.", "quantifier": "all join trees (any depth), all conditions, all functions behind them, all table contents, all rows of an enclosing query", "why_tests_cant": "Needs every shape of join tree with every placement of conditions; the difference shows only for rows without partner.", "anchors": ["src/exec/join_node.cpp:JoinNode::predicate_pushdown,convert_to_inner_join", "src/exec/filter_node.cpp:FilterNode::predicate_pushdown,expr_optimize", "src/exec/rocksdb_scan_node.cpp:predicate_pushdown", "include/exec/joiner.h:expr_in_tuple_ids", "src/expr/expr_node.cpp:contains_null_function", "include/physical_plan/predicate_pushdown.h"]}
{"id": "C55", "title": "Joining tables in another order does not change the rows", "statement": "When the planner puts the tables of inner joins into another order (starting from a table read by an index, then following equalities) and hands the conditions out anew, the rows returned are the same, with the same multiplicity, for every choice of indexes; and the query is not refused.  Assumed: each table is in an equality with another one; shown to break it: a table in no equality is left out of the plan.", "quantifier": "all trees of joins, all conditions, all choices of index, all table contents", "why_tests_cant": "Every order of any number of tables against every set of equalities.", "anchors": ["src/physical_plan/join_reorder.cpp:JoinReorder::reorder", "src/exec/join_node.cpp:JoinNode::need_reorder", "src/exec/joiner.cpp:is_slot_ref_equal_condition"]}
{"id": "C49", "title": "LIMIT pushed into the plan gives a right answer", "statement": "A SELECT with LIMIT offset, count over joined tables answers with the rows number offset to offset + count of all its rows in an order its ORDER BY allows - although parts of the plan run in every region, SORT, HAVING and WHERE are moved below outer joins, DISTINCT stops when it has enough groups, and nodes on the way stop when they have handed out offset + count rows; in particular no row is lost, invented or repeated.  Excluded, and each shown to break it: FULL JOIN with LIMIT and no ORDER BY, HAVING without GROUP BY on the padded side of an outer join, ORDER BY over a RIGHT JOIN whose right operand is an outer join.", "quantifier": "all trees of joins with filters, all conditions, ORDER BY, GROUP BY/DISTINCT, HAVING, all splits of tables into regions, all contents, all batches, all offsets and counts", "why_tests_cant": "A limit placed below a node that drops or reorders rows loses rows only for particular contents and splits.", "anchors": ["src/physical_plan/limit_calc.cpp:LimitCalc::_analyze_limit", "src/physical_plan/separate.cpp:Separate::separate_select,separate_simple_select,separate_join", "src/exec/agg_node.cpp:AggNode::open,process_row_batch", "src/exec/filter_node.cpp:FilterNode::get_next", "src/exec/limit_node.cpp", "src/exec/select_manager_node.cpp"]}
{"id": "C57", "title": "INSERT, REPLACE, UPDATE and DELETE change exactly the rows they should, and the indexes with them", "statement": "In a region, INSERT fails exactly when a row has the same primary key or the same UNIQUE value; INSERT IGNORE then changes nothing; REPLACE removes exactly the rows in the way; ON DUPLICATE KEY UPDATE updates the first of them; UPDATE and DELETE touch exactly the given rows for which the condition holds, and UPDATE fails exactly when another row is in the way of the new one.  Nothing else changes, the reported number of rows and the region's row counter are right, every index holds exactly the rows of the table, and no two rows agree on a UNIQUE index - after any history of statements, with row or column storage, with or without TTL, while rows expire.  Excluded, and each shown to break it: ON DUPLICATE KEY UPDATE moving a row to another region, or in a column store reading a column of no changed index; column store with TTL; assigning NULL to a column with a default value.  NULLs count as equal in UNIQUE indexes; an UPDATE outside a transaction commits batch by batch.", "quantifier": "all tables and sets of local UNIQUE and KEY indexes, all contents, all statements, all sequences of statements and times", "why_tests_cant": "Which rows are in the way of a record, by which index, and which index entries a partial update must touch depends on all contents; the invariant concerns all histories.", "anchors": ["src/exec/dml_node.cpp:DMLNode::init_schema_info,insert_row,remove_row,delete_row,update_row", "src/exec/insert_node.cpp:InsertNode::open", "src/exec/update_node.cpp:UpdateNode::open", "src/exec/delete_node.cpp:DeleteNode::open", "src/engine/transaction.cpp:get_update_primary,get_update_secondary,put_primary,put_secondary,put_primary_columns,remove"]}
{"id": "C58", "title": "An account may do what has been granted to it and nothing else", "statement": "After any sequence of CREATE/DROP/ALTER USER, GRANT, REVOKE, DROP DATABASE, DROP TABLE and pruning, every SQL node that has heard from the meta server decides by the rights these requests add up to.  On a table with a grant of its own a statement is allowed exactly when the privileges it needs are held for everything, the database or the table; on other tables it is allowed to superusers and to accounts with the read or write level the statement needs at the database or the table, and otherwise only to those with that level at a table of the same name; an account with no grants may do nothing.  A request touches one account only, a failed write changes nothing, dropped databases and tables leave no rights behind, a reloaded meta server has the same accounts, a login succeeds exactly with the password last set and from an allowed address, and open connections follow.  Excluded, and each shown to break it: privileges granted on a database or on everything (not consulted), tables of the same name, REVOKE of one privilege where a level is held and the reverse, superusers with a grant on a table, accounts dropped (and created again), GRANT OPTION, statements without an assigned privilege, DROP DATABASE on replicas after a REVOKE.", "quantifier": "all histories of requests with all catalogues and write failures, all interleavings with heartbeats, all accounts, objects and statements", "why_tests_cant": "What an account may do depends on the whole history of requests, on names against ids, and on what each node has heard.", "anchors": ["src/meta_server/privilege_manager.cpp:PrivilegeManager", "include/meta_server/privilege_manager.h", "src/meta_server/schema_manager.cpp:check_and_get_for_privilege", "src/common/schema_factory.cpp:SchemaFactory::update_user", "include/session/user_info.h:UserInfo", "src/protocol/state_machine.cpp:StateMachine::_auth_read,_query_process", "src/logical_plan/ddl_planner.cpp:DDLPlanner::plan,parse_priv", "src/meta_server/database_manager.cpp:drop_privilege_for_database", "src/meta_server/table_manager.cpp:drop_privilege_for_table"]}
{"id": "C48", "title": "A SQL node's region map stays whole and follows splits and merges", "statement": "Whatever regions heartbeats and stores report to a SQL node - parts of a split, old versions, in any order - its map of a table gives one region for every key, and the region found for a key is known with a range that holds the key; so no request is built from half a split.  When the reports are what has become of the known regions by splits, merges and merges followed by splits, the node's map afterwards is the new one, with nothing left of the regions that are gone; a node that knows nothing takes over what it is told and keeps no overlapping regions.  Assumed: a version stands for one range, no deletions.  Excluded, and each shown to break it: a split-off part merging into the next region before the node hears of it (the node then never follows), a region not known so far starting where a known one does (it is never used, and later splits of it break the map), a gap left by a deletion.", "quantifier": "all maps, all sets and sequences of reports, all keys", "why_tests_cant": "Which reports arrive together is a matter of timing; overlaps and gaps appear only for particular combinations of splits and merges.", "anchors": ["src/common/schema_factory.cpp:SchemaFactory::update_regions_table,update_region,clear_region,get_clear_regions,update_regions_double_buffer_sync", "include/common/schema_factory.h:TableRegionInfo"]}
{"id": "C59", "title": "Readers of the binlog get each committed transaction once, in commit order", "statement": "A reader of a binlog region, whichever peers answer it and however far they are, gets the transactions committed after where it started, up to where it is: all of them - also those whose commit enters the log only later -, once, in the order of their commit timestamps, each with the payload of its prewrite; an answer never goes past a transaction that may still commit below it.  A subscriber of the capturer gets the same of several regions merged, whatever calls fail.  Nothing but the oldest open transaction holds readers back, a peer that has applied the log from the beginning does not refuse readers that do not ask for what is too old, and a subscriber gets further when each region has something to say.  Assumed of the log: a commit timestamp is taken after the prewrite was answered, a transaction has one commit timestamp and is not both committed and rolled back, timestamps are given out once, the first entry is a fake record.  Excluded, and each shown to lose or repeat transactions: a restart after a late prewrite, a snapshot taken over by a peer that had applied newer entries, a check point reset to -1, prewrites before the first fake record, two commit timestamps for a transaction.", "quantifier": "all logs, all peers that apply, re-apply, restart and take over snapshots, all readers, batch sizes and limits, any number of regions", "why_tests_cant": "Which transaction is open while a peer restarts or a reader asks is a matter of timing across nodes.", "anchors": ["src/store/region_binlog.cpp:Region::apply_binlog,binlog_update_map_when_apply,binlog_update_check_point,binlog_update_map_when_scan,binlog_scan_when_restart,binlog_reset_on_snapshot_load_restart,binlog_reset_on_snapshot_load,read_binlog,BinlogReadMgr::get_binlog_value,get_binlog_finish", "src/tools/baikal_capturer.cpp:Capturer::subscribe,get_binlog_regions,merge_binlog,update_commit_ts,MergeBinlog::run", "src/session/binlog_context.cpp:BinlogContext::send_binlog_data"]}
{"id": "C47", "title": "Date and time functions follow the calendar", "statement": "DAYOFWEEK, WEEKDAY, DAYOFYEAR, QUARTER, WEEK and YEARWEEK give the day and week of the calendar for every date of the years 1400 to 9999, and NULL for a date that does not exist: weeks start on Sunday or Monday as the mode says, week 1 is the first with a Sunday (Monday) or with four days in the year, and weeks before it count as 0 or belong to the year before (in the modes counting from 1 and in YEARWEEK with four-day weeks: exactly outside of weeks 53 and of some days of week 1 of the next year, on which the code errs).  TO_DAYS, TO_SECONDS, DATEDIFF, TIMESTAMPDIFF, TIMEDIFF, TIMESTAMPADD and EXTRACT count days, units and seconds between times that a TIMESTAMP can hold; SEC_TO_TIME and TIME_TO_SEC are inverse; PERIOD_ADD adds months; DATE_FORMAT writes each conversion of its table (all but %f, %u, %V, %X, %x) and leaves the rest as it is.", "quantifier": "all dates and times of the stated ranges, all modes, all formats made of the table's conversions and other characters", "why_tests_cant": "Week numbers at the turn of a year depend on weekday and leap years of two years; a handful of dates exercises few of the combinations.", "anchors": ["src/expr/internal_functions.cpp:dayofweek,weekday,dayofyear,calc_mode,calc_week,week,yearweek,datediff,to_days,to_seconds,timestampdiff,timestampadd,timediff,hour,minute,second,time_to_sec,sec_to_time,func_quarter,period_add,period_diff,extract,date_format", "src/common/datetime.cpp:date_format_internal"]}
{"id": "C46", "title": "String functions compute what they say", "statement": "For all byte strings: REPLACE replaces the occurrences found from the left; SPLIT_PART and SUBSTRING_INDEX give the parts between the occurrences of a delimiter (for negative counts: of delimiters that do not overlap themselves); LOCATE, INSTR, FIND_IN_SET and FIELD find the first place; SUBSTR, LEFT, RIGHT, INSERT, TRIM, LTRIM, RTRIM, LPAD, RPAD, REPEAT, SPACE, REVERSE, CONCAT, CONCAT_WS, ELT give the bytes they are documented to; LOWER and UPPER change ASCII letters only; BIT_COUNT, EXPORT_SET, MAKE_SET and BIN go by the bits of the number; HEX and UNHEX are inverse; CHAR gives the bytes of numbers; QUOTE gives a literal of its argument; FORMAT groups digits by three.  Excluded, and each shown to differ from the documentation: CHAR_LENGTH of characters of three and four bytes (they count 0), functions that count characters on text that is not ASCII, LEFT, RIGHT, TRIM, INSERT, REPLACE of numbers, NULLs for TRIM and LPAD, INSERT of length 0, REPEAT and SPACE of 0, FIND_IN_SET of an empty list, CHAR(0), FORMAT of negative numbers.", "quantifier": "all byte strings, numbers, positions, counts and lists of arguments", "why_tests_cant": "Overlapping occurrences, empty strings and positions outside of the string meet in many combinations; a table of examples covers a few.", "anchors": ["src/expr/internal_functions.cpp:length,bit_length,lower,lower_gbk,upper,concat,concat_ws,substr,left,right,trim,ltrim,rtrim,split_part,substring_index,replace,repeat,reverse,locate,instr,insert,lpad,rpad,export_set,make_set,bit_count,bin,space,elt,char_length,format,field,quote,func_char,hex,unhex,find_in_set"]}
{"id": "C61", "title": "Statements on a table with global indexes keep all indexes right and do what they say", "statement": "For a table with any number of global UNIQUE and non-unique indexes: every statement that succeeds, with any number of records, leaves every global index with exactly the entries of the rows of the table, and no two rows with the same primary key or the same values of a UNIQUE index.  INSERT, and REPLACE, leave the rows that taking the records one after the other leaves, INSERT fails only if that does, REPLACE never.  INSERT IGNORE inserts exactly the records that have neither a row nor an earlier record of the statement in their way (never more than taking them one after the other would; the same if a record in the way of a later one is itself inserted).  ON DUPLICATE KEY UPDATE of one record inserts it or updates the row that is in its way by the first key by which there is one; of several records, on a table whose only unique key is the primary key and with an update that keeps it, it leaves the rows that taking the records one after the other leaves.  UPDATE gives each row its new values and succeeds exactly if the resulting rows may be together - UNIQUE values may be exchanged; DELETE removes the rows.  Excluded, and each shown: INSERT IGNORE losing a record because of an earlier one that is itself dropped; ON DUPLICATE KEY UPDATE of several records on a table with UNIQUE indexes losing one, or following a null pointer.", "quantifier": "all tables, stores, statements and lists of records and keys, all sequences of statements from an empty table", "why_tests_cant": "What is in the way of which record - by which key, in the table or in the statement - has more combinations than a test can enumerate, and a stray index entry shows only later.", "anchors": ["src/exec/insert_manager_node.cpp:InsertManagerNode::open,basic_insert,insert_ignore,insert_replace,insert_on_dup_key_update,reverse_main_table,get_record_from_store,process_records_before_send", "src/exec/update_manager_node.cpp:UpdateManagerNode::open,init_update_info", "src/exec/delete_manager_node.cpp:DeleteManagerNode::open_global_delete", "src/exec/lock_primary_node.cpp:LockPrimaryNode::open", "src/exec/lock_secondary_node.cpp:LockSecondaryNode::open", "src/physical_plan/separate.cpp:Separate::separate_global_insert,create_lock_node,separate_global_update,separate_global_delete"]}
{"id": "C60", "title": "Operators compute the mathematical result", "statement": "An expression of + - * %, unary minus and the bit operators over integer columns of any type and integer literals, nested to any depth, has its mathematical value - NULL when an operand is NULL or a divisor zero - as long as every intermediate result is in the 64-bit range of its kind (unsigned as soon as an unsigned operand or a bit operator occurs), wherever constants are and however they are folded before execution.  A comparison of two such expressions, either side possibly a constant, compares the values, as long as both are in the range the comparison is carried out in.  Additions, subtractions and products with an unsigned operand are right modulo 2^64.  Every operator gives NULL on NULL; a quotient is NULL exactly for NULL and zero divisors; texts compare byte by byte, dates and times of one type in their order; an integer column compared with a whole number written as a double or as text compares with that number; rows without NULLs compare lexicographically.  Excluded, and each shown: negative numbers next to unsigned columns, fractions next to integer columns and in %, signed overflow and shifts by 64 (undefined), numbers from 2^63 on in SQL text, NULLs in rows.", "quantifier": "all expressions of any depth, all column types and values, all rows", "why_tests_cant": "Which machine type an operator works in depends on both operands, on whether one is a column and the other a constant, and on folding; the combinations with the values at which types differ cannot be enumerated.", "anchors": ["src/expr/operators.cpp:UNARY_OP_FN,BINARY_OP_FN,BINARY_OP_ZERO_FN,BINARY_OP_PREDICATE_FN", "src/expr/fn_manager.cpp:FunctionManager::complete_fn,FunctionManager::swap_op,register_operators", "src/expr/scalar_fn_call.cpp:ScalarFnCall::type_inferer,ScalarFnCall::children_swap,ScalarFnCall::get_value", "include/expr/scalar_fn_call.h:multi_eq_value,multi_ne_value,multi_lt_value,multi_le_value,multi_gt_value,multi_ge_value", "src/expr/expr_node.cpp:ExprNode::const_pre_calc", "include/expr/literal.h:Literal::cast_to_col_type,Literal::get_value", "include/common/expr_value.h:ExprValue::cast_to,ExprValue::compare_diff_type", "include/sqlparser/expr.h:LiteralExpr::make_int"]}
{"id": "C62", "title": "Window functions give every row its value", "statement": "A query with any window functions (COUNT, SUM, AVG, MIN, MAX, ROW_NUMBER, RANK, DENSE_RANK, PERCENT_RANK, CUME_DIST, NTILE, LEAD, LAG, FIRST_VALUE, LAST_VALUE, NTH_VALUE) over any windows (PARTITION BY, ORDER BY, ROWS and RANGE frames) gives every row of its input once, and for each window there is an order of the rows by PARTITION BY and ORDER BY in which every function of that window has, for each row, the value SQL defines from the row's partition, position and frame; in whatever order the windows are planned and however rows are cut into batches.  A window is accepted exactly when its frame clause is legal.  Excluded, and each shown: a function that looks at frames after one that does not in windows written alike with ORDER BY (it then gets no frame), numbers of rows from 2^31 on in frames and NTH_VALUE, LEAD offsets at the end of the 64-bit range, strings with NUL bytes and more than eight items in PARTITION BY, empty batches before the last.", "quantifier": "all lists of rows and their batches, all lists of window functions and windows, all argument, PARTITION BY and ORDER BY expressions, all orders of the planned windows", "why_tests_cant": "Partitions that cross batches, ties, frames that leave the partition at either end, several windows sharing one node or re-sorting each other's rows: the combinations cannot be enumerated.", "anchors": ["src/exec/window_node.cpp:WindowNode::init,WindowNode::open,WindowNode::get_next,WindowNode::split_into_partitions,NonFrameWindowProcessor::process_one_partition,FrameWindowProcessor::process_one_partition,RowFrameWindowProcessor::get_start_row,RowFrameWindowProcessor::get_end_row,RangeFrameWindowProcessor::get_start_row,RangeFrameWindowProcessor::get_end_row", "include/exec/window_node.h:WindowNode,WindowProcessor", "src/expr/window_fn_call.cpp:WindowFnCall::open,WindowFnCall::call,WindowFnCall::get_result,WindowFnCall::frame_reset,WindowFnCall::partition_reset", "include/expr/window_fn_call.h:Intermediate", "src/exec/exec_node.cpp:ExecNode::encode_exprs_key", "src/logical_plan/logical_planner.cpp:LogicalPlanner::create_window_expr,LogicalPlanner::create_window_spec,LogicalPlanner::create_window_frame_bound", "src/logical_plan/select_planner.cpp:SelectPlanner::create_window_and_sort_nodes,SelectPlanner::merge_window_node"]}
{"id": "C63", "title": "Conditions with a subquery that does not refer to the outer query have the value SQL gives them", "statement": "For a column and the values a subquery returns (NULLs among them, any number): EXISTS and NOT EXISTS tell whether there is a row; a comparison with a subquery compares with the value of its only row, with NULL if there is none, and is an error if there are more; IN selects the rows whose value was returned; NOT IN, if the subquery returns a row, those that differ from all values (with a NULL among them: none); = ANY and <> ALL have the truth value of the chain of comparisons; = ALL, and < <= > >= with ALL, select the rows for which the comparison holds with all values, if none is NULL (and for < and <= there is a row); < <= > >= with ANY select the rows for which it holds with some value; whether the extreme value is computed by an aggregate, by a window function or by sorting.  SELECT MAX(column) is the largest value.  Excluded, and each shown: NOT IN of nothing (selects no row), <> ANY of different values (selects no row), = ALL and > ALL of values with a NULL (select rows), < ALL of nothing (selects no row), SELECT MIN(column) with a NULL in the column (is NULL), and with it > ANY.", "quantifier": "all column types, rows and lists of values; all three ways in which MIN and MAX are computed", "why_tests_cant": "Each operator is rewritten in its own way, with special cases for no row, one row, equal rows and NULLs; the mistakes are in the corners of these cases.", "anchors": ["src/logical_plan/logical_planner.cpp:LogicalPlanner::handle_in_subquery,LogicalPlanner::construct_in_predicate_node,LogicalPlanner::handle_scalar_subquery,LogicalPlanner::create_common_subquery_expr,LogicalPlanner::handle_compare_subquery,LogicalPlanner::handle_exists_subquery,LogicalPlanner::construct_literal_expr", "src/logical_plan/select_planner.cpp:SelectPlanner::subquery_rewrite,SelectPlanner::minmax_remove", "src/exec/select_manager_node.cpp:SelectManagerNode::get_next", "include/expr/literal.h:Literal::init,Literal::value_to_node_type"]}
{"id": "C51", "title": "A subquery that refers to the outer query selects the rows it selects when evaluated for each of them", "statement": "For a query with a subquery (IN, EXISTS, a comparison with it) whose conditions refer to the outer query: lifting these conditions out of the subquery and executing it once selects, for every outer row, what evaluating the subquery for that row selects, and a scalar subquery fails for the same outer rows.  This holds without aggregation if there is no LIMIT above such a condition and the lifted conditions are equalities of columns where a single row is required; and with an aggregation if the conditions below it are equalities with columns of the subquery, LIMIT drops no row and nothing is selected by the row of an empty group.  After the lifting the subquery has the same rows for every outer row.  Excluded, and each shown: a correlated column whose slot id equals that of the aggregate function or of another table's correlated column (rows of different groups are aggregated together), COUNT and EXISTS over an empty group, inequalities below an aggregation, LIMIT above a correlated condition and with GROUP BY, and scalar subqueries that fail with one row or do not fail with two.", "quantifier": "all plans of filters, sorts, limits and aggregations, all conditions, rows and outer rows, any number of aggregate functions and grouping columns", "why_tests_cant": "The lifting moves conditions past aggregation, sort and limit; whether that is sound depends on the form of each condition, on empty groups and on how columns are numbered, none of which tests enumerate.", "anchors": ["src/exec/apply_node.cpp:ApplyNode::decorrelate,ApplyNode::is_correlate_expr,ApplyNode::extract_eq_inner_slots,ApplyNode::fetcher_inner_table_data,ApplyNode::open", "include/exec/agg_node.h:AggNode::add_group_expr", "src/exec/agg_node.cpp:AggNode::init,AggNode::process_row_batch,AggNode::open", "include/physical_plan/decorrelate.h:DeCorrelate::analyze", "src/exec/joiner.cpp:Joiner::strip_out_equal_slots"]}
{"id": "C56", "title": "Conditions and aggregations over a derived table or a union mean the same when moved into the subqueries", "statement": "For a query over a derived table (a subquery in FROM) or over a UNION ALL of them: moving the conditions on its columns into the subqueries' WHERE leaves the same rows in the same order, whatever grouping, HAVING and windows the subqueries have; a subquery with LIMIT is left alone.  Moving an aggregation over plain subqueries into them, and merging the branches of a union, leaves the same groups in the same order with the same values, and without GROUP BY the one row with the same values.  Excluded, and each shown: a condition that is just a column when the subquery groups or has windows (it is moved even if it is not a grouping column), a condition on a constant column of a subquery that aggregates without GROUP BY (a row that fails the condition is returned), and a constant condition above an aggregation without GROUP BY that is moved (no row instead of one).", "quantifier": "all subqueries with any rows, WHERE, aggregation, HAVING, any number of windows, LIMIT and projections; all conditions of functions of any number of arguments; any number of branches; all group expressions and aggregate functions", "why_tests_cant": "Whether a condition may pass a grouping or a window depends on which columns it mentions through the projections, on empty inputs and on what the windows number; tests look at single queries and tables.", "anchors": ["src/exec/dual_scan_node.cpp:DualScanNode::predicate_pushdown,DualScanNode::can_predicate_pushdown,DualScanNode::can_expr_predicate_pushdown,DualScanNode::agg_pushdown,DualScanNode::create_subquery_agg_node,DualScanNode::get_next", "src/exec/union_node.cpp:UnionNode::predicate_pushdown,UnionNode::agg_pushdown,UnionNode::get_next", "src/expr/expr_node.cpp:ExprNode::replace_slot_ref_to_expr,ExprNode::get_all_subquery_tuple_slot_ids,ExprNode::has_agg_or_window_projection", "src/exec/agg_node.cpp:AggNode::can_agg_pushdown,AggNode::agg_pushdown"]}
{"id": "C64", "title": "A query over regions that split while it runs returns every row exactly once", "statement": "A SELECT asks the regions its SQL node knows of, however old that knowledge is; regions split (once or several times, into any number of regions, and the new ones again) and rows are written before and during the query, and the answers arrive in any order.  The query does not fail; once the regions stop changing it ends after a bounded number of requests; when it is finished, a key that has been in the table throughout has been returned exactly once if it lies in the ranges asked, a key that has never been there has not been returned, and no key is returned twice.  If a region without rows was merged into the next one before the query, and the SQL node does not know, the rows of all regions asked are still returned once.  Excluded, and each shown: a region that was split twice and then merged (rows are lost without an error), a region that is read, splits, and has the region before it merged into it during the query (rows are lost, or returned twice), and a region whose replica has loaded a snapshot between two splits (rows are lost).", "quantifier": "all tables, all sequences of splits and writes before and during the query, all orders of requests and answers, all stale region infos, all keys of any linear order", "why_tests_cant": "The outcome depends on how requests, answers and changes of the regions interleave and on how old each cached region info is; tests run a few schedules.", "anchors": ["src/exec/fetcher_store.cpp:OnRPCDone::handle_version_old,OnRPCDone::handle_single_response,FetcherStore::run_not_set_state", "src/store/region.cpp:Region::validate_version,Region::validate_and_add_version,Region::adjustkey_and_add_version,Region::start_process_merge,Region::send_complete_to_new_region_for_split,Region::on_snapshot_load", "include/common/table_key.h:end_key_compare"]}
{"id": "C65", "title": "A full-text search finds exactly the rows that have the terms asked for, each once", "statement": "For a table with a full-text (reverse) index, after any sequence of inserts and deletes of rows, merges of the index's levels at any time, splits of the region and removals of what is out of its range: a search, or any nesting of AND and OR of searches, finds exactly the rows of the region whose texts meet the condition, each once and in the order of the primary key.  A search in natural language mode is for rows with any of the terms, any other for rows with all the terms of one of its items.  Merges and removals change no search, and the two parts of a split find together what the region found.  Excluded, and each shown: the first region of a table after a split until what is out of its range is removed (a row of the other region is found), a clock that goes back between writes of the same row (a deleted row is found), and an AND with a search for a text without terms (it is ignored).", "quantifier": "all rows, texts and ways to cut texts into terms, all sequences of writes, merges and splits, all nestings of AND and OR with any number of operands, all keys of any linear order", "why_tests_cant": "A search walks three sorted levels with deletes among them by galloping searches, rotating pivots and a heap; which of these paths is taken depends on how postings of all terms are interleaved and merged.", "anchors": ["include/reverse/reverse_index.hpp:ReverseIndex::handle_reverse,ReverseIndex::_insert_one_reverse_node,ReverseIndex::_reverse_merge_to_second_level,ReverseIndex::_reverse_remove_range_for_third_level,ReverseIndex::get_reverse_list_two", "include/reverse/reverse_common.hpp:FirstLevelMSIterator,SecondLevelMSIterator,level_merge", "include/reverse/reverse_interface.hpp:CommRindexNodeParser::next,CommRindexNodeParser::advance,CommRindexNodeParser::binary_search,NewSchema::create_executor", "include/reverse/boolean_engine/boolean_executor.hpp:TermBooleanExecutor::next,TermBooleanExecutor::advance", "src/reverse/boolean_executor.cpp:AndBooleanExecutor::find_next,OrBooleanExecutor::find_next,OrBooleanExecutor::shiftdown", "src/reverse/reverse_index.cpp:MutilReverseIndex::init_operator_executor,MutilReverseIndex::init_term_executor"]}
{"id": "C66", "title": "EXACT LIKE by a full-text index finds exactly the rows for which the condition holds", "statement": "For a table with a full-text index of single characters or of pairs of characters (UTF-8 or GBK), after any history of C65, and a pattern of strings separated by '|' with or without '%' at its ends: EXACT LIKE finds exactly the rows for which one of the strings is in the text (at its front or end where there is no '%'), each once; LIKE loses no row that has one of the strings whatever the case of its letters, and for strings as long as the index's terms finds exactly those rows.  The terms of any text are the runs of that many characters, in lower case, that are not punctuation, or the whole text if it is no longer.  Required of each string: it has as many characters as a term, not all of them punctuation, and no wildcards, backslashes, '|' bytes or byte order mark at its front.  Excluded, and each shown: LIKE that is not EXACT finds rows that do not have the string and ignores where '%' is, strings shorter than a term, punctuation and wildcards lose rows, '%' finds nothing, and EXACT LIKE cuts GBK characters that have the byte of '|'.", "quantifier": "all texts (for terms: all byte strings, valid or not), all patterns of the form above with any number of strings, all term lengths and sets of punctuation, all histories of the index", "why_tests_cant": "Which windows of characters two strings share depends on the whole texts; that none is lost for any text and any pattern is a statement about all of them.", "anchors": ["src/reverse/reverse_common.cpp:Tokenizer::simple_seg_utf8,Tokenizer::simple_seg_gbk,Tokenizer::split_str_utf8,Tokenizer::split_str_gbk", "include/reverse/reverse_common.h:Tokenizer::get_utf8_len,Tokenizer::get_utf8_bom_len", "include/reverse/reverse_interface.hpp:NewSchema::create_executor", "src/expr/predicate.cpp:LikePredicate::open_by_pattern,LikePredicate::get_value_by_pattern", "src/exec/access_path.cpp:AccessPath::calc_fulltext"]}
{"id": "C67", "title": "A region that crashes between any two writes has, after restarting, exactly the rows and open transactions of its log", "statement": "A store dies any number of times, each time after any number of the writes of an entry of the raft log, and restarts from its disk and its latest raft snapshot (which may be of any age).  After every restart the rows are those of a prefix of the log at least as long as the one before the crash: a committed transaction or write is neither lost nor applied twice, and nothing of an uncommitted transaction is visible; the transactions in memory are exactly those open at that point, with all their statements, and prepared if they were.  After the rest of the log is handed over, rows and transactions are exactly those of the whole log.  For the first crash this holds without any condition; for later ones it requires that no mark of a commit that was interrupted is left for a transaction that is not prepared.  The number of rows is exact, too, if no crash happens while a transaction is open, or if the statements of transactions do not change it.  Excluded, and each shown: a second crash with such a mark (a committed transaction is lost), a crash during the restart itself (a write is applied twice), a crash in a one-phase commit (statements are applied twice), row counts of transactions open at a crash (too small), and row counts of transactions of several statements on followers (too large).", "quantifier": "all logs of writes and two-phase transactions (statements, PREPARE, COMMIT, ROLLBACK) of any length and interleaving, all numbers of crashes, all points of each crash, all snapshot ages, all operations (put, delete, merge)", "why_tests_cant": "A test would have to kill the process between each pair of writes, for every interleaving of transactions and every age of the snapshot.", "anchors": ["src/store/region.cpp:Region::do_apply,Region::apply_kv_in_txn,Region::apply_kv_out_txn,Region::apply_txn_request,Region::dml_2pc,Region::dml_1pc,Region::on_snapshot_load_for_restart,Region::on_snapshot_load,Region::on_snapshot_save", "src/store/meta_writer.cpp:MetaWriter::write_pre_commit,MetaWriter::write_meta_after_commit,MetaWriter::write_meta_begin_index,MetaWriter::clear_error_pre_commit,MetaWriter::update_apply_index", "src/raft/log_entry_reader.cpp:LogEntryReader::read_log_entry", "src/store/store.cpp:Store::init_before_listen", "src/exec/transaction_node.cpp:TransactionNode::open"]}
{"id": "C68", "title": "A split hands every write over to the new region: afterwards the table is what it would be without the split", "statement": "A region is split at a key while clients write: rows are written outside transactions and in two-phase transactions that are open when the snapshot is taken, begin during the split, or are still open at the switch; the log is read in any number of passes at any times.  If the switch is accepted, every entry of the log between the snapshot and the switch has been sent, once and in order.  The new region then has exactly the rows and KEY index entries behind the split key that the whole log leaves, no row in front of it, every UNIQUE index entry of its rows, and exactly the open transactions, each with all it wrote behind the split key.  Whatever follows, a row looked up in the region it is now in is what it would be without the split.  If a write comes between the last entry sent and the switch, or the leader has changed, the split is given up.  Excluded, and each shown: UNIQUE index entries deleted during the split stay in the new region, columns of column-stored tables written during the split are lost, and the row counts of open transactions are not corrected.", "quantifier": "all logs, all split keys, all snapshot positions, all numbers and times of passes, all orders of the open transactions, all commands under way at the leader, all entries after the switch", "why_tests_cant": "What is lost or sent twice depends on when each pass reads the log, on which transactions are open at the snapshot and at the switch, and on commands the leader has executed but not yet applied; a test covers a few of these schedules.", "anchors": ["src/store/region.cpp:Region::start_split,Region::write_local_rocksdb_for_split,Region::replay_applied_txn_for_recovery,Region::send_log_entry_to_new_region_for_split,Region::get_log_entry_for_split,Region::validate_and_add_version,Region::check_key_fits_region_range,Region::apply_kv_in_txn,Region::apply_kv_out_txn,Region::add_version_for_split_region", "src/engine/transaction.cpp:Transaction::fits_region_range", "include/engine/transaction.h:Transaction::get_cache_plan_infos,Transaction::add_kvop_delete", "src/engine/transaction_pool.cpp:TransactionPool::get_prepared_txn_info"]}
{"id": "C69", "title": "The snapshot a peer gets from the leader is the leader's: every row and every open transaction's requests, each once and in order", "statement": "The leader sends a region's rows and meta keys as byte streams that are made while they are read; the receiver asks for the bytes from where it is, asks again when an answer gets lost, and late or doubled requests reach the leader in between.  Whatever the requests, sizes and losses, what the receiver writes into its files are the first keys of the snapshot, in order, none twice, none left out, no value changed.  If all requests ask for the same number of bytes, the receiver does not take the transfer for finished before it has everything; of the meta keys these are, for each open transaction, all of its requests, and everything else but marks and old requests, in one file, whose keys ascend.  A lost answer is given again.  Without losses the transfer ends.  If the rows are not to be sent, the receiver gets an empty file and nothing else.  Excluded, and each shown: a repeated request that asks for more bytes than the lost one (the receiver takes the transfer for finished and rows are missing), and a transaction whose log entries cannot be read (it is left out without an error, and keys behind it, too).", "quantifier": "all rows and meta keys of any number and length, all sequences of requests with any offsets and sizes, all losses, all file sizes at which a new file is begun", "why_tests_cant": "Packets end between keys, the end of the stream is guessed from the length of an answer, and answers that get lost are taken from a cache; which keys a packet has depends on the lengths of all keys before it.", "anchors": ["src/raft/rocksdb_file_system_adaptor.cpp:RocksdbReaderAdaptor::read,RocksdbReaderAdaptor::context_reset,RocksdbReaderAdaptor::size,SstWriterAdaptor::write,SstWriterAdaptor::iobuf_to_sst,SstWriterAdaptor::finish_sst,SstWriterAdaptor::close", "include/raft/rocksdb_file_system_adaptor.h:RocksdbReaderAdaptor::serialize_to_iobuf,IteratorContext", "src/store/meta_writer.cpp:MetaWriter::transcation_log_index_key,MetaWriter::transcation_pb_key"]}
{"id": "C70", "title": "A peer that joins, or loads the leader's snapshot, ends up with exactly the rows and open transactions of the log", "statement": "The peers of a region apply the log, save raft snapshots, die and restart, and a new peer, or one that is too far behind, loads the snapshot of another at any time.  At any moment the rows of each peer are those of a prefix of the log at least as long as its raft snapshot; the transactions it knows are exactly those open there, with all their statements, prepared if they are; after the rest of the log it has the rows and transactions of the whole log, whatever path it has taken.  A peer that has loaded a snapshot has the leader's rows, whether these were sent or not; if it has not died before and has applied all it has got, rows that are not sent are rows it has.  Excluded, and each shown: a peer that has got entries it has not applied, or has died since a statement of a transaction (it removes its rows and gets none), a leader that has died within a commit (the peer never gets that commit), and a leader whose log no longer has the first entries of an open transaction (the transaction commits without their rows).", "quantifier": "all logs of writes and two-phase transactions of any length and interleaving, all numbers of peers, crashes, snapshots and installs in any order, all ages of snapshots", "why_tests_cant": "Whether rows are sent, kept or removed is decided by comparing three indexes that two stores keep in memory and on disk; the wrong combinations need a crash, a slow peer and a truncated log at once.", "anchors": ["src/store/region.cpp:Region::on_snapshot_load,Region::ingest_snapshot_sst,Region::do_apply,Region::on_snapshot_load_for_restart", "src/raft/rocksdb_file_system_adaptor.cpp:RocksdbFileSystemAdaptor::open_reader_adaptor,RocksdbFileSystemAdaptor::open_snapshot", "src/store/meta_writer.cpp:MetaWriter::clear_meta_info,MetaWriter::parse_txn_infos,MetaWriter::clear_txn_infos", "src/raft/log_entry_reader.cpp:LogEntryReader::read_log_entry"]}
{"id": "C71", "title": "Merging an empty region into its neighbour loses no row and no key", "statement": "A region without rows is merged into the region that follows it while clients write to both, in and outside of transactions, with any knowledge of the two ranges that was true at some time.  The merge may be tried any number of times, with an out-of-date answer of the meta server, and fail at any of its checks.  At any time every key belongs to one of the regions; a key of the destination is read there with its last committed value, and a key that only the source has is read there with its last committed value; the same holds for the statements of open transactions.  While a key belongs to both, the source has no row of it and takes no statement; once merged, it turns away every client that believes it to have a key.  A region with a row, or one written to since the last round, is not merged; an empty one that was left alone is, also if the meta server's version is out of date.  Excluded, and each shown: a statement that is past the wait for the merge but not yet counted when the merge begins (its row is acknowledged and lost), an open transaction on the region (its COMMIT succeeds without its rows), a change of leader or a lost answer before the source has applied its empty range (both regions keep the keys for good, and rows written to one are not found at the other), and a read at the source between the two changes of range.", "quantifier": "all ranges, rows and open transactions, all interleavings of the steps of any number of writes, transactions and merge attempts, all answers of the meta server, failures of the destination at any time", "why_tests_cant": "The merge is a sequence of steps in two raft groups with a remote call between them, and whether a row is lost depends on which of these steps a statement of a client comes between.", "anchors": ["src/store/region.cpp:Region::start_process_merge,Region::adjustkey_and_add_version_query,Region::adjustkey_and_add_version,Region::has_sst_data,Region::validate_version,Region::exec_in_txn_query", "src/store/closure.cpp:MergeClosure::Run", "src/store/store.cpp:Store::process_merge_request", "src/exec/fetcher_store.cpp:OnRPCDone::handle_version_old,OnRPCDone::fill_single_request"]}
{"id": "C72", "title": "After any ALTER TABLE on columns, every row has the values that the statements say", "statement": "Columns are added, dropped, renamed and modified in any order, with rows written in between, in row and column storage.  SELECT * and a SELECT by name, in any case, give exactly what the statements say: a new column has its default in the rows that were there, a dropped one is gone, a renamed one keeps its values, and a column added later under the name of a dropped one has none of its values.  The number under which a column is stored is never given to another one.  ADD is accepted if none of the names is in use, RENAME and CHANGE of a column that exists to a name that is not in use, DROP of one that no index, partitioning, TTL or binlog link uses; such columns stay in the table.  A restart of the meta server changes none of this.  A MODIFY or CHANGE with another default changes no other column, and in its own only values equal to the old default.  Excluded, and each shown: MODIFY or CHANGE without a DEFAULT clause (rows from before ADD COLUMN turn from the default to NULL), another default in column storage (values written explicitly change), two columns of the same name in one ADD, names that differ by case only (statements work on the wrong column), CHANGE of an index column and RENAME of the partition or TTL column (the column can then be dropped).", "quantifier": "all tables, all sequences of ADD, DROP, RENAME, MODIFY and CHANGE COLUMN, INSERT, UPDATE and restarts of any length, all names and values, row and column storage", "why_tests_cant": "Nothing is written to the rows by ALTER TABLE, so what a row reads as depends on all statements since it was written; a test tries a few sequences.", "anchors": ["src/meta_server/table_manager.cpp:TableManager::add_field,TableManager::drop_field,TableManager::rename_field,TableManager::modify_field,TableManager::alloc_field_id,TableManager::check_field_exist,field_in_index", "include/meta_server/table_manager.h:TableManager::get_field_id,TableManager::add_field_mem,TableManager::drop_field_mem", "src/common/schema_factory.cpp:SchemaFactory::update_table_internal", "src/common/table_record.cpp:TableRecord::encode_field_for_cstore", "src/common/tuple_record.cpp:TupleRecord::decode_fields", "src/logical_plan/ddl_planner.cpp:DDLPlanner::add_column_def,DDLPlanner::parse_alter_table"]}
{"id": "C73", "title": "A HyperLogLog sketch, and its estimate, depend only on the set of values", "statement": "HLL_INIT, HLL_ADD, HLL_MERGE, HLL_ADD_AGG and HLL_MERGE_AGG, and the stores of sketches, make sketches whose registers are, whatever the encoding and history, for each register the largest rank among the hashes of the values that went in; NULL is left out.  So HLL_ESTIMATE is the same for any order, repetition, split of the rows over regions and grouping of merges, and is never an out-of-date cached number.  None of these operations fails on a sketch so made, a sparse sketch never exceeds its limit of bytes, and its bytes read back as what was written.  HLL_ESTIMATE of NULL is zero.  Excluded, and each shown: HLL_MERGE whose first argument is a raw sketch, such as the result of HLL_ADD_AGG, and whose second is not dense (the second is ignored), and merging a raw sketch into another one by the aggregate's merge (memory is overwritten; the aggregates do not do it).", "quantifier": "all sequences of operations of any length, all hashes of 64 bits, all numbers of registers from 4 to 16384, all limits of the sparse encoding", "why_tests_cant": "Three encodings with 6-bit registers across byte borders, run lengths that are split and joined, and a change of encoding that depends on size and values; an error in one register changes an estimate that is only approximate anyway.", "anchors": ["src/common/hll_common.cpp:hll_pat_len,hll_dense_set,hll_dense_reghisto,hll_sparse_set_promote,hll_sparse_set_update,hll_sparse_set,hll_sparse_to_dense,hll_raw_to_sparse,hll_add,hll_sparse_reghisto,hll_row_reghisto,hll_estimate,hll_merge_agg,hll_merge,hll_sparse_init,hll_row_init", "include/common/hll_common.h:HLL_DENSE_GET_REGISTER,HLL_DENSE_SET_REGISTER,HLL_SPARSE_VAL_SET,HLL_SPARSE_XZERO_SET", "src/expr/internal_functions.cpp:hll_add,hll_init,hll_merge,hll_estimate", "src/expr/agg_fn_call.cpp:AggFnCall::update,AggFnCall::merge,AggFnCall::finalize"]}
{"id": "C74", "title": "A row of a partitioned table is in one partition, and every statement that can concern it looks there", "statement": "A table is partitioned by ranges of a column or of an expression, with the copies of other types, cold and additional partitions of an account setting, or by hash.  A row is written to the one partition visible to the account whose range has its value, and refused if there is none.  A SELECT, UPDATE or DELETE with any conjunction of comparisons, IN, row comparisons, row IN and other conditions reads every partition visible to the account that has a row meeting the conditions, so an account finds again what it wrote; on a table partitioned by a column it reads no other account's partitions and none twice.  CREATE TABLE, ADD PARTITION and DROP PARTITION, in any order, keep ranges of one kind apart and ids and names unique; LESS THAN partitions leave no gap; ADD adds the partitions it lists, DROP removes those it names; ids are not used again and a partition that stays keeps its id, name, type and range; MODIFY PARTITION makes a partition of the primary type cold and drops the copies of its range, after which every account reads and writes that one, and no partition of the primary type is lost; what is within the type, of a new name and apart from the others is accepted.  The clause PARTITION (...) of a statement means exactly the partitions it names, an INSERT with it is accepted exactly if all rows belong to them, and TRUNCATE empties what it names or all.  A hash partition id is within the table.  Excluded, and each shown: < between rows that start with the partition column (the partition of the bound is skipped), LIKE with a literal part on the partition column (no partition is read), a range condition on a table partitioned by an expression (leaves out additional partitions and reads other copies), a negative number on a hash table (the row is refused), LIKE without a wildcard on a hash table of numbers, ADD PARTITION with LESS THAN to a table that has a lower partition (refused), partition names that differ by case only (PARTITION (P1) reads the other one).", "quantifier": "all tables and partitions of the three types, cold or not, all accounts and isolation dates, all rows, NULL included, all lists of conditions of any length, all sequences of ADD, DROP and MODIFY PARTITION", "why_tests_cant": "Which partitions are read depends on the order and kinds of all conditions, since each keeps or replaces what an earlier one set; a partition left out only shows as missing rows.", "anchors": ["src/physical_plan/plan_router.cpp:PlanRouter::insert_node_analyze,PartitionAnalyze::analyze", "include/common/schema_factory.h:SchemaFactory::get_partition_ids_by_name,RangePartition::calc_partition,RangePartition::calc_partitions,RangePartition::get_specified_partition_ids,RangePartition::is_specified_range", "src/common/schema_factory.cpp:HashPartition::calc_partition,RangePartition::init,SchemaFactory::get_region_by_key", "src/physical_plan/index_selector.cpp:IndexSelector::hit_field_range,IndexSelector::hit_row_field_range,IndexSelector::select_partition,get_field_hit_type_weight", "src/meta_server/meta_util.cpp:compare,min,max,check_partition_expr,check_range_partition_info,check_partition_overlapped,convert_to_partition_range", "include/meta_server/meta_util.h:is_specified_partition,RangeComparator,PointerRangeComparator", "src/meta_server/schema_manager.cpp:SchemaManager::pre_process_for_partition", "src/meta_server/table_manager.cpp:TableManager::add_partition,TableManager::drop_partition_internal,TableManager::modify_partition,TableManager::remove_partitions"]}
{"id": "C75", "title": "CASE, IF, IFNULL and NULLIF return the value of the branch that applies, with its number or text kept", "statement": "CASE WHEN returns the value of the first branch whose condition is true, else that of ELSE, else NULL; a NULL condition is not true.  CASE x WHEN w returns that of the first w equal to x, when x and all w are texts, all doubles, all BOOL, all numbers at least zero or all of signed types; a NULL x is equal to no w that is not NULL.  IF, IFNULL and NULLIF choose in the same way, IF(c, a, b) being CASE WHEN c THEN a ELSE b END and NULLIF(a, b) of one type CASE a WHEN b THEN NULL ELSE a END; NULLIF(a, NULL) is a when a is neither zero nor empty.  In every case the result is NULL exactly if the chosen value is; it is unchanged when the branches have one type; branches of several integer types keep the number, as BIGINT UNSIGNED if one branch has it and as BIGINT otherwise; with a DOUBLE branch, or with BIGINT UNSIGNED beside a signed type, the result is the double nearest to the number; with a text branch it is the text of the value.  Excluded, and each shown: a NULL in WHEN or as second argument of NULLIF (equal to NULL, zero and the empty text), numbers compared with texts in a CASE with several WHEN (the comparison with a number turns x into a number for those that follow), negative numbers beside unsigned types (-1 equals 18446744073709551615), digits lost when BIGINT UNSIGNED is beside a signed type, texts as conditions (IF('0.5', a, b) is b).", "quantifier": "all values of all integer types, BOOL, DOUBLE, strings and NULL, any number of branches of any types, all conversions between doubles, numbers and texts", "why_tests_cant": "The type of the result depends on the types of all branches together, and the comparison depends on the pair of types and on the comparisons before it; a wrong cast only shows at the ends of the ranges.", "anchors": ["src/expr/internal_functions.cpp:case_when,case_expr_when,if_,ifnull,nullif", "src/expr/fn_manager.cpp:FunctionManager::complete_common_fn", "src/expr/scalar_fn_call.cpp:ScalarFnCall::get_value", "include/common/expr_value.h:ExprValue::cast_to,ExprValue::compare,ExprValue::compare_diff_type,ExprValue::get_numberic", "include/common/type_utils.h:has_merged_type,is_int,is_uint,is_signed,is_double"]}
{"id": "C76", "title": "ELT, FIELD, FIND_IN_SET, MAKE_SET, EXPORT_SET, GREATEST and LEAST pick the argument they say", "statement": "ELT(n, a, b, ...) is the text of the n-th of a, b, ..., and NULL when there is none.  FIELD(x, a, b, ...) is the place of the first of a, b, ... with the text of x, and 0 when there is none, so ELT(FIELD(x, a, b, ...), a, b, ...) is the text of x, or NULL.  FIND_IN_SET(x, 'a,b,...') is the place of the first of a, b, ... that is x, and 0 when there is none.  MAKE_SET(n, a, b, ...) has the texts of those of a, b, ... whose bit is set in n, also for negative n, with commas between.  EXPORT_SET(n, on, off, sep, len) shows the lowest len bits of n from the lowest on, as on or off, with sep between, and 64 bits when len is not given or not from 1 to 64.  GREATEST and LEAST are the double of one of their arguments, and no argument is above, or below, it.  A NULL argument makes the result NULL, and so does a wrong number of arguments.  Shown as differing from MySQL: a NULL that is not chosen (ELT(1, 'a', NULL)), FIELD(NULL, 'a') (NULL, not 0), texts in GREATEST and LEAST (read as numbers, so GREATEST('a', 'b') is 0), BIGINT in GREATEST (digits lost above 2^53), FIND_IN_SET('', '') (1, not 0).", "quantifier": "any number of arguments of any type, all texts and separators, all integers, all conversions between doubles, numbers and texts, all orders of doubles without NaN", "why_tests_cant": "Places and bits depend on the number of arguments and on every earlier argument; tests fix a few short lists.", "anchors": ["src/expr/internal_functions.cpp:elt,field,find_in_set,make_set,export_set,greatest,least", "src/expr/fn_manager.cpp:FunctionManager::register_operators", "include/common/expr_value.h:ExprValue::cast_to,ExprValue::get_numberic"]}
