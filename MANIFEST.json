{
 "claims": [
  {
   "property": "C01",
   "status": "proved",
   "theorems": [
    "Verif.Ule.C01_abort_restores_value",
    "Verif.Ule.C01_abort_erases_write"
   ],
   "note": "row level"
  },
  {
   "property": "C02",
   "status": "proved",
   "theorems": [
    "Verif.Ule.C02_row_value_is_last_surviving_write",
    "Verif.Ule.C02_child_commit_keeps_value"
   ],
   "note": "row level"
  },
  {
   "property": "C03",
   "status": "proved",
   "theorems": [
    "Verif.Mvcc.C03_snapshot_read",
    "Verif.Mvcc.C03_repeatable_read"
   ],
   "note": ""
  },
  {
   "property": "C04",
   "status": "proved",
   "theorems": [
    "Verif.Mvcc.C04_collection_is_invisible",
    "Verif.Mvcc.C04_collect_changes_no_read",
    "Verif.Mvcc.C04_delivery_choices_change_no_read",
    "Verif.Mvcc.C04_no_assertion"
   ],
   "note": ""
  },
  {
   "property": "C05",
   "status": "proved",
   "theorems": [
    "Verif.Txn.C05_snapshot_sees_exactly_the_finished",
    "Verif.Mvcc.C05_snapshot_starts_with_committed"
   ],
   "note": ""
  },
  {
   "property": "C06",
   "status": "partial",
   "theorems": [
    "Verif.Mvcc.C06_statement_reads_committed",
    "Verif.Mvcc.C06_latest_read",
    "Verif.Mvcc.C06_read_committed_always_is_stale"
   ],
   "note": "proved for DB_READ_COMMITTED (a snapshot per statement); false for DB_READ_COMMITTED_ALWAYS, by the witness in C06_read_committed_always_is_stale"
  },
  {
   "property": "C07",
   "status": "proved",
   "theorems": [
    "Verif.Ule.C07_round_trip",
    "Verif.Ule.C07_no_value_is_absent",
    "Verif.Ule.C07_injective",
    "Verif.Ule.C07_size",
    "Verif.Ule.C07_every_reachable_row_is_storable"
   ],
   "note": ""
  },
  {
   "property": "C08",
   "status": "proved",
   "theorems": [
    "Verif.Ule.C08_latest",
    "Verif.Ule.C08_iterate",
    "Verif.Ule.C08_snapshot",
    "Verif.Ule.C08_read_committed",
    "Verif.Ule.C08_has_xids",
    "Verif.Ule.C08_worth_collecting"
   ],
   "note": ""
  },
  {
   "property": "C09",
   "status": "partial",
   "theorems": [
    "Verif.Ule.C09_insert_no_overwrite_partial",
    "Verif.Tree.C62_silent_put_overwrites"
   ],
   "note": "Proved for the message that asks for it; refuted for the put, which sends a plain insertion when it takes the shortcut to the last leaf."
  },
  {
   "property": "C10",
   "status": "proved",
   "theorems": [
    "Verif.Ule.C10_implicit_equals_explicit_commits",
    "Verif.Ule.C10_commit_notifications_unobservable"
   ],
   "note": ""
  },
  {
   "property": "C100",
   "status": "partial",
   "theorems": [
    "Verif.Paths.C100_name",
    "Verif.Paths.C100_place_partial",
    "Verif.Paths.C100_place_refuted",
    "Verif.Paths.C100_same_file_partial",
    "Verif.Paths.C100_same_file_refuted",
    "Verif.Paths.C100_rename_partial",
    "Verif.Paths.C100_rename_refuted",
    "Verif.Paths.C100_rename_lost"
   ],
   "note": "C100_name holds for all parts, with the sizes of the buffers as the code counts them. C100_place_partial leaves out a data directory set to the empty name, for which it is false (C100_place_refuted). C100_same_file_partial and C100_rename_partial are for no data directory or an absolute one; C100_same_file_refuted: with any relative one a rename (dir_per_db) uses a name with the data directory in it twice, and C100_rename_refuted: the call returns 0 although no file was renamed, and the dictionary is not to be found afterwards (C100_rename_lost: for every relative directory and all names). Missing: links and .. in names, failing allocations, the making of subdirectories."
  },
  {
   "property": "C11",
   "status": "proved",
   "theorems": [
    "Verif.Ule.C11_stack_never_overflows",
    "Verif.Ule.C11_any_sequence",
    "Verif.Ule.C11_broadcasts_keep_value"
   ],
   "note": "every message type: point messages and commit/abort/commit-all broadcasts of a transaction, and optimize"
  },
  {
   "property": "C12",
   "status": "proved",
   "theorems": [
    "Verif.Ule.C12_nesting_limit",
    "Verif.Ule.C12_create_child",
    "Verif.Ule.C12_codec"
   ],
   "note": ""
  },
  {
   "property": "C13",
   "status": "proved",
   "theorems": [
    "Verif.Ft.C13_counts",
    "Verif.Ft.C13_bytes_drift_when_equal_keys_differ_in_length"
   ],
   "note": "byte count exact for comparators under which equal keys have equal length; the second theorem is the witness that it drifts otherwise"
  },
  {
   "property": "C14",
   "status": "partial",
   "theorems": [
    "Verif.Ft.C14_logical_rows_partial",
    "Verif.Ft.C14_abort_simple_partial",
    "Verif.Ft.C14_abort_miscounts",
    "Verif.Ft.C14_delete_absent_miscounts",
    "Verif.Ft.C14_update_miscounts"
   ],
   "note": "false in general: aborts of rows with more than one version, deletes of unstored keys and updates that do not set a value are miscounted (witnesses)"
  },
  {
   "property": "C15",
   "status": "proved",
   "theorems": [
    "Verif.Txn.C15_ids_increase"
   ],
   "note": ""
  },
  {
   "property": "C16",
   "status": "proved",
   "theorems": [
    "Verif.Txn.C16_referenced_exact",
    "Verif.Txn.C16_strategies_agree",
    "Verif.Txn.C16_manager_never_asserts"
   ],
   "note": ""
  },
  {
   "property": "C17",
   "status": "proved",
   "theorems": [
    "Verif.Txn.C17_oldest_is_lower_bound"
   ],
   "note": ""
  },
  {
   "property": "C18",
   "status": "proved",
   "theorems": [
    "Verif.Ydb.begin_root",
    "Verif.Ydb.begin_nested",
    "Verif.Ydb.nested_like_parent"
   ],
   "note": "in every state a client can reach; the isolation, access and flags of the new handle, and refusal without effect"
  },
  {
   "property": "C19",
   "status": "proved",
   "theorems": [
    "Verif.Xa.listing_complete",
    "Verif.Xa.recover_sound",
    "Verif.Xa.batches_exact",
    "Verif.Xa.no_room_stops",
    "Verif.Xa.two_listings_collide"
   ],
   "note": "room for at least one per call; one listing at a time (both needed: the last two theorems)"
  },
  {
   "property": "C20",
   "status": "proved",
   "theorems": [
    "Verif.Lt.C20_no_point_is_locked_twice",
    "Verif.Lt.C20_locked_range_is_not_granted"
   ],
   "note": ""
  },
  {
   "property": "C21",
   "status": "proved",
   "theorems": [
    "Verif.Lt.C21_lock_stays_until_released",
    "Verif.Lt.C21_granted_range_is_locked"
   ],
   "note": ""
  },
  {
   "property": "C22",
   "status": "proved",
   "theorems": [
    "Verif.Lt.C22_granted_iff_no_conflict",
    "Verif.Lt.C22_no_event_fails",
    "Verif.Lt.C22_memory_check_is_transparent_below_half",
    "Verif.Lt.C22_refusal_after_escalation"
   ],
   "note": ""
  },
  {
   "property": "C23",
   "status": "proved",
   "theorems": [
    "Verif.Lt.C23_release_removes_exactly_own_locks",
    "Verif.Lt.C23_release_leaves_others_alone",
    "Verif.Lt.C23_no_record_no_lock"
   ],
   "note": ""
  },
  {
   "property": "C24",
   "status": "proved",
   "theorems": [
    "Verif.Lt.C24_queries_are_exact"
   ],
   "note": ""
  },
  {
   "property": "C25",
   "status": "partial",
   "theorems": [
    "Verif.Lt.C25_no_event_fails",
    "Verif.Lt.C25_check_is_exact",
    "Verif.Lt.C25_reported_deadlock_is_real",
    "Verif.Lt.C25_waiting_never_cycles_partial",
    "Verif.Lt.C25_missed_after_stale_conflicts",
    "Verif.Lt.C25_missed_after_escalation"
   ],
   "note": "a reported deadlock is always real; completeness holds when the attempt and the enqueueing of a request are not interleaved and no escalation happens between, and is false otherwise (two witnesses)"
  },
  {
   "property": "C26",
   "status": "proved",
   "theorems": [
    "Verif.Lt.Retry.C26_unblocked_waiter_will_be_retried",
    "Verif.Lt.Retry.C26_no_lost_wakeup",
    "Verif.Lt.Retry.C26_completed_waiter_wakes",
    "Verif.Lt.Retry.C26_release_is_never_stuck",
    "Verif.Lt.Retry.C26_round_is_finite"
   ],
   "note": ""
  },
  {
   "property": "C27",
   "status": "partial",
   "theorems": [
    "Verif.Lt.C27_buffer_returns_what_was_appended_partial",
    "Verif.Lt.C27_range_ending_at_empty_key_reads_back_wrong",
    "Verif.Lt.C27_range_ending_at_empty_key_reads_garbage",
    "Verif.Lt.C27_empty_right_key_is_lost",
    "Verif.Lt.C27_longest_key_reads_back_empty",
    "Verif.Lt.C27_order_is_not_kept"
   ],
   "note": "false in general: ranges ending at the empty key and keys of 65536 bytes read back wrongly, and the order is not kept (witnesses); proved as a multiset for all other ranges"
  },
  {
   "property": "C28",
   "status": "proved",
   "theorems": [
    "Verif.Blk.C28_blocks_in_use_are_apart",
    "Verif.Blk.C28_allocation_succeeds",
    "Verif.Blk.C28_free_succeeds",
    "Verif.Blk.C28_open_succeeds",
    "Verif.Blk.C28_accounts",
    "Verif.Blk.C28_freed_space_is_available"
   ],
   "note": "For every history of create/open, allocate and free. Assumes the file stays below 2^64 bytes (Room)."
  },
  {
   "property": "C29",
   "status": "proved",
   "theorems": [
    "Verif.Blk.C29_first_fit",
    "Verif.Blk.C29_summaries_exact",
    "Verif.Blk.C29_search_is_logarithmic",
    "Verif.Blk.C29_allocated_limit"
   ],
   "note": "The tree is modelled with its rotations, fix-ups, merges and label recalculation."
  },
  {
   "property": "C30",
   "status": "proved",
   "theorems": [
    "Verif.Blk.C30_no_block_is_overwritten",
    "Verif.Blk.C30_checkpoint_survives",
    "Verif.Blk.C30_recovery_succeeds",
    "Verif.Blk.C30_completed_checkpoint_is_kept"
   ],
   "note": "Histories of the block table with writes in flight, a checkpoint that can be at any stage, and crashes at any point.  Assumes the cachetable's per-node locking (stated in Step) and files below 2^63 bytes."
  },
  {
   "property": "C31",
   "status": "proved",
   "theorems": [
    "Verif.Blk.C31_new_number_is_unused",
    "Verif.Blk.C31_free_list_is_exact",
    "Verif.Blk.C31_numbers_have_separate_blocks",
    "Verif.Blk.C31_number_keeps_its_block"
   ],
   "note": "Over the same histories, including checkpoints' compaction of the free list and recovery after a crash."
  },
  {
   "property": "C32",
   "status": "proved",
   "theorems": [
    "Verif.Ser.C32_header_round_trip",
    "Verif.Ser.C32_completed_checkpoint_is_found",
    "Verif.Ser.C32_interrupted_checkpoint_is_all_or_nothing",
    "Verif.Ser.C32_interrupted_first_checkpoint",
    "Verif.Ser.C32_opening_never_stops_the_program",
    "Verif.Ser.C32_newest_usable_header"
   ],
   "note": "Histories of checkpoints, crashes that leave any mixture of old and new bytes, and reopenings. The hypothesis Noticed of Interrupted, stated with the checksum specification, is that the checksum of the torn header does not match by accident (the checksum is 32 bits; see C33_one_bit_can_go_unnoticed)."
  },
  {
   "property": "C33",
   "status": "proved",
   "theorems": [
    "Verif.Ser.C33_checksum_of_pieces",
    "Verif.Ser.C33_checksum_in_memory",
    "Verif.Ser.C33_written_fields_are_read_back",
    "Verif.Ser.C33_same_bytes_without_checksum",
    "Verif.Ser.C33_fits_or_stops",
    "Verif.Ser.C33_one_bit_can_go_unnoticed"
   ],
   "note": "The last theorem is a witness about the strength of the checksum, not part of the property: one changed bit can leave it the same."
  },
  {
   "property": "C34",
   "status": "proved",
   "theorems": [
    "Verif.Ser.C34_buffer_shows",
    "Verif.Ser.C34_round_trip",
    "Verif.Ser.C34_round_trip_without_trees"
   ],
   "note": "For every history of arrivals, applications by queries and filing under stale, the buffer shows the messages in order; written and read back, in the current format and in the format of version 26, it is the same buffer with the same trees, and takes exactly the computed space. The reader for versions 13 and 14 is not modelled."
  },
  {
   "property": "C35",
   "status": "proved",
   "theorems": [
    "Verif.Tree.C35_query_sees_every_write_once",
    "Verif.Tree.C35_only_messages_change_answers",
    "Verif.Tree.C35_any_basement_read_is_current"
   ],
   "note": "For every message semantics (what a message does to a row is a parameter), every key order, every history of sends, promotions, flushes, cleaner flushes, splits, merges, rebalances, new roots, writes, evictions, rereads and queries. The guards on when the code does each step are in the model's comments. The unlocked check of the rightmost-leaf fast path is not modelled."
  },
  {
   "property": "C36",
   "status": "proved",
   "theorems": [
    "Verif.Tree.C36_key_goes_to_its_child",
    "Verif.Tree.C36_bounds_contain_key"
   ],
   "note": ""
  },
  {
   "property": "C37",
   "status": "proved",
   "theorems": [
    "Verif.Tree.C37_leaf_split",
    "Verif.Tree.C37_leaf_merge",
    "Verif.Tree.C37_leaf_rebalance",
    "Verif.Tree.C37_inner_split",
    "Verif.Tree.C37_inner_merge"
   ],
   "note": "Buffered messages: splits and merges of inner nodes keep the children with their buffers; buffers drained by a merge are covered by C35."
  },
  {
   "property": "C38",
   "status": "proved",
   "theorems": [
    "Verif.Omt.Props.behaves_as_a_list",
    "Verif.Omt.Props.no_assertion_fails",
    "Verif.Omt.Props.iterates_in_order",
    "Verif.Omt.Props.marks_what_it_visits",
    "Verif.Omt.Props.changes_in_place",
    "Verif.Omt.Props.insert_keeps_sorted",
    "Verif.Omt.Props.depth_is_logarithmic"
   ],
   "note": "Every history of legal calls gives the results of the list specification, in both representations, with and without marks."
  },
  {
   "property": "C39",
   "status": "partial",
   "theorems": [
    "Verif.Log.Props.written_sealed",
    "Verif.Log.Props.forward_round_trip",
    "Verif.Log.Props.logged_same",
    "Verif.Log.Props.backward_round_trip",
    "Verif.Log.Props.cut_short_reported",
    "Verif.Log.Props.returned_is_sealed",
    "Verif.Log.Props.returned_back_is_sealed",
    "Verif.Log.Props.cursor_walks_partial",
    "Verif.Log.Props.recovery_walk",
    "Verif.Log.Props.sharp_turn_fails",
    "Verif.Log.Props.gap_reported",
    "Verif.Log.Props.unknown_type_is_bad",
    "Verif.Log.Props.repaired_log_walks_partial",
    "Verif.Log.Props.torn_log_walks_partial",
    "Verif.Log.Props.torn_value_forges_record",
    "Verif.Log.Props.damaged_identifier_overruns",
    "Verif.Log.Props.format_number_truncated",
    "Verif.Log.Props.first_does_not_rewind",
    "Verif.Log.Props.repair_of_wrong_file",
    "Verif.Logger.Props.log_read_back_partial"
   ],
   "note": "round trips, truncation and the soundness of what is returned are proved in full; the repair is proved unless the torn end happens to look like a record (it can: torn_value_forges_record), the walk unless it turns around at once (sharp_turn_fails); log_read_back_partial joins this with C40 for crashes that cut the open file between two records"
  },
  {
   "property": "C40",
   "status": "proved",
   "theorems": [
    "Verif.Logger.Props.no_crash",
    "Verif.Logger.Props.no_deadlock",
    "Verif.Logger.Props.numbers_consecutive",
    "Verif.Logger.Props.log_in_order",
    "Verif.Logger.Props.synced_records_survive",
    "Verif.Logger.Props.synced_record_survives",
    "Verif.Logger.Props.waited_records_survive",
    "Verif.Logger.Props.open_file_small",
    "Verif.Logger.Props.long_record_overruns",
    "Verif.Logger.Props.second_long_record_crashes"
   ],
   "note": "for records of at most 2^29 bytes: longer ones overrun the buffer or fail an assertion (long_record_overruns, second_long_record_crashes)"
  },
  {
   "property": "C41",
   "status": "proved",
   "theorems": [
    "Verif.Rec.recovery",
    "Verif.Rec.recovery_prepared",
    "Verif.Rec.recovery_repeated",
    "Verif.Rec.durability",
    "Verif.Rec.running_value",
    "Verif.Rec.call_succeeds"
   ],
   "note": "every reachable state of a system with checkpoints, log trims and repeated crashes, every crash point and every amount of unsynced log that survives: recovery succeeds, each row holds the last write by a committed (or prepared) transaction, exactly the prepared transactions are left, and crashes during recovery change nothing; fixed set of open dictionaries, no update messages"
  },
  {
   "property": "C42",
   "status": "proved",
   "theorems": [
    "Verif.Roll.Props.rollback_follows_history",
    "Verif.Roll.Props.abort_undoes_newest_first",
    "Verif.Roll.Props.root_commit_completes_newest_first",
    "Verif.Roll.Props.child_commit_then_abort",
    "Verif.Roll.Props.nodes_are_given_back",
    "Verif.Roll.Props.every_entry_is_counted",
    "Verif.Roll.Props.node_size_is_exact",
    "Verif.Roll.Props.raw_count_misses_spilled_child"
   ],
   "note": "what undoing one action does is C01-C06; raw_count_misses_spilled_child: a statistic does not count what its comment says"
  },
  {
   "property": "C43",
   "status": "proved",
   "theorems": [
    "Verif.Rw.Props.writer_alone",
    "Verif.Rw.Props.no_check_fails",
    "Verif.Rw.Props.somebody_is_on",
    "Verif.Rw.Props.no_barging",
    "Verif.Rw.Props.reader_at_once",
    "Verif.Rw.Props.writer_at_once",
    "Verif.Rw.Props.place_step",
    "Verif.Rw.Props.bounded_overtaking",
    "Verif.Rw.Props.drains",
    "Verif.Rw.Props.write_expensive",
    "Verif.Rw.Props.read_expensive",
    "Verif.Rw.Props.spurious_wakeup_breaks_exclusion",
    "Verif.Rw.Props.plain_writer_alone",
    "Verif.Rw.Props.plain_no_check_fails",
    "Verif.Rw.Props.plain_writer_awake",
    "Verif.Rw.Props.plain_reader_awake",
    "Verif.Rw.Props.plain_writers_first",
    "Verif.Rw.Props.plain_counts"
   ],
   "note": "the fair lock of nodes if waits end only when signalled (needed: spurious_wakeup_breaks_exclusion); the plain lock, whose waits are in loops, without this condition"
  },
  {
   "property": "C44",
   "status": "partial",
   "theorems": [
    "Verif.Load.load_ok",
    "Verif.Load.load_find",
    "Verif.Load.load_succeeds",
    "Verif.Load.load_accepts",
    "Verif.Load.load_refused",
    "Verif.Load.load_error",
    "Verif.Load.load_duplicate",
    "Verif.Load.load_no_abort_partial",
    "Verif.Load.load_duplicate_reported_partial",
    "Verif.Load.duplicate_aborts",
    "Verif.Load.sort_ok",
    "Verif.Load.sort_iff",
    "Verif.Load.merge_ok",
    "Verif.Load.tree_ok"
   ],
   "note": "Everything but the report of equal keys is proved in full; equal keys in three or more runs can abort the process instead of being reported (duplicate_aborts)."
  },
  {
   "property": "C45",
   "status": "proved",
   "theorems": [
    "Verif.Lt.C45_lock_memory_is_exact",
    "Verif.Lt.C45_charge_returns_to_base"
   ],
   "note": ""
  },
  {
   "property": "C46",
   "status": "proved",
   "theorems": [
    "Verif.Ckpt.Props.checkpoint_is_one_instant",
    "Verif.Ckpt.Props.phases_are_all_or_nothing",
    "Verif.Ckpt.Props.checkpoint_holds_begin_content",
    "Verif.Ckpt.Props.no_begin_inside_operation",
    "Verif.Ckpt.Props.pin_gives_latest",
    "Verif.Ckpt.Props.read_gives_latest",
    "Verif.Ckpt.Props.eviction_loses_nothing",
    "Verif.Ckpt.Props.eviction_keeps_checkpoint",
    "Verif.Ckpt.Props.writers_exclude_readers",
    "Verif.Ckpt.Props.no_assertion_fails",
    "Verif.Ckpt.Props.checkpoint_can_finish",
    "Verif.Ckpt.Props.torn_without_dependents"
   ],
   "note": "For callers that pass along as dependent every node of a change; torn_without_dependents shows what happens otherwise, as in DB->optimize."
  },
  {
   "property": "C47",
   "status": "partial",
   "theorems": [
    "Verif.Blk.C47_report_never_fails_partial",
    "Verif.Blk.C47_report_counts_space_beyond_the_file"
   ],
   "note": "Violated: the report always counts the infinite space after the end of the file (witness for every history). What holds: the report can always be made."
  },
  {
   "property": "C48",
   "status": "partial",
   "theorems": [
    "Verif.Blk.C48_operations_never_fail_partial",
    "Verif.Blk.C48_checkpoint_end_never_fails_partial",
    "Verif.Blk.C48_checkpoint_end_can_fail"
   ],
   "note": "Violated with 8191 or more block numbers: a free-list link is compared with a disk offset (union) and note_end_checkpoint fails its assertion (witness). What holds: all other operations in every history, and ending a checkpoint with at most 8189 numbers."
  },
  {
   "property": "C49",
   "status": "partial",
   "theorems": [
    "Verif.Blk.C49_no_space_is_lost_partial",
    "Verif.Blk.C49_free_space_is_not_named",
    "Verif.Blk.C49_reopening_finds_all_space",
    "Verif.Blk.C49_space_can_be_lost"
   ],
   "note": "Violated with 8191 or more block numbers by the same comparison: a block is neither free nor used until the dictionary is reopened (witness). What holds: no loss with at most 8189 numbers, free space is never in use, and reopening recovers everything."
  },
  {
   "property": "C50",
   "status": "partial",
   "theorems": [
    "Verif.Ser.C50_reading_stays_inside_partial",
    "Verif.Ser.C50_a_damaged_length_reads_outside"
   ],
   "note": "Violated: a length within a few bytes of 2^32 passes the size test by wrap-around and memory outside the buffer is used (witness). What holds: without a length near 2^32, reading stays inside."
  },
  {
   "property": "C51",
   "status": "partial",
   "theorems": [
    "Verif.Ser.C51_older_headers_are_read_partial",
    "Verif.Ser.C51_version_17_is_never_read",
    "Verif.Ser.C51_version_18_stops_the_program"
   ],
   "note": "Violated for versions 17 and 18: the size serialize_ft_min_size demands and the fields deserialize_ft_versioned reads disagree (both proved for every such header). Holds for 13-16 and 19-29."
  },
  {
   "property": "C52",
   "status": "proved",
   "theorems": [
    "Verif.TrDisk.C52_block_table_is_read_back",
    "Verif.TrDisk.C52_checkpoint_table_is_read_back",
    "Verif.TrDisk.C52_damaged_table_is_refused"
   ],
   "note": "For tables of less than 4 GB (the size of a write buffer is kept in 32 bits) and files under 2^63 bytes."
  },
  {
   "property": "C53",
   "status": "proved",
   "theorems": [
    "Verif.Node.C53_a_node_comes_back_from_disk",
    "Verif.Node.C53_parts_come_and_go"
   ],
   "note": "The compression libraries are a parameter (CompressSpec.lean says what is asked of them); current layout version; no empty key among the pivots (C61). Rebalancing of leaves before a write is not in it."
  },
  {
   "property": "C54",
   "status": "proved",
   "theorems": [
    "Verif.Tree.C54_move_finds_nearest",
    "Verif.Tree.C54_move_ends",
    "Verif.Tree.C54_move_beside_other_work"
   ],
   "note": "Visibility is a parameter (C13 has the code's). Not modelled: prefetching, the bulk-fetch shortcut within a basement, the interrupt callback, refusal of a row by the caller's callback."
  },
  {
   "property": "C55",
   "status": "proved",
   "theorems": [
    "Verif.Ydb.no_crash",
    "Verif.Ydb.commit_family",
    "Verif.Ydb.abort_family",
    "Verif.Ydb.write_outcome",
    "Verif.Ydb.discard_outcome",
    "Verif.Ydb.prepare_twice_stops",
    "Verif.Ydb.prepared_can_write"
   ],
   "note": "the contract's clause on preparing once is needed (prepare_twice_stops)"
  },
  {
   "property": "C56",
   "status": "proved",
   "theorems": [
    "Verif.Ydb.log_grows",
    "Verif.Ydb.commit_durable",
    "Verif.Ydb.nested_sync",
    "Verif.Ydb.prepare_durable"
   ],
   "note": "the log's own way to the disk is abstracted to the guarantee of toku_logger_fsync_if_lsn_not_fsynced"
  },
  {
   "property": "C57",
   "status": "proved",
   "theorems": [
    "Verif.Ydb.lock_charged",
    "Verif.Ydb.nested_no_locks",
    "Verif.Ydb.locks_kept",
    "Verif.Ydb.released_after_end"
   ],
   "note": ""
  },
  {
   "property": "C58",
   "status": "partial",
   "theorems": [
    "Verif.Ydb.commit_unknown_leaf_partial",
    "Verif.Ydb.commit_unknown_panics"
   ],
   "note": "proved without a child; refuted with one: the environment panics and the handle can never be ended"
  },
  {
   "property": "C59",
   "status": "partial",
   "theorems": [
    "Verif.Logger.Props.flush_durable_partial",
    "Verif.Logger.Props.flush_not_durable"
   ],
   "note": "holds if no thread is writing the log when the flush looks at the input buffer; in general it is false, flush_not_durable is a counterexample"
  },
  {
   "property": "C60",
   "status": "proved",
   "theorems": [
    "Verif.Node.C60_a_leaf_part_holds_its_rows"
   ],
   "note": "Every history of calls; the tree form inside util/dmt.cc is represented by the order of its elements."
  },
  {
   "property": "C61",
   "status": "partial",
   "theorems": [
    "Verif.Node.C61_pivots_are_the_keys_given_partial",
    "Verif.Node.C61_an_empty_pivot_stops_the_server"
   ],
   "note": "For keys that are not empty; an empty key as pivot fails an invariant of the code."
  },
  {
   "property": "C62",
   "status": "partial",
   "theorems": [
    "Verif.Tree.C62_puts_do_what_flags_say_partial",
    "Verif.Tree.C62_nothing_waits_above_last_leaf",
    "Verif.Tree.C62_silent_put_overwrites",
    "Verif.Tree.C62_put_lost",
    "Verif.Tree.C62_update_lost"
   ],
   "note": "Every run of puts mixed with any tree work, except, when the shortcut to the last leaf is tried, puts with DB_NOOVERWRITE_NO_ERROR and leaves with an empty basement at an end; both exceptions are refuted by concrete histories."
  },
  {
   "property": "C63",
   "status": "partial",
   "theorems": [
    "Verif.Multi.C63_dictionaries_stay_in_step_partial",
    "Verif.Multi.C63_one_call_partial",
    "Verif.Multi.C63_failed_del_or_update_changes_nothing",
    "Verif.Multi.C63_put_overwrites_nothing",
    "Verif.Multi.C63_update_overwrites_only_its_row",
    "Verif.Multi.C63_empty_value_not_stored",
    "Verif.Multi.C63_repeated_key_lost",
    "Verif.Multi.C63_half_put",
    "Verif.Multi.C63_odd_flag_stops_the_process"
   ],
   "note": "Every history of a caller who gives different computed keys, introduces no new empty value under a key that stays, and aborts a transaction in which put_multiple failed after it began to write; each exception is refuted by a concrete history."
  },
  {
   "property": "C64",
   "status": "partial",
   "theorems": [
    "Verif.Multi.C64_recovery_repeats_the_calls_partial",
    "Verif.Multi.C64_recovery_of_one_dictionary",
    "Verif.Multi.C64_rules_of_C63_suffice",
    "Verif.Multi.C64_lost_when_source_gone",
    "Verif.Multi.C64_half_put_lost",
    "Verif.Multi.C64_repeated_key_comes_back"
   ],
   "note": "Every history and every end of the log, under the rules of C63 and with the files of the source dictionaries still there; without that, rows committed into other dictionaries are lost (witness)."
  },
  {
   "property": "C65",
   "status": "partial",
   "theorems": [
    "Verif.Hot.C65_index_rows_right_for_every_reader_partial",
    "Verif.Hot.C65_index_shows_the_newest_version",
    "Verif.Hot.C65_committed_rows_any_number_of_indexes",
    "Verif.Hot.C65_two_indexes_and_an_open_transaction_stop",
    "Verif.Hot.C65_reader_above_an_unseen_version"
   ],
   "note": "One index at a time when transactions are open on the row (several stop the process, witness), readers that see all versions below one they see (another is refuted by a witness), callbacks of one row per index."
  },
  {
   "property": "C66",
   "status": "partial",
   "theorems": [
    "Verif.Hot.Build.C66_finished_index_is_complete_partial",
    "Verif.Hot.Build.C66_index_right_up_to_the_builder_partial",
    "Verif.Hot.Build.C66_other_source_loses_a_row"
   ],
   "note": "Every interleaving, for calls that name the indexer's source dictionary; a call that names another one loses a row (witness)."
  },
  {
   "property": "C67",
   "status": "partial",
   "theorems": [
    "Verif.Iso.C67_one_after_another_partial",
    "Verif.Iso.C67_serializable_partial",
    "Verif.Iso.C67_reads_repeat_partial",
    "Verif.Iso.C67_row_appears_before_the_lock",
    "Verif.Iso.C67_bounds_not_locked",
    "Verif.Iso.C67_bulk_fetch_skips_a_row"
   ],
   "note": "Proved for every interleaving with three conditions: no row appears in the end of a search between its end and its lock, cursors with bounds have locked them, and no lock is refused in the middle of a bulk fetch. Without each of the conditions the code is not serializable: three witnesses. Locks are taken as exclusive sets of keys (C20-C23, C57)."
  },
  {
   "property": "C68",
   "status": "partial",
   "theorems": [
    "Verif.Files.C68_directory_after_crash_partial",
    "Verif.Files.C68_running_partial",
    "Verif.Files.C68_ended_stays",
    "Verif.Files.C68_rename_ahead_of_log",
    "Verif.Files.C68_renamed_row_lost",
    "Verif.Files.C68_failed_rename_stops_recovery",
    "Verif.Files.C68_failed_rename_row_twice"
   ],
   "note": "Proved in full for renames that keep the file (dir_per_db off). With dir_per_db the code violates it in four ways, each with a witness. Missing: a crash between the parts of one call (the record and what it does to the disk are one step), a second crash, nested transactions."
  },
  {
   "property": "C69",
   "status": "partial",
   "theorems": [
    "Verif.Names.C69_name_determines",
    "Verif.Names.C69_names_made_once",
    "Verif.Names.C69_name_fits",
    "Verif.Names.C69_no_transactions_partial",
    "Verif.Names.C69_restart_shares_a_file",
    "Verif.Names.C69_name_too_long",
    "Verif.Names.C69_rename_in_a_file_does_nothing"
   ],
   "note": "With transactions proved for calls whose transactions have different ids (C15). Without transactions proved in one process, and false across a restart (witness). Names fit for ids below 2^48; with ids of 64 bits a loader's name may not (witness). A rename inside of a file does nothing (witness)."
  },
  {
   "property": "C70",
   "status": "partial",
   "theorems": [
    "Verif.Tree.C70_optimize_reaches_leaves_partial",
    "Verif.Tree.C70_optimize_from_the_start",
    "Verif.Tree.C70_quiet_optimize_empties_buffers",
    "Verif.Tree.C70_optimize_changes_no_answer",
    "Verif.Tree.C70_each_round_advances",
    "Verif.Tree.C70_optimize_ends",
    "Verif.Tree.C70_first_key_left_out"
   ],
   "note": "Proved for all keys of the range but its first; without a first key, for all. The first key itself is left out if two nodes meet there: C70_first_key_left_out. That it ends is proved with nobody else at work and no child to split or merge; in general every round goes further."
  },
  {
   "property": "C71",
   "status": "partial",
   "theorems": [
    "Verif.Desc.C71_descriptor_shown",
    "Verif.Desc.C71_descriptor_found",
    "Verif.Desc.C71_shows_one",
    "Verif.Desc.C71_one_at_a_time",
    "Verif.Desc.C71_crash_keeps_committed_and_prepared",
    "Verif.Desc.C71_comparisons_unchanged_partial",
    "Verif.Desc.C71_compared_by_an_aborted_change",
    "Verif.Desc.C71_prepared_abort_undoes_a_later_commit"
   ],
   "note": "Proved for every run, with any number of crashes, also during recovery, for what the dictionary shows; the application keeps to the rule that prepared transactions found by recovery are resolved first (without it: witness). What comparisons use is right as long as no change alters what the comparison function takes from the descriptor; otherwise an aborted change with DB_UPDATE_CMP_DESCRIPTOR stays in effect until the dictionary is closed (witness)."
  },
  {
   "property": "C72",
   "status": "partial",
   "theorems": [
    "Verif.Tree.C72_counting_never_fails",
    "Verif.Tree.C72_missing_ends",
    "Verif.Tree.C72_exact_counts_partial",
    "Verif.Tree.C72_count_is_one_number",
    "Verif.Tree.C72_exact_if_one_basement",
    "Verif.Tree.C72_counted_ends_are_there",
    "Verif.Tree.C72_no_count_is_absurd",
    "Verif.Tree.C72_counting_changes_no_answer",
    "Verif.Tree.C72_same_key_twice",
    "Verif.Tree.C72_ends_in_wrong_order",
    "Verif.Tree.C72_guess_called_exact",
    "Verif.Tree.C72_waiting_messages_are_not_counted"
   ],
   "note": "Exact counts are proved for ends in order, with a left end whenever there is a right one, and with no message waiting in a buffer for a key of the range (C70 says how to bring that about). Otherwise the code marks wrong numbers as exact: four witnesses. The rest holds for every tree reached, with ends in order for the bound on the numbers."
  },
  {
   "property": "C73",
   "status": "partial",
   "theorems": [
    "Verif.Tree.C73_one_answer_not_before_start",
    "Verif.Tree.C73_stops_at_the_row_too_many",
    "Verif.Tree.C73_gets_ahead",
    "Verif.Tree.C73_exact_skip_partial",
    "Verif.Tree.C73_exact_skip_is_one",
    "Verif.Tree.C73_stays_where_it_was",
    "Verif.Tree.C73_one_byte_skips_everything",
    "Verif.Tree.C73_share_is_a_guess",
    "Verif.Tree.C73_stops_at_a_deleted_key"
   ],
   "note": "Exactness, and with it the comment in the code, is proved for dictionaries in memory where no message waits and no child is passed over by its share of the recorded size; one leaf is a special case. Otherwise the answer is a guess, and four witnesses show how wrong it may be: a caller may be sent back to its start key with bytes reported as skipped, or be told that no row is left when asked to skip one byte."
  },
  {
   "property": "C74",
   "status": "proved",
   "theorems": [
    "Verif.Sort.C74_every_array_is_sorted",
    "Verif.Sort.C74_for_every_threshold",
    "Verif.Sort.C74_the_order_given_does_not_matter",
    "Verif.Sort.C74_sorted_as_they_are_applied",
    "Verif.Sort.C74_messages_in_the_order_sent",
    "Verif.Sort.C74_trees_rebuilt_in_order",
    "Verif.Sort.C74_equal_elements_may_change_places",
    "Verif.Sort.C74_the_comparison_must_be_an_order"
   ],
   "note": "quicksort with its median of three and moved pivot, the merge by halves and the sort that joins them, with every access checked; sorting messages gives the order the tree model of C35 applies them in.  Array lengths and indices have no limit (int in the code), memory for the copy is always found.  Two witnesses: equal elements may change places, and a comparison that is no order takes the sort out of its array."
  },
  {
   "property": "C75",
   "status": "proved",
   "theorems": [
    "Verif.Count.C75_no_crash",
    "Verif.Count.C75_told_was_asked",
    "Verif.Count.C75_read_between",
    "Verif.Count.C75_read_quiet",
    "Verif.Count.C75_reads_grow",
    "Verif.Count.C75_read_ends",
    "Verif.Count.C75_add_waits_once",
    "Verif.Count.C75_decrement_refuted",
    "Verif.Count.racing_runs",
    "Verif.Count.reuse_runs"
   ],
   "note": "threads as a step relation with separate steps for the load and store of an addition and for every part a reader visits; the rest of the steps are done under the lock.  Loads and stores of one 64-bit word are atomic and in order.  Setting the module up and shutting it down is not modelled.  One witness outside the contract of the header ('no overflows'): the cache's size counters are decremented by adding 2^64 less the size, and a read that overlaps can return nearly 2^64."
  },
  {
   "property": "C76",
   "status": "partial",
   "theorems": [
    "Verif.Undo.C76_comes_back",
    "Verif.Undo.C76_any_trips",
    "Verif.Undo.C76_size",
    "Verif.Undo.C76_unused",
    "Verif.Undo.C76_wrong_number",
    "Verif.Undo.C76_returned_checked",
    "Verif.Undo.C76_recovered_versions",
    "Verif.Undo.C76_version_28_refuted",
    "Verif.Undo.C76_old_node_refuted"
   ],
   "note": "Proved in full for nodes of the current version, with any records, any compression and any interleaving of saves and trips to disk, and for reading nodes of versions 25 to 27. The part about older programs is false: nodes of version 28 stop the process although recovery from logs of version 28 is allowed (C76_version_28_refuted), and a node of version 25 to 27 in which a record is saved cannot be written again (C76_old_node_refuted)."
  },
  {
   "property": "C77",
   "status": "partial",
   "theorems": [
    "Verif.Evict.C77_limits",
    "Verif.Evict.C77_no_assertion",
    "Verif.Evict.C77_promises",
    "Verif.Evict.C77_counted",
    "Verif.Evict.C77_not_forgotten_partial",
    "Verif.Evict.C77_quiet_partial",
    "Verif.Evict.C77_stall_refuted",
    "Verif.Evict.C77_timer_repairs",
    "Verif.Evict.C77_all_in_use",
    "Verif.Evict.C77_stops"
   ],
   "note": "step relation with any number of clients and background threads, the lock, both condition variables and the sizes that change without the lock; partial because the property is false if a client adds to the cache between the last two looks of a run of the eviction thread at the size (C77_stall_refuted); the next call of the eviction thread, by its timer at the latest, repairs this from every state (C77_timer_repairs); that a run which keeps evicting ends is not proved, since what an eviction frees is open"
  },
  {
   "property": "C78",
   "status": "partial",
   "theorems": [
    "Verif.Cron.C78_no_crash_partial",
    "Verif.Cron.C78_crash_refuted",
    "Verif.Cron.C78_spacing_partial",
    "Verif.Cron.C78_early_refuted",
    "Verif.Cron.C78_after_change_refuted",
    "Verif.Cron.C78_on_time",
    "Verif.Cron.C78_not_missed",
    "Verif.Cron.C78_takes_effect",
    "Verif.Cron.C78_only_if_asked",
    "Verif.Cron.C78_no_call_after",
    "Verif.Cron.C78_stops",
    "Verif.Cron.C78_seconds_partial",
    "Verif.Cron.C78_seconds_refuted"
   ],
   "note": "the thread, its mutex, condition variable, sleeps and clock readings as steps; partial because the property is false for periods of more than a second that are not whole seconds, which the API for flushing the log accepts (C78_crash_refuted: the program ends; C78_early_refuted), for a change from a short to a long period (C78_after_change_refuted) and for periods of 2^32 milliseconds or more (C78_seconds_refuted); the clock is assumed not to go back, and the called function to return 0"
  },
  {
   "property": "C79",
   "status": "partial",
   "theorems": [
    "Verif.Rowcount.C79_rows_partial",
    "Verif.Rowcount.C79_same_answer_partial",
    "Verif.Rowcount.C79_reopen",
    "Verif.Rowcount.C79_reopen_partial",
    "Verif.Rowcount.C79_size_partial",
    "Verif.Rowcount.C79_reopen_refuted",
    "Verif.Rowcount.C79_crash_refuted",
    "Verif.Rowcount.C79_below_zero_refuted",
    "Verif.Rowcount.C79_old_update_refuted",
    "Verif.Rowcount.C79_size_refuted",
    "Verif.Rowcount.C79_garbage_refuted"
   ],
   "note": "Proved for all histories without a restart in which the row count due never falls below zero: the number of rows reported is the one due, and two histories with the same changes agree after a scan. Over closing and opening it is off by exactly the corrections readers made that are not on disk. The size is right if no leaf changed by readers is evicted as a whole and no garbage is collected in clones. Refuted in general by witnesses: reopening after a read, a crash with puts during a checkpoint, a delete of a missing key from an empty dictionary, replayed updates, reading and evicting (size grows without bound), garbage in clones. Splits and merges of leaves are not in the model."
  },
  {
   "property": "C80",
   "status": "proved",
   "theorems": [
    "Verif.Workers.C80_once",
    "Verif.Workers.C80_destroyed",
    "Verif.Workers.C80_awake",
    "Verif.Workers.C80_served",
    "Verif.Workers.C80_ends",
    "Verif.Workers.C80_destroy_takes_effect",
    "Verif.Workers.C80_enq_takes_effect",
    "Verif.Workers.C80_status",
    "Verif.Workers.C80_asserts",
    "Verif.Workers.C80_no_worker_refuted",
    "Verif.Workers.C80_wait_returned",
    "Verif.Workers.C80_wait_wakes",
    "Verif.Workers.C80_jobs_counted",
    "Verif.Workers.C80_accepted"
   ],
   "note": "For every number of workers at least one where jobs must get done, and every schedule. A pool created with no worker drops its jobs when destroyed (C80_no_worker_refuted); the library never creates one. Closing and opening a file are under one lock, so the model has at most one wait per file at a time."
  },
  {
   "property": "C81",
   "status": "partial",
   "theorems": [
    "Verif.Pipe.C81_order",
    "Verif.Pipe.C81_eof",
    "Verif.Pipe.C81_weights",
    "Verif.Pipe.C81_room",
    "Verif.Pipe.C81_awake",
    "Verif.Pipe.C81_answered",
    "Verif.Pipe.C81_returns",
    "Verif.Pipe.C81_takes_effect",
    "Verif.Pipe.C81_asserts",
    "Verif.Pipe.C81_two_producers_refuted",
    "Verif.Pipe.C81_two_consumers_refuted"
   ],
   "note": "Order, counts, weights and the end are proved for any number of threads; that nobody sleeps in vain is proved for one thread on each side, which is how the loader uses the queue. With two sending threads and one receiving thread, which the description of the queue allows, all three can sleep for ever with an item in the queue (C81_two_producers_refuted). Missing: that calls return within a bounded number of steps needs a fair scheduler and is stated only as steps that are possible."
  },
  {
   "property": "C82",
   "status": "partial",
   "theorems": [
    "Verif.Ahead.C82_bytes",
    "Verif.Ahead.C82_eof",
    "Verif.Ahead.C82_exact",
    "Verif.Ahead.C82_awake",
    "Verif.Ahead.C82_ends",
    "Verif.Ahead.C82_asserts",
    "Verif.Ahead.C82_rows",
    "Verif.Ahead.C82_cut",
    "Verif.Ahead.C82_fail_refuted",
    "Verif.Ahead.C82_panic_refuted",
    "Verif.Ahead.C82_truncated_refuted"
   ],
   "note": "Bytes, end of file and assertions are proved for every schedule, failures included; sizes of answers, waking and ending are proved when no read fails. Refuted by witnesses: a reader left asleep after two failed reads of another file, a sleeping reader after giving up, and a row lost without an error when a file is cut off between two pieces. Decompression of blocks is not modelled."
  },
  {
   "property": "C83",
   "status": "partial",
   "theorems": [
    "Verif.Stale.C83_files_partial",
    "Verif.Stale.C83_reserve",
    "Verif.Stale.C83_goes",
    "Verif.Stale.C83_asserts",
    "Verif.Stale.C83_memory_partial",
    "Verif.Stale.C83_reuse_refuted",
    "Verif.Stale.C83_evict_refuted",
    "Verif.Stale.C83_shutdown_refuted"
   ],
   "note": "Contents, names, deletion and file numbers are proved for every sequence in which rolling back a bulk load does not unlink a closed file with pages in memory; memory safety for every sequence without an opening or shutdown inside an eviction. Both conditions are needed: three witnesses."
  },
  {
   "property": "C84",
   "status": "partial",
   "theorems": [
    "Verif.LockWait.C84_not_early_partial",
    "Verif.LockWait.C84_in_time",
    "Verif.LockWait.C84_killed",
    "Verif.LockWait.C84_answer",
    "Verif.LockWait.C84_forever_refuted",
    "Verif.LockWait.C84_unasked_refuted"
   ],
   "note": "Proved for all times whose sum with the clock fits in 64 bits of microseconds. Refuted beyond: a timeout of 2^64-1 milliseconds is over at once. Granting by retries is in C26; what the set of pending requests holds afterwards is not part of this model."
  },
  {
   "property": "C85",
   "status": "partial",
   "theorems": [
    "Verif.Redirect.C85_contents_partial",
    "Verif.Redirect.C85_asserts",
    "Verif.Redirect.C85_open",
    "Verif.Redirect.C85_refused",
    "Verif.Redirect.C85_possible",
    "Verif.Redirect.C85_files_partial",
    "Verif.Redirect.C85_after_checkpoint_partial",
    "Verif.Redirect.C85_checkpoint",
    "Verif.Redirect.C85_two_loaders_refuted",
    "Verif.Redirect.C85_leak_refuted"
   ],
   "note": "Proved with at most one loader open at a time. Refuted beyond: two loaders closed in the opposite order; a load that failed half-way leaves its file when the transaction commits. One transaction at a time, no child transactions, no recovery, one dictionary per loader."
  },
  {
   "property": "C86",
   "status": "partial",
   "theorems": [
    "Verif.Fsize.C86_blocks_partial",
    "Verif.Fsize.C86_one_at_a_time",
    "Verif.Fsize.C86_asserts",
    "Verif.Fsize.C86_inside",
    "Verif.Fsize.C86_growth",
    "Verif.Fsize.C86_grown",
    "Verif.Fsize.C86_shrinking",
    "Verif.Fsize.C86_shrink_starts",
    "Verif.Fsize.C86_progress",
    "Verif.Fsize.C86_stale_limit_refuted"
   ],
   "note": "Proved when nobody asks for a shorter file while it is being made shorter, and more generally when a thread that waited finds no block above its limit. Refuted otherwise. A block is written in one step; 64-bit overflow of sizes and errors of file operations are not modelled."
  },
  {
   "property": "C87",
   "status": "partial",
   "theorems": [
    "Verif.FullWrite.C87_full_write_partial",
    "Verif.FullWrite.C87_torn",
    "Verif.FullWrite.C87_returns",
    "Verif.FullWrite.C87_stops",
    "Verif.FullWrite.C87_counters",
    "Verif.FullWrite.C87_reports",
    "Verif.FullWrite.C87_os_write",
    "Verif.FullWrite.C87_os_write_returns",
    "Verif.FullWrite.C87_fsync",
    "Verif.FullWrite.C87_durable",
    "Verif.FullWrite.C87_report_repaired",
    "Verif.FullWrite.C87_interrupted_refuted",
    "Verif.FullWrite.C87_zero_refuted",
    "Verif.FullWrite.C87_report_refuted"
   ],
   "note": "The loops are proved for every sequence of answers; the report printed on a full disk has undefined behaviour (refuted). Not modelled: alignment assertions, several threads writing the same file, counters shared by threads."
  },
  {
   "property": "C88",
   "status": "partial",
   "theorems": [
    "Verif.Dbt.C88_values_partial",
    "Verif.Dbt.C88_result",
    "Verif.Dbt.C88_malloc",
    "Verif.Dbt.C88_realloc",
    "Verif.Dbt.C88_no_memory",
    "Verif.Dbt.C88_no_memory_refuted"
   ],
   "note": "Proved while memory can be had, for values shorter than 2^30 bytes (rows are limited to 32 MiB by put). Refuted after a failed realloc. One value per call (a cursor call makes two, with separate buffers for keys and values)."
  },
  {
   "property": "C89",
   "status": "partial",
   "theorems": [
    "Verif.Verify.C89_verified_partial",
    "Verif.Verify.C89_exact",
    "Verif.Verify.C89_no_false_alarm",
    "Verif.Verify.C89_keep_going",
    "Verif.Verify.C89_callback",
    "Verif.Verify.C89_result",
    "Verif.Verify.C89_crash",
    "Verif.Verify.C89_update_refuted"
   ],
   "note": "Proved for the pivots, leaf keys, heights, message numbers and places of all one-key messages but updates. Refuted for updates. The sorted trees over the messages of a buffer are not modelled here."
  },
  {
   "property": "C90",
   "status": "partial",
   "theorems": [
    "Verif.Open.C90_open_partial",
    "Verif.Open.C90_history",
    "Verif.Open.C90_no_recover",
    "Verif.Open.C90_upgrade",
    "Verif.Open.C90_refused",
    "Verif.Open.C90_new",
    "Verif.Open.C90_incomplete",
    "Verif.Open.C90_lost_rollback_refuted",
    "Verif.Open.C90_new_refuted"
   ],
   "note": "Proved for all numbers of log files of versions 25 to 29, all crash points and all histories except crashes between the deletion of the old rollback file and the creation of the new one; those, and crashes of the first opening, leave a directory that no opening accepts (two refuted theorems). Missing: crashes in an upgrade from versions 13 to 24 (recovery of such logs is not modelled), the order in which metadata reaches the disk."
  },
  {
   "property": "C91",
   "status": "partial",
   "theorems": [
    "Verif.Space.C91_refused_partial",
    "Verif.Space.C91_low",
    "Verif.Space.C91_state",
    "Verif.Space.C91_counted",
    "Verif.Space.C91_fixed",
    "Verif.Space.C91_warned",
    "Verif.Space.C91_rare",
    "Verif.Space.C91_update_multiple_refuted",
    "Verif.Space.C91_overflow_refuted",
    "Verif.Space.C91_twelfth_refuted",
    "Verif.Space.C91_silent_refuted"
   ],
   "note": "Exact for all histories, file systems and shares whose percentage does not overflow 64 bits; refuted for update_multiple, for larger file systems, and as to warnings at the twelfth look and under repeated entries. Missing: the time between looks (C78), the temporary directory (not looked at by the code), bulk loads (which do not check)."
  },
  {
   "property": "C92",
   "status": "partial",
   "theorems": [
    "Verif.Bulk.C92_call",
    "Verif.Bulk.C92_scan_partial",
    "Verif.Bulk.C92_position_partial",
    "Verif.Bulk.C92_wait",
    "Verif.Bulk.C92_bounds",
    "Verif.Bulk.C92_skipped_refuted",
    "Verif.Bulk.C92_error_refuted",
    "Verif.Bulk.C92_position_refuted",
    "Verif.Bulk.C92_bounds_again_refuted",
    "Verif.Bulk.C92_outside_refuted"
   ],
   "note": "Proved for all rows, divisions into nodes, callbacks without errors and sequences of calls when no lock is refused, and for all refused locks when the callback takes single rows. Refuted: a lock refused in the middle of a call (the row is skipped), the position after an error or at a bound, bounds set again, bounds behind the cursor. Missing: changes of the rows during a scan (C03, C67)."
  },
  {
   "property": "C93",
   "status": "partial",
   "theorems": [
    "Verif.Tables.C93_safe",
    "Verif.Tables.C93_shared",
    "Verif.Tables.C93_found",
    "Verif.Tables.C93_refs",
    "Verif.Tables.C93_freed",
    "Verif.Tables.C93_ends",
    "Verif.Tables.C93_reported",
    "Verif.Tables.C93_reported_partial",
    "Verif.Tables.C93_reported_refuted",
    "Verif.Tables.C93_waiting",
    "Verif.Tables.C93_woken",
    "Verif.Tables.C93_refused_partial",
    "Verif.Tables.C93_alone",
    "Verif.Tables.C93_refused_refuted",
    "Verif.Tables.C93_spurious_refuted"
   ],
   "note": "Lifetime and sharing of the tables and the release of waiting threads proved for all interleavings. The waits reported are proved not too few, exact without a race, and refuted in general; refusals are proved justified for the thread that escalates, refuted for threads that wait for it. Missing: what escalation does inside one table (C20-C23), the memory of the range buffers."
  },
  {
   "property": "C94",
   "status": "proved",
   "theorems": [
    "Verif.Qlz.C94_back",
    "Verif.Qlz.C94_fits",
    "Verif.Qlz.C94_default",
    "Verif.Qlz.C94_library",
    "Verif.Qlz.C94_long_refuted",
    "Verif.Qlz.C94_damaged_refuted"
   ],
   "note": "For all texts and all contents of the tables. C94_library removes the assumption on quicklz from C53 and C76. Recorded beside it: texts of the last 400 lengths below 2^32, which the caller accepts, give nothing (C94_long_refuted), and the decompressor checks nothing (C94_damaged_refuted; checksums protect it, C50)."
  },
  {
   "property": "C95",
   "status": "partial",
   "theorems": [
    "Verif.Recount.C95_counted",
    "Verif.Recount.C95_rows_partial",
    "Verif.Recount.C95_enough",
    "Verif.Recount.C95_last",
    "Verif.Recount.C95_cancel_partial",
    "Verif.Recount.C95_progress",
    "Verif.Recount.C95_rows_refuted",
    "Verif.Recount.C95_empty_refuted",
    "Verif.Recount.C95_cancel_refuted",
    "Verif.Recount.C95_code_refuted",
    "Verif.Recount.C95_changed_refuted"
   ],
   "note": "The exact result for every dictionary at rest: the rows, plus one for every bound between basement nodes at which there is no row (calls that only ask for a lock are counted as rows). Right exactly without such bounds. Cancelling is ignored when the callback was told of deleted rows in front of a row; the answer is replaced by 1; changes during the scan are lost from the number."
  },
  {
   "property": "C96",
   "status": "partial",
   "theorems": [
    "Verif.LoadErr.C96_once",
    "Verif.LoadErr.C96_after",
    "Verif.LoadErr.C96_noted",
    "Verif.LoadErr.C96_close_partial",
    "Verif.LoadErr.C96_stays",
    "Verif.LoadErr.C96_failed",
    "Verif.LoadErr.C96_close_refuted",
    "Verif.LoadErr.C96_first_refuted",
    "Verif.LoadErr.C96_key_refuted",
    "Verif.LoadErr.C96_silent_refuted"
   ],
   "note": "For all histories. Proved: at most one call of the callback, no put after a failed one, the first noted error stays, and close is right if no put failed. Refuted: after a failed put close returns 0 although nothing is loaded; the callback is then told of the put, not of the first error; equal keys found in the background are told without the key."
  },
  {
   "property": "C97",
   "status": "partial",
   "theorems": [
    "Verif.Nest.C97_chain",
    "Verif.Nest.C97_names",
    "Verif.Nest.C97_begin",
    "Verif.Nest.C97_refused",
    "Verif.Nest.C97_nesting",
    "Verif.Nest.C97_find",
    "Verif.Nest.C97_replayed",
    "Verif.Nest.C97_recovered_partial",
    "Verif.Nest.C97_recovered_refuted"
   ],
   "note": "For all histories without a crash everything is proved; C97_begin is the side condition on begins of the specification of rows (Ule/Spec.lean, C01, C02, C10). If the whole life of the root is replayed, nested transactions and the next id are recovered (C97_replayed). After any recovery ids differ from those of all nested transactions whose begin is replayed; false for those whose begin is before the checkpoint: the counter of nested ids is not in the log, an id is given out again below a recovered (prepared) root, and the abort of the second undoes the committed write of the first (C97_recovered_refuted). Ids are numbers without the limit of 64 bits."
  },
  {
   "property": "C98",
   "status": "proved",
   "theorems": [
    "Verif.Par.C98_complete",
    "Verif.Par.C98_once",
    "Verif.Par.C98_threads",
    "Verif.Par.C98_goes_on",
    "Verif.Par.C98_ends",
    "Verif.Par.C98_error",
    "Verif.Par.C98_asked"
   ],
   "note": "Over all interleavings of a transition system of the caller and the threads, with the count of references as the code keeps it (raised after the threads were started). C98_goes_on and C98_ends together: every run in which enabled steps are taken ends with the return of the call after at most 3n+10T+20 steps. The pool is free to give fewer threads; that a thread it gave begins to run is taken from the operating system. What is done to one part is C53 and C94."
  },
  {
   "property": "C99",
   "status": "proved",
   "theorems": [
    "Verif.Pool.C99_one_hand",
    "Verif.Pool.C99_given",
    "Verif.Pool.C99_work",
    "Verif.Pool.C99_bound",
    "Verif.Pool.C99_sleep",
    "Verif.Pool.C99_goes_on",
    "Verif.Pool.C99_ends",
    "Verif.Pool.C99_rest"
   ],
   "note": "Over all interleavings of a transition system of calls and threads under the lock of the pool. Calls are those of the engine, which do not ask to wait (dowait 0 at all three places); the end of the pool is not modelled. C99_sleep says what is true of the sleep of such a call: it does sleep, although the thread it made is free (example_asleep), but only while a thread that was made has not begun to run. C99_goes_on, C99_ends and C99_rest together: with no new calls every run comes to rest after at most 21 steps for each call and 8 for each thread, with all calls served or refused and all work done once. That a thread that was made begins to run is taken from the operating system."
  }
 ]
}