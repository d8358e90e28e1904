#!/usr/bin/env python3
"""Writes MANIFEST.json and lean/Verif/Audit.lean from the table below."""
import json, os
root = os.path.join(os.path.dirname(os.path.abspath(__file__)), "..")
T = []
def c(prop, status, thms, note=""):
    T.append({"property": prop, "status": status, "theorems": thms, "note": note})

U = "Verif.Ule."
X = "Verif.Txn."
V = "Verif.Mvcc."
c("C01", "proved", [U+"C01_abort_restores_value", U+"C01_abort_erases_write"], "row level")
c("C02", "proved", [U+"C02_row_value_is_last_surviving_write", U+"C02_child_commit_keeps_value"], "row level")
c("C03", "proved", [V+"C03_snapshot_read", V+"C03_repeatable_read"])
c("C04", "proved", [V+"C04_collection_is_invisible", V+"C04_collect_changes_no_read", V+"C04_delivery_choices_change_no_read", V+"C04_no_assertion"])
c("C05", "proved", [X+"C05_snapshot_sees_exactly_the_finished", V+"C05_snapshot_starts_with_committed"])
c("C06", "partial", [V+"C06_statement_reads_committed", V+"C06_latest_read", V+"C06_read_committed_always_is_stale"],
  "proved for DB_READ_COMMITTED (a snapshot per statement); false for DB_READ_COMMITTED_ALWAYS, by the witness in C06_read_committed_always_is_stale")
c("C09", "partial", [U+"C09_insert_no_overwrite_partial","Verif.Tree.C62_silent_put_overwrites"],"Proved for the message that asks for it; refuted for the put, which sends a plain insertion when it takes the shortcut to the last leaf.")
c("C10", "proved", [U+"C10_implicit_equals_explicit_commits", U+"C10_commit_notifications_unobservable"])
c("C11", "proved", [U+"C11_stack_never_overflows", U+"C11_any_sequence", U+"C11_broadcasts_keep_value"], "every message type: point messages and commit/abort/commit-all broadcasts of a transaction, and optimize")
c("C15", "proved", [X+"C15_ids_increase"])
c("C16", "proved", [X+"C16_referenced_exact", X+"C16_strategies_agree", X+"C16_manager_never_asserts"])
c("C17", "proved", [X+"C17_oldest_is_lower_bound"])

c("C07", "proved", [U+"C07_round_trip", U+"C07_no_value_is_absent", U+"C07_injective", U+"C07_size", U+"C07_every_reachable_row_is_storable"])
c("C08", "proved", [U+"C08_latest", U+"C08_iterate", U+"C08_snapshot", U+"C08_read_committed", U+"C08_has_xids", U+"C08_worth_collecting"])
c("C12", "proved", [U+"C12_nesting_limit", U+"C12_create_child", U+"C12_codec"])

F = "Verif.Ft."
c("C13", "proved", [F+"C13_counts", F+"C13_bytes_drift_when_equal_keys_differ_in_length"],
  "byte count exact for comparators under which equal keys have equal length; the second theorem is the witness that it drifts otherwise")
c("C14", "partial", [F+"C14_logical_rows_partial", F+"C14_abort_simple_partial", F+"C14_abort_miscounts", F+"C14_delete_absent_miscounts", F+"C14_update_miscounts"],
  "false in general: aborts of rows with more than one version, deletes of unstored keys and updates that do not set a value are miscounted (witnesses)")

L = "Verif.Lt."
c("C20", "proved", [L+"C20_no_point_is_locked_twice", L+"C20_locked_range_is_not_granted"])
c("C21", "proved", [L+"C21_lock_stays_until_released", L+"C21_granted_range_is_locked"])
c("C22", "proved", [L+"C22_granted_iff_no_conflict", L+"C22_no_event_fails", L+"C22_memory_check_is_transparent_below_half", L+"C22_refusal_after_escalation"])
c("C23", "proved", [L+"C23_release_removes_exactly_own_locks", L+"C23_release_leaves_others_alone", L+"C23_no_record_no_lock"])
c("C24", "proved", [L+"C24_queries_are_exact"])
c("C27", "partial", [L+"C27_buffer_returns_what_was_appended_partial", L+"C27_range_ending_at_empty_key_reads_back_wrong", L+"C27_range_ending_at_empty_key_reads_garbage", L+"C27_empty_right_key_is_lost", L+"C27_longest_key_reads_back_empty", L+"C27_order_is_not_kept"],
  "false in general: ranges ending at the empty key and keys of 65536 bytes read back wrongly, and the order is not kept (witnesses); proved as a multiset for all other ranges")
c("C45", "proved", [L+"C45_lock_memory_is_exact", L+"C45_charge_returns_to_base"])
c("C25", "partial", [L+"C25_no_event_fails", L+"C25_check_is_exact", L+"C25_reported_deadlock_is_real", L+"C25_waiting_never_cycles_partial", L+"C25_missed_after_stale_conflicts", L+"C25_missed_after_escalation"],
  "a reported deadlock is always real; completeness holds when the attempt and the enqueueing of a request are not interleaved and no escalation happens between, and is false otherwise (two witnesses)")
c("C26", "proved", [L+"Retry.C26_unblocked_waiter_will_be_retried", L+"Retry.C26_no_lost_wakeup", L+"Retry.C26_completed_waiter_wakes", L+"Retry.C26_release_is_never_stuck", L+"Retry.C26_round_is_finite"])

B = "Verif.Blk."
c("C28", "proved", [B+"C28_blocks_in_use_are_apart", B+"C28_allocation_succeeds", B+"C28_free_succeeds", B+"C28_open_succeeds", B+"C28_accounts", B+"C28_freed_space_is_available"],
  "For every history of create/open, allocate and free. Assumes the file stays below 2^64 bytes (Room).")
c("C29", "proved", [B+"C29_first_fit", B+"C29_summaries_exact", B+"C29_search_is_logarithmic", B+"C29_allocated_limit"],
  "The tree is modelled with its rotations, fix-ups, merges and label recalculation.")
c("C47", "partial", [B+"C47_report_never_fails_partial", B+"C47_report_counts_space_beyond_the_file"],
  "Violated: the report always counts the infinite space after the end of the file (witness for every history). What holds: the report can always be made.")

c("C30", "proved", [B+"C30_no_block_is_overwritten", B+"C30_checkpoint_survives", B+"C30_recovery_succeeds", B+"C30_completed_checkpoint_is_kept"],
  "Histories of the block table with writes in flight, a checkpoint that can be at any stage, and crashes at any point.  Assumes the cachetable's per-node locking (stated in Step) and files below 2^63 bytes.")
c("C31", "proved", [B+"C31_new_number_is_unused", B+"C31_free_list_is_exact", B+"C31_numbers_have_separate_blocks", B+"C31_number_keeps_its_block"],
  "Over the same histories, including checkpoints' compaction of the free list and recovery after a crash.")

c("C48", "partial", [B+"C48_operations_never_fail_partial", B+"C48_checkpoint_end_never_fails_partial", B+"C48_checkpoint_end_can_fail"],
  "Violated with 8191 or more block numbers: a free-list link is compared with a disk offset (union) and note_end_checkpoint fails its assertion (witness). What holds: all other operations in every history, and ending a checkpoint with at most 8189 numbers.")
c("C49", "partial", [B+"C49_no_space_is_lost_partial", B+"C49_free_space_is_not_named", B+"C49_reopening_finds_all_space", B+"C49_space_can_be_lost"],
  "Violated with 8191 or more block numbers by the same comparison: a block is neither free nor used until the dictionary is reopened (witness). What holds: no loss with at most 8189 numbers, free space is never in use, and reopening recovers everything.")
S = "Verif.Ser."
c("C32", "proved", [S+"C32_header_round_trip", S+"C32_completed_checkpoint_is_found", S+"C32_interrupted_checkpoint_is_all_or_nothing", S+"C32_interrupted_first_checkpoint", S+"C32_opening_never_stops_the_program", S+"C32_newest_usable_header"],
  "Histories of checkpoints, crashes that leave any mixture of old and new bytes, and reopenings. The hypothesis Noticed of Interrupted, stated with the checksum specification, is that the checksum of the torn header does not match by accident (the checksum is 32 bits; see C33_one_bit_can_go_unnoticed).")
c("C33", "proved", [S+"C33_checksum_of_pieces", S+"C33_checksum_in_memory", S+"C33_written_fields_are_read_back", S+"C33_same_bytes_without_checksum", S+"C33_fits_or_stops", S+"C33_one_bit_can_go_unnoticed"],
  "The last theorem is a witness about the strength of the checksum, not part of the property: one changed bit can leave it the same.")
c("C50", "partial", [S+"C50_reading_stays_inside_partial", S+"C50_a_damaged_length_reads_outside"],
  "Violated: a length within a few bytes of 2^32 passes the size test by wrap-around and memory outside the buffer is used (witness). What holds: without a length near 2^32, reading stays inside.")
c("C51", "partial", [S+"C51_older_headers_are_read_partial", S+"C51_version_17_is_never_read", S+"C51_version_18_stops_the_program"],
  "Violated for versions 17 and 18: the size serialize_ft_min_size demands and the fields deserialize_ft_versioned reads disagree (both proved for every such header). Holds for 13-16 and 19-29.")
D = "Verif.TrDisk."
c("C52", "proved", [D+"C52_block_table_is_read_back", D+"C52_checkpoint_table_is_read_back", D+"C52_damaged_table_is_refused"],
  "For tables of less than 4 GB (the size of a write buffer is kept in 32 bits) and files under 2^63 bytes.")

TR = "Verif.Tree."
Y = "Verif.Ydb."
XA = "Verif.Xa."
c("C35", "proved", [TR+"C35_query_sees_every_write_once", TR+"C35_only_messages_change_answers", TR+"C35_any_basement_read_is_current"],
  "For every message semantics (what a message does to a row is a parameter), every key order, every history of sends, promotions, flushes, cleaner flushes, splits, merges, rebalances, new roots, writes, evictions, rereads and queries. The guards on when the code does each step are in the model's comments. The unlocked check of the rightmost-leaf fast path is not modelled.")
c("C36", "proved", [TR+"C36_key_goes_to_its_child", TR+"C36_bounds_contain_key"], "")
c("C37", "proved", [TR+"C37_leaf_split", TR+"C37_leaf_merge", TR+"C37_leaf_rebalance", TR+"C37_inner_split", TR+"C37_inner_merge"],
  "Buffered messages: splits and merges of inner nodes keep the children with their buffers; buffers drained by a merge are covered by C35.")

c("C54", "proved", [TR+"C54_move_finds_nearest", TR+"C54_move_ends", TR+"C54_move_beside_other_work"],
  "Visibility is a parameter (C13 has the code's). Not modelled: prefetching, the bulk-fetch shortcut within a basement, the interrupt callback, refusal of a row by the caller's callback.")
c("C34", "proved", [S + "C34_buffer_shows", S + "C34_round_trip", S + "C34_round_trip_without_trees"],
  "For every history of arrivals, applications by queries and filing under stale, the buffer shows the messages in order; written and read back, in the current format and in the format of version 26, it is the same buffer with the same trees, and takes exactly the computed space. The reader for versions 13 and 14 is not modelled.")

c("C18","proved",[Y+"begin_root",Y+"begin_nested",Y+"nested_like_parent"],"in every state a client can reach; the isolation, access and flags of the new handle, and refusal without effect")
c("C55","proved",[Y+"no_crash",Y+"commit_family",Y+"abort_family",Y+"write_outcome",Y+"discard_outcome",Y+"prepare_twice_stops",Y+"prepared_can_write"],"the contract's clause on preparing once is needed (prepare_twice_stops)")
c("C58","partial",[Y+"commit_unknown_leaf_partial",Y+"commit_unknown_panics"],"proved without a child; refuted with one: the environment panics and the handle can never be ended")
c("C56","proved",[Y+"log_grows",Y+"commit_durable",Y+"nested_sync",Y+"prepare_durable"],"the log's own way to the disk is abstracted to the guarantee of toku_logger_fsync_if_lsn_not_fsynced")
c("C57","proved",[Y+"lock_charged",Y+"nested_no_locks",Y+"locks_kept",Y+"released_after_end"],"")

c("C19","proved",[XA+"listing_complete",XA+"recover_sound",XA+"batches_exact",XA+"no_room_stops",XA+"two_listings_collide"],"room for at least one per call; one listing at a time (both needed: the last two theorems)")

LG = "Verif.Log.Props."
c("C39","partial",[LG+"written_sealed",LG+"forward_round_trip",LG+"logged_same",LG+"backward_round_trip",LG+"cut_short_reported",LG+"returned_is_sealed",LG+"returned_back_is_sealed",LG+"cursor_walks_partial",LG+"recovery_walk",LG+"sharp_turn_fails",LG+"gap_reported",LG+"unknown_type_is_bad",LG+"repaired_log_walks_partial",LG+"torn_log_walks_partial",LG+"torn_value_forges_record",LG+"damaged_identifier_overruns",LG+"format_number_truncated",LG+"first_does_not_rewind",LG+"repair_of_wrong_file","Verif.Logger.Props.log_read_back_partial"],"round trips, truncation and the soundness of what is returned are proved in full; the repair is proved unless the torn end happens to look like a record (it can: torn_value_forges_record), the walk unless it turns around at once (sharp_turn_fails); log_read_back_partial joins this with C40 for crashes that cut the open file between two records")

LGR = "Verif.Logger.Props."
c("C40","proved",[LGR+n for n in "no_crash no_deadlock numbers_consecutive log_in_order synced_records_survive synced_record_survives waited_records_survive open_file_small long_record_overruns second_long_record_crashes".split()],"for records of at most 2^29 bytes: longer ones overrun the buffer or fail an assertion (long_record_overruns, second_long_record_crashes)")
c("C59","partial",[LGR+"flush_durable_partial",LGR+"flush_not_durable"],"holds if no thread is writing the log when the flush looks at the input buffer; in general it is false, flush_not_durable is a counterexample")

RL="Verif.Roll.Props."
c("C42","proved",[RL+n for n in "rollback_follows_history abort_undoes_newest_first root_commit_completes_newest_first child_commit_then_abort nodes_are_given_back every_entry_is_counted node_size_is_exact raw_count_misses_spilled_child".split()],"what undoing one action does is C01-C06; raw_count_misses_spilled_child: a statistic does not count what its comment says")
RW="Verif.Rw.Props."
c("C43","proved",[RW+n for n in "writer_alone no_check_fails somebody_is_on no_barging reader_at_once writer_at_once place_step bounded_overtaking drains write_expensive read_expensive spurious_wakeup_breaks_exclusion plain_writer_alone plain_no_check_fails plain_writer_awake plain_reader_awake plain_writers_first plain_counts".split()],"the fair lock of nodes if waits end only when signalled (needed: spurious_wakeup_breaks_exclusion); the plain lock, whose waits are in loops, without this condition")

OM="Verif.Omt.Props."
c("C38","proved",[OM+n for n in "behaves_as_a_list no_assertion_fails iterates_in_order marks_what_it_visits changes_in_place insert_keeps_sorted depth_is_logarithmic".split()],"Every history of legal calls gives the results of the list specification, in both representations, with and without marks.")

CK="Verif.Ckpt.Props."
c("C46","proved",[CK+n for n in "checkpoint_is_one_instant phases_are_all_or_nothing checkpoint_holds_begin_content no_begin_inside_operation pin_gives_latest read_gives_latest eviction_loses_nothing eviction_keeps_checkpoint writers_exclude_readers no_assertion_fails checkpoint_can_finish torn_without_dependents".split()],"For callers that pass along as dependent every node of a change; torn_without_dependents shows what happens otherwise, as in DB->optimize.")

LD="Verif.Load."
c("C44","partial",[LD+n for n in "load_ok load_find load_succeeds load_accepts load_refused load_error load_duplicate load_no_abort_partial load_duplicate_reported_partial duplicate_aborts sort_ok sort_iff merge_ok tree_ok".split()],"Everything but the report of equal keys is proved in full; equal keys in three or more runs can abort the process instead of being reported (duplicate_aborts).")

c("C41","proved",["Verif.Rec.recovery","Verif.Rec.recovery_prepared","Verif.Rec.recovery_repeated","Verif.Rec.durability","Verif.Rec.running_value","Verif.Rec.call_succeeds"],
  "every reachable state of a system with checkpoints, log trims and repeated crashes, every crash point and every amount of unsynced log that survives: recovery succeeds, each row holds the last write by a committed (or prepared) transaction, exactly the prepared transactions are left, and crashes during recovery change nothing; fixed set of open dictionaries, no update messages")

ND="Verif.Node."
c("C60","proved",[ND+"C60_a_leaf_part_holds_its_rows"],"Every history of calls; the tree form inside util/dmt.cc is represented by the order of its elements.")
c("C61","partial",[ND+"C61_pivots_are_the_keys_given_partial",ND+"C61_an_empty_pivot_stops_the_server"],"For keys that are not empty; an empty key as pivot fails an invariant of the code.")

c("C53","proved",[ND+"C53_a_node_comes_back_from_disk",ND+"C53_parts_come_and_go"],"The compression libraries are a parameter (CompressSpec.lean says what is asked of them); current layout version; no empty key among the pivots (C61). Rebalancing of leaves before a write is not in it.")

c("C62","partial",[TR+"C62_puts_do_what_flags_say_partial",TR+"C62_nothing_waits_above_last_leaf",TR+"C62_silent_put_overwrites",TR+"C62_put_lost",TR+"C62_update_lost"],"Every run of puts mixed with any tree work, except, when the shortcut to the last leaf is tried, puts with DB_NOOVERWRITE_NO_ERROR and leaves with an empty basement at an end; both exceptions are refuted by concrete histories.")
MU="Verif.Multi."
c("C63","partial",[MU+t for t in ["C63_dictionaries_stay_in_step_partial","C63_one_call_partial","C63_failed_del_or_update_changes_nothing","C63_put_overwrites_nothing","C63_update_overwrites_only_its_row","C63_empty_value_not_stored","C63_repeated_key_lost","C63_half_put","C63_odd_flag_stops_the_process"]],"Every history of a caller who gives different computed keys, introduces no new empty value under a key that stays, and aborts a transaction in which put_multiple failed after it began to write; each exception is refuted by a concrete history.")
c("C64","partial",[MU+t for t in ["C64_recovery_repeats_the_calls_partial","C64_recovery_of_one_dictionary","C64_rules_of_C63_suffice","C64_lost_when_source_gone","C64_half_put_lost","C64_repeated_key_comes_back"]],"Every history and every end of the log, under the rules of C63 and with the files of the source dictionaries still there; without that, rows committed into other dictionaries are lost (witness).")

HO="Verif.Hot."
c("C65","partial",[HO+t for t in ["C65_index_rows_right_for_every_reader_partial","C65_index_shows_the_newest_version","C65_committed_rows_any_number_of_indexes","C65_two_indexes_and_an_open_transaction_stop","C65_reader_above_an_unseen_version"]],"One index at a time when transactions are open on the row (several stop the process, witness), readers that see all versions below one they see (another is refuted by a witness), callbacks of one row per index.")
HB="Verif.Hot.Build."
c("C66","partial",[HB+t for t in ["C66_finished_index_is_complete_partial","C66_index_right_up_to_the_builder_partial","C66_other_source_loses_a_row"]],"Every interleaving, for calls that name the indexer's source dictionary; a call that names another one loses a row (witness).")

IS="Verif.Iso."
c("C67","partial",[IS+"C67_one_after_another_partial",IS+"C67_serializable_partial",IS+"C67_reads_repeat_partial",IS+"C67_row_appears_before_the_lock",IS+"C67_bounds_not_locked",IS+"C67_bulk_fetch_skips_a_row"],"Proved for every interleaving with three conditions: no row appears in the end of a search between its end and its lock, cursors with bounds have locked them, and no lock is refused in the middle of a bulk fetch. Without each of the conditions the code is not serializable: three witnesses. Locks are taken as exclusive sets of keys (C20-C23, C57).")

FI="Verif.Files."
c("C68","partial",[FI+"C68_directory_after_crash_partial",FI+"C68_running_partial",FI+"C68_ended_stays",FI+"C68_rename_ahead_of_log",FI+"C68_renamed_row_lost",FI+"C68_failed_rename_stops_recovery",FI+"C68_failed_rename_row_twice"],"Proved in full for renames that keep the file (dir_per_db off). With dir_per_db the code violates it in four ways, each with a witness. Missing: a crash between the parts of one call (the record and what it does to the disk are one step), a second crash, nested transactions.")
NA="Verif.Names."
c("C69","partial",[NA+"C69_name_determines",NA+"C69_names_made_once",NA+"C69_name_fits",NA+"C69_no_transactions_partial",NA+"C69_restart_shares_a_file",NA+"C69_name_too_long",NA+"C69_rename_in_a_file_does_nothing"],"With transactions proved for calls whose transactions have different ids (C15). Without transactions proved in one process, and false across a restart (witness). Names fit for ids below 2^48; with ids of 64 bits a loader's name may not (witness). A rename inside of a file does nothing (witness).")

c("C70","partial",[TR+"C70_optimize_reaches_leaves_partial",TR+"C70_optimize_from_the_start",TR+"C70_quiet_optimize_empties_buffers",TR+"C70_optimize_changes_no_answer",TR+"C70_each_round_advances",TR+"C70_optimize_ends",TR+"C70_first_key_left_out"],"Proved for all keys of the range but its first; without a first key, for all. The first key itself is left out if two nodes meet there: C70_first_key_left_out. That it ends is proved with nobody else at work and no child to split or merge; in general every round goes further.")

DE="Verif.Desc."
c("C71","partial",[DE+t for t in ["C71_descriptor_shown","C71_descriptor_found","C71_shows_one","C71_one_at_a_time","C71_crash_keeps_committed_and_prepared","C71_comparisons_unchanged_partial","C71_compared_by_an_aborted_change","C71_prepared_abort_undoes_a_later_commit"]],"Proved for every run, with any number of crashes, also during recovery, for what the dictionary shows; the application keeps to the rule that prepared transactions found by recovery are resolved first (without it: witness). What comparisons use is right as long as no change alters what the comparison function takes from the descriptor; otherwise an aborted change with DB_UPDATE_CMP_DESCRIPTOR stays in effect until the dictionary is closed (witness).")

c("C72","partial",[TR+t for t in ["C72_counting_never_fails","C72_missing_ends","C72_exact_counts_partial","C72_count_is_one_number","C72_exact_if_one_basement","C72_counted_ends_are_there","C72_no_count_is_absurd","C72_counting_changes_no_answer","C72_same_key_twice","C72_ends_in_wrong_order","C72_guess_called_exact","C72_waiting_messages_are_not_counted"]],"Exact counts are proved for ends in order, with a left end whenever there is a right one, and with no message waiting in a buffer for a key of the range (C70 says how to bring that about). Otherwise the code marks wrong numbers as exact: four witnesses. The rest holds for every tree reached, with ends in order for the bound on the numbers.")

c("C73","partial",[TR+t for t in ["C73_one_answer_not_before_start","C73_stops_at_the_row_too_many","C73_gets_ahead","C73_exact_skip_partial","C73_exact_skip_is_one","C73_stays_where_it_was","C73_one_byte_skips_everything","C73_share_is_a_guess","C73_stops_at_a_deleted_key"]],"Exactness, and with it the comment in the code, is proved for dictionaries in memory where no message waits and no child is passed over by its share of the recorded size; one leaf is a special case. Otherwise the answer is a guess, and four witnesses show how wrong it may be: a caller may be sent back to its start key with bytes reported as skipped, or be told that no row is left when asked to skip one byte.")

SO="Verif.Sort."
CO="Verif.Count."
UN="Verif.Undo."
c("C74","proved",[SO+"C74_every_array_is_sorted",SO+"C74_for_every_threshold",SO+"C74_the_order_given_does_not_matter",SO+"C74_sorted_as_they_are_applied",SO+"C74_messages_in_the_order_sent",SO+"C74_trees_rebuilt_in_order",SO+"C74_equal_elements_may_change_places",SO+"C74_the_comparison_must_be_an_order"],
"quicksort with its median of three and moved pivot, the merge by halves and the sort that joins them, with every access checked; sorting messages gives the order the tree model of C35 applies them in.  Array lengths and indices have no limit (int in the code), memory for the copy is always found.  Two witnesses: equal elements may change places, and a comparison that is no order takes the sort out of its array.")

c("C75","proved",[CO+"C75_no_crash",CO+"C75_told_was_asked",CO+"C75_read_between",CO+"C75_read_quiet",CO+"C75_reads_grow",CO+"C75_read_ends",CO+"C75_add_waits_once",CO+"C75_decrement_refuted",CO+"racing_runs",CO+"reuse_runs"],
"threads as a step relation with separate steps for the load and store of an addition and for every part a reader visits; the rest of the steps are done under the lock.  Loads and stores of one 64-bit word are atomic and in order.  Setting the module up and shutting it down is not modelled.  One witness outside the contract of the header ('no overflows'): the cache's size counters are decremented by adding 2^64 less the size, and a read that overlaps can return nearly 2^64.")

c("C76", "partial", [UN+"C76_comes_back", UN+"C76_any_trips", UN+"C76_size", UN+"C76_unused", UN+"C76_wrong_number", UN+"C76_returned_checked",
                     UN+"C76_recovered_versions", UN+"C76_version_28_refuted", UN+"C76_old_node_refuted"],
  "Proved in full for nodes of the current version, with any records, any compression and any interleaving of saves and trips to disk, and for reading nodes of versions 25 to 27. "
  "The part about older programs is false: nodes of version 28 stop the process although recovery from logs of version 28 is allowed (C76_version_28_refuted), and a node of version 25 to 27 in which a record is saved cannot be written again (C76_old_node_refuted).")

EV="Verif.Evict."
c("C77","partial",[EV+t for t in ["C77_limits","C77_no_assertion","C77_promises","C77_counted","C77_not_forgotten_partial","C77_quiet_partial","C77_stall_refuted","C77_timer_repairs","C77_all_in_use","C77_stops"]],
"step relation with any number of clients and background threads, the lock, both condition variables and the sizes that change without the lock; partial because the property is false if a client adds to the cache between the last two looks of a run of the eviction thread at the size (C77_stall_refuted); the next call of the eviction thread, by its timer at the latest, repairs this from every state (C77_timer_repairs); that a run which keeps evicting ends is not proved, since what an eviction frees is open")

CR="Verif.Cron."
c("C78","partial",[CR+t for t in ["C78_no_crash_partial","C78_crash_refuted","C78_spacing_partial","C78_early_refuted","C78_after_change_refuted","C78_on_time","C78_not_missed","C78_takes_effect","C78_only_if_asked","C78_no_call_after","C78_stops","C78_seconds_partial","C78_seconds_refuted"]],
"the thread, its mutex, condition variable, sleeps and clock readings as steps; partial because the property is false for periods of more than a second that are not whole seconds, which the API for flushing the log accepts (C78_crash_refuted: the program ends; C78_early_refuted), for a change from a short to a long period (C78_after_change_refuted) and for periods of 2^32 milliseconds or more (C78_seconds_refuted); the clock is assumed not to go back, and the called function to return 0")

RC="Verif.Rowcount."
c("C79","partial",[RC+"C79_rows_partial",RC+"C79_same_answer_partial",RC+"C79_reopen",RC+"C79_reopen_partial",RC+"C79_size_partial",RC+"C79_reopen_refuted",RC+"C79_crash_refuted",RC+"C79_below_zero_refuted",RC+"C79_old_update_refuted",RC+"C79_size_refuted",RC+"C79_garbage_refuted"],
"Proved for all histories without a restart in which the row count due never falls below zero: the number of rows reported is the one due, and two histories with the same changes agree after a scan. Over closing and opening it is off by exactly the corrections readers made that are not on disk. The size is right if no leaf changed by readers is evicted as a whole and no garbage is collected in clones. Refuted in general by witnesses: reopening after a read, a crash with puts during a checkpoint, a delete of a missing key from an empty dictionary, replayed updates, reading and evicting (size grows without bound), garbage in clones. Splits and merges of leaves are not in the model.")

WK="Verif.Workers."
c("C80","proved",[WK+x for x in ["C80_once","C80_destroyed","C80_awake","C80_served","C80_ends","C80_destroy_takes_effect","C80_enq_takes_effect","C80_status","C80_asserts","C80_no_worker_refuted","C80_wait_returned","C80_wait_wakes","C80_jobs_counted","C80_accepted"]],"For every number of workers at least one where jobs must get done, and every schedule. A pool created with no worker drops its jobs when destroyed (C80_no_worker_refuted); the library never creates one. Closing and opening a file are under one lock, so the model has at most one wait per file at a time.")

PI="Verif.Pipe."
c("C81","partial",[PI+x for x in ["C81_order","C81_eof","C81_weights","C81_room","C81_awake","C81_answered","C81_returns","C81_takes_effect","C81_asserts","C81_two_producers_refuted","C81_two_consumers_refuted"]],"Order, counts, weights and the end are proved for any number of threads; that nobody sleeps in vain is proved for one thread on each side, which is how the loader uses the queue. With two sending threads and one receiving thread, which the description of the queue allows, all three can sleep for ever with an item in the queue (C81_two_producers_refuted). Missing: that calls return within a bounded number of steps needs a fair scheduler and is stated only as steps that are possible.")

AH="Verif.Ahead."
c("C82", "partial", [AH+"C82_bytes", AH+"C82_eof", AH+"C82_exact", AH+"C82_awake", AH+"C82_ends", AH+"C82_asserts", AH+"C82_rows", AH+"C82_cut", AH+"C82_fail_refuted", AH+"C82_panic_refuted", AH+"C82_truncated_refuted"],
  "Bytes, end of file and assertions are proved for every schedule, failures included; sizes of answers, waking and ending are proved when no read fails. Refuted by witnesses: a reader left asleep after two failed reads of another file, a sleeping reader after giving up, and a row lost without an error when a file is cut off between two pieces. Decompression of blocks is not modelled.")

ST="Verif.Stale."
c("C83", "partial", [ST+"C83_files_partial", ST+"C83_reserve", ST+"C83_goes", ST+"C83_asserts", ST+"C83_memory_partial", ST+"C83_reuse_refuted", ST+"C83_evict_refuted", ST+"C83_shutdown_refuted"],
  "Contents, names, deletion and file numbers are proved for every sequence in which rolling back a bulk load does not unlink a closed file with pages in memory; memory safety for every sequence without an opening or shutdown inside an eviction. Both conditions are needed: three witnesses.")

LW="Verif.LockWait."
c("C84", "partial", [LW+"C84_not_early_partial", LW+"C84_in_time", LW+"C84_killed", LW+"C84_answer", LW+"C84_forever_refuted", LW+"C84_unasked_refuted"],
  "Proved for all times whose sum with the clock fits in 64 bits of microseconds. Refuted beyond: a timeout of 2^64-1 milliseconds is over at once. Granting by retries is in C26; what the set of pending requests holds afterwards is not part of this model.")

RD="Verif.Redirect."
c("C85", "partial", [RD+"C85_contents_partial", RD+"C85_asserts", RD+"C85_open", RD+"C85_refused", RD+"C85_possible", RD+"C85_files_partial", RD+"C85_after_checkpoint_partial", RD+"C85_checkpoint", RD+"C85_two_loaders_refuted", RD+"C85_leak_refuted"],
  "Proved with at most one loader open at a time. Refuted beyond: two loaders closed in the opposite order; a load that failed half-way leaves its file when the transaction commits. One transaction at a time, no child transactions, no recovery, one dictionary per loader.")

FZ="Verif.Fsize."
c("C86", "partial", [FZ+"C86_blocks_partial", FZ+"C86_one_at_a_time", FZ+"C86_asserts", FZ+"C86_inside", FZ+"C86_growth", FZ+"C86_grown", FZ+"C86_shrinking", FZ+"C86_shrink_starts", FZ+"C86_progress", FZ+"C86_stale_limit_refuted"],
  "Proved when nobody asks for a shorter file while it is being made shorter, and more generally when a thread that waited finds no block above its limit. Refuted otherwise. A block is written in one step; 64-bit overflow of sizes and errors of file operations are not modelled.")

FW="Verif.FullWrite."
c("C87", "partial", [FW+"C87_full_write_partial", FW+"C87_torn", FW+"C87_returns", FW+"C87_stops", FW+"C87_counters", FW+"C87_reports", FW+"C87_os_write", FW+"C87_os_write_returns", FW+"C87_fsync", FW+"C87_durable", FW+"C87_report_repaired", FW+"C87_interrupted_refuted", FW+"C87_zero_refuted", FW+"C87_report_refuted"],
  "The loops are proved for every sequence of answers; the report printed on a full disk has undefined behaviour (refuted). Not modelled: alignment assertions, several threads writing the same file, counters shared by threads.")

DT="Verif.Dbt."
c("C88", "partial", [DT+"C88_values_partial", DT+"C88_result", DT+"C88_malloc", DT+"C88_realloc", DT+"C88_no_memory", DT+"C88_no_memory_refuted"],
  "Proved while memory can be had, for values shorter than 2^30 bytes (rows are limited to 32 MiB by put). Refuted after a failed realloc. One value per call (a cursor call makes two, with separate buffers for keys and values).")

VF="Verif.Verify."
c("C89", "partial", [VF+"C89_verified_partial", VF+"C89_exact", VF+"C89_no_false_alarm", VF+"C89_keep_going", VF+"C89_callback", VF+"C89_result", VF+"C89_crash", VF+"C89_update_refuted"],
  "Proved for the pivots, leaf keys, heights, message numbers and places of all one-key messages but updates. Refuted for updates. The sorted trees over the messages of a buffer are not modelled here.")

OP = "Verif.Open."
c("C90", "partial", [OP+"C90_open_partial", OP+"C90_history", OP+"C90_no_recover", OP+"C90_upgrade", OP+"C90_refused", OP+"C90_new", OP+"C90_incomplete", OP+"C90_lost_rollback_refuted", OP+"C90_new_refuted"],
  "Proved for all numbers of log files of versions 25 to 29, all crash points and all histories except crashes between the deletion of the old rollback file and the creation of the new one; those, and crashes of the first opening, leave a directory that no opening accepts (two refuted theorems). Missing: crashes in an upgrade from versions 13 to 24 (recovery of such logs is not modelled), the order in which metadata reaches the disk.")

SC = "Verif.Space."
c("C91", "partial", [SC+"C91_refused_partial", SC+"C91_low", SC+"C91_state", SC+"C91_counted", SC+"C91_fixed", SC+"C91_warned", SC+"C91_rare", SC+"C91_update_multiple_refuted", SC+"C91_overflow_refuted", SC+"C91_twelfth_refuted", SC+"C91_silent_refuted"],
  "Exact for all histories, file systems and shares whose percentage does not overflow 64 bits; refuted for update_multiple, for larger file systems, and as to warnings at the twelfth look and under repeated entries. Missing: the time between looks (C78), the temporary directory (not looked at by the code), bulk loads (which do not check).")

BU = "Verif.Bulk."
c("C92", "partial", [BU+"C92_call", BU+"C92_scan_partial", BU+"C92_position_partial", BU+"C92_wait", BU+"C92_bounds", BU+"C92_skipped_refuted", BU+"C92_error_refuted", BU+"C92_position_refuted", BU+"C92_bounds_again_refuted", BU+"C92_outside_refuted"],
  "Proved for all rows, divisions into nodes, callbacks without errors and sequences of calls when no lock is refused, and for all refused locks when the callback takes single rows. Refuted: a lock refused in the middle of a call (the row is skipped), the position after an error or at a bound, bounds set again, bounds behind the cursor. Missing: changes of the rows during a scan (C03, C67).")


TB = "Verif.Tables."
c("C93", "partial", [TB+"C93_safe", TB+"C93_shared", TB+"C93_found", TB+"C93_refs", TB+"C93_freed", TB+"C93_ends", TB+"C93_reported", TB+"C93_reported_partial", TB+"C93_reported_refuted", TB+"C93_waiting", TB+"C93_woken", TB+"C93_refused_partial", TB+"C93_alone", TB+"C93_refused_refuted", TB+"C93_spurious_refuted"],
  "Lifetime and sharing of the tables and the release of waiting threads proved for all interleavings. The waits reported are proved not too few, exact without a race, and refuted in general; refusals are proved justified for the thread that escalates, refuted for threads that wait for it. Missing: what escalation does inside one table (C20-C23), the memory of the range buffers.")


QZ = "Verif.Qlz."
c("C94", "proved", [QZ+"C94_back", QZ+"C94_fits", QZ+"C94_default", QZ+"C94_library", QZ+"C94_long_refuted", QZ+"C94_damaged_refuted"], "For all texts and all contents of the tables. C94_library removes the assumption on quicklz from C53 and C76. Recorded beside it: texts of the last 400 lengths below 2^32, which the caller accepts, give nothing (C94_long_refuted), and the decompressor checks nothing (C94_damaged_refuted; checksums protect it, C50).")


RC = "Verif.Recount."
c("C95", "partial", [RC+"C95_counted", RC+"C95_rows_partial", RC+"C95_enough", RC+"C95_last", RC+"C95_cancel_partial", RC+"C95_progress", RC+"C95_rows_refuted", RC+"C95_empty_refuted", RC+"C95_cancel_refuted", RC+"C95_code_refuted", RC+"C95_changed_refuted"], "The exact result for every dictionary at rest: the rows, plus one for every bound between basement nodes at which there is no row (calls that only ask for a lock are counted as rows). Right exactly without such bounds. Cancelling is ignored when the callback was told of deleted rows in front of a row; the answer is replaced by 1; changes during the scan are lost from the number.")


LE = "Verif.LoadErr."
c("C96", "partial", [LE+"C96_once", LE+"C96_after", LE+"C96_noted", LE+"C96_close_partial", LE+"C96_stays", LE+"C96_failed", LE+"C96_close_refuted", LE+"C96_first_refuted", LE+"C96_key_refuted", LE+"C96_silent_refuted"], "For all histories. Proved: at most one call of the callback, no put after a failed one, the first noted error stays, and close is right if no put failed. Refuted: after a failed put close returns 0 although nothing is loaded; the callback is then told of the put, not of the first error; equal keys found in the background are told without the key.")


NE = "Verif.Nest."
c("C97", "partial", [NE+"C97_chain", NE+"C97_names", NE+"C97_begin", NE+"C97_refused", NE+"C97_nesting", NE+"C97_find", NE+"C97_replayed", NE+"C97_recovered_partial", NE+"C97_recovered_refuted"], "For all histories without a crash everything is proved; C97_begin is the side condition on begins of the specification of rows (Ule/Spec.lean, C01, C02, C10). If the whole life of the root is replayed, nested transactions and the next id are recovered (C97_replayed). After any recovery ids differ from those of all nested transactions whose begin is replayed; false for those whose begin is before the checkpoint: the counter of nested ids is not in the log, an id is given out again below a recovered (prepared) root, and the abort of the second undoes the committed write of the first (C97_recovered_refuted). Ids are numbers without the limit of 64 bits.")


PA = "Verif.Par."
c("C98", "proved", [PA+"C98_complete", PA+"C98_once", PA+"C98_threads", PA+"C98_goes_on", PA+"C98_ends", PA+"C98_error", PA+"C98_asked"], "Over all interleavings of a transition system of the caller and the threads, with the count of references as the code keeps it (raised after the threads were started). C98_goes_on and C98_ends together: every run in which enabled steps are taken ends with the return of the call after at most 3n+10T+20 steps. The pool is free to give fewer threads; that a thread it gave begins to run is taken from the operating system. What is done to one part is C53 and C94.")


PO = "Verif.Pool."
c("C99", "proved", [PO+"C99_one_hand", PO+"C99_given", PO+"C99_work", PO+"C99_bound", PO+"C99_sleep", PO+"C99_goes_on", PO+"C99_ends", PO+"C99_rest"], "Over all interleavings of a transition system of calls and threads under the lock of the pool. Calls are those of the engine, which do not ask to wait (dowait 0 at all three places); the end of the pool is not modelled. C99_sleep says what is true of the sleep of such a call: it does sleep, although the thread it made is free (example_asleep), but only while a thread that was made has not begun to run. C99_goes_on, C99_ends and C99_rest together: with no new calls every run comes to rest after at most 21 steps for each call and 8 for each thread, with all calls served or refused and all work done once. That a thread that was made begins to run is taken from the operating system.")


PT = "Verif.Paths."
c("C100", "partial", [PT+"C100_name", PT+"C100_place_partial", PT+"C100_place_refuted", PT+"C100_same_file_partial", PT+"C100_same_file_refuted", PT+"C100_rename_partial", PT+"C100_rename_refuted", PT+"C100_rename_lost"], "C100_name holds for all parts, with the sizes of the buffers as the code counts them. C100_place_partial leaves out a data directory set to the empty name, for which it is false (C100_place_refuted). C100_same_file_partial and C100_rename_partial are for no data directory or an absolute one; C100_same_file_refuted: with any relative one a rename (dir_per_db) uses a name with the data directory in it twice, and C100_rename_refuted: the call returns 0 although no file was renamed, and the dictionary is not to be found afterwards (C100_rename_lost: for every relative directory and all names). Missing: links and .. in names, failing allocations, the making of subdirectories.")

T.sort(key=lambda d: d["property"])
json.dump({"claims": T}, open(os.path.join(root, "MANIFEST.json"), "w"), indent=1)
mods = [l.split()[1] for l in open(os.path.join(root, "lean/Verif.lean")) if l.startswith("import") and "Audit" not in l]
with open(os.path.join(root, "lean/Verif/Audit.lean"), "w") as f:
    for m in mods: f.write(f"import {m}\n")
    f.write("\n/-! The axioms behind every theorem named in MANIFEST.json (generated by tools/manifest.py). -/\n")
    for d in T:
        for t in d["theorems"]: f.write(f"#print axioms {t}\n")
