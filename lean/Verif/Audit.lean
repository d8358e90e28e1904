import Verif.Ule.Props
import Verif.Txn.Props
import Verif.Mvcc.Props
import Verif.Ule.PackProps
import Verif.Ft.BasementProps
import Verif.Lt.LockProps
import Verif.Lt.WaitProps
import Verif.Lt.RetryProps
import Verif.Blk.AllocProps
import Verif.Blk.TableProps
import Verif.Blk.CkptProps
import Verif.Ser.BufProps
import Verif.Ser.HeaderProps
import Verif.Ser.TableProps
import Verif.Ser.MsgBufProps
import Verif.Tree.Props
import Verif.Tree.SearchProps
import Verif.Ydb.Props
import Verif.Xa.Props
import Verif.Log.Props
import Verif.Logger.Props
import Verif.Roll.Props
import Verif.Rw.Props
import Verif.Rw.PlainProps
import Verif.Omt.Props
import Verif.Ckpt.Props
import Verif.Load.Props
import Verif.Rec.Props
import Verif.Node.PivotProps
import Verif.Node.BnProps
import Verif.Node.DiskProps
import Verif.Tree.Right
import Verif.Tree.RightSpec
import Verif.Tree.RightPath
import Verif.Tree.RightLemmas
import Verif.Tree.RightProps
import Verif.Multi.Model
import Verif.Multi.Spec
import Verif.Multi.Lemmas
import Verif.Multi.Update
import Verif.Multi.Replay
import Verif.Multi.Hist
import Verif.Multi.Props
import Verif.Hot.Model
import Verif.Hot.Spec
import Verif.Hot.Lemmas
import Verif.Hot.Committed
import Verif.Hot.Provisional
import Verif.Hot.Row
import Verif.Hot.Whole
import Verif.Hot.RowProps
import Verif.Hot.Build
import Verif.Hot.BuildSpec
import Verif.Hot.BuildLemmas
import Verif.Hot.BuildInv
import Verif.Hot.BuildProps
import Verif.Iso.Props
import Verif.Files.Props
import Verif.Names.Props
import Verif.Tree.OptProps
import Verif.Desc.Props
import Verif.Tree.RangeSpec
import Verif.Tree.Range
import Verif.Tree.RangeLemmas
import Verif.Tree.RangeRun
import Verif.Tree.RangeMain
import Verif.Tree.RangeProps
import Verif.Tree.SkipSpec
import Verif.Tree.Skip
import Verif.Tree.SkipLemmas
import Verif.Tree.SkipRun
import Verif.Tree.SkipProps
import Verif.Sort.Spec
import Verif.Sort.Model
import Verif.Sort.Quick
import Verif.Sort.Merge
import Verif.Sort.Buffer
import Verif.Sort.Props
import Verif.Count.Spec
import Verif.Count.Model
import Verif.Count.Inv
import Verif.Count.Step
import Verif.Count.Props
import Verif.Undo.Spec
import Verif.Undo.Model
import Verif.Undo.Lemmas
import Verif.Undo.Disk
import Verif.Undo.Props
import Verif.Evict.Model
import Verif.Evict.Spec
import Verif.Evict.Lemmas
import Verif.Evict.Step
import Verif.Evict.Calm
import Verif.Evict.Props
import Verif.Cron.Model
import Verif.Cron.Spec
import Verif.Cron.Lemmas
import Verif.Cron.Spacing
import Verif.Cron.Props
import Verif.Rowcount.Model
import Verif.Rowcount.Spec
import Verif.Rowcount.Lemmas
import Verif.Rowcount.Inv
import Verif.Rowcount.Bases
import Verif.Rowcount.Steps
import Verif.Rowcount.Stats
import Verif.Rowcount.Shape
import Verif.Rowcount.Props
import Verif.Workers.Model
import Verif.Workers.Spec
import Verif.Workers.Lemmas
import Verif.Workers.Ends
import Verif.Workers.Props
import Verif.Pipe.Model
import Verif.Pipe.Spec
import Verif.Pipe.Lemmas
import Verif.Pipe.Props
import Verif.Ahead.Model
import Verif.Ahead.Spec
import Verif.Ahead.Lemmas
import Verif.Ahead.More
import Verif.Ahead.Awake
import Verif.Ahead.Props
import Verif.Stale.Model
import Verif.Stale.Spec
import Verif.Stale.Lemmas
import Verif.Stale.More
import Verif.Stale.Memory
import Verif.Stale.Props
import Verif.LockWait.Model
import Verif.LockWait.Spec
import Verif.LockWait.Props
import Verif.Redirect.Model
import Verif.Redirect.Spec
import Verif.Redirect.Lemmas
import Verif.Redirect.Inv
import Verif.Redirect.Steps
import Verif.Redirect.Run
import Verif.Redirect.Props
import Verif.Fsize.Model
import Verif.Fsize.Spec
import Verif.Fsize.Lemmas
import Verif.Fsize.Steps
import Verif.Fsize.Props
import Verif.FullWrite.Model
import Verif.FullWrite.Spec
import Verif.FullWrite.Props
import Verif.Dbt.Model
import Verif.Dbt.Spec
import Verif.Dbt.Inv
import Verif.Dbt.Props
import Verif.Verify.Model
import Verif.Verify.Spec
import Verif.Verify.Lemmas
import Verif.Verify.Tree
import Verif.Verify.Props
import Verif.Open.Model
import Verif.Open.Spec
import Verif.Open.Lemmas
import Verif.Open.Props
import Verif.Space.Model
import Verif.Space.Spec
import Verif.Space.Lemmas
import Verif.Space.Props
import Verif.Bulk.Model
import Verif.Bulk.Spec
import Verif.Bulk.Lemmas
import Verif.Bulk.Props
import Verif.Tables.Model
import Verif.Tables.Spec
import Verif.Tables.Lemmas
import Verif.Tables.Props
import Verif.Qlz.Model
import Verif.Qlz.Spec
import Verif.Qlz.Lemmas
import Verif.Qlz.Enc
import Verif.Qlz.Props
import Verif.Recount.Model
import Verif.Recount.Spec
import Verif.Recount.Lemmas
import Verif.Recount.Props
import Verif.LoadErr.Model
import Verif.LoadErr.Props
import Verif.Nest.Model
import Verif.Nest.Props
import Verif.Par.Model
import Verif.Par.Props
import Verif.Pool.Model
import Verif.Pool.Props
import Verif.Paths.Model
import Verif.Paths.Props

/-! The axioms behind every theorem named in MANIFEST.json (generated by tools/manifest.py). -/
#print axioms Verif.Ule.C01_abort_restores_value
#print axioms Verif.Ule.C01_abort_erases_write
#print axioms Verif.Ule.C02_row_value_is_last_surviving_write
#print axioms Verif.Ule.C02_child_commit_keeps_value
#print axioms Verif.Mvcc.C03_snapshot_read
#print axioms Verif.Mvcc.C03_repeatable_read
#print axioms Verif.Mvcc.C04_collection_is_invisible
#print axioms Verif.Mvcc.C04_collect_changes_no_read
#print axioms Verif.Mvcc.C04_delivery_choices_change_no_read
#print axioms Verif.Mvcc.C04_no_assertion
#print axioms Verif.Txn.C05_snapshot_sees_exactly_the_finished
#print axioms Verif.Mvcc.C05_snapshot_starts_with_committed
#print axioms Verif.Mvcc.C06_statement_reads_committed
#print axioms Verif.Mvcc.C06_latest_read
#print axioms Verif.Mvcc.C06_read_committed_always_is_stale
#print axioms Verif.Ule.C07_round_trip
#print axioms Verif.Ule.C07_no_value_is_absent
#print axioms Verif.Ule.C07_injective
#print axioms Verif.Ule.C07_size
#print axioms Verif.Ule.C07_every_reachable_row_is_storable
#print axioms Verif.Ule.C08_latest
#print axioms Verif.Ule.C08_iterate
#print axioms Verif.Ule.C08_snapshot
#print axioms Verif.Ule.C08_read_committed
#print axioms Verif.Ule.C08_has_xids
#print axioms Verif.Ule.C08_worth_collecting
#print axioms Verif.Ule.C09_insert_no_overwrite_partial
#print axioms Verif.Tree.C62_silent_put_overwrites
#print axioms Verif.Ule.C10_implicit_equals_explicit_commits
#print axioms Verif.Ule.C10_commit_notifications_unobservable
#print axioms Verif.Paths.C100_name
#print axioms Verif.Paths.C100_place_partial
#print axioms Verif.Paths.C100_place_refuted
#print axioms Verif.Paths.C100_same_file_partial
#print axioms Verif.Paths.C100_same_file_refuted
#print axioms Verif.Paths.C100_rename_partial
#print axioms Verif.Paths.C100_rename_refuted
#print axioms Verif.Paths.C100_rename_lost
#print axioms Verif.Ule.C11_stack_never_overflows
#print axioms Verif.Ule.C11_any_sequence
#print axioms Verif.Ule.C11_broadcasts_keep_value
#print axioms Verif.Ule.C12_nesting_limit
#print axioms Verif.Ule.C12_create_child
#print axioms Verif.Ule.C12_codec
#print axioms Verif.Ft.C13_counts
#print axioms Verif.Ft.C13_bytes_drift_when_equal_keys_differ_in_length
#print axioms Verif.Ft.C14_logical_rows_partial
#print axioms Verif.Ft.C14_abort_simple_partial
#print axioms Verif.Ft.C14_abort_miscounts
#print axioms Verif.Ft.C14_delete_absent_miscounts
#print axioms Verif.Ft.C14_update_miscounts
#print axioms Verif.Txn.C15_ids_increase
#print axioms Verif.Txn.C16_referenced_exact
#print axioms Verif.Txn.C16_strategies_agree
#print axioms Verif.Txn.C16_manager_never_asserts
#print axioms Verif.Txn.C17_oldest_is_lower_bound
#print axioms Verif.Ydb.begin_root
#print axioms Verif.Ydb.begin_nested
#print axioms Verif.Ydb.nested_like_parent
#print axioms Verif.Xa.listing_complete
#print axioms Verif.Xa.recover_sound
#print axioms Verif.Xa.batches_exact
#print axioms Verif.Xa.no_room_stops
#print axioms Verif.Xa.two_listings_collide
#print axioms Verif.Lt.C20_no_point_is_locked_twice
#print axioms Verif.Lt.C20_locked_range_is_not_granted
#print axioms Verif.Lt.C21_lock_stays_until_released
#print axioms Verif.Lt.C21_granted_range_is_locked
#print axioms Verif.Lt.C22_granted_iff_no_conflict
#print axioms Verif.Lt.C22_no_event_fails
#print axioms Verif.Lt.C22_memory_check_is_transparent_below_half
#print axioms Verif.Lt.C22_refusal_after_escalation
#print axioms Verif.Lt.C23_release_removes_exactly_own_locks
#print axioms Verif.Lt.C23_release_leaves_others_alone
#print axioms Verif.Lt.C23_no_record_no_lock
#print axioms Verif.Lt.C24_queries_are_exact
#print axioms Verif.Lt.C25_no_event_fails
#print axioms Verif.Lt.C25_check_is_exact
#print axioms Verif.Lt.C25_reported_deadlock_is_real
#print axioms Verif.Lt.C25_waiting_never_cycles_partial
#print axioms Verif.Lt.C25_missed_after_stale_conflicts
#print axioms Verif.Lt.C25_missed_after_escalation
#print axioms Verif.Lt.Retry.C26_unblocked_waiter_will_be_retried
#print axioms Verif.Lt.Retry.C26_no_lost_wakeup
#print axioms Verif.Lt.Retry.C26_completed_waiter_wakes
#print axioms Verif.Lt.Retry.C26_release_is_never_stuck
#print axioms Verif.Lt.Retry.C26_round_is_finite
#print axioms Verif.Lt.C27_buffer_returns_what_was_appended_partial
#print axioms Verif.Lt.C27_range_ending_at_empty_key_reads_back_wrong
#print axioms Verif.Lt.C27_range_ending_at_empty_key_reads_garbage
#print axioms Verif.Lt.C27_empty_right_key_is_lost
#print axioms Verif.Lt.C27_longest_key_reads_back_empty
#print axioms Verif.Lt.C27_order_is_not_kept
#print axioms Verif.Blk.C28_blocks_in_use_are_apart
#print axioms Verif.Blk.C28_allocation_succeeds
#print axioms Verif.Blk.C28_free_succeeds
#print axioms Verif.Blk.C28_open_succeeds
#print axioms Verif.Blk.C28_accounts
#print axioms Verif.Blk.C28_freed_space_is_available
#print axioms Verif.Blk.C29_first_fit
#print axioms Verif.Blk.C29_summaries_exact
#print axioms Verif.Blk.C29_search_is_logarithmic
#print axioms Verif.Blk.C29_allocated_limit
#print axioms Verif.Blk.C30_no_block_is_overwritten
#print axioms Verif.Blk.C30_checkpoint_survives
#print axioms Verif.Blk.C30_recovery_succeeds
#print axioms Verif.Blk.C30_completed_checkpoint_is_kept
#print axioms Verif.Blk.C31_new_number_is_unused
#print axioms Verif.Blk.C31_free_list_is_exact
#print axioms Verif.Blk.C31_numbers_have_separate_blocks
#print axioms Verif.Blk.C31_number_keeps_its_block
#print axioms Verif.Ser.C32_header_round_trip
#print axioms Verif.Ser.C32_completed_checkpoint_is_found
#print axioms Verif.Ser.C32_interrupted_checkpoint_is_all_or_nothing
#print axioms Verif.Ser.C32_interrupted_first_checkpoint
#print axioms Verif.Ser.C32_opening_never_stops_the_program
#print axioms Verif.Ser.C32_newest_usable_header
#print axioms Verif.Ser.C33_checksum_of_pieces
#print axioms Verif.Ser.C33_checksum_in_memory
#print axioms Verif.Ser.C33_written_fields_are_read_back
#print axioms Verif.Ser.C33_same_bytes_without_checksum
#print axioms Verif.Ser.C33_fits_or_stops
#print axioms Verif.Ser.C33_one_bit_can_go_unnoticed
#print axioms Verif.Ser.C34_buffer_shows
#print axioms Verif.Ser.C34_round_trip
#print axioms Verif.Ser.C34_round_trip_without_trees
#print axioms Verif.Tree.C35_query_sees_every_write_once
#print axioms Verif.Tree.C35_only_messages_change_answers
#print axioms Verif.Tree.C35_any_basement_read_is_current
#print axioms Verif.Tree.C36_key_goes_to_its_child
#print axioms Verif.Tree.C36_bounds_contain_key
#print axioms Verif.Tree.C37_leaf_split
#print axioms Verif.Tree.C37_leaf_merge
#print axioms Verif.Tree.C37_leaf_rebalance
#print axioms Verif.Tree.C37_inner_split
#print axioms Verif.Tree.C37_inner_merge
#print axioms Verif.Omt.Props.behaves_as_a_list
#print axioms Verif.Omt.Props.no_assertion_fails
#print axioms Verif.Omt.Props.iterates_in_order
#print axioms Verif.Omt.Props.marks_what_it_visits
#print axioms Verif.Omt.Props.changes_in_place
#print axioms Verif.Omt.Props.insert_keeps_sorted
#print axioms Verif.Omt.Props.depth_is_logarithmic
#print axioms Verif.Log.Props.written_sealed
#print axioms Verif.Log.Props.forward_round_trip
#print axioms Verif.Log.Props.logged_same
#print axioms Verif.Log.Props.backward_round_trip
#print axioms Verif.Log.Props.cut_short_reported
#print axioms Verif.Log.Props.returned_is_sealed
#print axioms Verif.Log.Props.returned_back_is_sealed
#print axioms Verif.Log.Props.cursor_walks_partial
#print axioms Verif.Log.Props.recovery_walk
#print axioms Verif.Log.Props.sharp_turn_fails
#print axioms Verif.Log.Props.gap_reported
#print axioms Verif.Log.Props.unknown_type_is_bad
#print axioms Verif.Log.Props.repaired_log_walks_partial
#print axioms Verif.Log.Props.torn_log_walks_partial
#print axioms Verif.Log.Props.torn_value_forges_record
#print axioms Verif.Log.Props.damaged_identifier_overruns
#print axioms Verif.Log.Props.format_number_truncated
#print axioms Verif.Log.Props.first_does_not_rewind
#print axioms Verif.Log.Props.repair_of_wrong_file
#print axioms Verif.Logger.Props.log_read_back_partial
#print axioms Verif.Logger.Props.no_crash
#print axioms Verif.Logger.Props.no_deadlock
#print axioms Verif.Logger.Props.numbers_consecutive
#print axioms Verif.Logger.Props.log_in_order
#print axioms Verif.Logger.Props.synced_records_survive
#print axioms Verif.Logger.Props.synced_record_survives
#print axioms Verif.Logger.Props.waited_records_survive
#print axioms Verif.Logger.Props.open_file_small
#print axioms Verif.Logger.Props.long_record_overruns
#print axioms Verif.Logger.Props.second_long_record_crashes
#print axioms Verif.Rec.recovery
#print axioms Verif.Rec.recovery_prepared
#print axioms Verif.Rec.recovery_repeated
#print axioms Verif.Rec.durability
#print axioms Verif.Rec.running_value
#print axioms Verif.Rec.call_succeeds
#print axioms Verif.Roll.Props.rollback_follows_history
#print axioms Verif.Roll.Props.abort_undoes_newest_first
#print axioms Verif.Roll.Props.root_commit_completes_newest_first
#print axioms Verif.Roll.Props.child_commit_then_abort
#print axioms Verif.Roll.Props.nodes_are_given_back
#print axioms Verif.Roll.Props.every_entry_is_counted
#print axioms Verif.Roll.Props.node_size_is_exact
#print axioms Verif.Roll.Props.raw_count_misses_spilled_child
#print axioms Verif.Rw.Props.writer_alone
#print axioms Verif.Rw.Props.no_check_fails
#print axioms Verif.Rw.Props.somebody_is_on
#print axioms Verif.Rw.Props.no_barging
#print axioms Verif.Rw.Props.reader_at_once
#print axioms Verif.Rw.Props.writer_at_once
#print axioms Verif.Rw.Props.place_step
#print axioms Verif.Rw.Props.bounded_overtaking
#print axioms Verif.Rw.Props.drains
#print axioms Verif.Rw.Props.write_expensive
#print axioms Verif.Rw.Props.read_expensive
#print axioms Verif.Rw.Props.spurious_wakeup_breaks_exclusion
#print axioms Verif.Rw.Props.plain_writer_alone
#print axioms Verif.Rw.Props.plain_no_check_fails
#print axioms Verif.Rw.Props.plain_writer_awake
#print axioms Verif.Rw.Props.plain_reader_awake
#print axioms Verif.Rw.Props.plain_writers_first
#print axioms Verif.Rw.Props.plain_counts
#print axioms Verif.Load.load_ok
#print axioms Verif.Load.load_find
#print axioms Verif.Load.load_succeeds
#print axioms Verif.Load.load_accepts
#print axioms Verif.Load.load_refused
#print axioms Verif.Load.load_error
#print axioms Verif.Load.load_duplicate
#print axioms Verif.Load.load_no_abort_partial
#print axioms Verif.Load.load_duplicate_reported_partial
#print axioms Verif.Load.duplicate_aborts
#print axioms Verif.Load.sort_ok
#print axioms Verif.Load.sort_iff
#print axioms Verif.Load.merge_ok
#print axioms Verif.Load.tree_ok
#print axioms Verif.Lt.C45_lock_memory_is_exact
#print axioms Verif.Lt.C45_charge_returns_to_base
#print axioms Verif.Ckpt.Props.checkpoint_is_one_instant
#print axioms Verif.Ckpt.Props.phases_are_all_or_nothing
#print axioms Verif.Ckpt.Props.checkpoint_holds_begin_content
#print axioms Verif.Ckpt.Props.no_begin_inside_operation
#print axioms Verif.Ckpt.Props.pin_gives_latest
#print axioms Verif.Ckpt.Props.read_gives_latest
#print axioms Verif.Ckpt.Props.eviction_loses_nothing
#print axioms Verif.Ckpt.Props.eviction_keeps_checkpoint
#print axioms Verif.Ckpt.Props.writers_exclude_readers
#print axioms Verif.Ckpt.Props.no_assertion_fails
#print axioms Verif.Ckpt.Props.checkpoint_can_finish
#print axioms Verif.Ckpt.Props.torn_without_dependents
#print axioms Verif.Blk.C47_report_never_fails_partial
#print axioms Verif.Blk.C47_report_counts_space_beyond_the_file
#print axioms Verif.Blk.C48_operations_never_fail_partial
#print axioms Verif.Blk.C48_checkpoint_end_never_fails_partial
#print axioms Verif.Blk.C48_checkpoint_end_can_fail
#print axioms Verif.Blk.C49_no_space_is_lost_partial
#print axioms Verif.Blk.C49_free_space_is_not_named
#print axioms Verif.Blk.C49_reopening_finds_all_space
#print axioms Verif.Blk.C49_space_can_be_lost
#print axioms Verif.Ser.C50_reading_stays_inside_partial
#print axioms Verif.Ser.C50_a_damaged_length_reads_outside
#print axioms Verif.Ser.C51_older_headers_are_read_partial
#print axioms Verif.Ser.C51_version_17_is_never_read
#print axioms Verif.Ser.C51_version_18_stops_the_program
#print axioms Verif.TrDisk.C52_block_table_is_read_back
#print axioms Verif.TrDisk.C52_checkpoint_table_is_read_back
#print axioms Verif.TrDisk.C52_damaged_table_is_refused
#print axioms Verif.Node.C53_a_node_comes_back_from_disk
#print axioms Verif.Node.C53_parts_come_and_go
#print axioms Verif.Tree.C54_move_finds_nearest
#print axioms Verif.Tree.C54_move_ends
#print axioms Verif.Tree.C54_move_beside_other_work
#print axioms Verif.Ydb.no_crash
#print axioms Verif.Ydb.commit_family
#print axioms Verif.Ydb.abort_family
#print axioms Verif.Ydb.write_outcome
#print axioms Verif.Ydb.discard_outcome
#print axioms Verif.Ydb.prepare_twice_stops
#print axioms Verif.Ydb.prepared_can_write
#print axioms Verif.Ydb.log_grows
#print axioms Verif.Ydb.commit_durable
#print axioms Verif.Ydb.nested_sync
#print axioms Verif.Ydb.prepare_durable
#print axioms Verif.Ydb.lock_charged
#print axioms Verif.Ydb.nested_no_locks
#print axioms Verif.Ydb.locks_kept
#print axioms Verif.Ydb.released_after_end
#print axioms Verif.Ydb.commit_unknown_leaf_partial
#print axioms Verif.Ydb.commit_unknown_panics
#print axioms Verif.Logger.Props.flush_durable_partial
#print axioms Verif.Logger.Props.flush_not_durable
#print axioms Verif.Node.C60_a_leaf_part_holds_its_rows
#print axioms Verif.Node.C61_pivots_are_the_keys_given_partial
#print axioms Verif.Node.C61_an_empty_pivot_stops_the_server
#print axioms Verif.Tree.C62_puts_do_what_flags_say_partial
#print axioms Verif.Tree.C62_nothing_waits_above_last_leaf
#print axioms Verif.Tree.C62_silent_put_overwrites
#print axioms Verif.Tree.C62_put_lost
#print axioms Verif.Tree.C62_update_lost
#print axioms Verif.Multi.C63_dictionaries_stay_in_step_partial
#print axioms Verif.Multi.C63_one_call_partial
#print axioms Verif.Multi.C63_failed_del_or_update_changes_nothing
#print axioms Verif.Multi.C63_put_overwrites_nothing
#print axioms Verif.Multi.C63_update_overwrites_only_its_row
#print axioms Verif.Multi.C63_empty_value_not_stored
#print axioms Verif.Multi.C63_repeated_key_lost
#print axioms Verif.Multi.C63_half_put
#print axioms Verif.Multi.C63_odd_flag_stops_the_process
#print axioms Verif.Multi.C64_recovery_repeats_the_calls_partial
#print axioms Verif.Multi.C64_recovery_of_one_dictionary
#print axioms Verif.Multi.C64_rules_of_C63_suffice
#print axioms Verif.Multi.C64_lost_when_source_gone
#print axioms Verif.Multi.C64_half_put_lost
#print axioms Verif.Multi.C64_repeated_key_comes_back
#print axioms Verif.Hot.C65_index_rows_right_for_every_reader_partial
#print axioms Verif.Hot.C65_index_shows_the_newest_version
#print axioms Verif.Hot.C65_committed_rows_any_number_of_indexes
#print axioms Verif.Hot.C65_two_indexes_and_an_open_transaction_stop
#print axioms Verif.Hot.C65_reader_above_an_unseen_version
#print axioms Verif.Hot.Build.C66_finished_index_is_complete_partial
#print axioms Verif.Hot.Build.C66_index_right_up_to_the_builder_partial
#print axioms Verif.Hot.Build.C66_other_source_loses_a_row
#print axioms Verif.Iso.C67_one_after_another_partial
#print axioms Verif.Iso.C67_serializable_partial
#print axioms Verif.Iso.C67_reads_repeat_partial
#print axioms Verif.Iso.C67_row_appears_before_the_lock
#print axioms Verif.Iso.C67_bounds_not_locked
#print axioms Verif.Iso.C67_bulk_fetch_skips_a_row
#print axioms Verif.Files.C68_directory_after_crash_partial
#print axioms Verif.Files.C68_running_partial
#print axioms Verif.Files.C68_ended_stays
#print axioms Verif.Files.C68_rename_ahead_of_log
#print axioms Verif.Files.C68_renamed_row_lost
#print axioms Verif.Files.C68_failed_rename_stops_recovery
#print axioms Verif.Files.C68_failed_rename_row_twice
#print axioms Verif.Names.C69_name_determines
#print axioms Verif.Names.C69_names_made_once
#print axioms Verif.Names.C69_name_fits
#print axioms Verif.Names.C69_no_transactions_partial
#print axioms Verif.Names.C69_restart_shares_a_file
#print axioms Verif.Names.C69_name_too_long
#print axioms Verif.Names.C69_rename_in_a_file_does_nothing
#print axioms Verif.Tree.C70_optimize_reaches_leaves_partial
#print axioms Verif.Tree.C70_optimize_from_the_start
#print axioms Verif.Tree.C70_quiet_optimize_empties_buffers
#print axioms Verif.Tree.C70_optimize_changes_no_answer
#print axioms Verif.Tree.C70_each_round_advances
#print axioms Verif.Tree.C70_optimize_ends
#print axioms Verif.Tree.C70_first_key_left_out
#print axioms Verif.Desc.C71_descriptor_shown
#print axioms Verif.Desc.C71_descriptor_found
#print axioms Verif.Desc.C71_shows_one
#print axioms Verif.Desc.C71_one_at_a_time
#print axioms Verif.Desc.C71_crash_keeps_committed_and_prepared
#print axioms Verif.Desc.C71_comparisons_unchanged_partial
#print axioms Verif.Desc.C71_compared_by_an_aborted_change
#print axioms Verif.Desc.C71_prepared_abort_undoes_a_later_commit
#print axioms Verif.Tree.C72_counting_never_fails
#print axioms Verif.Tree.C72_missing_ends
#print axioms Verif.Tree.C72_exact_counts_partial
#print axioms Verif.Tree.C72_count_is_one_number
#print axioms Verif.Tree.C72_exact_if_one_basement
#print axioms Verif.Tree.C72_counted_ends_are_there
#print axioms Verif.Tree.C72_no_count_is_absurd
#print axioms Verif.Tree.C72_counting_changes_no_answer
#print axioms Verif.Tree.C72_same_key_twice
#print axioms Verif.Tree.C72_ends_in_wrong_order
#print axioms Verif.Tree.C72_guess_called_exact
#print axioms Verif.Tree.C72_waiting_messages_are_not_counted
#print axioms Verif.Tree.C73_one_answer_not_before_start
#print axioms Verif.Tree.C73_stops_at_the_row_too_many
#print axioms Verif.Tree.C73_gets_ahead
#print axioms Verif.Tree.C73_exact_skip_partial
#print axioms Verif.Tree.C73_exact_skip_is_one
#print axioms Verif.Tree.C73_stays_where_it_was
#print axioms Verif.Tree.C73_one_byte_skips_everything
#print axioms Verif.Tree.C73_share_is_a_guess
#print axioms Verif.Tree.C73_stops_at_a_deleted_key
#print axioms Verif.Sort.C74_every_array_is_sorted
#print axioms Verif.Sort.C74_for_every_threshold
#print axioms Verif.Sort.C74_the_order_given_does_not_matter
#print axioms Verif.Sort.C74_sorted_as_they_are_applied
#print axioms Verif.Sort.C74_messages_in_the_order_sent
#print axioms Verif.Sort.C74_trees_rebuilt_in_order
#print axioms Verif.Sort.C74_equal_elements_may_change_places
#print axioms Verif.Sort.C74_the_comparison_must_be_an_order
#print axioms Verif.Count.C75_no_crash
#print axioms Verif.Count.C75_told_was_asked
#print axioms Verif.Count.C75_read_between
#print axioms Verif.Count.C75_read_quiet
#print axioms Verif.Count.C75_reads_grow
#print axioms Verif.Count.C75_read_ends
#print axioms Verif.Count.C75_add_waits_once
#print axioms Verif.Count.C75_decrement_refuted
#print axioms Verif.Count.racing_runs
#print axioms Verif.Count.reuse_runs
#print axioms Verif.Undo.C76_comes_back
#print axioms Verif.Undo.C76_any_trips
#print axioms Verif.Undo.C76_size
#print axioms Verif.Undo.C76_unused
#print axioms Verif.Undo.C76_wrong_number
#print axioms Verif.Undo.C76_returned_checked
#print axioms Verif.Undo.C76_recovered_versions
#print axioms Verif.Undo.C76_version_28_refuted
#print axioms Verif.Undo.C76_old_node_refuted
#print axioms Verif.Evict.C77_limits
#print axioms Verif.Evict.C77_no_assertion
#print axioms Verif.Evict.C77_promises
#print axioms Verif.Evict.C77_counted
#print axioms Verif.Evict.C77_not_forgotten_partial
#print axioms Verif.Evict.C77_quiet_partial
#print axioms Verif.Evict.C77_stall_refuted
#print axioms Verif.Evict.C77_timer_repairs
#print axioms Verif.Evict.C77_all_in_use
#print axioms Verif.Evict.C77_stops
#print axioms Verif.Cron.C78_no_crash_partial
#print axioms Verif.Cron.C78_crash_refuted
#print axioms Verif.Cron.C78_spacing_partial
#print axioms Verif.Cron.C78_early_refuted
#print axioms Verif.Cron.C78_after_change_refuted
#print axioms Verif.Cron.C78_on_time
#print axioms Verif.Cron.C78_not_missed
#print axioms Verif.Cron.C78_takes_effect
#print axioms Verif.Cron.C78_only_if_asked
#print axioms Verif.Cron.C78_no_call_after
#print axioms Verif.Cron.C78_stops
#print axioms Verif.Cron.C78_seconds_partial
#print axioms Verif.Cron.C78_seconds_refuted
#print axioms Verif.Rowcount.C79_rows_partial
#print axioms Verif.Rowcount.C79_same_answer_partial
#print axioms Verif.Rowcount.C79_reopen
#print axioms Verif.Rowcount.C79_reopen_partial
#print axioms Verif.Rowcount.C79_size_partial
#print axioms Verif.Rowcount.C79_reopen_refuted
#print axioms Verif.Rowcount.C79_crash_refuted
#print axioms Verif.Rowcount.C79_below_zero_refuted
#print axioms Verif.Rowcount.C79_old_update_refuted
#print axioms Verif.Rowcount.C79_size_refuted
#print axioms Verif.Rowcount.C79_garbage_refuted
#print axioms Verif.Workers.C80_once
#print axioms Verif.Workers.C80_destroyed
#print axioms Verif.Workers.C80_awake
#print axioms Verif.Workers.C80_served
#print axioms Verif.Workers.C80_ends
#print axioms Verif.Workers.C80_destroy_takes_effect
#print axioms Verif.Workers.C80_enq_takes_effect
#print axioms Verif.Workers.C80_status
#print axioms Verif.Workers.C80_asserts
#print axioms Verif.Workers.C80_no_worker_refuted
#print axioms Verif.Workers.C80_wait_returned
#print axioms Verif.Workers.C80_wait_wakes
#print axioms Verif.Workers.C80_jobs_counted
#print axioms Verif.Workers.C80_accepted
#print axioms Verif.Pipe.C81_order
#print axioms Verif.Pipe.C81_eof
#print axioms Verif.Pipe.C81_weights
#print axioms Verif.Pipe.C81_room
#print axioms Verif.Pipe.C81_awake
#print axioms Verif.Pipe.C81_answered
#print axioms Verif.Pipe.C81_returns
#print axioms Verif.Pipe.C81_takes_effect
#print axioms Verif.Pipe.C81_asserts
#print axioms Verif.Pipe.C81_two_producers_refuted
#print axioms Verif.Pipe.C81_two_consumers_refuted
#print axioms Verif.Ahead.C82_bytes
#print axioms Verif.Ahead.C82_eof
#print axioms Verif.Ahead.C82_exact
#print axioms Verif.Ahead.C82_awake
#print axioms Verif.Ahead.C82_ends
#print axioms Verif.Ahead.C82_asserts
#print axioms Verif.Ahead.C82_rows
#print axioms Verif.Ahead.C82_cut
#print axioms Verif.Ahead.C82_fail_refuted
#print axioms Verif.Ahead.C82_panic_refuted
#print axioms Verif.Ahead.C82_truncated_refuted
#print axioms Verif.Stale.C83_files_partial
#print axioms Verif.Stale.C83_reserve
#print axioms Verif.Stale.C83_goes
#print axioms Verif.Stale.C83_asserts
#print axioms Verif.Stale.C83_memory_partial
#print axioms Verif.Stale.C83_reuse_refuted
#print axioms Verif.Stale.C83_evict_refuted
#print axioms Verif.Stale.C83_shutdown_refuted
#print axioms Verif.LockWait.C84_not_early_partial
#print axioms Verif.LockWait.C84_in_time
#print axioms Verif.LockWait.C84_killed
#print axioms Verif.LockWait.C84_answer
#print axioms Verif.LockWait.C84_forever_refuted
#print axioms Verif.LockWait.C84_unasked_refuted
#print axioms Verif.Redirect.C85_contents_partial
#print axioms Verif.Redirect.C85_asserts
#print axioms Verif.Redirect.C85_open
#print axioms Verif.Redirect.C85_refused
#print axioms Verif.Redirect.C85_possible
#print axioms Verif.Redirect.C85_files_partial
#print axioms Verif.Redirect.C85_after_checkpoint_partial
#print axioms Verif.Redirect.C85_checkpoint
#print axioms Verif.Redirect.C85_two_loaders_refuted
#print axioms Verif.Redirect.C85_leak_refuted
#print axioms Verif.Fsize.C86_blocks_partial
#print axioms Verif.Fsize.C86_one_at_a_time
#print axioms Verif.Fsize.C86_asserts
#print axioms Verif.Fsize.C86_inside
#print axioms Verif.Fsize.C86_growth
#print axioms Verif.Fsize.C86_grown
#print axioms Verif.Fsize.C86_shrinking
#print axioms Verif.Fsize.C86_shrink_starts
#print axioms Verif.Fsize.C86_progress
#print axioms Verif.Fsize.C86_stale_limit_refuted
#print axioms Verif.FullWrite.C87_full_write_partial
#print axioms Verif.FullWrite.C87_torn
#print axioms Verif.FullWrite.C87_returns
#print axioms Verif.FullWrite.C87_stops
#print axioms Verif.FullWrite.C87_counters
#print axioms Verif.FullWrite.C87_reports
#print axioms Verif.FullWrite.C87_os_write
#print axioms Verif.FullWrite.C87_os_write_returns
#print axioms Verif.FullWrite.C87_fsync
#print axioms Verif.FullWrite.C87_durable
#print axioms Verif.FullWrite.C87_report_repaired
#print axioms Verif.FullWrite.C87_interrupted_refuted
#print axioms Verif.FullWrite.C87_zero_refuted
#print axioms Verif.FullWrite.C87_report_refuted
#print axioms Verif.Dbt.C88_values_partial
#print axioms Verif.Dbt.C88_result
#print axioms Verif.Dbt.C88_malloc
#print axioms Verif.Dbt.C88_realloc
#print axioms Verif.Dbt.C88_no_memory
#print axioms Verif.Dbt.C88_no_memory_refuted
#print axioms Verif.Verify.C89_verified_partial
#print axioms Verif.Verify.C89_exact
#print axioms Verif.Verify.C89_no_false_alarm
#print axioms Verif.Verify.C89_keep_going
#print axioms Verif.Verify.C89_callback
#print axioms Verif.Verify.C89_result
#print axioms Verif.Verify.C89_crash
#print axioms Verif.Verify.C89_update_refuted
#print axioms Verif.Open.C90_open_partial
#print axioms Verif.Open.C90_history
#print axioms Verif.Open.C90_no_recover
#print axioms Verif.Open.C90_upgrade
#print axioms Verif.Open.C90_refused
#print axioms Verif.Open.C90_new
#print axioms Verif.Open.C90_incomplete
#print axioms Verif.Open.C90_lost_rollback_refuted
#print axioms Verif.Open.C90_new_refuted
#print axioms Verif.Space.C91_refused_partial
#print axioms Verif.Space.C91_low
#print axioms Verif.Space.C91_state
#print axioms Verif.Space.C91_counted
#print axioms Verif.Space.C91_fixed
#print axioms Verif.Space.C91_warned
#print axioms Verif.Space.C91_rare
#print axioms Verif.Space.C91_update_multiple_refuted
#print axioms Verif.Space.C91_overflow_refuted
#print axioms Verif.Space.C91_twelfth_refuted
#print axioms Verif.Space.C91_silent_refuted
#print axioms Verif.Bulk.C92_call
#print axioms Verif.Bulk.C92_scan_partial
#print axioms Verif.Bulk.C92_position_partial
#print axioms Verif.Bulk.C92_wait
#print axioms Verif.Bulk.C92_bounds
#print axioms Verif.Bulk.C92_skipped_refuted
#print axioms Verif.Bulk.C92_error_refuted
#print axioms Verif.Bulk.C92_position_refuted
#print axioms Verif.Bulk.C92_bounds_again_refuted
#print axioms Verif.Bulk.C92_outside_refuted
#print axioms Verif.Tables.C93_safe
#print axioms Verif.Tables.C93_shared
#print axioms Verif.Tables.C93_found
#print axioms Verif.Tables.C93_refs
#print axioms Verif.Tables.C93_freed
#print axioms Verif.Tables.C93_ends
#print axioms Verif.Tables.C93_reported
#print axioms Verif.Tables.C93_reported_partial
#print axioms Verif.Tables.C93_reported_refuted
#print axioms Verif.Tables.C93_waiting
#print axioms Verif.Tables.C93_woken
#print axioms Verif.Tables.C93_refused_partial
#print axioms Verif.Tables.C93_alone
#print axioms Verif.Tables.C93_refused_refuted
#print axioms Verif.Tables.C93_spurious_refuted
#print axioms Verif.Qlz.C94_back
#print axioms Verif.Qlz.C94_fits
#print axioms Verif.Qlz.C94_default
#print axioms Verif.Qlz.C94_library
#print axioms Verif.Qlz.C94_long_refuted
#print axioms Verif.Qlz.C94_damaged_refuted
#print axioms Verif.Recount.C95_counted
#print axioms Verif.Recount.C95_rows_partial
#print axioms Verif.Recount.C95_enough
#print axioms Verif.Recount.C95_last
#print axioms Verif.Recount.C95_cancel_partial
#print axioms Verif.Recount.C95_progress
#print axioms Verif.Recount.C95_rows_refuted
#print axioms Verif.Recount.C95_empty_refuted
#print axioms Verif.Recount.C95_cancel_refuted
#print axioms Verif.Recount.C95_code_refuted
#print axioms Verif.Recount.C95_changed_refuted
#print axioms Verif.LoadErr.C96_once
#print axioms Verif.LoadErr.C96_after
#print axioms Verif.LoadErr.C96_noted
#print axioms Verif.LoadErr.C96_close_partial
#print axioms Verif.LoadErr.C96_stays
#print axioms Verif.LoadErr.C96_failed
#print axioms Verif.LoadErr.C96_close_refuted
#print axioms Verif.LoadErr.C96_first_refuted
#print axioms Verif.LoadErr.C96_key_refuted
#print axioms Verif.LoadErr.C96_silent_refuted
#print axioms Verif.Nest.C97_chain
#print axioms Verif.Nest.C97_names
#print axioms Verif.Nest.C97_begin
#print axioms Verif.Nest.C97_refused
#print axioms Verif.Nest.C97_nesting
#print axioms Verif.Nest.C97_find
#print axioms Verif.Nest.C97_replayed
#print axioms Verif.Nest.C97_recovered_partial
#print axioms Verif.Nest.C97_recovered_refuted
#print axioms Verif.Par.C98_complete
#print axioms Verif.Par.C98_once
#print axioms Verif.Par.C98_threads
#print axioms Verif.Par.C98_goes_on
#print axioms Verif.Par.C98_ends
#print axioms Verif.Par.C98_error
#print axioms Verif.Par.C98_asked
#print axioms Verif.Pool.C99_one_hand
#print axioms Verif.Pool.C99_given
#print axioms Verif.Pool.C99_work
#print axioms Verif.Pool.C99_bound
#print axioms Verif.Pool.C99_sleep
#print axioms Verif.Pool.C99_goes_on
#print axioms Verif.Pool.C99_ends
#print axioms Verif.Pool.C99_rest
