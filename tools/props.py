# Generates properties.jsonl (one JSON object per line).
import json
P=[]
def p(id,title,statement,quantifier,why,anchors):
    P.append(dict(id=id,title=title,statement=statement,quantifier=quantifier,why_tests_cant=why,anchors=anchors))

p("C01","Abort restores the row",
 "If a transaction (at any nesting depth) writes a row any number of times with put/put-no-overwrite/del and then aborts, every later read of that row by anybody returns exactly what it would have returned had the aborted transaction never touched the row.",
 "every well-formed row history, every nesting chain of transaction ids, every finite sequence of writes by the aborting transaction",
 "the row keeps a version stack whose shape depends on the whole history of nested transactions; tests sample a few shapes",
 ["ft/ule.cc: ule_apply_insert, ule_apply_delete, ule_apply_abort, ule_prepare_for_new_uxr, ule_remove_innermost_placeholders"])
p("C02","Nested commit hands the row to the parent",
 "When a nested transaction commits, the row value its parent reads becomes the value the child last wrote; if the parent then aborts, the row goes back to its value before the parent began; if the whole chain commits, the value becomes the newest committed version.",
 "every row history, every nesting depth, every sequence of child writes",
 "depth and interleaving of commits are unbounded",
 ["ft/ule.cc: ule_apply_commit, ule_promote_provisional_innermost_to_index, ule_promote_provisional_innermost_to_committed"])
p("C03","Snapshot reads are repeatable",
 "A snapshot transaction that reads the same key twice gets the same answer both times, whatever other transactions begin, write, commit or abort in between and whatever garbage collection runs in between.",
 "every interleaving of begin, write, commit, abort and garbage collection by any number of transactions",
 "it is a statement about all schedules and all histories",
 ["ft/ule.cc: le_extract_val, le_iterate_val, ule_garbage_collect, ule_simple_garbage_collection","ft/txn/txn.cc: toku_txn_reads_txnid","ft/txn/txn_manager.cc: toku_txn_manager_start_txn, toku_txn_manager_finish_txn"])
p("C04","Garbage collection is invisible",
 "Discarding old committed versions of a row never changes the value any live snapshot transaction, or any transaction begun later, reads from that row.",
 "every row version stack, every set of live transactions, live snapshots and referenced committed transactions reachable in the transaction manager",
 "whether a version is needed depends on the complete history of begins and ends",
 ["ft/ule.cc: ule_garbage_collect, ule_simple_garbage_collection, toku_le_garbage_collect, xid_reads_committed_xid, get_next_older_txnid","ft/txn/txn_manager.cc: toku_get_youngest_live_list_txnid_for"])
p("C05","A snapshot sees exactly what was committed before it",
 "A snapshot transaction accepts the version written by a (root) transaction iff that transaction is itself, or had finished before the snapshot was taken; it never accepts a version from a transaction that was still live at, or began after, the snapshot.",
 "every history of begins and ends and every pair (reader, writer)",
 "it quantifies over all schedules",
 ["ft/txn/txn.cc: toku_txn_reads_txnid","ft/txn/txn_manager.cc: toku_txn_manager_start_txn, setup_live_root_txn_list"])
p("C06","Read-committed never exposes uncommitted data",
 "A read-committed read of a row returns either the reader's own latest write or the newest committed version, never another transaction's uncommitted write.",
 "every row history, every reader",
 "depends on every possible provisional stack",
 ["ft/ule.cc: le_extract_val, le_iterate_read_committed_callback, le_iterate_get_accepted_index"])
p("C07","Row encoding round-trip",
 "Encoding a row's version stack into its stored bytes and decoding it again yields the same version stack, for committed-only rows, rows with uncommitted data and nested transactions; a row with no surviving insert is stored as absent.",
 "every well-formed version stack with values shorter than 2^31 bytes and at most 253 nested records",
 "the format has many shape-dependent branches; value bytes are arbitrary",
 ["ft/ule.cc: le_pack, le_unpack, pack_u8, uxr_pack_*, uxr_unpack_*"])
p("C08","Reads straight from the stored bytes agree with the decoded row",
 "The queries answered directly on the stored bytes (latest value, is-deleted, outermost uncommitted transaction id, snapshot/read-committed value, total size) equal the answers computed from the decoded version stack.",
 "every well-formed version stack",
 "each accessor walks the byte layout independently",
 ["ft/ule.cc: le_latest_is_del, le_latest_val_and_len, le_latest_vallen, le_outermost_uncommitted_xid, le_iterate_val, le_iterate_is_del, leafentry_memsize, leafentry_rest_memsize, le_memsize_from_ule"])
p("C09","Insert-no-overwrite never changes an existing row",
 "A put with no-overwrite on a row whose newest version is a live value leaves the row unchanged and reports it; on a missing or deleted row it behaves exactly like put.",
 "every row history and transaction stack",
 "depends on arbitrary version stacks",
 ["ft/ule.cc: ule_apply_insert_no_overwrite"])
p("C10","Implicit promotion equals the explicit commits it stands for",
 "When a message from a transaction chain reaches a row that still carries provisional versions of finished descendants or of a finished other transaction, the automatic promotion yields the same row as the missing commit messages would have yielded.",
 "every provisional stack and every incoming transaction chain",
 "the number of nested levels and the point of divergence are arbitrary",
 ["ft/ule.cc: ule_do_implicit_promotions, ule_try_promote_provisional_outermost, ule_optimize"])
p("C11","No operation overflows or corrupts the version stack",
 "From an empty row, any sequence of messages from well-formed transaction chains keeps the version stack well formed (at least one committed version, provisional ids a chain of nested transactions, innermost provisional a real value) and within the fixed array bounds; no internal assertion can fire.",
 "every sequence of messages whose transaction chains obey the nesting limit",
 "bounds must hold after arbitrarily many operations",
 ["ft/ule.cc: toku_le_apply_msg, msg_modify_ule, ule_push_*_uxr, ule_prepare_for_new_uxr","ft/txn/xids.cc: toku_xids_can_create_child"])
p("C12","Transaction nesting limit",
 "A child transaction can be created iff the chain stays below 253 levels; past that the call fails with EINVAL and nothing changes. The chain serialised with a message decodes to the same chain.",
 "every chain of transaction ids",
 "boundary plus arbitrary ids",
 ["ft/txn/xids.cc: toku_xids_can_create_child, toku_xids_create_child, toku_xids_create_from_buffer, wbuf_nocrc_xids"])
p("C13","Row and byte counts track the rows",
 "After any sequence of messages applied to a leaf, the leaf's row count equals the number of rows stored in it and (for comparators under which equal keys have equal length) its byte count equals the sum of key and newest-value lengths.",
 "every sequence of messages",
 "drift would only show after particular long histories",
 ["ft/node.cc: toku_ft_bn_apply_msg_once","ft/ule.cc: toku_le_apply_msg"])
p("C14","Logical row-count deltas",
 "The logical row-count adjustment reported when a message is applied equals the change in whether the newest version of the row is a live value, assuming the sender counted every put as +1 and every del as -1.",
 "every row and message",
 "depends on arbitrary version stacks",
 ["ft/ule.cc: toku_le_apply_msg, ule_apply_insert, ule_apply_delete, ule_apply_abort","ft/ft-ops.cc: toku_ft_root_put_msg"])
p("C15","Transaction ids are unique and increasing",
 "Every id handed out (transaction ids, snapshot ids, end ids) is larger than all ids handed out before, in the run and in the log recovered from.",
 "every schedule of begin/finish/recovery calls",
 "unbounded histories",
 ["ft/txn/txn_manager.cc: toku_txn_manager_start_txn, toku_txn_manager_start_txn_for_recovery, toku_txn_manager_finish_txn, set_last_xid_from_*"])
p("C16","Referenced-transaction bookkeeping is exact",
 "The table of finished transactions that some live snapshot must still treat as live contains exactly those transactions, each with the exact number of such snapshots, whichever of the two removal strategies is used at each step.",
 "every schedule of begins and ends of read-only, read-write and snapshot transactions",
 "counts could drift only on particular interleavings",
 ["ft/txn/txn_manager.cc: txn_manager_remove_snapshot_unlocked, note_snapshot_txn_end_by_ref_xids, note_snapshot_txn_end_by_txn_live_list, toku_txn_manager_finish_txn, verify_snapshot_system"])
p("C17","Oldest-referenced id is a lower bound",
 "The 'oldest referenced' id used to collapse versions early is never larger than any id a live transaction, a live snapshot or a still-referenced finished transaction can distinguish.",
 "every reachable transaction-manager state",
 "schedules are unbounded",
 ["ft/txn/txn_manager.cc: set_oldest_referenced_xid, toku_txn_manager_get_oldest_referenced_xid_estimate"])
p("C18","Transaction begin validates isolation and flags",
 "txn_begin accepts exactly the documented flag combinations; a child always runs with its parent's isolation level and is read-only exactly if its parent is; asking for a read-only child of a writable parent, a second child, another level than the parent's, several levels at once or an unknown flag is refused, as is a writable child deeper than 253 levels; a refusal returns EINVAL without creating a transaction or changing anything.",
 "every 32-bit flag word, every parent in every reachable state",
 "2^32 flag words times parent states",
 ["src/ydb_txn.cc: toku_txn_begin"])
p("C19","XA recover lists each prepared transaction once",
 "Repeated calls to the prepared-transaction listing (first, then next) return every prepared-but-undecided transaction exactly once, in batches of any size of at least one, whatever other threads do between the calls, as long as only one listing is under way.",
 "every set of live transactions, every sequence of batch sizes, every begin, prepare and end between the calls",
 "list sizes and batch sizes are unbounded",
 ["ft/txn/txn_manager.cc: toku_txn_manager_recover_root_txn"])
p("C20","Row locks exclude each other",
 "At no time do two different transactions hold locks on a common key of one dictionary, for any sequence of lock acquisitions, releases and escalations, with or without the single-transaction optimisation. Requests range over what the lock record can represent: keys under 65536 bytes, and a right end that is neither minus infinity nor, unless the left end is too, the empty key (see C27).",
 "every sequence of locktree operations by any number of transactions with arbitrary ranges",
 "unbounded histories of ranges",
 ["locktree/locktree.cc: acquire_lock, acquire_lock_consolidated, sto_try_acquire, release_locks, escalate"])
p("C21","A granted lock is held until released",
 "Once a lock on a range is granted, every key in it stays locked by that transaction until the transaction releases its locks, through consolidation, migration out of the single-transaction buffer and escalation. Requests range over what the lock record can represent: keys under 65536 bytes, and a right end that is neither minus infinity nor, unless the left end is too, the empty key (see C27).",
 "every sequence of operations",
 "escalation and consolidation rewrite the tree arbitrarily often",
 ["locktree/locktree.cc: acquire_lock_consolidated, sto_migrate_buffer_ranges_to_tree, escalate"])
p("C22","Lock requests fail exactly on conflict",
 "A lock request is granted iff no other transaction holds a lock overlapping the range; if refused, the reported conflict set is exactly the set of other transactions owning an overlapping lock. Requests range over what the lock record can represent: keys under 65536 bytes, and a right end that is neither minus infinity nor, unless the left end is too, the empty key (see C27).",
 "every locktree state and request",
 "arbitrary overlap patterns",
 ["locktree/locktree.cc: determine_conflicting_txnids, iterate_and_get_overlapping_row_locks, get_conflicts"])
p("C23","Releasing removes every lock of the transaction and no other",
 "After a transaction releases the ranges it acquired, it holds no lock and all other transactions hold exactly what they held before. Requests range over what the lock record can represent: keys under 65536 bytes, and a right end that is neither minus infinity nor, unless the left end is too, the empty key (see C27).",
 "every sequence of operations",
 "consolidated and escalated ranges no longer match the released ranges",
 ["locktree/locktree.cc: release_locks, remove_overlapping_locks_for_txnid, sto_try_release"])
p("C24","The range tree answers overlap queries exactly",
 "Whatever insertions, removals and rebalancing rotations happened, a traversal for a range visits exactly the stored ranges overlapping it, in key order.",
 "every sequence of tree operations",
 "tree shapes are unbounded",
 ["locktree/treenode.cc: insert, remove, remove_root_of_subtree, maybe_rebalance, traverse_overlaps, find_node_with_overlapping_child","locktree/concurrent_tree.cc: acquire, iterate"])
p("C25","Deadlock detection is exact",
 "A lock request is failed with DB_LOCK_DEADLOCK iff the waits-for relation among pending requests contains a cycle through the requesting transaction.",
 "every waits-for graph",
 "graphs are unbounded",
 ["locktree/wfg.cc: cycle_exists_from_node, add_edge","locktree/lock_request.cc: build_wait_graph, deadlock_exists"])
p("C26","No lost wake-up of lock waiters",
 "Every lock release is followed by a retry of the requests pending at the time of the release, by some thread, whatever the interleaving of concurrent releasers.",
 "every interleaving of any number of releasing threads",
 "schedule-dependent",
 ["locktree/lock_request.cc: retry_all_lock_requests, retry_all_lock_requests_info, start, wait"])
p("C27","The lock-range buffer returns what was appended",
 "Iterating a transaction's range buffer yields exactly the (left,right) pairs appended, in order, including infinite endpoints and empty keys.",
 "every sequence of appended ranges",
 "keys are arbitrary byte strings, including empty ones",
 ["locktree/range_buffer.cc: append, append_point, append_range, iterator::current, iterator::next, record::deserialize"])
p("C28","Block allocator never double-allocates",
 "Blocks handed out by the allocator are aligned, lie beyond the reserved header area, never overlap a block still in use, and allocation always succeeds; freeing makes exactly the freed bytes available again.",
 "every sequence of allocations and frees",
 "fragmentation histories are unbounded",
 ["ft/serialize/block_allocator.cc: AllocBlock, FreeBlock, CreateFromBlockPairs","ft/serialize/rbtree_mhs.cc: Insert, Remove, SearchFirstFitBySize"])
p("C29","First-fit search over the hole tree is exact",
 "The allocation search returns the lowest-offset hole that can fit the request at the required alignment; the per-subtree maximum-hole summaries it relies on stay exact through insertions, removals, merges and rotations.",
 "every reachable hole tree and size",
 "tree shapes are unbounded",
 ["ft/serialize/rbtree_mhs.cc: SearchFirstFitBySizeHelper, RecalculateMhs, LeftRotate, RightRotate, AbsorbNewNode, RawRemove"])
p("C30","A crash never loses the last completed checkpoint",
 "At every moment, every disk block referenced by the last completed checkpoint is still allocated and has not been overwritten; so a crash at any point can restart from it.",
 "every interleaving of block writes, frees and checkpoint begin/end, every crash point",
 "crash points and interleavings are unbounded",
 ["ft/serialize/block_table.cc: _realloc_on_disk_internal, _free_blocknum_unlocked, _translation_prevents_freeing, note_start_checkpoint_unlocked, note_end_checkpoint"])
p("C31","Block numbers are not handed out twice",
 "Allocating a block number never returns one that is in use; freed numbers are reused only after being freed.",
 "every sequence of allocate/free/checkpoint calls",
 "free-list histories are unbounded",
 ["ft/serialize/block_table.cc: _allocate_blocknum_unlocked, _free_blocknum_in_translation, _maybe_optimize_translation"])
p("C32","After a crash the newest complete header is used",
 "Opening a dictionary after a crash at any point of a header write selects the newest header that was completely written; a torn header is never selected over a good one.",
 "every crash point of every sequence of checkpoints",
 "crash points",
 ["ft/serialize/ft-serialize.cc: toku_deserialize_ft_from, deserialize_ft_from_fd_into_rbuf","ft/ft.cc: ft_checkpoint, ft_begin_checkpoint, ft_end_checkpoint"])
p("C33","Buffered writes read back bit-exactly",
 "Every sequence of integers, byte strings and block numbers written to an on-disk buffer is read back equal, and the running checksum equals the one-shot checksum of the written bytes however the writes were chunked.",
 "every sequence of values and chunkings",
 "arbitrary chunk boundaries",
 ["ft/serialize/wbuf.h","ft/serialize/rbuf.h","util/x1764.cc: toku_x1764_add, toku_x1764_finish, toku_x1764_memory"])
p("C34","Message buffers survive serialisation",
 "Writing a node's message buffer to disk and reading it back gives the same messages in the same order, with the same fresh/stale classification.",
 "every message buffer",
 "arbitrary message contents",
 ["ft/msg_buffer.cc: serialize_to_wbuf, deserialize_from_rbuf","ft/node.cc: bnc_insert_msg","ft/msg.cc: serialize_to_wbuf, deserialize_from_rbuf"])
p("C35","A query sees every earlier write exactly once",
 "The value a point query returns is the result of applying all messages sent to that key, each exactly once and in the order sent, no matter how messages are spread over the buffers of the tree, which were already flushed, and which were already applied to the leaf in memory.",
 "every tree shape, every distribution of messages over ancestors and leaf, every order of flushes, splits, merges and queries",
 "the space of flush schedules is unbounded",
 ["ft/node.cc: toku_apply_ancestors_messages_to_node, bnc_apply_messages_to_basement_node, do_bn_apply_msg, toku_ft_leaf_apply_msg","ft/ft-flusher.cc: toku_bnc_flush_to_child, toku_ft_flush_some_child","ft/ft-ops.cc: inject_message_in_locked_node, toku_ft_root_put_msg"])
p("C36","Keys are routed to the unique child that owns them",
 "For sorted pivots, the child chosen for a key is the one whose pivot interval contains the key; equal keys go left.",
 "every pivot list and key",
 "unbounded fanout",
 ["ft/node.cc: toku_ftnode_which_child","ft/pivotkeys.cc"])
p("C37","Splits and merges preserve contents",
 "Splitting a node, merging siblings and rebalancing basements neither lose nor duplicate nor reorder any row or buffered message, and the resulting pivots separate the parts.",
 "every node contents",
 "sizes are unbounded",
 ["ft/ft-flusher.cc: ftleaf_split, ft_nonleaf_split, merge_leaf_nodes, ft_merge_child, handle_split_of_child","ft/node.cc: toku_ftnode_leaf_rebalance"])
p("C38","Ordered containers behave as a sequence",
 "The ordered container used throughout (OMT) behaves as a list: insert-at, insert by comparison, set-at, delete-at, fetch, find by monotone comparison in either direction, iteration over ranges, changes in place, marking and deletion of what is marked, split, clone and merge agree with the list operations regardless of internal representation changes (array/tree) and rebalancing; no internal assertion fails; trees stay of logarithmic depth.",
 "every sequence of operations of any length",
 "representation switches and rebalancing depend on history",
 ["util/omt.cc: create, insert, insert_at, delete_at, set_at, fetch, find_zero, find, iterate_on_range, iterate_and_mark_range, iterate_over_marked, delete_all_marked, iterate_ptr, split_at, merge, clone, maybe_resize_or_convert, rebalance"])
p("C39","Log records round-trip in both directions",
 "Every log record written is read back with equal fields by the forward reader and by the backward reader; a cursor moved forward and backward visits exactly the records of the log in order; a truncated or damaged record is reported rather than returned, and one at the end of the log is removed.",
 "every record content, every division of the log into files, every sequence of moves, every cut of the last record",
 "fields are arbitrary",
 ["ft/logger/logformat.cc: generate_log_writer, generate_log_reader, generate_dispatch","ft/logger/logger.cc: toku_fread_*, toku_read_logmagic","ft/logger/logcursor.cc: toku_logcursor_next, toku_logcursor_prev, toku_logcursor_first, toku_logcursor_last, lc_fix_bad_logfile"])
p("C40","Log sequence numbers are strictly increasing and durability is honoured",
 "Each record gets the next log sequence number and the log holds every record whole, once and in that order; when a call that logs a record with fsync, or waits for the log up to a record (as a commit does), returns, that record and all earlier ones are on disk and stay there until the log is trimmed above them.",
 "every interleaving of any number of logging, waiting, flushing and trimming threads, and every crash",
 "schedules",
 ["ft/logger/logger.cc: toku_logger_make_space_in_inbuf, toku_logger_maybe_fsync, swap_inbuf_outbuf, write_outbuf_to_logfile, toku_logger_fsync_if_lsn_not_fsynced"])
p("C41","Committed transactions survive a crash; uncommitted ones vanish",
 "Recovery from the log cut at any point after the last complete checkpoint yields, in the rows of every open dictionary, exactly the effects of transactions whose commit record is in the surviving log, plus prepared transactions in their prepared state.",
 "every log, every cut point, every checkpoint position",
 "crash points and histories are unbounded",
 ["ft/logger/recover.cc: do_recovery, toku_recover_*, recover_*_scan","ft/txn/txn.cc"])
p("C42","Rollback undoes in reverse order",
 "Aborting a transaction applies the inverse of its recorded actions newest first, including actions inherited from committed children and actions spilled to rollback nodes, each exactly once; committing a root transaction completes the same actions in the same order; committing a child does neither. Afterwards no rollback space stays in use by the transaction.",
 "every sequence of actions, nested commits and spills",
 "unbounded lists",
 ["ft/txn/rollback-apply.cc: apply_txn, toku_rollback_commit, toku_rollback_abort, rollback_log_node chain","ft/txn/roll.cc"])
p("C43","Reader/writer lock exclusion",
 "The lock of nodes never admits a writer together with any other holder, provided waits end only when signalled; while a thread waits, somebody holds the lock or has been told to go on, nobody who asks later gets it at once, and the number of turns before its own never grows; when nobody asks any more, everybody who waits gets it; a reader is not blocked while only readers hold the lock and no writer waits. The lock of disk copies has exclusion and loses no wakeup even if waits end at any time, and readers wait for waiting writers.",
 "every interleaving of lock, unlock and try-lock calls",
 "schedules",
 ["util/frwlock.cc","util/rwlock.h"])
p("C44","A bulk load contains exactly its rows",
 "If closing a bulk loader succeeds, every put had succeeded and the dictionary is a well-formed search tree that holds, in key order, exactly the rows generated for the rows put: each is found by its key, nothing else is. Rows with distinct keys and admissible sizes are always loaded, in whatever order they are put and however they are cut into sorted runs and merge passes. An error has its cause in the rows, equal keys are never loaded, and are reported as an error with a row that occurs twice.",
 "every sequence of rows put, every schedule of the extractor thread, all memory budgets, merge widths and node sizes",
 "unbounded inputs, many ways of cutting them into runs and passes",
 ["ft/loader/pqueue.cc","ft/loader/loader.cc: toku_ft_loader_put, extractor_thread, process_primary_rows_internal, mergesort_row_array, merge_row_arrays_base, sort_and_write_rows, merge_files, toku_merge_some_files_using_dbufio, toku_loader_write_ft_from_q, write_nonleaves, toku_ft_loader_close"])
p("C45","Closing locks memory to zero",
 "The memory charged for row locks equals the memory of the locks currently stored and returns to what it was when all locks are released; the charge never underflows. Requests range over what the lock record can represent: keys under 65536 bytes, and a right end that is neither minus infinity nor, unless the left end is too, the empty key (see C27).",
 "every sequence of locktree operations",
 "histories",
 ["locktree/locktree.cc: insert_row_lock_into_tree, remove_row_lock_from_tree, sto_append, sto_end, sto_migrate_buffer_ranges_to_tree","locktree/manager.cc: note_mem_used, note_mem_released"])
p("C46","A checkpoint captures one consistent instant",
 "The disk image written by a checkpoint contains, for every node, the contents it had when the checkpoint began, with changes then under way included completely or not at all for all nodes they touch together, even though nodes keep being pinned, changed, created, removed, read and evicted by other threads while it is written. No change is lost by eviction, whoever pins a node sees its latest contents, and the checkpoint can always be finished.",
 "every interleaving of any number of threads that pin, change, create, remove, read, prefetch and evict nodes, of background writes and of checkpoint steps",
 "schedules",
 ["ft/cachetable/cachetable.cc: begin_checkpoint, checkpoint_pending_pairs, write_locked_pair_for_checkpoint, cachetable_get_and_pin, evictor"])
p("C47","The fragmentation report describes the file",
 "DB->get_fragmentation reports as unused exactly the space inside the file that no block uses, and as largest unused block the largest such contiguous space.",
 "every history of block allocations and frees",
 "fragmentation histories are unbounded",
 ["ft/serialize/block_allocator.cc: UnusedStatistics, VisUnusedCollector","buildheader/make_tdb.cc: TOKU_DB_FRAGMENTATION"])
p("C48","Checkpointing and block management never stop the server",
 "No sequence of node allocations, writes, frees and checkpoints makes the block table fail one of its own assertions: every operation whose documented preconditions hold completes.",
 "every history of block-number and checkpoint operations, with crashes at any point",
 "the failing histories depend on coincidences between block numbers and disk offsets that only large dictionaries reach",
 ["ft/serialize/block_table.cc: note_end_checkpoint, _translation_prevents_freeing, _realloc_on_disk_internal, _free_blocknum_unlocked, note_start_checkpoint_unlocked"])
p("C49","No disk space is lost",
 "Every byte of a dictionary's file beyond its header is either available for allocation or part of a block that the current state, the last checkpoint or the checkpoint in progress uses.",
 "every history of block-number and checkpoint operations, with crashes at any point",
 "leaks show only after histories that hit particular numbers",
 ["ft/serialize/block_table.cc: note_end_checkpoint, _translation_prevents_freeing, create_from_buffer"])
p("C50","Reading a damaged buffer stays inside it",
 "Decoding any bytes found on disk, damaged or not, never looks at memory outside the buffer: it either yields values or stops.",
 "every byte string and every sequence of fields to decode",
 "the damage is arbitrary; the failing lengths lie within a few bytes of 2^32",
 ["ft/serialize/rbuf.h: rbuf_char, rbuf_int, rbuf_network_int, rbuf_literal_bytes, rbuf_bytes, rbuf_BYTESTRING, rbuf_ma_BYTESTRING"])
p("C51","Dictionaries of every supported older format can be opened",
 "The header of a dictionary file of any layout version from 13 to 29 that is intact is read; no supported version is refused or stops the server.",
 "every layout version and every content of the header",
 "no dictionaries of the old versions are at hand for tests",
 ["ft/serialize/ft-serialize.cc: serialize_ft_min_size, deserialize_ft_versioned, deserialize_ft_from_fd_into_rbuf"])
p("C52","The block table read at open is the one the checkpoint wrote",
 "At every checkpoint of every history, the table of block locations written to disk, read back from the place the header names, is exactly the table of that checkpoint, so every node is found where the checkpoint put it; a table whose checksum does not match is refused with an error.",
 "every block table and every history of block and checkpoint operations (tables under 4 GB, files under 2^63 bytes)",
 "tables of any size and content",
 ["ft/serialize/block_table.cc: serialize_translation_to_wbuf, _translation_deserialize_from_buffer, _calculate_size_on_disk","ft/serialize/ft-serialize.cc: deserialize_ft_versioned"])
p("C54","A cursor move finds the nearest row",
 "First, last, next, previous and range moves return the nearest key, in the direction of the move, whose row the reader may see, or report that there is none; other threads rearranging the tree between the attempts of a move change nothing, and messages arriving meanwhile are either seen or not but never make the move skip a row that was visible all along. A move left alone ends.",
 "every tree any history builds, every move, every visibility, every interleaving of other work between the attempts of the move",
 "the rows a move crosses may be hidden, buffered, unread from disk or moved, in any combination",
 ["ft/ft-ops.cc: toku_ft_search, ft_search_node, ft_search_basement_node, toku_ft_search_which_child, maybe_search_save_bound, search_try_again","ft/cursor.cc: ft_cursor_compare_next, ft_cursor_compare_prev, ft_cursor_compare_set_range, ft_cursor_compare_set_range_reverse"])
p("C55","A transaction ends together with the ones begun inside it",
 "Commit or abort of a transaction ends it and every transaction inside it, the innermost first; each of them that changed anything gets one commit or abort record in that order; no other transaction is touched and the parent can begin another child. After an abort none of the changes made inside survives. A row operation is refused exactly on a read-only transaction and on one with an open child; discarding forgets exactly one prepared transaction. A client that uses only open handles, prepares at most once and does not discard a parent never stops the program.",
 "every history of begins, commits, aborts, prepares, discards, row operations and locks, every nesting, every flag word",
 "depth of nesting and histories are unbounded",
 ["src/ydb_txn.cc: toku_txn_commit, toku_txn_abort, toku_txn_xa_prepare, toku_txn_discard","ft/txn/txn.cc: toku_txn_commit_with_lsn, toku_txn_abort_with_lsn, toku_txn_complete_txn"])
p("C56","A commit that was not waived is on disk when it returns",
 "When the commit of a root transaction with surviving changes returns success, and the client waived durability neither when beginning nor when committing, its commit record and everything before it is on disk, and stays there; with DB_TXN_SYNC also if waived. A nested commit with DB_TXN_SYNC makes the commit of its root parent durable. The same holds for prepare.",
 "every history, every nesting, every flag word",
 "needs power loss after each possible commit",
 ["src/ydb_txn.cc: toku_txn_commit, toku_txn_xa_prepare","ft/txn/txn.cc: toku_txn_commit_with_lsn, toku_txn_maybe_fsync_log, toku_txn_force_fsync_on_commit","ft/txn/rollback-apply.cc: toku_rollback_commit"])
p("C57","Row locks last until the outermost transaction has ended",
 "A row lock taken by a nested transaction is held by its root; no end of a nested transaction, commit or abort, gives up any lock; locks are released exactly when the root ends, and only after it has left the set of running transactions.",
 "every history, every nesting",
 "the wrong order shows only to another thread that runs between two instructions",
 ["src/ydb_row_lock.cc: toku_db_get_range_lock, db_txn_note_row_lock, toku_db_release_lt_key_ranges","src/ydb_txn.cc: toku_txn_release_locks, toku_txn_commit"])
p("C58","A commit with wrong flags harms at most its own transaction",
 "A commit called with flags it does not know returns EINVAL, having at most aborted the transaction it was called on and those inside it; the environment and every other transaction go on.",
 "every reachable state, every flag word",
 "2^32 flag words times nesting states",
 ["src/ydb_txn.cc: toku_txn_commit"])
p("C59","Flushing the log makes everything logged before it durable",
  "When DB_ENV->log_flush returns, every record logged before the call is on disk, whatever other threads are logging at the time.",
  "every interleaving of any number of logging, flushing and trimming threads, and every crash afterwards","schedules and crash points",
  ["ft/logger/logger.cc: toku_logger_fsync, toku_logger_maybe_fsync, swap_inbuf_outbuf"])
p("C60","A leaf keeps exactly its rows",
 "The rows of a part of a leaf are exactly those put there: after every sequence of inserts, overwrites, deletes, splits, bulk builds, copies for a checkpoint, and writes to disk and reads back, every row has its key and all its versions byte for byte, in order; the size reported is their size; no memory outside the leaf is touched and no check fails.",
 "every sequence of calls on any number of leaf parts, keys and records of any sizes (each part under 512 MiB), every order of growth, fragmentation and compaction",
 "memory is compacted, packed and unpacked at sizes that depend on the whole history",
 ["ft/bndata.cc: get_space_for_insert, get_space_for_overwrite, delete_leafentry, dmt_compress_kvspace, split_klpairs, set_contents_as_clone_of_sorted_array, clone, serialize_to_wbuf, deserialize_from_rbuf","util/mempool.cc: toku_mempool_malloc, toku_mempool_mfree, toku_mempool_clone","util/dmt.cc: insert_at, delete_at, prepare_for_serialize, serialize_values, create_from_sorted_memory_of_fixed_size_elements"])
p("C61","The keys that divide a node are the keys given",
 "The pivots of a node are exactly the keys put there, whatever their lengths: after every sequence of inserts, replacements, deletes, merges, splits, copies and writes to disk and reads back each pivot is read as it was given, the reported size is theirs, and nothing stops the server.",
 "every sequence of calls on any number of nodes, every key",
 "the packed form is entered and left depending on the lengths of all keys",
 ["ft/pivotkeys.cc: create_from_dbts, create_from_pivot_keys, insert_at, append, replace_at, delete_at, split_at, serialize_to_wbuf, deserialize_from_rbuf"])
p("C53","A node comes back from disk as it was written",
 "Whatever rows, messages and keys a node of a dictionary holds, writing it and reading it back gives the same node: every row with all its versions, every message in order, every key and every child. This holds for every compression method, whether the node is read whole or only its front and some of its partitions, in whatever order partitions are fetched, put aside and fetched again, and for any number of writes and reads; no check fails and nothing outside a buffer is read.",
 "every node (under 512 MiB of keys and of partitions), every compression method, every library that inverts its own output within its stated bound, every place in the file, every sequence of partial fetches and evictions",
 "sizes, offsets and checksums depend on all of the content, and the two ways of reading on how much of the block is in memory",
 ["ft/serialize/ft_node-serialize.cc: toku_serialize_ftnode_to_memory, serialize_ftnode_partition, serialize_ftnode_info, compress_ftnode_sub_block, deserialize_ftnode_from_rbuf, deserialize_ftnode_header_from_rbuf_if_small_enough, deserialize_ftnode_info, deserialize_ftnode_partition, toku_deserialize_bp_from_disk, toku_deserialize_bp_from_compressed, toku_create_compressed_partition_from_available","ft/serialize/compress.cc: toku_compress, toku_decompress, toku_compress_bound","ft/ft-ops.cc: toku_ftnode_pf_callback, toku_ftnode_pe_callback"])
p("C62","Puts do what their flags say, also on the way to the last leaf",
 "A put without flags replaces the row, one with DB_NOOVERWRITE is refused with DB_KEYEXIST exactly if the key has a row and otherwise inserts it, and one with DB_NOOVERWRITE_NO_ERROR leaves an existing row alone; afterwards every query sees exactly that, whether the row went down from the root or, after a long sequence of ascending insertions, straight to the last leaf.",
 "every history of puts of every kind, deletes and updates, mixed with any flushes, splits, merges, writes, evictions and reads",
 "the shortcut is taken only after a hundred insertions at the right end, and its correctness depends on every buffer above the leaf and on how the leaf is divided",
 ["ft/ft-ops.cc: toku_ft_maybe_insert, toku_ft_insert_unique, ft_maybe_insert_into_rightmost_leaf, ft_leaf_get_relative_key_pos, inject_message_in_locked_node, push_something_in_subtree","ft/node.cc: toku_ft_leaf_apply_msg","src/ydb_write.cc: db_put"])
p("C63","One row written to several dictionaries keeps them in step",
 "A program keeps a source dictionary and further dictionaries whose rows are computed from a source row by its callbacks, and changes them with put_multiple, del_multiple and update_multiple. Every dictionary then always shows exactly the rows computed from the source rows that are there, a call that returns an error changes none of them, and rows are not overwritten where DB_NOOVERWRITE was given.",
 "every history of transactions, nested or not, and calls, with any callbacks, any number of dictionaries and computed rows, any flags, and any locks refused",
 "what a call writes depends on how the old and the new computed keys interleave in each dictionary and on what a failure in a later dictionary leaves behind in the earlier ones",
 ["src/ydb_write.cc: env_put_multiple_internal, env_del_multiple, env_update_multiple, do_put_multiple, do_del_multiple, db_put_check_overwrite_constraint"])
p("C64","Recovery repeats multi-dictionary calls from the source row",
 "After a crash every dictionary holds what the committed calls to put_multiple, del_multiple and update_multiple left in it, although the log holds only the source row or the deleted keys and recovery runs the callbacks again.",
 "every history of transactions and calls, every point where the log ends, also in the middle of the records of one call, every set of dictionary files that is still there, and every checkpoint a dictionary starts from",
 "the log leaves out the computed rows, which rows a call skipped, and which form the record has depends on sizes; tests crash at a few points with a few callbacks",
 ["src/ydb_write.cc: log_put_multiple, log_del_multiple, sum_size","ft/ft-ops.cc: toku_ft_log_put_multiple, toku_ft_log_del_multiple","ft/logger/recover.cc: toku_recover_enq_insert_multiple, toku_recover_enq_delete_multiple, toku_recover_enq_delete_any, internal_recover_fopen_or_fcreate"])
p("C65","An index built while transactions are open has every version of its rows",
 "When an index is built with the source dictionary in use, the index row computed from each source row has the same history as the source row: every reader of the index, of any age and also after any open transaction has committed or aborted, finds exactly what it would compute from the source row it sees.",
 "every source row with any committed versions and any nest of open, committing or aborting transactions on it, every callback, every reader, and every way the open transactions end",
 "an index row is rebuilt from the versions of a source row by a series of messages, and whether one is missing shows only for a reader of a certain age after a certain transaction ended",
 ["src/indexer-undo-do.cc: indexer_undo_do_committed, indexer_undo_do_provisional, indexer_undo_do","src/indexer.cc: build_index, indexer_fill_prov_info, le_cursor_callback"])
p("C66","An index built while clients write is complete when it is finished",
 "When the building of an index has finished while any number of clients put, deleted and updated rows of the source dictionary, the index holds exactly the rows computed from the source rows that are there; before that a source row the builder has passed has its rows in the index, and one it has not passed has none.",
 "every interleaving of the builder's reading and writing with the steps of any number of clients' calls, every set of source rows, every callback whose rows tell which source row they come from",
 "whether a client or the builder writes a row depends on where the builder is at that moment and on an estimate that is read without the lock; a lost row needs one certain interleaving",
 ["src/indexer.cc: build_index, toku_indexer_may_insert, toku_indexer_should_insert_key, toku_indexer_update_estimate","ft/le-cursor.cc: toku_le_cursor_next, toku_le_cursor_is_key_greater_or_equal, toku_le_cursor_update_estimate","src/ydb_write.cc: env_put_multiple_internal, env_del_multiple, env_update_multiple, do_put_multiple, do_del_multiple"])
p("C67","Serializable transactions are serializable","Transactions that read with serializable isolation (or with locking reads) and write get, each of them, exactly the answers and leave behind exactly the rows they would if the committed ones had run one after another in the order of their commits: no row they have read, and no gap they have read, changes before they end.","every interleaving of any number of transactions with inner transactions, point reads, range reads in both directions, bounded cursors, waits for locks, commits and aborts, for every dictionary content and every shape of the tree","the schedules in which a row is written into a range that another transaction has just found empty are rare, and tests look at final rows rather than at whether every answer fits one serial order",["src/ydb_cursor.cc:c_getf_first","src/ydb_cursor.cc:c_getf_next","src/ydb_cursor.cc:c_getf_set_range","src/ydb_cursor.cc:c_set_bounds","ft/ft-ops.cc:toku_ft_search","ft/ft-ops.cc:ft_search_basement_node","ft/cursor.cc:toku_ft_cursor_shortcut","ft/cursor.cc:toku_ft_cursor_check_restricted_range","src/ydb_row_lock.cc:toku_db_get_range_lock"])
p("C68","Creating, renaming and removing dictionaries is all or nothing, also across a crash","After a crash and recovery every dictionary that the committed transactions created and did not remove is there under the name they last gave it, with every row put into it exactly once; a dictionary whose creation did not commit, or whose removal did, is gone with its file; and recovery always completes.","every history of transactions that create, open, fill, rename, remove and close dictionaries, commit and abort, every checkpoint at any time and in any state of completion, every crash point, and every length of the log that had reached the disk","the damage needs a crash between two writes to different files, or between the beginning and the end of a checkpoint after a rename that failed, and what is then missing is a whole dictionary, which a test that only compares rows of open dictionaries does not look for",["src/ydb_db.cc:toku_db_open","src/ydb.cc:env_dbremove","src/ydb.cc:env_dbrename","ft/ft-ops.cc:toku_ft_unlink_on_commit","ft/ft-ops.cc:toku_ft_rename_iname","ft/txn/roll.cc:toku_commit_fdelete","ft/txn/roll.cc:toku_rollback_fcreate","ft/txn/roll.cc:toku_rollback_frename","ft/ft.cc:ft_close","ft/ft.cc:ft_log_fassociate_during_checkpoint","ft/cachetable/cachetable.cc:toku_cachefile_close","ft/logger/recover.cc:toku_recover_fassociate","ft/logger/recover.cc:toku_recover_frename"])
p("C69","Every dictionary has a file of its own","However dictionaries are named, created, loaded, renamed and removed, two dictionaries never end up in the same file, and the name of a file always fits where it is put together.","every sequence of creations, bulk loads, renames and removals, all names of dictionaries, all transaction ids, and all restarts","two names have to be mapped to the same file, which depends on the characters of both names, on ids and on restarts in between; a test uses a handful of well-behaved names in one process",["src/ydb_db.cc:create_iname_hint","src/ydb_db.cc:create_iname","src/ydb_db.cc:generate_iname_for_rename_or_open","src/ydb_db.cc:load_inames","src/ydb.cc:env_dbrename","src/ydb.cc:env_dbrename_subdb"])
p("C70","Optimizing a dictionary brings earlier writes into the leaves while others use it",
"When DB->hot_optimize over a range of keys has finished, no message sent to the dictionary before the call still waits in a buffer above the leaves for any key of the range, whatever other clients, flushes, splits, merges, writes and reads did meanwhile. The call never fails, it changes the answer of no query, every round goes further to the right than the one before, and with nobody else at work it ends.",
"all histories of a dictionary, all ranges of keys, all interleavings of other operations with the rounds, all choices of splitting and merging children on the way, trees of any height",
"A test has one tree and an idle one; the interesting cases have nodes split, merged and written to between two rounds, so that the end of one round is no longer a boundary of the tree in the next.",
["ft/ft-hot-flusher.cc:toku_ft_hot_optimize","ft/ft-hot-flusher.cc:hot_just_pick_child","ft/ft-hot-flusher.cc:hot_update_flusher_keys","ft/ft-hot-flusher.cc:hot_pick_child_after_split","ft/ft-flusher.cc:toku_ft_flush_some_child","ft/node.cc:toku_ftnode_hot_next_child","src/ydb_db.cc:toku_db_hot_optimize"])
p("C71","Changing a dictionary's descriptor is all or nothing",
"A descriptor set with DB->change_descriptor in a transaction is what the dictionary shows from then on, it is undone when the transaction or one of its parents aborts and kept when the outermost one commits; only one transaction at a time can have changed it. After a crash at any moment, and any crashes during recovery, the dictionary shows the last descriptor that was committed in what is left of the log, or that of a prepared transaction, whether or not its file was open, being closed or in a checkpoint. Keys are compared by the descriptor the dictionary shows.",
"every sequence of transactions with any nesting, changes, prepares, commits and aborts, openings and closings of the file, checkpoints, and every crash point including those in recovery",
"Whether the header on disk is older or newer than the log's replay point, and whether the undo entries come from the checkpoint or the log, depends on where checkpoint, close and crash fall among the changes.",
["ft/ft-ops.cc: toku_ft_change_descriptor","ft/ft.cc: toku_ft_update_descriptor, ft_begin_checkpoint, ft_checkpoint, ft_close","ft/txn/roll.cc: toku_rollback_change_fdescriptor","ft/logger/recover.cc: toku_recover_change_fdescriptor, recover_abort_all_live_txns","src/ydb_db.cc: toku_db_change_descriptor"])
p("C72","Counting the keys around two keys",
"DB->keys_range64 and DB->key_range64 never fail and change nothing, whatever has been done to the dictionary. When the answer is marked exact, the numbers of rows at the left key, strictly between the keys and at the right key are the true ones. A key counted as present is present. Nothing is counted below or at a missing left key or at or above a missing right one, and exact or not no number exceeds the number of rows the dictionary is thought to have by more than the size of one basement.",
"every history of messages, flushes, splits, merges, evictions and reads, any two keys, either or both missing, any estimate of the number of rows, any part of the tree in memory",
"Which basements hold which keys, which of them are in memory and what the estimate of the rows is depends on the whole history; the numbers are added and subtracted as unsigned numbers, and a test sees only some of them.",
["ft/ft-ops.cc: keysrange_in_leaf_partition, toku_ft_keysrange_internal, toku_ft_keysrange","src/ydb_db.cc: toku_db_keys_range64, toku_db_key_range64"])
p("C73","Finding the key after a number of bytes",
"DB->get_key_after_bytes always calls back exactly once, with a key not before the start key or with none.  If all of the dictionary is in memory the bytes reported do not exceed those asked for, the key reported is that of a row with which they would, and a caller that asks for at least the size of any row and starts again from the key it got comes to a later key.  If besides no message waits in a buffer and no subtree is passed over as a whole, the answer is exact: the rows from the start key up to the key reported have the bytes reported.",
"every history of writes, flushes, splits, merges, evictions and reads, every size of rows, every start key, number of bytes and recorded size of the dictionary",
"tests use small dictionaries in memory; which basements are in memory, and how the recorded size is shared out over the children, depends on the history",
["ft/ft-ops.cc:toku_ft_get_key_after_bytes","ft/ft-ops.cc:get_key_after_bytes_in_subtree","ft/ft-ops.cc:get_key_after_bytes_in_basementnode","src/ydb_db.cc:toku_db_get_key_after_bytes"])
p("C74","Buffered changes are put in the order they were made",
"When a read or a flush has to bring a row up to date, the changes waiting for it, collected from several places, are sorted before they are applied.  For any number of them, in whatever order they were collected, sorting ends, reads and writes nothing outside the array and its scratch copy, and leaves exactly the collected changes, each after all those made before it; the same sorting rebuilds, when a node is read from disk, the order its buffered changes are kept in.",
"every array of every length, every order its elements come in, every comparison that is an order (equal elements allowed), every content of the scratch memory, every size from which the sort halves and merges instead of partitioning",
"the partitioning moves its own pivot and relies on the elements at both ends to stop its scans, and the merge calls itself on unequal parts; tests sort some arrays, most below the size where merging starts, and cannot try all orders of any one of them",
["util/sort.h:mergesort_r","util/sort.h:mergesort_internal","util/sort.h:merge","util/sort.h:merge_c","util/sort.h:binsearch","util/sort.h:quicksort_r","ft/node.cc:bnc_apply_messages_to_basement_node","ft/node.cc:msg_buffer_offset_msn_cmp","ft/node.cc:toku_msg_buffer_key_msn_cmp","ft/serialize/ft_node-serialize.cc:sort_and_steal_offset_arrays"])
p("C75","Counters that threads add to without a lock lose nothing and are read between two true values",
"Any number of threads create counters, add to them, read them, destroy them and end, in any interleaving in which a counter is used only while it exists and destroyed only while no thread is in a call on it. Then no call touches freed memory or fails an assertion. As long as the amounts added to a counter stay below 2^64, a read returns at least all that had been added when it was called and at most all that has been added when it returns; so reads that follow each other never go down, amounts added by threads that have ended are kept, and a counter that is created anew starts from zero even if it gets the memory and the number of one that was destroyed while threads that had used it go on. When nothing is added during the read it returns exactly the sum modulo 2^64. A reader that has the lock needs only its own steps to finish, and adding waits for the lock at most once.",
"every number of threads and counters, every sequence of calls that keeps the caller's part of the contract, every interleaving of their steps (the load and the store of an addition, and the visit of each part by a reader, are separate steps), every placement of new objects in memory",
"A test sees a few interleavings; a lost addition needs a thread to end, or a counter to be destroyed and its number given away, between two particular steps of another thread.",
["util/partitioned_counter.cc: create_partitioned_counter, destroy_partitioned_counter, increment_partitioned_counter, read_partitioned_counter, get_thread_local_counter, destroy_thread_local_part_of_partitioned_counters, allocate_counter, free_counter, sumit","util/partitioned_counter.h","util/growable_array.h: store_unchecked","ft/cachetable/cachetable.cc: evictor::remove_pair_attr, evictor::fill_engine_status"])
p("C76", "Undo records that leave memory come back as they were",
  "While a transaction runs, the node that holds its undo records may be written by a checkpoint or an eviction and read back any number of times, between any of its operations. What is read back is what was written: the owner, the place in the chain, and every record, in the same order. A node is returned only for the block it was written for and only if its checksums are right. After a crash of an older program from whose logs recovery is allowed to start, its undo records can be read, changed and written again.",
  "every number, type and content of undo records, with any sizes up to two gigabytes a node; every interleaving of saves and trips to disk; every compression method and library that gives back what it was given; every place in any file; every version of the writing program",
  "A test writes a few nodes of a few records. The number of pieces a node is cut into depends on its size, the bytes on the compressor, and old versions need files from old programs.",
  ["ft/serialize/ft_node-serialize.cc: serialize_rollback_log_node_to_buf, serialize_uncompressed_block_to_memory, toku_serialize_rollback_log_to, deserialize_rollback_log_from_rbuf, decompress_from_raw_block_into_rbuf, toku_deserialize_rollback_log_from",
   "ft/serialize/sub_block.cc: choose_sub_block_size, set_all_sub_block_sizes, compress_all_sub_blocks, decompress_all_sub_blocks",
   "ft/logger/logformat.cc: rollbacks, generate_rollbacks",
   "ft/logger/log_upgrade.cc: toku_maybe_upgrade_log"])
p("C77", "A client that waits for room in the cache is let go again",
  "A client that finds the cache too full is held back until evictions have made room. Whatever clients, background evictions and the eviction thread do, in any order, no such client is forgotten: when no eviction is left to be done and the eviction thread has nothing to do, no client waits; and when everything in the cache is in use, so that no room can be made, the clients are let go after a bounded number of steps. The amount that is thought to be on its way out is always what the evictions under way have promised to free. When the cache is closed, the eviction thread ends.",
  "every number of clients and background threads, every size limit, every interleaving of looks at the sizes, waits, calls, evictions whole and in part, reservations and closing, every change of the cache's size at every moment",
  "A test sees a few interleavings; a lost call needs the size to change between two particular steps of the eviction thread.",
  ["ft/cachetable/cachetable.cc: evictor::init, evictor::destroy, evictor::run_eviction_thread, evictor::run_eviction, evictor::try_evict_pair, evictor::evict_pair, evictor::decrease_size_evicting, evictor::wait_for_cache_pressure_to_subside, evictor::reserve_memory, evictor::release_reserved_memory, evictor::should_client_thread_sleep, evictor::should_sleeping_clients_wakeup, evictor::should_client_wake_eviction_thread, evictor::eviction_needed","ft/cachetable/cachetable-internal.h: class evictor"])
p("C78", "Periodic work is done when it is due, not before, and never after it was ended",
  "Checkpoints, cleaning, flushing of the log and the watch over disk space are done by threads that call a function every so often. For every period a user can set, and whenever it is changed: setting it never ends the program; two calls are at least a period apart; a call is made once the period has passed; none is made while the period is zero; a new period takes effect without waiting for the old one to pass, but for at most a second; the period read back is the one set; and once the thread has been told to end, it begins no call and ends.",
  "every period, every history of changes, every interleaving of the thread with the calls that change the period or end it, every reading of the clock, every duration of the calls, wake-ups for no reason included",
  "A test uses a few periods, mostly whole seconds, and cannot wait for them; what happens with others depends on the fraction of the second at which the last call was made.",
  ["util/minicron.cc: minicron_do, toku_minicron_setup, toku_minicron_change_period, toku_minicron_shutdown, timespec_compare, toku_minicron_get_period_in_seconds_unlocked","ft/cachetable/cachetable.cc: checkpointer::set_checkpoint_period, cleaner::set_period","src/ydb.cc: env_change_fsync_log_period, env_fsync_log_cron_init, env_checkpointing_set_period, env_cleaner_set_period"])
p("C79","Reported number of rows and size are not changed by reading, evicting and writing",
"The number of rows that stat64 reports for a dictionary that is open is the number at the time it was opened, plus what every put, delete and update said it would add, plus the corrections of the messages applied so far, each counted once, whatever was read, evicted, read back, flushed, written and checkpointed in between; two histories with the same changes report the same number after a scan. The size reported is the size of the data. Closing and opening, crashing and recovering leave both right.",
"every history of changes, reads, loads, full and partial evictions, flushes, writes, checkpoints with clones and restarts; every content, every effect and correction of messages, every garbage collection that no later message can tell",
"the counts are corrected when messages are applied for a reader, taken back when the leaf leaves the memory and applied again later; whether each is counted once depends on the order of evictions, writes and checkpoints",
["ft/ft.cc: toku_ft_stat64, toku_ft_adjust_logical_row_count, ft_checkpoint, ft_close","ft/ft-ops.cc: toku_ftnode_flush_callback, toku_ftnode_clone_callback, toku_ftnode_pe_callback, toku_ft_maybe_insert, toku_ft_maybe_update, toku_ft_maybe_delete","ft/node.cc: bnc_apply_messages_to_basement_node, toku_evict_bn_from_memory, toku_ftnode_update_disk_stats","ft/ft-flusher.cc: toku_bnc_flush_to_child"])
p("C80","Background work is done once, in order, and waited for",
"Every job handed to a pool of background threads is done exactly once and begun in the order of handing over; while a job waits, some thread is doing a job or about to take one, so no wake-up is lost whatever thread a signal reaches; if nothing more is handed over, all jobs are done after a bounded number of steps. Destroying a pool that has a thread ends, and returns only when every job ever handed over is done. The pool reports the jobs that wait, the jobs done and the most jobs that ever waited. Closing a file waits for the background jobs that use it: when the wait has returned none uses it and none can begin to, a waiting thread is woken by the last job, and jobs are accepted again once the file is opened again.",
"every number of threads, every sequence of jobs, every schedule of the threads, every choice of the thread a signal wakes, wake-ups by chance, and every moment of destroying or closing",
"A lost wake-up or a job dropped while the pool ends needs one interleaving among all; tests see a few of them.",
["util/kibbutz.cc: toku_kibbutz_create, work_on_kibbutz, toku_kibbutz_enq, toku_kibbutz_destroy, ksignal","ft/cachetable/background_job_manager.cc: bjm_add_background_job, bjm_remove_background_job, bjm_wait_for_jobs_to_finish, bjm_reset"])
p("C81","The stages of a bulk load lose no rows between them and do not block each other",
"Between the thread that reads rows into a bulk load and the thread that sorts them, and between the merging thread and the writing thread, row sets arrive each once and in the order they were sent; the receiving thread is told that there are no more only after it received everything sent, and nothing is sent or received after that; a thread that asks for rows when there are some, or after the end, is answered without sleeping. The sending thread returns only when what waits is within the limit, so all row sets waiting but the newest stay within it; with one thread on each side neither sleeps while it could go on, and they never both sleep. The queue is given up exactly when it is empty. The queue's own description asks only for a single receiving thread: with two sending threads this fails.",
"every number and weight of row sets, every limit, every schedule, every choice of the thread a signal wakes, wake-ups by chance; any number of threads where order and counts are concerned",
"Both sides sleep on one condition variable, so a signal that reaches the wrong thread hangs the load; which thread is woken is up to the system.",
["util/queue.cc: toku_queue_create, toku_queue_enq, toku_queue_eof, toku_queue_deq, toku_queue_destroy","ft/loader/loader.cc: extractor_thread, enqueue_for_extraction, finish_extractor, drain_writer_q, loader_do_i"])
p("C82", "Bulk loader reads back its temporary files completely while a thread reads ahead",
  "While a bulk load merges its temporary files with a background thread reading ahead, the bytes handed out for each file are a gap-free prefix of that file, in order; the end of a file is reported only after all its bytes were handed out; a request is answered with exactly the bytes asked for, or with all that is left; a waiting reader is woken when the background thread has filled its buffer; ending the read-ahead returns; and the rows written to a temporary file are read back unchanged and in order. Where the code falls short: a failed read is counted as the end of its file though the file stays in the work list, so the background thread may return with other files unread and leave a reader asleep; giving up does not let a sleeping reader go; a file cut off exactly between two pieces of a row is taken to end there.",
  "every number, size and content of the files, every buffer size, every size the reads return, every interleaving of readers and the background thread, every failure of a read and every point of giving up; every list of rows with keys and values shorter than 2^32 bytes",
  "the outcome depends on how reads of several files interleave with swaps of the buffers and on where blocks end; tests see a few schedules and sizes",
  ["ft/loader/dbufio.cc:create_dbufio_fileset", "ft/loader/dbufio.cc:io_thread", "ft/loader/dbufio.cc:dbufio_fileset_read", "ft/loader/dbufio.cc:panic_dbufio_fileset", "ft/loader/dbufio.cc:destroy_dbufio_fileset", "ft/loader/loader.cc:loader_read_row_from_dbufio", "ft/loader/loader.cc:loader_write_row"])
p("C83", "Files opened again hold what was last written, whatever was cached, evicted, deleted or made anew in between",
  "A file that is closed and opened again, by the same or another handle, holds exactly what was last written to it, whether its pages were still in memory, partly evicted or all written out; opening a file already open gives the same file; a file marked for deletion is gone after it is closed, and a file made later under the same name, or with the same inode, is a new empty one; two files open at the same time never have the same file number, and a number is always found; no memory is used after it was given back. Where the code falls short: rolling back a bulk load unlinks a closed file by name while pages of it may still be in memory, and a new file with the same inode then shows them; the thread that evicts pages of closed files releases a page after letting go of the lock, and may then use a tree header already given back, when the file is opened again, marked and closed in between, or when the cachetable is closed.",
  "every sequence of making, opening (also with a number from the log), reading, writing, evicting, marking, closing, rolling back a bulk load and shutting down, over any number of files, names, inodes, keys and values, with the eviction of pages of closed files in two halves at any points",
  "whether stale pages are found, and by which file, depends on the order of closing, evicting, unlinking and the reuse of inodes by the operating system, which tests do not control; the window of the evictor is a few instructions",
  ["ft/cachetable/cachetable.cc:toku_cachetable_openfd_with_filenum", "ft/cachetable/cachetable.cc:toku_cachefile_close", "ft/cachetable/cachetable.cc:cachefile_list::reserve_filenum", "ft/cachetable/cachetable.cc:cachefile_list::evict_some_stale_pair", "ft/cachetable/cachetable.cc:cachefile_list::free_stale_data", "ft/cachetable/cachetable.cc:toku_cachefile_unlink_on_close", "ft/txn/roll.cc:toku_rollback_load"])
p("C84", "A wait for a row lock lasts as long as it was set, and says truly how it ended",
  "A request for a row lock that must wait does not time out before the lock timeout set by the user has passed, and is over when it has passed (but for the lateness of the operating system), whatever wakes the thread in between; a client that is killed while it waits stops waiting within the time set between two questions; and the answer is success exactly if the lock was granted during the wait. Where the code falls short: the timeout is turned into microseconds and added to the clock in 64 bits without a check, so the largest timeout (2^64-1 milliseconds, 'for ever') is over at once; and with a killed-callback but no time between questions a kill is not noticed before the timeout.",
  "every timeout and every time between two questions that are 64-bit numbers, every start time, every sequence of wake-ups (also spurious and late ones), every answer of the callback, every grant or kill by other threads",
  "the arithmetic goes wrong only for extreme settings, and early or late wake-ups at the edges of the deadlines are a matter of scheduling",
  ["locktree/lock_request.cc:lock_request::wait", "locktree/lock_request.cc:lock_request::kill_waiter", "src/ydb_row_lock.cc:toku_db_wait_range_lock", "src/ydb.cc:env_set_lock_timeout", "src/ydb.cc:env_set_killed_callback"])
p("C85", "A bulk load replaces a dictionary for all its handles at once, and is undone completely",
  "When a bulk load of an (empty) dictionary is closed, every open handle of the dictionary reads the loaded rows from then on, and so does every handle opened later; a load that fails leaves the dictionary empty; when the transaction is aborted, every handle reads what it did before the transaction began. No assertion fails on the way. The files follow: with no transaction and no checkpoint under way there is exactly one file on disk, and a file that was open when a checkpoint began stays until the checkpoint is over. Where the code falls short: two loaders open on one dictionary in one transaction and closed in the opposite order leave handles on different files (rows are lost after the commit, and an abort fails an assertion), and a load that failed half-way in a transaction that commits leaves its file behind.",
  "every sequence of opening and closing handles, transactions, rows put, loads that succeed and fail, and checkpoints, with at most one loader open at a time",
  "which file is deleted when depends on who still refers to it: handles, transactions and checkpoints in any order; tests try a few orders",
  ["ft/ft.cc:toku_dictionary_redirect", "ft/ft.cc:dictionary_redirect_internal", "ft/ft.cc:toku_dictionary_redirect_abort", "ft/txn/roll.cc:toku_commit_load", "ft/txn/roll.cc:toku_rollback_load", "ft/txn/roll.cc:toku_rollback_dictionary_redirect", "src/loader.cc:toku_loader_close", "src/ydb_db.cc:load_inames"])
p("C86", "Making the data file longer or shorter never damages a block in use",
  "Threads allocate, write and free blocks of a data file while others make the file longer for new blocks at its end or shorter when blocks at its end are gone (at the end of a checkpoint and whenever a handle is opened). Every block in use holds what was last written to it; the size of the file is the expected one whenever it is changed (no assertion fails); a block is inside the file before it is written; the file grows by less than 16 MiB and 4096 bytes beyond what is needed and has less than 32 MiB unused at its end after it was made shorter; no thread waits for ever. Where the code falls short: the limit down to which the file is cut is computed before waiting for another thread that changes the size, and not again; a block allocated and written meanwhile is cut off.",
  "every file with blocks in use and every interleaving of allocations, writes, frees, growing and shrinking with their file operations in flight",
  "the loss needs a handle opened during the end of a checkpoint and a block placed across a 32 MiB boundary in between; tests do not produce such schedules",
  ["ft/serialize/block_table.cc:block_table::_ensure_safe_write_unlocked", "ft/serialize/block_table.cc:block_table::_maybe_truncate_file", "ft/serialize/block_table.cc:block_table::maybe_truncate_file_on_open", "ft/serialize/ft_node-serialize.cc:toku_maybe_truncate_file", "ft/serialize/ft_node-serialize.cc:toku_maybe_preallocate_in_file", "util/nb_mutex.h:nb_mutex_lock"])
p("C87", "A write is complete when the call returns, whatever the operating system answers in between",
  "Log buffers, nodes, block tables and headers are written with calls that go on after partial writes, interruptions and full disks. When such a call returns, exactly its bytes are in the file at their place and nothing else was changed; if the process is stopped in between, a proper beginning of them is; it is stopped only after an error that does not pass. Each full disk is counted and reported at most once a minute, and when the call returns nobody is left waiting. The calls of bulk loads return 0 only after a complete write and otherwise an error the operating system gave. Data forced to disk is on disk when the call returns. Where the code falls short: the report of a full disk stores a terminator in the wrong buffer (outside it for file names of more than 25 bytes), the calls of bulk loads take an interruption for an error, and try again without end if nothing is written.",
  "every buffer, position and sequence of answers of the operating system",
  "tests inject single errors at chosen calls; the order of partial writes, interruptions and full disks is unbounded, and the report needs a full disk",
  ["portability/file.cc:toku_os_full_write_with_source_location", "portability/file.cc:toku_os_full_pwrite_with_source_location", "portability/file.cc:try_again_after_handling_write_error", "portability/file.cc:toku_os_write_with_source_location", "portability/file.cc:toku_os_pwrite_with_source_location", "portability/file.cc:file_fsync_internal_with_source_location"])
p("C88", "Keys and values handed to the caller are in memory of the kind asked for, complete and undisturbed",
  "A get or cursor call puts the key and value it found into the caller's DBTs by their flags: the caller's own buffer, fresh memory, memory that follows the size of the values, or memory of the cursor. For every sequence of calls no byte outside a buffer is written, and every DBT shows exactly the last value put into it (those without flags until the next such call). A buffer of the caller that is too small gets DB_BUFFER_SMALL with the size needed, and nothing is written; fresh memory is really fresh, and values got before stay; buffers that follow the values are at most four times as long as the value (or 16 bytes); when memory cannot be had, the call returns ENOMEM and no buffer changes. Where the code falls short: after such a failure the recorded length is larger than the buffer, and the next value is copied past its end.",
  "every sequence of values and kinds of DBTs, every initial buffers of the caller that are as long as they say, every answer of the allocator",
  "which buffers are kept, grown and shrunk depends on the whole sequence of sizes; failures of the allocator are not tried between calls",
  ["util/dbt.cc:toku_dbt_set", "util/dbt.cc:dbt_realloc", "util/dbt.cc:sdbt_realloc", "src/ydb_cursor.cc:c_get_wrapper_callback"])
p("C89", "A dictionary that passes verification can be trusted",
  "DB->verify_with_progress returns 0 exactly for well-formed dictionaries. When it returns 0, the keys in the leaves are in strictly ascending order, looking a key up from the root finds exactly the keys in the leaves, all leaves are at the same depth, and every change that still waits for its key waits where a query for the key passes, in the order the changes were made. A sound dictionary is never reported as damaged; going on after a problem does not change whether the result is 0; a result of the caller's callback other than 0 ends the work and is the result; no assertion fails unless a node has the wrong height. Where the code falls short: updates that wait in the wrong place are not noticed.",
  "every dictionary (any number of nodes, heights, keys and waiting messages, damaged in any way), every sequence of answers of the callback",
  "damage can be anywhere in any combination; tests damage one thing in a small tree",
  ["ft/ft-verify.cc:toku_verify_ft_with_progress", "ft/ft-verify.cc:toku_verify_ftnode", "ft/ft-verify.cc:toku_verify_ftnode_internal", "ft/ft-verify.cc:verify_msg_in_child_buffer", "ft/node.cc:toku_ftnode_which_child", "src/ydb_db.cc:toku_db_verify_with_progress"])
p("C90", "Opening an environment: new, complete, of an older version, interrupted",
  "Opening an empty directory makes a new environment. An environment with all its files and a log of version 25 or later opens with DB_RECOVER after every history of openings, uses, clean shutdowns and crashes at any point of any of these, and is then of the current version with all its files; without DB_RECOVER it opens if the last shutdown was clean and otherwise opens or returns DB_RUNRECOVERY with nothing changed. A cleanly shut down environment of any supported older version is upgraded by opening it. An environment of a newer version, of an unsupported older version, or of a version before 25 that was not shut down cleanly is refused with the matching error and nothing changed. If some of the files are missing the opening returns ENOENT and makes nothing. (Disagreement: a crash during an upgrade between deleting the old rollback file and making the new one, and a crash during the first opening, each leave a directory that no later opening accepts.)",
  "all sets of log files with their versions and last records, all combinations of present and missing files, all numbers of openings, and every crash point of every opening",
  "A test opens the environments it prepared; it cannot crash an upgrade at each of its steps, for all older versions and numbers of log files, and reopen after every chain of such crashes.",
  ["src/ydb.cc:env_open", "src/ydb.cc:validate_env", "src/ydb.cc:maybe_upgrade_persistent_environment_dictionary", "ft/logger/log_upgrade.cc:toku_maybe_upgrade_log", "ft/logger/log_upgrade.cc:upgrade_log", "ft/logger/log_upgrade.cc:verify_clean_shutdown_of_log_version_old", "ft/logger/logger.cc:toku_get_version_of_logs_on_disk", "ft/logger/recover.cc:tokuft_needs_recovery", "ft/logger/recover.cc:do_recovery"])
p("C91", "Writes are refused in time when a disk runs full, and only then",
  "After every history of looks at the file systems (at the opening and periodically), calls and attempts to set the share: put, update, update_broadcast, put_multiple and the rows written by a hot indexer return ENOSPC, with nothing changed, exactly if at the last look the file system of the home, data or log directory had less than the set share (5 percent unless set before opening) of its space available; deletions, reads and commits are never refused; the number of refused operations in the engine status is exact; the share is fixed once the environment is open. A warning is written at a look exactly if the zone is entered there and the look is one of the first eleven, or after the twelfth with no entry at the twelve looks before it. (Disagreements: update_multiple is not refused; the percentage overflows on very large file systems; a disk found low first at the twelfth look is not reported; repeated entries keep postponing the next warning without end.)",
  "all histories of looks, calls and settings, all sizes and fillings of the file systems, all shares, all layouts of the three directories",
  "A test fills one disk once; it cannot range over every sequence of fillings and looks, file systems of every size and every layout of directories.",
  ["src/ydb.cc:env_fs_poller", "src/ydb.cc:env_fs_redzone", "src/ydb.cc:env_fs_init", "src/ydb.cc:env_set_redzone", "src/ydb_write.cc:env_check_avail_fs_space", "src/ydb_write.cc:autotxn_db_put", "src/ydb_write.cc:env_put_multiple", "src/ydb_write.cc:env_update_multiple", "portability/portability.cc:toku_get_filesystem_sizes"])
p("C92", "A scan that fetches many rows at a time gives every row once, in order, inside its bounds",
  "A cursor is moved forward or back by calls whose callback may ask for more rows. If no row lock is refused and no callback returns an error: every call gives the user the next visible rows inside the bound ahead, at least one if there is one, in order, and stops at the first callback that does not ask for more; over any number of calls, whatever the callbacks answer and however the rows are divided into nodes at each call, the rows given are exactly those ahead of the start, each once, with none left out when a call finds no more. Without a bound ahead the cursor is then on the last row given. A callback that takes one row at a time gets the same row whatever locks were waited for in between. (Disagreements: a row whose lock is waited for after other rows were given in the same call is skipped; after an error or at a bound the cursor can rest on a row that was not taken; a bound that was infinite once stays infinite; only the bound ahead is checked.)",
  "all rows with and without deleted ones, all divisions into basement nodes, all answers of the callbacks, all sequences of calls, all bounds, both directions, all patterns of refused locks for single rows",
  "A test scans a few tables with one callback; it cannot range over every division into nodes, every pattern of answers and every moment at which a lock is refused.",
  ["src/ydb_cursor.cc:c_getf_next", "src/ydb_cursor.cc:c_getf_next_callback", "src/ydb_cursor.cc:c_set_bounds", "ft/cursor.cc:toku_ft_cursor_shortcut", "ft/cursor.cc:toku_ft_cursor_check_restricted_range", "ft/cursor.cc:toku_ft_cursor_set_range_lock", "ft/ft-ops.cc:ft_search_basement_node", "ft/ft-ops.cc:toku_ft_search"])
p("C93","The lock table of a dictionary lives as long as it is used, is one for all its users, and is freed once",
 "Whatever threads open and close handles of dictionaries, take and release row locks and escalate locks at the same time: all handles and transactions that use a dictionary at one moment see the same row locks; the locks of a transaction stay in force for later opens when all handles were closed meanwhile; the memory of the locks is freed when the last user is gone, once, and never while in use; the lock waits reported are those that happened. When lock memory runs short, a thread that waits for the escalation of another is let go when it ends, and a request is refused for lack of memory only if escalation could not make room for it.",
 "all numbers of dictionaries, handles, transactions and threads; all interleavings of their steps; all limits and lock sizes",
 "The windows between the fall of a count to 0 and the mutex, and between the collection of the tables and their escalation, are a few instructions wide; tests do not hit the orders of threads that matter.",
 ["locktree/manager.cc: get_lt, reference_lt, release_lt, escalate_all_locktrees, check_current_lock_constraints, locktree_escalator::run, get_status","locktree/locktree.cc: create, destroy, add_reference, release_reference","src/ydb_row_lock.cc: db_txn_note_row_lock, toku_db_release_lt_key_ranges","src/ydb_db.cc: toku_db_close"])
p("C94","Data compressed by the default method comes back as it was, and fits the space that is allocated for it",
"A piece of a node that is compressed with the default method (quicklz, whose source is part of the code) and decompressed again is the same bytes, whether it was compressed or stored, and whatever the compressor's tables and the destination contained before. The compressed piece is at most 400 bytes longer than the data, as the caller assumes when it allocates the destination.",
"all byte strings of up to 2^32 - 401 bytes; all contents of the compressor's tables, which are not cleared, and of the destination",
"The tables are not cleared between uses and hold pointers of earlier texts; which copies are found, and with them every branch of the format, depends on all of the text, and the bound on the length must hold for the worst text there is.",
["ft/serialize/quicklz.cc: qlz_compress, qlz_compress_core, qlz_decompress, qlz_decompress_core, hash_func, update_hash, memcpy_up","ft/serialize/compress.cc: toku_compress, toku_decompress, toku_compress_bound"])
p("C95","Counting the rows again gives the number of rows, unless it is cancelled",
"DB->recount_rows passes over the dictionary and sets the number of rows that stat64 reports to the number of rows there are. The callback is told a number that never goes down and can end the count at any time by an answer other than 0; the number reported is then as before and the answer is returned. Otherwise the result is 0 and the number reported is the one the callback was told last.",
"all dictionaries, all divisions into basement nodes, all deleted rows that are still there; all answers of the callback; changes made during the scan",
"What is counted depends on where the bounds between basement nodes lie and on whether the rows at them are still there; the answers of the callback are looked at in some places and not in others.",
["ft/ft-recount-rows.cc: toku_ft_recount_rows, recount_rows_found, recount_rows_interrupt","ft/ft-ops.cc: toku_ft_search, ft_search_node, ft_search_basement_node, toku_ft_search_which_child","src/ydb_db.cc: toku_db_recount_rows"])
p("C96","Errors of a bulk load are returned, and told to the error callback once",
"DB_LOADER->close returns 0 exactly if the dictionaries hold the load; otherwise they are empty. After a put that failed every further put fails. The error callback is told once of a load that fails: of the first error, with its code, dictionary and key.",
"all histories of puts and of failures in the stages of the load, in the background, while closing and after; all codes",
"Errors are noted by several threads and by the caller's puts in two different places; which one is returned and told depends on their order.",
["src/loader.cc: toku_loader_put, toku_loader_close, ft_loader_close_and_redirect","ft/loader/callbacks.cc: ft_loader_set_error, ft_loader_call_error_function, ft_loader_set_error_and_callback","ft/loader/loader.cc: toku_ft_loader_put, toku_ft_loader_close, toku_ft_loader_abort, finish_extractor, merge_row_arrays_base, ft_loader_set_panic"])
p("C97","Every transaction, nested or not, has an id of its own",
"The ids of the live transactions of a chain of nested transactions are all different and not 0, and ascend from parent to child below the root; no pair of root id and nested id is given to two transactions, whatever begins and ends in between; so whenever a transaction may have a child, the child's chain of ids is one that no row has seen, which is what the visibility of nested writes and the undoing of an abort rest on; a begin is refused exactly below 253 levels; a live transaction is found by its id and no other one is. The same holds for the nested transactions of a transaction that was recovered.",
"all histories of begins, ends, writes and notifications, all starting values of the counter, all rows used by earlier transactions, all logs replayed",
"That two of the ids coincide takes a certain number of begins before (the id that equals the root's) or a certain place of a checkpoint; an abort then undoes another transaction's write in rows that happen to be written by both.",
["ft/txn/txn_child_manager.cc: start_child_txn, start_child_txn_for_recovery, finish_child_txn, find_tokutxn_by_xid_unlocked","ft/txn/txn.cc: toku_txn_begin_with_xid, txn_create_xids","ft/txn/txn_manager.cc: toku_txn_manager_start_txn","ft/txn/xids.cc: toku_xids_can_create_child","src/ydb_txn.cc: toku_txn_begin"])
p("C98","A node written or read by several threads at once is complete when the call returns",
"When the parts of a node are compressed, decompressed or serialized by the calling thread together with threads of the pool, then when the call returns every part has been worked on exactly once, no thread uses the caller's set of parts any more, and the error returned is that of the first part, in the order of the node, that has one; the call always returns, however many threads the pool gives, whenever they begin to run, and also if they are done before they are counted; no part is ever worked on by two threads.",
"all numbers of parts and threads, all interleavings of caller and threads, all numbers of threads the pool gives, sleeps that end for no reason, all errors of parts",
"Threads are counted after they were started, so that the count can pass 0 early; whether that ends the wait too soon or never depends on the schedule, and the damage is a part of a node that is missing or memory that is gone.",
["ft/serialize/workset.h: workset_get, workset_add_ref, workset_release_ref, workset_join","ft/serialize/sub_block.cc: compress_all_sub_blocks, decompress_all_sub_blocks, compress_worker, decompress_worker","ft/serialize/ft_node-serialize.cc: serialize_and_compress_in_parallel","util/threadpool.cc: toku_thread_pool_run"])
p("C99","A thread of the pool works for one call at a time, and work given to it is done exactly once",
"Every thread of the pool is at every moment in exactly one hand: free, given to one call, or at the work of one call; a call that was given a thread has it alone and its work is done exactly once, that of a call that was refused never; there are never more threads than the limit; and no call that did not ask to wait stays asleep for ever: as long as a call is neither served nor refused, or work is left, some call or thread can go on, and with no new calls the pool comes to rest after a number of steps bounded by the calls and threads, with every call served or refused and all work done.",
"all limits, all numbers of calls at the same time, all interleavings of calls and threads, sleeps that end for no reason, failures to make a thread",
"A thread is in the list of free threads before it has ever run and the call that made it sleeps although it asked not to wait; whether another call takes the thread, and whether the sleeper is woken, depends on the schedule.",
["util/threadpool.cc: toku_thread_pool_get_one, toku_thread_pool_add, toku_thread_run, toku_thread_run_internal, toku_thread_pool_run"])
p("C100","The file of a dictionary is where the directories set say, for every operation, and its name is never cut",
"Names of files are put together from the directory of the environment, the data directory set and the name of the file without being cut, however long they are; a part that is absolute counts alone, any other is seen from what is before it. The file of a dictionary is made and opened in the data directory, and a rename of a dictionary is made on that file: after a rename that returns 0 its rows are found under the new name, and other dictionaries keep theirs.",
"all directories, relative, absolute or not set, all names, of any length; all files and dictionaries there are",
"Tests use one or two directories; the name used by a rename differs from the one used by an open only for a relative data directory together with one directory per database.",
["ft/cachetable/cachetable.cc: toku_construct_full_name, toku_cachetable_get_fname_in_cwd","src/ydb.cc: env_setup_real_dir, env_dbrename, env_get_data_dir, env_set_data_dir","src/ydb_db.cc: create_iname","ft/ft-ops.cc: toku_ft_rename_iname","ft/logger/recover.cc: toku_recover_frename"])
import sys
with open('/verif/properties.jsonl','w') as f:
    for x in P: f.write(json.dumps(x)+"\n")
ids=[x['id'] for x in P]; assert len(set(ids))==len(ids)
print(len(P))
