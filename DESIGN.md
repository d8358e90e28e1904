# Formal model of PerconaFT in Lean 4 — design

## Trusted base
* Lean 4.33.0's kernel.
* Axioms: at most `propext`, `Classical.choice`, `Quot.sound` (checked with `#print axioms`
  in `lean/Verif/Audit.lean`). No axioms of our own, no `sorry`, no `native_decide`/`bv_decide`.
* The model's faithfulness to the C++ text: every model definition cites the file and lines in
  `/repo` it transcribes and says where it simplifies. Nothing was executed; the source was read.

## Layout
* `lean/Verif/<Area>/Model.lean` (or `<Area>Model.lean`): transcription of code, with citations.
* `.../Spec.lean`: small independent specification used in the theorem statements.
* `.../Lemmas*.lean`: helper lemmas.
* `.../Props.lean` : the property theorems (what MANIFEST.json names), each with a non-vacuity `example`.

## Conventions
* Assertion failures (`invariant`, `assert`, `paranoid_invariant` on paths that matter) are a distinct
  outcome (`none` / `Except.error`), never silently assumed. Theorems claiming totality show the
  outcome is not `none`.
* Transaction ids, MSNs, LSNs are `Nat` unless the property is about widths; byte formats use
  `UInt8` lists with explicit little-endian width-limited encoders, with width hypotheses stated.
* Mutex-protected code sections are modelled as atomic steps; where the property is about the
  interleaving itself the atomic steps are the lock-protected sections.

## Plan per property
| id | model | proof |
|----|-------|-------|
| C01,C02,C09,C10,C11,C14 | ule.cc message application on version stacks (`Ule`) | induction on the stack / op sequences, simulation against an abstract nested-transaction row |
| C03,C04,C05,C16,C17 | txn_manager.cc state machine + ule GC + toku_txn_reads_txnid | invariants over all schedules; visibility characterised by abstract commit times kept as ghost state |
| C06 | le_extract_val | case analysis over the stack |
| C07,C08 | byte-level le_pack / le_unpack and packed accessors | round-trip by induction on record lists |
| C12 | xids.cc | decision logic + codec round-trip |
| C13 | toku_ft_bn_apply_msg_once over a basement node | invariant by induction |
| C15 | txn_manager ids | invariant |
| C18 | toku_txn_begin flag checks | decision logic against a declarative table |
| C19 | recover_root_txn | induction over batches |
| C20–C23 | locktree as state machine over ordered keys (with ±infinity) | invariants by induction |
| C24 | treenode.cc as inductive tree with depth estimates | refinement to sorted list of ranges |
| C25 | wfg DFS and build_wait_graph | reachability equivalence |
| C26 | interleaving model of retry generation counters | inductive invariant over all schedules |
| C27 | byte-level range buffer | round trip; counterexample for (-inf, empty key) |
| C28,C29 | MHS red-black hole tree with zipper-based fixups | refinement to sorted hole list, mhs invariant |
| C30,C31 | block_table.cc state machine on top of allocator | invariant over all schedules |
| C32 | two-slot header model with crash points | case analysis + invariant over checkpoints |
| C33 | wbuf/rbuf/x1764 | codec round trip, checksum homomorphism |
| C34 | msg / message_buffer codec | round trip |
| C35–C37 | fractal tree with buffers, MSNs, basements | refinement to per-key message fold |
| C38 | omt.cc arrays and subtree trees, marks, split and merge | refinement to List, for every history; bound on the depth |
| C39,C40,C59 | log record codec, inbuf/outbuf/fsync machine | round trip, invariants |
| C41 | log → recovery replay | refinement: recovered state = committed effects |
| C42 | rollback nodes, their chains, nesting and reuse | invariant over all call sequences, refinement to one list of actions per transaction |
| C43 | the fair lock of nodes and the plain lock as transition systems, any number of threads | invariant over all schedules |
| C44 | bulk loader: row sets, sorting, runs, priority queue, merge passes, writing of leaves and inner nodes | invariants for all inputs and schedules: permutation, sortedness, search tree; witness for the abort on equal keys |
| C45 | locktree memory accounting | invariant |
| C46 | cachetable pinning, pending bits, copies for background writes, eviction, checkpoint thread | invariant of each node over all schedules, refinement to a specification of phases |
| C47 | block allocator statistics | agreement with the hole list; witness for the largest unused block |
| C48,C49 | block table checkpoints in histories with failures and growth | invariant below 8190 block numbers; witnesses beyond |
| C50 | rbuf on arbitrary bytes | never outside below 2^32; witness above |
| C51 | headers of older versions | field-by-field reading for each version; versions 17 and 18 refuted |
| C52 | block table on disk | round trip at each checkpoint |
| C55–C58 | transaction handles: begin, commit, abort, prepare, discard, row operations and locks | invariant over all client histories |
| C54 | the search of the tree a cursor makes, pinning and restarting beside other work | invariant over attempts; progress by the pivots ahead |
| C53 | node on disk: header, common part, partitions, checksums, compression calls, whole and partial reads, partial eviction | round trip for every node made by any calls, every number of trips, every sequence of fetches and evictions |
| C60 | leaf parts: records in a pool, ordered keys, both forms on disk | refinement to a list of rows, for every history of calls |
| C61 | pivots: packed and unpacked form, on disk | refinement to a list of keys, for every history of calls; witness for empty keys |
| C62 | puts and the shortcut to the last leaf, on top of the tree | invariant: no buffered message above the last leaf while the score is not zero; the shortcut equals sending from the root; witnesses where it does not |
| C63 | put_multiple, del_multiple and update_multiple over any number of dictionaries and transactions | a history keeps every dictionary equal to the rows computed from a table; the merge loop of update_multiple is characterised by what it deletes, puts and leaves alone; witnesses |
| C64 | the log records of those calls and recovery's reading of them | simulation between the run and the replay, level by level of the open transactions; a log cut inside a call changes nothing; witnesses |
| C65 | the messages the indexer sends for one source row, applied to an empty index row | induction on the committed versions, then on the nest of open transactions; reading and ending transactions commute with the callback; witnesses |
| C66 | the builder's position and the clients' calls as a step relation | an invariant kept by every step, with a run-ahead of every client's remaining writes; witness |
| C67 | one step per thing a thread does with the nodes pinned: search, locks, writes, waits, inner transactions, commit, abort | invariant: every open transaction's log is right after all committed ones, as its locks keep what it has seen; three witnesses |
| C68 | a log with one record for each call, the files on disk by name, the open files, checkpoints in parts; recovery replays the log from the last complete checkpoint | what a transaction sees of a name it may lock is what anyone sees who sees it; invariants of the run and of the replay, for every point of the log; four witnesses with `dir_per_db` |
| C69 | `create_iname_hint` and `create_iname` on characters, calls with their ids; a process with its counter and restarts | names are taken apart from the end, as hex digits have no underscore; invariant on the directory; witnesses |
| C70 | `toku_ft_hot_optimize` round by round on the tree of C35, any tree operation between two rounds, splits and merges of the child on the way down | a condition on buffered messages with the bounds of their child that every tree operation keeps; induction down the path; the pivots ahead as measure; witness |
| C71 | one dictionary's descriptor: transactions as stacks of rollback entries, header written by checkpoints and on close, log, replay without filter, recovery step by step with crashes in between | the header is what the log stood for at or after the last checkpoint, or what has to survive; replay invariant; relation of rollback entries to pending replacements per level; witnesses |
| C72 | the two descents of `toku_ft_keysrange` over the tree of C35, with 32 and 64 bit wrap-around, the rows of one basement counted or guessed | induction on the height: the basement counted is between its pivots and, completed by the messages above, as the history makes it; shares of the estimate add up to at most the estimate; partial, with witnesses for equal or swapped ends, a missing left end and waiting messages |
| C73 | the walk of `toku_ft_get_key_after_bytes` over the tree of C35: rows in memory summed up, other basements and whole children taken for their share | induction on the height and along the children: in memory the walk is the walk over the concatenated rows from the start on; partial, with witnesses for leaves not in memory, shares and waiting messages |
| C74 | `toku::sort` of `util/sort.h` on lists, every access checked; the two comparisons of buffered messages | partitioning by an invariant with the elements at both ends as sentinels, merging by induction on the elements left, the binary search and the merge by halves on the lengths; uniqueness of the sorted array links it to the order the tree model uses |
| C75 | partitioned counters as a step relation of any number of threads: counters, parts, thread-local arrays, numbers in use, the lock, and where each thread is | an invariant in two parts: the structure (every part is in its counter's list and in its thread's array under the counter's number, numbers differ, the lock belongs to the reader) and the sums (kept for the dead plus parts = added; a reader's sum so far plus the parts ahead lies between the sum when it was called and now); every step of every operation keeps it |
| C76 | the twelve kinds of undo records, the node that holds them as bytes, its pieces, their compression and checksums, the read by version, and the decision to recover from old logs | round trip by induction over records and over pieces; runs of saves and trips to disk by induction; inversion of the read for what is checked; witnesses for every node of version 28 and for changed nodes of versions 25 to 27 |
| C77 | the evictor's limits, sizes, lock, condition variables, its thread, background evictions as far as they change the sizes, waits and calls of clients, reservations, closing | invariants over all schedules (promises, sleepers, the running flag); the exit of a run and the finish of a background eviction keep "asleep and not called means enough is promised" in schedules without growth between the two looks; a stalled state as a witness without that; a measure for runs that find everything in use |
| C78 | the periodic thread of util/minicron.cc with its clock arithmetic, and the conversion of periods | invariants over all schedules (what each wait is for; the last call lies a period back when a call is due), a log of calls for the spacing, solo runs for "on time" and "ends", witnesses for periods that are not whole |
| C79 | the counts behind stat64: row count in memory and in the header, corrections by readers, taking back at eviction, physical counts in memory and on disk, clones, restart (`Rowcount`) | invariant per basement node relating its versions to the messages sent, sums over all; witnesses for restart, crash, eviction and garbage |
| C80 | Pools of workers as a step system: every stretch of code under the mutex is one step, a signal wakes any one waiting thread, waits may end by chance; jobs of a file likewise. | Inductive invariant over all schedules (begun ++ waiting = handed over; begun is a permutation of done ++ under way; a job waiting and a thread asleep imply a thread awake); two decreasing measures for being served and for ending. |
| C81 | The loader's queue as a step system with any number of threads, one shared condition variable, and the answers of the calls. | Invariants for order and weight over any threads; a second invariant for one thread on each side (who sleeps, and why); witnesses for two senders and two receivers. |
| C82 | Two buffers per file, the list of files to read and the background thread as a step system, any number of readers; rows as length-prefixed bytes. | Invariants on each file (delivered ++ left = contents) and on the list; a measure for how soon a file is read; count of unfinished files; round trip of rows; witnesses for a failed read, giving up, and a cut file. |
| C83 | The list of open and of stale files with file numbers, names, inodes and pages; opening and closing as one step each (they exclude each other by the open-close lock), the eviction of a stale page as two. | Simulation against a directory of files that each have their own contents, with a map from inodes to files; pigeonhole for file numbers; invariant on objects in memory; witnesses for unlinking behind the list's back and for the window of the evictor. |
| C84 | The loop of a waiting lock request with 64-bit times; wake-ups, the clock, grants and kills by others are inputs. | Induction over the rounds; witnesses for times that wrap around and for a callback that is not asked. |
| C85 | One dictionary: directory row, files on disk, open handles, references, the rollback entries of a load, checkpoints that pin. Events are any sequence of calls. | Refinement to contents without files by an invariant: the rollback log leads back to the saved state step by step; witnesses for two loaders and for the file left over. |
| C86 | One data file: blocks in use, safe size, real size, bytes, the lock of the size with the file operation in flight, waiting threads. Events are the atomic sections between mutex operations, in any order. | Invariant over all interleavings (writable blocks below the safe size, safe size at most the real one); bounds by induction on the growth loop; witness for the stale limit. |
| C87 | The loops around write, pwrite and fsync; the operating system is any list of answers. The buffers of the full-disk report with bytes never written. | Induction on the answers; specification by positions and bytes; the report for every file name. |
| C88 | A heap of buffers with capacities, the caller's DBTs of four kinds, the cursor's own buffer; realloc succeeds or fails. Out-of-bounds copies and dangling pointers are undefined behaviour. | Ownership invariant over all sequences of calls; witness after a failed realloc. |
| C89 | A dictionary as a table of nodes with pivots, leaf keys and buffers of numbered messages; verification as the recursive visit with its early exits and callbacks; lookups by pivots. | Verification accepts exactly the well-formed trees (induction on the height); consequences for lookups and paths of messages by induction; witness for updates. |
| C90 | The environment's own files and its log files with versions and last records; an opening as the list of states of the disk it goes through (upgrade of the log, validation, recovery, creation). | Invariant over every state of every opening (induction on the number of log files), then induction over histories of openings, uses, shutdowns and crashes; decision logic for refusals; witnesses for the lost rollback file and the interrupted creation. |
| C91 | The watch over free space as a state machine over looks at the file systems, calls and settings of the share, with 64-bit arithmetic. | The state after a history depends on the last look alone (induction); warnings characterised by the last entry (invariant over prefixes); witnesses for update_multiple, overflow and unreported states. |
| C92 | Basement nodes as lists of rows in the order of the move; one attempt of a move with lock and callback, the shortcut through a basement node, and the loop of attempts. | What was ahead = what was given ++ what is then ahead, by induction over the rows of a node, the nodes and the calls; witnesses for locks refused in the middle, positions and bounds. |
| C93 | Tables by address with reference count and dictionary, the map, references held, releases between their two parts, destructions; every step one atomic operation or one section under the mutex. Escalator: running thread with the tables left, waiting and woken threads. | An invariant over all interleavings (count = references held, everything held is in the map, one table per dictionary in the map, count 0 in the map only with a release under way); a second one for the escalator; witnesses for double counting and early refusals. |
| C94 | The compressor of level 3 with its tables (any contents at the start), the main loop, the last bytes, the header; the decompressor with its control words, runs of single bytes and five formats of a copy. | A separate format (tokens in groups of 31 under a control word): the decompressor reads every valid text of that format, and the compressor writes only such; an invariant bounds the length. |
| C95 | The dictionary as basement nodes with rows, deleted rows and upper bounds; a search from a key to the right with all its calls of the counting function and of the callback; the loop; the dictionary may be another one at every search. | Exact count by induction over rows and basement nodes; an invariant over the calls of the callback for every answer and every change; witnesses for the miscounts and the lost cancellation. |
| C96 | The noted error of the load (first one stays, told once), the noted error of the puts, put, close; failures of all stages as free events before, while and after the extractor finishes. | Invariants over all histories; witnesses for the error that close does not return and for the wrong error told. |
| C97 | The counter of the environment, the live chain, the counter of nested ids of the root; begin, end, replay of a log, find. | Invariant of the live chain; names given out later are new, by induction; a simulation with the specification of rows (Ule/Spec.lean), whose condition on begins is thereby discharged; witness for recovered transactions. |
| C98 | The set of parts with its count of references, the caller (start, count, work, wait), the threads (get, work, release), wakeups. | Invariant over all interleavings (parts counted, references = live threads); a measure for the number of steps. |
| C99 | The list of free threads, the threads (new, ready, at work), the calls (looking, asleep, with a thread, served, refused), signals that wake one of those asleep or nobody. | Invariant over all interleavings: each thread counted in one hand, each work counted once, no more calls asleep than threads that have not begun; a measure for the number of steps. |
| C100 | Strings and buffers of the function that joins names, the names used to open and to rename, the rename of a dictionary on files and directory of dictionaries. | Induction over the parts (bytes counted cover the name so far); joining is associative; witnesses for relative and empty data directories. |

## Not modelled
Concrete syscalls, memory allocation, compression library internals, thread scheduling fairness,
timing, status counters unless listed.

## Modelled so far
| directory | code modelled | properties |
|-----------|---------------|------------|
| Ule | ft/ule.cc (apply, promotion, garbage collection, packing, accessors), ft/txn/xids.cc | C01, C02, C07–C12, C14 |
| Txn | ft/txn/txn_manager.cc: begin, finish, live lists, snapshots, referenced ids | C15–C17 |
| Mvcc | ule.cc reads with txn_manager.cc, every schedule of transactions | C03–C06 |
| Ft | ft/node.cc: message application to a basement node and its statistics | C13, C14 |
| Lt | locktree/*.cc: concurrent tree, locktree, escalation, range buffer, wait graph, lock requests, retry | C20–C27, C45 |
| Blk | ft/serialize/rbtree_mhs.cc, block_allocator.cc, block_table.cc | C28–C31, C47–C49 |
| Tree | ft/ft-ops.cc, ft/node.cc, ft/ft-flusher.cc, ft/ft-hot-flusher.cc: message injection, flushes, leaf and inner splits, merges and rebalancing, root growth, eviction and reading back, application of ancestors' messages, queries and cursor search; puts and the shortcut to the last leaf; hot optimization | C35–C37, C54, C62, C70 |
| Multi | src/ydb_write.cc: put_multiple, del_multiple, update_multiple; their log records (ft/ft-ops.cc) and ft/logger/recover.cc:1062-1199 | C63, C64 |
| Hot | src/indexer-undo-do.cc, src/indexer.cc:174-207, 343-353, 410-585, ft/le-cursor.cc:91-140, and the indexer's part of src/ydb_write.cc | C65, C66 |
| Iso | src/ydb_cursor.cc `c_getf_*` and callbacks, ft/ft-ops.cc:3340-3448, 3735-3955, ft/cursor.cc, the locking of src/ydb_row_lock.cc and src/ydb_write.cc | C67 |
| Files | src/ydb_db.cc:281-372, src/ydb.cc:3150-3360, ft/ft-ops.cc:2955-3109, 5059-5137, ft/ft.cc:124-280, ft/cachetable/cachetable.cc:511-570, ft/txn/roll.cc:68-285, ft/logger/recover.cc:300-1010 | C68 |
| Names | src/ydb_db.cc:86-203, 1195-1260, src/ydb.cc:3244-3263 | C69 |
| Desc | `DB->change_descriptor`: ft/ft-ops.cc toku_ft_change_descriptor, ft/ft.cc descriptor updates, checkpoint and close of the header, ft/txn/roll.cc change_fdescriptor, ft/logger/recover.cc replay, abort of live transactions, end of recovery | C71 |
| Tree/Range* | `DB->keys_range64`: ft/ft-ops.cc:3982-4345, src/ydb_db.cc:777-805; without the retries and the checks of debug builds | C72 |
| Tree/Skip* | `DB->get_key_after_bytes`: ft/ft-ops.cc:4369-4529; byte counts without a limit, without the retries | C73 |
| Sort/* | `toku::sort` (util/sort.h:46-206) and the comparisons ft/node.cc:190-209, 1678-1705; indices without a limit, offsets replaced by the messages they stand for | C74 |
| Count/* | util/partitioned_counter.cc:97-420 without `partitioned_counters_init`, `partitioned_counters_destroy` and the registration of thread-local arrays; memory is sequentially consistent, never short, and freed addresses come back | C75 |
| Undo/* | ft/serialize/ft_node-serialize.cc:2750-3210, ft/serialize/sub_block.cc:106-162, 236-290, 312-400 (threads and the work set are not modelled: each piece has its own buffer), the code generated by ft/logger/logformat.cc:641-772, ft/logger/log_upgrade.cc:250-280; memory arenas are not modelled |
| Evict/* | ft/cachetable/cachetable.cc:3643-3740, 3798-3981, 4248-4376, and of 3984-4245 what changes the sizes; what an eviction frees, which pair it takes, and which client changes the size when, are open; condition variables may wake at any time |
| Cron/* | util/minicron.cc:50-200, ft/cachetable/cachetable.cc:3077, 4449; `pthread_cond_timedwait` refuses a time whose nanoseconds are not below 10^9, as POSIX and glibc say; the clock does not go back; what the threads call is not part of this model |
| Rowcount/* | ft/ft.cc: stat64, adjusting the row count, header at checkpoint and close; ft/ft-ops.cc: clone, flush and partial eviction callbacks (counts only); ft/node.cc: applying for readers, for good, garbage collection (counts only); ft/ft-flusher.cc: flushing (counts only) | C79 |
| Workers/* | util/kibbutz.cc (create, enq, the worker loop, destroy, status), ft/cachetable/background_job_manager.cc (all) | what jobs do; memory of the entries; threads that cannot be created (create returns the error before the pool exists) |
| Pipe/* | util/queue.cc (all) | 64-bit wrap of weights; memory running out (ENOMEM); what the loader does with the row sets (Load/*, Sort/*) |
| Ahead/* | ft/loader/dbufio.cc:55-116, 276-582; ft/loader/loader.cc:810-950 (writing and reading a row) | decompression of blocks (ft/loader/dbufio.cc:119-275); failures inside create_dbufio_fileset; allocation; the merge itself (Load/*) |
| Stale/* | ft/cachetable/cachetable.cc:350-570, 2515-2520, 2947-2950, 4755-5006 (the list of files); ft/txn/roll.cc:566-593 | what a page holds; checkpoints of open files (Ckpt/*); failures of the operating system; two names for one inode; removing old files with toku_cachefile_of_iname_in_env by a different spelling of a name |
| LockWait/* | locktree/lock_request.cc:222-282, src/ydb_row_lock.cc:226-250 | the clock going back (a hypothesis); the status counters; who grants a request (Lt/Retry) |
| Redirect/* | ft/ft.cc:464-490, 580-794, 922-956; ft/txn/roll.cc:521-650; src/loader.cc:163-182, 186-330, 408-480; src/ydb_db.cc:1195-1274 | child transactions, recovery, loaders of several dictionaries, other transactions (kept out by the table lock), DB_CREATE while a loader is open |
| Fsize/* | ft/serialize/block_table.cc:204-237, 486-521; ft/serialize/ft_node-serialize.cc:109-196; util/rwlock.h:263-303 | partly written blocks, failing file operations, 64-bit overflow, the choice of free space (C28, C29) |
| FullWrite/* | portability/file.cc:57-139, 239-391, 679-722 | alignment of buffers, instrumentation, threads sharing the counters |
| Dbt/* | util/dbt.cc:173-261; src/ydb_cursor.cc:103-111 | flags in combination, values of 1 GiB and more, the caller changing or freeing DBTs between calls |
| Verify/* | ft/ft-verify.cc:70-96, 283-288, 326-519; ft/node.cc:1778-1807 | the sorted trees over a buffer's messages, the second pass after messages were moved, the binary search over pivots, the time of the last verification |
| Open/* | src/ydb.cc:511-573, 647-792, 943-1116; ft/logger/log_upgrade.cc:94-294; ft/logger/logger.cc:624-646, 750-778, 1400-1435; ft/logger/logcursor.cc:377-433; ft/logger/recover.cc:1317-1342, 1449-1465 | force_recovery, flags other than DB_INIT_LOG, DB_INIT_TXN and DB_RECOVER, the contents of the log and of the dictionaries, recovery of logs before version 25, the order in which metadata reaches the disk, a crash between making the directory of dictionaries and its commit |
| Space/* | src/ydb.cc:206-313, 1119-1120, 1982-1993; src/ydb_write.cc:102-112, 1067-1129; portability/portability.cc:411-428 | force_recovery, failures of statvfs (asserted), wrapping of the counters, the minicron that calls the poller (C78), what a call does when it is not refused |
| Bulk/* | src/ydb_cursor.cc:323-440, 674-721; ft/cursor.cc:111-137, 189-192, 238-318, 348-360; ft/ft-ops.cc:3337-3448, 3826-3954 | the descent to the basement nodes (C36, C54), values, interrupts, prefetching, leaf mode, rows that change during a call |
| Tables/* | locktree/manager.cc:64-86, 124-300, 305-311, 342-358, 396-412, 438-500; locktree/locktree.cc:80-143; locktree/lock_request.cc:265-277 | addresses used again by malloc, escalation inside one table, iteration over and killing of waiting requests, times, mutexes found busy by get_status |
| Qlz/* | ft/serialize/quicklz.cc (level 3, streaming off, QLZ_MEMORY_SAFE off): 127-155, 168-261, 294-321, 405-517, 547-583, 584-887 | levels 1 and 2, streaming, the copy of four bytes in steps of three on x86 (byte by byte here), reads of up to 3 bytes behind the end of the text (zeros here) |
| Recount/* | ft/ft-recount-rows.cc (all); ft/ft-ops.cc:3338-3440, 3642-3709, 3745-3822, 3826-3960 for a cursor from left to right without bound and bulk fetch | errors of a search, changes between two tries of one search, the progress of a scan that others lengthen for ever |
| LoadErr/* | src/loader.cc:163-182, 363-406, 426-458; ft/loader/callbacks.cc:58-127; ft/loader/loader.cc:653-661, 1077-1107, 1138-1172, 1322-1331, 1362-1367, 2892-2962; ft/loader/pqueue.cc:90-99 | the stages themselves (C44, C81, C82; here they fail as they like), the poll function, abort, counters |
| Nest/* | ft/txn/txn_child_manager.cc:48-127; ft/txn/txn.cc:103-188, 557-578; ft/txn/txn_manager.cc:577-600, 642; ft/txn/xids.cc:91-95 | 64-bit overflow of ids; several live roots at once (other users of the counter are events); the mutex; read-only transactions, which have no limit of levels |
| Par/* | ft/serialize/workset.h:51-135; ft/serialize/sub_block.cc:223-291, 329-392; ft/serialize/ft_node-serialize.cc:555-610; util/threadpool.cc:277-289 | how the pool finds and makes threads (it may give any number up to the one asked for); the work on one part (C53, C94); destruction of the mutex while another thread leaves its unlock |
| Pool/* | util/threadpool.cc:56-77, 108-115, 136-160, 162-180, 222-289 | calls that ask to wait (`dowait` 1, not used by the engine); the end of the pool; the work itself (C98) |
| Paths/* | ft/cachetable/cachetable.cc:2977-3005; portability/portability.cc:260-262; src/ydb.cc:376-391, 1368-1370, 3298-3338; src/ydb_db.cc:166-173; ft/ft-ops.cc:5100-5101, 5131-5137; ft/logger/recover.cc:944-955 | links and `..`; the making of subdirectories; how the base of a name is made (C69); log and crash (C68) |
| Ser | util/x1764.cc, ft/serialize/wbuf.h, rbuf.h, ft-serialize.cc headers, block table bytes, ft/msg_buffer.cc, ft/msg.cc, child buffers of ft_node-serialize.cc | C32–C34, C50–C52 |
| Ydb | src/ydb_txn.cc, src/ydb_row_lock.cc, ft/txn/txn.cc: transaction handles, flags, log records, fsync decision, lock release | C18, C55–C58 |
| Xa | ft/txn/txn_manager.cc: listing of prepared transactions | C19 |
| Log | ft/logger/logformat.cc (generated writers and readers), ft/logger/logger.cc `toku_fread_*`, ft/logger/logcursor.cc | C39 |
| Logger | ft/logger/logger.cc, ft/logger/logfilemgr.cc: logging, the two buffers, writing out, rolling over and trimming files, waiting for fsync, every interleaving of threads | C40, C59 |
| Roll | ft/txn/rollback.cc, ft/txn/rollback-apply.cc, ft/txn/rollback_log_node_cache.cc, rollinclude of ft/txn/roll.cc, saving of entries (logformat.cc): nodes, spilling, handing over to a parent, undoing and completing | C42 |
| Rw | util/frwlock.cc (fair lock), util/rwlock.h (as used through util/nb_mutex.h) | C43 |
| Omt | util/omt.cc, both representations, with and without marks | C38 |
| Ckpt | ft/cachetable/cachetable.cc: pinning with dependent nodes, put, unpin, remove, fetch, prefetch, eviction, checkpoint; multi-operation lock of ft/cachetable/checkpoint.cc; every interleaving of threads | C46 |
| Load | ft/loader/loader.cc, ft/loader/pqueue.cc: from put to close, for one destination dictionary | C44 |
| Rec | ft/logger/recover.cc: backward scan, forward scan, abort of the rest; with it what logged calls do to rows and transactions (ft/txn/txn.cc, roll.cc, rollback-apply.cc), the checkpoint of headers and log (ft/ft.cc, ft/cachetable/cachetable.cc) and the choice of a header (ft/serialize/ft-serialize.cc) | C41 |
| Node | ft/pivotkeys.cc; ft/bndata.cc with util/mempool.cc and the outer layer of util/dmt.cc; ft/serialize/ft_node-serialize.cc and ft/serialize/compress.cc; partial fetch and eviction of ft/ft-ops.cc | C53, C60, C61 |

In Node, memory is a list of bytes; reading or writing outside it is a failure. The tree form inside dmt is the list of its elements; that a key is
found by comparison is the subject of Omt and Ft. Padding bytes of packed pivots are 0 (never read). Old layout versions are left out. Records are the bytes Ule stores.
The compression libraries are a parameter `Lib`; `Lib.Ok` says what is asked of them: what they decompress is what they compressed, within the bound they state.
Sizes kept in 32 bits wrap in the model. Partitions compressed in parallel are the same calls. For NO_COMPRESSION, snappy and raw zlib `toku_decompress` does not
compare the size with the destination; the model counts a wrong size as memory outside the buffer.

In Rec, the set of dictionaries is fixed and all are open; `update`, bulk load, descriptors, creation and removal of dictionaries are not in it.
A row is the version stack of Ule, so a message acts at once: that the tree delivers it is the subject of Tree, that the snapshot of a checkpoint is
the state at its beginning the subject of Ckpt, that records survive on disk in order the subject of Log and LogFile, the rollback
nodes the subject of Roll. A crash keeps all synced records and any number of later ones; a header being written is lost.
A state is reachable if any sequence of allowed calls, checkpoint steps, log trims and crashes leads there. The abort of live transactions at the end of recovery goes
through the same calls as any other abort. Left out: the closing of the dictionaries by recovery itself and the checkpoints it takes at the end.

In Load, a temporary file is the list of its rows, and the tree written is a value: the formats on disk, i/o errors, memory exhaustion, the
poll function and the progress numbers are left out (not the number of passes, by which is divided). Several destination dictionaries are
independent but for the first error. What a failed round of the extractor leaves behind is not modelled: after it closing fails in any case.
Budgets, merge widths (at least 2), the threshold of the sort (at least 3) and node sizes are arbitrary. The caller's row generator is an arbitrary function.

In Ckpt, a node is a value that is replaced as a whole; partial eviction and fetch, sizes and with them the choice of what to evict, closing of
files and the cleaner's choice are left out: anything can be evicted at any time. A phase of a node starts at the moment the pending bit of the
node is read by the thread that has it pinned; the specification (Spec.lean) lets a change count for a checkpoint if its phase started before the
checkpoint began. `chg` stands for the dirty flag inside the node, which callers pass on when they unpin; that they do pass it on is a rule for
callers (`Legal`), as is that dependent nodes are held by the caller and different. The rest of a checkpoint, the header and the translation, is in Blk.

In Omt, the nodes of a tree are a tree and not a pool with indexes: of the pool the number of places taken and the capacity are kept, and
taking more than the capacity is a failure, as is reading a place of an array that is outside it or was never written. `destroy`,
`memory_size` and the thread safety of marking are left out. Theorems are about callers that keep the rules in omt.h: comparisons that
grow along the container, ranges with left at most right, marks only where they are supported; a change to a container with marks is the
assertion of the code and shows as a failure in both the model and the specification.

In Rw, a call is one step up to its wait, since it runs under an outer mutex, and what follows the wait is another step. In the fair lock it can
be taken once the thread has been signalled; in the plain lock a wait may end at any time.

In Roll, a call on a transaction is one step; reading a node that is not there is a failed assertion. An action is an abstract
value with a size; the model says which actions are undone or completed in which order, not what this does to rows (that is in
Ule and Txn). Block numbers for new nodes come from outside and are not in use (hypothesis `Fresh`). The recursion through nested
children takes a bound on the number of steps; theorems say that some bound, and every larger one, gives the same result.

In Log, the generated code is modelled by interpreting the table of record types; the position of a cursor after an unreadable
record is left open, and opening a file does not fail.

In Logger, a step of a thread is the code between two points at which another thread can observe a difference (taking or giving
up a lock, a system call, the end of a call). An fsync makes all bytes of the open file durable; a crash leaves of each file any
bytes that begin with the durable ones. Writes to the file are whole. Records are at most 2^29 bytes long and sequence numbers
stay below 2^64 (both as hypotheses). Closing the log, and a logger that does not write files, are not modelled.

In Tree, a node is an inductive value of a given height (leaf nodes hold basements, inner nodes pivots, buffers and kids). A key
is a value of a linear order, a row is an abstract value on which messages act, a message has a sequence number and either one
key or all keys. Pinning, the cachetable and locks between threads are not in the tree model: work on the tree is a sequence of
steps, each of which is one of the calls above on any node of the tree, in any order. The thread that searches may be
interrupted between attempts by any such steps. Seqinsert scores, sizes in bytes and the choice of which node to flush are
left open (any choice is a step), so the theorems hold whatever the heuristics do.

In Ser/MsgBuf, the order-maintenance trees of offsets are lists with linear search, and `mergesort_r` is an insertion sort.

Each model file cites the lines it transcribes. Within these files the following are left out: status counters, memory
accounting other than C45's, and code guarded by debugging macros.

In Multi a dictionary is what a reader of it finds for a key; transactions are nested and one thread runs them, an abort brings back what
was there when the transaction began (Txn, Roll and Ule are about how), and index builds that run at the same time are left out. When
update_multiple puts a row again only because its key is spelled differently, the stored spelling stays the old one
(`ft/bndata.cc:387-423`); the model does not keep spellings.

Hot has two models. The first follows one leaf entry of the source through `indexer_undo_do` and applies the messages to the
index rows with the Ule model; the states of the transactions are given, the callback gives one row (or none) per version. The second
(`Hot/Build.lean`) forgets versions and transactions and follows the race of one builder with any number of clients. A client's
row locks are the keys of its call; the writes to one dictionary in one call are one step; whether the call
may take the shortcut is one step too (one load of the estimate under its mutex). The hypothesis `Sound` says that a computed index key
tells the source row it comes from, as when it contains the primary key.

Iso models a search basement by basement; which keys a basement covers is open at each step, so the tree may have any shape and
change at any time. Its three flags say which situations may arise (a row written between the end of a search and its lock, bounds
that were not locked, a lock refused in the middle of a bulk fetch); the theorems are for all flags off, each witness turns one on.
Locks are sets of keys that exclude each other, writes put given values, and `rows` is the newest version of each row. The
specification (`Serial`, `Right`, `IsAnswer`) does not mention locks or searches.

Files keeps the log as the list of records of all calls; the directory (name to file) and the rows are read off the log by the
specification, and what the program keeps is only the files on disk, the open files and the position of the last complete
checkpoint. The log is written out in prefixes, the files at once, and the crash theorem is for every prefix not shorter than what
was written. A file keeps one number over all its openings, a call is one record, and calls that fail run in a transaction of their
own that aborts.

Names has strings as lists of characters and ids as numbers written in hexadecimal; the two ids are those of the transaction
of the call. It has no specification file: its statements speak only of file names and of the directory.

## Where the code and the expected property disagree
Found by trying to prove the property. Each is witnessed by a theorem unless marked (not witnessed).
* C06: a `DB_READ_COMMITTED_ALWAYS` reader can return a value older than one already committed
  when it started. A child with `TXN_COPIES_SNAPSHOT` shares its parent's live list and destroys it as well
  (txn_manager.cc 523–575; not witnessed).
* C13: the byte count drifts when the comparison function treats keys of different length as equal.
* C14: the row count is wrong after aborts over more than one record, deletes of keys that are not stored,
  updates that keep or remove the row; broadcast updates are not counted.
* C25: a deadlock is missed when the conflicts used are stale or escalation comes between; the graph covers one dictionary.
* C27: a range buffer reads `(-infinity, "")` and `(key, "")` back wrong, and stores a key of 65536 bytes with size 0.
* C33: one changed bit can leave the checksum unchanged.
* C47: the reported largest unused block is always 2^64 − 1, since the unbounded last hole is counted.
* C48, C49: `_translation_prevents_freeing` compares a union member that may hold a free-list link. With 8191 block
  numbers or more a checkpoint can stop the program, or space is lost.
* C50: near 2^32 bytes the reader's position wraps and it reads outside its buffer.
* C51: headers of version 17 are never readable. Headers of version 18 with the size version 18 wrote stop the program.
* C52: a block table of 4 GB or more does not fit the 32-bit size of its write buffer (hypothesis of the theorem).
* C35–C37: after a split on a basement boundary the left leaf keeps one pivot more than it needs (modelled; harmless).
* C58: a commit with unknown flags while a child is open panics the environment, and the handle can never be ended.
* C55: preparing a transaction with changes twice stops the program; a prepared transaction can still change rows.
  Discarding a prepared transaction with an open child leaves the child's parent pointer dangling (not witnessed).
* C18: a child of a read-only transaction silently becomes read-only, also if it did not ask for it (modelled).
* C19: a call with room for no transaction writes outside the caller's array; two listings at once share one cursor, so
  one can miss a transaction.
* C39: a value that holds the bytes of a record makes a log cut inside that value end with a forged record, e.g. a clean
  shutdown. Damaged lengths in a prepared record overrun a 128-byte array before the checksum is checked. XA format numbers
  are cut to 32 bits. `prev` right after beginning at the front and `next` right after beginning at the end give
  `DB_RUNRECOVERY`; `first` does not rewind in the first file; the repair can lengthen the wrong file.
* C59: `log_flush` takes the number to wait for from the input buffer. If another thread has just exchanged the buffers, that
  number is old, and the flush returns while the caller's own records are still in memory (`flush_not_durable`).
* C40: `toku_logger_make_space_in_inbuf` takes an `int`, so a record of 2^31 bytes or more passes the test for room; a record of
  more than 2^29 bytes after another one of that length fails the assertion on the size of the buffer.
* C42: `rollback_raw_count` of a transaction, said to count the bytes of all its children, misses a child all of whose rollback
  nodes are spilled when it commits (`raw_count_misses_spilled_child`; a statistic only).
* C43: the waits of the fair lock are not in loops. A wait that ends without a signal, which POSIX allows, lets a writer in beside a
  reader (`spurious_wakeup_breaks_exclusion`).
* C46: `toku_ft_flush_node_on_background_thread` pins a child without passing the parent along as dependent. If a checkpoint begins between
  the two pins, it holds the parent without the messages that moved and the child without them too (`torn_without_dependents`). Most callers
  hold the multi-operation lock, under which no checkpoint begins; `DB->optimize` (src/ydb_db.cc, toku_ft_optimize) does not.
* C41: a log without a complete checkpoint stops recovery at `assert(le)` (recover.cc 1539). A new environment takes a checkpoint before it is
  used, so no reachable log is like that (`recovery`).
* C44: equal keys in three or more runs can stop the program: `pqueue_pop` finds them while it restores the heap, and its error is followed by
  `invariant(0)` (loader.cc 1837) instead of being returned (`duplicate_aborts`).
* A pivot key of size 0 stops the program when its node is written (pivotkeys.cc, `serialize_to_wbuf`; not witnessed).
* C34: a buffer that would need more than 2^30 bytes stops the program (hypothesis of the theorem).
* C32: a crash during the very first header write leaves a file that does not open.
* An out-of-locks result in `lock_request::retry` reads conflict 0 of an empty set (not witnessed).
* C62, C09: `toku_ft_maybe_insert` gives the shortcut to the last leaf `FT_INSERT` whatever type was asked for, so a put with
  DB_NOOVERWRITE_NO_ERROR that takes the shortcut replaces an existing row, while the log says it did not
  (`C62_silent_put_overwrites`).
* C62: `ft_leaf_get_relative_key_pos` names the last basement for a key at or after the last row, although that row may be in an earlier
  basement if the last one is empty (and the first basement for the first row). `toku_ft_leaf_apply_msg` then puts the row
  where no query looks for it: an accepted put of a new key is not found (`C62_put_lost`), an update of the last row is not
  seen (`C62_update_lost`). The witnesses empty the basement by deletions that remove rows at once; with transactions the rows go
  when their deletion is no longer needed by any reader. A left-heavy split followed by a merge gives an empty
  last basement without any deletion.
* C61: an empty key that becomes a pivot stops the server: `insert_at` into a new root fails `total_size() > 0`, and writing a node fails
  `invariant(size)`. An empty key with a value large enough to fill a leaf part or half a leaf gets there.
* C60: `dmt_compress_kvspace` computes 3/2 of the size in 32 bits, too little above 1.43 GB (hypothesis of the theorem; not witnessed).
* C63: update_multiple leaves a row alone when the new value is empty and the key is the same bytes, without looking at the old value
  (`src/ydb_write.cc:934-939`; the comment before the function says that the caller must not do this). Changing `[5]` to the empty
  value returns 0 and stores nothing (`C63_empty_value_not_stored`).
* C63, C64: a callback that gives the same key twice is accepted; put_multiple stores the row, update_multiple then pairs one copy and
  deletes the other, and the row is gone (`C63_repeated_key_lost`). Recovery repeats the calls in another way and the row is there
  again (`C64_repeated_key_comes_back`).
* C63, C64: put_multiple checks DB_NOOVERWRITE while it writes, so that an error for a later dictionary leaves the rows of the earlier
  ones in place (`C63_half_put`), with nothing in the log: if the caller commits, they are lost in a crash (`C64_half_put_lost`).
* C63: put_multiple with an odd flag other than DB_NOOVERWRITE_NO_ERROR, such as DB_NODUPDATA, stops the process at
  `invariant(!(flags & DB_NOOVERWRITE_NO_ERROR))` instead of returning EINVAL (`C63_odd_flag_stops_the_process`).
* C64: recovery passes over a record of several dictionaries when the file of its source is gone (`ft/logger/recover.cc:1097-1101`,
  `:1162-1167`), so rows committed into the other dictionaries are lost (`C64_lost_when_source_gone`). The file is gone at recovery
  if the source dictionary was removed after the last checkpoint.
* C65: the indexer pins each open transaction of a leaf entry once (`ule_prov_info`) and releases it once per destination
  (`src/indexer-undo-do.cc`, `release_txns` inside `indexer_undo_do_provisional`, called in the loop over `N` destinations). With two or
  more indexes built at once and a live transaction on a source row the second release fails `assert(txn->num_pin > 0)`
  (`C65_two_indexes_and_an_open_transaction_stop`).
* C65: the indexer turns the versions of a row into insertions and deletions at each version's id. A reader that sees a version but not
  one below it, such as a transaction that changed a row another one had changed after its snapshot, finds the index row of a still
  older version too (`C65_reader_above_an_unseen_version`).
* C66: a call that names a source dictionary other than the indexer's takes neither the lock nor the shortcut
  (`src/ydb_write.cc:562-574` and the same lines in put and update) but still asks the builder's position. Between that and its write
  to the indexer's source the builder can pass the key, and the finished index lacks the row (`C66_other_source_loses_a_row`).
* C67: a search that runs off the end of the dictionary unpins the nodes before it calls back to lock the end
  (`ft/ft-ops.cc:3918-3941`; the comment there says as much). A row committed in between is neither seen nor kept out: the answer is
  that there is none, and the same question asked again finds it (`C67_row_appears_before_the_lock`).
* C67: a cursor with bounds set with `pre_acquire` false does not call back for a row out of range, so nothing is locked
  (`C67_bounds_not_locked`).
* C67: in a bulk fetch the cursor's key becomes that of the row whose lock was refused (`ft/cursor.cc:259-306`,
  `ft/ft-ops.cc:3430-3442`). After the wait the search goes on behind it and the row is skipped (`C67_bulk_fetch_skips_a_row`).
* C68: with `dir_per_db`, `toku_ft_rename_iname` logs the rename without writing the log out, and renames the file and syncs
  its directory at once (`ft/ft-ops.cc:5107-5137`). A crash before the log is written leaves a dictionary whose file is not to be
  found; opening it with `DB_CREATE` makes an empty one (`C68_rename_ahead_of_log`).
* C68: a transaction that puts rows and then renames the dictionary: recovery opens the file by the name in the `fopen` record,
  does not find it, and passes over all rows (`C68_renamed_row_lost`).
* C68: `toku_rollback_frename` gives the open file its name back, but not the entry in recovery's file map
  (`ft/txn/roll.cc:178-280`). A checkpoint begun after a rename that failed makes recovery stop at the comparison in
  `toku_recover_fassociate` (`C68_failed_rename_stops_recovery`).
* C68: `toku_rollback_frename` marks the file so that its close is not logged (`skip_log_recover_on_close`), and nothing takes
  the mark away. The file is then written with log position 0, and after a crash what is in it is done again
  (`C68_failed_rename_row_twice`).
* C69: without transactions the ids in file names come from a counter that starts at 0 in every process
  (`src/ydb_db.cc:175-191`), so after a restart two dictionaries can share one file (`C69_restart_shares_a_file`).
* C69: the buffer for a file name has 24 characters for two ids that can have 16 each (`src/ydb_db.cc:148-153`): a loader with
  very large ids fails an assertion (`C69_name_too_long`).
* C69: `env_dbrename_subdb` builds the new name from the old (`src/ydb.cc:3254-3258`): renaming a dictionary inside of a file
  does nothing and fails (`C69_rename_in_a_file_does_nothing`).
* C70: a key equal to a pivot belongs to the child left of it, but `toku_ftnode_hot_next_child` (`ft/node.cc`) goes right of an
  equal pivot, as it must between rounds. The start key of the caller is treated like the end of an earlier round
  (`hot_set_start_key`), so `DB->hot_optimize(left, right)` may leave out `left` itself (`C70_first_key_left_out`).
* C71: `toku_rollback_change_fdescriptor` (`ft/txn/roll.cc:662`) restores the descriptor but not the copy comparisons use; so after an
  aborted change with `DB_UPDATE_CMP_DESCRIPTOR` keys are compared by the aborted descriptor until the dictionary is closed, and by the
  old one afterwards (`C71_compared_by_an_aborted_change`). The header of the function asks for the flag only right after creation.
* C71: prepared transactions found by recovery hold no locks; if others go on before these are resolved (`src/ydb.cc:1785` says they
  must not), aborting one undoes a change committed later (`C71_prepared_abort_undoes_a_later_commit`).
* C72: `keysrange_in_leaf_partition` (`ft/ft-ops.cc:4043`) subtracts the row at the left key from an unsigned number: asked with the same
  key twice, `DB->keys_range64` says there are 2⁶⁴ - 1 rows between, and marks it exact (`C72_same_key_twice`); with the keys in the wrong
  order almost 2³² (`C72_ends_in_wrong_order`).
* C72: without a left key, `toku_ft_keysrange` (`ft/ft-ops.cc:4211`) returns the estimate `less` as the rows between and keeps the mark
  that means the other numbers are exact (`C72_guess_called_exact`).
* C72: messages in the buffers above the basement are not applied for a count, so an exact count may have a key that was deleted or lack
  one that was inserted (`C72_waiting_messages_are_not_counted`).
* C73: for a basement that is not in memory `get_key_after_bytes_in_subtree` (`ft/ft-ops.cc:4448-4453`) reports the pivot after it as the
  end, with the share of the basement as skipped.  If the start key is that pivot, the caller is sent back to where it was, though bytes
  are reported as skipped, and a caller that goes on from the key it is given never ends (`C73_stays_where_it_was`).
* C73: the last basement of a leaf is left to "some ancestor", but the ancestor only looks into the next leaf, which if it has one basement
  that is not in memory is left to the ancestor in turn: asked to skip one byte, it passes over the whole dictionary
  (`C73_one_byte_skips_everything`).
* C73: children are passed over by an equal share of the recorded size also if they are in memory (`C73_share_is_a_guess`; the comment
  says so), and buffered messages are not seen (`C73_stops_at_a_deleted_key`).
* C75: the header asks for "no overflows" and says that counters are monotonic, but the cache takes sizes away by adding 2^64 less the size
  (`evictor::remove_pair_attr`). The sum of all parts is right modulo 2^64, so a read during which nothing changes is right
  (`C75_read_quiet`), but one that overlaps an addition by one thread and a subtraction by another can see the second and not the first:
  the engine status then shows 2^64 - 5 bytes where there were 0, then 5, then 0 (`C75_decrement_refuted`).
* C76: `toku_maybe_upgrade_log` lets recovery start from the logs of programs of versions 25 to 29 after a crash, but
  `decompress_from_raw_block_into_rbuf_versioned` calls `abort()` for rollback nodes of version 28, and the two functions above it assert
  that the version is not 28: a transaction that was open when a program of version 28 crashed, and whose undo records were in a node that
  had been written, cannot be undone (`C76_version_28_refuted`). Nodes of versions 25 to 27 are read, but keep their version; once recovery
  saves a record in such a node (an operation of a transaction that was open at the checkpoint), writing it fails
  `lazy_assert(log->layout_version == FT_LAYOUT_VERSION)` (`C76_old_node_refuted`). That older programs wrote nodes as this one does is an
  assumption of these two theorems.
* C77: `run_eviction` reads the size twice at its end: once to see that nothing more has to be evicted, once to see whether sleeping clients can go on.
  Clients change the size without the lock. If one adds to it between the two reads, the sleepers are not woken; the client that added finds
  the eviction thread marked as running and does not signal it; and if the size then falls (nodes are removed, a background eviction of less than the
  buffer finishes), nobody signals it at all. Sleepers then stay, in a cache with room, until the thread's timer fires, one second at most in a production
  setting, and for ever with the period 0 that tests may set (`C77_stall_refuted`, `C77_timer_repairs`).
* C78: `minicron_do` adds the milliseconds of the period to the nanoseconds of the last call and does not carry. With a period of more than a second
  that is not a whole number of seconds, the time can have 10^9 nanoseconds or more; `pthread_cond_timedwait` then returns EINVAL and
  `assert(r==0 || r==ETIMEDOUT)` ends the program (`C78_crash_refuted`, for every such period). `DB_ENV->change_fsync_log_period` takes milliseconds and passes
  them on as they are. When the wait is not reached, the comparison of times that are not normalised lets a call come early (`C78_early_refuted`).
  Calls made with a period of at most a second do not set the time of the last call, so that a call can follow at once when the
  period is made longer (`C78_after_change_refuted`). Periods in seconds are multiplied by 1000 in 32 bits (`C78_seconds_refuted`).
* C79: the number of rows and the size that stat64 reports drift.  (a) Corrections made while a reader applies messages
  are in the header that a checkpoint or close writes (ft/ft.cc:198) but not in the leaves, so after a restart the next
  reader makes them again (`C79_reopen_refuted`; by how much: `C79_reopen`).  (b) The header's row count is taken when the checkpoint
  ends, the tree is as of its beginning: puts in between are counted again by recovery (`C79_crash_refuted`).  (c) A
  count that falls to -1 is set to 0, so a delete of a missing key from an empty dictionary ends as one row
  (`C79_below_zero_refuted`).  (d) toku_ft_maybe_update adds a row even if recovery passes over the update
  (`C79_old_update_refuted`).  (e) Evicting a clean leaf as a whole takes back the row-count corrections but not
  `stat64_delta` (ft/ft-ops.cc:729-764, compare 1021 and node.cc:158), so reading and evicting makes the size grow without bound
  (`C79_size_refuted`).  (f) Garbage collected in a clone is neither taken from the count on disk nor from the one in memory
  (`C79_garbage_refuted`).
- **C81, several senders.** util/queue.h asks for a single consumer only.  Senders that wait for room and the receiver that waits for an
  item share one condition variable and are woken by `signal`, so with two senders the signal for a new item can
  reach the other sender, which sleeps again: all three then sleep with an item in the queue
  (`C81_two_producers_refuted`).  The loader has one sender per queue, so it is not affected.
- **C82, failing and giving up.** (a) A read that fails lowers the count of unfinished files (ft/loader/dbufio.cc:359-361) without marking
  the file as done, and the reader that swaps it in puts it back into the list (562-566); the next failure lowers the count again, so the
  background thread may return with other files unread, and a reader of one of them sleeps for ever (`C82_fail_refuted`).
  (b) The wait of a reader (551-579) does not look at the panic flag, so panic_dbufio_fileset does not let it go (`C82_panic_refuted`).
  The loader reads all files from one thread and gives up itself after an error, so neither happens there.  (c) An end of file after a
  key, or after a length, is passed on as EOF (ft/loader/loader.cc:866-868), which the merge takes for the end of the rows: the last row
  of a file cut off there is lost without an error (`C82_truncated_refuted`).
- **C83, three windows.** (a) toku_rollback_load (ft/txn/roll.cc:566-593) looks for the file among the open ones only and otherwise unlinks it by
  name; pages of it that are still in memory stay in the list under its inode, and a new file that gets that inode shows them
  (`C83_reuse_refuted`).  A loading transaction normally has the new file open, so we know of no sequence of calls of the API that does
  this.  (b) evict_some_stale_pair (ft/cachetable/cachetable.cc:4945-4979) lets go of the list's lock before it frees the page, which calls
  back into the tree with the tree header as argument; in between the file can be opened again, marked for deletion and closed, which
  frees the header (`C83_evict_refuted`).  (c) toku_cachetable_close frees the stale files (2519) before it ends the evictor thread
  (2521), with the same effect (`C83_shutdown_refuted`).
- **C84, waiting for ever.** `t_start + wait_time_ms * 1000` (locktree/lock_request.cc:225) is computed in 64 bits without a check: with a timeout of
  2^64 - 1 ms, the largest that DB_ENV->set_lock_timeout takes, the deadline is one millisecond before the start, and every conflicting
  request is refused at once (`C84_forever_refuted`).
- **C85, two loaders on one dictionary.** Nothing stops a transaction from creating a second loader on a dictionary while the first is
  open (the table lock is its own, and the old file is still empty). The directory names the file of the loader created last, the handles
  refer to the file of the loader closed last. Closed in the opposite order these differ: rows written through the handles after the commit are not
  there when the dictionary is opened again, and after opening another handle in between an abort fails the assertion in ft/ft.cc:676
  (`C85_two_loaders_refuted`).
- **C85, failed loads.** loader_do_i creates the new file and does not remove it on an error (e.g. two equal keys found while merging); only the
  rollback entry `load` removes it, and that runs on abort only. If the transaction commits, as redirect_loader_to_empty_dictionaries
  allows, the file stays on disk for ever (`C85_leak_refuted`).
- **C86, a stale limit.** `_maybe_truncate_file` computes the end of the last block, then waits for the lock of the file's size, which lets go of
  the block table's mutex, and then compares the old limit with the new safe size only (ft/serialize/block_table.cc:206-214). Two threads can get there at
  once: the end of a checkpoint (396) and the opening of any handle (ft/ft-ops.cc:3075-3080). A block that a third thread allocates and
  writes above the old limit while the first waits is cut off by ftruncate if it crosses the next multiple of 32 MiB
  (`C86_stale_limit_refuted`).
- **C87, the report of a full disk.** `tstr[n] = 0` (portability/file.cc:122) should be `symname[n] = 0`: `tstr` has 26 bytes and `n`, the length of
  the file's path, is up to 256, so the store is outside the buffer for every path of more than 25 bytes; `symname` is printed without a
  terminator for every path (`C87_report_refuted`; the repaired code: `C87_report_repaired`).
- **C87, interruptions in bulk loads.** toku_os_write and toku_os_pwrite do not try again after EINTR, unlike the full writes: a signal makes
  the load fail (`C87_interrupted_refuted`). If a call writes nothing and gives no error they try again without end, where the full writes
  stop the process (`C87_zero_refuted`).
- **C88, after a failed realloc.** toku_dbt_set stores the new length in `ulen` (or in the cursor's `simple_dbt`) before calling realloc and leaves it
  there when realloc fails (util/dbt.cc:220-221, 240-241). The call returns ENOMEM, the buffer is the old one; the next value up to the new
  length is copied past its end (`C88_no_memory_refuted`).
- **C89, updates in the wrong place.** verify_msg_in_child_buffer compares the keys of five kinds of messages with the pivots, but not those
  of FT_UPDATE, which goes to one child like them (ft/ft-verify.cc:74-93, ft/msg.h:83-108). An update in the buffer of the wrong child passes
  verification, and a query for its key does not see it (`C89_update_refuted`).
- **C90, interrupted upgrades and creations.** env_open first replaces the log of the older version by one of the current version and then
  deletes the old rollback file; the new one is made much later (src/ydb.cc:947-962, 1037-1060). After a crash in between the log is
  current, so the next opening does not upgrade, expects the rollback file and returns ENOENT, as does every opening after it, although the
  environment had been shut down cleanly (`C90_lost_rollback_refuted`). In the same way a crash of the first opening, at any point
  before its end, leaves a directory that is neither empty nor complete, and every later opening returns ENOENT (`C90_new_refuted`).
- **C91, the reserve of disk space.** env_update_multiple does not call env_check_avail_fs_space, although it inserts new rows like
  put_multiple (src/ydb_write.cc:783-1057): updates go on until the disk is full (`C91_update_multiple_refuted`). The bulk loader does not check
  either. `total * redzone` overflows 64 bits from about 3.2 EiB at 5 percent, and env_set_redzone takes any `int`
  (`C91_overflow_refuted`). The warning compares the number of the look with that of the last entry, 0 at first: an entry at look 12 is neither
  `> 12` nor `< 12` and is not reported (`C91_twelfth_refuted`). An entry that is not reported also counts as the last one, so a zone entered
  at least once a minute is never reported again (`C91_silent_refuted`). DB_ENV->get_redzone is declared but never set.
- **C92, bulk fetches.** When the lock on a further row of a bulk fetch is not granted, toku_ft_cursor_shortcut returns DB_LOCK_NOTGRANTED with
  `*key` already set, and ft_search_basement_node moves the cursor to that key (ft/cursor.cc:283-301, ft/ft-ops.cc:3431-3441). c_getf_next waits
  and searches again from there: the row that was waited for is never given to the user (`C92_skipped_refuted`). In the same way the cursor
  comes to rest on a row whose callback returned an error, but stays in place if it was the first of the call (`C92_error_refuted`), and on
  the first row outside the bounds (`C92_position_refuted`). toku_ft_cursor_set_range_lock sets `left_is_neg_infty` and `right_is_pos_infty` but never clears
  them: bounds set again are ignored on a side that was infinite before (`C92_bounds_again_refuted`). Only the bound ahead is checked, so
  a cursor outside its bounds is given rows outside them (`C92_outside_refuted`).
- **C93, the lock table manager.** release_lt adds the counters of the table to the manager's whenever it finds the table in the map, also if
  the table was taken again meanwhile and stays there (locktree/manager.cc:236-241); get_status then counts them twice (`C93_reported_refuted`).
  locktree_escalator::run lets a request that comes while another thread escalates wait for the end of that run, though it may already have passed
  the request's table, and check_current_lock_constraints refuses the request after it without a run of its own: TOKUDB_OUT_OF_LOCKS although
  escalation would make room (`C93_refused_refuted`). The wait is not in a loop, so a spurious wake-up is taken for the end of the escalation
  (`C93_spurious_refuted`).
- **C94, the default compression.** toku_compress asserts only that the text is shorter than 2^32 bytes; qlz_compress makes nothing of one of more
  than 2^32 - 401 (ft/serialize/quicklz.cc:774) and its result is not checked (`C94_long_refuted`); no node gets that long. The decompressor is
  compiled without QLZ_MEMORY_SAFE: it writes as many bytes as the text says, not as the header says, and copies from before the start of the
  destination (`C94_damaged_refuted`); only the checksums stand before it (C50). The assumption of C53 and C76 on the libraries was false of quicklz
  for those lengths and for the empty text; it now leaves them out, and `C94_library` proves it for quicklz.
- **C95, counting the rows again.** ft_search_node calls the function of the cursor with the upper bound of a basement node and lock_only when it
  runs off its end (ft/ft-ops.cc:3794-3804). recount_rows_found does not look at lock_only and counts the call as a row
  (ft/ft-recount-rows.cc:54-69): every bound at which there is no row, say because it was deleted, adds one (`C95_counted`, `C95_rows_refuted`,
  `C95_empty_refuted`). The answer of the callback is not looked at when it is told of deleted rows in front of a row (ft/ft-ops.cc:3407-3408), and
  the next answer overwrites it (`C95_cancel_refuted`). The answer goes through a bool, so 1 is returned for it (`C95_code_refuted`). The number is
  set, not corrected: rows that others put or delete behind the cursor during the scan are lost from it until the next count
  (`C95_changed_refuted`).
- **C96, errors of a bulk load.** toku_loader_close returns the result of toku_ft_loader_abort when a put had failed, and that is 0 unless a
  temporary file could not be closed (src/loader.cc:434-436, ft/loader/loader.cc:2944-2962, 1168): close returns 0 and the dictionaries are empty
  (`C96_close_refuted`; C44 speaks of the close of the inner loader). A put after a failure in the background gets EINVAL, and the callback is told
  that code with the key of that put, not the failure (`C96_first_refuted`). merge_row_arrays_base notes the key only if there is a callback, which
  is set in close: equal keys found before are told without the key, and those left at the end for the first dictionary (`C96_key_refuted`). When
  the temporary files cannot be closed the callback is not told at all (`C96_silent_refuted`).
- **C97, ids below a recovered transaction.** A checkpoint logs the live transactions (xstillopen, xstillopenprepared) but not the counter of nested
  ids, and start_child_txn_for_recovery raises the counter only to the ids it replays (ft/txn/txn_child_manager.cc:66-77). Below a prepared root that
  was recovered a nested transaction may therefore get the id of one that committed into the root before the checkpoint; on a row both write, the
  abort of the second undoes the first one's write (`C97_recovered_refuted`). toku_txn_begin does not refuse a child of a prepared transaction
  (src/ydb_txn.cc:419-426); XA does not foresee one.
* C100: `env_dbrename` passes the real data directory to `toku_ft_rename_iname`, which puts it before inames that have the data directory in them
  already (`src/ydb.cc:3326-3330`, `ft/ft-ops.cc:5100-5101`, `src/ydb_db.cc:168`). With `dir_per_db` and a relative data directory no file is
  renamed; the error is overwritten by the result of the put into the directory (`src/ydb.cc:3332`), the call returns 0 and the dictionary is
  not to be found any more (`C100_same_file_refuted`, `C100_rename_refuted`, `C100_rename_lost`). Recovery uses the same name (`ft/logger/recover.cc:952-955`),
  abort the right one (`ft/txn/roll.cc:191-196`).
* C100: a data directory set to the empty name is accepted; files are then made in the root of the file system (`C100_place_refuted`).
