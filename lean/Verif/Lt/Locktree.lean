import Verif.Lt.Tree
import Verif.Lt.RangeBuffer

/-!
The lock table of one dictionary: `locktree` (locktree/locktree.cc), its memory charge in `locktree_manager`
(locktree/manager.cc), and the per-transaction record of acquired ranges kept by the API layer
(src/ydb_row_lock.cc).

Simplifications.  One dictionary; the manager's charge for all others is part of the initial value of `mem`.
Each function under a prepared locked key range is atomic.  `uint64_t` memory counters are unbounded, and
releasing more than is charged is an assertion failure (`none`), as in the code.  `sizeof(keyrange)` +
`sizeof(treenode)` is the parameter `overhead`.  Whether two key `DBT`s share memory only changes how many bytes
a record takes; it is a parameter of each event.  Timing statistics are not kept.
-/
namespace Verif.Lt
open Verif.Codec

/-- `comparator::operator()` on endpoints: `toku_dbt_infinite_compare` (util/dbt.cc:283-296) when one is infinite,
the user's function otherwise (ft/comparator.h:125-137; the memcmp shortcut must agree with the user's
function). -/
def Pt.cmp (cmp : Bytes → Bytes → Ordering) : Pt → Pt → Ordering
  | .negInf, .negInf => .eq
  | .posInf, .posInf => .eq
  | .posInf, _ => .gt
  | _, .posInf => .lt
  | .negInf, _ => .lt
  | _, .negInf => .gt
  | .key a, .key b => cmp a b

/-- Endpoints ordered by the comparator. -/
def Point (_ : Bytes → Bytes → Ordering) : Type := Pt

instance (cmp) : DecidableEq (Point cmp) := inferInstanceAs (DecidableEq Pt)
instance (cmp) : Repr (Point cmp) := inferInstanceAs (Repr Pt)
instance (cmp) : LE (Point cmp) := ⟨fun a b => (Pt.cmp cmp a b).isLE = true⟩
instance (cmp) : LT (Point cmp) := ⟨fun a b => Pt.cmp cmp a b = .lt⟩
instance (cmp) : DecidableLE (Point cmp) := fun a b => inferInstanceAs (Decidable ((Pt.cmp cmp a b).isLE = true))
instance (cmp) : DecidableLT (Point cmp) := fun a b => inferInstanceAs (Decidable (Pt.cmp cmp a b = .lt))

/-- What does not change: the comparator, the per-lock overhead and the memory limit. -/
structure Cfg where
  cmp : Bytes → Bytes → Ordering
  overhead : Nat
  maxMem : Nat

variable (cfg : Cfg)

abbrev Rng := Range (Point cfg.cmp)
abbrev LTree := Tree (Point cfg.cmp)
abbrev Lock := RowLock (Point cfg.cmp)

variable {cfg}

/-- A range from two endpoints. -/
def mkRange (l r : Pt) : Rng cfg := ⟨l, r⟩

/-- `keyrange::get_infinite_range`, locktree/keyrange.cc:136-140. -/
def infinite : Rng cfg := ⟨Pt.negInf, Pt.posInf⟩

/-- `row_lock_size_in_tree`, locktree/locktree.cc:191-194, with `keyrange::get_memory_size`
(locktree/keyrange.cc:109-113) and `get_insertion_memory_overhead` (locktree/concurrent_tree.cc:69-71). -/
def lockSize (x : Rng cfg) : Nat := Pt.size x.left + Pt.size x.right + cfg.overhead

/-- `note_mem_released`, locktree/manager.cc:300-303: releasing more than is charged fails. -/
def released (mem n : Nat) : Option Nat := if n ≤ mem then some (mem - n) else none

/-- `copy_fn_obj`, locktree/locktree.cc:156-168: collect every lock visited. -/
def collect (acc : List (Lock cfg)) (x : Rng cfg) (t : Txn) : List (Lock cfg) × Bool := (acc ++ [(x, t)], true)

/-- `txnid_set::add`, locktree/txnid_set.cc:87-90: ids kept sorted, once each. -/
def addTxn : List Txn → Txn → List Txn
  | [], t => [t]
  | x :: xs, t => if t < x then t :: x :: xs else if t = x then x :: xs else x :: addTxn xs t

/-- `determine_conflicting_txnids`, locktree/locktree.cc:173-188: the set collected; it is empty iff no conflict
exists. -/
def conflicting (locks : List (Lock cfg)) (txn : Txn) : List Txn :=
  locks.foldl (fun acc x => if x.2 ≠ txn then addTxn acc x.2 else acc) []

/-- Outcome of a lock request. -/
inductive Result where
  | granted
  | notGranted (conflicts : List Txn)
  | outOfLocks
  | none
deriving Repr, DecidableEq

/-- The loop of locktree/locktree.cc:358-363: extend the requested range over each overlapping lock and remove
that lock from the tree. -/
def consolidate (path : Tree.Path) : List (Lock cfg) → LTree cfg → Nat → Rng cfg → Option (LTree cfg × Nat × Rng cfg)
  | [], tree, mem, range => some (tree, mem, range)
  | x :: xs, tree, mem, range =>
    (lkrRemove tree path x.1).bind fun tree' =>
    (released mem (lockSize x.1)).bind fun mem' =>
    consolidate path xs tree' mem' (range.extend x.1)

/-- `locktree::acquire_lock_consolidated`, locktree/locktree.cc:333-374. -/
def acquireConsolidated (tree : LTree cfg) (mem : Nat) (txn : Txn) (range : Rng cfg) :
    Option (LTree cfg × Nat × Result) :=
  (lkrAcquire tree range).bind fun ⟨tree, path⟩ =>
  (lkrIterate tree path range collect []).bind fun ⟨tree, locks⟩ =>
    if conflicting locks txn = [] then
      (consolidate path locks tree mem range).bind fun ⟨tree, mem, dominating⟩ =>
      (lkrInsert tree path dominating txn).map fun tree => (tree, mem + lockSize dominating, .granted)
    else some (tree, mem, .notGranted (conflicting locks txn))

/-- `locktree`, locktree/locktree.h: range tree, the single-transaction optimisation's owner (0 when off), its
buffer and score; and `m_current_lock_memory` of the manager. -/
structure LockTable (cfg : Cfg) where
  tree : LTree cfg
  stoTxn : Txn
  stoBuf : RangeBuffer
  stoScore : Nat
  mem : Nat

/-- `STO_SCORE_THRESHOLD`, `STO_BUFFER_MAX_SIZE`, locktree/locktree.h:429-430. -/
def stoThreshold : Nat := 100
def stoBufferMax : Nat := 50 * 1024

/-- `locktree::create`, locktree/locktree.cc:79-97, with `mem` already charged for other dictionaries. -/
def LockTable.create (mem : Nat) : LockTable cfg := ⟨.nil, 0, .create, stoThreshold, mem⟩

/-- `locktree::sto_append`, locktree/locktree.cc:224-235. -/
def stoAppend (lt : LockTable cfg) (l r : Pt) (samePtr : Bool) : Option (LockTable cfg) :=
  (lt.stoBuf.append l r samePtr).map fun b =>
    { lt with stoBuf := b, mem := lt.mem + (b.memory - lt.stoBuf.memory) }

/-- `locktree::sto_end`, locktree/locktree.cc:237-245. -/
def stoEnd (lt : LockTable cfg) : Option (LockTable cfg) :=
  (released lt.mem lt.stoBuf.memory).map fun m => { lt with stoBuf := .create, stoTxn := 0, mem := m }

/-- First loop of `sto_migrate_buffer_ranges_to_tree`, locktree/locktree.cc:272-282: lock every buffered range in
a fresh tree. -/
def migrateIn (txn : Txn) : List (Pt × Pt) → LTree cfg → Nat → Option (LTree cfg × Nat)
  | [], tree, mem => some (tree, mem)
  | p :: ps, tree, mem =>
    (acquireConsolidated tree mem txn (mkRange p.1 p.2)).bind fun ⟨tree, mem, r⟩ =>
      if r = .granted then migrateIn txn ps tree mem else none

/-- `migrate_fn_obj`, locktree/locktree.cc:286-292: insert each range visited into the destination's root. -/
def migrateFn (dst : Option (LTree cfg)) (x : Rng cfg) (t : Txn) : Option (LTree cfg) × Bool :=
  (dst.bind fun d => lkrInsert d [] x t, true)

/-- `locktree::sto_migrate_buffer_ranges_to_tree`, locktree/locktree.cc:263-300.  The second loop does not
touch the memory charge: the ranges were charged when they entered the temporary tree. -/
def stoMigrate (lt : LockTable cfg) : Option (LockTable cfg) :=
  if lt.stoBuf.isEmpty || !lt.tree.isNil then none
  else
    lt.stoBuf.ranges.bind fun rs =>
    (migrateIn lt.stoTxn rs .nil lt.mem).bind fun ⟨tmp, mem⟩ =>
    (lkrIterate tmp [] infinite migrateFn (some lt.tree)).bind fun ⟨_, dst⟩ =>
    dst.bind fun tree => if tree.isNil then none else some { lt with tree := tree, mem := mem }

/-- `locktree::sto_end_early_no_accounting`, locktree/locktree.cc:247-251. -/
def stoEndEarly (lt : LockTable cfg) : Option (LockTable cfg) :=
  (stoMigrate lt).bind fun lt => (stoEnd lt).map fun lt => { lt with stoScore := 0 }

/-- The first half of `locktree::sto_try_acquire`, locktree/locktree.cc:302-317: start the optimisation, or call it
off. -/
def stoPrepare (lt : LockTable cfg) (txn : Txn) : Option (LockTable cfg) :=
  if lt.tree.isNil ∧ lt.stoBuf.isEmpty ∧ stoThreshold ≤ lt.stoScore then
    if lt.stoTxn ≠ 0 then none else some { lt with stoTxn := txn }
  else if lt.stoTxn ≠ 0 then
    if lt.stoTxn ≠ txn ∨ stoBufferMax < lt.stoBuf.numRanges then stoEndEarly lt else some lt
  else some lt

/-- `locktree::acquire_lock`, locktree/locktree.cc:379-401, with the second half of `sto_try_acquire`
(319-328). -/
def acquireLock (lt : LockTable cfg) (txn : Txn) (l r : Pt) (samePtr : Bool) : Option (LockTable cfg × Result) :=
  (stoPrepare lt txn).bind fun lt =>
    if lt.stoTxn ≠ 0 then
      if lt.stoTxn ≠ txn then none else (stoAppend lt l r samePtr).map fun lt => (lt, .granted)
    else if lt.stoBuf.isEmpty then
      (acquireConsolidated lt.tree lt.mem txn (mkRange l r)).map fun ⟨tree, mem, res⟩ =>
        ({ lt with tree := tree, mem := mem }, res)
    else none

/-- Loop of `remove_overlapping_locks_for_txnid`, locktree/locktree.cc:496-503. -/
def removeOwned (path : Tree.Path) (txn : Txn) : List (Lock cfg) → LTree cfg → Nat → Option (LTree cfg × Nat)
  | [], tree, mem => some (tree, mem)
  | x :: xs, tree, mem =>
    if x.2 = txn then
      (lkrRemove tree path x.1).bind fun tree =>
      (released mem (lockSize x.1)).bind fun mem => removeOwned path txn xs tree mem
    else removeOwned path txn xs tree mem

/-- `locktree::remove_overlapping_locks_for_txnid`, locktree/locktree.cc:479-508. -/
def removeOverlapping (lt : LockTable cfg) (txn : Txn) (range : Rng cfg) : Option (LockTable cfg) :=
  (lkrAcquire lt.tree range).bind fun ⟨tree, path⟩ =>
  (lkrIterate tree path range collect []).bind fun ⟨tree, locks⟩ =>
  (removeOwned path txn locks tree lt.mem).map fun ⟨tree, mem⟩ => { lt with tree := tree, mem := mem }

/-- `locktree::sto_try_release`, locktree/locktree.cc:518-536: the table, and whether everything was released. -/
def stoTryRelease (lt : LockTable cfg) (txn : Txn) : Option (LockTable cfg × Bool) :=
  if lt.stoTxn ≠ 0 then
    if lt.stoTxn ≠ txn ∨ !lt.tree.isNil then none else (stoEnd lt).map fun lt => (lt, true)
  else some (lt, false)

/-- End of `locktree::release_locks`, locktree/locktree.cc:560-562. -/
def bumpScore (lt : LockTable cfg) : LockTable cfg :=
  if lt.stoScore < stoThreshold then { lt with stoScore := lt.stoScore + 1 } else lt

/-! ### Escalation -/

/-- `num_row_locks_per_batch`, locktree/locktree.cc:655. -/
def batch : Nat := 128

/-- `extract_fn_obj::fn`, locktree/locktree.cc:573-587. -/
def extractFn (acc : List (Lock cfg)) (x : Rng cfg) (t : Txn) : List (Lock cfg) × Bool :=
  if acc.length < batch then (acc ++ [(x, t)], true) else (acc, false)

/-- Removal loop of `extract_first_n_row_locks`, locktree/locktree.cc:601-603. -/
def removeEach : List (Lock cfg) → LTree cfg → Nat → Option (LTree cfg × Nat)
  | [], tree, mem => some (tree, mem)
  | x :: xs, tree, mem =>
    (lkrRemove tree [] x.1).bind fun tree =>
    (released mem (lockSize x.1)).bind fun mem => removeEach xs tree mem

/-- Merge neighbours with the same owner, locktree/locktree.cc:664-680: the left end of the first and the right
end of the last. -/
def mergeRuns : List (Lock cfg) → List (Lock cfg)
  | [] => []
  | x :: xs =>
    match mergeRuns xs with
    | [] => [x]
    | y :: ys => if x.2 = y.2 then (⟨x.1.left, y.1.right⟩, x.2) :: ys else x :: y :: ys

/-- Find or create the range buffer of a transaction and append the escalated range, locktree/locktree.cc:684-701.
`find_by_txnid` (616-624) returns -1 when the id sought is the smaller one, so the array is kept with the largest id
first. -/
def addEscalated (ptr : Rng cfg → Bool) (x : Lock cfg) :
    List (Txn × RangeBuffer) → Option (List (Txn × RangeBuffer))
  | [] => (RangeBuffer.create.append x.1.left x.1.right (ptr x.1)).map fun b => [(x.2, b)]
  | (t, b) :: rest =>
    if t < x.2 then (RangeBuffer.create.append x.1.left x.1.right (ptr x.1)).map fun b' => (x.2, b') :: (t, b) :: rest
    else if x.2 = t then (b.append x.1.left x.1.right (ptr x.1)).map fun b' => (t, b') :: rest
    else (addEscalated ptr x rest).map fun rest' => (t, b) :: rest'

def addAllEscalated (ptr : Rng cfg → Bool) :
    List (Lock cfg) → List (Txn × RangeBuffer) → Option (List (Txn × RangeBuffer))
  | [], bufs => some bufs
  | x :: xs, bufs => (addEscalated ptr x bufs).bind fun bufs => addAllEscalated ptr xs bufs

/-- The outer loop, locktree/locktree.cc:660-710: take batches out of the tree until it is empty.  `fuel` bounds
the number of rounds; running out of it is reported as a failure and is shown not to happen. -/
def extractLoop (ptr : Rng cfg → Bool) : Nat → LTree cfg → Nat → List (Txn × RangeBuffer) →
    Option (LTree cfg × Nat × List (Txn × RangeBuffer))
  | 0, _, _, _ => none
  | fuel + 1, tree, mem, bufs =>
    (lkrIterate tree [] infinite extractFn []).bind fun ⟨tree, locks⟩ =>
    (removeEach locks tree mem).bind fun ⟨tree, mem⟩ =>
      if locks = [] then some (tree, mem, bufs)
      else (addAllEscalated ptr (mergeRuns locks) bufs).bind fun bufs => extractLoop ptr fuel tree mem bufs

/-- Insert a transaction's escalated ranges, locktree/locktree.cc:723-732. -/
def rebuildOne (txn : Txn) : List (Pt × Pt) → LTree cfg → Nat → Option (LTree cfg × Nat)
  | [], tree, mem => some (tree, mem)
  | p :: ps, tree, mem =>
    (lkrInsert tree [] (mkRange p.1 p.2) txn).bind fun tree =>
      rebuildOne txn ps tree (mem + lockSize (mkRange (cfg := cfg) p.1 p.2))

/-- Rebuild the tree from the range buffers, locktree/locktree.cc:713-739. -/
def rebuild : List (Txn × RangeBuffer) → LTree cfg → Nat → Option (LTree cfg × Nat)
  | [], tree, mem => some (tree, mem)
  | (t, b) :: rest, tree, mem =>
    b.ranges.bind fun rs => (rebuildOne t rs tree mem).bind fun ⟨tree, mem⟩ => rebuild rest tree mem

/-- `locktree::escalate`, locktree/locktree.cc:634-751.  Also returns the buffers handed to the callback, in order
(the callback is `escalateCallback` below; it does not touch this table, so it is run after the rebuild). -/
def escalate (lt : LockTable cfg) (ptr : Rng cfg → Bool) : Option (LockTable cfg × List (Txn × RangeBuffer)) :=
  (if lt.stoTxn ≠ 0 then stoEndEarly lt else some lt).bind fun lt =>
  (extractLoop ptr (lt.tree.size + 1) lt.tree lt.mem []).bind fun ⟨tree, mem, bufs⟩ =>
    if !tree.isNil then none
    else (rebuild bufs tree mem).map fun ⟨tree, mem⟩ => ({ lt with tree := tree, mem := mem }, bufs)

/-! ### Transactions and their record of acquired ranges -/

/-- A transaction that has left the transaction manager and releases its locks: whether `release_locks` has
begun, the ranges it has still to walk over, the buffer (whose memory is given back at the end) and whether the
optimisation released everything at once. -/
structure Releasing where
  txn : Txn
  started : Bool
  rest : List (Pt × Pt)
  buffer : RangeBuffer
  viaSto : Bool

/-- The table, each live transaction's range buffer (`lt_map` entry), the granted ranges not yet noted there
(between the grant and `db_txn_note_row_lock`), and the transactions releasing. -/
structure Sys (cfg : Cfg) where
  lt : LockTable cfg
  bufs : List (Txn × RangeBuffer)
  pending : List (Txn × (Pt × Pt))
  releasing : List Releasing

/-- Initially nothing is locked. -/
def Sys.init (mem : Nat) : Sys cfg := ⟨.create mem, [], [], []⟩

/-- A transaction's buffer. -/
def lookupBuf (t : Txn) : List (Txn × RangeBuffer) → Option RangeBuffer
  | [] => none
  | (u, b) :: rest => if t = u then some b else lookupBuf t rest

def setBuf (t : Txn) (b : RangeBuffer) : List (Txn × RangeBuffer) → List (Txn × RangeBuffer)
  | [] => [(t, b)]
  | (u, c) :: rest => if t = u then (u, b) :: rest else (u, c) :: setBuf t b rest

/-- `db_txn_note_row_lock`, src/ydb_row_lock.cc:68-101. -/
def noteRowLock (s : Sys cfg) (t : Txn) (l r : Pt) (samePtr : Bool) : Option (Sys cfg) :=
  let old := (lookupBuf t s.bufs).getD .create
  (old.append l r samePtr).bind fun b =>
    if b.memory ≤ old.memory then none
    else some { s with
      bufs := setBuf t b s.bufs
      pending := s.pending.filter (·.1 ≠ t)
      lt := { s.lt with mem := s.lt.mem + (b.memory - old.memory) } }

/-- Copy a buffer by appending its ranges to a new one, src/ydb_row_lock.cc:149-158. -/
def copyBuf (ptr : Pt × Pt → Bool) : List (Pt × Pt) → RangeBuffer → Option RangeBuffer
  | [], b => some b
  | p :: ps, b => (b.append p.1 p.2 (ptr p)).bind fun b => copyBuf ptr ps b

/-- `toku_db_txn_escalate_callback`, src/ydb_row_lock.cc:103-174, for one transaction.  A transaction that is
releasing is no longer known to the transaction manager; one that is live but has no buffer yet must have exactly
one range. -/
def escalateCallback (ptr : Pt × Pt → Bool) (s : Sys cfg) (t : Txn) (b : RangeBuffer) : Option (Sys cfg) :=
  match lookupBuf t s.bufs with
  | some old =>
    (released s.lt.mem old.memory).bind fun mem =>
    b.ranges.bind fun rs =>
    (copyBuf ptr rs .create).map fun new =>
      { s with bufs := setBuf t new s.bufs, lt := { s.lt with mem := mem + new.memory } }
  | none =>
    if s.releasing.any (·.txn = t) then some s
    else if b.numRanges = 1 then some s else none

def escalateCallbacks (ptr : Pt × Pt → Bool) : List (Txn × RangeBuffer) → Sys cfg → Option (Sys cfg)
  | [], s => some s
  | (t, b) :: rest, s => (escalateCallback ptr s t b).bind fun s => escalateCallbacks ptr rest s

/-- Escalation with its callbacks. -/
def escalateSys (s : Sys cfg) (ptr : Rng cfg → Bool) (ptr' : Pt × Pt → Bool) : Option (Sys cfg) :=
  (escalate s.lt ptr).bind fun ⟨lt, bufs⟩ => escalateCallbacks ptr' bufs { s with lt := lt }

/-- `check_current_lock_constraints`, locktree/manager.cc:342-358: escalate when over the threshold and refuse if
that did not help. -/
def checkConstraints (s : Sys cfg) (big : Bool) (ptr : Rng cfg → Bool) (ptr' : Pt × Pt → Bool) :
    Option (Sys cfg × Bool) :=
  (if big ∧ cfg.maxMem / 2 ≤ s.lt.mem then
      (escalateSys s ptr ptr').map fun s => (s, decide (cfg.maxMem / 2 ≤ s.lt.mem))
    else some (s, false)).bind fun ⟨s, refused⟩ =>
  if ¬ refused ∧ cfg.maxMem ≤ s.lt.mem then
    (escalateSys s ptr ptr').map fun s => (s, decide (cfg.maxMem ≤ s.lt.mem))
  else some (s, refused)

/-- What can happen. -/
inductive Ev (cfg : Cfg) where
  /-- A lock request reaches the table (first attempt or retry). -/
  | acquire (t : Txn) (l r : Pt) (samePtr : Bool)
  /-- The same, preceded by the memory check (`try_acquire_lock`). -/
  | tryAcquire (t : Txn) (l r : Pt) (samePtr big : Bool) (ptr : Rng cfg → Bool) (ptr' : Pt × Pt → Bool)
  /-- The transaction notes the granted range in its buffer. -/
  | note (t : Txn) (samePtr : Bool)
  /-- Escalation runs. -/
  | escalate (ptr : Rng cfg → Bool) (ptr' : Pt × Pt → Bool)
  /-- The transaction commits or aborts and leaves the transaction manager. -/
  | retire (t : Txn)
  /-- It begins to release its locks. -/
  | relStart (t : Txn)
  /-- It releases the next range of its buffer. -/
  | relStep (t : Txn)
  /-- It is done and frees its buffer. -/
  | relEnd (t : Txn)

/-- `t` is between requests: not releasing and nothing granted but not yet noted. -/
def idle (s : Sys cfg) (t : Txn) : Bool := !s.releasing.any (·.txn = t) && !s.pending.any (·.1 = t)

/-- Run `acquire_lock` and remember a grant until it is noted. -/
def doAcquire (s : Sys cfg) (t : Txn) (l r : Pt) (samePtr : Bool) : Option (Sys cfg × Result) :=
  (acquireLock s.lt t l r samePtr).map fun ⟨lt, res⟩ =>
    ({ s with lt := lt, pending := if res = .granted then (t, (l, r)) :: s.pending else s.pending }, res)

def findReleasing (t : Txn) : List Releasing → Option Releasing
  | [] => none
  | x :: xs => if x.txn = t then some x else findReleasing t xs

/-- One step; an event that cannot happen in this state changes nothing.  `tryAcquire` is
`locktree::try_acquire_lock`, locktree/locktree.cc:403-416; `relStart`, `relStep` and `relEnd` are
`toku_db_release_lt_key_ranges` and `locktree::release_locks`, src/ydb_row_lock.cc:276-296 and
locktree/locktree.cc:540-564. -/
def step (s : Sys cfg) : Ev cfg → Option (Sys cfg × Result)
  | .acquire t l r samePtr =>
    if idle s t then doAcquire s t l r samePtr else some (s, .none)
  | .tryAcquire t l r samePtr big ptr ptr' =>
    if idle s t then
      (checkConstraints s big ptr ptr').bind fun ⟨s, refused⟩ =>
        if refused then some (s, .outOfLocks) else doAcquire s t l r samePtr
    else some (s, .none)
  | .note t samePtr =>
    match s.pending.find? (·.1 = t) with
    | some (_, p) => (noteRowLock s t p.1 p.2 samePtr).map fun s => (s, .none)
    | none => some (s, .none)
  | .escalate ptr ptr' => (escalateSys s ptr ptr').map fun s => (s, .none)
  | .retire t =>
    match idle s t, lookupBuf t s.bufs with
    | true, some b =>
      some ({ s with
        bufs := s.bufs.filter (·.1 ≠ t)
        releasing := ⟨t, false, [], b, false⟩ :: s.releasing }, .none)
    | _, _ => some (s, .none)
  | .relStart t =>
    match findReleasing t s.releasing with
    | some ⟨_, false, _, b, _⟩ =>
      (stoTryRelease s.lt t).bind fun ⟨lt, viaSto⟩ =>
      b.ranges.map fun rs =>
        ({ s with
            lt := lt
            releasing := ⟨t, true, if viaSto then [] else rs, b, viaSto⟩ :: s.releasing.filter (·.txn ≠ t) }, .none)
    | _ => some (s, .none)
  | .relStep t =>
    match findReleasing t s.releasing with
    | some ⟨_, true, p :: ps, b, v⟩ =>
      (removeOverlapping s.lt t (mkRange p.1 p.2)).map fun lt =>
        ({ s with lt := lt, releasing := ⟨t, true, ps, b, v⟩ :: s.releasing.filter (·.txn ≠ t) }, .none)
    | _ => some (s, .none)
  | .relEnd t =>
    match findReleasing t s.releasing with
    | some ⟨_, true, [], b, v⟩ =>
      let lt := if v then s.lt else bumpScore s.lt
      (released lt.mem b.memory).map fun mem =>
        ({ s with lt := { lt with mem := mem }, releasing := s.releasing.filter (·.txn ≠ t) }, .none)
    | _ => some (s, .none)

/-- A run. -/
def run (s : Sys cfg) : List (Ev cfg) → Option (Sys cfg × List Result)
  | [] => some (s, [])
  | e :: es => (step s e).bind fun ⟨s, r⟩ => (run s es).map fun ⟨s, rs⟩ => (s, r :: rs)

end Verif.Lt
