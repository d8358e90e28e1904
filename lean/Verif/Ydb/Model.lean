import Verif.Ydb.Flags

/-!
Transaction handles of the client API: `DB_ENV->txn_begin`, `DB_TXN->commit`, `abort`, `prepare`,
`discard`, and the effect of row operations on a handle (src/ydb_txn.cc, src/ydb_row_lock.cc,
ft/txn/txn.cc).

Simplified: the log is a list of records and the log sequence number of a record is its place in
it, counted from one; how the log buffers reach the disk is `Verif.Log`. The rollback data of a
transaction is its number of entries. Handles are numbered in the order they were created and a
freed handle is never handed out again. The multi-operation lock, progress polling, hot-indexer
pins, the set of open dictionaries and the engine-status counters are left out.
-/

namespace Verif.Ydb

/-- A `DB_TXN *`. -/
abbrev Id := Nat

/-- `TOKUTXN_STATE`, ft/txn/txn_state.h 43-49. -/
inductive St where
  | live | preparing | committing | aborting
  deriving DecidableEq, Repr

/-- The result codes of the handle operations. -/
inductive Ret where
  | ok | einval
  deriving DecidableEq, Repr

/-- The log records a transaction handle causes (ft/logger/logformat.cc: xbegin, xcommit, xabort,
xprepare; `work` stands for any record of a row operation). -/
inductive Rec where
  | begin (t : Id) (parent : Option Id)
  | work (t : Id)
  | commit (t : Id)
  | abort (t : Id)
  | prepare (t : Id)
  deriving DecidableEq, Repr

/-- One step of the end of a transaction that other transactions can notice: it leaves the set of
live transactions; its row locks are released. -/
inductive Ev where
  | complete (t : Id)
  | release (t : Id)
  deriving DecidableEq, Repr

/-- `struct __toku_db_txn` with its internal part (src/ydb-internal.h 213-226) and its `TOKUTXN`
(ft/txn/txn.h 111-190). `child` is the handle's child and `tchild` the `TOKUTXN`'s child: the code
keeps both and clears them at different moments. `nXids` is the length of the transaction's id
stack, and zero for a transaction declared read-only, which has none. `locks` is `lt_map`: the row
locks to release when the transaction ends. -/
structure Txn where
  parent : Option Id
  child : Option Id
  tchild : Option Id
  flags : Word
  iso : Iso
  snap : SnapType
  ro : Bool
  state : St
  force : Bool
  doFsync : Bool
  fsyncLsn : Nat
  nRoll : Nat
  logged : Bool
  nXids : Nat
  locks : List Nat
  deriving DecidableEq, Repr

/-- The part of `DB_ENV` the handle operations use. `fsynced` is the number of log records known
to be on disk. -/
structure Env where
  panicked : Bool
  logOpen : Bool
  initTxn : Bool
  txns : Id → Option Txn
  next : Id
  log : List Rec
  fsynced : Nat
  trace : List Ev

/-- Write to a handle. -/
def Env.set (e : Env) (t : Id) (x : Option Txn) : Env :=
  { e with txns := fun i => if i = t then x else e.txns i }

/-- A fresh, opened environment. -/
def Env.init : Env := ⟨false, true, true, fun _ => none, 0, [], 0, []⟩

/-- `MAX_TRANSACTION_RECORDS`, ft/txn/xids.h 63-64. -/
def MAX_TRANSACTION_RECORDS : Nat := 254

/-- `toku_xids_can_create_child`, ft/txn/xids.cc 92-95 (its assertion is a failure here). -/
def canCreateChild (nXids : Nat) : Option Bool :=
  if nXids < MAX_TRANSACTION_RECORDS then some (nXids + 1 != MAX_TRANSACTION_RECORDS) else none

/-- The isolation level chosen by the switch of `toku_txn_begin`, src/ydb_txn.cc 487-522; the outer
`none` is the `assert(false)`, the inner one the refusal to inherit without a parent. -/
def chooseIso (isoFlags : Word) (parent : Option Txn) : Option (Option Iso) :=
  if isoFlags = DB_INHERIT_ISOLATION then some (parent.map (·.iso))
  else if isoFlags = DB_READ_COMMITTED then some (some .readCommitted)
  else if isoFlags = DB_READ_COMMITTED_ALWAYS then some (some .readCommittedAlways)
  else if isoFlags = DB_READ_UNCOMMITTED then some (some .readUncommitted)
  else if isoFlags = DB_TXN_SNAPSHOT then some (some .snapshot)
  else if isoFlags = DB_SERIALIZABLE then some (some .serializable)
  else if isoFlags = 0#32 then
    some (some (match parent with | some p => p.iso | none => .serializable))
  else none

/-- The snapshot a new transaction takes, src/ydb_txn.cc 563-584. -/
def snapType : Iso → SnapType
  | .snapshot => .root
  | .readCommitted => .child
  | .readCommittedAlways => .copies
  | .serializable => .none
  | .readUncommitted => .none

/-- The flag checks of `toku_txn_begin`, src/ydb_txn.cc 426-548: the handle's flags, its isolation
level and whether it is read-only; `some none` is EINVAL, `none` a failed assertion. -/
def checkFlags (flags : Word) (parent : Option Txn) : Option (Option (Word × Iso × Bool)) :=
  let parentRO := parent.any (fun p => p.flags &&& DB_TXN_READ_ONLY != 0#32)
  let declared := flags &&& DB_TXN_READ_ONLY != 0#32
  let tf := DB_TXN_NOWAIT ||| (if declared then DB_TXN_READ_ONLY else 0#32)
  let flags := if declared then flags &&& ~~~DB_TXN_READ_ONLY else flags
  if declared && parent.isSome && !parentRO then some none else
  let tf := if parentRO then tf ||| DB_TXN_READ_ONLY else tf
  let ro := declared || parentRO
  let isoFlags := flags &&& DB_ISOLATION_FLAGS
  if !(isoFlags == 0#32 || isoFlags == DB_TXN_SNAPSHOT || isoFlags == DB_READ_COMMITTED ||
      isoFlags == DB_READ_COMMITTED_ALWAYS || isoFlags == DB_READ_UNCOMMITTED ||
      isoFlags == DB_SERIALIZABLE || isoFlags == DB_INHERIT_ISOLATION) then some none else
  let flags := flags &&& ~~~isoFlags
  match chooseIso isoFlags parent with
  | none => none
  | some none => some none
  | some (some iso) =>
    if parent.any (fun p => decide (iso ≠ p.iso)) then some none else
    let flags := if flags &&& DB_TXN_NOWAIT != 0#32 then flags &&& ~~~DB_TXN_NOWAIT else flags
    let nosync := flags &&& DB_TXN_NOSYNC != 0#32
    let tf := if nosync then tf ||| DB_TXN_NOSYNC else tf
    let flags := if nosync then flags &&& ~~~DB_TXN_NOSYNC else flags
    if flags ≠ 0#32 then some none else some (some (tf, iso, ro))

/-- `toku_txn_begin_with_xid`, ft/txn/txn.cc 122-187, for a client transaction: refuse to nest too
deep, and the length of the new id stack (`txn_create_xids`, 101-119). -/
def beginWithXid (parent : Option Txn) (ro : Bool) : Option (Option Nat) :=
  match parent with
  | none => some (some (if ro then 0 else 1))
  | some p =>
    if ro then (if p.ro then some (some 0) else none) else
    match canCreateChild p.nXids with
    | none => none
    | some false => some none
    | some true => some (some (p.nXids + 1))

/-- Follow the parent argument of `toku_txn_begin`; `none` if it points to a freed handle. -/
def parentOf (e : Env) : Option Id → Option (Option Txn)
  | none => some none
  | some i => (e.txns i).map some

/-- `toku_txn_begin`, src/ydb_txn.cc 419-610, without a parent or with the live parent `stxn`. The
new handle is `e.next`. -/
def begin (e : Env) (stxn : Option Id) (flags : Word) : Option (Env × Ret) :=
  if e.panicked then some (e, .einval) else
  match parentOf e stxn with
  | none => none
  | some parent =>
    if parent.any (·.child.isSome) then some (e, .einval) else
    if !e.logOpen then some (e, .einval) else
    if !e.initTxn then some (e, .einval) else
    match checkFlags flags parent with
    | none => none
    | some none => some (e, .einval)
    | some (some (tf, iso, ro)) =>
      match beginWithXid parent ro with
      | none => none
      | some none => some (e, .einval)
      | some (some n) =>
        let t := e.next
        let x : Txn := ⟨stxn, none, none, tf, iso, snapType iso, ro, .live, false, false, 0, 0,
          false, n, []⟩
        let e1 := { e.set t (some x) with next := t + 1 }
        match stxn, parent with
        | some i, some p => some (e1.set i (some { p with child := some t, tchild := some t }), .ok)
        | _, _ => some (e1, .ok)

/-- Append a log record; its sequence number is the new length of the log. -/
def Env.append (e : Env) (r : Rec) : Env := { e with log := e.log ++ [r] }

/-- `toku_txn_is_read_only`, ft/txn/txn.cc 662-674: nothing was logged for it (its assertions are a
failure here). -/
def isReadOnly (x : Txn) : Option Bool :=
  if x.logged then some false
  else if x.nRoll = 0 ∧ x.fsyncLsn = 0 then some true else none

/-- `txn_note_commit` / `txn_note_abort`, ft/txn/txn.cc 353-384, 427-458. -/
def noteEnd (x : Txn) (s : St) : Option Txn :=
  match isReadOnly x with
  | none => none
  | some true => if x.state = .live then some { x with state := s } else none
  | some false => some { x with state := s }

/-- `toku_txn_commit_with_lsn` (ft/txn/txn.cc 386-417) with the part of `toku_rollback_commit`
(ft/txn/rollback-apply.cc 155-243) that hands the entries and the wish for an fsync to the parent. -/
def commitTxn (e : Env) (t : Id) (nosync : Bool) : Option Env :=
  match e.txns t with
  | none => none
  | some x =>
    if x.tchild.isSome then none else
    match noteEnd x .committing with
    | none => none
    | some x =>
      let x := { x with doFsync := x.parent.isNone && (x.force || (!nosync && decide (x.nRoll > 0))) }
      match isReadOnly x with
      | none => none
      | some rd =>
        let e := if rd then e else e.append (.commit t)
        let x := if rd then x else { x with fsyncLsn := e.log.length }
        let e := e.set t (some x)
        match x.parent with
        | none => some e
        | some p =>
          match e.txns p with
          | none => none
          | some y => some (e.set p (some { y with force := y.force || x.force, nRoll := y.nRoll + x.nRoll }))

/-- `toku_txn_abort_with_lsn`, ft/txn/txn.cc 460-481. -/
def abortTxn (e : Env) (t : Id) : Option Env :=
  match e.txns t with
  | none => none
  | some x =>
    if x.tchild.isSome then none else
    match noteEnd x .aborting with
    | none => none
    | some x =>
      let x := { x with doFsync := false }
      match isReadOnly x with
      | none => none
      | some rd =>
        let e := if rd then e else e.append (.abort t)
        let x := if rd then x else { x with fsyncLsn := e.log.length }
        some (e.set t (some x))

/-- `toku_txn_complete_txn`, ft/txn/txn.cc 557-578: the transaction leaves the live transactions. -/
def completeTxn (e : Env) (t : Id) : Option Env :=
  match e.txns t with
  | none => none
  | some x =>
    if x.state = .live then none else
    let e := { e with trace := e.trace ++ [.complete t] }
    match x.parent with
    | none => some e
    | some p =>
      match e.txns p with
      | none => none
      | some y => some (e.set p (some { y with tchild := none }))

/-- `toku_txn_release_locks`, src/ydb_txn.cc 58-73. -/
def releaseLocks (e : Env) (t : Id) : Option Env :=
  match e.txns t with
  | none => none
  | some x => some { e.set t (some { x with locks := [] }) with trace := e.trace ++ [.release t] }

/-- `toku_txn_maybe_fsync_log`, ft/txn/txn.cc 526-530, with the guarantee of
`toku_logger_fsync_if_lsn_not_fsynced`: the records up to `lsn` are on disk afterwards. -/
def maybeFsync (e : Env) (lsn : Nat) (doFsync : Bool) : Env :=
  if doFsync then { e with fsynced := max e.fsynced lsn } else e

/-- `toku_txn_destroy`, src/ydb_txn.cc 75-80: the handle is freed. -/
def destroy (e : Env) (t : Id) : Env := e.set t none

/-- "Remove from parent", src/ydb_txn.cc 98-101 and 169-172. -/
def detach (e : Env) (t : Id) : Option Env :=
  match e.txns t with
  | none => none
  | some x =>
    if x.child.isSome then none else
    match x.parent with
    | none => some e
    | some p =>
      match e.txns p with
      | none => none
      | some y => if y.child = some t then some (e.set p (some { y with child := none })) else none

/-- `toku_txn_force_fsync_on_commit`, ft/txn/txn.cc 608-610, when the flag asks for it. -/
def forceFsync (e : Env) (t : Id) (sync : Bool) : Option Env :=
  match e.txns t with
  | none => none
  | some x => some (if sync then e.set t (some { x with force := true }) else e)

/-- The end of `toku_txn_commit`, src/ydb_txn.cc 122-154: leave the live transactions, release the
locks, fsync, free. -/
def finishCommit (e : Env) (t : Id) (flags : Word) : Option (Env × Ret) :=
  match e.txns t with
  | none => none
  | some x =>
    match completeTxn e t with
    | none => none
    | some e =>
      match releaseLocks e t with
      | none => none
      | some e => some (destroy (maybeFsync e x.fsyncLsn x.doFsync) t, if flags ≠ 0#32 then .einval else .ok)

/-- `toku_txn_commit` after its children are gone, src/ydb_txn.cc 96-154. -/
def commitSelf (e : Env) (t : Id) (flags : Word) : Option (Env × Ret) :=
  match detach e t with
  | none => none
  | some e =>
    let sync := flags &&& DB_TXN_SYNC != 0#32
    match forceFsync e t sync with
    | none => none
    | some e =>
      let flags := if sync then flags &&& ~~~DB_TXN_SYNC else flags
      match e.txns t with
      | none => none
      | some x =>
        let nosync := flags &&& DB_TXN_NOSYNC != 0#32 || x.flags &&& DB_TXN_NOSYNC != 0#32
        let flags := flags &&& ~~~DB_TXN_NOSYNC
        match (if flags ≠ 0#32 then abortTxn e t else commitTxn e t nosync) with
        | none => none
        | some e => finishCommit e t flags

/-- `toku_txn_commit`, src/ydb_txn.cc 82-154. `fuel` bounds the depth of the recursion into the
children; running out counts as a failure. A child that cannot be committed panics the
environment. -/
def commitRec : Nat → Env → Id → Word → Option (Env × Ret)
  | 0, _, _, _ => none
  | fuel + 1, e, t, flags =>
    if e.panicked then some (e, .einval) else
    match e.txns t with
    | none => none
    | some x =>
      match x.child with
      | none => commitSelf e t flags
      | some c =>
        match commitRec fuel e c flags with
        | none => none
        | some (e, r) =>
          let e := if r ≠ .ok then { e with panicked := true } else e
          if e.panicked then some (e, .einval) else commitSelf e t flags

/-- `DB_TXN->commit`: `locked_txn_commit`, src/ydb_txn.cc 262-286, 312-315. -/
def commit (e : Env) (t : Id) (flags : Word) : Option (Env × Ret) := commitRec (e.next + 1) e t flags

/-- `toku_txn_abort` after its children are gone, src/ydb_txn.cc 168-186. -/
def abortSelf (e : Env) (t : Id) : Option (Env × Ret) :=
  match detach e t with
  | none => none
  | some e =>
    match abortTxn e t with
    | none => none
    | some e =>
      match completeTxn e t with
      | none => none
      | some e =>
        match releaseLocks e t with
        | none => none
        | some e => some (destroy e t, .ok)

/-- `DB_TXN->abort`: `toku_txn_abort`, src/ydb_txn.cc 156-186. The children are committed, which is
as good as aborting them since their work becomes the parent's. -/
def abort (e : Env) (t : Id) : Option (Env × Ret) :=
  if e.panicked then some (e, .einval) else
  match e.txns t with
  | none => none
  | some x =>
    match x.child with
    | none => abortSelf e t
    | some c =>
      match commitRec (e.next + 1) e c DB_TXN_NOSYNC with
      | none => none
      | some (e, r) =>
        let e := if r ≠ .ok then { e with panicked := true } else e
        if e.panicked then some (e, .einval) else abortSelf e t

/-- `toku_txn_prepare_txn` (ft/txn/txn.cc 491-511) and the fsync after it (src/ydb_txn.cc 221-236). -/
def prepareSelf (e : Env) (t : Id) (flags : Word) : Option (Env × Ret) :=
  match e.txns t with
  | none => none
  | some x =>
    if x.child.isSome then none else
    let nosync := flags &&& DB_TXN_NOSYNC != 0#32 || x.flags &&& DB_TXN_NOSYNC != 0#32
    match isReadOnly x with
    | none => none
    | some true => some (maybeFsync e x.fsyncLsn x.doFsync, .ok)
    | some false =>
      if x.state ≠ .live then none else
      let e := e.append (.prepare t)
      let x := { x with
        state := .preparing
        doFsync := x.force || (!nosync && decide (x.nRoll > 0))
        fsyncLsn := e.log.length }
      some (maybeFsync (e.set t (some x)) x.fsyncLsn x.doFsync, .ok)

/-- `DB_TXN->prepare`: `toku_txn_xa_prepare`, src/ydb_txn.cc 188-239. -/
def prepare (e : Env) (t : Id) (flags : Word) : Option (Env × Ret) :=
  match e.txns t with
  | none => none
  | some x =>
    if x.parent.isSome then some (e, .ok) else
    if e.panicked then some (e, .einval) else
    match x.child with
    | none => prepareSelf e t flags
    | some c =>
      match commitRec (e.next + 1) e c 0#32 with
      | none => none
      | some (e, r) =>
        let e := if r ≠ .ok then { e with panicked := true } else e
        if e.panicked then some (e, .einval) else prepareSelf e t flags

/-- `maybe_log_begin_txn_for_write_operation_unlocked`, ft/txn/txn.cc 631-653: the ancestors first. -/
def logBegin : Nat → Env → Id → Option Env
  | 0, _, _ => none
  | fuel + 1, e, t =>
    match e.txns t with
    | none => none
    | some x =>
      if x.logged then some e else
      match (match x.parent with | none => some e | some p => logBegin fuel e p) with
      | none => none
      | some e =>
        let e := e.append (.begin t x.parent)
        match e.txns t with
        | none => none
        | some x => some (e.set t (some { x with logged := true }))

/-- `txn_oldest_ancester`, src/ydb_row_lock.cc 54-59. -/
def oldest : Nat → Env → Id → Option Id
  | 0, _, _ => none
  | fuel + 1, e, t =>
    match e.txns t with
    | none => none
    | some x =>
      match x.parent with
      | none => some t
      | some p => oldest fuel e p

/-- `toku_db_get_range_lock` when the lock tree grants the lock `k` (src/ydb_row_lock.cc 166-261 with
`db_txn_note_row_lock`, 69-102): it is charged to the oldest ancestor. -/
def lock (e : Env) (t : Id) (k : Nat) : Option (Env × Ret) :=
  match oldest (e.next + 1) e t with
  | none => none
  | some a =>
    match e.txns a with
    | none => none
    | some x => some (e.set a (some { x with locks := x.locks ++ [k] }), .ok)

/-- A row operation such as `toku_db_put` (src/ydb_write.cc 228-262) that is granted its lock `k`:
refused while a child exists and on a read-only transaction; otherwise the begin records that are
due, the record itself, and one rollback entry. -/
def write (e : Env) (t : Id) (k : Nat) : Option (Env × Ret) :=
  if e.panicked then some (e, .einval) else
  match e.txns t with
  | none => none
  | some x =>
    if x.child.isSome then some (e, .einval) else
    if x.flags &&& DB_TXN_READ_ONLY != 0#32 then some (e, .einval) else
    match lock e t k with
    | none => none
    | some (e, _) =>
      match logBegin (e.next + 1) e t with
      | none => none
      | some e =>
        let e := e.append (.work t)
        match e.txns t with
        | none => none
        | some x =>
          if x.state = .live ∨ x.state = .preparing then
            some (e.set t (some { x with nRoll := x.nRoll + 1 }), .ok)
          else none

/-- `toku_txn_discard`, src/ydb_txn.cc 334-370: forget a prepared transaction; its rollback data is
dropped without being applied. -/
def discard (e : Env) (t : Id) (flags : Word) : Option (Env × Ret) :=
  if flags ≠ 0#32 then some (e, .einval) else
  match e.txns t with
  | none => none
  | some x =>
    if x.state ≠ .preparing then some (e, .einval) else
    match completeTxn e t with
    | none => none
    | some e =>
      match releaseLocks e t with
      | none => none
      | some e => some (destroy e t, .ok)

end Verif.Ydb
