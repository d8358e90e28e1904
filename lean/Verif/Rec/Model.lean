import Verif.Ule.Model
/-!
Model of the recovery log, the checkpoints and recovery: ft/logger/recover.cc, the parts of ft/txn/txn.cc, ft/txn/roll.cc,
ft/txn/rollback-apply.cc and ft/ft-ops.cc that both the running system and recovery go through, the order in which
ft/cachetable/cachetable.cc (`checkpointer`) and ft/ft.cc write a checkpoint, and the choice of a header by
ft/serialize/ft-serialize.cc.

Simplifications, for the whole file:
* The set of dictionaries is fixed and all of them are open (no fcreate, fopen, fclose, fdelete, frename, no change of
  descriptor, no bulk load); `update` and `update_broadcast` are left out.
* A row is the version stack of `Verif.Ule`, without garbage collection.  That the tree delivers each message once, in order, is
  the subject of `Verif.Tree`; here a message acts at once.
* A client call runs from its log record to its last message without a checkpoint beginning in between: both sides hold the
  multi operation lock (ft/cachetable/checkpoint.cc).  Calls of different threads then commute, as they work on different rows.
* Outcome `none`: an assertion fails (the process aborts).
-/
namespace Verif.Rec
open Verif.Ule (Ule Bytes Op emptyUle msgModifyU)

/-- A dictionary, `FILENUM` in the log. -/
abbrev File := Nat
abbrev Key := Bytes

/-- `TXNID_PAIR`, ft/txn/txn.h:52-55: the id of the root transaction, and that of the nested one (0 for a root). -/
structure Xid where
  root : Nat
  child : Nat
  deriving DecidableEq, Repr

/-- The order in which `txn_manager_iter` (ft/txn/txn_manager.cc) goes through the live transactions: roots by id (`live_root_txns` is
sorted), and below each root from parent to child, which is by id too (`start_child_txn`, ft/txn/txn_child_manager.cc). -/
def Xid.lt (a b : Xid) : Bool := a.root < b.root || (a.root == b.root && a.child < b.child)

/-- What a client writes to a row: `FT_INSERT`, `FT_INSERT_NO_OVERWRITE`, `FT_DELETE_ANY`. -/
inductive Wr where
  | put (v : Bytes)
  | putNew (v : Bytes)
  | del
  deriving DecidableEq, Repr

/-- The message for it. -/
def Wr.op : Wr → Op
  | .put v => .insert v
  | .putNew v => .insertNoOverwrite v
  | .del => .delete

/-- One row written. -/
structure RowWr where
  file : File
  key : Key
  wr : Wr
  deriving DecidableEq, Repr

/-- A rollback entry, `cmdinsert` or `cmddelete` (ft/logger/logformat.cc:73-93): which row, and whether it was a delete. -/
structure Act where
  file : File
  key : Key
  isDel : Bool
  deriving DecidableEq, Repr

def RowWr.act (o : RowWr) : Act := ⟨o.file, o.key, match o.wr with | .del => true | _ => false⟩

/-- Log records, ft/logger/logformat.cc:96-237.  `enq` stands for enq_insert, enq_insert_no_overwrite, enq_delete_any, and, with more than
one row, for enq_insert_multiple and enq_delete_multiple: there the rows are computed by the client's generator, a function of the
record.  Of `xstillopen` and `xstillopenprepared` the place of the rollback nodes is left out: it is looked up by the id. -/
inductive Rec where
  | xbegin (p : Xid) (parent : Option Xid)
  | enq (p : Xid) (ops : List RowWr)
  | xcommit (p : Xid)
  | xabort (p : Xid)
  | xprepare (p : Xid)
  | ckBegin (lastXid : Nat)
  | fassoc (f : File)
  | fassocRb
  | stillOpen (p : Xid) (parent : Option Xid)
  | stillPrep (p : Xid)
  | ckEnd (begin : Nat) (numFiles numTxns : Nat)
  | comment
  deriving DecidableEq, Repr

/-- `struct tokutxn`, ft/txn/txn.h:149-231: parent, `xids` (ids from the root down), rollback entries (oldest first; the nodes they are kept in
are the subject of `Verif.Roll`), `state == TOKUTXN_PREPARING`. -/
structure Txn where
  parent : Option Xid
  chain : List Nat
  acts : List Act
  prepared : Bool
  deriving DecidableEq, Repr

/-- The live transactions, in the order of `Xid.lt`. -/
abbrev Txns := List (Xid × Txn)

/-- `toku_txnid2txn`, ft/logger/logger.cc:1163-1166. -/
def Txns.get : Txns → Xid → Option Txn
  | [], _ => none
  | (q, t) :: l, p => if q = p then some t else Txns.get l p

/-- A new transaction takes its place in the order (`toku_txn_manager_start_txn_for_recovery`, ft/txn/txn_manager.cc: `find_zero`,
`insert_at`). -/
def Txns.ins (p : Xid) (t : Txn) : Txns → Txns
  | [] => [(p, t)]
  | (q, u) :: l => if p.lt q then (p, t) :: (q, u) :: l else (q, u) :: Txns.ins p t l

def Txns.set (l : Txns) (p : Xid) (t : Txn) : Txns := l.map fun e => if e.1 = p then (p, t) else e

def Txns.erase (l : Txns) (p : Xid) : Txns := l.filter fun e => e.1 ≠ p

/-- `txn->child`. -/
def Txns.childOf (l : Txns) (p : Xid) : Option Xid := (l.find? fun e => e.2.parent = some p).map (·.1)

/-- One message on its way to a row. -/
structure Msg where
  file : File
  key : Key
  chain : List Nat
  op : Op
  deriving DecidableEq, Repr

/-- The rows of one dictionary. -/
abbrev Rows := Key → Ule

def upd {α β : Type} [DecidableEq α] (m : α → β) (a : α) (b : β) : α → β := fun x => if x = a then b else m x

/-- A message acts on its row, unless the dictionary already contains it: `toku_ft_maybe_insert`/`toku_ft_maybe_delete`
(ft/ft-ops.cc), and `do_insertion` (ft/txn/roll.cc:236-292), where `skip` is `oplsn.lsn <= treelsn.lsn`. -/
def send (skip : File → Bool) (rows : File → Rows) (m : Msg) : Option (File → Rows) :=
  if skip m.file then some rows
  else (msgModifyU (rows m.file m.key) m.chain m.op).map fun u => upd rows m.file (upd (rows m.file) m.key u)

def sendAll (skip : File → Bool) (rows : File → Rows) : List Msg → Option (File → Rows)
  | [] => some rows
  | m :: ms => (send skip rows m).bind fun rows => sendAll skip rows ms

/-- The message for a rollback entry when its root commits: `toku_commit_cmdinsert` sends nothing
(`TOKU_DO_COMMIT_CMD_INSERT` is 0), `toku_commit_cmddelete` sends FT_COMMIT_ANY (ft/txn/roll.cc:59-63, 345-357, 417-428). -/
def Act.commitMsg (chain : List Nat) (a : Act) : Option Msg :=
  if a.isDel then some ⟨a.file, a.key, chain, .commit⟩ else none

/-- The message for a rollback entry when it is undone: `toku_rollback_cmdinsert`, `toku_rollback_cmddelete`
(ft/txn/roll.cc:359-366, 430-437): FT_ABORT_ANY. -/
def Act.abortMsg (chain : List Nat) (a : Act) : Msg := ⟨a.file, a.key, chain, .abort⟩

/-- The messages a logged call sends: for `enq` those of the call, for the end of a transaction those of its rollback
entries, newest first (`apply_txn`, ft/txn/rollback-apply.cc:79-141); a child that commits sends none
(`toku_rollback_commit`, ft/txn/rollback-apply.cc:145-220). -/
def msgs (txns : Txns) : Rec → List Msg
  | .enq p ops => match txns.get p with
    | some t => ops.map fun o => ⟨o.file, o.key, t.chain, o.wr.op⟩
    | none => []
  | .xcommit p => match txns.get p with
    | some t => if t.parent = none then t.acts.reverse.filterMap (Act.commitMsg t.chain) else []
    | none => []
  | .xabort p => match txns.get p with
    | some t => t.acts.reverse.map (Act.abortMsg t.chain)
    | none => []
  | _ => []

/-- What a logged call does to the live transactions.
`xbegin`: `recover_transaction` (ft/logger/recover.cc:526-563), `toku_txn_begin_with_xid`; the ids of a child are those of the parent and its own
(`toku_xids_create_child`).  `enq`: the rollback entries are saved (`ft_txn_log_insert`, ft/ft-ops.cc).  `xcommit`: `invariant(txn->child == NULL)`
(ft/txn/txn.cc, `toku_txn_commit_with_lsn`); the entries of a child go to its parent.  `xprepare`: `toku_txn_prepare_txn`; a child is not
prepared, and a root only once. -/
def txStep (txns : Txns) : Rec → Option Txns
  | .xbegin p none => if p.child = 0 ∧ txns.get p = none then some (txns.ins p ⟨none, [p.root], [], false⟩) else none
  | .xbegin p (some q) => match txns.get q with
    | some t => if q.root = p.root ∧ txns.get p = none then some (txns.ins p ⟨some q, t.chain ++ [p.child], [], false⟩) else none
    | none => none
  | .enq p ops => match txns.get p with
    | some t => some (txns.set p { t with acts := t.acts ++ ops.map RowWr.act })
    | none => none
  | .xcommit p => match txns.get p with
    | some t => if txns.childOf p = none then
        match t.parent with
        | none => some (txns.erase p)
        | some q => match txns.get q with
          | some tq => some ((txns.set q { tq with acts := tq.acts ++ t.acts }).erase p)
          | none => none
      else none
    | none => none
  | .xabort p => match txns.get p with
    | some _ => if txns.childOf p = none then some (txns.erase p) else none
    | none => none
  | .xprepare p => match txns.get p with
    | some t => if t.parent ≠ none then some txns else if t.prepared then none else some (txns.set p { t with prepared := true })
    | none => none
  | _ => some txns

/-- The rollback file changes: an entry is saved, handed over or taken out. -/
def rbTouched (txns : Txns) : Rec → Bool
  | .enq _ ops => !ops.isEmpty
  | .xcommit p => match txns.get p with
    | some t => !t.acts.isEmpty
    | none => false
  | .xabort p => match txns.get p with
    | some t => !t.acts.isEmpty
    | none => false
  | _ => false

/-- A dictionary changes. -/
def touched (skip : File → Bool) (ms : List Msg) (f : File) : Bool := !skip f && ms.any (fun m => m.file = f)

/-- What clients see and what transactions remember. -/
structure World where
  rows : File → Rows
  txns : Txns

def World.empty : World := ⟨fun _ _ => emptyUle, []⟩

/-- A logged call: what it does to the rows and to the transactions. -/
def World.step (skip : File → Bool) (w : World) (r : Rec) : Option World :=
  match txStep w.txns r, sendAll skip w.rows (msgs w.txns r) with
  | some txns, some rows => some ⟨rows, txns⟩
  | _, _ => none

/-! ### A file with two headers -/

/-- A header on disk and what it leads to: `checkpoint_count`, `checkpoint_lsn` (ft/ft-internal.h:142-165), the contents. -/
structure Slot (α : Type) where
  cnt : Nat
  lsn : Nat
  img : α

/-- How far the checkpoint of a file has come: nothing to do, begun (the header is copied: was it dirty; the contents),
the header is being written, done. -/
inductive Stage (α : Type) where
  | idle
  | begun (dirty : Bool) (img : α)
  | writing (img : α)
  | done

/-- A file: the two places of its header, and in memory `checkpoint_count`, the dirty bit of the header and the checkpoint. -/
structure Obj (α : Type) where
  slot0 : Option (Slot α)
  slot1 : Option (Slot α)
  cnt : Nat
  dirty : Bool
  stage : Stage α

variable {α : Type}

/-- Where a header with this count is written: `main_offset = (h->checkpoint_count & 0x1) ? 0 : RESERVE`, ft/serialize/ft-serialize.cc:908-910. -/
def Obj.put (o : Obj α) (cnt : Nat) (s : Option (Slot α)) : Obj α :=
  if cnt % 2 = 1 then { o with slot0 := s } else { o with slot1 := s }

/-- `ft_begin_checkpoint`, ft/ft.cc:160-171 (`ft_copy_for_checkpoint_unlocked`, `clear_dirty`). -/
def Obj.begin (o : Obj α) (img : α) : Obj α := { o with stage := .begun o.dirty img, dirty := false }

/-- `ft_checkpoint`, ft/ft.cc:178-212, when the header is not dirty: nothing is written. -/
def Obj.skip (o : Obj α) : Option (Obj α) := match o.stage with
  | .begun false _ => some { o with stage := .done }
  | _ => none

/-- `ft_checkpoint`: the header is about to be written over the older one, which is lost.  Everything it leads to is on disk
(`toku_serialize_ft_to`, ft/serialize/ft-serialize.cc:893-901). -/
def Obj.start (o : Obj α) : Option (Obj α) := match o.stage with
  | .begun true img => some { o.put (o.cnt + 1) none with stage := .writing img }
  | _ => none

/-- `ft_checkpoint`: the new header is on disk; `ft->h->checkpoint_count++`. -/
def Obj.finish (o : Obj α) (lsn : Nat) : Option (Obj α) := match o.stage with
  | .writing img => some { o.put (o.cnt + 1) (some ⟨o.cnt + 1, lsn, img⟩) with stage := .done, cnt := o.cnt + 1 }
  | _ => none

def Slot.ok (limit : Option Nat) (s : Slot α) : Bool := match limit with
  | none => true
  | some m => s.lsn ≤ m

/-- `toku_deserialize_ft_from`, ft/serialize/ft-serialize.cc:675-800: of the headers that are not newer than
`max_acceptable_lsn`, the one with the larger count.  `none`: the file cannot be opened, or an invariant fails. -/
def pick (limit : Option Nat) (o : Obj α) : Option (Slot α) :=
  match o.slot0.filter (Slot.ok limit), o.slot1.filter (Slot.ok limit) with
  | some a, some b => if a.cnt > b.cnt then (if a.cnt = b.cnt + 1 then some a else none) else (if b.cnt = a.cnt + 1 then some b else none)
  | some a, none => some a
  | none, some b => some b
  | none, none => none

/-! ### Recovery -/

/-- The contents of the rollback file: the entries of each transaction. -/
abbrev RbImg := Xid → List Act

/-- What the rollback file holds: the entries of the live transactions. -/
def rbOf (txns : Txns) : RbImg := fun p => match txns.get p with
  | some t => t.acts
  | none => []

/-- `ss` once the scan has turned around: FORWARD_BETWEEN_CHECKPOINT_BEGIN_END, FORWARD_NEWER_CHECKPOINT_END
(ft/logger/recover.cc:62-67). -/
inductive Phase where
  | between | newer
  deriving DecidableEq, Repr

/-- `struct recover_env` with its `scan_state` (ft/logger/recover.cc:69-91, 129-150) during the forward scan.  `opened` is the file map, `rb` the rollback
file, `flsn` the `checkpoint_lsn` of each open file, `cnt` its `checkpoint_count`, `mgr` the `last_xid` of the transaction manager. -/
structure RSt where
  phase : Phase
  begin : Nat
  end_ : Nat
  numFiles : Nat
  numTxns : Nat
  lastXid : Nat
  mgr : Nat
  opened : List File
  flsn : File → Nat
  cnt : File → Nat
  dirty : File → Bool
  rb : Option (Slot RbImg)
  rbDirty : Bool
  w : World

/-- The backward scan, ft/logger/recover.cc:1489-1531 with `toku_recover_backward_begin_checkpoint` (:384-411) and
`toku_recover_backward_end_checkpoint` (:437-458), on the log read backwards.  The state is `none` for BACKWARD_NEWER_CHECKPOINT_END, `some (begin, end)` for
BACKWARD_BETWEEN_CHECKPOINT_BEGIN_END.  The result is where the scan turns around: begin, end, and how many records lie before the
begin_checkpoint record.  At the start of the log `le` is NULL and `assert(le)` (:1539) fails. -/
def scanBack : Option (Nat × Nat) → List (Nat × Rec) → Option (Nat × Nat × Nat)
  | _, [] => none
  | st, (lsn, .ckEnd b _ _) :: rest => match st with
    | none => scanBack (some (b, lsn)) rest
    | some _ => none
  | st, (lsn, .ckBegin _) :: rest => match st with
    | none => scanBack none rest
    | some (b, e) => if lsn = b then some (b, e, rest.length) else none
  | st, _ :: rest => scanBack st rest

/-- A record a client's call made: the transaction is looked up, and the call is made again, with the lsn of the record;
a message is not sent to a dictionary whose header is at least as new (ft/logger/recover.cc: `toku_recover_xbegin`, `_xcommit`, `_xprepare`,
`_xabort`, `_enq_insert`, …). -/
def RSt.client (s : RSt) (lsn : Nat) (r : Rec) : Option RSt :=
  let skip := fun f => decide (lsn ≤ s.flsn f)
  (s.w.step skip r).map fun w => { s with
    w := w
    mgr := match r with
      | .xbegin p none => max s.mgr p.root
      | _ => s.mgr
    dirty := fun f => s.dirty f || touched skip (msgs s.w.txns r) f
    rbDirty := s.rbDirty || rbTouched s.w.txns r }

/-- `recover_xstillopen_internal` while between begin and end, ft/logger/recover.cc:587-634: the transaction is created, and its rollback
entries are those in the rollback file. -/
def RSt.stillOpen (s : RSt) (p : Xid) (parent : Option Xid) : Option RSt :=
  if s.lastXid ≠ 0 ∧ p.root ≤ s.lastXid then
    match txStep s.w.txns (.xbegin p parent), s.rb with
    | some txns, some slot => match txns.get p with
      | some t => some { s with numTxns := s.numTxns + 1, mgr := match parent with
                           | none => max s.mgr p.root
                           | some _ => s.mgr, w := { s.w with txns := txns.set p { t with acts := slot.img p } } }
      | none => none
    | _, _ => none
  else none

/-- The forward scan: one record, ft/logger/recover.cc:352-382 (begin_checkpoint), :413-435 (end_checkpoint), :460-511 (fassociate),
:565-680 (xstillopen, xstillopenprepared), and those of clients.  `files` and `rbFile` are on disk. -/
def RSt.fwd (files : File → Obj Rows) (rbFile : Obj RbImg) (s : RSt) : Nat × Rec → Option RSt
  | (lsn, .ckBegin lx) => match s.phase with
    | .between => if lsn = s.begin ∧ s.lastXid = 0 then some { s with lastXid := lx, mgr := lx } else none
    | .newer => if s.end_ < lsn ∧ s.lastXid ≤ lx ∧ s.mgr ≤ lx then some s else none
  | (lsn, .ckEnd b nf nx) => match s.phase with
    | .between => if b = s.begin ∧ lsn = s.end_ ∧ nf = s.numFiles ∧ nx = s.numTxns then some { s with phase := .newer } else none
    | .newer => none
  | (_, .fassoc f) => match s.phase with
    | .between => if f ∈ s.opened then none else match pick none (files f) with
      | some slot => some { s with numFiles := s.numFiles + 1, opened := f :: s.opened, flsn := upd s.flsn f slot.lsn, cnt := upd s.cnt f slot.cnt,
                                   w := { s.w with rows := upd s.w.rows f slot.img } }
      | none => none
    | .newer => some s
  | (_, .fassocRb) => match s.phase with
    | .between => match pick (some s.begin) rbFile with
      | some slot => some { s with numFiles := s.numFiles + 1, rb := some slot }
      | none => none
    | .newer => some s
  | (_, .stillOpen p parent) => match s.phase with
    | .between => s.stillOpen p parent
    | .newer => some s
  | (lsn, .stillPrep p) => match s.phase with
    | .between => (s.stillOpen p none).bind fun s => s.client lsn (.xprepare p)
    | .newer => match s.w.txns.get p with
      | some t => if t.prepared then some s else none
      | none => none
  | (lsn, .enq p ops) => s.client lsn (.enq p (ops.filter fun o => decide (o.file ∈ s.opened)))
  | (lsn, r) => s.client lsn r

def RSt.fwdAll (files : File → Obj Rows) (rbFile : Obj RbImg) (s : RSt) : List (Nat × Rec) → Option RSt
  | [] => some s
  | x :: xs => (s.fwd files rbFile x).bind fun s => RSt.fwdAll files rbFile s xs

/-- `do_recovery`, ft/logger/recover.cc:1435-1591, up to the abort of the live transactions: scan backward to the begin of the last complete checkpoint, turn
around, scan forward; the final state must be FORWARD_NEWER_CHECKPOINT_END. -/
def recover (files : File → Obj Rows) (rbFile : Obj RbImg) (log : List (Nat × Rec)) : Option RSt :=
  match scanBack none log.reverse with
  | none => none
  | some (b, e, k) =>
    match RSt.fwdAll files rbFile ⟨.between, b, e, 0, 0, 0, 0, [], fun _ => 0, fun _ => 0, fun _ => false, none, false, World.empty⟩ (log.drop k) with
    | some s => if s.phase = .newer then some s else none
    | none => none

/-! ### The running system -/

/-- A checkpoint in progress: the lsn of its begin record, how many transactions were open, the lsn of the end record once it is in the log. -/
structure Ck where
  begin : Nat
  numTxns : Nat
  end_ : Option Nat

/-- The running system.  `log` is everything ever logged since the environment was made, less what crashes took off its end: the record
with lsn `n+1` is `log[n]`.  The records up to lsn `synced` are on disk for certain, those up to `trimmed` are in log files that have been removed.  `last` is the
begin lsn of the last checkpoint known to be complete on disk. -/
structure Sys where
  log : List Rec
  synced : Nat
  trimmed : Nat
  last : Nat
  w : World
  file : File → Obj Rows
  rb : Obj RbImg
  ck : Option Ck

/-- The records with their lsns, from `k` on. -/
def number (k : Nat) : List Rec → List (Nat × Rec)
  | [] => []
  | r :: rs => (k, r) :: number (k + 1) rs

/-- A call of a client: the record is logged and the call carried out (nothing is skipped: `oplsn_valid` is false, or `oplsn` is `ZERO_LSN`). -/
def Sys.client (s : Sys) (r : Rec) : Option Sys :=
  (s.w.step (fun _ => false) r).map fun w => { s with
    log := s.log ++ [r]
    w := w
    file := fun f => { s.file f with dirty := (s.file f).dirty || touched (fun _ => false) (msgs s.w.txns r) f }
    rb := { s.rb with dirty := s.rb.dirty || rbTouched s.w.txns r } }

/-- `toku_logger_fsync_if_lsn_not_fsynced`, ft/logger/logger.cc. -/
def Sys.fsync (s : Sys) (n : Nat) : Sys := { s with synced := max s.synced (min n s.log.length) }

/-- The record for a live transaction, `log_open_txn` (ft/cachetable/cachetable.cc:2708-2766). -/
def stillRec (e : Xid × Txn) : Rec := if e.2.prepared then .stillPrep e.1 else .stillOpen e.1 e.2.parent

/-- `checkpointer::begin_checkpoint`, `log_begin_checkpoint` (ft/cachetable/cachetable.cc): one record for the begin, one for each file, one for each live
transaction; then each file notes its contents.  `lastXid`: `toku_txn_manager_get_last_xid`. -/
def Sys.ckBegin (files : List File) (s : Sys) (lastXid : Nat) : Option Sys :=
  match s.ck with
  | some _ => none
  | none => some { s with
      log := s.log ++ (.ckBegin lastXid :: files.map .fassoc ++ .fassocRb :: s.w.txns.map stillRec)
      file := fun f => (s.file f).begin (s.w.rows f)
      rb := s.rb.begin (rbOf s.w.txns)
      ck := some ⟨s.log.length + 1, s.w.txns.length, none⟩ }

/-- `ft_checkpoint` on one file: the log is synced up to the begin record before the header is written. -/
def Sys.hdr (s : Sys) (g : Sys → Nat → Option Sys) : Option Sys :=
  match s.ck with
  | some c => g (s.fsync c.begin) c.begin
  | none => none

def Sys.skipFile (s : Sys) (f : File) : Option Sys := s.hdr fun _ _ => (s.file f).skip.map fun o => { s with file := upd s.file f o }
def Sys.startFile (s : Sys) (f : File) : Option Sys := s.hdr fun s _ => (s.file f).start.map fun o => { s with file := upd s.file f o }
def Sys.finishFile (s : Sys) (f : File) : Option Sys := s.hdr fun s b => ((s.file f).finish b).map fun o => { s with file := upd s.file f o }
def Sys.skipRb (s : Sys) : Option Sys := s.hdr fun _ _ => s.rb.skip.map fun o => { s with rb := o }
def Sys.startRb (s : Sys) : Option Sys := s.hdr fun s _ => s.rb.start.map fun o => { s with rb := o }
def Sys.finishRb (s : Sys) : Option Sys := s.hdr fun s b => (s.rb.finish b).map fun o => { s with rb := o }

def Obj.isDone (o : Obj α) : Bool := match o.stage with
  | .done => true
  | _ => false

/-- `checkpointer::log_end_checkpoint`: once `checkpoint_userdata` is through with all files, the end record is logged. -/
def Sys.ckEndLog (files : List File) (s : Sys) : Option Sys :=
  match s.ck with
  | some ⟨b, nx, none⟩ =>
    if files.all (fun f => (s.file f).isDone) && s.rb.isDone then
      some { s with log := s.log ++ [.ckEnd b (files.length + 1) nx], ck := some ⟨b, nx, some (s.log.length + 1)⟩ }
    else none
  | _ => none

/-- …and synced, after which the checkpoint is over (`end_checkpoint_userdata`, `toku_logger_note_checkpoint`). -/
def Sys.ckEndSync (s : Sys) : Option Sys :=
  match s.ck with
  | some ⟨b, _, some e⟩ => some { s.fsync e with ck := none, last := b, file := fun f => { s.file f with stage := .idle }, rb := { s.rb with stage := .idle } }
  | _ => none

/-- `toku_logger_maybe_trim_log`, ft/logger/logger.cc:776-800: log files all of whose records are older than the last complete checkpoint go away. -/
def Sys.trim (s : Sys) (n : Nat) : Option Sys := if n < s.last then some { s with trimmed := max s.trimmed n } else none

/-- What recovery finds in the log if only the first `n` records have survived. -/
def Sys.onDisk (s : Sys) (n : Nat) : List (Nat × Rec) := (number 1 (s.log.take n)).drop s.trimmed

/-- The system crashes, the first `n` records of the log survive, and recovery comes as far as `toku_logger_restart`
(ft/logger/recover.cc:1590). -/
def Sys.crash (s : Sys) (n : Nat) : Option Sys :=
  match recover s.file s.rb (s.onDisk n) with
  | none => none
  | some r => some {
      log := s.log.take n
      synced := n
      trimmed := s.trimmed
      last := r.begin
      w := r.w
      file := fun f => { s.file f with cnt := r.cnt f, dirty := r.dirty f, stage := .idle }
      rb := { s.rb with cnt := match r.rb with
                        | some slot => slot.cnt
                        | none => 0
                        , dirty := r.rbDirty, stage := .idle }
      ck := none }

/-- `recover_abort_live_txn`, ft/logger/recover.cc:1381-1397: children first.  `none` also when the steps are used up. -/
def Sys.abortFam : Nat → Sys → Xid → Option Sys
  | 0, _, _ => none
  | n + 1, s, p => match s.w.txns.childOf p with
    | some c => (Sys.abortFam n s c).bind fun s => s.client (.xabort p)
    | none => s.client (.xabort p)

/-- `find_an_unprepared_txn`, ft/logger/recover.cc:1357-1369. -/
def Txns.unprepared (l : Txns) : Option Xid := (l.find? fun e => e.2.parent = none && !e.2.prepared).map (·.1)

/-- `recover_abort_all_live_txns`, ft/logger/recover.cc:1400-1420. -/
def Sys.abortAll : Nat → Sys → Option Sys
  | 0, _ => none
  | n + 1, s => match s.w.txns.unprepared with
    | some p => (Sys.abortFam n s p).bind fun s => Sys.abortAll n s
    | none => some s

/-- A new environment: its log holds a complete checkpoint, and nothing else has happened. -/
def Sys.init (files : List File) : Sys where
  log := .ckBegin 0 :: files.map .fassoc ++ [.fassocRb, .ckEnd 1 (files.length + 1) 0]
  synced := files.length + 3
  trimmed := 0
  last := 1
  w := World.empty
  file := fun _ => ⟨some ⟨1, 1, fun _ => emptyUle⟩, none, 1, false, .idle⟩
  rb := ⟨some ⟨1, 1, fun _ => []⟩, none, 1, false, .idle⟩
  ck := none

end Verif.Rec
