import Verif.Txn.Sys
import Verif.Ule.Spec

/-!
One row of a dictionary, together with the transaction manager, the message path above the leaf and
garbage collection, as one state machine.  Rows interact only through the transaction manager, so a
machine with one row shows everything any row can show.

What is real in the state: the transaction system, the messages still above the leaf (oldest first), the
row's version stack in the leaf, the leaf's `oldest_referenced_xid_known`, and a clone of the manager's
state taken for garbage collection.  What is history (read by no decision of the code, used to state
properties and to say which calls the API admits): `now` and `done`, the row's history (`Ule.Spec`) as of
the last call and as of the last message that reached the leaf.
-/
namespace Verif.Mvcc
open Verif.Ule Verif.Ule.Spec
open Verif.Txn

/-- Something travelling from the root of the tree to the leaf: the effect of a row event (a message, or
nothing for begin/end, which are kept in the queue as history), or a new lower bound on live ids, passed
from node to node after the buffer contents (`toku_bnc_flush_to_child`, ft/ft-flusher.cc:1551-1611: the
messages are applied with the child's old bound, then the child's bound becomes the parent's). -/
inductive Act where
  | ev (e : Ev)
  | known (o : Txnid)
  deriving DecidableEq, Repr

/-- An item of the queue with the chain of the transaction that was current when it was sent (this is the
xids list inside a message, ft/msg.h). -/
structure Item where
  chain : List Txnid
  act : Act
  deriving DecidableEq, Repr

/-- The machine's state. -/
structure M where
  sys : Sys
  now : Row
  done : Row
  queue : List Item
  leaf : Ule
  known : Txnid
  clone : Option Sys
  deriving DecidableEq, Repr

/-- A row whose only version is `v` (`none` = the row does not exist), in an environment whose last used
id is `last`. -/
def M.init (last : Txnid) (v : Option Bytes) : M :=
  { sys := Sys.init last
    now := Row.fresh []
    done := Row.fresh []
    queue := []
    leaf := ⟨[⟨0, match v with | some b => .insert b | none => .delete⟩], []⟩
    known := 0
    clone := none }

/-- Events. -/
inductive MEv where
  /-- a call into the transaction manager -/
  | txn (e : TEv)
  /-- an operation on the row by the current innermost transaction -/
  | row (e : Ev)
  /-- the root node of the tree learns a new lower bound on live ids -/
  | learn (o : Txnid)
  /-- the oldest item reaches the leaf; simple collection uses `o`; `gc` = full collection also runs -/
  | deliver (o : Txnid) (gc : Bool)
  /-- the leaf's rows are garbage collected without any message (`toku_ftnode_leaf_run_gc`) -/
  | collect
  /-- the manager's state is cloned for garbage collection (`txn_manager_state::init`) -/
  | capture
  deriving DecidableEq, Repr

/-- Full garbage collection with the clone in hand.  The leaf and the buffer being applied are held
exclusively from before the clone is taken (ft/ft-flusher.cc:1551-1566, ft/node.cc:1990-2018), so every
committed id on the leaf was known to the manager when it was cloned. -/
def M.collectFull (m : M) (u : Ule) : Outcome Ule :=
  match m.clone with
  | none => .impossible
  | some S =>
    if ∀ r ∈ u.cux.dropLast, r.xid ∈ S.mgr.live ∨ r.xid ∈ S.ended.map (·.xid) then
      Outcome.ofCode (fullGc S.mgr.gcState u)
    else .impossible

/-- What `toku_le_apply_msg` does after `msg_modify_ule`, ft/ule.cc:513-560: implicit promotion with the
leaf's bound, simple collection with the caller's bound, perhaps full collection, packing.  (Whether full
collection runs depends on stack and entry size, 529-536; here it may or may not.) -/
def M.settle (m : M) (o : Txnid) (gc : Bool) (u : Ule) : Outcome Ule :=
  (Outcome.ofCode (tryPromoteOutermost u m.known)).bind fun u1 =>
  let u2 := simpleGc o u1
  (if gc then m.collectFull u2 else .ok u2).bind fun u3 => .ok (dropIfAllDeleted u3)

/-- Row operations: the writer holds the row's write lock from its first operation until its root
transaction ends, so only the current chain may act; a root transaction's first write marks it as a
writer.  The message enters the tree at the root. -/
def M.rowStep (init : Option Bytes) (m : M) (e : Ev) : Outcome M :=
  match m.now.step init e with
  | none => .impossible
  | some r =>
    let sys' : Outcome Sys := match e, m.now.chain with
      | .begin x, [] => m.sys.step (.write x)
      | _, _ => .ok m.sys
    if e = .finish ∧ m.now.chain.length ≤ 1 then .impossible
    else sys'.bind fun s =>
      .ok { m with sys := s, now := r, queue := m.queue ++ [⟨m.now.chain, .ev e⟩] }

/-- The end of a root transaction: the manager forgets it, and its row locks are released. -/
def M.txnStep (init : Option Bytes) (m : M) (e : TEv) : Outcome M :=
  match e with
  | .finish x =>
    if m.now.chain.head? = some x then
      match m.now.step init .finish with
      | some r =>
        if m.now.chain.length = 1 then
          (m.sys.step e).bind fun s =>
            .ok { m with sys := s, now := r, queue := m.queue ++ [⟨m.now.chain, .ev .finish⟩] }
        else .impossible
      | none => .impossible
    else (m.sys.step e).bind fun s => .ok { m with sys := s }
  | e => (m.sys.step e).bind fun s => .ok { m with sys := s }

/-- The oldest item reaches the leaf (`toku_le_apply_msg`, ft/ule.cc:484-577, for messages). -/
def M.deliver (init : Option Bytes) (m : M) (o : Txnid) (gc : Bool) : Outcome M :=
  match m.queue with
  | [] => .impossible
  | ⟨_, .known k⟩ :: q => .ok { m with queue := q, known := k }
  | ⟨c, .ev e⟩ :: q =>
    let d := (m.done.step init e).getD m.done
    match e.msg c with
    | none => .ok { m with queue := q, done := d }
    | some (xs, op) =>
      if o ≤ m.sys.mgr.oldest then
        (Outcome.ofCode (msgModifyU m.leaf xs op)).bind fun u =>
        (m.settle o gc u).bind fun u' => .ok { m with queue := q, done := d, leaf := u' }
      else .impossible

/-- One event. -/
def M.step (init : Option Bytes) (m : M) : MEv → Outcome M
  | .txn e => m.txnStep init e
  | .row e => m.rowStep init e
  | .learn o =>
    -- the estimate is read from the manager before the root is locked, ft/ft-ops.cc:2247-2250
    if o ≤ m.sys.mgr.oldest then .ok { m with queue := m.queue ++ [⟨m.now.chain, .known o⟩] }
    else .impossible
  | .deliver o gc => m.deliver init o gc
  | .collect =>
    -- toku_le_garbage_collect, ft/ule.cc:623-694
    (Outcome.ofCode (tryPromoteOutermost m.leaf m.known)).bind fun u =>
    (m.collectFull u).bind fun u' => .ok { m with leaf := dropIfAllDeleted u' }
  | .capture => .ok { m with clone := some m.sys }

/-- A whole schedule. -/
def M.run (init : Option Bytes) (m : M) : List MEv → Outcome M
  | [] => .ok m
  | e :: es => (m.step init e).bind fun m' => m'.run init es

/-- What a transaction holding snapshot `s` reads (ft/ule.cc:2295-2414 with `toku_txn_reads_txnid`,
ft/txn/txn.cc:727-743 as the callback), given that every message for the row has reached the leaf. -/
def M.readAs (m : M) (s : Snap) : Option Bytes := snapshotRead (readsTxnid s.root s.id s.live) m.leaf

/-- What a reader without a snapshot reads (serializable and read-uncommitted isolation: it either holds
the row lock or does not care), ft/ule.cc:1393-1452. -/
def M.readLatest (m : M) : Option Bytes := latest m.leaf

/-! ### Specification -/

/-- The value last committed: that of the last surviving write by a finished root transaction. -/
def M.committed (init : Option Bytes) (m : M) : Option Bytes :=
  valueOf init (m.now.writes.filter fun w => m.sys.ended.any fun d => w.chain.head? = some d.xid)

/-- The surviving writes of root transaction `x` (and everything nested in it), newest first. -/
def M.own (m : M) (x : Txnid) : List Write := m.now.writes.filter fun w => w.chain.head? = some x

end Verif.Mvcc
