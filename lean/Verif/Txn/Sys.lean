import Verif.Txn.Model

/-
The transaction system as a state machine: the manager of `Model.lean` driven by the calls the rest of
the code makes into it (`toku_txn_begin_with_xid`, ft/txn/txn.cc:100-187; `toku_txn_complete_txn`,
ft/txn/txn.cc:556-583), for any number of root transactions, in any order.
-/
namespace Verif.Txn

/-- Result of a step: `impossible` = no caller does this in this state; `crash` = an assertion in the
modelled code fails. -/
inductive Outcome (α : Type) where
  | ok (a : α)
  | impossible
  | crash
  deriving DecidableEq, Repr

/-- Turn the model's `none` (assertion failure) into `crash`. -/
def Outcome.ofCode {α : Type} : Option α → Outcome α
  | some a => .ok a
  | none => .crash

/-- Sequencing. -/
def Outcome.bind {α β : Type} (o : Outcome α) (f : α → Outcome β) : Outcome β :=
  match o with
  | .ok a => f a
  | .impossible => .impossible
  | .crash => .crash

/-- "The outcome is a state with property `P`" can be computed (used in the concrete cases). -/
instance {α : Type} (o : Outcome α) (P : α → Prop) [DecidablePred P] : Decidable (∃ a, o = .ok a ∧ P a) :=
  match o with
  | .ok a => if h : P a then isTrue ⟨a, rfl, h⟩ else isFalse (fun ⟨_, he, hp⟩ => h (by cases he; exact hp))
  | .impossible => isFalse (fun ⟨_, he, _⟩ => by cases he)
  | .crash => isFalse (fun ⟨_, he, _⟩ => by cases he)

/-- An open root transaction: `readOnly` is `declared_read_only`, `wrote` is `begin_was_logged`
(ft/txn/txn.cc:632-671: set by the first logged write of the root or of any descendant), `snap` its own
snapshot.  (Snapshots recorded by descendants are the others on the manager's list with this root.) -/
structure Root where
  xid : Txnid
  readOnly : Bool
  wrote : Bool
  snap : Option Snap
  deriving DecidableEq, Repr

/-- History record of a finished root transaction that was not declared read-only.  `stamp` is the
manager's last id at that moment (ghost: no decision below reads it). -/
structure Ended where
  xid : Txnid
  stamp : Txnid
  wrote : Bool
  deriving DecidableEq, Repr

/-- The manager, the open roots (oldest first), and the history of finished ones and of all ids handed
out (newest first; both ghost). -/
structure Sys where
  mgr : Mgr
  roots : List Root
  ended : List Ended
  issued : List Txnid
  deriving DecidableEq, Repr

/-- A freshly started environment whose last used id is `last`. -/
def Sys.init (last : Txnid) : Sys := ⟨Mgr.init last, [], [], []⟩

/-- Calls into the transaction manager. -/
inductive TEv where
  | recover (x : Txnid)
  | begin (records readOnly : Bool)
  | write (x : Txnid)
  | childSnap (x : Txnid)
  | endChildSnap (x : Txnid) (s : Snap)
  | finish (x : Txnid)
  deriving DecidableEq, Repr

/-- The open root with id `x`. -/
def Sys.root? (S : Sys) (x : Txnid) : Option Root := S.roots.find? (fun r => r.xid = x)

/-- Replace the root `x`. -/
def Sys.setRoot (S : Sys) (x : Txnid) (f : Root → Root) : Sys :=
  { S with roots := S.roots.map fun r => if r.xid = x then f r else r }

/-- Position of `x` in the ascending live list (`find_zero` on a miss, ft/txn/txn_manager.cc:588-594). -/
def insertRoot (r : Root) : List Root → List Root
  | [] => [r]
  | q :: qs => if r.xid < q.xid then r :: q :: qs else q :: insertRoot r qs

/-- `toku_txn_manager_start_txn_for_recovery`, ft/txn/txn_manager.cc:577-597: the id comes from the log.
Recovery runs before any new transaction, so before any snapshot; a log never begins an id twice. -/
def Sys.recover (S : Sys) (x : Txnid) : Outcome Sys :=
  if S.mgr.snaps = [] ∧ S.mgr.oldest = 0 ∧ x ≠ 0 ∧ (∀ e ∈ S.ended, e.xid ≠ x) ∧
      (∀ r ∈ S.roots, r.xid ≠ x ∧ r.readOnly = false) then
    let roots := insertRoot ⟨x, false, false, none⟩ S.roots
    .ok { S with
      mgr := { S.mgr with lastXid := max S.mgr.lastXid x, live := roots.map (·.xid) }
      roots := roots }
  else .impossible

/-- One call. -/
def Sys.step (S : Sys) : TEv → Outcome Sys
  | .recover x => S.recover x
  | .begin records readOnly =>
    -- toku_txn_manager_start_txn, ft/txn/txn_manager.cc:599-668
    let (m, x, s) := S.mgr.start records readOnly
    .ok { S with
      mgr := m
      roots := S.roots ++ [⟨x, readOnly, false, s⟩]
      issued := (match s with | some s => [s.id] | none => []) ++ x :: S.issued }
  | .write x =>
    -- toku_maybe_log_begin_txn_for_write_operation, ft/txn/txn.cc:632-660; the API refuses writes by a
    -- transaction declared read-only (src/ydb_write.cc, `toku_txn_is_read_only` checks)
    match S.root? x with
    | some r => if r.readOnly then .impossible else .ok (S.setRoot x fun r => { r with wrote := true })
    | none => .impossible
  | .childSnap x =>
    match S.root? x with
    | some _ =>
      let (m, s) := S.mgr.startChildSnap x
      .ok { S with mgr := m, issued := s.id :: S.issued }
    | none => .impossible
  | .endChildSnap x s =>
    -- toku_txn_manager_handle_snapshot_destroy_for_child_txn, ft/txn/txn_manager.cc:555-575
    match S.root? x with
    | some r =>
      if s ∈ S.mgr.snaps ∧ s.root = x ∧ r.snap ≠ some s then
        (Outcome.ofCode (S.mgr.removeSnap s)).bind fun m => .ok { S with mgr := m }
      else .impossible
    | none => .impossible
  | .finish x =>
    match S.root? x with
    | some r =>
      -- children end before their parent (src/ydb_txn.cc:82-97, 161-176)
      if ∀ s ∈ S.mgr.snaps, s.root = x → r.snap = some s then
        (Outcome.ofCode (S.mgr.finish x r.snap r.readOnly r.wrote)).bind fun m =>
          .ok { mgr := m
                roots := S.roots.filter fun r => r.xid ≠ x
                ended := if r.readOnly then S.ended else ⟨x, S.mgr.lastXid, r.wrote⟩ :: S.ended
                issued := if m.lastXid > S.mgr.lastXid then m.lastXid :: S.issued else S.issued }
      else .impossible
    | none => .impossible

/-- A whole schedule of calls. -/
def Sys.run (S : Sys) : List TEv → Outcome Sys
  | [] => .ok S
  | e :: es => (S.step e).bind fun S' => S'.run es

end Verif.Txn
