import Verif.Ule.Model

/-!
Specification of what nested transactions do to one row, written without reference to version stacks.

A row's history is a list of events.  The row is write-locked by one root transaction at a time
(row locks are held to the end of the root transaction), and a transaction with a live child issues no
operation of its own, so at each moment there is one *current chain* of nested live transactions,
root first.  The value of the row is that of the last write not undone by an abort.
-/
namespace Verif.Ule.Spec

/-- One event in the life of a row.  `commitMsg`/`abortMsg` are the (possibly repeated, possibly
absent for commits) notifications the innermost current transaction sends to the row before it
ends; `finish` ends it: a transaction that sent an abort notification has aborted, any other has
committed into its parent. -/
inductive Ev where
  | begin (x : Txnid)
  | put (v : Bytes)
  | putIfAbsent (v : Bytes)
  | del
  | commitMsg
  | abortMsg
  | finish
  deriving DecidableEq, Repr

/-- What the innermost current transaction is doing. -/
inductive Mode where
  | active | committing | aborting
  deriving DecidableEq, Repr

/-- A surviving write: who wrote (the whole chain, root first) and what (`none` = deleted). -/
structure Write where
  chain : List Txnid
  val : Option Bytes
  deriving DecidableEq, Repr

/-- The row's history, digested: current chain, chains ever begun, surviving writes (newest first).
A nested transaction's id is unique within its root transaction only (ft/txn/txn_child_manager.cc), so
it is the whole chain, root first, that identifies a transaction. -/
structure Row where
  chain : List Txnid
  mode : Mode
  used : List (List Txnid)
  writes : List Write
  deriving DecidableEq, Repr

/-- A row no transaction is working on; the chains in `used` belong to earlier transactions. -/
def Row.fresh (used : List (List Txnid)) : Row := ⟨[], .active, used, []⟩

/-- The writes left after the transaction with chain `p` (and everything nested in it) is undone. -/
def undo (p : List Txnid) (ws : List Write) : List Write :=
  ws.filter fun w => !(p.isPrefixOf w.chain)

/-- Value of the last surviving write, or the initial value. -/
def valueOf (init : Option Bytes) (ws : List Write) : Option Bytes :=
  match ws with
  | [] => init
  | w :: _ => w.val

/-- The row's value now. -/
def Row.value (init : Option Bytes) (s : Row) : Option Bytes := valueOf init s.writes

/-- The largest nesting depth the API admits (`txn->begin` under a deeper parent fails). -/
def maxDepth : Nat := 253
/-- The largest value length the storage format admits. -/
def maxValLen : Nat := 2 ^ 31

/-- One event.  `none` = the event is not possible in this state. -/
def Row.step (init : Option Bytes) (s : Row) : Ev → Option Row
  | .begin x =>
    if s.mode = .active ∧ x ≠ 0 ∧ x ∉ s.chain ∧ s.chain ++ [x] ∉ s.used ∧
        s.chain.length < maxDepth then
      some { s with chain := s.chain ++ [x], used := (s.chain ++ [x]) :: s.used }
    else none
  | .put v =>
    if s.mode = .active ∧ s.chain ≠ [] ∧ v.length < maxValLen then
      some { s with writes := ⟨s.chain, some v⟩ :: s.writes }
    else none
  | .putIfAbsent v =>
    if s.mode = .active ∧ s.chain ≠ [] ∧ v.length < maxValLen then
      if (s.value init).isSome then some s
      else some { s with writes := ⟨s.chain, some v⟩ :: s.writes }
    else none
  | .del =>
    if s.mode = .active ∧ s.chain ≠ [] then
      some { s with writes := ⟨s.chain, none⟩ :: s.writes }
    else none
  | .commitMsg =>
    if s.mode ≠ .aborting ∧ s.chain ≠ [] then some { s with mode := .committing } else none
  | .abortMsg =>
    if s.mode ≠ .committing ∧ s.chain ≠ [] then
      some { s with mode := .aborting, writes := undo s.chain s.writes }
    else none
  | .finish =>
    if s.chain ≠ [] then some { s with chain := s.chain.dropLast, mode := .active } else none

/-- A whole history. -/
def Row.run (init : Option Bytes) (s : Row) : List Ev → Option Row
  | [] => some s
  | e :: es => (s.step init e).bind fun s' => Row.run init s' es

/-- The message, if any, the event sends to the row, under the current chain. -/
def Ev.msg (chain : List Txnid) : Ev → Option (Xids × Op)
  | .begin _ => none
  | .put v => some (chain, .insert v)
  | .putIfAbsent v => some (chain, .insertNoOverwrite v)
  | .del => some (chain, .delete)
  | .commitMsg => some (chain, .commit)
  | .abortMsg => some (chain, .abort)
  | .finish => none

/-- The messages a history sends to the row, in order. -/
def Row.msgs (init : Option Bytes) (s : Row) : List Ev → List (Xids × Op)
  | [] => []
  | e :: es => match s.step init e with
    | none => []
    | some s' => (e.msg s.chain).toList ++ Row.msgs init s' es

/-- Throughout the events `es`, the transaction with chain `c` stays alive. -/
def Row.staysIn (init : Option Bytes) (c : List Txnid) (s : Row) : List Ev → Bool
  | [] => c.isPrefixOf s.chain
  | e :: es => c.isPrefixOf s.chain && match s.step init e with
    | none => true
    | some s' => Row.staysIn init c s' es

end Verif.Ule.Spec
