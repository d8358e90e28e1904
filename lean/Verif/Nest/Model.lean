import Verif.Ule.Spec

/-!
# Ids of transactions and of nested transactions

`ft/txn/txn_child_manager.cc`, and what `ft/txn/txn_manager.cc` and `ft/txn/txn.cc` do with ids.  A root transaction gets the next id of the
environment; its nested transactions get ids from a counter of the root.  Simplified: ids are numbers without the limit of 64 bits; one root
transaction at a time is followed (the one that holds the lock of a row), what others take from the counter of the environment is `other`.
-/

namespace Verif.Nest

/-- `last`: `last_xid` of the manager of transactions, txn_manager.h:74; `chain`: the live transactions, root first, each the child of the one
before (`TOKUTXN.child`, txn.h:140-146), with the id that goes into the XIDS; `child`: `m_last_xid` of the root's child manager. -/
structure Ids where
  last : Nat
  chain : List Nat
  child : Nat
deriving DecidableEq, Repr

/-- `txn_child_manager::start_child_txn`, txn_child_manager.cc:79-100: the id of the child of root `r`. -/
def nextChild (r child : Nat) : Nat :=
  if child + 1 = r then child + 1 + 1 else child + 1

/-- `toku_txn_begin_with_xid`, txn.cc:121-188, of a transaction that may write, below the innermost live one: too many levels are refused
(`toku_xids_can_create_child`, xids.cc:91-95); a root takes `++last_xid` (txn_manager.cc:642) and a new child manager
(txn_child_manager.cc:48-52); `txn_create_xids`, txn.cc:103-117. -/
def Ids.begin (g : Ids) : Option (Ids × Nat) :=
  match g.chain with
  | [] => some (⟨g.last + 1, [g.last + 1], 0⟩, g.last + 1)
  | r :: _ =>
    if g.chain.length + 1 = Ule.maxTransactionRecords then none
    else
      let x := nextChild r g.child
      some (⟨g.last, g.chain ++ [x], x⟩, x)

/-- The innermost live transaction ends: `finish_child_txn`, txn_child_manager.cc:102-107, `toku_txn_complete_txn`, txn.cc:557-578. -/
def Ids.finish (g : Ids) : Ids := { g with chain := g.chain.dropLast }

/-- `start_child_txn_for_recovery`, txn_child_manager.cc:66-77, below the innermost live one. -/
def Ids.recover (g : Ids) (x : Nat) : Ids :=
  { g with chain := g.chain ++ [x], child := if x > g.child then x else g.child }

/-- `txn_child_manager::find_tokutxn_by_xid_unlocked`, txn_child_manager.cc:117-127: the level of the live transaction with this child id; the
root's is 0. -/
def findLevel : List Nat → Nat → Nat → Option Nat
  | [], _, _ => none
  | c :: cs, x, i => if x = c then some i else findLevel cs x (i + 1)

/-- The child ids of the live transactions, root first. -/
def Ids.childIds (g : Ids) : List Nat :=
  match g.chain with
  | [] => []
  | _ :: cs => 0 :: cs

def Ids.find (g : Ids) (x : Nat) : Option Nat := findLevel g.childIds x 0

/-- What happens: `begin` below the innermost live transaction (or of a root), its end, something it does to a row, or another user of the
counter of the environment. -/
inductive Op where
  | begin
  | finish
  | does (e : Ule.Spec.Ev)
  | other
deriving Repr

/-- Not a begin or an end. -/
def work : Ule.Spec.Ev → Bool
  | .begin _ => false
  | .finish => false
  | _ => true

def Ids.step (g : Ids) : Op → Ids
  | .begin => match g.begin with
    | none => g
    | some t => t.1
  | .finish => g.finish
  | .does _ => g
  | .other => { g with last := g.last + 1 }

def Ids.run (g : Ids) (ops : List Op) : Ids := ops.foldl Ids.step g

/-- What a row sees of it. -/
def Ids.event (g : Ids) : Op → List Ule.Spec.Ev
  | .begin => match g.begin with
    | none => []
    | some t => [.begin t.2]
  | .finish => [.finish]
  | .does e => if work e then [e] else []
  | .other => []

def Ids.events (g : Ids) : List Op → List Ule.Spec.Ev
  | [] => []
  | o :: ops => g.event o ++ (g.step o).events ops

/-- The names given out, as `DB_TXN->id64` and the log have them (root id, child id; the child id of a root is 0). -/
def Ids.name (g : Ids) : Op → List (Nat × Nat)
  | .begin => match g.begin with
    | none => []
    | some t => [match g.chain with
      | [] => (t.2, 0)
      | r :: _ => (r, t.2)]
  | _ => []

def Ids.names (g : Ids) : List Op → List (Nat × Nat)
  | [] => []
  | o :: ops => g.name o ++ (g.step o).names ops

/-- What recovery replays of a root: begins of nested transactions with the ids of the log, and ends (ft/logger/recover.cc:503-540, 685-689). -/
def Ids.replay (g : Ids) : List (Option Nat) → Ids
  | [] => g
  | some x :: es => (g.recover x).replay es
  | none :: es => g.finish.replay es

end Verif.Nest
