import Verif.Ydb.Model

/-!
What a client may expect of transaction handles, said without the code's own helpers.
-/

namespace Verif.Ydb.Spec

open Verif.Ydb (Word Iso Id Rec Ev Env Ret)

/-! ### Flags -/

/-- The flags by bit number. -/
def bInherit := 0
def bSerializable := 1
def bReadOnly := 2
def bReadCommittedAlways := 3
def bNoSync := 9
def bNoWait := 10
def bSync := 14
def bReadCommitted := 26
def bReadUncommitted := 27
def bSnapshot := 28

/-- Bit `b` is set in the flag word. -/
def has (w : Word) (b : Nat) : Bool := w.getLsbD b

/-- The flags that choose an isolation level. -/
def isoBits : List Nat :=
  [bInherit, bSerializable, bReadCommittedAlways, bReadCommitted, bReadUncommitted, bSnapshot]

/-- The flags `txn_begin` knows. -/
def beginBits : List Nat := isoBits ++ [bReadOnly, bNoSync, bNoWait]

/-- No flag outside the list is set. -/
def Only (w : Word) (bs : List Nat) : Prop := ∀ b, has w b = true → b ∈ bs

/-- The level the flag `b` stands for; inheriting means the parent's and needs one. -/
def level (b : Nat) (parent : Option Iso) : Option Iso :=
  if b = bInherit then parent
  else if b = bSerializable then some .serializable
  else if b = bReadCommittedAlways then some .readCommittedAlways
  else if b = bReadCommitted then some .readCommitted
  else if b = bReadUncommitted then some .readUncommitted
  else if b = bSnapshot then some .snapshot
  else none

/-- The isolation level asked for: with no isolation flag the parent's, or serializable; with one
flag its level; with several nothing sensible. -/
def askedLevel (w : Word) (parent : Option Iso) : Option Iso :=
  match isoBits.filter (has w) with
  | [] => some (parent.getD .serializable)
  | [b] => level b parent
  | _ => none

/-- What `txn_begin` promises for a flag word, given the parent's isolation level and whether the
parent is read-only: the new transaction's isolation level and whether it is read-only. -/
structure BeginOK (w : Word) (parent : Option (Iso × Bool)) (iso : Iso) (ro : Bool) : Prop where
  known : Only w beginBits
  asked : askedLevel w (parent.map (·.1)) = some iso
  /-- a child runs at its parent's level -/
  same : ∀ p, parent = some p → iso = p.1
  /-- a child of a read-only transaction is read-only -/
  child : ∀ p, parent = some p → ro = p.2
  /-- a read-only transaction is not begun inside a writable one -/
  inside : ∀ p, parent = some p → has w bReadOnly = true → p.2 = true
  root : parent = none → ro = has w bReadOnly

/-! ### Families -/

/-- `t` and the transactions begun inside it, outermost first. -/
inductive Family (e : Env) : Id → List Id → Prop
  | leaf (t x) : e.txns t = some x → x.child = none → Family e t [t]
  | node (t x c l) : e.txns t = some x → x.child = some c → Family e c l → Family e t (t :: l)

/-- The transaction `t` is nested `n` deep (a root transaction: 1). -/
inductive Depth (e : Env) : Id → Nat → Prop
  | root (t x) : e.txns t = some x → x.parent = none → Depth e t 1
  | child (t x p n) : e.txns t = some x → x.parent = some p → Depth e p n → Depth e t (n + 1)

/-- The root of a transaction. -/
inductive Root (e : Env) : Id → Id → Prop
  | root (t x) : e.txns t = some x → x.parent = none → Root e t t
  | child (t x p a) : e.txns t = some x → x.parent = some p → Root e p a → Root e t a

/-! ### The log -/

/-- The parent of `t` according to the begin records. -/
def parentIn : List Rec → Id → Option Id
  | [], _ => none
  | .begin u p :: l, t => if u = t then p else parentIn l t
  | _ :: l, t => parentIn l t

/-- `t` is on the log: its begin was recorded. -/
def began (log : List Rec) (t : Id) : Bool :=
  log.any fun | .begin u _ => decide (u = t) | _ => false

/-- One step of the account of surviving work: for each transaction the number of row operations that
its commit would make permanent if it were the outermost. -/
def account (past : List Rec) (n : Id → Nat) : Rec → Id → Nat
  | .work t, i => if i = t then n i + 1 else n i
  | .commit t, i => if parentIn past t = some i then n i + n t else n i
  | _, i => n i

/-- The surviving row operations of each transaction after a log. -/
def surviving (log : List Rec) : Id → Nat :=
  (log.foldl (fun (s : List Rec × (Id → Nat)) r => (s.1 ++ [r], account s.1 s.2 r)) ([], fun _ => 0)).2

/-- Transaction `t` has a commit record and the log up to it is on disk. -/
def Durable (e : Env) (t : Id) : Prop :=
  ∃ a b, e.log = a ++ Rec.commit t :: b ∧ a.length + 1 ≤ e.fsynced

/-! ### Histories -/

/-- What a client can ask for. -/
inductive Op where
  | begin (parent : Option Id) (flags : Word)
  | commit (t : Id) (flags : Word)
  | abort (t : Id)
  | prepare (t : Id) (flags : Word)
  | discard (t : Id) (flags : Word)
  | write (t : Id) (k : Nat)
  | lock (t : Id) (k : Nat)
  deriving Repr

/-- Run one request. -/
def step (e : Env) : Op → Option (Env × Ret)
  | .begin p w => Ydb.begin e p w
  | .commit t w => Ydb.commit e t w
  | .abort t => Ydb.abort e t
  | .prepare t w => Ydb.prepare e t w
  | .discard t w => Ydb.discard e t w
  | .write t k => Ydb.write e t k
  | .lock t k => Ydb.lock e t k

/-- The client's side of the contract: only handles that were given out and not yet ended are used; a
transaction is prepared once; a prepared transaction is not discarded while it has a child. -/
def Legal (e : Env) : Op → Prop
  | .begin none _ => True
  | .begin (some p) _ => (e.txns p).isSome
  | .commit t _ => (e.txns t).isSome
  | .abort t => (e.txns t).isSome
  | .prepare t _ => ∃ x, e.txns t = some x ∧ x.state ≠ .preparing
  | .discard t _ => ∃ x, e.txns t = some x ∧ x.child = none
  | .write t _ => (e.txns t).isSome
  | .lock t _ => (e.txns t).isSome

/-- The states a client that keeps the contract can bring the environment into. -/
inductive Reach : Env → Prop
  | init : Reach Env.init
  | step (e op e' r) : Reach e → Legal e op → step e op = some (e', r) → Reach e'

/-- The second state comes after the first in a client's history. -/
inductive Later (e : Env) : Env → Prop
  | refl : Later e e
  | step (e1 op e2 r) : Later e e1 → Legal e1 op → step e1 op = some (e2, r) → Later e e2

end Verif.Ydb.Spec
