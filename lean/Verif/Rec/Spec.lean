import Verif.Rec.Model
import Verif.Ule.Spec
/-!
What recovery is to achieve, said about the log alone: which writes of a log survive, and which transactions count as committed.
And who may call what (`Allowed`), which makes the reachable states of the running system (`Reach`).
-/
namespace Verif.Rec.Spec
open Verif.Rec Verif.Ule

/-! ### Reading a log -/

/-- The transactions a transaction is nested in, from the root down, ending with itself: one more record is read. -/
def lin (m : Xid → List Xid) : Rec → Xid → List Xid
  | .xbegin p none => upd m p [p]
  | .xbegin p (some q) => upd m p (m q ++ [p])
  | _ => m

/-- The same, for a whole log. -/
def lineage (log : List Rec) : Xid → List Xid := log.foldl lin (fun _ => [])

/-- A write to a row: by whom, and what (`none`: deleted). -/
abbrev Write := Xid × Option Bytes

/-- The value after these writes, newest first; a new row has none. -/
def valueOf : List Write → Option Bytes
  | [] => none
  | w :: _ => w.2

/-- One more write of transaction `p`; `putNew` writes only if there is no value. -/
def write (p : Xid) (ws : List Write) : Wr → List Write
  | .put v => (p, some v) :: ws
  | .putNew v => if (valueOf ws).isSome then ws else (p, some v) :: ws
  | .del => (p, none) :: ws

/-- The writes to the row `k` of dictionary `f` that have not been undone, newest first, when one more record is read: an abort undoes the
writes of the transaction and of everything nested in it. -/
def stepWrites (f : File) (k : Key) (m : Xid → List Xid) (ws : List Write) : Rec → List Write
  | .enq p ops => ops.foldl (fun ws o => if o.file = f ∧ o.key = k then write p ws o.wr else ws) ws
  | .xabort p => ws.filter fun w => p ∉ m w.1
  | _ => ws

/-- The same, for a whole log. -/
def writes (f : File) (k : Key) (log : List Rec) : List Write :=
  (log.foldl (fun (s : (Xid → List Xid) × List Write) r => (lin s.1 r, stepWrites f k s.1 s.2 r)) (fun _ => [], [])).2

/-- The transaction has committed, and so has every transaction it is nested in. -/
def Committed (log : List Rec) (p : Xid) : Prop := ∀ q ∈ lineage log p, .xcommit q ∈ log

/-- The transaction is part of a prepared transaction that has not ended: its root is prepared, and all below the root have committed. -/
def InPrepared (log : List Rec) (p : Xid) : Prop :=
  .xprepare ⟨p.root, 0⟩ ∈ log ∧ .xcommit ⟨p.root, 0⟩ ∉ log ∧ .xabort ⟨p.root, 0⟩ ∉ log ∧
  ∀ q ∈ lineage log p, q ≠ ⟨p.root, 0⟩ → .xcommit q ∈ log

instance (log : List Rec) (p : Xid) : Decidable (Committed log p) := by unfold Committed; infer_instance
instance (log : List Rec) (p : Xid) : Decidable (InPrepared log p) := by unfold InPrepared; infer_instance

/-- What a row is to hold after recovery from this log: the last write of a transaction that has committed or is part of a prepared one. -/
def recovered (f : File) (k : Key) (log : List Rec) : Option Bytes :=
  valueOf ((writes f k log).filter fun w => Committed log w.1 ∨ InPrepared log w.1)

/-- All write records for a row, in order, whatever became of them. -/
def allWrites (f : File) (k : Key) (log : List Rec) : List (Xid × Wr) :=
  log.flatMap fun r => match r with
    | .enq p ops => ops.filterMap fun o => if o.file = f ∧ o.key = k then some (p, o.wr) else none
    | _ => []

/-- The ids of root transactions that recovery will know to be taken: those of begin records, and those mentioned by the begin record of
the last complete checkpoint. -/
def lastXid (log : List Rec) : Nat :=
  (log.foldl (fun (s : Nat × Nat) r => match r with
    | .xbegin p none => (s.1, max s.2 p.root)
    | .ckBegin lx => (lx, s.2)
    | .ckEnd _ _ _ => (s.1, max s.2 s.1)
    | _ => s) (0, 0)).2

/-! ### Who may call what -/

/-- Transaction `q` (of another root) no longer holds its row locks: its root has ended. -/
def Ended (log : List Rec) (root : Nat) : Prop := .xcommit ⟨root, 0⟩ ∈ log ∨ .xabort ⟨root, 0⟩ ∈ log

/-- What clients and the layers above may do: ids of transactions are new, a transaction with a child does nothing until the child has ended, nor
does a prepared one until it ends, nesting and lengths are bounded as in `Verif.Ule`, and a row is
written only when no unfinished transaction of another root has written it (row locks). -/
def Allowed (files : List File) (log : List Rec) (txns : Txns) : Rec → Prop
  | .xbegin p none => p.child = 0 ∧ lastXid log < p.root
  | .xbegin p (some q) => p.root = q.root ∧ p.child ≠ 0 ∧ p.child ≠ p.root ∧
      (∃ t, txns.get q = some t ∧ t.prepared = false ∧ t.chain.length < Verif.Ule.Spec.maxDepth) ∧ txns.childOf q = none ∧
      ∀ p' q', Rec.xbegin p' q' ∈ log → p'.root = p.root → p'.child < p.child
  | .enq p ops => (∃ t, txns.get p = some t ∧ t.prepared = false) ∧ txns.childOf p = none ∧
      (∀ o ∈ ops, o.file ∈ files ∧ ∀ v, (o.wr = .put v ∨ o.wr = .putNew v) → v.length < Verif.Ule.Spec.maxValLen) ∧
      ∀ o ∈ ops, ∀ q ops' o', Rec.enq q ops' ∈ log → o' ∈ ops' → o'.file = o.file → o'.key = o.key → q.root ≠ p.root → Ended log q.root
  | .xcommit p => txns.get p ≠ none ∧ txns.childOf p = none
  | .xabort p => txns.get p ≠ none ∧ txns.childOf p = none
  | .xprepare p => (∃ t, txns.get p = some t ∧ t.prepared = false ∧ t.parent = none) ∧ txns.childOf p = none
  | .comment => True
  | _ => False

/-- The states the system can reach, through any number of crashes. -/
inductive Reach (files : List File) : Sys → Prop
  | init : Reach files (Sys.init files)
  | client {s s' r} : Reach files s → Allowed files s.log s.w.txns r → s.client r = some s' → Reach files s'
  | fsync {s} (n : Nat) : Reach files s → Reach files (s.fsync n)
  | ckBegin {s s' lx} : Reach files s → lastXid s.log ≤ lx → s.ckBegin files lx = some s' → Reach files s'
  | skipFile {s s' f} : Reach files s → f ∈ files → s.skipFile f = some s' → Reach files s'
  | startFile {s s' f} : Reach files s → f ∈ files → s.startFile f = some s' → Reach files s'
  | finishFile {s s' f} : Reach files s → f ∈ files → s.finishFile f = some s' → Reach files s'
  | skipRb {s s'} : Reach files s → s.skipRb = some s' → Reach files s'
  | startRb {s s'} : Reach files s → s.startRb = some s' → Reach files s'
  | finishRb {s s'} : Reach files s → s.finishRb = some s' → Reach files s'
  | ckEndLog {s s'} : Reach files s → s.ckEndLog files = some s' → Reach files s'
  | ckEndSync {s s'} : Reach files s → s.ckEndSync = some s' → Reach files s'
  | trim {s s' n} : Reach files s → s.trim n = some s' → Reach files s'
  | crash {s s' n} : Reach files s → s.synced ≤ n → n ≤ s.log.length → s.crash n = some s' → Reach files s'

end Verif.Rec.Spec
