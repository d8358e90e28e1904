import Verif.Iso.Spec

/-! Serializable transactions: reads that lock what they have seen, beside each other.

Model of the cursor reads of src/ydb_cursor.cc (all `c_getf_*` and their callbacks), the search of the tree that calls
them back (`toku_ft_search`, `ft_search_node`, `ft_search_basement_node`, ft/ft-ops.cc:3340-3448, 3735-3955;
ft/cursor.cc), the row locks of src/ydb_row_lock.cc, and of the locking of puts, deletes and updates
(src/ydb_write.cc:160-300).

Each step is one thing that one thread does while it has the nodes pinned, or one thing between two such moments.  A
search goes through one basement node at a time; which keys a basement covers is left open at each step, so that the
tree can have any shape and change it at any time (that a search goes through the tree in order is C54's).
Simplifications: locks are sets of keys, held by outermost transactions, that exclude each other (C20-C23, C57; read
locks are exclusive there too), escalation is a lock that grows; `rows` is what `C_READ_ANY` reads, the newest version,
committed or not; a transaction runs one call at a time; its writes put given values. -/
namespace Verif.Iso

variable {K V : Type} [LinearOrder K]

/-- Where a search is. -/
inductive Phase (K : Type) where
  /-- still to look ahead of this -/
  | going (lo : Start K)
  /-- ran off the last basement: nothing found, nothing locked yet beyond the last pivot, and the nodes unpinned
  (ft/ft-ops.cc:3920-3941) -/
  | ended
  /-- waiting for a lock (`toku_db_wait_range_lock`) -/
  | waiting
  deriving DecidableEq

/-- A call in progress: the question, and the cursor's key as the engine has it. -/
structure Search (K : Type) where
  q : Query K
  eng : Start K
  phase : Phase K
  deriving DecidableEq

structure Txn (K V : Type) where
  /-- what its user has seen and done -/
  log : List (Ev K V)
  /-- the rollback logs, innermost transaction first, newest entry first -/
  levels : List (List (K × Option V))
  locks : K → Prop
  search : Option (Search K)
  aborting : Bool

structure World (K V : Type) where
  rows : Store K V
  txns : Nat → Option (Txn K V)
  /-- the logs of the committed transactions, in the order of their commits -/
  done : List (List (Ev K V))

/-- Which situations may arise: that rows change between the end of a search and its lock; that a cursor has bounds it
did not lock; that a lock is refused in the middle of a bulk fetch. -/
structure Flags where
  gap : Bool
  loose : Bool
  bulk : Bool

/-- The keys from the engine's key to `r`, both included: `left_key` and `right_key` in the callbacks. -/
def lockTo (d : Dir) (b : Start K) (r : K) (x : K) : Prop :=
  (match b with | .inf => True | .incl k => ¬ d.lt x k | .excl k => ¬ d.lt x k) ∧ ¬ d.lt r x

/-- The keys from the engine's key to infinity. -/
def lockOn (d : Dir) (b : Start K) (x : K) : Prop :=
  match b with | .inf => True | .incl k => ¬ d.lt x k | .excl k => ¬ d.lt x k

/-- The lock is free: `toku_db_start_range_lock` would grant it. -/
def Free (w : World K V) (t : Nat) (R : K → Prop) : Prop :=
  ∀ u x, u ≠ t → w.txns u = some x → ∀ k, x.locks k → ¬ R k

/-- Change one transaction. -/
def World.set (w : World K V) (t : Nat) (x : Option (Txn K V)) : World K V :=
  { w with txns := fun u => if u = t then x else w.txns u }

/-- Add a lock. -/
def Txn.lock (x : Txn K V) (R : K → Prop) : Txn K V := { x with locks := fun k => x.locks k ∨ R k }

/-- No row of another transaction's unlocked end is at `k`. -/
def NoGap (w : World K V) (t : Nat) (k : K) : Prop :=
  ∀ u x s, u ≠ t → w.txns u = some x → x.search = some s → s.phase = .ended → ¬ s.q.start.ahead s.q.dir k

/-- No row between `lo` and `r`. -/
def NoneBefore (s : Store K V) (d : Dir) (lo : Start K) (r : K) : Prop :=
  ∀ x, lo.ahead d x → d.lt x r → s x = none

/-- What the lock on not finding anything covers: `c_getf_set_callback` locks the key, the others go to infinity. -/
def lockNone (s : Search K) (x : K) : Prop :=
  lockOn s.q.dir s.eng x ∧ (s.q.point = true → within s.q.dir s.q.bound x)

/-- One step. -/
inductive Step (f : Flags) : World K V → World K V → Prop where
  /-- a new outermost transaction -/
  | new (w t) : w.txns t = none →
      Step f w (w.set t (some ⟨[], [[]], fun _ => False, none, false⟩))
  /-- a lock: for a put, delete or update (src/ydb_write.cc), of `c_set_bounds` (src/ydb_cursor.cc:660-700), or one
  that escalation makes larger -/
  | lock (w t x R) : w.txns t = some x → x.search = none → Free w t R → Step f w (w.set t (some (x.lock R)))
  /-- a put, delete or update of a row that is locked -/
  | write (w t x l ls k v) : w.txns t = some x → x.search = none → x.aborting = false → x.levels = l :: ls →
      x.locks k → (f.gap = true ∨ NoGap w t k) →
      Step f w ({ w with rows := upd w.rows k v }.set t
        (some { x with log := x.log ++ [Ev.wrote k v], levels := ((k, w.rows k) :: l) :: ls }))
  /-- a call that reads, `c_getf_*` -/
  | call (w t x q) : w.txns t = some x → x.search = none → x.aborting = false →
      Step f w (w.set t (some { x with search := some ⟨q, q.start, .going q.start⟩ }))
  /-- a row is found in the basement, its lock is granted, and the user gets it (ft/ft-ops.cc:3412-3424) -/
  | found (w t x q eng lo r v) : w.txns t = some x → x.search = some ⟨q, eng, .going lo⟩ →
      lo.ahead q.dir r → NoneBefore w.rows q.dir lo r → w.rows r = some v → within q.dir q.bound r →
      Free w t (lockTo q.dir eng r) →
      Step f w (w.set t (some { x.lock (lockTo q.dir eng r) with
        log := x.log ++ [Ev.ask q (some (r, v))], search := none }))
  /-- the end of a basement that is not the last, and the lock up to the pivot `p` is granted
  (ft/ft-ops.cc:3793-3804); to the left the pivot itself is still to be searched -/
  | pivot (w t x q eng lo p lo') : w.txns t = some x → x.search = some ⟨q, eng, .going lo⟩ → q.point = false →
      lo' = .incl p ∨ lo' = .excl p → (∀ k, lo'.ahead q.dir k → lo.ahead q.dir k) →
      (∀ k, lo.ahead q.dir k → ¬ lo'.ahead q.dir k → w.rows k = none) → Free w t (lockTo q.dir eng p) →
      Step f w (w.set t (some { x.lock (lockTo q.dir eng p) with search := some ⟨q, eng, .going lo'⟩ }))
  /-- the end of the last basement -/
  | off (w t x q eng lo) : w.txns t = some x → x.search = some ⟨q, eng, .going lo⟩ →
      (∀ k, lo.ahead q.dir k → w.rows k = none) →
      Step f w (w.set t (some { x with search := some ⟨q, eng, .ended⟩ }))
  /-- ... and its lock, after the nodes have been unpinned (ft/ft-ops.cc:3926-3941) -/
  | lockEnd (w t x q eng) : w.txns t = some x → x.search = some ⟨q, eng, .ended⟩ →
      Free w t (lockNone ⟨q, eng, .ended⟩) →
      Step f w (w.set t (some { x.lock (lockNone ⟨q, eng, .ended⟩) with
        log := x.log ++ [Ev.ask q none], search := none }))
  /-- a point read that does not find its key where it would be (`ft_cursor_search_eq_k_x_getf`,
  ft/cursor.cc:320-341) -/
  | missing (w t x q eng lo) : w.txns t = some x → x.search = some ⟨q, eng, .going lo⟩ → q.point = true →
      (∀ k, lo.ahead q.dir k → within q.dir q.bound k → w.rows k = none) → Free w t (lockNone ⟨q, eng, .going lo⟩) →
      Step f w (w.set t (some { x.lock (lockNone ⟨q, eng, .going lo⟩) with
        log := x.log ++ [Ev.ask q none], search := none }))
  /-- a cursor with bounds: the row found is out of range, the callback is not called and nothing is locked
  (`toku_ft_cursor_check_restricted_range`, ft/cursor.cc:240-257) -/
  | out (w t x q eng lo r) : w.txns t = some x → x.search = some ⟨q, eng, .going lo⟩ → q.point = false →
      lo.ahead q.dir r → NoneBefore w.rows q.dir lo r → ¬ within q.dir q.bound r →
      (f.loose = true ∨ ∀ k, q.start.ahead q.dir k → within q.dir q.bound k → x.locks k) →
      Step f w (w.set t (some { x with log := x.log ++ [Ev.ask q none], search := none }))
  /-- a search with a bound of its own (`c_getf_set_range_with_bound`) that found nothing up to the bound, at the end of a
  basement whose pivot is beyond it; a call that finds a row beyond the bound counts as one without a bound -/
  | bounded (w t x q eng lo p) : w.txns t = some x → x.search = some ⟨q, eng, .going lo⟩ → q.point = false →
      (∀ k, lo.ahead q.dir k → within q.dir q.bound k → w.rows k = none) →
      (∀ k, within q.dir q.bound k → ¬ q.dir.lt p k) → Free w t (lockTo q.dir eng p) →
      Step f w (w.set t (some { x.lock (lockTo q.dir eng p) with
        log := x.log ++ [Ev.ask q none], search := none }))
  /-- a lock is not granted at once -/
  | wait (w t x q eng ph) : w.txns t = some x → x.search = some ⟨q, eng, ph⟩ →
      Step f w (w.set t (some { x with search := some ⟨q, eng, .waiting⟩ }))
  /-- the lock waited for is granted, and the search begins again (`while (r == 0)` in every `c_getf_*`) -/
  | granted (w t x q eng R) : w.txns t = some x → x.search = some ⟨q, eng, .waiting⟩ → Free w t R →
      Step f w (w.set t (some { x.lock R with search := some ⟨q, eng, .going eng⟩ }))
  /-- it is not: the call returns an error -/
  | refused (w t x q eng) : w.txns t = some x → x.search = some ⟨q, eng, .waiting⟩ →
      Step f w (w.set t (some { x with search := none }))
  /-- bulk fetch (`toku_ft_cursor_shortcut`, ft/cursor.cc:259-306): the row after the one delivered last is in the same
  basement but its lock is not granted.  The cursor's key has become that row's all the same
  (ft/ft-ops.cc:3430-3442) -/
  | bulkWait (w t x q eng lo r r0 v0 q0 l) : f.bulk = true → w.txns t = some x →
      x.search = some ⟨q, eng, .going lo⟩ → x.log = l ++ [.ask q0 (some (r0, v0))] → q.start = .excl r0 →
      lo.ahead q.dir r → NoneBefore w.rows q.dir lo r → w.rows r ≠ none → within q.dir q.bound r →
      ¬ Free w t (lockTo q.dir eng r) →
      Step f w (w.set t (some { x with search := some ⟨q, .excl r, .waiting⟩ }))
  /-- `c_getf_current` at a key the transaction has locked -/
  | current (w t x k) : w.txns t = some x → x.search = none → x.aborting = false → x.locks k →
      Step f w (w.set t (some { x with log := x.log ++ [Ev.ask (.get k) ((w.rows k).map fun v => (k, v))] }))
  /-- a transaction inside the transaction -/
  | beginChild (w t x) : w.txns t = some x → x.search = none → x.aborting = false →
      Step f w (w.set t (some { x with log := x.log ++ [Ev.«begin»], levels := [] :: x.levels }))
  /-- its commit: the rollback log goes to the one around it -/
  | commitChild (w t x l1 l2 ls) : w.txns t = some x → x.search = none → x.aborting = false →
      x.levels = l1 :: l2 :: ls →
      Step f w (w.set t (some { x with log := x.log ++ [Ev.commit], levels := (l1 ++ l2) :: ls }))
  /-- an abort begins, of the innermost transaction -/
  | abort (w t x) : w.txns t = some x → x.search = none → x.aborting = false →
      Step f w (w.set t (some { x with aborting := true }))
  /-- ... takes back one write after another -/
  | undo (w t x k o l ls) : w.txns t = some x → x.aborting = true → x.search = none → x.levels = ((k, o) :: l) :: ls →
      (f.gap = true ∨ NoGap w t k) →
      Step f w ({ w with rows := upd w.rows k o }.set t (some { x with levels := l :: ls }))
  /-- ... and ends; the locks stay -/
  | aborted (w t x l ls) : w.txns t = some x → x.aborting = true → x.search = none → x.levels = [] :: l :: ls →
      Step f w (w.set t (some { x with log := x.log ++ [Ev.abort], levels := l :: ls, aborting := false }))
  /-- the outermost one: the locks go -/
  | abortedRoot (w t x) : w.txns t = some x → x.aborting = true → x.search = none → x.levels = [[]] →
      Step f w (w.set t none)
  /-- the commit of the outermost transaction releases the locks -/
  | commit (w t x l) : w.txns t = some x → x.aborting = false → x.search = none → x.levels = [l] →
      Step f w { w.set t none with done := w.done ++ [x.log] }

/-- No transactions yet. -/
def World.start (rows : Store K V) : World K V := ⟨rows, fun _ => none, []⟩

inductive Reach (f : Flags) (rows : Store K V) : World K V → Prop where
  | start : Reach f rows (.start rows)
  | step (w w') : Reach f rows w → Step f w w' → Reach f rows w'

end Verif.Iso
