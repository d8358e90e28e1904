import Verif.Lt.Waits

/-!
Waking up waiting lock requests: the group retry protocol (locktree/lock_request.cc:177-430, struct
`lt_lock_request_info` of locktree/locktree.h:96-111), as an interleaving of atomic steps of the transactions' threads.

Simplifications.  Memory is sequentially consistent.  The lock table is the list of held locks: a request is refused
exactly while another transaction holds a lock that meets it (shown of the lock table itself as C22), and a release
takes away the releasing transaction's own locks one at a time.  `escalate` may give any holder any further lock, more
than real escalation does.  `insert_into_lock_requests` is two steps, since `pending_is_empty` is read without the
mutex; `remove_from_lock_requests` is one.  Steps made under `retry_mutex` are atomic.  `pending_is_empty`, `retry_want`
are atomic variables in the code as well.  A thread may leave `cond_wait` at any time, woken or not.
-/
namespace Verif.Lt.Retry

/-- Where a transaction's thread is. -/
inductive Phase (R : Type) where
  /-- Not inside a lock request or a release. -/
  | idle
  /-- `start`: refused, not yet pending (locktree/lock_request.cc:191-198). -/
  | refused (r : R)
  /-- Inserted, holding the mutex; `pending_is_empty` not yet cleared (199, 447-450). -/
  | inserting (r : R)
  /-- `start` has returned, `wait` has not begun. -/
  | queued (r : R)
  /-- Inside the loop of `wait` (234-268). -/
  | asleep (r : R)
  /-- Inside `release_locks` (src/ydb_row_lock.cc:282). -/
  | releasing
  /-- About to read `pending_is_empty` (locktree/lock_request.cc:348). -/
  | readEmpty
  /-- About to take a generation number (352). -/
  | takeNumber
  /-- Has number `m`, about to lock `retry_mutex` (354-361). -/
  | numbered (m : Nat)
  /-- Waiting on `retry_cv` (374). -/
  | standBy (m : Nat)
  /-- Leader, about to lock the request mutex (366, 383). -/
  | passStart
  /-- Leader, about to retry the request at this position (385-397). -/
  | passAt (i : Nat)
  /-- Leader, about to clear `running_retry` (369-372). -/
  | finishing
deriving Repr, DecidableEq

/-- The shared state and every thread's position. -/
structure State (R : Type) where
  held : List (Txn × R)
  pending : List (Txn × R)
  /-- `pending_is_empty`. -/
  flag : Bool
  mutex : Option Txn
  want : Nat
  done : Nat
  running : Bool
  phase : Txn → Phase R

def State.init {R : Type} : State R := ⟨[], [], true, none, 0, 0, false, fun _ => .idle⟩

/-- One atomic step of a thread. -/
inductive Ev (R : Type) where
  | request (t : Txn) (r : R)
  | insert (t : Txn)
  | inserted (t : Txn) (deadlock : Bool)
  | enterWait (t : Txn)
  | wake (t : Txn)
  | giveUp (t : Txn)
  | kill (t : Txn)
  | escalate (u : Txn) (r : R)
  | release (t : Txn)
  | drop (t : Txn) (r : R)
  | released (t : Txn)
  | readEmpty (t : Txn)
  | takeNumber (t : Txn)
  | compare (t : Txn)
  | standBy (t : Txn)
  | passStart (t : Txn)
  | passStep (t : Txn)
  | finish (t : Txn)

section
variable {R : Type} [DecidableEq R] (meets : R → R → Bool)

/-- Another transaction holds a lock that meets the request. -/
def blocked (held : List (Txn × R)) (t : Txn) (r : R) : Bool := held.any fun x => decide (x.1 ≠ t) && meets r x.2

def State.at (s : State R) (t : Txn) (p : Phase R) : State R := { s with phase := fun u => if u = t then p else s.phase u }

/-- Requests are kept in the order of their transactions' ids (`insert_into_lock_requests`,
locktree/lock_request.cc:441-451). -/
def insertAt (q : Txn × R) : List (Txn × R) → List (Txn × R)
  | [] => [q]
  | x :: xs => if x.1 < q.1 then x :: insertAt q xs else q :: x :: xs

def lookup (t : Txn) : List (Txn × R) → Option R
  | [] => none
  | x :: xs => if x.1 = t then some x.2 else lookup t xs

/-- `remove_from_lock_requests`, locktree/lock_request.cc:453-464. -/
def State.remove (s : State R) (t : Txn) : State R :=
  let p := s.pending.filter (·.1 ≠ t)
  { s with pending := p, flag := if p.isEmpty then true else s.flag }

/-- `lock_request::retry`, locktree/lock_request.cc:310-338: the state, and whether the lock was granted. -/
def State.retry (s : State R) (t : Txn) (r : R) : State R × Bool :=
  if blocked meets s.held t r then (s, false) else ({ s.remove t with held := (t, r) :: s.held }, true)

/-- Become the leader, or wait for the present one (locktree/lock_request.cc:363-376). -/
def State.lead (s : State R) (t : Txn) (m : Nat) : State R :=
  if s.running then s.at t (.standBy m) else { s with running := true, done := s.want }.at t .passStart

/-- Steps; `none` when the thread cannot take this step now. -/
def step (s : State R) : Ev R → Option (State R)
  /- `lock_request::start`, before the mutex: locktree/lock_request.cc:177-198. -/
  | .request t r =>
    match s.phase t with
    | .idle => some (if blocked meets s.held t r then s.at t (.refused r) else { s with held := (t, r) :: s.held })
    | _ => none
  | .insert t =>
    match s.phase t, s.mutex with
    | .refused r, none => some ({ s with pending := insertAt (t, r) s.pending, mutex := some t }.at t (.inserting r))
    | _, _ => none
  /- The rest of `start`, locktree/lock_request.cc:200-204; whether a deadlock is found is left open. -/
  | .inserted t d =>
    match s.phase t with
    | .inserting r =>
      some (if d then ({ s with flag := false, mutex := none }.remove t).at t .idle
        else { s with flag := false, mutex := none }.at t (.queued r))
    | _ => none
  /- `wait`, locktree/lock_request.cc:227-234. -/
  | .enterWait t =>
    match s.phase t, s.mutex with
    | .queued r, none =>
      match lookup t s.pending with
      | some _ => some (let (s', granted) := s.retry meets t r; s'.at t (if granted then .idle else .asleep r))
      | none => some (s.at t .idle)
    | _, _ => none
  /- Leaving the loop of `wait` after another thread completed the request, locktree/lock_request.cc:234, 270-281. -/
  | .wake t =>
    match s.phase t, s.mutex with
    | .asleep _, none => if (lookup t s.pending).isSome then none else some (s.at t .idle)
    | _, _ => none
  /- Timeout or killed, locktree/lock_request.cc:236-240, 257-267. -/
  | .giveUp t =>
    match s.phase t, s.mutex with
    | .asleep _, none => if (lookup t s.pending).isSome then some ((s.remove t).at t .idle) else none
    | _, _ => none
  /- `kill_waiter`, locktree/lock_request.cc:410-428. -/
  | .kill t =>
    match s.mutex with
    | none => if (lookup t s.pending).isSome then some (s.remove t) else none
    | some _ => none
  | .escalate u r => if s.held.any (·.1 = u) then some { s with held := (u, r) :: s.held } else none
  | .release t =>
    match s.phase t with
    | .idle => some (s.at t .releasing)
    | _ => none
  | .drop t r =>
    match s.phase t with
    | .releasing => some { s with held := s.held.erase (t, r) }
    | _ => none
  | .released t =>
    match s.phase t with
    | .releasing => if s.held.any (·.1 = t) then none else some (s.at t .readEmpty)
    | _ => none
  /- `retry_all_lock_requests`, locktree/lock_request.cc:340-380. -/
  | .readEmpty t =>
    match s.phase t with
    | .readEmpty => some (s.at t (if s.flag then .idle else .takeNumber))
    | _ => none
  | .takeNumber t =>
    match s.phase t with
    | .takeNumber => some ({ s with want := s.want + 1 }.at t (.numbered (s.want + 1)))
    | _ => none
  | .compare t =>
    match s.phase t with
    | .numbered m => some (if m - 1 = s.done then s.lead t m else s.at t .idle)
    | _ => none
  | .standBy t =>
    match s.phase t with
    | .standBy m => some (s.lead t m)
    | _ => none
  /- `retry_all_lock_requests_info`, locktree/lock_request.cc:382-404. -/
  | .passStart t =>
    match s.phase t, s.mutex with
    | .passStart, none => some ({ s with mutex := some t }.at t (.passAt 0))
    | _, _ => none
  | .passStep t =>
    match s.phase t with
    | .passAt i =>
      match s.pending[i]? with
      | some q => some (let (s', granted) := s.retry meets q.1 q.2; s'.at t (.passAt (if granted then i else i + 1)))
      | none => some ({ s with mutex := none }.at t .finishing)
    | _ => none
  | .finish t =>
    match s.phase t with
    | .finishing => some ({ s with running := false }.at t .idle)
    | _ => none

def run (s : State R) : List (Ev R) → Option (State R)
  | [] => some s
  | e :: es => (step meets s e).bind fun s => run s es

end
end Verif.Lt.Retry
