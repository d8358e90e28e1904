/-!
Model of the fair readers/writer lock of nodes, util/frwlock.cc.

Every call is made with an outer mutex held, and only `toku_cond_wait` gives it up: a call is one step up to its wait, and what
comes after the wait is another step, which can be taken once the thread has been signalled.  The condition variable of a
waiting writer is its own, so that a signal reaches this thread; a broadcast on `m_wait_read` reaches the readers that wait at that
moment.  Waits that end without a signal are a separate step, which no theorem but one uses.

Simplifications: counters are natural numbers (there are fewer than 2^32 threads); a thread that holds the lock does not ask for
it again; instrumentation (thread ids and contexts of writers) is left out.  `paranoid_invariant` is a check in builds with
`TOKU_DEBUG_PARANOID` only: `pd` says whether this is such a build, `none` is a failed check or a null pointer.
-/
namespace Verif.Rw



/-- What a thread is doing with the lock.  `woken` is whether it has been signalled since it began to wait, `exp` whether it said
that holding the lock is expensive. -/
inductive Th where
  | idle
  | reading
  | writing (exp : Bool)
  | waitR (woken : Bool)
  | waitW (exp woken : Bool)
deriving Repr, DecidableEq

/-- `struct queue_item`, frwlock.h:89-92: the common item of the readers, or the item of a writer. -/
inductive Item where
  | rd
  | wr (t : Nat)
deriving Repr, DecidableEq

/-- `class frwlock`, frwlock.h:54-141, and the threads. -/
structure St where
  readers : Nat
  writers : Nat
  wantW : Nat
  wantR : Nat
  signaled : Nat
  expWant : Nat
  curExp : Bool
  readExp : Bool
  inQueue : Bool
  queue : List Item
  thr : Nat → Th

/-- `frwlock::init`, frwlock.cc:55-84. -/
def St.init : St := ⟨0, 0, 0, 0, 0, 0, false, false, false, [], fun _ => .idle⟩

def St.set (s : St) (t : Nat) (x : Th) : St := { s with thr := fun u => if u = t then x else s.thr u }

/-- `paranoid_invariant`. -/
def inv (pd b : Bool) : Option Unit := if pd && !b then none else some ()

/-- `enq_item`, frwlock.cc:95-104. -/
def St.enq (s : St) (i : Item) : St := { s with queue := s.queue ++ [i] }

/-- `deq_item`, frwlock.cc:106-115. -/
def St.deq (s : St) : Option (Item × St) :=
  match s.queue with
  | [] => none
  | i :: q => some (i, { s with queue := q })

/-- `toku_cond_signal` on the condition variable of the writer `t`. -/
def St.signal (s : St) (t : Nat) : St :=
  match s.thr t with
  | .waitW e _ => s.set t (.waitW e true)
  | _ => s

/-- `toku_cond_broadcast` on `m_wait_read`. -/
def St.broadcast (s : St) : St :=
  { s with thr := fun u => match s.thr u with
    | .waitR _ => .waitR true
    | x => x }

/-- `try_write_lock`, frwlock.cc:172-186. -/
def St.tryWrite (pd : Bool) (s : St) (t : Nat) (exp : Bool) : Option (St × Bool) :=
  if s.readers > 0 || s.writers > 0 || s.signaled > 0 || s.wantW > 0 then some (s, false)
  else do
    inv pd (s.wantW = 0)
    inv pd (s.wantR = 0)
    return ({ s with writers := 1, curExp := exp }.set t (.writing exp), true)

/-- `write_lock`, frwlock.cc:118-150, up to the wait. -/
def St.writeLock (pd : Bool) (s : St) (t : Nat) (exp : Bool) : Option St := do
  let (s, got) ← s.tryWrite pd t exp
  if got then return s
  else
    let s := s.enq (.wr t)
    return { s with wantW := s.wantW + 1, expWant := if exp then s.expWant + 1 else s.expWant }.set t (.waitW exp false)

/-- `write_lock`, frwlock.cc:150-169, after the wait. -/
def St.resumeW (pd : Bool) (s : St) (t : Nat) (exp : Bool) : Option St := do
  inv pd (s.wantW > 0)
  inv pd (s.readers = 0)
  inv pd (s.writers = 0)
  inv pd (s.signaled = 0)
  return { s with wantW := s.wantW - 1, expWant := if exp then s.expWant - 1 else s.expWant, writers := 1, curExp := exp }.set t (.writing exp)

/-- `read_lock`, frwlock.cc:188-216, up to the wait. -/
def St.readLock (pd : Bool) (s : St) (t : Nat) : Option St :=
  if s.writers > 0 || s.wantW > 0 then do
    let s ← if !s.inQueue then do
        inv pd (s.signaled = s.wantR)
        let s := { s.enq .rd with inQueue := true }
        inv pd (!s.readExp)
        pure { s with readExp := s.curExp || s.expWant > 0 }
      else pure s
    return { s with wantR := s.wantR + 1 }.set t (.waitR false)
  else return { s with readers := s.readers + 1 }.set t .reading

/-- `read_lock`, frwlock.cc:216-232, after the wait. -/
def St.resumeR (pd : Bool) (s : St) (t : Nat) : Option St := do
  inv pd (s.writers = 0)
  inv pd (s.wantR > 0)
  inv pd (s.signaled > 0)
  return { s with wantR := s.wantR - 1, signaled := s.signaled - 1, readers := s.readers + 1 }.set t .reading

/-- `try_read_lock`, frwlock.cc:234-244. -/
def St.tryRead (s : St) (t : Nat) : St × Bool :=
  if s.writers > 0 || s.wantW > 0 then (s, false)
  else ({ s with readers := s.readers + 1 }.set t .reading, true)

/-- `maybe_signal_next_writer`, frwlock.cc:246-255. -/
def St.signalWriter (pd : Bool) (s : St) : Option St :=
  if s.wantW > 0 && s.signaled = 0 && s.readers = 0 then
    match s.deq with
    | some (.wr t, s) => some (s.signal t)
    | some (.rd, s) => do
      inv pd false
      return { s with thr := s.thr }
    | none => none
  else some s

/-- `read_unlock`, frwlock.cc:257-266. -/
def St.readUnlock (pd : Bool) (s : St) (t : Nat) : Option St := do
  inv pd (s.writers = 0)
  inv pd (s.readers > 0)
  ({ s with readers := s.readers - 1 }.set t .idle).signalWriter pd

/-- `maybe_signal_or_broadcast_next`, frwlock.cc:278-301. -/
def St.signalNext (pd : Bool) (s : St) : Option St := do
  inv pd (s.signaled = 0)
  if s.queue.isEmpty then
    inv pd (s.wantW = 0)
    inv pd (s.wantR = 0)
    return s
  else
    match s.deq with
    | some (.rd, s) =>
      inv pd s.inQueue
      inv pd (s.wantR > 0)
      return { s with signaled := s.wantR, inQueue := false, readExp := false }.broadcast
    | some (.wr t, s) =>
      inv pd (s.wantW > 0)
      return s.signal t
    | none => none

/-- `write_unlock`, frwlock.cc:303-314. -/
def St.writeUnlock (pd : Bool) (s : St) (t : Nat) : Option St := do
  inv pd (s.writers = 1)
  ({ s with writers := 0, curExp := false }.set t .idle).signalNext pd

/-- `read_lock_is_expensive`, frwlock.cc:268-276. -/
def St.readIsExpensive (s : St) : Bool := if s.inQueue then s.readExp else s.curExp || s.expWant > 0

/-- `write_lock_is_expensive`, frwlock.cc:315-318. -/
def St.writeIsExpensive (s : St) : Bool := s.expWant > 0 || s.curExp

/-- A step of a thread. -/
inductive Act where
  | writeLock (t : Nat) (exp : Bool)
  | tryWrite (t : Nat) (exp : Bool)
  | resumeW (t : Nat) (exp : Bool)
  | writeUnlock (t : Nat)
  | readLock (t : Nat)
  | tryRead (t : Nat)
  | resumeR (t : Nat)
  | readUnlock (t : Nat)
deriving Repr, DecidableEq

def Act.tid : Act → Nat
  | .writeLock t _ | .tryWrite t _ | .resumeW t _ | .writeUnlock t | .readLock t | .tryRead t | .resumeR t | .readUnlock t => t

/-- Which steps a thread can take: it asks for the lock when it neither holds it nor waits for it, gives it back when it holds it,
and its wait ends when it has been signalled. -/
def can (s : St) : Act → Prop
  | .writeLock t _ | .tryWrite t _ | .readLock t | .tryRead t => s.thr t = .idle
  | .resumeW t e => s.thr t = .waitW e true
  | .resumeR t => s.thr t = .waitR true
  | .writeUnlock t => ∃ e, s.thr t = .writing e
  | .readUnlock t => s.thr t = .reading

def step (pd : Bool) (s : St) : Act → Option St
  | .writeLock t e => s.writeLock pd t e
  | .tryWrite t e => (s.tryWrite pd t e).map (·.1)
  | .resumeW t e => s.resumeW pd t e
  | .writeUnlock t => s.writeUnlock pd t
  | .readLock t => s.readLock pd t
  | .tryRead t => some (s.tryRead t).1
  | .resumeR t => s.resumeR pd t
  | .readUnlock t => s.readUnlock pd t

/-- The states that any number `n` of threads can bring about. -/
inductive Reach (pd : Bool) (n : Nat) : St → Prop
  | init : Reach pd n St.init
  | step {s s' : St} {a : Act} : Reach pd n s → a.tid < n → can s a → step pd s a = some s' → Reach pd n s'

end Verif.Rw
