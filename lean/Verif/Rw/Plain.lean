import Verif.Rw.Inv
/-!
Model of the readers/writer lock of util/rwlock.h, which util/nb_mutex.h uses as the lock of a node's disk copy and of the table of blocks.

Every call is made with an outer mutex held; a wait is in a loop, which looks again each time it ends.  A signal wakes one of the
sleeping writers, any of them (`who`); a wait may also end without a signal (`wake`).  Left out: `rwlock_wait_for_users`, which nothing calls, and
instrumentation.  Counters are natural numbers.  The states of threads are those of the fair lock; `exp` says nothing here.
-/
namespace Verif.Rw

/-- `struct st_rwlock`, rwlock.h:152-163, and the threads. -/
structure P where
  reader : Nat
  wantR : Nat
  writer : Nat
  wantW : Nat
  thr : Nat → Th

/-- `inline_rwlock_init`, rwlock.h:181-196. -/
def P.init : P := ⟨0, 0, 0, 0, fun _ => .idle⟩

def P.set (s : P) (t : Nat) (x : Th) : P := { s with thr := fun u => if u = t then x else s.thr u }

/-- `rwlock_read_lock`, rwlock.h:217-241, up to the wait. -/
def P.readLock (s : P) (t : Nat) : P :=
  if s.writer > 0 || s.wantW > 0 then { s with wantR := s.wantR + 1 }.set t (.waitR false)
  else { s with reader := s.reader + 1 }.set t .reading

/-- `rwlock_read_lock`, rwlock.h:230-234: a wait has ended. -/
def P.resumeR (s : P) (t : Nat) : P :=
  if s.writer > 0 || s.wantW > 0 then s.set t (.waitR false)
  else { s with wantR := s.wantR - 1, reader := s.reader + 1 }.set t .reading

/-- `toku_cond_signal` on `wait_write`. -/
def P.signal (s : P) (who : Nat) : P :=
  match s.thr who with
  | .waitW e false => s.set who (.waitW e true)
  | _ => s

/-- `toku_cond_broadcast` on `wait_read`. -/
def P.broadcast (s : P) : P :=
  { s with thr := fun u => match s.thr u with
    | .waitR _ => .waitR true
    | x => x }

/-- `rwlock_read_unlock`, rwlock.h:246-259. -/
def P.readUnlock (pd : Bool) (s : P) (t who : Nat) : Option P := do
  inv pd (s.reader > 0)
  inv pd (s.writer = 0)
  let s := { s with reader := s.reader - 1 }.set t .idle
  if s.reader = 0 && s.wantW > 0 then return s.signal who else return s

/-- `rwlock_write_lock`, rwlock.h:264-285, up to the wait. -/
def P.writeLock (s : P) (t : Nat) : P :=
  if s.reader > 0 || s.writer > 0 then { s with wantW := s.wantW + 1 }.set t (.waitW false false)
  else { s with writer := s.writer + 1 }.set t (.writing false)

/-- `rwlock_write_lock`, rwlock.h:274-278: a wait has ended. -/
def P.resumeW (s : P) (t : Nat) : P :=
  if s.reader > 0 || s.writer > 0 then s.set t (.waitW false false)
  else { s with wantW := s.wantW - 1, writer := s.writer + 1 }.set t (.writing false)

/-- `rwlock_write_unlock`, rwlock.h:290-303. -/
def P.writeUnlock (pd : Bool) (s : P) (t who : Nat) : Option P := do
  inv pd (s.reader = 0)
  inv pd (s.writer = 1)
  let s := { s with writer := s.writer - 1 }.set t .idle
  if s.wantW > 0 then return s.signal who
  else if s.wantR > 0 then return s.broadcast
  else return s

/-- A wait ends without a signal. -/
def P.wake (s : P) (t : Nat) : P :=
  match s.thr t with
  | .waitR _ => s.set t (.waitR true)
  | .waitW e _ => s.set t (.waitW e true)
  | _ => s

inductive PAct where
  | readLock (t : Nat)
  | resumeR (t : Nat)
  | readUnlock (t who : Nat)
  | writeLock (t : Nat)
  | resumeW (t : Nat)
  | writeUnlock (t who : Nat)
  | wake (t : Nat)
deriving Repr, DecidableEq

def PAct.tid : PAct → Nat
  | .readLock t | .resumeR t | .readUnlock t _ | .writeLock t | .resumeW t | .writeUnlock t _ | .wake t => t

/-- A signal reaches a sleeping writer, if there is one. -/
def P.aim (s : P) (who : Nat) : Prop := (∃ u e, s.thr u = .waitW e false) → ∃ e, s.thr who = .waitW e false

def pcan (s : P) : PAct → Prop
  | .readLock t | .writeLock t => s.thr t = .idle
  | .resumeR t => s.thr t = .waitR true
  | .resumeW t => ∃ e, s.thr t = .waitW e true
  | .readUnlock t who => s.thr t = .reading ∧ s.aim who
  | .writeUnlock t who => (∃ e, s.thr t = .writing e) ∧ s.aim who
  | .wake _ => True

def pstep (pd : Bool) (s : P) : PAct → Option P
  | .readLock t => some (s.readLock t)
  | .resumeR t => some (s.resumeR t)
  | .readUnlock t who => s.readUnlock pd t who
  | .writeLock t => some (s.writeLock t)
  | .resumeW t => some (s.resumeW t)
  | .writeUnlock t who => s.writeUnlock pd t who
  | .wake t => some (s.wake t)

inductive PReach (pd : Bool) (n : Nat) : P → Prop
  | init : PReach pd n P.init
  | step {s s' : P} {a : PAct} : PReach pd n s → a.tid < n → pcan s a → pstep pd s a = some s' → PReach pd n s'

end Verif.Rw
