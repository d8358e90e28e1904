/-!
The thread that calls a function every so often: checkpoints, the cleaner, the flush of the log, the watch over disk space.
util/minicron.cc:50-200; the periods given to it by ft/cachetable/cachetable.cc:3037-3078, 4425-4463 and src/ydb.cc:317-378, 1811-1835, 1861-1880.

The thread and the calls of others are steps; a section under the mutex is cut where the clock is read.  Time is in microseconds, as `gettimeofday` gives it, and does not
go back.  A condition variable wakes the thread when it is signalled and may do so at any other time.
-/
namespace Verif.Cron

/-- `toku_timespec_t`. -/
structure Time where
  sec : Nat
  nsec : Nat
deriving Repr, DecidableEq

/-- `toku_gettime`, minicron.cc:50-55. -/
def clock (now : Nat) : Time := ⟨now / 1000000, now % 1000000 * 1000⟩

/-- `timespec_compare(a, b) > 0`, 58-65. -/
def Time.after (a b : Time) : Bool :=
  if a.sec > b.sec then true
  else if a.sec < b.sec then false
  else a.nsec > b.nsec

/-- 95-97, 118-120. -/
def Time.plus (t : Time) (period : Nat) : Time := ⟨t.sec + period / 1000, t.nsec + period % 1000 * 1000000⟩

/-- `pthread_cond_timedwait` refuses such a time: EINVAL. -/
def Time.valid (t : Time) : Bool := t.nsec < 1000000000

/-- Where the thread is.  It holds the mutex at `top`, `woke` and `due`. -/
inductive Pc where
  | lock
  | top
  | waitU (signalled : Bool)
  | sleeping (till : Nat)
  | slept
  | waitT (till : Time) (signalled : Bool)
  | woke
  | due
  | calling
  | done
deriving Repr, DecidableEq

def Pc.holds : Pc → Bool
  | .top | .woke | .due => true
  | _ => false

/-- `struct minicron`, the time, and what is kept for the specification only: the calls begun, newest first, each with its time and the period then set. -/
structure St where
  now : Nat
  period : Nat
  last : Time
  shut : Bool
  pc : Pc
  calls : List (Nat × Nat)
deriving Repr, DecidableEq

/-- `toku_minicron_setup`, 140-153. -/
def St.setup (now period : Nat) : St := ⟨now, period, clock now, false, .lock, []⟩

/-- `toku_cond_signal`. -/
def St.signal (s : St) : St :=
  match s.pc with
  | .waitU _ => { s with pc := .waitU true }
  | .waitT t _ => { s with pc := .waitT t true }
  | _ => s

inductive Act where
  /-- Time passes. -/
  | tick (d : Nat)
  /-- The thread gets the mutex, 76, 127, 135. -/
  | lock
  /-- 78-106. -/
  | top
  /-- The condition variable wakes the thread for no reason. -/
  | stir
  /-- The wait ends. -/
  | wake
  /-- The timed wait ends by the time. -/
  | timeout
  /-- `usleep` ends. -/
  | slept
  /-- The mutex is taken after `usleep`, 91. -/
  | relock
  /-- 110-122, 131-134. -/
  | woke
  /-- `time_of_last_call_to_f` is set and `f` begins, 123-125. -/
  | due
  /-- `f` returns 0. -/
  | ret
  /-- `toku_minicron_change_period`, 156-161. -/
  | change (period : Nat)
  /-- `toku_minicron_shutdown` up to the join, 180-186. -/
  | shutdown
deriving Repr, DecidableEq

/-- One step; `none` if it is not possible, `some none` if an assertion fails. -/
def act (s : St) : Act → Option (Option St)
  | .tick d => some (some { s with now := s.now + d })
  | .lock =>
    match s.pc with
    | .lock => some (some { s with pc := .top })
    | _ => none
  | .top =>
    match s.pc with
    | .top =>
      if s.shut then some (some { s with pc := .done })
      else if s.period = 0 then some (some { s with pc := .waitU false })
      else if s.period ≤ 1000 then some (some { s with pc := .sleeping (s.now + s.period * 1000) })
      else
        let at_ := s.last.plus s.period
        if at_.after (clock s.now) then
          if at_.valid then some (some { s with pc := .waitT at_ false }) else some none
        else some (some { s with pc := .woke })
    | _ => none
  | .stir =>
    match s.pc with
    | .waitU _ => some (some { s with pc := .waitU true })
    | .waitT t _ => some (some { s with pc := .waitT t true })
    | _ => none
  | .wake =>
    match s.pc with
    | .waitU true => some (some { s with pc := .woke })
    | .waitT _ true => some (some { s with pc := .woke })
    | _ => none
  | .timeout =>
    match s.pc with
    | .waitT t _ => if t.after (clock s.now) then none else some (some { s with pc := .woke })
    | _ => none
  | .slept =>
    match s.pc with
    | .sleeping t => if t ≤ s.now then some (some { s with pc := .slept }) else none
    | _ => none
  | .relock =>
    match s.pc with
    | .slept => some (some { s with pc := .woke })
    | _ => none
  | .woke =>
    match s.pc with
    | .woke =>
      if s.shut then some (some { s with pc := .done })
      else if s.period > 1000 then
        if (s.last.plus s.period).after (clock s.now) then some (some { s with pc := .top }) else some (some { s with pc := .due })
      else if s.period ≠ 0 then some (some { s with pc := .calling, calls := (s.now, s.period) :: s.calls })
      else some (some { s with pc := .top })
    | _ => none
  | .due =>
    match s.pc with
    | .due => some (some { s with last := clock s.now, pc := .calling, calls := (s.now, s.period) :: s.calls })
    | _ => none
  | .ret =>
    match s.pc with
    | .calling => some (some { s with pc := .lock })
    | _ => none
  | .change p => if s.pc.holds then none else some (some { s with period := p }.signal)
  | .shutdown => if s.pc.holds then none else if s.shut then some none else some (some { s with shut := true }.signal)

inductive Out where
  | ok (s : St)
  | crash
  | impossible
deriving Repr, DecidableEq

def run (s : St) : List Act → Out
  | [] => .ok s
  | a :: as =>
    match act s a with
    | some (some s') => run s' as
    | some none => .crash
    | none => .impossible

/-- The period the checkpointer and the cleaner pass on, cachetable.cc:3077, 4449, for a period in seconds: `uint32_t` arithmetic. -/
def ofSeconds (seconds : Nat) : Nat := seconds * 1000 % 2 ^ 32

/-- `toku_minicron_get_period_in_seconds_unlocked`, 164-169. -/
def inSeconds (period : Nat) : Nat := period / 1000

end Verif.Cron
