/-!
# Waiting for a row lock

Model of lock_request::wait (locktree/lock_request.cc:222-282) and of its caller (src/ydb_row_lock.cc:226-250): the clock
in microseconds as 64-bit numbers, the time a caller is willing to wait and the time between two questions whether the
caller was killed, both in milliseconds as 64-bit numbers the user sets.  What others do to the request while this
thread sleeps (grant it by a retry, or kill it) is an input.
-/

namespace Verif.LockWait

/-- Arithmetic of uint64_t. -/
def u64 (x : Nat) : Nat := x % 18446744073709551616

/-- What the user set: DB_ENV->set_lock_timeout and set_killed_callback (src/ydb.cc:2003-2008, 2825-2830), after the
callbacks that may change the times were asked (src/ydb_row_lock.cc:230-236). -/
structure Cfg where
  waitMs : Nat
  killedMs : Nat
  hasCallback : Bool
deriving DecidableEq, Repr

/-- How a wait ends: m_complete_r, 0 or DB_LOCK_NOTGRANTED, the latter for three reasons. -/
inductive Res
  | granted
  | timeout
  /-- The callback said that this thread was killed. -/
  | killed
  /-- lock_request::kill_waiter, from another thread (lock_request.cc:410-428). -/
  | killedByOther
deriving DecidableEq, Repr

/-- What became of the request during a sleep. -/
inductive Meanwhile
  | pending
  | granted
  | killed
deriving DecidableEq, Repr

/-- One round of the loop: what the callback answers, when the sleep is over (woken, by mistake, or because its time is
over), and what became of the request. -/
structure Round where
  saysKilled : Bool
  back : Nat
  meanwhile : Meanwhile
deriving DecidableEq, Repr

/-- `t_end`, lock_request.cc:223-225. -/
def tEnd (c : Cfg) (start : Nat) : Nat := u64 (start + u64 (c.waitMs * 1000))

/-- `t_wait`, lock_request.cc:242-250: until when the thread sleeps. -/
def tWait (c : Cfg) (e now : Nat) : Nat :=
  if c.killedMs = 0 then e
  else if u64 (now + u64 (c.killedMs * 1000)) > e then e else u64 (now + u64 (c.killedMs * 1000))

/-- The end of a wait: the result, the clock, and how many rounds it took. -/
structure Out where
  res : Res
  at_ : Nat
  rounds : Nat
deriving DecidableEq, Repr

/-- The loop, lock_request.cc:234-268; `none`: still waiting after these rounds. -/
def loop (c : Cfg) (e : Nat) (now n : Nat) : List Round → Option Out
  | [] => none
  | r :: rs =>
    if c.hasCallback && r.saysKilled then some ⟨.killed, now, n⟩
    else
      match r.meanwhile with
      | .granted => some ⟨.granted, r.back, n + 1⟩
      | .killed => some ⟨.killedByOther, r.back, n + 1⟩
      | .pending => if r.back ≥ e then some ⟨.timeout, r.back, n + 1⟩ else loop c e r.back (n + 1) rs

/-- lock_request::wait, lock_request.cc:222-282: the request is tried once more before the loop; `first`: what became of
it until then. -/
def wait (c : Cfg) (start : Nat) (first : Meanwhile) (rs : List Round) : Option Out :=
  match first with
  | .granted => some ⟨.granted, start, 0⟩
  | .killed => some ⟨.killedByOther, start, 0⟩
  | .pending => loop c (tEnd c start) start 0 rs

end Verif.LockWait
