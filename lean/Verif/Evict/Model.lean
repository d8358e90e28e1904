/-!
Flow control of the node cache: clients that find the cache too full sleep until the eviction thread, or background evictions, have made room.
ft/cachetable/cachetable.cc, class `evictor`: 3643-3715 (`init`), 3718-3740 (`destroy`), 3798-3860, 3868-3981 (the eviction thread), 3984-4245 as far as they
change the two sizes, 4248-4376.

A step is what a thread does between two points at which another can come in.  A section under `m_ev_thread_lock` that reads nothing that others change without
the lock is one step, possible when the eviction thread does not hold the lock; the eviction thread's own sections are cut at each read of `m_size_current`, which
others change at any time.  A condition variable wakes a thread that waits on it when it is signalled, and may do so at any other time; the eviction thread's wait also
ends by its timer.  Which pairs are evicted, and how much that frees, is open.  Sizes are whole numbers without a limit.
-/
namespace Verif.Evict

/-- The limits of `evictor`, ft/cachetable/cachetable-internal.h:509-512. -/
structure Cfg where
  low : Int
  lowH : Int
  highH : Int
  highW : Int
deriving Repr, DecidableEq

/-- `evictor::init`, cachetable.cc:3647-3668, for a size limit that is not negative. -/
def Cfg.of (limit : Int) : Cfg :=
  let d : Int := 2 ^ 29
  let low := limit
  let lowH := 11 * limit / 10
  let lowH := if lowH - low > d then low + d else lowH
  let highH := 5 * limit / 4
  let highH := if highH - lowH > d then lowH + d else highH
  let highW := 3 * limit / 2
  let highW := if highW - highH > d then highH + d else highW
  ⟨low, lowH, highH, highW⟩

/-- Where the eviction thread is.  It holds the lock at `top`, `test`, `wake` and `exit`; the number is `num_pairs_examined_without_evicting`. -/
inductive Ev where
  | waiting (signalled : Bool)
  | top
  | test (k : Nat)
  | wake (k : Nat)
  | out (k : Nat)
  | add (e : Nat)
  | enq (e : Nat)
  | relock (k : Nat)
  | relockEarly
  | exit (early : Bool)
  | done
deriving Repr, DecidableEq

def Ev.holds : Ev → Bool
  | .top | .test _ | .wake _ | .exit _ => true
  | _ => false

/-- Where another thread is: it is doing something else; it has seen that it should sleep; it waits on `m_flow_control_cond`; it has been woken there; it is about to signal
the eviction thread; it evicts a pair in the background, and has promised to free so much; it has given reserved memory back. -/
inductive Pc where
  | idle
  | sleepy
  | asleep
  | woken
  | poke
  | job (e : Nat)
  | gave
deriving Repr, DecidableEq

/-- `m_size_current`, `m_size_evicting`, `m_num_sleepers`, `m_ev_thread_is_running`, `m_run_thread`, the number of pairs in the table, the estimates of the jobs in the
queue of background threads, and where the threads are. -/
structure St where
  current : Int
  evicting : Int
  sleepers : Nat
  running : Bool
  run : Bool
  pairs : Nat
  queue : List Nat
  ev : Ev
  thr : List Pc
deriving Repr, DecidableEq

/-- After `evictor::init`, 3643-3709: the new thread waits for the lock, which is as if it had been signalled. -/
def St.init (threads : Nat) : St := ⟨0, 0, 0, false, true, 0, [], .waiting true, List.replicate threads .idle⟩

/-- `signal_eviction_thread_locked`, 4325-4327. -/
def St.signal (s : St) : St :=
  match s.ev with
  | .waiting _ => { s with ev := .waiting true }
  | _ => s

/-- `toku_cond_broadcast(&m_flow_control_cond)`. -/
def St.broadcast (s : St) : St := { s with thr := s.thr.map fun p => if p = .asleep then .woken else p }

def St.set (s : St) (t : Nat) (p : Pc) : St := { s with thr := s.thr.set t p }

/-- `eviction_needed`, 4375-4377. -/
def St.needed (c : Cfg) (s : St) : Bool := s.current - s.evicting > c.low

/-- `should_sleeping_clients_wakeup`, 4348-4350. -/
def St.shouldWake (c : Cfg) (s : St) : Bool := s.current ≤ c.highH

/-- `should_client_thread_sleep`, 4336-4338. -/
def St.shouldSleep (c : Cfg) (s : St) : Bool := s.current > c.highW

/-- `should_client_wake_eviction_thread`, 4364-4368. -/
def St.shouldPoke (c : Cfg) (s : St) : Bool := !s.running && s.current - s.evicting > c.lowH

/-- `decrease_size_evicting`, 4248-4275; `none` is the failed assertion. -/
def St.decrease (c : Cfg) (s : St) (e : Nat) : Option St :=
  if 0 < e then
    let buffer := c.highH - c.low
    let need := s.sleepers > 0 && !s.running && s.evicting > buffer && s.evicting - e ≤ buffer
    let s := { s with evicting := s.evicting - e }
    if 0 ≤ s.evicting then some (if need then s.signal else s) else none
  else some s

/-- What can happen. -/
inductive Act where
  /-- A thread adds to `m_size_current`, or takes away from it: `add_to_size_current`, `remove_from_size_current`, 3798-3808. -/
  | size (d : Int)
  /-- Pairs are put in the table or removed from it. -/
  | table (n : Nat)
  /-- The wait of the eviction thread ends by its timer, or for no reason: 3886-3901. -/
  | timer
  /-- The eviction thread gets the lock after its wait. -/
  | evLock
  /-- The test of `m_run_thread`, 3870-3872. -/
  | evTop
  /-- `while (this->eviction_needed())`, 3920. -/
  | evTest
  /-- 3921-3925. -/
  | evWake
  /-- A pair of a closed file is evicted, 3928; this frees so much. -/
  | evStale (d : Int)
  /-- The pair in the clock is evicted or partly evicted at once, or nothing is expected of it: 4063-4067, 4079-4090, 4172-4178; this frees so much, or nothing. -/
  | evCheap (d : Int)
  /-- The pair in the clock is in use, or its file is closing: 3990-4007, 3953-3955. -/
  | evBusy
  /-- There is no pair, or too many were in use: 3932-3947. -/
  | evEarly
  /-- Background eviction is chosen for a pair, whole or in part, that is expected to free so much: 4068-4076, 4179-4188. -/
  | evJob (e : Nat)
  /-- `m_size_evicting` is increased, 4073-4075, 4182-4187. -/
  | evAdd
  /-- `toku_kibbutz_enq`, 4076, 4188. -/
  | evEnq
  /-- The lock is taken again, 3937, 3945, 3968. -/
  | evRelock
  /-- The end of a run, 3971-3974, 3876-3878, and the wait. -/
  | evExit
  /-- A client asks whether it should sleep. -/
  | look (t : Nat)
  /-- `wait_for_cache_pressure_to_subside` up to the wait, 4284-4287. -/
  | lie (t : Nat)
  /-- The wait of a client ends for no reason. -/
  | stir (t : Nat)
  /-- The rest of `wait_for_cache_pressure_to_subside`, 4288-4289. -/
  | rise (t : Nat)
  /-- A client asks whether it should signal the eviction thread. -/
  | ask (t : Nat)
  /-- `signal_eviction_thread`, 4319-4323, after that. -/
  | poke (t : Nat)
  /-- `signal_eviction_thread` without asking, 770. -/
  | force (t : Nat)
  /-- A background thread takes a job. -/
  | take (t : Nat)
  /-- It decreases `m_size_evicting`. -/
  | finish (t : Nat)
  /-- `reserve_memory`, 3830-3841; the amount is open. -/
  | reserve (t : Nat) (r : Nat)
  /-- `release_reserved_memory`, 3853. -/
  | give (t : Nat) (r : Nat)
  /-- `release_reserved_memory`, 3854-3860. -/
  | gave (t : Nat)
  /-- `destroy`, 3730-3734. -/
  | stop (t : Nat)
deriving Repr, DecidableEq

/-- A step of a thread that is at `p`, when the eviction thread does not hold the lock. -/
def St.free (s : St) (t : Nat) (p : Pc) : Bool := s.thr[t]? == some p && !s.ev.holds

/-- One step; `none` if it is not possible, `some none` if an assertion fails. -/
def act (c : Cfg) (s : St) : Act → Option (Option St)
  | .size d => some (some { s with current := s.current + d })
  | .table n => some (some { s with pairs := n })
  | .timer =>
    match s.ev with
    | .waiting _ => some (some { s with ev := .waiting true })
    | _ => none
  | .evLock =>
    match s.ev with
    | .waiting true => some (some { s with ev := .top })
    | _ => none
  | .evTop =>
    match s.ev with
    | .top => if s.run then some (some { s with running := true, ev := .test 0 }) else some (some { s with ev := .done })
    | _ => none
  | .evTest =>
    match s.ev with
    | .test k => if s.needed c then some (some { s with ev := .wake k }) else some (some { s with ev := .exit false })
    | _ => none
  | .evWake =>
    match s.ev with
    | .wake k =>
      let s := if s.sleepers > 0 && s.shouldWake c then s.broadcast else s
      some (some { s with ev := .out k })
    | _ => none
  | .evStale d =>
    match s.ev with
    | .out k => some (some { s with current := s.current + d, ev := .relock k })
    | _ => none
  | .evCheap d =>
    match s.ev with
    | .out k => if s.pairs = 0 ∨ k > s.pairs then none else some (some { s with current := s.current + d, ev := .relock 0 })
    | _ => none
  | .evBusy =>
    match s.ev with
    | .out k => if s.pairs = 0 ∨ k > s.pairs then none else some (some { s with ev := .relock (k + 1) })
    | _ => none
  | .evEarly =>
    match s.ev with
    | .out k => if s.pairs = 0 ∨ k > s.pairs then some (some { s with ev := .relockEarly }) else none
    | _ => none
  | .evJob e =>
    match s.ev with
    | .out k => if s.pairs = 0 ∨ k > s.pairs then none else some (some { s with ev := .add e })
    | _ => none
  | .evAdd =>
    match s.ev with
    | .add e => some (some { s with evicting := s.evicting + e, ev := .enq e })
    | _ => none
  | .evEnq =>
    match s.ev with
    | .enq e => some (some { s with queue := s.queue ++ [e], ev := .relock 0 })
    | _ => none
  | .evRelock =>
    match s.ev with
    | .relock k => some (some { s with ev := .test k })
    | .relockEarly => some (some { s with ev := .exit true })
    | _ => none
  | .evExit =>
    match s.ev with
    | .exit early =>
      let s := if s.sleepers > 0 && (early || s.shouldWake c) then s.broadcast else s
      some (some { s with running := false, ev := if s.run then .waiting false else .top })
    | _ => none
  | .look t => if s.thr[t]? = some .idle then some (some (if s.shouldSleep c then s.set t .sleepy else s)) else none
  | .lie t => if s.free t .sleepy then some (some ({ s with sleepers := s.sleepers + 1 }.signal.set t .asleep)) else none
  | .stir t => if s.thr[t]? = some .asleep then some (some (s.set t .woken)) else none
  | .rise t => if s.free t .woken then some (some ({ s with sleepers := s.sleepers - 1 }.set t .idle)) else none
  | .ask t => if s.thr[t]? = some .idle then some (some (if s.shouldPoke c then s.set t .poke else s)) else none
  | .poke t => if s.free t .poke then some (some (s.signal.set t .idle)) else none
  | .force t => if s.free t .idle then some (some s.signal) else none
  | .take t =>
    match s.queue with
    | e :: q => if s.thr[t]? = some .idle then some (some ({ s with queue := q }.set t (.job e))) else none
    | [] => none
  | .finish t =>
    match s.thr[t]? with
    | some (.job e) => if 0 < e ∧ s.ev.holds then none else some ((s.decrease c e).map (·.set t .idle))
    | _ => none
  | .reserve t r => if s.free t .idle then some (some { s with current := s.current + r }.signal) else none
  | .give t r => if s.thr[t]? = some .idle then some (some ({ s with current := s.current - r }.set t .gave)) else none
  | .gave t => if s.free t .gave then some (some ((if s.sleepers > 0 then s.signal else s).set t .idle)) else none
  | .stop t => if s.free t .idle then some (some { s with run := false }.signal) else none

/-- What a schedule ends with. -/
inductive Out where
  | ok (s : St)
  | crash
  | impossible
deriving Repr, DecidableEq

def run (c : Cfg) (s : St) : List Act → Out
  | [] => .ok s
  | a :: as =>
    match act c s a with
    | some (some s') => run c s' as
    | some none => .crash
    | none => .impossible

end Verif.Evict
