/-!
# Pools of worker threads, and waiting for background jobs

Model of util/kibbutz.cc (the pool that does flushes, evictions, clones and prefetches in the background) and of
ft/cachetable/background_job_manager.cc (how closing a file waits for the jobs that use it).

Every part of the code between taking and releasing (or waiting on) the mutex is one step.
-/

namespace Verif.Workers

/-- Where a worker is: about to take the mutex (after creation, after a job, after a wait), waiting on the
condition variable, doing a job, returned. -/
inductive W
  | ready
  | waiting
  | busy (job : Nat)
  | gone
deriving DecidableEq, Repr

/-- struct kibbutz, util/kibbutz.cc:57-71.  `q` is the list of things to do, the next one first: the code
links it from `tail` by `prev`.  `given`, `started` and `done` are history variables, never read. -/
structure Pool where
  q : List Nat
  shut : Bool
  ws : List W
  size : Nat
  maxSize : Nat
  processed : Nat
  destroyed : Bool
  given : List Nat
  started : List Nat
  done : List Nat
deriving DecidableEq, Repr

/-- toku_kibbutz_create, util/kibbutz.cc:79-112. -/
def create (n : Nat) : Pool :=
  { q := [], shut := false, ws := List.replicate n .ready, size := 0, maxSize := 0, processed := 0,
    destroyed := false, given := [], started := [], done := [] }

/-- ksignal, util/kibbutz.cc:123-125: one of the waiting threads, any one, is woken; nothing happens if none
waits.  `who` is the choice. -/
def signal (ws : List W) (who : Nat) : Option (List W) :=
  if ws.all (fun w => decide (w ≠ .waiting)) then some ws
  else if ws[who]? = some .waiting then some (ws.set who .ready)
  else none

/-- What happens to a pool. -/
inductive Ev
  /-- toku_kibbutz_enq. -/
  | enq (job who : Nat)
  /-- A worker takes the mutex. -/
  | work (w who : Nat)
  /-- A job returns. -/
  | finish (w : Nat)
  /-- A wait ends without a signal. -/
  | spurious (w : Nat)
  /-- toku_kibbutz_destroy up to the joins. -/
  | destroy (who : Nat)
  /-- All workers are joined; toku_kibbutz_destroy returns. -/
  | joined
deriving DecidableEq, Repr

/-- One step; `none`: not possible now; `some none`: an assertion fails. -/
def act (k : Pool) : Ev → Option (Option Pool)
  -- util/kibbutz.cc:188-208
  | .enq job who =>
    if k.shut then some none
    else
      match signal k.ws who with
      | none => none
      | some ws =>
        let n := k.size + 1
        some (some { k with
          q := k.q ++ [job], ws := ws, size := n
          maxSize := if n > k.maxSize then n else k.maxSize
          given := k.given ++ [job] })
  -- util/kibbutz.cc:133-179: from the lock to the unlock before the job, the return, or the wait
  | .work w who =>
    match k.ws[w]? with
    | some .ready =>
      match k.q with
      | job :: rest =>
        let ws := k.ws.set w (.busy job)
        let k' := { k with q := rest, size := k.size - 1, started := k.started ++ [job] }
        if rest = [] then some (some { k' with ws := ws })
        else
          match signal ws who with
          | none => none
          | some ws' => some (some { k' with ws := ws' })
      | [] =>
        if k.shut then
          match signal (k.ws.set w .gone) who with
          | none => none
          | some ws' => some (some { k with ws := ws' })
        else some (some { k with ws := k.ws.set w .waiting })
    | _ => none
  -- util/kibbutz.cc:152-159
  | .finish w =>
    match k.ws[w]? with
    | some (.busy job) =>
      some (some { k with ws := k.ws.set w .ready, processed := k.processed + 1, done := k.done ++ [job] })
    | _ => none
  | .spurious w =>
    match k.ws[w]? with
    | some .waiting => some (some { k with ws := k.ws.set w .ready })
    | _ => none
  -- util/kibbutz.cc:229-234
  | .destroy who =>
    if k.shut then some none
    else
      match signal k.ws who with
      | none => none
      | some ws => some (some { k with shut := true, ws := ws })
  -- util/kibbutz.cc:235-246
  | .joined =>
    if k.shut ∧ k.ws.all (fun w => decide (w = .gone)) ∧ k.destroyed = false then
      some (some { k with destroyed := true })
    else none

/-- Any number of steps. -/
def run (k : Pool) : List Ev → Option (Option Pool)
  | [] => some (some k)
  | e :: es =>
    match act k e with
    | some (some k') => run k' es
    | r => r

/-! ## Background jobs of a file -/

/-- struct background_job_manager_struct, ft/cachetable/background_job_manager.cc:48-53.  `waiting`: a thread is
in the wait of bjm_wait_for_jobs_to_finish; `woken`: it was signalled and is about to take the mutex again;
`holders`: the threads whose job was accepted and not removed (history variable). -/
structure Jobs where
  accepting : Bool
  num : Nat
  waiting : Bool
  woken : Bool
  returned : Bool
  holders : List Nat
deriving DecidableEq, Repr

/-- bjm_init, 55-62. -/
def Jobs.init : Jobs :=
  { accepting := true, num := 0, waiting := false, woken := false, returned := false, holders := [] }

inductive JEv
  /-- bjm_add_background_job by thread `t`, 79-92. -/
  | add (t : Nat)
  /-- bjm_remove_background_job by thread `t`, 93-101. -/
  | remove (t : Nat)
  /-- bjm_wait_for_jobs_to_finish is called, 103-108. -/
  | wait
  /-- The waiting thread takes the mutex again after a wait. -/
  | look
  /-- A wait ends without a signal. -/
  | spurious
  /-- bjm_reset, 72-77, when the file is opened again. -/
  | reset
deriving DecidableEq, Repr

/-- One step, with the result of the call where there is one (0: true, -1: false).  A thread calls `remove` only
for a job it added; `reset` and `wait` are called under the lock of opening and closing, so never while another
wait goes on. -/
def jact (s : Jobs) : JEv → Option (Option (Jobs × Option Bool))
  | .add t =>
    if s.accepting then some (some ({ s with num := s.num + 1, holders := t :: s.holders }, some true))
    else some (some (s, some false))
  | .remove t =>
    if t ∈ s.holders then
      if s.num = 0 then some none
      else
        let n := s.num - 1
        let s' := { s with num := n, holders := s.holders.erase t }
        if n = 0 ∧ s.accepting = false then
          -- toku_cond_broadcast
          some (some ({ s' with waiting := false, woken := s.woken || s.waiting }, none))
        else some (some (s', none))
    else none
  | .wait =>
    if s.waiting ∨ s.woken then none
    else
      let s' := { s with accepting := false, returned := false }
      if s.num > 0 then some (some ({ s' with waiting := true }, none))
      else some (some ({ s' with returned := true }, none))
  | .look =>
    if s.woken then
      if s.num > 0 then some (some ({ s with woken := false, waiting := true }, none))
      else some (some ({ s with woken := false, returned := true }, none))
    else none
  | .spurious => if s.waiting then some (some ({ s with waiting := false, woken := true }, none)) else none
  | .reset =>
    if s.waiting ∨ s.woken then none
    else if s.num = 0 then some (some ({ s with accepting := true, returned := false }, none))
    else some none

/-- Any number of steps. -/
def jrun (s : Jobs) : List JEv → Option (Option Jobs)
  | [] => some (some s)
  | e :: es =>
    match jact s e with
    | none => none
    | some none => some none
    | some (some (t, _)) => jrun t es

end Verif.Workers
