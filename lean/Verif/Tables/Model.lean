/-!
Model of the lock table manager, locktree/manager.cc: the lifetime of the lock tables of the dictionaries (get, reference, release,
destruction, their counters), and the escalation of locks when memory runs short (who runs it, who waits for it, who is refused).
Every step below is one the code does under one mutex or as one atomic operation; the steps of different threads come in any order.
-/

namespace Verif.Tables

/-- The fields of the lock tables, by address, and of the manager.  locktree/locktree.h: `m_dict_id`, `m_reference_count`,
`m_lock_request_info.counters` (one counter, `waits`); `freed`: `destroy` and `toku_free` were called.  locktree_manager:
`m_locktree_map` (`map`, order left out), `m_lt_counters` (`old`).  `held`: one entry for every reference that a handle (src/ydb_db.cc:513),
a transaction (src/ydb_row_lock.cc:88) or an escalation has; `pend`: `release_lt` calls that saw the count fall to 0 and have not had
the mutex yet; `dying`: calls with `do_destroy` set; `bad`: freed memory was used or an assertion failed; `total`: what happened.
Addresses are not used again; the code compares the pointer only with that of a table found in the map. -/
structure St where
  next : Nat
  dict : Nat → Nat
  refs : Nat → Nat
  freed : Nat → Bool
  waits : Nat → Nat
  map : List Nat
  held : List Nat
  pend : List Nat
  dying : List Nat
  old : Nat
  bad : Bool
  total : Nat

def upd {α : Type} (f : Nat → α) (i : Nat) (v : α) : Nat → α := fun j => if j = i then v else f j

/-- `locktree_manager::create`, locktree/manager.cc:64-80. -/
def St.init : St := ⟨0, fun _ => 0, fun _ => 0, fun _ => false, fun _ => 0, [], [], [], [], 0, false, 0⟩

/-- `locktree_map_find`, locktree/manager.cc:124-128. -/
def find (s : St) (d : Nat) : Option Nat := s.map.find? (fun o => s.dict o == d)

/-- `reference_lt`, locktree/manager.cc:180-192; `add_reference`, locktree/locktree.cc:134-136. -/
def reference (s : St) (o : Nat) : St :=
  { s with refs := upd s.refs o (s.refs o + 1), bad := s.bad || s.freed o, held := o :: s.held }

/-- `get_lt` when no table is found and the callback succeeds, locktree/manager.cc:152-170; `locktree::create`, locktree/locktree.cc:80-115:
one reference. -/
def create (s : St) (d : Nat) : St :=
  { s with
    next := s.next + 1, dict := upd s.dict s.next d, refs := upd s.refs s.next 1, freed := upd s.freed s.next false
    waits := upd s.waits s.next 0, map := s.next :: s.map, held := s.next :: s.held }

/-- `get_lt`, locktree/manager.cc:145-178.  `ok`: the result of the create callback; if it fails the new table is destroyed again
and nobody has seen it. -/
def get (s : St) (d : Nat) (ok : Bool) : St :=
  match find s d with
  | some o => reference s o
  | none => if ok then create s d else s

/-- The first part of `release_lt`, locktree/manager.cc:224-225: the atomic decrement. -/
def release (s : St) (o : Nat) : St :=
  { s with
    refs := upd s.refs o (s.refs o - 1), held := s.held.erase o, bad := s.bad || s.freed o || s.refs o == 0
    pend := if s.refs o - 1 = 0 then o :: s.pend else s.pend }

/-- The second part of `release_lt`, locktree/manager.cc:226-243, under the mutex. -/
def finish (s : St) (o : Nat) : St :=
  let s := { s with pend := s.pend.erase o }
  match find s (s.dict o) with
  | none => s
  | some f =>
    if f = o then
      let s := { s with old := s.old + s.waits o, bad := s.bad || s.freed o }
      if s.refs o = 0 then { s with map := s.map.erase o, dying := o :: s.dying } else s
    else s

/-- The end of `release_lt`, locktree/manager.cc:246-252; `locktree::destroy` asserts that the count is 0, locktree/locktree.cc:117-118. -/
def destroy (s : St) (o : Nat) : St :=
  { s with dying := s.dying.erase o, freed := upd s.freed o true, bad := s.bad || s.freed o || s.refs o != 0 }

/-- The collection of the tables in `escalate_all_locktrees`, locktree/manager.cc:276-285.  Releases between two of the increments
are as good as releases before. -/
def collect (s : St) : St :=
  { s with refs := fun o => s.refs o + s.map.count o, held := s.map ++ s.held, bad := s.bad || s.map.any s.freed }

/-- A lock request of somebody who has a reference counts a wait, locktree/lock_request.cc:265-277. -/
def wait (s : St) (o : Nat) : St :=
  { s with waits := upd s.waits o (s.waits o + 1), bad := s.bad || s.freed o, total := s.total + 1 }

/-- What `get_status` reports, locktree/manager.cc:456-500 (no mutex is busy): the sum of the manager's counter and those of the
tables in the map. -/
def reported (s : St) : Nat := s.old + (s.map.map s.waits).sum

inductive Op where
  | get (d : Nat) (ok : Bool)
  | ref (o : Nat)
  | rel (o : Nat)
  | fin (o : Nat)
  | kill (o : Nat)
  | collect
  | wait (o : Nat)
  deriving DecidableEq, Repr

/-- One step of some thread; `none`: not possible.  Only who has a reference can copy it, give it back or use the table. -/
def step (s : St) : Op → Option St
  | .get d ok => some (get s d ok)
  | .ref o => if o ∈ s.held then some (reference s o) else none
  | .rel o => if o ∈ s.held then some (release s o) else none
  | .fin o => if o ∈ s.pend then some (finish s o) else none
  | .kill o => if o ∈ s.dying then some (destroy s o) else none
  | .collect => some (collect s)
  | .wait o => if o ∈ s.held then some (wait s o) else none

def run : St → List Op → Option St
  | s, [] => some s
  | s, a :: h => match step s a with
    | some t => run t h
    | none => none

/-! ## Escalation -/

/-- The result of a request: who, whether they ran the escalation themselves, the tables open when they asked, and the tables
escalated between then and the answer.  (A record for the statements; not in the code.) -/
structure Refusal where
  thread : Nat
  ran : Bool
  snap : List Nat
  since : List Nat
  deriving DecidableEq, Repr

/-- The manager and its escalator, locktree/locktree.h: memory used by every table (`size`), what would be left of it after an
escalation (`least`), `m_locktree_map` (`tables`), `m_max_lock_memory`; `running`: `m_escalator_running`, with the thread and the tables
it still has to do; `waiting`: threads in `toku_cond_wait`; `woken`: threads that have come back from `run` and check again.
`snap`, `since`: for the statements only. -/
structure Esc where
  max : Nat
  tables : List Nat
  size : Nat → Nat
  least : Nat → Nat
  running : Option (Nat × Bool × List Nat)
  waiting : List (Nat × Bool)
  woken : List (Nat × Bool × Bool)
  snap : Nat → List Nat
  since : Nat → List Nat
  refused : List Refusal

def Esc.init (max : Nat) : Esc := ⟨max, [], fun _ => 0, fun _ => 0, none, [], [], fun _ => [], fun _ => [], []⟩

/-- `m_current_lock_memory`, locktree/manager.cc:296-303, as the sum over the tables. -/
def memory (s : Esc) : Nat := (s.tables.map s.size).sum

/-- `out_of_locks` and, for a big transaction, `over_big_threshold`, locktree/manager.cc:305-311. -/
def over (s : Esc) (big : Bool) : Bool := if big then memory s ≥ s.max / 2 else memory s ≥ s.max

/-- The thread is inside `check_current_lock_constraints`. -/
def busy (s : Esc) (th : Nat) : Bool :=
  (match s.running with
   | some (t, _) => t == th
   | none => false) || s.waiting.any (·.1 == th) || s.woken.any (·.1 == th)

inductive EOp where
  | open (t : Nat)
  | lock (t more least : Nat)
  | ask (th : Nat) (big : Bool)
  | one
  | done
  | spurious (th : Nat) (big : Bool)
  | again (th : Nat) (ran big : Bool)
  deriving DecidableEq, Repr

/-- The first check of `check_current_lock_constraints`, locktree/manager.cc:342-358, and the entry of `locktree_escalator::run`,
438-452: escalate, or wait if another thread does.  The two checks of a big transaction are two requests. -/
def ask (s : Esc) (th : Nat) (big : Bool) : Esc :=
  if over s big then
    let s := { s with snap := upd s.snap th s.tables, since := upd s.since th [] }
    match s.running with
    | none => { s with running := some (th, big, s.tables) }
    | some _ => { s with waiting := (th, big) :: s.waiting }
  else s

/-- One table of `escalate_locktrees`, locktree/manager.cc:399-402. -/
def one (s : Esc) (th : Nat) (big : Bool) (t : Nat) (rest : List Nat) : Esc :=
  { s with running := some (th, big, rest), size := upd s.size t (s.least t), since := fun u => t :: s.since u }

/-- The end of `locktree_escalator::run` of the thread that escalated, locktree/manager.cc:446-448: the broadcast. -/
def done (s : Esc) (th : Nat) (big : Bool) : Esc :=
  { s with running := none, waiting := [], woken := (th, true, big) :: s.waiting.map (fun w => (w.1, false, w.2)) ++ s.woken }

/-- The second check, locktree/manager.cc:346-348, 351-355: refuse or let go. -/
def again (s : Esc) (th : Nat) (ran big : Bool) : Esc :=
  let s := { s with woken := s.woken.erase (th, ran, big) }
  if over s big then { s with refused := ⟨th, ran, s.snap th, s.since th⟩ :: s.refused } else s

/-- One step; `spurious`: `toku_cond_wait` may come back without a broadcast, and it is not in a loop, locktree/manager.cc:450. -/
def estep (s : Esc) : EOp → Option Esc
  | .open t => if t ∈ s.tables then none else some { s with tables := t :: s.tables }
  | .lock t more least => if t ∈ s.tables ∧ least ≤ more then
      some { s with size := upd s.size t (s.size t + more), least := upd s.least t (s.least t + least) } else none
  | .ask th big => if busy s th then none else some (ask s th big)
  | .one => match s.running with
    | some (th, big, t :: rest) => some (one s th big t rest)
    | _ => none
  | .done => match s.running with
    | some (th, big, []) => some (done s th big)
    | _ => none
  | .spurious th big => if (th, big) ∈ s.waiting then
      some { s with waiting := s.waiting.erase (th, big), woken := (th, false, big) :: s.woken } else none
  | .again th ran big => if (th, ran, big) ∈ s.woken then some (again s th ran big) else none

def erun : Esc → List EOp → Option Esc
  | s, [] => some s
  | s, a :: h => match estep s a with
    | some t => erun t h
    | none => none

end Verif.Tables
