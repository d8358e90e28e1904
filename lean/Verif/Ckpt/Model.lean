/-!
Model of the node cache and its checkpoints, ft/cachetable/cachetable.cc: pinning, changing, removing, fetching and evicting nodes by
any number of threads while a checkpoint is taken.

A step is what a thread does between two points at which another thread can come in.  Waiting is a step that cannot be taken.  What is
on disk is a pair of tables, of the current and of the checkpoint in progress (the translations of the block table), from nodes to
contents.  Simplifications: a node has a content, with no partial eviction or fetch, which do not change it; sizes, and with them the choice
of what to evict, are left out: anything may be evicted at any time; files are not closed.  The checkpoint thread takes a node off its list
when it gets the lock of the node, not before it waits for it, and the write of the copy it makes is a job of its own, which allows more.
-/
namespace Verif.Ckpt

/-- Who holds a lock of a node: a thread, the checkpoint thread, or a background write of a copy. -/
inductive Own where
  | thr (t : Nat)
  | cp
  | job
deriving DecidableEq, Repr

/-- `struct ctpair`, ft/cachetable/cachetable-internal.h:172-247.  `val` is `value_data`, which is not there while the node is read from disk; `chg` is the dirty flag in the
node itself, which tells a caller what to pass to `unpin`; `clone` is `cloned_value_data`; `lock` and `readers` are `value_rwlock`; `disk` is `disk_nb_mutex`. -/
structure Pair (V : Type) where
  val : Option V
  dirty : Bool
  chg : Bool
  pending : Bool
  clone : Option V
  lock : Option Own
  readers : Nat
  disk : Option Own
deriving DecidableEq, Repr

/-- A node that has to be written for the checkpoint, if `flag`, by the thread that holds it: `checkpoint_pending[i]`, `dependent_dirty[i]`. -/
structure Item where
  node : Nat
  flag : Bool
  dd : Bool
deriving DecidableEq, Repr

/-- What a thread does once nodes have been written for the checkpoint: return, or read the node it is to pin. -/
inductive Then where
  | ret
  | fetch (n : Nat)
deriving DecidableEq, Repr

/-- Where a thread is. -/
inductive Pc where
  | idle
  | locked (n : Nat) (deps : List (Nat × Bool))
  | work (w : List Item) (k : Then)
  | hold (n : Nat) (w : List Item) (k : Then)
  | wrote (n : Nat) (w : List Item) (k : Then)
  | fetch (n : Nat) (keep : Bool)
  | fetchD (n : Nat) (keep : Bool)
  | rem (n : Nat)
  | remD (n : Nat)
  | evQ (n : Nat)
  | evGo (n : Nat) (f : Bool)
  | evHold (n : Nat) (f : Bool)
  | evWrote (n : Nat) (f : Bool)
  | evLast (n : Nat) (e : Bool)
  | evRm (n : Nat) (e : Bool)
deriving DecidableEq, Repr

/-- Where the checkpoint thread is: `header` is when all nodes have been written. -/
inductive Cp where
  | idle
  | run
  | look (n : Nat)
  | hold (n : Nat)
  | wrote (n : Nat)
  | header
deriving DecidableEq, Repr

/-- The cache (`pair`, with the list of cached nodes `tab`), the disk (`cur`, `inp`), the list of nodes the checkpoint has to look at (`m_pending_head`),
the background writes, the holders of the expensive pending lock and of the multi-operation lock, the files in the checkpoint (`incl`). -/
structure St (V : Type) where
  pair : Nat → Option (Pair V)
  tab : List Nat
  cur : Nat → Option V
  inp : Nat → Option V
  pc : Nat → Pc
  cp : Cp
  incl : Nat → Bool
  plist : List Nat
  jobs : List Nat
  exp : List Nat
  mo : List Nat

/-- What a caller could see: the start of a phase in which it may change the nodes given, a change (`none` is a removal), the begin of a checkpoint. -/
inductive Ev (V : Type) where
  | start (ns : List Nat)
  | write (n : Nat) (v : Option V)
  | begin
deriving DecidableEq, Repr

/-- The result of a step: it cannot be taken now, or an assertion fails, or the new state. -/
inductive R (V : Type) where
  | no
  | crash
  | ok (s : St V) (e : List (Ev V))

variable {V : Type}

/-- An empty cache over a disk. -/
def init (disk : Nat → Option V) : St V :=
  ⟨fun _ => none, [], disk, disk, fun _ => .idle, .idle, fun _ => false, [], [], [], []⟩

def St.setPair (s : St V) (n : Nat) (p : Option (Pair V)) : St V := { s with pair := fun m => if m = n then p else s.pair m }

def St.setPc (s : St V) (t : Nat) (c : Pc) : St V := { s with pc := fun u => if u = t then c else s.pc u }

/-- Writing a node: `toku_ftnode_flush_callback` with `for_checkpoint` sets both translations, else only the current one (block_table.cc:448-518). -/
def St.write (s : St V) (n : Nat) (v : Option V) (ckpt : Bool) : St V :=
  { s with cur := fun m => if m = n then v else s.cur m, inp := fun m => if m = n && ckpt then v else s.inp m }

/-- `pair_init` and `cachetable_insert_at`, cachetable.cc:774-868, with the write lock taken. -/
def St.insert (s : St V) (n : Nat) (t : Nat) (v : Option V) (dirty : Bool) : St V :=
  { s.setPair n (some ⟨v, dirty, dirty, false, none, some (.thr t), 0, none⟩) with tab := n :: s.tab }

/-- `cachetable_remove_pair`, cachetable.cc:608-611: the node leaves all lists. -/
def St.drop (s : St V) (n : Nat) : St V :=
  { s.setPair n none with tab := s.tab.filter (· ≠ n), plist := s.plist.filter (· ≠ n) }

/-- Whether a node is to be written for the checkpoint. -/
def St.pending (s : St V) (n : Nat) : Bool :=
  match s.pair n with
  | some p => p.pending
  | none => false

/-- Reading and clearing the bits of distinct nodes under the cheap pending lock, cachetable.cc:1155-1160, 1534-1541, 1690-1697: the bits read. -/
def St.bits (s : St V) (ds : List (Nat × Bool)) : List Item := ds.map (fun d => ⟨d.1, s.pending d.1, d.2⟩)

/-- The same: the state after it. -/
def St.clear (s : St V) (ns : List Nat) : St V :=
  { s with pair := fun m => if m ∈ ns then (s.pair m).map (fun p => { p with pending := false }) else s.pair m }

/-- A step of `write_locked_pair_for_checkpoint`, cachetable.cc:977-1003, of the first node in the list, with `dependent_dirty` as in `checkpoint_dependent_pairs`, 1079-1098;
up to the lock for the disk. -/
def St.workStep (s : St V) (t : Nat) : List Item → Then → R V
  | [], .ret => .ok (s.setPc t .idle) []
  | [], .fetch n => .ok (s.setPc t (.fetch n true)) []
  | i :: w, k =>
    match s.pair i.node with
    | none => .crash
    | some p =>
      let p := { p with dirty := p.dirty || i.dd }
      if i.flag && p.dirty then
        if p.disk = none then .ok ((s.setPair i.node (some { p with disk := some (.thr t) })).setPc t (.hold i.node w k)) []
        else .no
      else .ok ((s.setPair i.node (some p)).setPc t (.work w k)) []

/-- The copy of a node for a background write, `clone_pair`, cachetable.cc:903-937, and `checkpoint_cloned_pair_on_writer_thread`: the lock for the disk goes to the writer. -/
def Pair.makeClone (p : Pair V) : Pair V := { p with clone := p.val, dirty := false, chg := false, disk := some .job }

/-- The step after the lock for the disk: copy the node, or write it, cachetable.cc:984-1001, 697-731. -/
def St.holdStep (cl : Nat → Bool) (s : St V) (t n : Nat) (w : List Item) (k : Then) : R V :=
  match s.pair n with
  | none => .crash
  | some p =>
    if p.clone.isSome || p.val.isNone then .crash
    else if cl n then .ok ({ s.setPair n (some p.makeClone) with jobs := n :: s.jobs }.setPc t (.work w k)) []
    else .ok (((s.write n p.val true).setPair n (some { p with chg := false })).setPc t (.wrote n w k)) []

/-- The node is clean and the lock for the disk is released, cachetable.cc:727-731. -/
def Pair.written (p : Pair V) : Pair V := { p with dirty := false, disk := none }

/-- A step of `evictor::evict_pair` and of `cachetable_evicter`, cachetable.cc:735-753, 4197-4242; `keep` is whether somebody else wants the node at the end. -/
def St.evictStep (s : St V) (t : Nat) (keep : Bool) : R V :=
  match s.pc t with
  | .evQ n =>
    .ok ({ s.clear [n] with exp := t :: s.exp }.setPc t (.evGo n (s.pending n))) []
  | .evGo n f =>
    match s.pair n with
    | none => .crash
    | some p =>
      if p.dirty then
        if p.disk = none then .ok ((s.setPair n (some { p with disk := some (.thr t) })).setPc t (.evHold n f)) []
        else .no
      else .ok (s.setPc t (.evLast n true)) []
  | .evHold n f =>
    match s.pair n with
    | none => .crash
    | some p =>
      if p.clone.isSome || p.val.isNone then .crash
      else .ok (((s.write n p.val f).setPair n (some { p with chg := false })).setPc t (.evWrote n f)) []
  | .evWrote n _ =>
    match s.pair n with
    | none => .crash
    | some p => .ok ((s.setPair n (some p.written)).setPc t (.evLast n true)) []
  | .evLast n e =>
    match s.pair n with
    | none => .crash
    | some p =>
      if p.disk = none then .ok ((s.setPair n (some { p with disk := some (.thr t) })).setPc t (.evRm n e)) []
      else .no
  | .evRm n e =>
    match s.pair n with
    | none => .crash
    | some p =>
      let s := { s with exp := if e then s.exp.filter (· ≠ t) else s.exp }
      if keep then .ok ((s.setPair n (some { p with lock := none, disk := none })).setPc t .idle) []
      else if p.clone.isSome then .crash
      else .ok ((s.drop n).setPc t .idle) []
  | _ => .no

/-- A step of `toku_cachetable_unpin_and_remove`, cachetable.cc:2577-2697. -/
def St.removeStep (s : St V) (t : Nat) : R V :=
  match s.pc t with
  | .rem n =>
    match s.pair n with
    | none => .crash
    | some p =>
      if p.disk = none then .ok ((s.setPair n (some { p with disk := some (.thr t) })).setPc t (.remD n)) []
      else .no
  | .remD n =>
    match s.pair n with
    | none => .crash
    | some p =>
      if p.clone.isSome then .crash
      else .ok (((s.write n none p.pending).drop n).setPc t .idle) [.write n none]
  | _ => .no

/-- A step of `cachetable_fetch_pair`, cachetable.cc:1325-1371; `d` is whether the reader says that the node is dirty (it has been upgraded). -/
def St.fetchStep (s : St V) (t : Nat) (d : Bool) : R V :=
  match s.pc t with
  | .fetch n keep =>
    match s.pair n with
    | none => .crash
    | some p =>
      if p.disk = none then .ok ((s.setPair n (some { p with disk := some (.thr t) })).setPc t (.fetchD n keep)) []
      else .no
  | .fetchD n keep =>
    match s.pair n, s.cur n with
    | some p, some v =>
      .ok ((s.setPair n (some { p with val := some v, dirty := p.dirty || d, disk := none, lock := if keep then p.lock else none })).setPc t .idle) []
    | _, _ => .crash
  | _ => .no

/-- A step of the checkpoint thread at a node, `write_pair_for_checkpoint_thread`, cachetable.cc:1009-1072. -/
def St.cpStep (cl : Nat → Bool) (s : St V) : R V :=
  match s.cp with
  | .look n =>
    match s.pair n with
    | none => .crash
    | some p =>
      if p.dirty && p.pending then
        if p.disk = none then .ok { s.setPair n (some { p with disk := some .cp }) with cp := .hold n } []
        else .no
      else .ok { s.setPair n (some { p with pending := false, lock := none }) with cp := .run } []
  | .hold n =>
    match s.pair n with
    | none => .crash
    | some p =>
      if p.clone.isSome || p.val.isNone then .crash
      else if cl n then .ok { s.setPair n (some { p.makeClone with pending := false, lock := none }) with cp := .run, jobs := n :: s.jobs } []
      else .ok { (s.write n p.val true).setPair n (some { p with chg := false }) with cp := .wrote n } []
  | .wrote n =>
    match s.pair n with
    | none => .crash
    | some p => .ok { s.setPair n (some { p.written with pending := false, lock := none }) with cp := .run } []
  | _ => .no

/-- `checkpointer::begin_checkpoint`, cachetable.cc:4515-4542, with `turn_on_pending_bits`, 4598-4623, and `update_cachefiles`: the translation in progress is the current one
(block_table.cc:329-347).  No thread is inside the pending locks or the multi-operation lock (checkpoint.cc:145-150, 270). -/
def St.begin (s : St V) (incl : Nat → Bool) : R V :=
  if s.cp = .idle && s.exp.isEmpty && s.mo.isEmpty then
    if s.tab.any s.pending then .crash
    else .ok { s with
      pair := fun n => if n ∈ s.tab ∧ incl n then (s.pair n).map (fun p => { p with pending := true }) else s.pair n
      plist := s.tab.filter incl
      inp := fun n => if incl n then s.cur n else s.inp n
      incl := incl
      cp := .run } [.begin]
  else .no

inductive Act (V : Type) where
  | lock (t n : Nat) (deps : List (Nat × Bool))
  | miss (t n : Nat) (deps : List (Nat × Bool))
  | bits (t : Nat)
  | tryDirty (t n : Nat)
  | work (t : Nat)
  | fetch (t : Nat) (d : Bool)
  | put (t n : Nat) (v : V) (deps : List (Nat × Bool))
  | modify (t n : Nat) (v : V)
  | unpin (t n : Nat) (d : Bool)
  | remove (t n : Nat)
  | removeStep (t : Nat)
  | rlock (n : Nat)
  | runlock (n : Nat)
  | prefetch (t n : Nat)
  | evict (t n : Nat)
  | evictStep (t : Nat) (keep : Bool)
  | job (n : Nat)
  | moLock (t : Nat)
  | moUnlock (t : Nat)
  | begin (incl : Nat → Bool)
  | take
  | cpStep
  | finish
  | endCp

/-- A step.  `cl` says which nodes have a `clone_callback`. -/
def step (cl : Nat → Bool) (s : St V) : Act V → R V
  -- `try_pin_pair` with a write lock, cachetable.cc:1438-1530, also `maybe_get_and_pin_clean`, `get_and_pin_nonblocking` and the cleaner, with no dependent nodes
  | .lock t n deps =>
    match s.pc t, s.pair n with
    | .idle, some p =>
      if p.lock = none ∧ p.readers = 0 then .ok ((s.setPair n (some { p with lock := some (.thr t) })).setPc t (.locked n deps)) [] else .no
    | _, _ => .no
  -- `try_pin_pair`, cachetable.cc:1533-1552; `get_checkpoint_pending`, 1373-1380
  | .bits t =>
    match s.pc t with
    | .locked n deps =>
      .ok ((s.clear (n :: deps.map (·.1))).setPc t (.work (s.bits ((n, false) :: deps)) .ret)) [.start (n :: deps.map (·.1))]
    | _ => .no
  -- `toku_cachetable_get_and_pin_with_dep_pairs` of a node that is not cached, cachetable.cc:1641-1716
  | .miss t n deps =>
    match s.pc t, s.pair n with
    | .idle, none => .ok (((s.clear (deps.map (·.1))).insert n t none false).setPc t (.work (s.bits deps) (.fetch n))) [.start (n :: deps.map (·.1))]
    | _, _ => .no
  -- `toku_cachetable_maybe_get_and_pin`, cachetable.cc:1759-1803
  | .tryDirty t n =>
    match s.pc t, s.pair n with
    | .idle, some p =>
      if p.lock = none ∧ p.readers = 0 ∧ p.dirty ∧ ¬ p.pending then .ok (s.setPair n (some { p with lock := some (.thr t) })) [.start [n]] else .no
    | _, _ => .no
  | .work t =>
    match s.pc t with
    | .work w k => s.workStep t w k
    | .hold n w k => s.holdStep cl t n w k
    | .wrote n w k =>
      match s.pair n with
      | none => .crash
      | some p => .ok ((s.setPair n (some p.written)).setPc t (.work w k)) []
    | _ => .no
  | .fetch t d => s.fetchStep t d
  -- `toku_cachetable_put_with_dep_pairs`, cachetable.cc:1101-1173
  | .put t n v deps =>
    match s.pc t, s.pair n with
    | .idle, none => .ok (((s.clear (deps.map (·.1))).insert n t (some v) true).setPc t (.work (s.bits deps) .ret)) [.start (n :: deps.map (·.1)), .write n (some v)]
    | _, _ => .no
  -- The caller changes a node it has pinned
  | .modify t n v =>
    match s.pc t, s.pair n with
    | .idle, some p => if p.lock = some (.thr t) then .ok (s.setPair n (some { p with val := some v, chg := true })) [.write n (some v)] else .no
    | _, _ => .no
  -- `cachetable_unpin_internal`, cachetable.cc:1885-1932
  | .unpin t n d =>
    match s.pc t, s.pair n with
    | .idle, some p => if p.lock = some (.thr t) then .ok (s.setPair n (some { p with dirty := p.dirty || d, lock := none })) [] else .no
    | _, _ => .no
  -- `toku_cachetable_unpin_and_remove`, cachetable.cc:2588
  | .remove t n =>
    match s.pc t, s.pair n with
    | .idle, some p => if p.lock = some (.thr t) then .ok ((s.setPair n (some { p with dirty := false })).setPc t (.rem n)) [] else .no
    | _, _ => .no
  | .removeStep t => s.removeStep t
  -- Pinning with `PL_READ`, cachetable.cc:1459-1461, and unpinning
  | .rlock n =>
    match s.pair n with
    | some p => if p.lock = none then .ok (s.setPair n (some { p with readers := p.readers + 1 })) [] else .no
    | none => .no
  | .runlock n =>
    match s.pair n with
    | some p => if 0 < p.readers then .ok (s.setPair n (some { p with readers := p.readers - 1 })) [] else .no
    | none => .no
  -- `toku_cachefile_prefetch`, cachetable.cc:2199-2250, also the other pins that only read the node
  | .prefetch t n =>
    match s.pc t, s.pair n with
    | .idle, none => .ok ((s.insert n t none false).setPc t (.fetch n false)) []
    | _, _ => .no
  -- `evictor::try_evict_pair`, cachetable.cc:4155-4190
  | .evict t n =>
    match s.pc t, s.pair n with
    | .idle, some p =>
      if p.lock = none ∧ p.readers = 0 then
        .ok ((s.setPair n (some { p with lock := some (.thr t) })).setPc t (if !p.dirty && p.disk = none then .evLast n false else .evQ n)) []
      else .no
    | _, _ => .no
  | .evictStep t keep => s.evictStep t keep
  -- `checkpoint_cloned_pair`, cachetable.cc:939-960
  | .job n =>
    match s.pair n with
    | some p =>
      if p.disk = some .job then
        match p.clone with
        | some v => .ok ((s.write n (some v) true).setPair n (some { p with clone := none })) []
        | none => .ok { s.setPair n (some { p with disk := none }) with jobs := s.jobs.filter (· ≠ n) } []
      else .no
    | none => .no
  -- `toku_multi_operation_client_lock` and `unlock`, checkpoint.cc:196-206
  | .moLock t => .ok { s with mo := t :: s.mo } []
  | .moUnlock t => .ok { s with mo := s.mo.erase t } []
  | .begin incl => s.begin incl
  -- `checkpointer::checkpoint_pending_pairs`, cachetable.cc:4679-4694
  | .take =>
    match s.cp, s.plist with
    | .run, n :: l =>
      match s.pair n with
      | some p => if p.lock = none ∧ p.readers = 0 then .ok { s.setPair n (some { p with lock := some .cp }) with cp := .look n, plist := l } [] else .no
      | none => .crash
    | _, _ => .no
  | .cpStep => s.cpStep cl
  -- `bjm_wait_for_jobs_to_finish`, cachetable.cc:4696
  | .finish => if s.cp = .run && s.plist.isEmpty && s.jobs.isEmpty then .ok { s with cp := .header } [] else .no
  -- `checkpoint_userdata` up to `remove_cachefiles`, cachetable.cc:4641-4651
  | .endCp => if s.cp = .header then .ok { s with cp := .idle } [] else .no

end Verif.Ckpt
