import Verif.Count.Spec

/-!
Partitioned counters, util/partitioned_counter.cc:97-420: every thread has its own part of a counter, found through an array of its own
under the number of the counter, and adds to it without a lock; a reader goes through all parts of the counter under the one lock there is.
When a thread ends its parts are added to what the counter keeps for the dead.

Threads take turns in any order.  A thread's steps between two accesses to shared memory that others could see half done are single steps:
creating, destroying, making a part and the end of a thread are each done under the lock, and touch nothing that is changed without it but
the parts of the thread that ends; adding is a load and a store; a reader takes one step for every part.  Memory is never short, and the
address of something freed can come back.  Numbers are 64 bits and wrap round.

`partitioned_counters_init` and `partitioned_counters_destroy` are not modelled (nor is the flag `thread_local_array_inited`): the hook that runs
at the end of a thread is in place for every thread that has a part.
-/
namespace Verif.Count

abbrev PartAddr := Nat

/-- Numbers of 64 bits. -/
def W : Nat := 2 ^ 64

/-- `struct partitioned_counter`, util/partitioned_counter.cc:184-188. -/
structure Counter where
  dead : Nat
  key : Nat
  list : List PartAddr
  deriving DecidableEq, Repr

/-- `struct local_counter`, util/partitioned_counter.cc:190-195; the array is named by its thread. -/
structure Part where
  sum : Nat
  owner : Ctr
  arr : Tid
  deriving DecidableEq, Repr

/-- Where a thread is in an operation. -/
inductive Pc where
  | idle
  /-- `increment_partitioned_counter`, before the thread's array is looked at -/
  | fetch (c : Ctr) (n : Nat)
  /-- no part found, waiting for the lock to make one -/
  | alloc (c : Ctr) (n : Nat)
  /-- `lc->sum += amount`: before the load -/
  | load (c : Ctr) (n : Nat) (p : PartAddr)
  /-- and before the store -/
  | store (c : Ctr) (n : Nat) (p : PartAddr) (v : Nat)
  /-- `read_partitioned_counter`, waiting for the lock -/
  | await (c : Ctr)
  /-- and going through the parts -/
  | reading (c : Ctr) (acc : Nat) (rest : List PartAddr)
  deriving DecidableEq, Repr

/-- All memory: counters and parts that are allocated, the thread-local arrays, `counters_in_use`, the lock, and where the threads are. -/
structure State where
  ctrs : Ctr → Option Counter
  parts : PartAddr → Option Part
  arrs : Tid → List (Option PartAddr)
  inUse : List Bool
  lock : Option Tid
  pc : Tid → Pc

def put {α : Type} (f : Nat → α) (i : Nat) (x : α) : Nat → α := fun j => if j = i then x else f j

/-- What comes of a step: it is done, it has to wait (for the lock, or is not what a correct program does now), or it touches memory that was
freed or fails an assertion. -/
inductive Out where
  | done (s : State) (e : Option Ev)
  | wait
  | crash

/-- `allocate_counter`, util/partitioned_counter.cc:256-275: the first number not in use. -/
def allocate : List Bool → Nat × List Bool
  | [] => (0, [true])
  | true :: l => ((allocate l).1 + 1, true :: (allocate l).2)
  | false :: l => (0, true :: l)

/-- `free_counter`, util/partitioned_counter.cc:278-285. -/
def freeKey (l : List Bool) (k : Nat) : Option (List Bool) := if l[k]? = some true then some (l.set k false) else none

/-- `store_unchecked`, util/growable_array.h:99-104: `none` outside the array. -/
def storeAt (l : List (Option PartAddr)) (k : Nat) (x : Option PartAddr) : Option (List (Option PartAddr)) :=
  if k < l.length then some (l.set k x) else none

/-- The loop of `destroy_partitioned_counter`, util/partitioned_counter.cc:313-321. -/
def destroyParts (c : Ctr) (key : Nat) : List PartAddr → (PartAddr → Option Part) → (Tid → List (Option PartAddr)) →
    Option ((PartAddr → Option Part) × (Tid → List (Option PartAddr)))
  | [], parts, arrs => some (parts, arrs)
  | p :: ps, parts, arrs => do
    let lc ← parts p
    if lc.owner = c then do
      let a ← storeAt (arrs lc.arr) key none
      destroyParts c key ps (put parts p none) (put arrs lc.arr a)
    else none

/-- The loop of `destroy_thread_local_part_of_partitioned_counters`, util/partitioned_counter.cc:214-221. -/
def exitParts : List (Option PartAddr) → (Ctr → Option Counter) → (PartAddr → Option Part) →
    Option ((Ctr → Option Counter) × (PartAddr → Option Part))
  | [], ctrs, parts => some (ctrs, parts)
  | none :: l, ctrs, parts => exitParts l ctrs parts
  | some p :: l, ctrs, parts => do
    let lc ← parts p
    let o ← ctrs lc.owner
    if p ∈ o.list then
      exitParts l (put ctrs lc.owner (some { o with dead := (o.dead + lc.sum) % W, list := o.list.erase p })) (put parts p none)
    else none

/-- `while (get_size() <= pc_key) push(NULL)`, util/partitioned_counter.cc:360-363. -/
def grow (l : List (Option PartAddr)) (key : Nat) : List (Option PartAddr) := l ++ List.replicate (key + 1 - l.length) none

/-- The counter a thread is working on. -/
def Pc.about : Pc → Option Ctr
  | .idle => none
  | .fetch c _ => some c
  | .alloc c _ => some c
  | .load c _ _ => some c
  | .store c _ _ _ => some c
  | .await c => some c
  | .reading c _ _ => some c

/-- What a thread can do: call one of the operations, go on with the one it is in (`p` is where `malloc` puts what is asked for), or end. -/
inductive Act where
  | create (c : Ctr)
  | destroy (c : Ctr)
  | inc (c : Ctr) (n : Nat)
  | read (c : Ctr)
  | go (p : PartAddr)
  | exit
  deriving DecidableEq, Repr

/-- The next step of a thread in an operation. -/
def goOn (s : State) (t : Tid) (p : PartAddr) : Out :=
  match s.pc t with
  | .idle => .wait
  | .fetch c n =>
    -- get_thread_local_counter, util/partitioned_counter.cc:327-334
    match s.ctrs c with
    | none => .crash
    | some C =>
      match (s.arrs t)[C.key]? with
      | some (some q) => .done { s with pc := put s.pc t (.load c n q) } none
      | _ => .done { s with pc := put s.pc t (.alloc c n) } none
  | .alloc c n =>
    -- util/partitioned_counter.cc:343-367
    if s.lock = none ∧ s.parts p = none then
      match s.ctrs c with
      | none => .crash
      | some C =>
        match storeAt (grow (s.arrs t) C.key) C.key (some p) with
        | none => .crash
        | some a => .done
          { s with
            parts := put s.parts p (some ⟨0, c, t⟩)
            arrs := put s.arrs t a
            ctrs := put s.ctrs c (some { C with list := p :: C.list })
            pc := put s.pc t (.load c n p) } none
    else .wait
  | .load c n q =>
    match s.parts q with
    | none => .crash
    | some P => .done { s with pc := put s.pc t (.store c n q P.sum) } none
  | .store c n q v =>
    -- util/partitioned_counter.cc:371-377
    match s.parts q with
    | none => .crash
    | some P => .done { s with parts := put s.parts q (some { P with sum := (v + n) % W }), pc := put s.pc t .idle } (some (.add c n))
  | .await c =>
    -- util/partitioned_counter.cc:388-392
    if s.lock = none then
      match s.ctrs c with
      | none => .crash
      | some C => .done { s with lock := some t, pc := put s.pc t (.reading c C.dead C.list) } none
    else .wait
  | .reading c acc rest =>
    -- sumit and read_partitioned_counter, util/partitioned_counter.cc:379-397
    match rest with
    | [] => .done { s with lock := none, pc := put s.pc t .idle } (some (.told t c acc))
    | q :: qs =>
      match s.parts q with
      | none => .crash
      | some P => .done { s with pc := put s.pc t (.reading c ((acc + P.sum) % W) qs) } none

/-- One step of a thread. -/
def act (s : State) (t : Tid) : Act → Out
  | .create c =>
    -- create_partitioned_counter, util/partitioned_counter.cc:296-304; `c` is where malloc puts it
    if s.pc t = .idle ∧ s.lock = none ∧ s.ctrs c = none then
      .done { s with ctrs := put s.ctrs c (some ⟨0, (allocate s.inUse).1, []⟩), inUse := (allocate s.inUse).2 } (some (.create c))
    else .wait
  | .destroy c =>
    -- destroy_partitioned_counter, util/partitioned_counter.cc:306-325.  "No operations on this counter are permitted after": a correct program
    -- destroys a counter when no thread is in an operation on it.  The threads are those that do something here, see `Legal`
    if s.pc t = .idle ∧ s.lock = none then
      match s.ctrs c with
      | none => .crash
      | some C =>
        match destroyParts c C.key C.list s.parts s.arrs with
        | none => .crash
        | some (parts, arrs) =>
          match freeKey s.inUse C.key with
          | none => .crash
          | some u => .done { s with ctrs := put s.ctrs c none, parts := parts, arrs := arrs, inUse := u } (some (.destroy c))
    else .wait
  | .inc c n => if s.pc t = .idle then .done { s with pc := put s.pc t (.fetch c n) } none else .wait
  | .read c => if s.pc t = .idle then .done { s with pc := put s.pc t (.await c) } (some (.asked t c)) else .wait
  | .go p => goOn s t p
  | .exit =>
    -- destroy_thread_local_part_of_partitioned_counters, util/partitioned_counter.cc:205-226
    if s.pc t = .idle ∧ s.lock = none then
      match exitParts (s.arrs t) s.ctrs s.parts with
      | none => .crash
      | some (ctrs, parts) => .done { s with ctrs := ctrs, parts := parts, arrs := put s.arrs t [] } none
    else .wait

/-- What the caller has to see to: a counter is used only while it is there, and destroyed only while nobody uses it. -/
def Legal (s : State) (_t : Tid) : Act → Prop
  | .create _ => True
  | .destroy c => s.ctrs c ≠ none ∧ ∀ t, (s.pc t).about ≠ some c
  | .inc c _ => s.ctrs c ≠ none
  | .read c => s.ctrs c ≠ none
  | .go _ => True
  | .exit => True

/-- After `partitioned_counters_init`. -/
def start : State := ⟨fun _ => none, fun _ => none, fun _ => [], [], none, fun _ => .idle⟩

def note (e : Option Ev) (es : List Ev) : List Ev :=
  match e with
  | none => es
  | some e => e :: es

/-- What can come about, with its history. -/
inductive Run : State → List Ev → Prop where
  | init : Run start []
  | step {s s' : State} {es : List Ev} {t : Tid} {a : Act} {e : Option Ev} : Run s es → Legal s t a → act s t a = .done s' e → Run s' (note e es)

end Verif.Count
