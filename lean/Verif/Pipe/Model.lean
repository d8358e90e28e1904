/-!
# The queue between the stages of the bulk loader

Model of util/queue.cc: row sets go from the thread that reads or merges rows to the thread that sorts or writes
them.  Every stretch of code between taking and releasing (or waiting on) the mutex is one step.  Weights are
natural numbers: the code adds them in 64 bits, and the loader gives every row set weight 1.  That memory for an
entry can be missing (ENOMEM, the queue unchanged) is not modelled.
-/

namespace Verif.Pipe

/-- Where a thread is: outside the queue; asleep in toku_queue_enq because there is too much in the queue;
woken from that sleep, about to look again; asleep in toku_queue_deq because the queue is empty; woken from that
sleep. -/
inductive T
  | idle
  | full
  | fullWoken
  | empty
  | emptyWoken
deriving DecidableEq, Repr

/-- The thread sleeps on the condition variable. -/
def T.asleep : T → Bool
  | .full => true
  | .empty => true
  | _ => false

/-- The thread is woken. -/
def T.wake : T → T
  | .full => .fullWoken
  | .empty => .emptyWoken
  | t => t

/-- struct queue, util/queue.cc:58-68; an item comes with its weight, the oldest first.  `ts` are the threads;
`sent` and `received` are history variables, never read. -/
structure Q where
  weight : Nat
  limit : Nat
  items : List (Nat × Nat)
  eof : Bool
  ts : List T
  sent : List Nat
  received : List Nat
deriving DecidableEq, Repr

/-- toku_queue_create, util/queue.cc:82-95, with `n` threads that use the queue. -/
def create (limit n : Nat) : Q :=
  { weight := 0, limit := limit, items := [], eof := false, ts := List.replicate n .idle, sent := [], received := [] }

/-- toku_cond_signal: one of the sleeping threads, any one, is woken; nothing happens if none sleeps. -/
def signal (ts : List T) (who : Nat) : Option (List T) :=
  if ts.all (fun t => !t.asleep) then some ts
  else
    match ts[who]? with
    | some t => if t.asleep then some (ts.set who t.wake) else none
    | none => none

/-- What a call told its caller. -/
inductive Ans
  /-- Nothing yet. -/
  | none
  /-- toku_queue_enq returned 0, with the weight of the queue. -/
  | sent (total : Nat)
  /-- toku_queue_deq returned 0, with the item, its weight and the weight of the queue. -/
  | got (item weight total : Nat)
  /-- toku_queue_deq returned EOF. -/
  | eof
  /-- toku_queue_eof or toku_queue_destroy returned 0. -/
  | ok
  /-- toku_queue_destroy returned EINVAL. -/
  | einval
deriving DecidableEq, Repr

inductive Ev
  | enq (t item weight who : Nat)
  | deq (t who : Nat)
  | eof (t who : Nat)
  /-- A woken thread has the mutex again. -/
  | resume (t who : Nat)
  /-- A wait ends without a signal. -/
  | spurious (t : Nat)
  /-- toku_queue_destroy is asked; the queue is not used after it returned 0, so it is left as it is here. -/
  | destroy
deriving DecidableEq, Repr

/-- The loop at the end of toku_queue_enq, util/queue.cc:128-136. -/
def waitRoom (q : Q) (t : Nat) : Q × Ans :=
  if q.limit < q.weight then ({ q with ts := q.ts.set t .full }, .none)
  else ({ q with ts := q.ts.set t .idle }, .sent q.weight)

/-- toku_queue_deq from the look at the queue on, util/queue.cc:154-182. -/
def take (q : Q) (t who : Nat) : Option (Option (Q × Ans)) :=
  match q.items with
  | [] =>
    if q.eof then some (some ({ q with ts := q.ts.set t .idle }, .eof))
    else some (some ({ q with ts := q.ts.set t .empty }, .none))
  | (item, w) :: rest =>
    match signal (q.ts.set t .idle) who with
    | none => none
    | some ts =>
      some (some ({ q with
        weight := q.weight - w
        items := rest
        ts := ts
        received := q.received ++ [item] }, .got item w (q.weight - w)))

/-- One step; `none`: not possible now; `some none`: an assertion fails. -/
def act (q : Q) : Ev → Option (Option (Q × Ans))
  -- util/queue.cc:106-138
  | .enq t item w who =>
    if q.ts[t]? = some .idle then
      if q.eof then some none
      else
        match signal q.ts who with
        | none => none
        | some ts =>
          some (some (waitRoom { q with
            weight := q.weight + w
            items := q.items ++ [(item, w)]
            ts := ts
            sent := q.sent ++ [item] } t))
    else none
  | .deq t who => if q.ts[t]? = some .idle then take q t who else none
  -- util/queue.cc:140-148
  | .eof t who =>
    if q.ts[t]? = some .idle then
      if q.eof then some none
      else
        match signal q.ts who with
        | none => none
        | some ts => some (some ({ q with eof := true, ts := ts }, .ok))
    else none
  | .resume t who =>
    match q.ts[t]? with
    | some .fullWoken => some (some (waitRoom q t))
    | some .emptyWoken => take q t who
    | _ => none
  | .spurious t =>
    match q.ts[t]? with
    | some x => if x.asleep then some (some ({ q with ts := q.ts.set t x.wake }, .none)) else none
    | none => none
  -- util/queue.cc:97-105
  | .destroy =>
    if q.items ≠ [] then some (some (q, .einval))
    else if q.weight ≠ 0 then some none
    else some (some (q, .ok))

/-- Any number of steps, with what the calls told. -/
def run (q : Q) : List Ev → Option (Option (Q × List Ans))
  | [] => some (some (q, []))
  | e :: es =>
    match act q e with
    | none => none
    | some none => some none
    | some (some (q', a)) =>
      match run q' es with
      | some (some (r, as)) => some (some (r, a :: as))
      | x => x

end Verif.Pipe
