import Verif.Workers.Model

/-! # What a pool of workers promises -/

namespace Verif.Workers

/-- The jobs handed over, in order. -/
def gives : List Ev → List Nat
  | [] => []
  | .enq j _ :: es => j :: gives es
  | _ :: es => gives es

/-- The jobs being done. -/
def running (ws : List W) : List Nat := ws.filterMap (fun w => match w with | .busy j => some j | _ => none)

/-- A step of a worker that is not a chance wake-up: the mutex is taken, or a job returns. -/
def Ev.progress : Ev → Bool
  | .work .. => true
  | .finish .. => true
  | _ => false

/-- How many steps of workers there can still be after the pool was told to end: three for each job that waits,
two for each job under way and each worker that waits, one for each worker about to look. -/
def W.left : W → Nat
  | .ready => 1
  | .waiting => 2
  | .busy _ => 2
  | .gone => 0

def left (k : Pool) : Nat := 3 * k.q.length + (k.ws.map W.left).sum

/-- How many steps of workers there can still be while nobody hands over a job and no wait ends by chance: three
for each job that waits, two for each job under way, one for each worker about to look. -/
def W.ahead : W → Nat
  | .ready => 1
  | .waiting => 0
  | .busy _ => 2
  | .gone => 0

def ahead (k : Pool) : Nat := 3 * k.q.length + (k.ws.map W.ahead).sum

/-- The pool is used as it is meant to be: nothing is handed over, and it is not destroyed again, after it was
destroyed. -/
def orderly : Bool → List Ev → Bool
  | _, [] => true
  | over, .enq .. :: es => !over && orderly over es
  | over, .destroy _ :: es => !over && orderly true es
  | over, _ :: es => orderly over es

/-- A file is opened again only after a wait for its jobs has returned: no job is added in between other than by
a call that is refused. -/
def careful : List JEv → Jobs → Bool
  | [], _ => true
  | e :: es, s => (if e = .reset then s.returned else true) &&
    match jact s e with
    | some (some (t, _)) => careful es t
    | _ => true

end Verif.Workers
