import Verif.Pipe.Model

/-! # What the queue promises -/

namespace Verif.Pipe

/-- The items handed over, in order. -/
def gives : List Ev → List Nat
  | [] => []
  | .enq _ i _ _ :: es => i :: gives es
  | _ :: es => gives es

/-- The items that calls returned, in order. -/
def gets : List Ans → List Nat
  | [] => []
  | .got i _ _ :: as => i :: gets as
  | _ :: as => gets as

/-- One thread, 0, hands items over and says when there are no more; one thread, 1, takes them. -/
def Ev.paired : Ev → Bool
  | .enq t _ _ _ => t == 0
  | .eof t _ => t == 0
  | .deq t _ => t == 1
  | _ => true

/-- What the items weigh together. -/
def load (items : List (Nat × Nat)) : Nat := (items.map (·.2)).sum

/-- A step that a thread takes by itself: neither a new call nor a chance wake-up. -/
def Ev.own : Ev → Bool
  | .resume .. => true
  | _ => false

/-- Nothing is handed over, and the end is not told again, after the end was told. -/
def orderly : Bool → List Ev → Bool
  | _, [] => true
  | over, .enq .. :: es => !over && orderly over es
  | over, .eof .. :: es => !over && orderly true es
  | over, _ :: es => orderly over es

end Verif.Pipe
