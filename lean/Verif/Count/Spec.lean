/-! What is asked of the counters: the events a program sees, and the sum of what it has added. -/
namespace Verif.Count

/-- Counters and threads, by name. -/
abbrev Ctr := Nat
abbrev Tid := Nat

/-- What happens, newest first in a history: a counter is created or destroyed, an amount arrives at a counter, a thread calls for the
value of a counter, and gets it. -/
inductive Ev where
  | create (c : Ctr)
  | destroy (c : Ctr)
  | add (c : Ctr) (n : Nat)
  | asked (t : Tid) (c : Ctr)
  | told (t : Tid) (c : Ctr) (v : Nat)
  deriving DecidableEq, Repr

/-- All that was added to a counter since it was created. -/
def total (c : Ctr) : List Ev → Nat
  | [] => 0
  | .create c' :: es => if c' = c then 0 else total c es
  | .add c' n :: es => if c' = c then total c es + n else total c es
  | .destroy _ :: es => total c es
  | .asked _ _ :: es => total c es
  | .told _ _ _ :: es => total c es

end Verif.Count
