import Verif.LockWait.Model

/-! # What waiting for a row lock promises -/

namespace Verif.LockWait

/-- The clock does not go back, and the operating system lets a thread sleep at most `late` longer than asked. -/
def OnTime (c : Cfg) (e late : Nat) : Nat → List Round → Prop
  | _, [] => True
  | now, r :: rs => now ≤ r.back ∧ r.back ≤ max now (tWait c e now) + late ∧ OnTime c e late r.back rs

/-- The callback says that the thread was killed whenever it is asked at `k` or later. -/
def KilledFrom (k : Nat) : Nat → List Round → Prop
  | _, [] => True
  | now, r :: rs => (k ≤ now → r.saysKilled = true) ∧ KilledFrom k r.back rs

/-- The clock after some rounds. -/
def clock (now : Nat) : List Round → Nat
  | [] => now
  | r :: rs => clock r.back rs

/-- The times set can be added to the clock in 64 bits. -/
def Fits (c : Cfg) (start : Nat) : Prop :=
  start + c.waitMs * 1000 + c.killedMs * 1000 < 18446744073709551616

end Verif.LockWait
