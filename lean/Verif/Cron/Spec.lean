import Verif.Cron.Model
/-! What is asked of periodic work. -/
namespace Verif.Cron

/-- The time in nanoseconds. -/
def Time.real (t : Time) : Nat := t.sec * 1000000000 + t.nsec

/-- A period of whole seconds, or of at most one. -/
def Whole (p : Nat) : Prop := p ≤ 1000 ∨ p % 1000 = 0

/-- A call begun with a period of more than a second. -/
def Big (c : Nat × Nat) : Bool := c.2 > 1000

/-- Only such periods are set in this schedule. -/
def AllWhole (as : List Act) : Prop := ∀ p, Act.change p ∈ as → Whole p

/-- Steps of the thread itself. -/
def ofThread : Act → Bool
  | .tick _ | .change _ | .shutdown | .stir => false
  | _ => true

/-- The state can be reached from some setup. -/
def Reached (s : St) : Prop := ∃ now period as, run (St.setup now period) as = .ok s

/-- The state can be reached from a setup at time `t0`, and only whole periods were set. -/
def ReachedWhole (t0 : Nat) (s : St) : Prop := ∃ period as, Whole period ∧ AllWhole as ∧ run (St.setup t0 period) as = .ok s

end Verif.Cron
