import Verif.Evict.Model
/-!
What is asked of flow control, apart from how it is done.
-/
namespace Verif.Evict

/-- A client waits for room. -/
def Asleep (s : St) : Prop := ∃ t : Nat, s.thr[t]? = some .asleep

/-- Thread `t` is inside the call that waits for room: it waits, or has been let go and has not returned. -/
def Held (s : St) (t : Nat) : Prop := s.thr[t]? = some .asleep ∨ s.thr[t]? = some .woken

/-- What a thread has promised to free. -/
def promise : Pc → Nat
  | .job e => e
  | _ => 0

/-- What the eviction thread has promised and not yet handed over. -/
def handing : Ev → Nat
  | .enq e => e
  | _ => 0

/-- Everything that background evictions, begun or queued, have promised to free. -/
def promised (s : St) : Nat := s.queue.sum + (s.thr.map promise).sum + handing s.ev

/-- No background eviction is queued or under way. -/
def NoJobs (s : St) : Prop := s.queue = [] ∧ (∀ t e : Nat, s.thr[t]? ≠ some (.job e)) ∧ ∀ e, s.ev ≠ .enq e

/-- Nothing will move the eviction thread but its timer. -/
def EvictorSleeps (s : St) : Prop := s.ev = .waiting false

/-- In this schedule nobody adds to the cache between the last two looks of the eviction thread at the size: the one that says that there is nothing more to evict,
and the one that says whether to let the clients go. -/
def Calm (c : Cfg) (s : St) : List Act → Prop
  | [] => True
  | a :: as =>
    (s.ev = .exit false → ∀ d, a = .size d → d ≤ 0) ∧
      match act c s a with
      | some (some s') => Calm c s' as
      | _ => True

/-- The state can be reached after `init`, with so many threads. -/
def Reached (c : Cfg) (s : St) : Prop := ∃ (n : Nat) (as : List Act), run c (St.init n) as = .ok s

/-- It can be reached by a calm schedule. -/
def ReachedCalmly (c : Cfg) (s : St) : Prop := ∃ (n : Nat) (as : List Act), run c (St.init n) as = .ok s ∧ Calm c (St.init n) as

end Verif.Evict
