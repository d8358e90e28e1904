import Verif.Rw.Model
/-!
Words for the fair lock: who holds it, who waits, who has been let in.
-/
namespace Verif.Rw

/-- Thread `t` holds the lock for writing. -/
def HoldsW (s : St) (t : Nat) : Prop := ∃ e, s.thr t = .writing e

/-- Thread `t` holds the lock for reading. -/
def HoldsR (s : St) (t : Nat) : Prop := s.thr t = .reading

def Holds (s : St) (t : Nat) : Prop := HoldsR s t ∨ HoldsW s t

/-- Thread `t` has asked for the lock, sleeps, and has not been told to go on. -/
def Sleeps (s : St) (t : Nat) : Prop := s.thr t = .waitR false ∨ ∃ e, s.thr t = .waitW e false

/-- Thread `t` slept and has been told to go on: it has only to run. -/
def LetIn (s : St) (t : Nat) : Prop := s.thr t = .waitR true ∨ ∃ e, s.thr t = .waitW e true

/-- Thread `t` has asked for the lock for writing and does not hold it yet. -/
def WantsW (s : St) (t : Nat) : Prop := ∃ e w, s.thr t = .waitW e w

/-- The step asks for the lock. -/
def Act.asks : Act → Bool
  | .writeLock .. | .tryWrite .. | .readLock _ | .tryRead _ => true
  | _ => false

/-- The step tells some sleeping thread to go on. -/
def LetsIn (s s' : St) : Prop := ∃ u, Sleeps s u ∧ LetIn s' u

/-- Executions during all of which thread `t` sleeps, with the number of steps that tell others to go on. -/
inductive Asleep (pd : Bool) (n t : Nat) : St → Nat → St → Prop
  | nil {s : St} : Sleeps s t → Asleep pd n t s 0 s
  | lets {s s1 s2 : St} {k : Nat} {a : Act} : Asleep pd n t s k s1 → a.tid < n → can s1 a → step pd s1 a = some s2 → LetsIn s1 s2 → Sleeps s2 t → Asleep pd n t s (k + 1) s2
  | other {s s1 s2 : St} {k : Nat} {a : Act} : Asleep pd n t s k s1 → a.tid < n → can s1 a → step pd s1 a = some s2 → ¬ LetsIn s1 s2 → Sleeps s2 t → Asleep pd n t s k s2

/-- Executions of `k` steps in which nobody asks for the lock. -/
inductive Quiet (pd : Bool) (n : Nat) : St → Nat → St → Prop
  | nil (s : St) : Quiet pd n s 0 s
  | step {s s1 s2 : St} {k : Nat} {a : Act} : Quiet pd n s k s1 → a.asks = false → a.tid < n → can s1 a → step pd s1 a = some s2 → Quiet pd n s (k + 1) s2

end Verif.Rw
