import Verif.Open.Model

/-!
# Environments over time
-/

namespace Verif.Open

/-- All files of the environment are there, the log is of versions 25 to 29 and has a record. -/
structure Complete (d : Disk) : Prop where
  env : ∃ v, d.env = some v ∧ 13 ≤ v ∧ v ≤ 29
  fileops : d.fileops = true
  rollback : d.rollback = true
  vers : ∀ f ∈ d.logs, 25 ≤ f.ver ∧ f.ver ≤ 29
  used : ∃ f ∈ d.logs, f.last ≠ none

/-- Nothing but the current version: one log file, all files present. -/
def Current (d : Disk) : Prop := d = ⟨[⟨29, some .other⟩], true, some 29, true⟩

/-- What happens between two openings. -/
inductive Life : Disk → Disk → Prop
  /-- an opening that crashed, or returned an error, in one of its states -/
  | crashed {d d'} (recover : Bool) : d' ∈ (openEnv recover d).2 → Life d d'
  /-- an opening that succeeded, some use, then a crash -/
  | used {d d'} (recover : Bool) (n : Nat) : (openEnv recover d).1 = .ok → d' = (Nat.repeat rotate n ((openEnv recover d).2.getLastD d)) → Life d d'
  /-- an opening that succeeded, some use, and a clean shutdown -/
  | closed {d d'} (recover : Bool) (n : Nat) : (openEnv recover d).1 = .ok →
      d' = close ((Nat.repeat rotate n ((openEnv recover d).2.getLastD d))) → Life d d'

/-- A history of openings, uses, crashes and shutdowns in which no crash fell between deleting the old rollback file and making
the new one. -/
inductive History : Disk → Disk → Prop
  | start {d} : History d d
  | next {d d1 d2} : History d d1 → Life d1 d2 → d2.rollback = true → History d d2

end Verif.Open
