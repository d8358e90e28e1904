import Verif.Tables.Model

/-!
What a user of lock tables relies on.
-/

namespace Verif.Tables

/-- Nobody is in the middle of giving a table back. -/
def Rest (s : St) : Prop := s.pend = [] ∧ s.dying = []

/-- Two users of the same dictionary use the same table. -/
def Shared (s : St) : Prop := ∀ o ∈ s.held, ∀ o' ∈ s.held, s.dict o = s.dict o' → o = o'

/-- A step that only ends a release that was begun. -/
def Ending : Op → Prop
  | .fin _ => True
  | .kill _ => True
  | _ => False

/-- In this history no table whose count fell to 0 is taken again before the release that saw it is over. -/
def Quiet : St → List Op → Prop
  | _, [] => True
  | s, a :: h => (∀ o ∈ s.pend, s.refs o = 0) ∧ match step s a with
    | some t => Quiet t h
    | none => True

/-- The limit that applies: half of the memory for a transaction that is big (its root has many locks), all of it otherwise. -/
def limitOf (max : Nat) (big : Bool) : Nat := if big then max / 2 else max

/-- The memory that would be left if every table were escalated now. -/
def afterEscalation (s : Esc) : Nat := (s.tables.map s.least).sum

end Verif.Tables
