/-!
# What changing the descriptor of a dictionary means

A dictionary carries a descriptor, a string the user's comparison and row-generation functions are
given.  `DB->change_descriptor` replaces it, inside a transaction.  Nothing here refers to headers,
logs or checkpoints: there is one committed descriptor, and every open transaction has, at each
level of nesting, at most one pending replacement.
-/

namespace Verif.Desc

/-- What an application does.  `r` names an outermost transaction; `begin r` opens it, or one more
level of nesting in it, and `commit r` / `abort r` end its innermost open level. -/
inductive Ev (D : Type) where
  | begin (r : Nat)
  | change (r : Nat) (d : D)
  | prepare (r : Nat)
  | commit (r : Nat)
  | abort (r : Nat)
  deriving DecidableEq, Repr

/-- The committed descriptor; for every outermost transaction the pending replacement of each open
level, innermost first; and which transactions are prepared. -/
structure Spec (D : Type) where
  base : D
  pend : Nat → List (Option D)
  prep : Nat → Bool

variable {D : Type}

/-- `f` changed at one place. -/
def put {α : Type} (f : Nat → α) (r : Nat) (x : α) : Nat → α := fun i => if i = r then x else f i

/-- One operation. -/
def Spec.step (s : Spec D) : Ev D → Spec D
  | .begin r => { s with pend := put s.pend r (none :: s.pend r) }
  | .change r d =>
    match s.pend r with
    | [] => s
    | _ :: ps => { s with pend := put s.pend r (some d :: ps) }
  | .prepare r => { s with prep := put s.prep r true }
  | .commit r =>
    match s.pend r with
    | [] => s
    | [p] => { base := p.getD s.base, pend := put s.pend r [], prep := put s.prep r false }
    | p :: q :: ps => { s with pend := put s.pend r ((p <|> q) :: ps) }
  | .abort r =>
    match s.pend r with
    | [] => s
    | [_] => { s with pend := put s.pend r [], prep := put s.prep r false }
    | _ :: q :: ps => { s with pend := put s.pend r (q :: ps) }

/-- The dictionary when it is created with descriptor `d0`. -/
def Spec.init (d0 : D) : Spec D := ⟨d0, fun _ => [], fun _ => false⟩

/-- A whole history. -/
def Spec.run (d0 : D) (es : List (Ev D)) : Spec D := es.foldl Spec.step (Spec.init d0)

/-- The replacement transaction `r` has pending, if any: the innermost one. -/
def Spec.cur (s : Spec D) (r : Nat) : Option D := (s.pend r).findSome? id

/-- What the dictionary shows: the pending replacement if there is one, else the committed
descriptor. -/
def Spec.Shows (s : Spec D) (d : D) : Prop :=
  (∃ r, s.cur r = some d) ∨ ((∀ r, s.cur r = none) ∧ d = s.base)

/-- What must be left of it after a crash: a prepared transaction's replacement if there is one,
else the committed descriptor. -/
def Spec.Survives (s : Spec D) (d : D) : Prop :=
  (∃ r, s.prep r = true ∧ s.cur r = some d) ∨
    ((∀ r, s.prep r = true → s.cur r = none) ∧ d = s.base)

end Verif.Desc
