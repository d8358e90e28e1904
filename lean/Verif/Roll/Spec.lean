import Verif.Roll.Model
/-!
Specification of rollback: each live transaction has a list of actions, oldest first; a committing child hands its list over to
its parent; a root that commits, and any transaction that aborts, goes through its list backwards.
-/
namespace Verif.Roll.Spec
open Verif.Roll

variable {α : Type}

/-- A live transaction: its parent, and its actions, oldest first. -/
structure Live (α : Type) where
  parent : Option Tid
  acts : List α

/-- The live transactions. -/
abbrev Abs (α : Type) := Tid → Option (Live α)

/-- What can be called.  The block numbers are those the block table hands out if new nodes are needed. -/
inductive Op (α : Type) where
  | begin (t : Tid) (xid : Xid) (parent : Option Tid)
  | act (t : Tid) (a : α) (size : Nat) (fresh : Blk)
  | commit (t : Tid) (fresh1 fresh2 : Blk)
  | abort (t : Tid)

/-- No live transaction is a child of `t`. -/
def Childless (a : Abs α) (t : Tid) : Prop := ∀ u l, a u = some l → l.parent ≠ some t

/-- Who may call what: a transaction begins with a parent that is live, and ends after its children. -/
def Allowed (a : Abs α) : Op α → Prop
  | .begin t _ parent => a t = none ∧ ∀ p, parent = some p → a p ≠ none
  | .act t _ _ _ => a t ≠ none
  | .commit t _ _ => a t ≠ none ∧ Childless a t
  | .abort t => a t ≠ none ∧ Childless a t

/-- The block table hands out numbers that are not in use. -/
def Fresh (s : St α) : Op α → Prop
  | .act _ _ _ b => b ≠ 0 ∧ s.nodes b = none
  | .commit _ b c => (b ≠ 0 ∧ s.nodes b = none) ∧ (c ≠ 0 ∧ s.nodes c = none) ∧ b ≠ c
  | _ => True

def set (a : Abs α) (t : Tid) (l : Option (Live α)) : Abs α := fun u => if u = t then l else a u

/-- What a call does to the lists. -/
def next (a : Abs α) : Op α → Abs α
  | .begin t _ parent => set a t (some ⟨parent, []⟩)
  | .act t x _ _ => match a t with
    | some l => set a t (some { l with acts := l.acts ++ [x] })
    | none => a
  | .commit t _ _ => match a t with
    | some ⟨some p, xs⟩ => match a p with
      | some l => set (set a p (some { l with acts := l.acts ++ xs })) t none
      | none => a
    | _ => set a t none
  | .abort t => set a t none

/-- The actions that are completed or undone, in this order. -/
def shown (a : Abs α) : Op α → List α
  | .commit t _ _ => match a t with
    | some ⟨none, xs⟩ => xs.reverse
    | _ => []
  | .abort t => match a t with
    | some l => l.acts.reverse
    | none => []
  | _ => []

/-- A call in the model; `n` bounds the number of steps. -/
def run (n : Nat) (s : St α) : Op α → R (St α × List α)
  | .begin t xid parent => .ok (s.begin t xid parent, [])
  | .act t a size b => match s.save t (.act a size) b with
    | .ok s => .ok (s, [])
    | .crash => .crash
    | .more => .more
  | .commit t b c => s.commit n t b c
  | .abort t => s.abort n t

/-- The call ends, with no assertion failed, in the state `s'`, and has completed or undone the actions `out`. -/
def Ends (s : St α) (op : Op α) (s' : St α) (out : List α) : Prop := ∃ n, ∀ m, n ≤ m → run m s op = .ok (s', out)

/-- The states that can be reached, with the lists. -/
inductive Reach (limit max : Nat) : St α → Abs α → Prop
  | init : Reach limit max (St.init limit max) (fun _ => none)
  | step {s s' : St α} {a : Abs α} {op : Op α} {out : List α} : Reach limit max s a → Allowed a op → Fresh s op → Ends s op s' out → Reach limit max s' (next a op)

end Verif.Roll.Spec
