import Verif.Bulk.Model

/-!
# Rows in order
-/

namespace Verif.Bulk

/-- The rows are in the order of the move. -/
def Ordered (fwd : Bool) (rows : List Row) : Prop :=
  rows.Pairwise fun a b => if fwd then a.key < b.key else b.key < a.key

/-- The keys of the rows seen that lie beyond `p` in the direction of the move. -/
def ahead (fwd : Bool) (p : Nat) (rows : List Row) : List Nat :=
  (rows.filter fun r => r.live && (if fwd then decide (p < r.key) else decide (r.key < p))).map (·.key)

/-- Those before the bound in the direction of the move, if one is set. -/
def inBound (fwd : Bool) (bound : Option Nat) (l : List Nat) : List Nat :=
  match bound with
  | none => l
  | some b => l.takeWhile fun k => if fwd then decide (k ≤ b) else decide (b ≤ k)

/-- The bound of a cursor in a direction. -/
def boundOf (fwd : Bool) (c : Cursor) : Option Nat :=
  if c.limited = false then none
  else if fwd then (if c.posInf then none else some c.right) else (if c.negInf then none else some c.left)

/-- A scan: calls one after the other, each with its own callback and over the basement nodes as they are then. -/
def scan (fwd : Bool) : Cursor → List ((Nat → Ans) × List (List Row)) → List Res × Nat × List Nat
  | c, [] => ([], c.pos, [])
  | c, (user, parts) :: calls =>
    let t := move fwd user parts c [fun _ => true]
    let t' := scan fwd { c with pos := t.2.1 } calls
    (t.1 :: t'.1, t'.2.1, t.2.2 ++ t'.2.2)

end Verif.Bulk
