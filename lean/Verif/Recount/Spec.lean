import Verif.Recount.Model

namespace Verif.Recount

/-- The dictionary is in order: keys ascend, and stay within the bounds of their basement nodes. -/
def Legal : Nat → List Part → Prop
  | _, [] => True
  | a, ⟨rows, hi⟩ :: rest =>
    rows.Pairwise (fun x y => x.1 < y.1) ∧ (∀ r ∈ rows, a ≤ r.1) ∧
    match hi with
    | some h => a ≤ h ∧ (∀ r ∈ rows, r.1 ≤ h) ∧ Legal (h + 1) rest
    | none => rest = []

/-- All rows. -/
def rowsOf (d : List Part) : List Nat := (d.flatMap (·.rows)).filterMap fun r => if r.2 then some r.1 else none

/-- The bounds between basement nodes at which there is no row. -/
def bare (d : List Part) : List Nat := (d.filterMap (·.hi)).filter fun h => !(rowsOf d).contains h

end Verif.Recount
