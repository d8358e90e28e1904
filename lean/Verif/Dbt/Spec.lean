import Verif.Dbt.Model

/-!
# What the caller sees
-/

namespace Verif.Dbt

/-- The DBT shows the value. -/
def Shows (s : S) (i : Nat) (v : List Nat) : Prop :=
  (s.slots i).size = v.length ∧
    (v = [] ∨ ∃ p b, (s.slots i).data = some p ∧ s.heap p = some b ∧ b.bytes.take v.length = v)

/-- The values the DBTs should show, given their flags and the sizes of the caller's buffers: a DBT shows the last value put
into it; with flags 0 until the next value put into any such DBT; a buffer of the caller that is too small shows none. -/
abbrev A := Nat → Option (List Nat)

def A.step (fl : Nat → Flag) (u : Nat → Nat) (a : A) (i : Nat) (v : List Nat) : A := fun j =>
  if j = i then (if fl i = .usermem ∧ u i < v.length then none else some v)
  else if fl i = .static ∧ fl j = .static then none
  else a j

def A.run (fl : Nat → Flag) (u : Nat → Nat) (a : A) : List (Nat × List Nat × Bool) → A
  | [] => a
  | (i, v, _) :: es => A.run fl u (A.step fl u a i v) es

/-- The caller's DBTs at the start: buffers as long as they say, each its own. -/
structure Start (s : S) (fl : Nat → Flag) (u : Nat → Nat) : Prop where
  flag : ∀ i, (s.slots i).flag = fl i
  ulen : ∀ i, (s.slots i).ulen = u i
  buf : ∀ i p, fl i ≠ .static → (s.slots i).data = some p → p < s.next ∧ ∃ b, s.heap p = some b ∧ b.cap = (s.slots i).ulen
  empty : ∀ i, fl i ≠ .static → (s.slots i).data = none → (s.slots i).ulen = 0
  own : ∀ i j p, fl i ≠ .static → fl j ≠ .static → i ≠ j → (s.slots i).data = some p → (s.slots j).data ≠ some p
  sdata : s.sdata = none
  slen : s.slen = 0
  fresh : ∀ p, s.next ≤ p → s.heap p = none

end Verif.Dbt
