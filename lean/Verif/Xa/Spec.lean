import Verif.Xa.Model

/-!
What a listing of the prepared transactions should return, said without the code's cursor.
-/

namespace Verif.Xa.Spec

open Verif.Xa

/-- A state of the transaction manager: the live roots are sorted by id, ids start at one and none above
the last one given out. -/
structure Good (m : Mgr) : Prop where
  sorted : m.roots.Pairwise (fun a b => a.xid < b.xid)
  pos : ∀ r ∈ m.roots, 0 < r.xid ∧ r.xid ≤ m.maxXid

/-- The prepared transactions, oldest first. -/
def prepared (m : Mgr) : List Nat := (m.roots.filter (·.prep)).map (·.xid)

/-- A listing under way: a first call, then next calls, with work of other threads anywhere between
them. `ids` is what was returned so far, `since` the transactions that were prepared at the first call
and at every moment since, and `ended` whether the last call returned fewer than it could. -/
inductive Listing : Mgr → (ids : List Nat) → (since : List Nat) → (ended : Bool) → Prop
  | first (m m' count ids) : Good m → recover m count DB_FIRST = (m', .ok ids) →
      Listing m' ids (prepared m) (decide (ids.length < count))
  | next (m m' count ids new since ended) : Listing m ids since ended →
      recover m count DB_NEXT = (m', .ok new) →
      Listing m' (ids ++ new) since (decide (new.length < count))
  | work (m ids since ended w) : Listing m ids since ended →
      Listing (Xa.work m w) ids (since.filter (· ∈ prepared (Xa.work m w))) ended

/-- A listing that nothing disturbs: the batches returned for these sizes, or `none` if a call fails. -/
def batches (m : Mgr) (flags : Nat) : List Nat → Option (List (List Nat))
  | [] => some []
  | c :: cs =>
    match recover m c flags with
    | (m', .ok ids) => (batches m' DB_NEXT cs).map (ids :: ·)
    | _ => none

end Verif.Xa.Spec
