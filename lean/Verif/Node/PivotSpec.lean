/-!
What the pivot keys of nodes are: each object is a list of keys.
-/
namespace Verif.Node.PivotSpec

abbrev Key := List Nat

/-- A key a pivot may be: not empty, bytes, of a 32-bit length. -/
def Ok (k : Key) : Prop := k ≠ [] ∧ k.length < 2 ^ 32 ∧ ∀ b ∈ k, b < 256

instance (k : Key) : Decidable (Ok k) := by unfold Ok; infer_instance

/-- The calls on a collection of objects; objects are named by the order in which they were made.  `split` makes a new object
from the keys at and after a position, `copy` and `reload` make a new object, the latter by way of its bytes on disk. -/
inductive Op where
  | create (keys : List Key)
  | insert (o i : Nat) (key : Key)
  | replace (o i : Nat) (key : Key)
  | delete (o i : Nat)
  | append (o o' : Nat)
  | split (o i : Nat)
  | copy (o : Nat)
  | reload (o : Nat)
deriving Repr, DecidableEq

/-- The lists after one call; `none` for a call that nobody may make. -/
def step (s : List (List Key)) : Op → Option (List (List Key))
  | .create ks => if ∀ k ∈ ks, Ok k then some (s ++ [ks]) else none
  | .insert o i k => match s[o]? with
    | some ks => if i ≤ ks.length ∧ Ok k then some (s.set o (ks.take i ++ k :: ks.drop i)) else none
    | none => none
  | .replace o i k => match s[o]? with
    | some ks => if i ≤ ks.length ∧ Ok k then some (s.set o (if i < ks.length then ks.set i k else ks ++ [k])) else none
    | none => none
  | .delete o i => match s[o]? with
    | some ks => if i < ks.length then some (s.set o (ks.eraseIdx i)) else none
    | none => none
  | .append o o' => match s[o]?, s[o']? with
    | some ks, some ks' => if o ≠ o' then some (s.set o (ks ++ ks')) else none
    | _, _ => none
  | .split o i => match s[o]? with
    | some ks => some (if i < ks.length then s.set o (ks.take i) ++ [ks.drop i] else s)
    | none => none
  | .copy o => match s[o]? with
    | some ks => some (s ++ [ks])
    | none => none
  | .reload o => match s[o]? with
    | some ks => some (s ++ [ks])
    | none => none

/-- The lists after a sequence of calls. -/
def run (s : List (List Key)) : List Op → Option (List (List Key))
  | [] => some s
  | op :: ops => (step s op).bind fun s => run s ops

end Verif.Node.PivotSpec
