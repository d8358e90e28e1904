import Verif.Tree.Model

/-!
What a dictionary is meant to be, apart from trees, buffers and flushes: the value of a key is what the
messages sent so far, each applied once and in the order sent, make of it.
-/
namespace Verif.Tree
variable {K R B : Type} [LinearOrder K]

/-- What one message does to the value of one key: a message for a key changes that key only, a broadcast
changes every key that has a value, and the rest change nothing. -/
def effect (sem : Sem K R B) (kind : Kind K) (body : B) (k : K) (v : Option R) : Option R :=
  match kind with
  | .once k' => if k = k' then sem.one body k v else v
  | .all => v.bind (sem.each body k)
  | .nothing => v

/-- The value of key `k` after the messages of a history, oldest first. -/
def rowAfter (sem : Sem K R B) (hist : List (Kind K × B)) (k : K) : Option R :=
  hist.foldl (fun v m => effect sem m.1 m.2 k v) none

/-- The messages a run sends, in order. -/
def sent : List (Op K B) → List (Kind K × B)
  | [] => []
  | .put kind body _ :: ops => (kind, body) :: sent ops
  | _ :: ops => sent ops

/-- A key belongs between an exclusive lower and an inclusive upper bound; a missing bound is infinite. -/
def InB (lo hi : Option K) (k : K) : Prop := (∀ a, lo = some a → a < k) ∧ (∀ b, hi = some b → k ≤ b)

/-- Rows in strictly ascending key order. -/
def Sorted (rows : Rows K R) : Prop := rows.Pairwise fun a b => a.1 < b.1

end Verif.Tree
