import Verif.Load.Model
/-!
# Specification: what a bulk load has to do

Nothing here speaks of how the loader works.
-/
set_option autoImplicit false

namespace Verif.Load.Spec
open Verif.Load

variable {K V : Type}

/-- A comparison function: a total order up to equality (negative, zero, positive as usual). -/
structure Order (cmp : K → K → Int) : Prop where
  refl : ∀ a, cmp a a = 0
  anti : ∀ a b, cmp a b < 0 ↔ 0 < cmp b a
  trans : ∀ a b c, cmp a b ≤ 0 → cmp b c ≤ 0 → cmp a c ≤ 0

/-- Rows in strictly increasing order of key. -/
def Sorted (cmp : K → K → Int) (l : List (Row K V)) : Prop := l.Pairwise (fun a b => cmp a.1 b.1 < 0)

/-- No two rows have equal keys. -/
def Distinct (cmp : K → K → Int) (l : List (Row K V)) : Prop := l.Pairwise (fun a b => cmp a.1 b.1 ≠ 0)

/-- `r` is one of the rows, and there is another with an equal key. -/
def Twice (cmp : K → K → Int) (r : Row K V) (l : List (Row K V)) : Prop :=
  ∃ r' rest, l.Perm (r :: r' :: rest) ∧ cmp r.1 r'.1 = 0

/-- The rows of a tree, from left to right, for trees of the given height. -/
def rowsOf : Nat → Tree K V → List (Row K V)
  | _, .leaf rows => rows
  | 0, .node _ _ => []
  | h + 1, .node _ kids => kids.flatMap (rowsOf h)

/-- A search tree: all leaves at the same depth; a node has 2 to 15 children, and one pivot between each two;
the keys in a child are greater than the pivot before it and not greater than the pivot after it. -/
inductive Search (cmp : K → K → Int) : Nat → Tree K V → Prop
  | leaf (rows : List (Row K V)) : Sorted cmp rows → Search cmp 0 (.leaf rows)
  | node (h : Nat) (pivots : List (Option K)) (kids : List (Tree K V)) :
      2 ≤ kids.length → kids.length ≤ 15 → pivots.length + 1 = kids.length →
      (∀ t ∈ kids, Search cmp h t) →
      (∀ (i : Nat) (p : Option K), pivots[i]? = some p → ∃ k, p = some k ∧
        (∀ (j : Nat) (t : Tree K V), kids[j]? = some t → ∀ r ∈ rowsOf h t, (j ≤ i → cmp r.1 k ≤ 0) ∧ (i < j → cmp k r.1 < 0))) →
      Search cmp (h + 1) (.node pivots kids)

/-- The child in which a search for `k` goes on: the first whose pivot is not less than `k`. -/
def childOf (cmp : K → K → Int) (k : K) : List (Option K) → Nat
  | [] => 0
  | none :: _ => 0
  | some p :: l => if cmp k p ≤ 0 then 0 else childOf cmp k l + 1

/-- Search in a tree. -/
def find (cmp : K → K → Int) (k : K) : Nat → Tree K V → Option (Row K V)
  | _, .leaf rows => rows.find? (fun r => cmp r.1 k = 0)
  | 0, .node _ _ => none
  | h + 1, .node pivots kids =>
    match kids[childOf cmp k pivots]? with
    | some t => find cmp k h t
    | none => none

/-- The rows of the dictionary that belong to some rows put. -/
def made (e : Env K V) (l : List (Row K V)) : List (Row K V) :=
  l.flatMap (fun r => match e.gen r with | .ok g => g | .error _ => [])

/-- Nothing is wrong with the rows but, perhaps, equal keys: the row generator fails for none, no key and no
value is too large. -/
structure Fit (e : Env K V) (l : List (Row K V)) : Prop where
  gen : ∀ r ∈ l, ∃ g, e.gen r = .ok g
  key : ∀ r ∈ made e l, e.klen r.1 ≤ e.klimit
  val : ∀ r ∈ made e l, e.vlen r.2 ≤ e.vlimit

/-- A reason for an error code. -/
def Cause (e : Env K V) (l : List (Row K V)) : Err K V → Prop
  | .exist r => Twice e.cmp r (made e l)
  | .inval => ∃ r ∈ made e l, e.klimit < e.klen r.1 ∨ e.vlimit < e.vlen r.2
  | .gen c => ∃ r ∈ l, e.gen r = .error c
  | .full => False
  | .short => False

/-- A loader in use: puts by the caller, and rounds of the extractor thread, in any order.  First list: the rows
whose put returned 0, in order.  Second list: the rows whose put returned an error. -/
inductive Reached (e : Env K V) : Ld K V → List (Row K V) → List (Row K V) → Prop
  | start : Reached e Ld.open [] []
  | put {s s' : Ld K V} {l x : List (Row K V)} (r : Row K V) :
      Reached e s l x → s.put e r = (s', none) → Reached e s' (l ++ [r]) x
  | refused {s s' : Ld K V} {l x : List (Row K V)} (r : Row K V) (c : Err K V) :
      Reached e s l x → s.put e r = (s', some c) → Reached e s' l (x ++ [r])
  | extract {s s' : Ld K V} {l x : List (Row K V)} :
      Reached e s l x → s.extract e = some s' → Reached e s' l x

/-- Settings that are possible: a comparison function that is an order, at least two files merged at once
(`MIN_MERGE_FANIN`, loader-internal.h 53), the threshold of `merge_row_arrays` at least 3 (it is 10000). -/
structure EnvOk (e : Env K V) : Prop where
  order : Order e.cmp
  fin : 2 ≤ e.fin
  early : 2 ≤ e.early
  thr : 3 ≤ e.thr

end Verif.Load.Spec
