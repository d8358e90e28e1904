import Verif.Tree.RangeSpec

/-! `DB->keys_range64` and `DB->key_range64`: counting the keys around two given keys, ft/ft-ops.cc:3982-4345,
src/ydb_db.cc:777-805.  Counts are unsigned 64 bit numbers, positions in a basement unsigned 32 bit numbers, so
subtraction wraps around.  The checks under `paranoid_invariant` are not compiled into a release build and are left
out.  Retries (`TOKUDB_TRY_AGAIN`) start over and are left out. -/
namespace Verif.Tree
variable {K R B : Type} [LinearOrder K]

/-- `a + b` of type `uint64_t`. -/
def add64 (a b : Nat) : Nat := (a + b) % 2 ^ 64

/-- `a - b` of type `uint64_t`. -/
def sub64 (a b : Nat) : Nat := (a + (2 ^ 64 - b % 2 ^ 64)) % 2 ^ 64

/-- `a - b` of type `uint32_t`. -/
def sub32 (a b : Nat) : Nat := (a + (2 ^ 32 - b % 2 ^ 32)) % 2 ^ 32

/-- The numbers `toku_ft_keysrange_internal` fills in, ft/ft-ops.cc:4063-4082. -/
structure Counts where
  less : Nat
  eqL : Nat
  mid : Nat
  eqR : Nat
  greater : Nat
  /-- `single_basement_node` -/
  single : Bool
  deriving DecidableEq, Repr

/-- `bn_data::find_zero` with `keyrange_compare`, ft/ft-ops.cc:3984-3993, ft/bndata.h: the position of the first row
not below the key, and whether it is the key's.  Positions are `uint32_t`. -/
def findZero (rows : Rows K R) (k : K) : Nat × Bool :=
  (rows.findIdx (fun r => decide (k ≤ r.1)), rows.any fun r => decide (r.1 = k))

/-- What is found of the left end: nothing, at position 0, if it is minus infinity (ft/ft-ops.cc:4025-4033). -/
def leftAt (rows : Rows K R) : Option K → Nat × Bool
  | none => (0, false)
  | some k => findZero rows k

/-- What is found of the right end: nothing, after all rows, if it is plus infinity or in another basement
(ft/ft-ops.cc:4035-4042). -/
def rightAt (rows : Rows K R) (single : Bool) : Option K → Nat × Bool
  | none => (rows.length, false)
  | some k => if single then findZero rows k else (rows.length, false)

/-- Counting in a basement that is in memory, ft/ft-ops.cc:4020-4045. -/
def countIn (rows : Rows K R) (left right : Option K) (single : Bool) : Counts :=
  let l := leftAt rows left
  let r := rightAt rows single right
  let eqL := if l.2 then 1 else 0
  let eqR := if r.2 then 1 else 0
  { less := l.1
    eqL := eqL
    mid := sub64 (sub32 r.1 l.1) eqL
    eqR := eqR
    greater := sub64 (sub32 rows.length r.1) eqR
    single := single }

/-- Guessing about a basement that is not in memory, ft/ft-ops.cc:4046-4061. -/
def guessIn (left : Option K) (est : Nat) : Counts :=
  let l := match left with
    | none => 0
    | some _ => (est / 2) % 2 ^ 32
  { less := l, eqL := 0, mid := sub64 est l, eqR := 0, greater := 0, single := false }

/-- The rows of a basement there are to count: if both ends are in it, `match_bfe` has had it read (without applying
messages from above), otherwise only if it happens to be in memory (ft/ft-ops.cc:1153-1172, 4136-4147, 4242-4262). -/
def rowsToCount (p : Part K R) (single : Bool) : Option (Rows K R) :=
  match p.mem with
  | some b => some b.rows
  | none => if single then some p.disk else none

/-- `keysrange_in_leaf_partition`, ft/ft-ops.cc:3995-4061. -/
def inPartition (p : Part K R) (left right : Option K) (single : Bool) (est : Nat) : Counts :=
  match rowsToCount p single with
  | some rows => countIn rows left right single
  | none => guessIn left est

/-- The child where the left end belongs, ft/ft-ops.cc:4088-4091. -/
def leftChild (n : Nat) (ps : List K) : Option K → Option Nat
  | none => some 0
  | some k => whichChild n ps k

/-- The child where the right end belongs, or the sentinel `n_children`, ft/ft-ops.cc:4092-4100. -/
def rightChild (n : Nat) (ps : List K) (may : Bool) (right : Option K) : Option Nat :=
  if may then
    match right with
    | none => some (n - 1)
    | some k => whichChild n ps k
  else some n

/-- The share of the other children, ft/ft-ops.cc:4118-4125 and 4172-4179. -/
def spread (share n i : Nat) (c : Counts) : Counts :=
  let c' := { c with less := add64 c.less (share * i) }
  if c.single then { c' with greater := add64 c.greater (share * (n - i - 1)) }
  else { c' with mid := add64 c.mid (share * (n - i - 1)) }

/-- `toku_ft_keysrange_internal`, ft/ft-ops.cc:4063-4190. -/
def keysInternal (left right : Option K) : (h : Nat) → (may : Bool) → (est : Nat) → Node K R B h → Option Counts
  | 0, may, est, l => do
    let n := (Leaf.parts l).length
    let i ← leftChild n (Leaf.pivots l) left
    let j ← rightChild n (Leaf.pivots l) may right
    let p ← (Leaf.parts l)[i]?
    some (spread (est / n) n i (inPartition p left right (decide (i = j)) (est / n)))
  | h + 1, may, est, nd => do
    let n := (Inner.kids nd).length
    let i ← leftChild n (Inner.pivots nd) left
    let j ← rightChild n (Inner.pivots nd) may right
    let p ← (Inner.kids nd)[i]?
    let c ← keysInternal left right h (may && decide (i = j)) (est / n) p.2
    some (spread (est / n) n i c)

/-- `toku_ft_keysrange` without the swap, ft/ft-ops.cc:4236-4345: a second query for the right end unless both are in
one basement; `none` if an `invariant_zero` fails. -/
def keysTwo (t : Tree K R B) (numrows : Nat) (left right : Option K) : Option Counts := do
  let c ← keysInternal left right t.h true numrows t.root
  match right with
  | none => some c
  | some k =>
    if c.single then some c
    else do
      guard (c.eqR = 0 ∧ c.greater = 0)
      let c2 ← keysInternal (some k) none t.h false numrows t.root
      guard (c2.eqR = 0 ∧ c2.greater = 0)
      let above := add64 c2.eqL c2.mid
      some { c with mid := (if above ≤ c.mid then c.mid - above else 0), eqR := c2.eqL, greater := c2.mid }

/-- `toku_ft_keysrange`, ft/ft-ops.cc:4192-4345: a missing left end is handled by swapping; `rows` is
`in_memory_logical_rows`. -/
def keysRange (t : Tree K R B) (rows : Int) (left right : Option K) : Option Counts :=
  let numrows := rows.toNat
  match left, right with
  | none, some k => do
    let c ← keysTwo t numrows (some k) none
    guard (c.eqR = 0 ∧ c.greater = 0)
    some { less := 0, eqL := 0, mid := c.less, eqR := c.eqL, greater := c.mid, single := c.single }
  | _, _ => keysTwo t numrows left right

/-- `toku_db_key_range64`, src/ydb_db.cc:790-805: less, equal and greater. -/
def keyRange (t : Tree K R B) (rows : Int) (key : Option K) : Option (Nat × Nat × Nat) :=
  (keysRange t rows key none).map fun c => (c.less, c.eqL, c.mid)

/-- The basement that counting has read stays in memory, as it is on disk; ft/ft-cachetable-wrappers.cc:148-255 with
`apply_ancestor_messages` false. -/
def loadAt (l : Leaf K R) (i : Nat) : Leaf K R :=
  match l.parts[i]? with
  | some p => { l with parts := l.parts.set i (loadPart l.msn p) }
  | none => l

/-- Read it if both ends are in it. -/
def loadIf (l : Leaf K R) (i j : Nat) : Leaf K R := if i = j then loadAt l i else l

/-- What counting leaves of the tree. -/
def countLoads (left right : Option K) : (h : Nat) → (may : Bool) → Node K R B h → Node K R B h
  | 0, may, l =>
    let n := (Leaf.parts l).length
    match leftChild n (Leaf.pivots l) left, rightChild n (Leaf.pivots l) may right with
    | some i, some j => loadIf l i j
    | _, _ => l
  | h + 1, may, nd =>
    let n := (Inner.kids nd).length
    match leftChild n (Inner.pivots nd) left, rightChild n (Inner.pivots nd) may right with
    | some i, some j =>
      match (Inner.kids nd)[i]? with
      | some p => ({ nd with kids := nd.kids.set i (p.1, countLoads left right h (may && decide (i = j)) p.2) } :
          Inner K B (Node K R B h))
      | none => nd
    | _, _ => nd

end Verif.Tree
