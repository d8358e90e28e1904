import Verif.Tree.SkipSpec
import Verif.Tree.Range
import Verif.Tree.Search

/-! `DB->get_key_after_bytes`, ft/ft-ops.cc:4369-4529, src/ydb_db.cc:805-809.  Byte counts are numbers without a limit here (in the code
`uint64_t`).  It reads nodes but no basements (`create_for_min_read`), so it leaves the tree as it is.  Retries start over and are left
out. -/
namespace Verif.Tree
variable {K R B : Type} [LinearOrder K]

/-- How a part of the walk ends: the callback has been called with this key and this many bytes, or it goes on beyond, with this many
bytes skipped so far (`DB_NOTFOUND`). -/
inductive Reach (K : Type) where
  | found (stop : K) (skipped : Nat)
  | beyond (skipped : Nat)
  deriving DecidableEq, Repr

/-- `get_key_after_bytes_iterate` over rows, ft/ft-ops.cc:4376-4389; `size` is the length of the key and of the latest value. -/
def walkRows (size : K → R → Nat) (skip : Nat) : Rows K R → Nat → Reach K
  | [], s => .beyond s
  | (k, r) :: rest, s => if skip < s + size k r then .found k s else walkRows size skip rest (s + size k r)

/-- `get_key_after_bytes_in_basementnode`, ft/ft-ops.cc:4391-4409. -/
def walkBasement (size : K → R → Nat) (skip : Nat) (start : Option K) (rows : Rows K R) (s : Nat) : Reach K :=
  walkRows size skip (rows.drop (leftAt rows start).1) s

/-- The loop over the basements of a leaf with `n` of them, from number `i` on, ft/ft-ops.cc:4436-4461: those in memory are walked, the
start key counting for the first only; the others are taken to have `share` bytes each. -/
def walkParts (size : K → R → Nat) (skip share n : Nat) (ps : List K) : Option K → List (Part K R) → Nat → Nat → Option (Reach K)
  | _, [], _, s => some (.beyond s)
  | start, p :: rest, i, s =>
    match p.mem with
    | some b =>
      match walkBasement size skip start b.rows s with
      | .found e s' => some (.found e s')
      | .beyond s' => walkParts size skip share n ps none rest (i + 1) s'
    | none =>
      if skip ≤ s + share ∧ i < n - 1 then (ps[i]?).map fun e => .found e (s + share)
      else walkParts size skip share n ps none rest (i + 1) (s + share)

/-- The loop over the later children of an inner node, ft/ft-ops.cc:4464-4471: a child is skipped if its share is less than what
is left, otherwise searched with `f`. -/
def walkKids {α : Type} (f : α → Nat → Option (Reach K)) (skip share : Nat) : List α → Reach K → Option (Reach K)
  | _, .found e s => some (.found e s)
  | [], .beyond s => some (.beyond s)
  | p :: rest, .beyond s =>
    if s + share < skip then walkKids f skip share rest (.beyond (s + share))
    else (f p s).bind (walkKids f skip share rest)

/-- `get_key_after_bytes_in_subtree`, ft/ft-ops.cc:4432-4479; `g` is what the search looks for. -/
def walkTree (size : K → R → Nat) (skip : Nat) (g : Goal K) : (h : Nat) → (bytes : Nat) → (start : Option K) → Node K R B h → Nat →
    Option (Reach K)
  | 0, bytes, start, l, s => do
    let n := (Leaf.parts l).length
    let i ← searchChild g none n (Leaf.pivots l)
    walkParts size skip (bytes / n) n (Leaf.pivots l) start ((Leaf.parts l).drop i) i s
  | h + 1, bytes, start, nd, s => do
    let n := (Inner.kids nd).length
    let i ← searchChild g none n (Inner.pivots nd)
    let p ← (Inner.kids nd)[i]?
    let r ← walkTree size skip g h (bytes / n) start p.2 s
    walkKids (fun p s => walkTree size skip g h (bytes / n) none p.2 s) skip (bytes / n) ((Inner.kids nd).drop (i + 1)) r

/-- The search of ft/ft-ops.cc:4508-4509. -/
def startGoal : Option K → Goal K
  | none => .first
  | some k => .atLeast k none

/-- `toku_ft_get_key_after_bytes`, ft/ft-ops.cc:4481-4529: the key and the number of bytes the callback is called with; no key is plus
infinity.  `bytes` is `in_memory_stats.numbytes`. -/
def keyAfterBytes (size : K → R → Nat) (t : Tree K R B) (bytes : Int) (start : Option K) (skip : Nat) : Option (Option K × Nat) :=
  (walkTree size skip (startGoal start) t.h bytes.toNat start t.root 0).map fun r =>
    match r with
    | .found e s => (some e, s)
    | .beyond s => (none, s)

end Verif.Tree
