import Mathlib.Order.Defs.LinearOrder

/-!
The fractal tree: nodes, message buffers, routing, message application, flushing, splitting, merging,
promotion, queries, and what writing out and evicting nodes does to all that.

What is kept.  A tree of height `h` is a value of `Node h`: a leaf for `h = 0`, otherwise an inner node whose
children are trees of height `h - 1`, each with the message buffer (`Slot`) the inner node keeps for it
(struct ftnode, ft/node.h:163-205, and struct ftnode_nonleaf_childinfo, ft/node.h:231-238).  Block numbers
are not kept: a child is found by its position.  A leaf keeps, per basement node, the rows last written to
disk and, when it is in memory, the copy there with its own maximum message sequence number (MSN) and the
`stale_ancestor_messages_applied` flag (struct ftnode_leaf_basement_node, ft/node.h:208-219).

Keys are any linear order (the comparator).  A row is any type `R`, a message body any type `B`; what a
message does to a row is given by `Sem`, an arbitrary function.  That is a simplification: in the code the
effect also depends on how much garbage may be collected at the time (C13 is about that, and Ft/Basement.lean
has the real effect of each message on a basement node).

Schedules.  Each `Op` is one step of one thread under the node locks it holds.  The flusher that starts at the
root goes down hand over hand, so that the buffers above the node it is working on were drained and new
messages injected meanwhile stay above nodes it has locked; here that is the precondition that the buffers on
the path are empty (a step of such a flusher is placed before the injections that overtook it, which commute
with it).  The cleaner thread (`cleaner := true`) starts at any inner node, with messages above it.  The
insertion that goes straight to the rightmost leaf (ft/ft-ops.cc:2147-2245) is in Right.lean.

Not kept here: crashes (C41, C46), flow and work counters, statistics, the
layout of nodes on disk, and upgrading from old layouts.
-/
namespace Verif.Tree

/-- The outcome of a step: done, not enabled in this state (nothing happens), or a failed assertion or a
read outside an array. -/
inductive Out (α : Type) where
  | ok (a : α)
  | skip
  | crash
  deriving DecidableEq, Repr

def Out.bind {α β : Type} : Out α → (α → Out β) → Out β
  | .ok a, f => f a
  | .skip, _ => .skip
  | .crash, _ => .crash

instance : Monad Out where
  pure := Out.ok
  bind := Out.bind

/-- A lookup that the code does without checking the index. -/
def need {α : Type} : Option α → Out α
  | some a => .ok a
  | none => .crash

/-- A precondition of a step. -/
def guardS (b : Bool) : Out Unit := if b then .ok () else .skip

/-- An assertion in the code. -/
def assertC (b : Bool) : Out Unit := if b then .ok () else .crash

/-- Which rows a message is for: `ft_msg_type_applies_once`, `ft_msg_type_applies_all`,
`ft_msg_type_does_nothing`, ft/msg.h:82-142. -/
inductive Kind (K : Type) where
  | once (k : K)
  | all
  | nothing
  deriving DecidableEq, Repr

/-- `ft_msg`, ft/msg.h:144-190: the sequence number, whom it is for, and the rest (type, value, transaction
ids). -/
structure Msg (K B : Type) where
  msn : Nat
  kind : Kind K
  body : B
  deriving DecidableEq, Repr

/-- Where a buffered message that is for one key is filed: in the fresh tree, in the fresh tree and marked
by a query that applied it, or in the stale tree (ft/node.h:231-238, ft/node.cc:770-808). -/
inductive Fr where
  | fresh
  | marked
  | stale
  deriving DecidableEq, Repr

/-- A message in a buffer. -/
structure Ent (K B : Type) where
  msg : Msg K B
  fr : Fr
  deriving DecidableEq, Repr

/-- The buffer an inner node keeps for one child, in the order the messages were enqueued
(`message_buffer`, ft/msg_buffer.h:42-130). -/
abbrev Slot (K B : Type) := List (Ent K B)

/-- The rows of a basement node in key order (`bn_data`, ft/bndata.h). -/
abbrev Rows (K R : Type) := List (K × R)

/-- A basement node in memory, ft/node.h:208-219. -/
structure Bn (K R : Type) where
  rows : Rows K R
  maxMsn : Nat
  staleApplied : Bool
  deriving DecidableEq, Repr

/-- A partition of a leaf: the rows on disk (meaningful while the node is clean) and the copy in memory, if
its state is PT_AVAIL (ft/node.h:221-229, 258-292). -/
structure Part (K R : Type) where
  disk : Rows K R
  mem : Option (Bn K R)
  deriving DecidableEq, Repr

/-- A leaf, ft/node.h:163-205: `msn` is `max_msn_applied_to_node_on_disk`. -/
structure Leaf (K R : Type) where
  msn : Nat
  dirty : Bool
  pivots : List K
  parts : List (Part K R)
  deriving DecidableEq, Repr

/-- An inner node, ft/node.h:163-205, with children of type `C`. -/
structure Inner (K B C : Type) where
  msn : Nat
  pivots : List K
  kids : List (Slot K B × C)
  deriving DecidableEq, Repr

/-- Nodes by height. -/
def Node (K R B : Type) : Nat → Type
  | 0 => Leaf K R
  | h + 1 => Inner K B (Node K R B h)

/-- What messages do to rows, and the sizes that decide where leaves are cut: `one` is a message for a key
on the row of that key (`toku_ft_bn_apply_msg_once`, ft/node.cc:1100-1230, and `do_update`), `each` a
broadcast on every row there is (ft/node.cc:1500-1640), `cutSize` the size a row counts for when basements
are rebalanced (ft/node.cc:893-910), `splitSize` when a leaf is split (ft/ft-flusher.cc:586-590). -/
structure Sem (K R B : Type) where
  one : B → K → Option R → Option R
  each : B → K → R → Option R
  cutSize : K → R → Nat
  splitSize : K → R → Nat

variable {K R B : Type} [LinearOrder K]

/-! ### Routing -/

/-- The binary search of `toku_ftnode_which_child`, ft/node.cc:1783-1799; `none` is a read past the pivots. -/
def searchPivots (ps : List K) (k : K) : Nat → Nat → Nat → Option Nat
  | 0, lo, _ => some lo
  | fuel + 1, lo, hi =>
    if lo < hi then
      let mi := (lo + hi) / 2
      match ps[mi]? with
      | none => none
      | some p =>
        if p < k then searchPivots ps k fuel (mi + 1) hi
        else if k < p then searchPivots ps k fuel lo mi
        else some mi
    else some lo

/-- `toku_ftnode_which_child`, ft/node.cc:1769-1800, for a node of `n` children. -/
def whichChild (n : Nat) (ps : List K) (k : K) : Option Nat :=
  if n ≤ 1 then some 0
  else
    match ps[n - 2]? with
    | none => none
    | some p => if p < k then some (n - 1) else searchPivots ps k n 0 (n - 2)

/-- `toku_ftnode_hot_next_child`, ft/node.cc:1803-1823. -/
def hotSearch (ps : List K) (k : K) : Nat → Nat → Nat → Option Nat
  | 0, lo, _ => some lo
  | fuel + 1, lo, hi =>
    if lo < hi then
      let mi := (lo + hi) / 2
      match ps[mi]? with
      | none => none
      | some p =>
        if p < k then hotSearch ps k fuel (mi + 1) hi
        else if k < p then hotSearch ps k fuel lo mi
        else some (mi + 1)
    else some lo

def hotNextChild (n : Nat) (ps : List K) (k : K) : Option Nat := hotSearch ps k n 0 (n - 1)

/-- `pivot_bounds::_prepivotkey`, ft/ft-ops.cc:292-298: the bound a child's keys must exceed. -/
def childLo (lo : Option K) (ps : List K) (i : Nat) : Option K :=
  if i = 0 then lo else ps[i - 1]?

/-- `pivot_bounds::_postpivotkey`, ft/ft-ops.cc:300-306: the bound a child's keys must not exceed. -/
def childHi (hi : Option K) (ps : List K) (n i : Nat) : Option K :=
  if i + 1 = n then hi else ps[i]?

/-- A key is above the exclusive lower bound; no bound is minus infinity. -/
def aboveLo (lo : Option K) (k : K) : Bool :=
  match lo with
  | none => true
  | some a => decide (a < k)

/-- A key is within the inclusive upper bound; no bound is plus infinity. -/
def belowHi (hi : Option K) (k : K) : Bool :=
  match hi with
  | none => true
  | some a => decide (k ≤ a)

/-! ### Rows -/

/-- Find a row by key. -/
def lookup : Rows K R → K → Option R
  | [], _ => none
  | (k', r) :: rs, k => if k = k' then some r else lookup rs k

/-- Put a row in its place, replace it, or take it out (`bn_data`: get_space_for_insert,
get_space_for_overwrite, delete_leafentry, ft/bndata.cc). -/
def setRow : Rows K R → K → Option R → Rows K R
  | [], k, some r => [(k, r)]
  | [], _, none => []
  | (k', r') :: rs, k, v =>
    if k < k' then
      match v with
      | some r => (k, r) :: (k', r') :: rs
      | none => (k', r') :: rs
    else if k = k' then
      match v with
      | some r => (k, r) :: rs
      | none => rs
    else (k', r') :: setRow rs k v

/-- `toku_ft_bn_apply_msg`, ft/node.cc:1376-1660, on the rows. -/
def applyMsg (sem : Sem K R B) (rows : Rows K R) (m : Msg K B) : Rows K R :=
  match m.kind with
  | .once k => setRow rows k (sem.one m.body k (lookup rows k))
  | .all => rows.filterMap fun p => (sem.each m.body p.1 p.2).map fun r => (p.1, r)
  | .nothing => rows

/-! ### Message buffers -/

def Kind.isOnce : Kind K → Bool
  | .once _ => true
  | _ => false

/-- Order of the message trees: by key, then MSN (`toku_msg_buffer_key_msn_heaviside`, `key_msn_cmp`,
ft/node.cc:1660-1690).  Only messages for one key are in these trees; the last three cases make the order
total. -/
def keyMsnLe (a b : Ent K B) : Bool :=
  match a.msg.kind, b.msg.kind with
  | .once ka, .once kb => if ka < kb then true else if kb < ka then false else decide (a.msg.msn ≤ b.msg.msn)
  | .once _, _ => false
  | _, .once _ => true
  | _, _ => decide (a.msg.msn ≤ b.msg.msn)

def msnLe (a b : Ent K B) : Bool := decide (a.msg.msn ≤ b.msg.msn)

/-- Insertion into a sorted list: the trees are OMTs kept in order by insertion. -/
def insertBy {α : Type} (le : α → α → Bool) (x : α) : List α → List α
  | [] => [x]
  | y :: ys => if le x y then x :: y :: ys else y :: insertBy le x ys

/-- Sorted by `le`: the order in which an OMT is iterated, and the result of `mergesort_r`. -/
def sortBy {α : Type} (le : α → α → Bool) : List α → List α
  | [] => []
  | x :: xs => insertBy le x (sortBy le xs)

/-- `fresh_message_tree` in order (marked entries are still in it). -/
def freshTree (s : Slot K B) : List (Ent K B) :=
  sortBy keyMsnLe (s.filter fun e => e.msg.kind.isOnce && decide (e.fr ≠ .stale))

/-- `stale_message_tree` in order. -/
def staleTree (s : Slot K B) : List (Ent K B) :=
  sortBy keyMsnLe (s.filter fun e => e.msg.kind.isOnce && decide (e.fr = .stale))

/-- `broadcast_list`: in the order inserted (ft/node.cc:1722-1727). -/
def broadcasts (s : Slot K B) : List (Ent K B) := s.filter fun e => !e.msg.kind.isOnce

/-- An entry's key is not above the exclusive lower bound, or is for no key in particular (never in a
message tree). -/
def notAboveLo (lo : Option K) (e : Ent K B) : Bool :=
  match e.msg.kind with
  | .once k => !aboveLo lo k
  | _ => false

def withinHi (hi : Option K) (e : Ent K B) : Bool :=
  match e.msg.kind with
  | .once k => belowHi hi k
  | _ => false

/-- `find_bounds_within_message_tree`, ft/node.cc:304-375: the part of a message tree from the first entry
above every message for the lower bound key to the last one for the upper bound key. -/
def rangeOf (lo hi : Option K) (t : List (Ent K B)) : List (Ent K B) :=
  (t.dropWhile (notAboveLo lo)).takeWhile (withinHi hi)

/-- `do_bn_apply_msg`, ft/node.cc:218-252: the basement's MSN is not moved while a buffer is applied. -/
def applyEnts (sem : Sem K R B) (bound : Nat) (rows : Rows K R) : List (Ent K B) → Rows K R
  | [] => rows
  | e :: es =>
    applyEnts sem bound (if bound < e.msg.msn then applyMsg sem rows e.msg else rows) es

/-- The messages `bnc_apply_messages_to_basement_node` applies, in its order, ft/node.cc:402-500: stale ones
only if they were not all applied before; sorted by MSN when there are broadcasts or both kinds, otherwise
in the order of the one tree. -/
def toApply (lo hi : Option K) (staleApplied : Bool) (s : Slot K B) : List (Ent K B) :=
  let st := if staleApplied then [] else rangeOf lo hi (staleTree s)
  let fr := rangeOf lo hi (freshTree s)
  let bc := broadcasts s
  if !bc.isEmpty || (!st.isEmpty && !fr.isEmpty) then sortBy msnLe (st ++ fr ++ bc)
  else if st.isEmpty then fr
  else st

/-- Is this entry one that applying the buffer to a basement with these bounds marks?  Fresh ones in range
by `iterate_and_mark_range`, and `set_freshness` on whatever was applied, ft/node.cc:245-251, 430-500. -/
def touched (lo hi : Option K) (e : Ent K B) : Bool :=
  match e.msg.kind with
  | .once k => aboveLo lo k && belowHi hi k && decide (e.fr = .fresh)
  | _ => decide (e.fr = .fresh)

def markSlot (lo hi : Option K) (s : Slot K B) : Slot K B :=
  s.map fun e => if touched lo hi e then { e with fr := .marked } else e

/-- An ancestor on the path of a query: its MSN and the buffer it keeps for the next node on the path
(struct ancestors, ft/node.h). -/
structure Frame (K B : Type) where
  msn : Nat
  slot : Slot K B
  deriving DecidableEq, Repr

/-- One ancestor of `apply_ancestors_messages_to_bn`, ft/node.cc:543-560. -/
def applyFrame (sem : Sem K R B) (lo hi : Option K) (b : Bn K R) (f : Frame K B) : Bn K R × Frame K B :=
  if b.maxMsn < f.msn then
    ({ b with rows := applyEnts sem b.maxMsn b.rows (toApply lo hi b.staleApplied f.slot), maxMsn := f.msn },
     { f with slot := markSlot lo hi f.slot })
  else (b, f)

/-- The loop of `apply_ancestors_messages_to_bn`, nearest ancestor first. -/
def applyFrames (sem : Sem K R B) (lo hi : Option K) (b : Bn K R) : List (Frame K B) → Bn K R × List (Frame K B)
  | [] => (b, [])
  | f :: fs =>
    let (b1, f1) := applyFrame sem lo hi b f
    let (b2, fs2) := applyFrames sem lo hi b1 fs
    (b2, f1 :: fs2)

/-- `apply_ancestors_messages_to_bn`, ft/node.cc:531-567. -/
def applyAncestors (sem : Sem K R B) (lo hi : Option K) (b : Bn K R) (fs : List (Frame K B)) :
    Bn K R × List (Frame K B) :=
  let (b1, fs1) := applyFrames sem lo hi b fs
  ({ b1 with staleApplied := true }, fs1)

/-- `bn_needs_ancestors_messages`, ft/node.cc:632-682: are there messages to apply, and otherwise the maximum
MSN met on the path so far. -/
def bnNeeds (lo hi : Option K) (b : Bn K R) : List (Frame K B) → Nat → Bool × Nat
  | [], mx => (false, mx)
  | f :: fs, mx =>
    if b.maxMsn < f.msn then
      if !(broadcasts f.slot).isEmpty then (true, mx)
      else if !b.staleApplied && !(rangeOf lo hi (staleTree f.slot)).isEmpty then (true, mx)
      else if !(rangeOf lo hi (freshTree f.slot)).isEmpty then (true, mx)
      else bnNeeds lo hi b fs (max mx f.msn)
    else bnNeeds lo hi b fs mx

/-! ### Leaves -/

/-- A basement just read from disk: `setup_available_ftnode_partition` with `toku_create_empty_bn`,
ft/serialize/ft_node-serialize.cc:1270-1276 and 1012-1020. -/
def loadPart (msn : Nat) (p : Part K R) : Part K R :=
  match p.mem with
  | some _ => p
  | none => { p with mem := some { rows := p.disk, maxMsn := msn, staleApplied := false } }

/-- `bring_node_fully_into_memory`, ft/ft-flusher.cc:960-974. -/
def loadLeaf (l : Leaf K R) : Leaf K R := { l with parts := l.parts.map (loadPart l.msn) }

/-- Apply a message to one basement in memory if it is newer, ft/node.cc:2115-2140. -/
def bnPut (sem : Sem K R B) (m : Msg K B) (p : Part K R) : Part K R :=
  match p.mem with
  | none => p
  | some b =>
    if b.maxMsn < m.msn then
      { p with mem := some { b with rows := applyMsg sem b.rows m, maxMsn := m.msn } }
    else p

/-- `toku_ft_leaf_apply_msg`, ft/node.cc:2060-2149; the leaf is fully in memory. -/
def leafPut (sem : Sem K R B) (l : Leaf K R) (m : Msg K B) : Out (Leaf K R) :=
  let l1 := { l with dirty := true, msn := max l.msn m.msn }
  match m.kind with
  | .once k => do
    let i ← need (whichChild l.parts.length l.pivots k)
    let p ← need l.parts[i]?
    .ok { l1 with parts := l.parts.set i (bnPut sem m p) }
  | .all => .ok { l1 with parts := l.parts.map (bnPut sem m) }
  | .nothing => .ok l1

/-- `maybe_destroy_child_blbs`, ft/ft-flusher.cc:130-147: a clean leaf of several basements loses those that
are ahead of the parent. -/
def destroyAhead (parentMsn : Nat) (l : Leaf K R) : Leaf K R :=
  if 1 < l.parts.length && !l.dirty then
    { l with parts := l.parts.map fun p =>
        match p.mem with
        | some b => if parentMsn < b.maxMsn then { p with mem := none } else p
        | none => p }
  else l

/-- The rows in memory of every basement, in order. -/
def leafRows (l : Leaf K R) : Rows K R := l.parts.flatMap fun p => (p.mem.map (·.rows)).getD []

/-- Where `toku_ftnode_leaf_rebalance` cuts, ft/node.cc:889-910: a group is closed before a row that would
take it over the limit, unless it is empty.  `size` is what the current group counts for. -/
def cutRows (sem : Sem K R B) (limit : Nat) : Rows K R → Nat → Rows K R → List (Rows K R)
  | cur, _, [] => [cur]
  | cur, size, (k, r) :: rs =>
    if limit < size + sem.cutSize k r && !cur.isEmpty then
      cur :: cutRows sem limit [(k, r)] (sem.cutSize k r) rs
    else cutRows sem limit (cur ++ [(k, r)]) (size + sem.cutSize k r) rs

/-- The last key of a group of rows. -/
def lastKey? (rows : Rows K R) : Option K := rows.getLast?.map (·.1)

/-- The largest MSN of the basements in memory, ft/node.cc:925-929. -/
def maxBnMsn (ps : List (Part K R)) : Nat :=
  ps.foldl (fun a p => max a ((p.mem.map (·.maxMsn)).getD 0)) 0

/-- `toku_ftnode_leaf_rebalance`, ft/node.cc:830-1010, and writing the leaf out after it
(`toku_ftnode_clone_callback` and `toku_ftnode_flush_callback`, ft/ft-ops.cc:629-780): the disk then holds
what memory holds and the leaf is clean. -/
def writeLeaf (sem : Sem K R B) (limit : Nat) (l : Leaf K R) : Leaf K R :=
  let groups := cutRows sem limit [] 0 (leafRows l)
  let mx := maxBnMsn l.parts
  { msn := mx
    dirty := false
    pivots := groups.dropLast.filterMap lastKey?
    parts := groups.map fun g =>
      { disk := g, mem := some { rows := g, maxMsn := mx, staleApplied := false } } }

/-- Replace the basement in memory of one partition. -/
def setMem (p : Part K R) (b : Bn K R) : Part K R := { p with mem := some b }

/-- Apply the ancestors to every partition in memory, starting at number `i`, ft/node.cc:600-622. -/
def applyAll (sem : Sem K R B) (lo hi : Option K) (ps : List K) (n : Nat) :
    Nat → List (Part K R) → List (Frame K B) → List (Part K R) × List (Frame K B)
  | _, [], fs => ([], fs)
  | i, p :: rest, fs =>
    match p.mem with
    | none =>
      let (rest', fs') := applyAll sem lo hi ps n (i + 1) rest fs
      (p :: rest', fs')
    | some b =>
      let (b', fs1) := applyAncestors sem (childLo lo ps i) (childHi hi ps n i) b fs
      let (rest', fs') := applyAll sem lo hi ps n (i + 1) rest fs1
      (setMem p b' :: rest', fs')

/-- Does any basement in memory need messages, ft/node.cc:716-732. -/
def anyNeeds (lo hi : Option K) (ps : List K) (n : Nat) : Nat → List (Part K R) → List (Frame K B) → Bool
  | _, [], _ => false
  | i, p :: rest, fs =>
    (match p.mem with
     | none => false
     | some b => (bnNeeds (childLo lo ps i) (childHi hi ps n i) b fs 0).1) ||
    anyNeeds lo hi ps n (i + 1) rest fs

/-- `toku_pin_ftnode_for_query` on a leaf of which basement `j` is read, ft/ft-cachetable-wrappers.cc:148-255:
the basement is brought into memory if it is not there; if messages of the ancestors are missing they are
applied, to that basement if the leaf is clean and to all of them if it is dirty
(`toku_apply_ancestors_messages_to_node`, ft/node.cc:570-630); otherwise the basement of a clean leaf learns
the largest MSN of the path (`toku_ft_bn_update_max_msn`, ft/node.cc:737-765). -/
def readLeaf (sem : Sem K R B) (lo hi : Option K) (l : Leaf K R) (j : Nat) (fs : List (Frame K B)) :
    Out (Rows K R × Leaf K R × List (Frame K B)) := do
  let p0 ← match l.parts[j]? with
    | none => .skip
    | some p => .ok (loadPart l.msn p)
  let parts := l.parts.set j p0
  let b ← need p0.mem
  let n := l.parts.length
  if l.dirty then
    if anyNeeds lo hi l.pivots n 0 parts fs then
      let (parts', fs') := applyAll sem lo hi l.pivots n 0 parts fs
      let p ← need parts'[j]?
      let b' ← need p.mem
      .ok (b'.rows, { l with parts := parts' }, fs')
    else .ok (b.rows, { l with parts := parts }, fs)
  else
    let lo' := childLo lo l.pivots j
    let hi' := childHi hi l.pivots n j
    let (nd, mx) := bnNeeds lo' hi' b fs 0
    if nd then
      let (b', fs') := applyAncestors sem lo' hi' b fs
      .ok (b'.rows, { l with parts := l.parts.set j (setMem p0 b') }, fs')
    else
      let b' := { b with maxMsn := max b.maxMsn mx }
      .ok (b'.rows, { l with parts := l.parts.set j (setMem p0 b') }, fs)

/-! ### Queries -/

/-- The descent of a query (`ft_search_node`, ft/ft-ops.cc:3560-3850): `route` names the child taken at each
inner node and the basement of the leaf.  The ancestors are carried along, and the buffers come back with the
marks the query left. -/
def readAt (sem : Sem K R B) : (h : Nat) → (lo hi : Option K) → (fs : List (Frame K B)) → (route : List Nat) →
    Node K R B h → Out (Rows K R × Node K R B h × List (Frame K B))
  | 0, lo, hi, fs, [j], l => readLeaf sem lo hi l j fs
  | 0, _, _, _, _, _ => .skip
  | _ + 1, _, _, _, [], _ => .skip
  | h + 1, lo, hi, fs, i :: route, n =>
    match n.kids[i]? with
    | none => .skip
    | some (s, c) => do
      let (rows, c', fs') ← readAt sem h (childLo lo n.pivots i) (childHi hi n.pivots n.kids.length i)
        (⟨n.msn, s⟩ :: fs) route c
      match fs' with
      | [] => .crash
      | f :: fs'' => .ok (rows, { n with kids := n.kids.set i (f.slot, c') }, fs'')

/-- The route of a point query, by `toku_ftnode_which_child` at every node. -/
def routeOf (k : K) : (h : Nat) → Node K R B h → Option (List Nat)
  | 0, l => (whichChild l.parts.length l.pivots k).map fun j => [j]
  | h + 1, n =>
    match whichChild n.kids.length n.pivots k with
    | none => none
    | some i =>
      match n.kids[i]? with
      | none => none
      | some (_, c) => (routeOf k h c).map (i :: ·)

/-! ### Putting messages -/

/-- What a message carries of its freshness when it is flushed: the flag in the buffer, which a marked
message has lost (ft/node.cc:245-251, ft/ft-flusher.cc:1590-1605). -/
def Fr.flag : Fr → Fr
  | .fresh => .fresh
  | _ => .stale

/-- `ft_nonleaf_put_msg`, ft/node.cc:1843-1875. -/
def innerPut {C : Type} (n : Inner K B C) (e : Ent K B) : Out (Inner K B C) := do
  assertC (decide (n.msn < e.msg.msn))
  match e.msg.kind with
  | .once k => do
    let i ← need (whichChild n.kids.length n.pivots k)
    let (s, c) ← need n.kids[i]?
    .ok { n with msn := e.msg.msn, kids := n.kids.set i (s ++ [e], c) }
  | .all => .ok { n with msn := e.msg.msn, kids := n.kids.map fun p => (p.1 ++ [e], p.2) }
  | .nothing => .ok { n with msn := e.msg.msn }

/-- `toku_ftnode_put_msg`, ft/node.cc:2012-2055, on a node fully in memory. -/
def putNode (sem : Sem K R B) : (h : Nat) → Node K R B h → Ent K B → Out (Node K R B h)
  | 0, l, e => leafPut sem l e.msg
  | _ + 1, n, e => innerPut n e

/-- `toku_bnc_flush_to_child`, ft/ft-flusher.cc:1545-1625: the messages one after the other. -/
def putAll (sem : Sem K R B) (h : Nat) : Node K R B h → List (Ent K B) → Out (Node K R B h)
  | c, [] => .ok c
  | c, e :: es => do
    let c' ← putNode sem h c { e with fr := e.fr.flag }
    putAll sem h c' es

/-- Make a node fully resident, dirty it, and before that, for the cleaner, throw away basements ahead of
the parent, ft/ft-flusher.cc:1410-1480.  A leaf is dirtied even when its buffer is empty
(`parent->height == 1`, line 1435). -/
def prepareChild : (h : Nat) → (cleaner : Bool) → (parentMsn : Nat) → Node K R B h → Node K R B h
  | 0, cleaner, pm, l =>
    let l1 : Leaf K R := loadLeaf (if cleaner then destroyAhead pm l else l)
    ({ l1 with dirty := true } : Leaf K R)
  | _ + 1, _, _, n => n

/-- Make a node fully resident (`create_for_full_read`, ft/ft-flusher.cc:1272-1284). -/
def loadNode : (h : Nat) → Node K R B h → Node K R B h
  | 0, l => loadLeaf l
  | _ + 1, n => n

/-- Draining one buffer into its child: `toku_ft_flush_some_child` and `flush_this_child`,
ft/ft-flusher.cc:976-1003 and 1430-1500.  A flusher other than the cleaner has drained the path above
(`pathEmpty`). -/
def flushChild (sem : Sem K R B) (h : Nat) (cleaner : Bool) (i : Nat) (pathEmpty _right : Bool)
    (n : Inner K B (Node K R B h)) : Out (Inner K B (Node K R B h)) := do
  guardS (cleaner || pathEmpty)
  match n.kids[i]? with
  | none => .skip
  | some (s, c) => do
    let c' ← putAll sem h (prepareChild h cleaner n.msn c) s
    .ok { n with kids := n.kids.set i ([], c') }

/-- Injecting a message: `toku_ft_root_put_msg`, `push_something_in_subtree`, `inject_message_in_locked_node`,
ft/ft-ops.cc:1435-1523, 1693-2016.  A message for one key may be promoted, at most `depth` levels here (how
far is decided by heuristics), past empty buffers only; a broadcast stays at the root. -/
def inject (sem : Sem K R B) : (h : Nat) → (depth : Nat) → Node K R B h → Ent K B → Out (Node K R B h)
  | 0, _, l, e => leafPut sem (loadLeaf l) e.msg
  | _ + 1, 0, n, e => innerPut n e
  | h + 1, d + 1, n, e =>
    match e.msg.kind with
    | .once k => do
      let i ← need (whichChild n.kids.length n.pivots k)
      let (s, c) ← need n.kids[i]?
      if s.isEmpty then
        let c' ← inject sem h d c e
        .ok { n with kids := n.kids.set i (s, c') }
      else innerPut n e
    | _ => innerPut n e

/-! ### Splitting -/

/-- `enum split_mode`, ft/ft-flusher.h. -/
inductive Mode where
  | evenly
  | leftHeavy
  | rightHeavy
  deriving DecidableEq, Repr

/-- The loop of the even case of `ftleaf_get_split_loc`, ft/ft-flusher.cc:586-615: number of basements to the
left and of rows in the last of them. -/
def evenLoc (sem : Sem K R B) (half : Nat) : Nat → Nat → Nat → Rows K R → Option (Nat × Nat) ⊕ Nat
  | _, _, acc, [] => .inr acc
  | i, j, acc, (k, r) :: rs =>
    let acc' := acc + sem.splitSize k r
    if half ≤ acc' then .inl (some (i + 1, j + 1)) else evenLoc sem half i (j + 1) acc' rs

def evenLocs (sem : Sem K R B) (half : Nat) : Nat → Nat → List (Rows K R) → Option (Nat × Nat)
  | _, _, [] => none
  | i, acc, b :: bs =>
    match evenLoc sem half i 0 acc b with
    | .inl x => x
    | .inr acc' => evenLocs sem half (i + 1) acc' bs

def splitSum (sem : Sem K R B) (bs : List (Rows K R)) : Nat :=
  (bs.map fun b => (b.map fun p => sem.splitSize p.1 p.2).sum).sum

/-- `ftleaf_get_split_loc`, ft/ft-flusher.cc:560-625, on the rows of the basements; `none` is abort() or a
read outside. -/
def splitLoc (sem : Sem K R B) (mode : Mode) (bs : List (Rows K R)) : Option (Nat × Nat) :=
  match mode with
  | .leftHeavy =>
    match bs[bs.length - 1]? with
    | none => none
    | some b =>
      if b.length = 0 then
        if bs.length < 2 then none
        else (bs[bs.length - 2]?).map fun b' => (bs.length - 1, b'.length)
      else some (bs.length, b.length)
  | .rightHeavy => (bs[0]?).map fun b => (1, if b.length = 0 then 0 else 1)
  | .evenly =>
    match evenLocs sem (splitSum sem bs / 2) 0 0 bs with
    | none => none
    | some (nb, nl) =>
      match bs[nb - 1]? with
      | none => none
      | some b =>
        if nb = bs.length ∧ nl = b.length then
          if 1 < nl then some (nb, nl - 1)
          else if 1 < nb then (bs[nb - 2]?).map fun b' => (nb - 1, b'.length)
          else none
        else some (nb, nl)

/-- An empty basement: `toku_create_empty_bn`, ft/serialize/ft_node-serialize.cc:1012-1030. -/
def emptyPart : Part K R := { disk := [], mem := some { rows := [], maxMsn := 0, staleApplied := false } }

/-- `move_leafentries` and the MSN of the new basement, ft/ft-flusher.cc:776-790: what stays and what goes
right. -/
def cutPart (p : Part K R) (nl : Nat) : Part K R × Part K R :=
  match p.mem with
  | none => (p, p)
  | some b =>
    ({ p with mem := some { b with rows := b.rows.take nl } },
     { disk := [], mem := some { rows := b.rows.drop nl, maxMsn := b.maxMsn, staleApplied := false } })

def partRows (p : Part K R) : Rows K R := (p.mem.map (·.rows)).getD []

/-- `ftleaf_split` at a given place, ft/ft-flusher.cc:655-852: `nb` basements to the left, `nl` rows in the
last of them.  On a boundary the left node keeps the pivot that becomes the split key. -/
def splitLeafAt (l : Leaf K R) (nb nl : Nat) : Out (Leaf K R × Leaf K R × K) := do
  let p ← need l.parts[nb - 1]?
  let boundary : Bool := nl = 0 || nl = (partRows p).length
  let left := if boundary then l.parts.take nb else l.parts.take (nb - 1) ++ [(cutPart p nl).1]
  let right0 := if boundary then l.parts.drop nb else (cutPart p nl).2 :: l.parts.drop nb
  let right := if right0.isEmpty then [emptyPart] else right0
  let at_ := if boundary then nb else nb - 1
  let lp := l.pivots.take at_
  let rp := l.pivots.drop at_
  let k ← if boundary && decide (nb < l.parts.length) then need lp[nb - 1]?
    else do
      let q ← need left[nb - 1]?
      need (lastKey? (partRows q))
  .ok ({ l with dirty := true, pivots := lp, parts := left },
       { l with dirty := true, pivots := rp, parts := right }, k)

/-- `ftleaf_split`, ft/ft-flusher.cc:655-852, with `ftleaf_get_split_loc`. -/
def splitLeaf (sem : Sem K R B) (mode : Mode) (l : Leaf K R) : Out (Leaf K R × Leaf K R × K) := do
  let (nb, nl) ← need (splitLoc sem mode (l.parts.map partRows))
  splitLeafAt l nb nl

/-- `ft_nonleaf_split`, ft/ft-flusher.cc:854-902. -/
def splitInner {C : Type} (n : Inner K B C) : Out (Inner K B C × Inner K B C × K) := do
  let na := n.kids.length / 2
  let k ← need n.pivots[na - 1]?
  .ok ({ n with pivots := (n.pivots.take na).dropLast, kids := n.kids.take na },
       { n with pivots := n.pivots.drop na, kids := n.kids.drop na }, k)

/-- The child is in memory and fissible: a leaf of more than one row
(`toku_ftnode_get_leaf_reactivity`, ft/node.cc:1036-1049), an inner node of more than one child (its fanout is
at least that).  A left-heavy split is only asked for by an insertion that promotes past empty buffers, and
only of the last child of the last node of every level (`RIGHT_EXTREME`, ft/ft-ops.cc:1555-1590,
1860-1875).  A flusher with messages above it is the cleaner, which has just flushed to the leaf and so
dirtied it. -/
def splitNode (sem : Sem K R B) : (h : Nat) → (mode : Mode) → (pathEmpty right : Bool) → Node K R B h →
    Out (Node K R B h × Node K R B h × K)
  | 0, mode, e, r, l => do
    let l1 := loadLeaf l
    guardS (decide (1 < (leafRows l1).length) && (decide (mode ≠ .leftHeavy) || (e && r)) && (l.dirty || e))
    splitLeaf sem mode l1
  | _ + 1, _, _, _, n => do
    guardS (decide (1 < n.kids.length))
    splitInner n

/-- `ft_split_child` and `handle_split_of_child`, ft/ft-flusher.cc:455-545, 915-958: the buffer of the child
is empty, the right half gets an empty buffer after it, the split key goes between. -/
def splitChild (sem : Sem K R B) (h : Nat) (mode : Mode) (i : Nat) (pathEmpty right : Bool)
    (n : Inner K B (Node K R B h)) : Out (Inner K B (Node K R B h)) :=
  match n.kids[i]? with
  | none => .skip
  | some (s, c) => do
    guardS s.isEmpty
    let (a, b, k) ← splitNode sem h mode pathEmpty (right && decide (i + 1 = n.kids.length)) c
    .ok { n with pivots := n.pivots.take i ++ k :: n.pivots.drop i
                 kids := n.kids.take i ++ (s, a) :: ([], b) :: n.kids.drop (i + 1) }

/-! ### Merging -/

/-- What `maybe_merge_pinned_leaf_nodes` decides from the sizes, ft/ft-flusher.cc:1085-1125. -/
inductive Act where
  | merge
  | rebalance
  | nothing
  deriving DecidableEq, Repr

/-- `merge_leaf_nodes`, ft/ft-flusher.cc:1005-1068. -/
def mergeLeaves (a b : Leaf K R) : Out (Leaf K R) := do
  let p ← need a.parts.getLast?
  match lastKey? (partRows p) with
  | some k =>
    let i := a.parts.length - 1
    let ps := if i < a.pivots.length then a.pivots.set i k else a.pivots ++ [k]
    .ok { a with dirty := true, pivots := ps ++ b.pivots, parts := a.parts ++ b.parts }
  | none =>
    let i := a.parts.length - 1
    let ps := if i < a.pivots.length then a.pivots.eraseIdx i else a.pivots
    .ok { a with dirty := true, pivots := ps ++ b.pivots, parts := a.parts.dropLast ++ b.parts }

/-- `maybe_merge_pinned_nonleaf_nodes`, ft/ft-flusher.cc:1127-1160. -/
def mergeInners {C : Type} (a b : Inner K B C) (k : K) : Inner K B C :=
  { a with pivots := a.pivots ++ k :: b.pivots, kids := a.kids ++ b.kids }

/-- The result of `maybe_merge_pinned_nodes`, ft/ft-flusher.cc:1162-1220. -/
inductive Merged (C K : Type) where
  | one (c : C)
  | two (a b : C) (k : K)

/-- `maybe_merge_pinned_nodes`; a rebalance is `merge_leaf_nodes` and an even split
(`balance_leaf_nodes`, ft/ft-flusher.cc:1070-1083), only for more than one row. -/
def mergeNodes (sem : Sem K R B) : (h : Nat) → Act → Node K R B h → Node K R B h → K →
    Out (Merged (Node K R B h) K)
  | 0, act, a, b, k =>
    let mx := max a.msn b.msn
    match act with
    | .merge => do
      let c ← mergeLeaves a b
      .ok (.one ({ c with msn := mx } : Leaf K R))
    | .rebalance => do
      guardS (decide (1 < (leafRows a).length + (leafRows b).length))
      let c ← mergeLeaves a b
      let (a', b', k') ← splitLeaf sem .evenly c
      .ok (.two ({ a' with msn := mx } : Leaf K R) ({ b' with msn := mx } : Leaf K R) k')
    | .nothing => .ok (.two a b k)
  | _ + 1, _, a, b, k =>
    .ok (.one { mergeInners a b k with msn := max a.msn b.msn })

/-- `ft_merge_child`, ft/ft-flusher.cc:1240-1385: both buffers are drained into their nodes, then the nodes
are merged or rebalanced.  The cleaner merges inner nodes only (`ct_maybe_merge_child`,
ft/ft-flusher.cc:330-395, restarts from the root for leaves). -/
def mergeChildren (sem : Sem K R B) (h : Nat) (act : Act) (i : Nat) (pathEmpty _right : Bool)
    (n : Inner K B (Node K R B h)) : Out (Inner K B (Node K R B h)) :=
  match n.kids[i]?, n.kids[i + 1]? with
  | some (sa, ca), some (sb, cb) => do
    guardS (pathEmpty || decide (h ≠ 0))
    let a ← putAll sem h (loadNode h ca) sa
    let b ← putAll sem h (loadNode h cb) sb
    let k ← need n.pivots[i]?
    let m ← mergeNodes sem h act a b k
    match m with
    | .one c =>
      .ok { n with pivots := n.pivots.eraseIdx i
                   kids := n.kids.take i ++ ([], c) :: n.kids.drop (i + 2) }
    | .two a' b' k' =>
      .ok { n with pivots := n.pivots.set i k'
                   kids := n.kids.take i ++ ([], a') :: ([], b') :: n.kids.drop (i + 2) }
  | _, _ => .skip

/-! ### Writing out, evicting, reading back -/

/-- Throw away the memory copies of a clean leaf (eviction of the node, or of some basements:
`toku_ftnode_pe_callback`, ft/ft-ops.cc:925-1075, and `toku_evict_bn_from_memory`). -/
def evictParts (which : Nat → Bool) (l : Leaf K R) : Out (Leaf K R) := do
  guardS (!l.dirty)
  .ok { l with parts := l.parts.mapIdx fun i p => if which i then { p with mem := none } else p }

/-- Write a dirty leaf out. -/
def writeOut (sem : Sem K R B) (limit : Nat) (l : Leaf K R) : Out (Leaf K R) := do
  guardS l.dirty
  .ok (writeLeaf sem limit l)

/-- `toku_ft_bnc_move_messages_to_stale`, ft/node.cc:785-808: marked messages move to the stale tree.  It also
happens when a buffer is written with its freshness flags and read back. -/
def moveStale {C : Type} (n : Inner K B C) : Inner K B C :=
  { n with kids := n.kids.map fun p =>
      (p.1.map fun e => if e.fr = .marked then { e with fr := .stale } else e, p.2) }

/-- A clean inner node is dropped and read back as it was last written: messages applied since then are fresh
again; which ones, `which` says (by child and position). -/
def reread {C : Type} (which : Nat → Nat → Bool) (n : Inner K B C) : Inner K B C :=
  { n with kids := n.kids.mapIdx fun i p =>
      (p.1.mapIdx fun j e => if which i j then { e with fr := .fresh } else e, p.2) }

/-! ### The tree and its steps -/

/-- Do something to the inner node at the end of a path, telling it whether every buffer on the way was
empty and whether every step was to the last child. -/
def atInner (f : (h : Nat) → Bool → Bool → Inner K B (Node K R B h) → Out (Inner K B (Node K R B h))) :
    (h : Nat) → (path : List Nat) → (pathEmpty right : Bool) → Node K R B h → Out (Node K R B h)
  | 0, _, _, _, _ => .skip
  | h + 1, [], e, r, n => f h e r n
  | h + 1, i :: path, e, r, n =>
    match n.kids[i]? with
    | none => .skip
    | some (s, c) => do
      let c' ← atInner f h path (e && s.isEmpty) (r && decide (i + 1 = n.kids.length)) c
      .ok ({ n with kids := n.kids.set i (s, c') } : Inner K B (Node K R B h))

/-- Do something to the leaf at the end of a path. -/
def atLeaf (f : Leaf K R → Out (Leaf K R)) : (h : Nat) → (path : List Nat) → Node K R B h → Out (Node K R B h)
  | 0, [], l => f l
  | 0, _ :: _, _ => .skip
  | _ + 1, [], _ => .skip
  | h + 1, i :: path, n =>
    match n.kids[i]? with
    | none => .skip
    | some (s, c) => do
      let c' ← atLeaf f h path c
      .ok ({ n with kids := n.kids.set i (s, c') } : Inner K B (Node K R B h))

/-- A dictionary: its height, root and `max_msn_in_ft`. -/
structure Tree (K R B : Type) where
  h : Nat
  root : Node K R B h
  maxMsn : Nat

/-- A new dictionary: an empty leaf, `toku_initialize_empty_ftnode`, ft/node.cc:48-83. -/
def Tree.empty : Tree K R B :=
  { h := 0
    root := ({ msn := 0, dirty := true, pivots := [], parts := [emptyPart] } : Leaf K R)
    maxMsn := 0 }

/-- One step of the system. -/
inductive Op (K B : Type) where
  /-- a client sends a message; it is promoted at most `depth` levels -/
  | put (kind : Kind K) (body : B) (depth : Nat)
  /-- a flusher drains buffer `i` of the inner node at `path` -/
  | flush (path : List Nat) (i : Nat) (cleaner : Bool)
  | split (path : List Nat) (i : Nat) (mode : Mode)
  | merge (path : List Nat) (i : Nat) (act : Act)
  /-- the root gets a parent (`ft_init_new_root`; its split is a `split` step) -/
  | newRoot
  | write (path : List Nat) (limit : Nat)
  | evict (path : List Nat) (which : Nat → Bool)
  | moveStale (path : List Nat)
  | reread (path : List Nat) (which : Nat → Nat → Bool)
  /-- a query reads the basement at the end of `route` -/
  | read (route : List Nat)

/-- Change the root. -/
def Tree.withRoot (t : Tree K R B) (r : Out (Node K R B t.h)) : Out (Tree K R B) :=
  match r with
  | .ok n => .ok { t with root := n }
  | .skip => .skip
  | .crash => .crash

/-- `ft_init_new_root` up to the split, ft/ft-ops.cc:1364-1412: the new root takes over the MSN. -/
def newRoot (h : Nat) (n : Node K R B h) : Inner K B (Node K R B h) :=
  { msn := (match h, n with
      | 0, l => Leaf.msn l
      | _ + 1, i => Inner.msn i)
    pivots := []
    kids := [([], n)] }

def step (sem : Sem K R B) (t : Tree K R B) : Op K B → Out (Tree K R B)
  | .put kind body depth =>
    match inject sem t.h depth t.root ⟨⟨t.maxMsn + 1, kind, body⟩, .fresh⟩ with
    | .ok n => .ok { t with root := n, maxMsn := t.maxMsn + 1 }
    | .skip => .skip
    | .crash => .crash
  | .flush path i cleaner => t.withRoot (atInner (fun h => flushChild sem h cleaner i) t.h path true true t.root)
  | .split path i mode => t.withRoot (atInner (fun h => splitChild sem h mode i) t.h path true true t.root)
  | .merge path i act => t.withRoot (atInner (fun h => mergeChildren sem h act i) t.h path true true t.root)
  | .newRoot => .ok { h := t.h + 1, root := newRoot t.h t.root, maxMsn := t.maxMsn }
  | .write path limit => t.withRoot (atLeaf (writeOut sem limit) t.h path t.root)
  | .evict path which => t.withRoot (atLeaf (evictParts which) t.h path t.root)
  | .moveStale path => t.withRoot (atInner (fun _ _ _ n => .ok (moveStale n)) t.h path true true t.root)
  | .reread path which => t.withRoot (atInner (fun _ _ _ n => .ok (reread which n)) t.h path true true t.root)
  | .read route =>
    match readAt sem t.h none none [] route t.root with
    | .ok (_, n, _) => .ok { t with root := n }
    | .skip => .skip
    | .crash => .crash

/-- A run: steps that are not enabled do nothing; `none` once something crashed. -/
def run (sem : Sem K R B) : Tree K R B → List (Op K B) → Option (Tree K R B)
  | t, [] => some t
  | t, op :: ops =>
    match step sem t op with
    | .ok t' => run sem t' ops
    | .skip => run sem t ops
    | .crash => none

/-- A point query: the rows of the basement it ends in, and the value there. -/
def get (sem : Sem K R B) (t : Tree K R B) (k : K) : Out (Option R) :=
  match routeOf k t.h t.root with
  | none => .crash
  | some route =>
    match readAt sem t.h none none [] route t.root with
    | .ok (rows, _, _) => .ok (lookup rows k)
    | .skip => .skip
    | .crash => .crash

end Verif.Tree
