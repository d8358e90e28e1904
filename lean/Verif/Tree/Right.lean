import Verif.Tree.Model

/-!
Inserting rows: `toku_ft_maybe_insert` and `toku_ft_insert_unique`, with the shortcut by which a row goes straight
to the rightmost leaf, on top of the tree of Model.lean.

The header of a dictionary keeps the block number of its rightmost leaf, once known, and a score that counts how
many messages in a row were injected into that leaf (ft/ft-internal.h:224-237).  Block numbers are not kept here:
splits and merges keep the block number with the last leaf (ft/ft-flusher.cc:495-510, 1325-1335), so the rightmost
leaf is the one reached by the last child of every node.  Whether the leaf is of a size at which it would be split
or merged is not computed (`stable` says).  Each insertion is one step; in the code the score is read without a
lock.
-/
namespace Verif.Tree

/-- A dictionary and the two fields of its header that steer insertions, ft/ft-internal.h:224-237. -/
structure Dict (K R B : Type) where
  tree : Tree K R B
  /-- `seqinsert_score` -/
  score : Nat
  /-- is `rightmost_blocknum` set? -/
  known : Bool

/-- `FT_SEQINSERT_SCORE_THRESHOLD`, ft/ft-internal.h:70. -/
def scoreThreshold : Nat := 100

/-- What an insertion sends, and when a row counts as there: the body of `FT_INSERT`, the body of
`FT_INSERT_NO_OVERWRITE`, and the negation of `le_latest_is_del` (ft/ule.cc). -/
structure Puts (V R B : Type) where
  ins : V → B
  insNo : V → B
  live : R → Bool

/-- The flags of a put: none, DB_NOOVERWRITE, DB_NOOVERWRITE_NO_ERROR (`db_put`, src/ydb_write.cc:224-249). -/
inductive How where
  | over
  | unique
  | silent
  deriving DecidableEq, Repr

/-- The result of a put. -/
inductive Ret where
  | done
  | keyExist
  deriving DecidableEq, Repr

variable {K R B V : Type} [LinearOrder K]

/-! ### Where a message lands -/

/-- Does an injected message (Model.lean, `inject`) end in the last leaf, reached by last children only? -/
def landsRight : (h : Nat) → (depth : Nat) → Node K R B h → Kind K → Bool
  | 0, _, _, _ => true
  | _ + 1, 0, _, _ => false
  | h + 1, d + 1, n, kind =>
    match kind with
    | .once k =>
      match whichChild n.kids.length n.pivots k with
      | none => false
      | some i =>
        match n.kids[i]? with
        | none => false
        | some (s, c) => decide (i + 1 = n.kids.length) && s.isEmpty && landsRight h d c kind
    | _ => false

/-- The location is RIGHT_EXTREME, not LEFT_EXTREME, once a last child was taken that is not the first
(ft/ft-ops.cc:1766-1773); for a path of last children that is so if the root has more than one. -/
def wideRoot : (h : Nat) → Node K R B h → Bool
  | 0, _ => false
  | _ + 1, n => decide (1 < n.kids.length)

/-- `inject_message_in_locked_node` and `push_something_in_subtree`, ft/ft-ops.cc:1506-1514, 1737-1748: the message
is injected; landing in the rightmost leaf of a tree with inner nodes makes its block number known and raises the
score, landing anywhere else clears it. -/
def send (sem : Sem K R B) (s : Dict K R B) (kind : Kind K) (body : B) (depth : Nat) : Out (Dict K R B) := do
  let t ← step sem s.tree (.put kind body depth)
  let right := decide (s.tree.h ≠ 0) && landsRight s.tree.h depth s.tree.root kind
  let known := s.known || (right && wideRoot s.tree.h s.tree.root)
  .ok { tree := t
        known := known
        score := if right && known then (if s.score < scoreThreshold then s.score + 1 else s.score) else 0 }

/-! ### The shortcut -/

/-- The leaf at the end of the last children (pinned by `rightmost_blocknum`, ft/ft-ops.cc:2177-2188). -/
def lastLeaf : (h : Nat) → Node K R B h → Option (Leaf K R)
  | 0, l => some l
  | h + 1, n =>
    match n.kids[n.kids.length - 1]? with
    | none => none
    | some (_, c) => lastLeaf h c

/-- Replace that leaf; nothing else is touched. -/
def setLastLeaf (l : Leaf K R) : (h : Nat) → Node K R B h → Node K R B h
  | 0, _ => l
  | h + 1, n =>
    match n.kids[n.kids.length - 1]? with
    | none => n
    | some (s, c) => ({ n with kids := n.kids.set (n.kids.length - 1) (s, setLastLeaf l h c) } : Inner K B (Node K R B h))

/-- The outcome of `ft_leaf_get_relative_key_pos`: is the key within the rows of the leaf or to their right, the
basement to put it in if one was chosen, and was a row found that counts as there. -/
structure Pos where
  inside : Bool
  target : Option Nat
  found : Bool
  deriving DecidableEq, Repr

/-- `ft_leaf_get_relative_key_pos`, ft/ft-ops.cc:2072-2136, on a leaf in memory.  The rightmost and the leftmost row
are those of the leaf, in whichever basement they are (`ft_leaf_rightmost_le_and_key`,
`ft_leaf_leftmost_le_and_key`, ft/ft-ops.cc:2037-2070). -/
def relPos (live : R → Bool) (unique : Bool) (l : Leaf K R) (k : K) : Out Pos :=
  match (leafRows l).getLast? with
  | none => .ok ⟨false, none, false⟩
  | some (rk, rr) =>
    if rk < k then .ok ⟨true, some (l.parts.length - 1), false⟩
    else if k = rk then .ok ⟨true, some (l.parts.length - 1), unique && live rr⟩
    else
      match (leafRows l).head? with
      | none => .crash
      | some (lk, lr) =>
        if lk < k then
          if unique then do
            let i ← need (whichChild l.parts.length l.pivots k)
            let p ← need l.parts[i]?
            .ok ⟨true, some i, ((lookup (partRows p) k).map live).getD false⟩
          else .ok ⟨true, none, false⟩
        else if k = lk then .ok ⟨true, some 0, unique && live lr⟩
        else .ok ⟨false, none, false⟩

/-- `toku_ft_leaf_apply_msg`, ft/node.cc:2064-2149, for one key, with the basement given if `target` has one. -/
def leafPutAt (sem : Sem K R B) (l : Leaf K R) (target : Option Nat) (m : Msg K B) (k : K) : Out (Leaf K R) := do
  let i ← match target with
    | some i => .ok i
    | none => need (whichChild l.parts.length l.pivots k)
  let p ← need l.parts[i]?
  .ok { l with dirty := true, msn := max l.msn m.msn, parts := l.parts.set i (bnPut sem m p) }

/-- What the shortcut did: nothing, or the insertion, or it found the row there. -/
inductive Fast (α : Type) where
  | no
  | inserted (a : α)
  | exists

/-- `ft_maybe_insert_into_rightmost_leaf` and `ft_insert_directly_into_leaf`, ft/ft-ops.cc:2147-2235, 2448-2459.
The message goes to the leaf whatever is in the buffers above it. -/
def fast (sem : Sem K R B) (live : R → Bool) (s : Dict K R B) (k : K) (body : B) (unique stable : Bool) :
    Out (Fast (Dict K R B)) :=
  if s.score < scoreThreshold then .ok .no
  else if !s.known then .crash
  else do
    let l0 ← need (lastLeaf s.tree.h s.tree.root)
    let l := loadLeaf l0
    if !stable then .ok .no
    else do
      let pos ← relPos live unique l k
      if !pos.inside then .ok .no
      else if unique && pos.found then .ok .exists
      else do
        let l' ← leafPutAt sem l pos.target ⟨s.tree.maxMsn + 1, .once k, body⟩ k
        .ok (.inserted { s with tree := { s.tree with root := setLastLeaf l' s.tree.h s.tree.root, maxMsn := s.tree.maxMsn + 1 } })

/-! ### Puts -/

/-- `toku_ft_maybe_insert`, ft/ft-ops.cc:2422-2446: the shortcut is given `FT_INSERT`, the other way the type asked
for. -/
def maybeInsert (sem : Sem K R B) (w : Puts V R B) (s : Dict K R B) (silent : Bool) (k : K) (v : V) (depth : Nat)
    (stable : Bool) : Out (Dict K R B × Ret) := do
  let f ← fast sem w.live s k (w.ins v) false stable
  match f with
  | .inserted s' => .ok (s', .done)
  | _ => do
    let s' ← send sem s (.once k) (if silent then w.insNo v else w.ins v) depth
    .ok (s', .done)

/-- `toku_ft_insert_unique`, ft/ft-ops.cc:2239-2271: the shortcut, and if it does not apply a lookup
(`toku_ft_lookup`, which leaves its marks in the tree) and then the insertion. -/
def insertUnique (sem : Sem K R B) (w : Puts V R B) (s : Dict K R B) (k : K) (v : V) (depth : Nat) (stable : Bool) :
    Out (Dict K R B × Ret) := do
  let f ← fast sem w.live s k (w.ins v) true stable
  match f with
  | .inserted s' => .ok (s', .done)
  | .exists => .ok (s, .keyExist)
  | .no => do
    let r ← get sem s.tree k
    let route ← need (routeOf k s.tree.h s.tree.root)
    let t ← step sem s.tree (.read route)
    let s1 := { s with tree := t }
    if (r.map w.live).getD false then .ok (s1, .keyExist)
    else do
      let s' ← send sem s1 (.once k) (w.ins v) depth
      .ok (s', .done)

/-- `db_put`, src/ydb_write.cc:224-249. -/
def dbPut (sem : Sem K R B) (w : Puts V R B) (s : Dict K R B) (how : How) (k : K) (v : V) (depth : Nat)
    (stable : Bool) : Out (Dict K R B × Ret) :=
  match how with
  | .over => maybeInsert sem w s false k v depth stable
  | .silent => maybeInsert sem w s true k v depth stable
  | .unique => insertUnique sem w s k v depth stable

/-- One step: a put, or any step of Model.lean (other messages are sent from the root). -/
inductive DOp (K B V : Type) where
  | put (how : How) (k : K) (v : V) (depth : Nat) (stable : Bool)
  | tree (op : Op K B)

def dstep (sem : Sem K R B) (w : Puts V R B) (s : Dict K R B) : DOp K B V → Out (Dict K R B × Ret)
  | .put how k v depth stable => dbPut sem w s how k v depth stable
  | .tree (.put kind body depth) => do
    let s' ← send sem s kind body depth
    .ok (s', .done)
  | .tree op => do
    let t ← step sem s.tree op
    .ok ({ s with tree := t }, .done)

/-- A new dictionary: `ft_init`, ft/ft.cc. -/
def Dict.empty : Dict K R B := { tree := Tree.empty, score := 0, known := false }

/-- A run, with the result of every step; `none` once something crashed. -/
def drun (sem : Sem K R B) (w : Puts V R B) : Dict K R B → List (DOp K B V) → Option (Dict K R B × List Ret)
  | s, [] => some (s, [])
  | s, op :: ops =>
    match dstep sem w s op with
    | .ok (s', r) => (drun sem w s' ops).map fun p => (p.1, r :: p.2)
    | .skip => (drun sem w s ops).map fun p => (p.1, .done :: p.2)
    | .crash => none

end Verif.Tree
