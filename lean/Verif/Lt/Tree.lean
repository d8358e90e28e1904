/-!
The range tree under the lock table: `keyrange` (locktree/keyrange.cc), `treenode` (locktree/treenode.cc) and
`concurrent_tree::locked_keyrange` (locktree/concurrent_tree.cc).

Endpoints are elements of an ordered type `α`; `Verif/Lt/RangeBuffer.lean` instantiates it with keys and the two
infinities under the user's comparator.  `cmp(a, b) < 0` is `a < b`; `cmp(a, b) == 0` is `a ≤ b ∧ b ≤ a`.

Simplifications.  A node's pointer structure is a value (`Tree`); each child pointer keeps its cached depth
estimate exactly as `child_ptr` does (locktree/treenode.cc:480-491), but as an unbounded number instead of
`uint32_t`.  Mutexes are not represented: every operation on a locked key range runs to completion before the next
one starts (hand-over-hand locking from the root is what the code relies on for that).  The root node is the
outermost `Tree`; `nil` there is `m_is_empty`.  `none` is an assertion failure or `abort()`.
-/
namespace Verif.Lt

/-- Transaction ids; `TXNID_NONE` is 0. -/
abbrev Txn := Nat

/-- `keyrange`, locktree/keyrange.h: the two endpoints, both included.  Sharing of the key copies
(`m_point_range`) is not represented. -/
structure Range (α : Type) where
  left : α
  right : α
deriving Repr, DecidableEq

/-- `keyrange::comparison`, locktree/keyrange.h. -/
inductive Comparison | equals | lessThan | greaterThan | overlaps
deriving Repr, DecidableEq

section
variable {α : Type} [LE α] [LT α] [DecidableLE α] [DecidableLT α]

/-- `keyrange::compare`, locktree/keyrange.cc:116-127. -/
def Range.compare (a b : Range α) : Comparison :=
  if a.right < b.left then .lessThan
  else if b.right < a.left then .greaterThan
  else if (a.left ≤ b.left ∧ b.left ≤ a.left) ∧ (a.right ≤ b.right ∧ b.right ≤ a.right) then .equals
  else .overlaps

/-- `keyrange::overlaps`, locktree/keyrange.cc:129-134. -/
def Range.overlaps (a b : Range α) : Bool :=
  match a.compare b with
  | .equals => true
  | .overlaps => true
  | _ => false

/-- `keyrange::extend`, locktree/keyrange.cc:93-102. -/
def Range.extend (a b : Range α) : Range α :=
  { left := if b.left < a.left then b.left else a.left
    right := if a.right < b.right then b.right else a.right }

end

/-- A subtree: each child pointer with its cached depth estimate, the node's range and its owner.
locktree/treenode.h, `treenode` and `treenode::child_ptr`. -/
inductive Tree (α : Type) where
  | nil
  | node (l : Tree α) (ld : Nat) (range : Range α) (txn : Txn) (r : Tree α) (rd : Nat)
deriving Repr, DecidableEq

/-- One stored lock: `row_lock`, locktree/locktree.cc:144-147. -/
abbrev RowLock (α : Type) := Range α × Txn

namespace Tree
variable {α : Type}

/-- The stored locks in key order (not code: what the tree represents). -/
def toList : Tree α → List (RowLock α)
  | nil => []
  | node l _ x t r _ => l.toList ++ (x, t) :: r.toList

/-- A null pointer, or an empty root (`treenode::is_empty`, locktree/treenode.cc:104-106). -/
def isNil : Tree α → Bool
  | nil => true
  | node .. => false

/-- Number of nodes (not code: termination measure). -/
def size : Tree α → Nat
  | nil => 0
  | node l _ _ _ r _ => l.size + r.size + 1

/-- `treenode::get_depth_estimate`, locktree/treenode.cc:143-147; 0 for a null pointer (`child_ptr::set`,
locktree/treenode.cc:480-483). -/
def depth : Tree α → Nat
  | nil => 0
  | node _ ld _ _ _ rd => (if ld > rd then ld else rd) + 1

/-- `treenode::left_imbalanced`, locktree/treenode.cc:383-387. -/
def leftImbalanced (threshold : Nat) : Tree α → Bool
  | nil => false
  | node .nil _ _ _ _ _ => false
  | node (.node ..) ld _ _ _ rd => ld > threshold + rd

/-- `treenode::right_imbalanced`, locktree/treenode.cc:389-393. -/
def rightImbalanced (threshold : Nat) : Tree α → Bool
  | nil => false
  | node _ _ _ _ .nil _ => false
  | node _ ld _ _ (.node ..) rd => rd > threshold + ld

/-- `treenode::maybe_rebalance`, locktree/treenode.cc:400-457, with `IMBALANCE_THRESHOLD` = 2
(locktree/treenode.h:156).  A rotated-in pointer keeps the depth estimate it was copied with; a pointer that
is `set` gets a fresh one. -/
def maybeRebalance : Tree α → Tree α
  | nil => nil
  | this@(node l ld x t r rd) =>
    if this.leftImbalanced 2 then
      match l with
      | nil => this
      | child@(node cl cld cx ct cr crd) =>
        if child.rightImbalanced 0 then
          match cr with
          | nil => this
          | node gl gld gx gt gr grd =>
            let child' := node cl cld cx ct gl gld
            let this' := node gr grd x t r rd
            node child' child'.depth gx gt this' this'.depth
        else
          let this' := node cr crd x t r rd
          node cl cld cx ct this' this'.depth
    else if this.rightImbalanced 2 then
      match r with
      | nil => this
      | child@(node cl cld cx ct cr crd) =>
        if child.leftImbalanced 0 then
          match cl with
          | nil => this
          | node gl gld gx gt gr grd =>
            let child' := node gr grd cx ct cr crd
            let this' := node l ld x t gl gld
            node this' this'.depth gx gt child' child'.depth
        else
          let this' := node l ld x t cl cld
          node this' this'.depth cx ct cr crd
    else this

theorem maybeRebalance_size (t : Tree α) : t.maybeRebalance.size = t.size := by
  unfold maybeRebalance
  repeat' split
  all_goals simp only [size]
  all_goals omega

section
variable [LE α] [LT α] [DecidableLE α] [DecidableLT α]

/-- `treenode::insert` below a non-empty node, locktree/treenode.cc:225-249, with `treenode::alloc`
(locktree/treenode.cc:112-117) and `lock_and_rebalance_left`/`_right` (locktree/treenode.cc:460-478): the child
is rebalanced and its depth estimate refreshed before the descent.  On an empty root: `set_range_and_txnid`
(locktree/concurrent_tree.cc:113-120). -/
def insert (range : Range α) (txn : Txn) : Tree α → Option (Tree α)
  | nil => some (node nil 0 range txn nil 0)
  | node l ld x t r rd =>
    match range.compare x with
    | .lessThan =>
      match l with
      | nil => some (node (node nil 0 range txn nil 0) 1 x t r rd)
      | node l1 l2 l3 l4 l5 l6 =>
        let l' := (node l1 l2 l3 l4 l5 l6).maybeRebalance
        (insert range txn l').map fun l'' => node l'' l'.depth x t r rd
    | .greaterThan =>
      match r with
      | nil => some (node l ld x t (node nil 0 range txn nil 0) 1)
      | node r1 r2 r3 r4 r5 r6 =>
        let r' := (node r1 r2 r3 r4 r5 r6).maybeRebalance
        (insert range txn r').map fun r'' => node l ld x t r'' r'.depth
    | _ => none
termination_by t => t.size
decreasing_by
  all_goals (simp only [maybeRebalance_size, size]; omega)

/-- `find_child_at_extreme(1, ..)` followed by the detaching of the node it returns,
locktree/treenode.cc:251-271 and 290-300.  Returns the pointer that replaces the one to this subtree (with its
depth estimate: the estimate taken when this node was locked, or the detached node's own left pointer) and the
detached range and owner. -/
def detachMax : Tree α → Option ((Tree α × Nat) × RowLock α)
  | nil => none
  | node l ld x t nil _ => some ((l, ld), (x, t))
  | node l ld x t (node r1 r2 r3 r4 r5 r6) rd =>
    (detachMax (node r1 r2 r3 r4 r5 r6)).map fun p =>
      ((node l ld x t p.1.1 p.1.2, (node l ld x t (node r1 r2 r3 r4 r5 r6) rd).depth), p.2)

/-- The mirror image, locktree/treenode.cc:251-271 and 301-312. -/
def detachMin : Tree α → Option ((Tree α × Nat) × RowLock α)
  | nil => none
  | node nil _ x t r rd => some ((r, rd), (x, t))
  | node (node l1 l2 l3 l4 l5 l6) ld x t r rd =>
    (detachMin (node l1 l2 l3 l4 l5 l6)).map fun p =>
      ((node p.1.1 p.1.2 x t r rd, (node (node l1 l2 l3 l4 l5 l6) ld x t r rd).depth), p.2)

/-- `treenode::remove_root_of_subtree`, locktree/treenode.cc:273-320. -/
def removeRoot : Tree α → Option (Tree α)
  | nil => none
  | node l ld _ _ r rd =>
    match l, r with
    | nil, nil => some nil
    | node l1 l2 l3 l4 l5 l6, r =>
      (detachMax (node l1 l2 l3 l4 l5 l6)).map fun p => node p.1.1 p.1.2 p.2.1 p.2.2 r rd
    | nil, node r1 r2 r3 r4 r5 r6 =>
      (detachMin (node r1 r2 r3 r4 r5 r6)).map fun p => node nil ld p.2.1 p.2.2 p.1.1 p.1.2

/-- `treenode::remove`, locktree/treenode.cc:341-381. -/
def remove (range : Range α) : Tree α → Option (Tree α)
  | nil => none
  | node l ld x t r rd =>
    match range.compare x with
    | .equals => removeRoot (node l ld x t r rd)
    | .lessThan => (remove range l).map fun l' => node l' l'.depth x t r rd
    | .greaterThan => (remove range r).map fun r' => node l ld x t r' r'.depth
    | .overlaps => none

/-- `treenode::traverse_overlaps`, locktree/treenode.cc:187-223: calls `fn` on the overlapping ranges in
order.  `fn` returns its new state and whether to keep going; a `false` ends the visit of this node only.
Taking a child's lock refreshes its depth estimate (`get_locked`, locktree/treenode.cc:485-491). -/
def traverse {σ : Type} (range : Range α) (fn : σ → Range α → Txn → σ × Bool) : Tree α → σ → Tree α × σ
  | nil, s => (nil, s)
  | node l ld x t r rd, s =>
    let c := range.compare x
    if c = .equals then (node l ld x t r rd, (fn s x t).1)
    else
      let left := if c ≠ .greaterThan then traverse range fn l s else (l, s)
      let ld' := if l.isNil then ld else l.depth
      let mid := if c = .overlaps then fn left.2 x t else (left.2, true)
      if mid.2 then
        let right := if c ≠ .lessThan then traverse range fn r mid.1 else (r, mid.1)
        let rd' := if r.isNil then rd else r.depth
        (node left.1 ld' x t right.1 rd', right.2)
      else (node left.1 ld' x t r rd, mid.1)

/-- A position in the tree: the turns taken from the root (`true` = right). -/
abbrev Path := List Bool

/-- The subtree at a position (not code: `m_subtree` is a pointer). -/
def at? : Tree α → Path → Option (Tree α)
  | t, [] => some t
  | nil, _ :: _ => none
  | node l _ _ _ r _, b :: p => if b then at? r p else at? l p

/-- Replace the subtree at a position in place (not code: an update through `m_subtree`). -/
def putAt : Tree α → Path → Tree α → Tree α
  | _, [], s => s
  | nil, _ :: _, _ => nil
  | node l ld x t r rd, b :: p, s =>
    if b then node l ld x t (putAt r p s) rd else node (putAt l p s) ld x t r rd

/-- `treenode::find_node_with_overlapping_child`, locktree/treenode.cc:149-185: the tree after the rebalancing
done on the way down, and the position of the node returned.  The precomputed comparison hint is the same
comparison. -/
def findNode (range : Range α) : Tree α → Option (Tree α × Path)
  | nil => none
  | node l ld x t r rd =>
    match range.compare x with
    | .lessThan =>
      match l with
      | nil => some (node nil ld x t r rd, [])
      | node l1 l2 l3 l4 l5 l6 =>
        let l' := (node l1 l2 l3 l4 l5 l6).maybeRebalance
        match l' with
        | nil => none
        | node _ _ lx _ _ _ =>
          match range.compare lx with
          | .equals => some (node l' l'.depth x t r rd, [])
          | .overlaps => some (node l' l'.depth x t r rd, [])
          | _ => (findNode range l').map fun q => (node q.1 l'.depth x t r rd, false :: q.2)
    | .greaterThan =>
      match r with
      | nil => some (node l ld x t nil rd, [])
      | node r1 r2 r3 r4 r5 r6 =>
        let r' := (node r1 r2 r3 r4 r5 r6).maybeRebalance
        match r' with
        | nil => none
        | node _ _ rx _ _ _ =>
          match range.compare rx with
          | .equals => some (node l ld x t r' r'.depth, [])
          | .overlaps => some (node l ld x t r' r'.depth, [])
          | _ => (findNode range r').map fun q => (node l ld x t q.1 r'.depth, true :: q.2)
    | _ => none
termination_by t => t.size
decreasing_by
  all_goals (simp only [maybeRebalance_size, size]; omega)

end
end Tree

/-! ### Locked key ranges -/

section
variable {α : Type} [LE α] [LT α] [DecidableLE α] [DecidableLT α]

/-- `concurrent_tree::locked_keyrange::acquire`, locktree/concurrent_tree.cc:82-98: where in the tree the
range lives. -/
def lkrAcquire (tree : Tree α) (range : Range α) : Option (Tree α × Tree.Path) :=
  match tree with
  | .nil => some (tree, [])
  | .node _ _ x _ _ _ => if x.overlaps range then some (tree, []) else tree.findNode range

/-- `locked_keyrange::iterate`, locktree/concurrent_tree.cc:104-111. -/
def lkrIterate {σ : Type} (tree : Tree α) (path : Tree.Path) (range : Range α)
    (fn : σ → Range α → Txn → σ × Bool) (s : σ) : Option (Tree α × σ) :=
  (tree.at? path).map fun sub =>
    let q := sub.traverse range fn s
    (tree.putAt path q.1, q.2)

/-- `locked_keyrange::insert`, locktree/concurrent_tree.cc:113-120.  Only the root may be empty. -/
def lkrInsert (tree : Tree α) (path : Tree.Path) (range : Range α) (txn : Txn) : Option (Tree α) :=
  (tree.at? path).bind fun sub => (sub.insert range txn).map fun sub' => tree.putAt path sub'

/-- `locked_keyrange::remove`, locktree/concurrent_tree.cc:122-131: the subtree may become empty only if it is
the whole tree. -/
def lkrRemove (tree : Tree α) (path : Tree.Path) (range : Range α) : Option (Tree α) :=
  (tree.at? path).bind fun sub => (sub.remove range).bind fun sub' =>
    if sub'.isNil && !path.isEmpty then none else some (tree.putAt path sub')

end
end Verif.Lt
