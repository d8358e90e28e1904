/-!
The tree of free ranges ("holes") behind the block allocator: `MhsRbTree::Tree`
(ft/serialize/rbtree_mhs.cc, ft/serialize/rbtree_mhs.h), a red-black tree sorted by offset whose nodes carry the
largest usable hole of either subtree.

Representation.  A node with its parent pointers is a subtree together with the path to the root (`Ctx`).  Following a
NULL pointer, and every failed `invariant`, is `none`.

Simplifications.  Allocation of nodes never fails.  `EffectiveSize` is total: its overflow assertion
(`offset + size` beyond 64 bits) is not part of `effSize`.
-/
namespace Verif.Blk

/-- `MHS_MAX_VAL` and `MAX_BYTE`, the infinite value, ft/serialize/rbtree_mhs.h:104, ft/serialize/block_allocator.h:61. -/
def maxVal : Nat := 2 ^ 64 - 1

/-- `OUUInt64::operator<`, ft/serialize/rbtree_mhs.h:108-111. -/
def ouLt (a b : Nat) : Option Bool := if a = maxVal ∧ b = maxVal then none else some (decide (a < b))

/-- `OUUInt64::operator<=`, ft/serialize/rbtree_mhs.h:116-119. -/
def ouLe (a b : Nat) : Option Bool := if a = maxVal ∧ b = maxVal then none else some (decide (a ≤ b))

/-- `OUUInt64::operator+` and `+=`, ft/serialize/rbtree_mhs.h:124-135, 156-166. -/
def ouAdd (a b : Nat) : Option Nat :=
  if a = maxVal ∨ b = maxVal then some maxVal else if a + b ≤ maxVal then some (a + b) else none

/-- `OUUInt64::operator-`, ft/serialize/rbtree_mhs.h:136-146. -/
def ouSub (a b : Nat) : Option Nat :=
  if b = maxVal then none else if a = maxVal then some a else if b ≤ a then some (a - b) else none

/-- `OUUInt64::operator-=`, ft/serialize/rbtree_mhs.h:147-155. -/
def ouSubEq (a b : Nat) : Option Nat :=
  if a = maxVal then some a else if b = maxVal then none else if b ≤ a then some (a - b) else none

/-- `align`, ft/serialize/rbtree_mhs.cc:594-596, in 64-bit arithmetic. -/
def alignUp (v a : Nat) : Nat := (v + (a - 1)) % 2 ^ 64 / a * a

/-- `Node::BlockPair`, ft/serialize/rbtree_mhs.h:182-201. -/
structure Hole where
  off : Nat
  size : Nat
deriving Repr, DecidableEq

inductive Color where | red | black
deriving Repr, DecidableEq

/-- `Node`, ft/serialize/rbtree_mhs.h:180-232: colour, hole, label (largest hole on the left and on the right). -/
inductive T where
  | nil
  | node (c : Color) (h : Hole) (lm rm : Nat) (l r : T)
deriving Repr, DecidableEq

inductive Dir where | left | right
deriving Repr, DecidableEq

/-- A parent: which of its children we are, its own fields, its other child. -/
structure Crumb where
  dir : Dir
  c : Color
  h : Hole
  lm : Nat
  rm : Nat
  sib : T
deriving Repr, DecidableEq

/-- The path to the root, nearest parent first. -/
abbrev Ctx := List Crumb

def Crumb.plug (k : Crumb) (t : T) : T :=
  match k.dir with
  | .left => .node k.c k.h k.lm k.rm t k.sib
  | .right => .node k.c k.h k.lm k.rm k.sib t

/-- The whole tree. -/
def zip (t : T) : Ctx → T
  | [] => t
  | k :: ks => zip (k.plug t) ks

def T.isRed : T → Bool
  | .node .red .. => true
  | _ => false

/-- `rbn_set_black` on a node that may be missing. -/
def T.blacken : T → T
  | .nil => .nil
  | .node _ h lm rm l r => .node .black h lm rm l r

/-- `Tree::EffectiveSize`, ft/serialize/rbtree_mhs.cc:736-745. -/
def effSize (a : Nat) (h : Hole) : Nat :=
  let e := (ouAdd h.off h.size).getD 0
  if e < alignUp h.off a then 0 else (ouSub e (alignUp h.off a)).getD 0

/-- `mhs_of_subtree`, ft/serialize/rbtree_mhs.h:351-352. -/
def nodeMhs (a : Nat) (h : Hole) (lm rm : Nat) : Nat := max (max lm rm) (effSize a h)

def T.mhs (a : Nat) : T → Nat
  | .nil => 0
  | .node _ h lm rm _ _ => nodeMhs a h lm rm

def Crumb.mhs (a : Nat) (k : Crumb) : Nat := nodeMhs a k.h k.lm k.rm

/-- The label of a parent that describes the side we are on. -/
def Crumb.label (k : Crumb) : Nat := match k.dir with | .left => k.lm | .right => k.rm

def Crumb.setLabel (k : Crumb) (m : Nat) : Crumb := match k.dir with | .left => { k with lm := m } | .right => { k with rm := m }

/-- `Tree::RecalculateMhs`, ft/serialize/rbtree_mhs.cc:269-289, from a node whose own largest hole is `m`. -/
def recalcUp (a m : Nat) : Ctx → Ctx
  | [] => []
  | k :: ks => if k.label = m then k :: ks else k.setLabel m :: recalcUp a ((k.setLabel m).mhs a) ks

/-- `Tree::LeftRotate`, ft/serialize/rbtree_mhs.cc:205-229. -/
def leftRotate (a : Nat) : T → Option T
  | .node c h lm _ l (.node c' h' lm' rm' l' r') =>
    some (.node c' h' (nodeMhs a h lm lm') rm' (.node c h lm lm' l l') r')
  | _ => none

/-- `Tree::RightRotate`, ft/serialize/rbtree_mhs.cc:241-264. -/
def rightRotate (a : Nat) : T → Option T
  | .node c h _ rm (.node c' h' lm' rm' l' r') r =>
    some (.node c' h' lm' (nodeMhs a h rm' rm) l' (.node c h rm' rm r' r))
  | _ => none

/-- `Tree::InsertFixup`, ft/serialize/rbtree_mhs.cc:440-493; the result is the whole tree. -/
def insertFixup (a : Nat) : T → Ctx → Option T
  | t, [] => some t.blacken
  | t, [p] => if p.c = .red then none else some (zip t [p]).blacken
  | t, p :: g :: ks =>
    if p.c = .black then some (zip t (p :: g :: ks)).blacken
    else if g.sib.isRed then
      insertFixup a ({ g with c := .red, sib := g.sib.blacken }.plug ({ p with c := .black }.plug t)) ks
    else
      match g.dir with
      | .left =>
        (if p.dir = .right then leftRotate a (p.plug t) else some (p.plug t)).bind fun sub =>
        (rightRotate a ({ g with c := .red }.plug sub.blacken)).map fun t' => (zip t' ks).blacken
      | .right =>
        (if p.dir = .left then rightRotate a (p.plug t) else some (p.plug t)).bind fun sub =>
        (leftRotate a ({ g with c := .red }.plug sub.blacken)).map fun t' => (zip t' ks).blacken

/-- Cases 2 to 4 of `Tree::RawRemoveFixup` for a left child, ft/serialize/rbtree_mhs.cc:642-669: the finished subtree
of the parent, or (case 2) the parent, from which the loop goes on. -/
def fixLeft (a : Nat) (t : T) (k : Crumb) : Option (T ⊕ T) :=
  match k.sib with
  | .nil => none
  | .node _ oh olm orm ol or =>
    if !ol.isRed && !or.isRed then some (.inr ({ k with sib := .node .red oh olm orm ol or }.plug t))
    else
      (if !or.isRed then rightRotate a (.node .red oh olm orm ol.blacken or) else some k.sib).bind fun other =>
      match other with
      | .node _ h lm rm l (.node _ rh rlm rrm rl rr) =>
        (leftRotate a ({ k with c := .black, sib := .node k.c h lm rm l (.node .black rh rlm rrm rl rr) }.plug t)).map .inl
      | _ => none

/-- Cases 2 to 4 of `Tree::RawRemoveFixup` for a right child, ft/serialize/rbtree_mhs.cc:679-708. -/
def fixRight (a : Nat) (t : T) (k : Crumb) : Option (T ⊕ T) :=
  match k.sib with
  | .nil => none
  | .node _ oh olm orm ol or =>
    if !ol.isRed && !or.isRed then some (.inr ({ k with sib := .node .red oh olm orm ol or }.plug t))
    else
      (if !ol.isRed then leftRotate a (.node .red oh olm orm ol or.blacken) else some k.sib).bind fun other =>
      match other with
      | .node _ h lm rm (.node _ lh llm lrm ll lr) r =>
        (rightRotate a ({ k with c := .black, sib := .node k.c h lm rm (.node .black lh llm lrm ll lr) r }.plug t)).map .inl
      | _ => none

/-- `Tree::RawRemoveFixup`, ft/serialize/rbtree_mhs.cc:629-714, for the (possibly missing) child `t`; the result is
the whole tree.  After case 1 the parent is red, so that the loop ends should case 2 follow.  A missing right child
of a parent without a left one is taken for the left child. -/
def removeFixup (a : Nat) : T → Ctx → Option T
  | t, [] => some t.blacken
  | t, k :: ks =>
    if t.isRed then some (zip t.blacken (k :: ks))
    else
      match k.dir with
      | .left =>
        match k.sib with
        | .nil => none
        | .node .red yh ylm yrm yl yr =>
          let up : Crumb := ⟨.left, .black, yh, nodeMhs a k.h k.lm ylm, yrm, yr⟩
          (fixLeft a t ⟨.left, .red, k.h, k.lm, ylm, yl⟩).map fun
            | .inl sub => (zip sub (up :: ks)).blacken
            | .inr par => zip par.blacken (up :: ks)
        | .node .black .. =>
          (fixLeft a t k).bind fun
            | .inl sub => some (zip sub ks).blacken
            | .inr par => removeFixup a par ks
      | .right =>
        match k.sib with
        | .nil => none
        | .node .red yh ylm yrm yl yr =>
          let up : Crumb := ⟨.right, .black, yh, ylm, nodeMhs a k.h yrm k.rm, yl⟩
          (fixRight a t ⟨.right, .red, k.h, yrm, k.rm, yr⟩).map fun
            | .inl sub => (zip sub (up :: ks)).blacken
            | .inr par => zip par.blacken (up :: ks)
        | .node .black .. =>
          (fixRight a t k).bind fun
            | .inl sub => some (zip sub ks).blacken
            | .inr par => removeFixup a par ks

/-- The leftmost node below `t`: its colour, hole, right label and right child, and the path from it up to `t`
(ft/serialize/rbtree_mhs.cc:509-512). -/
def minFocus : T → Ctx → Option (Color × Hole × Nat × T × Ctx)
  | .nil, _ => none
  | .node c h _ rm .nil r, ks => some (c, h, rm, r, ks)
  | .node c h lm rm (.node c' h' lm' rm' l' r') r, ks => minFocus (.node c' h' lm' rm' l' r') (⟨.left, c, h, lm, rm, r⟩ :: ks)

/-- `RecalculateMhs(parent)` of ft/serialize/rbtree_mhs.cc:535: it goes up to the node being removed, whose right label
is `rm`, and no further, since that node's parent already points to the replacement.  The path and that label. -/
def recalcTo (a m : Nat) : Ctx → Nat → Ctx × Nat
  | [], _ => ([], m)
  | k :: ks, rm =>
    if k.label = m then (k :: ks, rm)
    else
      let w := recalcTo a ((k.setLabel m).mhs a) ks rm
      (k.setLabel m :: w.1, w.2)

/-- The end of `RawRemove`: fix the colours if a black node went. -/
def finishRemove (a : Nat) (c : Color) (child : T) (ks : Ctx) : Option T :=
  if c = .black then removeFixup a child ks else some (zip child ks)

/-- `Tree::RawRemove(root, node)`, ft/serialize/rbtree_mhs.cc:502-587. -/
def rawRemove (a : Nat) : T → Ctx → Option T
  | .nil, _ => none
  | .node c h lm rm l r, ks =>
    if l ≠ .nil ∧ r ≠ .nil then
      (minFocus r []).bind fun (c', h', rm', child, inner) =>
        match inner with
        | [] =>
          let rep : Crumb := ⟨.right, c, h', lm, rm', l⟩
          finishRemove a c' child (rep :: recalcUp a (rep.mhs a) ks)
        | p :: ps =>
          let p' := { p with lm := rm' }
          let w := recalcTo a (p'.mhs a) ps rm
          let rep : Crumb := ⟨.right, c, h', lm, w.2, l⟩
          finishRemove a c' child (p' :: w.1 ++ rep :: recalcUp a (rep.mhs a) ks)
    else
      let child := if l ≠ .nil then l else r
      match ks with
      | [] => finishRemove a c child []
      | k :: ks =>
        let k' := k.setLabel (child.mhs a)
        finishRemove a c child (k' :: recalcUp a (k'.mhs a) ks)

/-- Where a new hole goes: `Tree::Insert`, ft/serialize/rbtree_mhs.cc:375-381. -/
def descend (o : Nat) : T → Ctx → Option Ctx
  | .nil, ks => some ks
  | .node c h lm rm l r, ks =>
    (ouLt o h.off).bind fun b =>
      if b then descend o l (⟨.left, c, h, lm, rm, r⟩ :: ks) else descend o r (⟨.right, c, h, lm, rm, l⟩ :: ks)

/-- The hole of the nearest ancestor reached from its `d` side: `PredecessorHelper` (`d` right) and `SuccessorHelper`
(`d` left), ft/serialize/rbtree_mhs.cc:161-167, 176-183. -/
def nearest (d : Dir) : Ctx → Option Hole
  | [] => none
  | k :: ks => if k.dir = d then some k.h else nearest d ks

/-- Replace the hole of that ancestor. -/
def setNearest (d : Dir) (h : Hole) : Ctx → Ctx
  | [] => []
  | k :: ks => if k.dir = d then { k with h := h } :: ks else k :: setNearest d h ks

/-- `RecalculateMhs` of that ancestor. -/
def recalcNearest (a : Nat) (d : Dir) : Ctx → Ctx
  | [] => []
  | k :: ks => if k.dir = d then k :: recalcUp a (k.mhs a) ks else k :: recalcNearest a d ks

/-- The left half of `Tree::IsNewNodeMergable`, ft/serialize/rbtree_mhs.cc:296-304. -/
def leftMerge (pred : Option Hole) (p : Hole) : Option Bool :=
  match pred with
  | none => some false
  | some q =>
    (ouAdd q.size q.off).bind fun e =>
    (ouLt e p.off).bind fun b => if b then some false else if e = p.off then some true else none

/-- The right half of `Tree::IsNewNodeMergable`, ft/serialize/rbtree_mhs.cc:305-314. -/
def rightMerge (succ : Option Hole) (p : Hole) : Option Bool :=
  match succ with
  | none => some false
  | some s =>
    (ouAdd p.off p.size).bind fun e =>
    (ouLt e s.off).bind fun b => if b then some false else if e = s.off then some true else none

/-- `Tree::AbsorbNewNode` for a left child, ft/serialize/rbtree_mhs.cc:317-360: `y` is the successor, `rest` its path. -/
def absorbLeft (a : Nat) (y : Crumb) (rest : Ctx) (p : Hole) (lmg rmg : Bool) : Option T :=
  let focus (h : Hole) : T := .node y.c h y.lm y.rm .nil y.sib
  if lmg && rmg then
    (nearest .right rest).bind fun q =>
    (ouAdd y.h.size p.size).bind fun ssz =>
    (ouAdd q.size ssz).bind fun qsz =>
    (ouAdd p.off ssz).bind fun soff =>
      let s : Hole := ⟨soff, 0⟩
      let rest := setNearest .right ⟨q.off, qsz⟩ rest
      let rest := recalcUp a ((focus s).mhs a) rest
      let rest := recalcNearest a .right rest
      rawRemove a (focus s) rest
  else if lmg then
    (nearest .right rest).bind fun q =>
    (ouAdd q.size p.size).map fun qsz =>
      zip (focus y.h) (recalcNearest a .right (setNearest .right ⟨q.off, qsz⟩ rest))
  else
    (ouSubEq y.h.off p.size).bind fun soff =>
    (ouAdd y.h.size p.size).map fun ssz => zip (focus ⟨soff, ssz⟩) (recalcUp a ((focus ⟨soff, ssz⟩).mhs a) rest)

/-- `Tree::AbsorbNewNode` for a right child: `y` is the predecessor. -/
def absorbRight (a : Nat) (y : Crumb) (rest : Ctx) (p : Hole) (lmg rmg : Bool) : Option T :=
  let focus (h : Hole) : T := .node y.c h y.lm y.rm y.sib .nil
  if lmg && rmg then
    (nearest .left rest).bind fun s =>
    (ouAdd y.h.size p.size).bind fun qsz =>
    (ouAdd s.size qsz).bind fun ssz =>
    (ouAdd y.h.off qsz).bind fun qoff =>
      let q : Hole := ⟨qoff, 0⟩
      let rest := setNearest .left ⟨y.h.off, ssz⟩ rest
      let rest := recalcUp a ((focus q).mhs a) rest
      let rest := recalcNearest a .left rest
      rawRemove a (focus q) rest
  else if lmg then
    (ouAdd y.h.size p.size).map fun qsz => zip (focus ⟨y.h.off, qsz⟩) (recalcUp a ((focus ⟨y.h.off, qsz⟩).mhs a) rest)
  else
    (nearest .left rest).bind fun s =>
    (ouSubEq s.off p.size).bind fun soff =>
    (ouAdd s.size p.size).map fun ssz =>
      zip (focus y.h) (recalcNearest a .left (setNearest .left ⟨soff, ssz⟩ rest))

/-- A new node at the end of the path, ft/serialize/rbtree_mhs.cc:397-404, 417-424 and 432-435. -/
def insertAt (a : Nat) (p : Hole) (ks : Ctx) : Option T :=
  insertFixup a (.node .red p 0 0 .nil .nil) (recalcUp a (nodeMhs a p 0 0) ks)

/-- `Tree::Insert`, ft/serialize/rbtree_mhs.cc:368-438. -/
def insert (a : Nat) (t : T) (p : Hole) : Option T :=
  (descend p.off t []).bind fun
    | [] => insertAt a p []
    | y :: rest =>
      match y.dir with
      | .left =>
        (leftMerge (nearest .right rest) p).bind fun lmg =>
        (rightMerge (some y.h) p).bind fun rmg =>
          if lmg || rmg then absorbLeft a y rest p lmg rmg else insertAt a p (y :: rest)
      | .right =>
        (leftMerge (some y.h) p).bind fun lmg =>
        (rightMerge (nearest .left rest) p).bind fun rmg =>
          if lmg || rmg then absorbRight a y rest p lmg rmg else insertAt a p (y :: rest)

/-- `Tree::SearchFirstFitBySize` and its helper, ft/serialize/rbtree_mhs.cc:111-141: the node and the path to it; no
node is a failure, since its caller follows the pointer. -/
def searchFit (a size : Nat) : T → Ctx → Option (T × Ctx)
  | .nil, _ => none
  | .node c h lm rm l r, ks =>
    if size ≤ effSize a h then
      if size ≤ lm then searchFit a size l (⟨.left, c, h, lm, rm, r⟩ :: ks) else some (.node c h lm rm l r, ks)
    else if size ≤ lm then searchFit a size l (⟨.left, c, h, lm, rm, r⟩ :: ks)
    else if size ≤ rm then searchFit a size r (⟨.right, c, h, lm, rm, l⟩ :: ks)
    else none

/-- `Tree::Remove(root, node, size)`, ft/serialize/rbtree_mhs.cc:597-627: the offset and the tree. -/
def removeAt (a size : Nat) : T → Ctx → Option (Nat × T)
  | .nil, _ => none
  | .node c h lm rm l r, ks =>
    let focus (h : Hole) : T := .node c h lm rm l r
    let ans := alignUp h.off a
    (ouAdd ans size).bind fun e =>
    (ouAdd h.off h.size).bind fun he =>
    (ouLe e he).bind fun ok =>
      if !ok then none
      else if ans = h.off then
        (ouAdd h.off size).bind fun noff =>
        (ouSubEq h.size size).bind fun nsz =>
          let ks := recalcUp a ((focus ⟨noff, nsz⟩).mhs a) ks
          if nsz = 0 then (rawRemove a (focus ⟨noff, nsz⟩) ks).map (ans, ·)
          else some (ans, zip (focus ⟨noff, nsz⟩) ks)
      else if e = he then
        (ouSubEq h.size size).map fun nsz => (ans, zip (focus ⟨h.off, nsz⟩) (recalcUp a ((focus ⟨h.off, nsz⟩).mhs a) ks))
      else
        (ouSub ans h.off).bind fun nsz =>
        (ouSub he e).bind fun rsz =>
        (insert a (zip (focus ⟨h.off, nsz⟩) (recalcUp a ((focus ⟨h.off, nsz⟩).mhs a) ks)) ⟨e, rsz⟩).map (ans, ·)

/-- `Tree::Remove(size)`, ft/serialize/rbtree_mhs.cc:497-500. -/
def removeFit (a size : Nat) (t : T) : Option (Nat × T) := (searchFit a size t []).bind fun q => removeAt a size q.1 q.2

/-- `Tree::MaxNode`, ft/serialize/rbtree_mhs.cc:151-158. -/
def maxNode : T → Option Hole
  | .nil => none
  | .node _ h _ _ _ .nil => some h
  | .node _ _ _ _ _ (.node c h lm rm l r) => maxNode (.node c h lm rm l r)

end Verif.Blk
