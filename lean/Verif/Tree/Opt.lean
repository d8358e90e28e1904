import Verif.Tree.OptSpec

/-! `toku_ft_hot_optimize` (ft/ft-hot-flusher.cc): root-to-leaf flushes from left to right, while others use the tree.

Between two rounds anything may happen to the tree.  One round is one step: it goes down hand over hand, and whatever others do
meanwhile is above the node it holds, or below it before it gets there, and so can be placed before or after the round.
Progress (`percentage_done`), the statistics and the callback are left out; a callback that stops the run leaves it unfinished. -/
namespace Verif.Tree
variable {K R B : Type} [LinearOrder K]

/-- What is done about a child after the flush: `toku_ftnode_get_reactivity` and, for leaves, the sizes decide
(ft/ft-flusher.cc:1493-1535).  What is not possible in the state counts as `stable`. -/
inductive React where
  | stable
  | split
  | merge (act : Act)
  deriving DecidableEq, Repr

/-- `hot_just_pick_child`, ft/ft-hot-flusher.cc:96-117. -/
def hotPick {C : Type} (n : Inner K B C) (high : Option K) : Option Nat :=
  match high with
  | none => some 0
  | some k => hotNextChild n.kids.length n.pivots k

/-- `hot_update_flusher_keys`, ft/ft-hot-flusher.cc:119-130; `none` is a read past the pivots. -/
def hotKeys {C : Type} (n : Inner K B C) (i : Nat) (mx : Option K) : Option (Option K) :=
  if i + 1 < n.kids.length then (n.pivots[i]?).map some else some mx

/-- Go on with child `i`. -/
def down {C : Type} (go : Option K → C → Out (C × Option K)) (i : Nat) (mx : Option K) (n : Inner K B C) :
    Out (Inner K B C × Option K) := do
  let (s, c) ← need n.kids[i]?
  let (c', mx') ← go mx c
  .ok ({ n with kids := n.kids.set i (s, c') }, mx')

/-- `toku_ft_flush_some_child`, ft/ft-flusher.cc:1391-1548, with the advice of `hot_flusher_init`
(ft/ft-hot-flusher.cc:180-205): the child is picked by the highest key so far, the flush goes on always
(`always_recursively_flush`), after a split `hot_pick_child_after_split` (:155-176), after a merge with the merged node
(`ft_merge_child`, ft/ft-flusher.cc:1243-1389).  `mx` is `max_current_key`; `cs` has what is done on each level. -/
def hotGo (sem : Sem K R B) : (h : Nat) → (cs : List React) → (high mx : Option K) → Node K R B h →
    Out (Node K R B h × Option K)
  | 0, _, _, mx, l => .ok (l, mx)
  | h + 1, cs, high, mx, n => do
    let i ← need (hotPick (n : Inner K B (Node K R B h)) high)
    let mx1 ← need (hotKeys (n : Inner K B (Node K R B h)) i mx)
    let n1 ← flushChild sem h false i true true n
    let go := hotGo sem h cs.tail high
    match cs.headD .stable with
    | .stable => down go i mx1 n1
    | .split =>
      match splitChild sem h .evenly i true false n1 with
      | .crash => .crash
      | .skip => down go i mx1 n1
      | .ok n2 => do
        let i2 ← need (hotPick n2 high)
        assertC (decide (i2 = i ∨ i2 = i + 1))
        let mx2 ← need (hotKeys n2 i2 mx1)
        down go i2 mx2 n2
    | .merge act =>
      match mergeChildren sem h act (i - 1) true false n1 with
      | .crash => .crash
      | .skip => down go i mx1 n1
      | .ok n2 => if h = 0 then .ok (n2, mx1) else down go (i - 1) mx1 n2

/-- The tree, `highest_pivot_key`, `rightmost_leaf_seen`. -/
structure HotSt (K R B : Type) where
  tree : Tree K R B
  high : Option K
  done : Bool

/-- The end of a round, ft/ft-hot-flusher.cc:300-322. -/
def hotDone (right mx : Option K) : Bool :=
  match mx with
  | none => true
  | some m => match right with
    | none => false
    | some r => decide (r < m)

/-- One round, ft/ft-hot-flusher.cc:248-330; the root is pinned, and for a leaf there is nothing to flush. -/
def hotRound (sem : Sem K R B) (right : Option K) (cs : List React) (s : HotSt K R B) : Option (HotSt K R B) :=
  if s.done then some s
  else match hotGo sem s.tree.h cs s.high none s.tree.root with
    | .ok (n, mx) => some ⟨{ s.tree with root := n }, mx, hotDone right mx⟩
    | _ => none

/-- What happens while a dictionary is optimized. -/
inductive HotEv (K B : Type) where
  | op (o : Op K B)
  | round (cs : List React)

def hotRun (sem : Sem K R B) (right : Option K) : HotSt K R B → List (HotEv K B) → Option (HotSt K R B)
  | s, [] => some s
  | s, .op o :: evs =>
    match step sem s.tree o with
    | .ok t => hotRun sem right { s with tree := t } evs
    | .skip => hotRun sem right s evs
    | .crash => none
  | s, .round cs :: evs => (hotRound sem right cs s).bind fun s' => hotRun sem right s' evs

/-- `toku_ft_hot_optimize` begins, ft/ft-hot-flusher.cc:226-240 (`hot_set_start_key`). -/
def hotStart (left : Option K) (t : Tree K R B) : HotSt K R B := ⟨t, left, false⟩

/-- The messages sent meanwhile. -/
def hotSent : List (HotEv K B) → List (Op K B)
  | [] => []
  | .op o :: evs => o :: hotSent evs
  | .round _ :: evs => hotSent evs

end Verif.Tree
