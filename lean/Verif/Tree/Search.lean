import Verif.Tree.Props

/-!
Cursor moves: `toku_ft_search`, ft/ft-ops.cc:3830-3955, with the functions it uses.  Rows are seen through a
visibility test, which stands for `le_val_is_del` (ft/ule.cc) with the reader's isolation; leaf-mode cursors are the test
that is always true.  Left out: prefetching, bulk fetch (`toku_ft_cursor_shortcut`, which only goes on within the
basement), the interrupt callback, and the callback's own refusal of a row.
-/
namespace Verif.Tree
variable {K R B : Type} [LinearOrder K]

/-- What a move looks for: the compare functions of ft/cursor.cc:131-340. -/
inductive Goal (K : Type) where
  /-- `ft_cursor_compare_one`: DB_FIRST -/
  | first
  /-- `ft_cursor_compare_set_range`: DB_SET_RANGE, with the bound of ft/ft-ops.cc:3313-3323, if any -/
  | atLeast (k : K) (bound : Option K)
  /-- `ft_cursor_compare_next`: DB_NEXT -/
  | after (k : K)
  /-- DB_LAST -/
  | last
  /-- `ft_cursor_compare_set_range_reverse`: DB_SET_RANGE_REVERSE -/
  | atMost (k : K)
  /-- `ft_cursor_compare_prev`: DB_PREV -/
  | before (k : K)

/-- `search->direction == FT_SEARCH_LEFT`: from left to right. -/
def Goal.left : Goal K → Bool
  | .first | .atLeast _ _ | .after _ => true
  | .last | .atMost _ | .before _ => false

/-- `search->compare`. -/
def Goal.cmp : Goal K → K → Bool
  | .first, _ => true
  | .atLeast k _, x => decide (k ≤ x)
  | .after k, x => decide (k < x)
  | .last, _ => true
  | .atMost k, x => decide (x ≤ k)
  | .before k, x => decide (x < k)

/-- `search->k_bound`. -/
def Goal.bound : Goal K → Option K
  | .atLeast _ b => b
  | _ => none

/-- The binary search of `toku_ft_search_which_child`, ft/ft-ops.cc:3649-3676; `stop` is "go left from here". -/
def halve (stop : K → Bool) (ps : List K) : Nat → Nat → Nat → Option Nat
  | 0, lo, _ => some lo
  | fuel + 1, lo, hi =>
    if lo < hi then
      let mi := (lo + hi) / 2
      match ps[mi]? with
      | none => none
      | some p => if stop p then halve stop ps fuel lo mi else halve stop ps fuel (mi + 1) hi
    else some lo

/-- The first loop over the pivot bound, ft/ft-ops.cc:3680-3687. -/
def moveUp (ps : List K) (n : Nat) (b : K) : Nat → Nat → Option Nat
  | 0, lo => some lo
  | fuel + 1, lo =>
    if lo + 1 < n then
      match ps[lo]? with
      | none => none
      | some p => if p ≤ b then moveUp ps n b fuel (lo + 1) else some lo
    else some lo

/-- The second loop over the pivot bound, ft/ft-ops.cc:3688-3697. -/
def moveDown (ps : List K) (b : K) : Nat → Option Nat
  | 0 => some 0
  | lo + 1 =>
    match ps[lo]? with
    | none => none
    | some p => if b ≤ p then moveDown ps b lo else some (lo + 1)

/-- `toku_ft_search_which_child`, ft/ft-ops.cc:3642-3700, for a node of `n` children. -/
def searchChild (g : Goal K) (pb : Option K) (n : Nat) (ps : List K) : Option Nat :=
  if n ≤ 1 then some 0
  else
    match halve (fun p => if g.left then g.cmp p else !g.cmp p) ps n 0 (n - 1) with
    | none => none
    | some i =>
      match pb with
      | none => some i
      | some b => if g.left then moveUp ps n b n i else moveDown ps b i

/-- The children a search goes through, ft/ft-ops.cc:1093-1140, 3500-3600: the same function picks the child of an inner node and
the basement of a leaf. -/
def searchRoute (g : Goal K) (pb : Option K) : (h : Nat) → Node K R B h → Option (List Nat)
  | 0, l =>
    match searchChild g pb (Leaf.parts l).length (Leaf.pivots l) with
    | none => none
    | some j => some [j]
  | h + 1, n =>
    match searchChild g pb (Inner.kids n).length (Inner.pivots n) with
    | none => none
    | some i =>
      match (Inner.kids n)[i]? with
      | none => none
      | some (_, c) => (searchRoute g pb h c).map (i :: ·)

/-- Skip the rows that are not visible; every 64 of them see whether the key bound is passed, ft/ft-ops.cc:3371-3415. -/
def skipHidden (vis : K → R → Bool) (kb : Option K) : Nat → Rows K R → Option (K × R)
  | _, [] => none
  | n, (k, r) :: rest =>
    if vis k r then some (k, r)
    else if n % 64 = 0 && !belowHi kb k then none
    else skipHidden vis kb (n + 1) rest

/-- `ft_search_basement_node`, ft/ft-ops.cc:3338-3445: the rows from the first that compares, in the direction of the search. -/
def searchRows (vis : K → R → Bool) (g : Goal K) (rows : Rows K R) : Option (K × R) :=
  if g.left then skipHidden vis g.bound 1 (rows.dropWhile fun p => !g.cmp p.1)
  else skipHidden vis none 1 (rows.takeWhile fun p => g.cmp p.1).reverse

/-- Nothing found below child `i`: save the bound and see whether to go on,
`maybe_search_save_bound` and `search_try_again`, ft/ft-ops.cc:3702-3730. -/
def missed (g : Goal K) (n : Nat) (ps : List K) (i : Nat) (pb : Option K) : Bool × Option K :=
  if g.left then
    if i + 1 < n then
      match ps[i]? with
      | none => (false, pb)
      | some p => ((match g.bound with
          | none => true
          | some kb => decide (p < kb)), some p)
    else (false, pb)
  else
    if 0 < i then
      match ps[i - 1]? with
      | none => (false, pb)
      | some p => (true, some p)
    else (false, pb)

/-- The same from the leaf up along the path of the search, the end of `ft_search_node`, ft/ft-ops.cc:3790-3826. -/
def missedUp (g : Goal K) : (h : Nat) → List Nat → Node K R B h → Option K → Bool × Option K
  | 0, [j], l, pb => missed g (Leaf.parts l).length (Leaf.pivots l) j pb
  | 0, _, _, pb => (false, pb)
  | _ + 1, [], _, pb => (false, pb)
  | h + 1, i :: route, n, pb =>
    match (Inner.kids n)[i]? with
    | none => (false, pb)
    | some (_, c) =>
      match missedUp g h route c pb with
      | (true, b) => (true, b)
      | (false, b) => missed g (Inner.kids n).length (Inner.pivots n) i b

/-- How one attempt ends. -/
inductive Res (K R : Type) where
  | found (k : K) (r : R)
  | missing
  | again
  deriving DecidableEq, Repr

/-- One attempt of `toku_ft_search`, between two `try_again`: the messages above the basement are applied to it on the way
(`readAt`).  The result, the tree and the pivot bound after it. -/
def attempt (sem : Sem K R B) (vis : K → R → Bool) (g : Goal K) (pb : Option K) (t : Tree K R B) :
    Out (Res K R × Tree K R B × Option K) :=
  match searchRoute g pb t.h t.root with
  | none => .crash
  | some route =>
    match readAt sem t.h none none [] route t.root with
    | .ok (rows, n, _) =>
      match searchRows vis g rows with
      | some (k, r) => .ok (.found k r, { t with root := n }, pb)
      | none =>
        match missedUp g t.h route t.root pb with
        | (true, b) => .ok (.again, { t with root := n }, b)
        | (false, b) => .ok (.missing, { t with root := n }, b)
    | .skip => .skip
    | .crash => .crash

/-- A search with other threads at work before each attempt. -/
def search (sem : Sem K R B) (vis : K → R → Bool) (g : Goal K) :
    Option K → Tree K R B → List (List (Op K B)) → Out (Res K R × Tree K R B)
  | _, t, [] => .ok (.again, t)
  | pb, t, ops :: rest =>
    match run sem t ops with
    | none => .crash
    | some t1 =>
      match attempt sem vis g pb t1 with
      | .ok (.again, t2, b) => search sem vis g b t2 rest
      | .ok (res, t2, _) => .ok (res, t2)
      | .skip => .skip
      | .crash => .crash

end Verif.Tree
