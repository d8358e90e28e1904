/-!
Model of the order-maintenance tree, util/omt.cc.

The container is an array or a tree and changes from one to the other as it is used.  The array has a capacity, a first used place and
a number of values; places that have not been written hold nothing.  The nodes of a tree live in an array as well: the model keeps
the tree itself, the capacity of the array and the number of nodes taken from it (they are not given back).

`none` is a failed check, an access outside an array, or the use of a place that has not been written.  Simplifications: numbers do not
wrap (there are fewer than 2^31 values); memory does not run out; `rebalance` puts its scratch array at the end of the nodes if it
fits there, here it is always separate.  `sm` is the template argument `supports_marks`.
-/
namespace Verif.Omt

/-- `omt_node_templated`, omt.h:203-251: weight, the two stolen bits (marked, marks below), left, value, right. -/
inductive T (α : Type) where
  | nil
  | node (w : Nat) (mk below : Bool) (l : T α) (v : α) (r : T α)
deriving Repr, DecidableEq

/-- `nweight`, omt.cc:615-623. -/
def T.weight {α : Type} : T α → Nat
  | .nil => 0
  | .node w .. => w

/-- `is_null`, omt.h:132-134. -/
def T.isNil {α : Type} : T α → Bool
  | .nil => true
  | .node .. => false

/-- An array: `omt_array` and `capacity`, omt.h:628-632, 641.  A place never written holds nothing, and reading it is counted as a failure. -/
structure Arr (α : Type) where
  cap : Nat
  start : Nat
  num : Nat
  buf : Nat → Option α

/-- A tree: `omt_tree` and `capacity`, omt.h:634-641.  The nodes are kept as a tree; of the pool only the number of places taken is kept. -/
structure Tr (α : Type) where
  cap : Nat
  free : Nat
  root : T α

/-- `omt`, omt.h:640-645: the flag `is_array` and the union. -/
inductive O (α : Type) where
  | arr (a : Arr α)
  | tree (t : Tr α)

variable {α β σ : Type}

/-- Reading `values[j]`, outside of which is a failure. -/
def Arr.read (a : Arr α) (j : Nat) : Option α := if j < a.cap then a.buf j else none

/-- Writing place `j` of an array of `cap` places. -/
def put (cap : Nat) (buf : Nat → Option β) (j : Nat) (v : β) : Option (Nat → Option β) :=
  if j < cap then some (fun i => if i = j then some v else buf i) else none

/-- `create_internal`, omt.cc:598-613. -/
def newArr (cap : Nat) : Arr α := ⟨cap, 0, 0, fun _ => none⟩

/-- `size`, omt.cc:228-235. -/
def O.size : O α → Nat
  | .arr a => a.num
  | .tree t => t.root.weight

/-- `fill_array_with_subtree_values` and `fill_array_with_subtree_idxs`, omt.cc:658-669, 1084-1096: `g` is what is stored of a node. -/
def fill (g : Bool → Bool → α → β) (cap : Nat) (buf : Nat → Option β) (off : Nat) : T α → Option (Nat → Option β)
  | .nil => some buf
  | .node _ m b l v r => do
    let buf ← fill g cap buf off l
    let buf ← put cap buf (off + l.weight) (g m b v)
    fill g cap buf (off + l.weight + 1) r

/-- `rebuild_from_sorted_array`, omt.cc:690-713, with `node_malloc`, 626-633.  `fuel` bounds the depth. -/
def build (cap : Nat) (rd : Nat → Option α) : Nat → Nat → Nat → Nat → Option (T α × Nat)
  | 0, free, _, n => if n = 0 then some (.nil, free) else none
  | fuel + 1, free, off, n =>
    if n = 0 then some (.nil, free)
    else if free < cap then do
      let v ← rd (off + n / 2)
      let (l, free) ← build cap rd fuel (free + 1) off (n / 2)
      let (r, free) ← build cap rd fuel free (off + n / 2 + 1) (n - (n / 2 + 1))
      return (.node n false false l v r, free)
    else none

/-- `rebuild_subtree_from_idxs`, omt.cc:1098-1118: the nodes stay where they are, with their values and bits. -/
def rebuild (rd : Nat → Option (Bool × Bool × α)) : Nat → Nat → Nat → Option (T α)
  | 0, _, n => if n = 0 then some .nil else none
  | fuel + 1, off, n =>
    if n = 0 then some .nil
    else do
      let (m, b, v) ← rd (off + n / 2)
      let l ← rebuild rd fuel off (n / 2)
      let r ← rebuild rd fuel (off + n / 2 + 1) (n - (n / 2 + 1))
      return .node n m b l v r

/-- `convert_to_array`, omt.cc:671-687. -/
def O.toArr : O α → Option (Arr α)
  | .arr a => some a
  | .tree t => do
    let n := t.root.weight
    let size := if 2 * n < 4 then 4 else 2 * n
    let buf ← fill (fun _ _ v => v) size (fun _ => none) 0 t.root
    return ⟨size, 0, n, buf⟩

/-- `convert_to_tree`, omt.cc:714-733. -/
def O.toTree : O α → Option (Tr α)
  | .tree t => some t
  | .arr a => do
    let size := if a.num * 2 < 4 then 4 else a.num * 2
    let (root, free) ← build size a.read a.num 0 a.start a.num
    return ⟨size, free, root⟩

/-- `if (supports_marks) convert_to_tree()`, after an array has been made. -/
def finish (sm : Bool) (a : Arr α) : Option (O α) :=
  if sm then (O.arr a).toTree.map .tree else some (.arr a)

/-- `create`, omt.cc:61-67. -/
def create (sm : Bool) : Option (O α) := finish sm (newArr 2)

/-- Copying `n` values to the places from `to` on: `memcpy`. -/
def copy (cap : Nat) (rd : Nat → Option α) : Nat → Nat → Nat → (Nat → Option α) → Option (Nat → Option α)
  | _, _, 0, buf => some buf
  | src, dst, n + 1, buf => do
    let v ← rd src
    let buf ← put cap buf dst v
    copy cap rd (src + 1) (dst + 1) n buf

/-- `create_from_sorted_array`, omt.cc:82-92. -/
def createFrom (sm : Bool) (vs : List α) : Option (O α) := do
  let buf ← copy vs.length (fun i => vs[i]?) 0 0 vs.length (fun _ => none)
  finish sm ⟨vs.length, 0, vs.length, buf⟩

/-- `maybe_resize_array`, omt.cc:641-656. -/
def Arr.resize (a : Arr α) (n : Nat) : Option (Arr α) :=
  let size := if n ≤ 2 then 4 else 2 * n
  if a.cap - a.start < n || a.cap / 2 ≥ size then do
    let buf ← copy size a.read a.start 0 a.num (fun _ => none)
    return ⟨size, 0, a.num, buf⟩
  else some a

/-- `maybe_resize_or_convert`, omt.cc:735-755. -/
def O.resize (sm : Bool) (n : Nat) : O α → Option (O α)
  | .arr a => (a.resize n).map .arr
  | .tree t =>
    let size := if n ≤ 2 then 4 else 2 * n
    if t.cap / 2 ≥ size || (t.free ≥ t.cap && t.root.weight < n) || t.cap < n then do
      let a ← (O.tree t).toArr
      finish sm a
    else some (.tree t)

/-- `has_marks`, omt.cc:273-281. -/
def T.hasMarks : T α → Bool
  | .nil => false
  | .node _ m b .. => b || m

/-- `barf_if_marked`, omt.cc:263-271.  A container with marks is never an array. -/
def barf (sm : Bool) : O α → Option Unit
  | .tree t => if sm && t.root.hasMarks then none else some ()
  | .arr _ => some ()

/-- `will_need_rebalance`, omt.cc:757-772, given the weights of the two sides after the change. -/
def unbal (lw rw : Nat) : Bool := 1 + lw < (1 + 1 + rw) / 2 || 1 + rw < (1 + 1 + lw) / 2

/-- Where a subtree is: the turns from the root, `true` is right. -/
abbrev Path := List Bool

/-- `*rebalance_subtree`, given whether it was set before, whether this subtree needs it, and what the call below found. -/
def pick (found here : Bool) (dir : Bool) (below : Option Path) : Option Path :=
  if found then none else if here then some [] else below.map (dir :: ·)

/-- `insert_internal`, omt.cc:774-808.  Returns the subtree, the number of nodes taken and the topmost subtree to be rebalanced, unless one was found before. -/
def insertI (cap : Nat) (v : α) : T α → Nat → Nat → Bool → Option (T α × Nat × Option Path)
  | .nil, i, free, _ => if i = 0 ∧ free < cap then some (.node 1 false false .nil v .nil, free + 1, none) else none
  | .node w m b l x r, i, free, found =>
    if i ≤ l.weight then do
      let here := unbal (l.weight + 1) r.weight
      let (l, free, p) ← insertI cap v l i free (found || here)
      return (.node (w + 1) m b l x r, free, pick found here false p)
    else do
      let here := unbal l.weight (r.weight + 1)
      let (r, free, p) ← insertI cap v r (i - l.weight - 1) free (found || here)
      return (.node (w + 1) m b l x r, free, pick found here true p)

/-- `delete_internal`, omt.cc:834-887.  Also returns the value that was taken out, which the code stores in `copyn`. -/
def deleteI : T α → Nat → Bool → Option (T α × α × Option Path)
  | .nil, _, _ => none
  | .node w m b l x r, i, found =>
    if i < l.weight then do
      let here := unbal (l.weight - 1) r.weight
      let (l, y, p) ← deleteI l i (found || here)
      return (.node (w - 1) m b l x r, y, pick found here false p)
    else if i = l.weight then
      match l, r with
      | .nil, r => some (r, x, none)
      | l, .nil => some (l, x, none)
      | l, r => do
        let here := unbal l.weight (r.weight - 1)
        let (r, y, p) ← deleteI r 0 (found || here)
        return (.node (w - 1) m b l y r, x, pick found here true p)
    else do
      let here := unbal l.weight (r.weight - 1)
      let (r, y, p) ← deleteI r (i - l.weight - 1) (found || here)
      return (.node (w - 1) m b l x r, y, pick found here true p)

/-- The change of the subtree at a place. -/
def T.change (f : T α → Option (T α)) : Path → T α → Option (T α)
  | [], t => f t
  | _ :: _, .nil => none
  | false :: p, .node w m b l x r => (l.change f p).map (fun l => .node w m b l x r)
  | true :: p, .node w m b l x r => (r.change f p).map (fun r => .node w m b l x r)

/-- `rebalance` of a subtree that is not the root, omt.cc:1134-1154. -/
def T.balance (t : T α) : Option (T α) := do
  let idxs ← fill (fun m b v => (m, b, v)) t.weight (fun _ => none) 0 t
  rebuild (fun i => if i < t.weight then idxs i else none) t.weight 0 t.weight

/-- `rebalance`, omt.cc:1120-1155, if there is something to be rebalanced. -/
def rebalance (sm : Bool) (t : Tr α) : Option Path → Option (O α)
  | none => some (.tree t)
  | some [] => do
    let a ← (O.tree t).toArr
    finish sm a
  | some (d :: p) => (t.root.change T.balance (d :: p)).map (fun r => .tree { t with root := r })

/-- The error numbers `EINVAL`, `DB_KEYEXIST`, `DB_NOTFOUND`, omt.cc:250, 289, 1222. -/
inductive Err where
  | inval
  | exists
  | notfound
deriving Repr, DecidableEq

/-- The array converted to a tree if the operation cannot be done in place. -/
def O.treeIf (o : O α) (b : Bool) : Option (O α) :=
  if b then o.toTree.map .tree else some o

/-- The condition in `insert_at`, omt.cc:293-294. -/
def O.midInsert : O α → Nat → Bool
  | .arr a, i => i ≠ a.num && (i ≠ 0 || a.start = 0)
  | .tree _, _ => false

/-- `insert_at`, omt.cc:283-314. -/
def insertAt (sm : Bool) (o : O α) (v : α) (i : Nat) : Option (Except Err Unit × O α) := do
  barf sm o
  if i > o.size then return (.error .inval, o)
  else
    let o ← o.resize sm (o.size + 1)
    let o ← o.treeIf (o.midInsert i)
    match o with
    | .arr a =>
      if i = a.num then
        let buf ← put a.cap a.buf (a.start + a.num) v
        return (.ok (), .arr { a with buf := buf, num := a.num + 1 })
      else
        let buf ← put a.cap a.buf (a.start - 1) v
        return (.ok (), .arr { a with buf := buf, start := a.start - 1, num := a.num + 1 })
    | .tree t =>
      let (root, free, p) ← insertI t.cap v t.root i t.free false
      let o ← rebalance sm { t with root := root, free := free } p
      return (.ok (), o)

/-- `set_at_internal`, omt.cc:817-832. -/
def setI (v : α) : T α → Nat → Option (T α)
  | .nil, _ => none
  | .node w m b l x r, i =>
    if i < l.weight then (setI v l i).map (fun l => .node w m b l x r)
    else if i = l.weight then some (.node w m b l v r)
    else (setI v r (i - l.weight - 1)).map (fun r => .node w m b l x r)

/-- `set_at`, omt.cc:316-331. -/
def setAt (sm : Bool) (o : O α) (v : α) (i : Nat) : Option (Except Err Unit × O α) := do
  barf sm o
  if i ≥ o.size then return (.error .inval, o)
  else
    match o with
    | .arr a =>
      let buf ← put a.cap a.buf (a.start + i) v
      return (.ok (), .arr { a with buf := buf })
    | .tree t =>
      let root ← setI v t.root i
      return (.ok (), .tree { t with root := root })

/-- The condition in `delete_at`, omt.cc:341-342. -/
def O.midDelete : O α → Nat → Bool
  | .arr a, i => i ≠ 0 && i ≠ a.num - 1
  | .tree _, _ => false

/-- `delete_at`, omt.cc:333-361. -/
def deleteAt (sm : Bool) (o : O α) (i : Nat) : Option (Except Err Unit × O α) := do
  barf sm o
  if i ≥ o.size then return (.error .inval, o)
  else
    let o ← o.resize sm (o.size - 1)
    let o ← o.treeIf (o.midDelete i)
    match o with
    | .arr a => return (.ok (), .arr { a with start := if i ≠ a.num - 1 then a.start + 1 else a.start, num := a.num - 1 })
    | .tree t =>
      let (root, _, p) ← deleteI t.root i false
      let o ← rebalance sm { t with root := root } p
      return (.ok (), o)

/-- `fetch_internal`, omt.cc:1066-1082. -/
def fetchI : T α → Nat → Option α
  | .nil, _ => none
  | .node _ _ _ l x r, i => if i < l.weight then fetchI l i else if i = l.weight then some x else fetchI r (i - l.weight - 1)

/-- `fetch`, omt.cc:526-539. -/
def fetch (o : O α) (i : Nat) : Option (Except Err α) :=
  if i ≥ o.size then some (.error .inval)
  else
    match o with
    | .arr a => (a.read (a.start + i)).map .ok
    | .tree t => (fetchI t.root i).map .ok

/-- The loop of `find_internal_zero_array`, omt.cc:1186-1223: `best_pos` and `best_zero`. -/
def zeroLoop (rd : Nat → Option α) (h : α → Int) : Nat → Nat → Nat → Option Nat → Option Nat → Option (Option Nat × Option Nat)
  | 0, min, limit, bp, bz => if min = limit then some (bp, bz) else none
  | fuel + 1, min, limit, bp, bz =>
    if min = limit then some (bp, bz)
    else do
      let mid := (min + limit) / 2
      let hv := h (← rd mid)
      if hv < 0 then zeroLoop rd h fuel (mid + 1) limit bp bz
      else if hv > 0 then zeroLoop rd h fuel min mid (some mid) bz
      else zeroLoop rd h fuel min mid bp (some mid)

/-- `find_internal_zero`, omt.cc:1226-1259: the value if there is a zero, and the index. -/
def zeroI (h : α → Int) : T α → Option α × Nat
  | .nil => (none, 0)
  | .node _ _ _ l x r =>
    if h x < 0 then
      let (v, i) := zeroI h r
      (v, i + l.weight + 1)
    else if h x > 0 then zeroI h l
    else
      match zeroI h l with
      | (none, _) => (some x, l.weight)
      | (some v, i) => (some v, i)

/-- `find_zero`, omt.cc:542-558. -/
def findZero (o : O α) (h : α → Int) : Option (Option α × Nat) :=
  match o with
  | .arr a => do
    match ← zeroLoop a.read h a.num a.start (a.start + a.num) none none with
    | (_, some z) => return (some (← a.read z), z - a.start)
    | (some p, none) => return (none, p - a.start)
    | (none, none) => return (none, a.num)
  | .tree t => some (zeroI h t.root)

/-- The loop of `find_internal_plus_array`, omt.cc:1262-1290. -/
def plusLoop (rd : Nat → Option α) (h : α → Int) : Nat → Nat → Nat → Option Nat → Option (Option Nat)
  | 0, min, limit, best => if min = limit then some best else none
  | fuel + 1, min, limit, best =>
    if min = limit then some best
    else do
      let mid := (min + limit) / 2
      let hv := h (← rd mid)
      if hv > 0 then plusLoop rd h fuel min mid (some mid)
      else plusLoop rd h fuel (mid + 1) limit best

/-- `find_internal_plus`, omt.cc:1293-1324. -/
def plusI (h : α → Int) : T α → Option (α × Nat)
  | .nil => none
  | .node _ _ _ l x r =>
    if h x > 0 then
      match plusI h l with
      | none => some (x, l.weight)
      | some y => some y
    else (plusI h r).map (fun y => (y.1, y.2 + l.weight + 1))

/-- The loop of `find_internal_minus_array`, omt.cc:1327-1355. -/
def minusLoop (rd : Nat → Option α) (h : α → Int) : Nat → Nat → Nat → Option Nat → Option (Option Nat)
  | 0, min, limit, best => if min = limit then some best else none
  | fuel + 1, min, limit, best =>
    if min = limit then some best
    else do
      let mid := (min + limit) / 2
      let hv := h (← rd mid)
      if hv < 0 then minusLoop rd h fuel (mid + 1) limit (some mid)
      else minusLoop rd h fuel min mid best

/-- `find_internal_minus`, omt.cc:1358-1387. -/
def minusI (h : α → Int) : T α → Option (α × Nat)
  | .nil => none
  | .node _ _ _ l x r =>
    if h x < 0 then
      match minusI h r with
      | some y => some (y.1, y.2 + l.weight + 1)
      | none => some (x, l.weight)
    else minusI h l

/-- What `find` returns of the place found in an array. -/
def Arr.found (a : Arr α) : Option Nat → Option (Option (α × Nat))
  | none => some none
  | some b => (a.read b).map (fun v => some (v, b - a.start))

/-- `find`, omt.cc:561-588: `plus` is whether the direction is positive. -/
def find (o : O α) (h : α → Int) (plus : Bool) : Option (Option (α × Nat)) :=
  match o with
  | .arr a => do
    if plus then a.found (← plusLoop a.read h a.num a.start (a.start + a.num) none)
    else a.found (← minusLoop a.read h a.num a.start (a.start + a.num) none)
  | .tree t => some (if plus then plusI h t.root else minusI h t.root)

/-- `insert`, omt.cc:238-261: where a new value went or an equal one is. -/
def insert (sm : Bool) (o : O α) (v : α) (h : α → Int) : Option ((Except Err Unit × Nat) × O α) := do
  match ← findZero o h with
  | (some _, i) => return ((.error .exists, i), o)
  | (none, i) =>
    let (r, o) ← insertAt sm o v i
    return ((r, i), o)

/-- The loop of `iterate_internal_array`, omt.cc:890-906.  `f` takes a value, its index and what it has gathered, and says whether to go on (0). -/
def iterA (rd : Nat → Option α) (start : Nat) (f : α → Nat → σ → σ × Int) : Nat → Nat → σ → Option (σ × Int)
  | 0, _, s => some (s, 0)
  | n + 1, i, s => do
    let v ← rd (start + i)
    match f v i s with
    | (s, r) => if r ≠ 0 then some (s, r) else iterA rd start f n (i + 1) s

/-- `iterate_internal`, omt.cc:950-983. -/
def iterI (f : α → Nat → σ → σ × Int) (left right : Nat) : T α → Nat → σ → σ × Int
  | .nil, _, s => (s, 0)
  | .node _ _ _ l x r, idx, s =>
    let root := idx + l.weight
    let (s, e) := if left < root then iterI f left right l idx s else (s, 0)
    if e ≠ 0 then (s, e)
    else
      let (s, e) := if left ≤ root ∧ root < right then f x root s else (s, 0)
      if e ≠ 0 then (s, e)
      else if root + 1 < right then iterI f left right r (root + 1) s
      else (s, 0)

/-- `iterate_on_range`, omt.cc:374-393; `iterate`, 363-372, is this with the whole range. -/
def iterate (o : O α) (f : α → Nat → σ → σ × Int) (left right : Nat) (s : σ) : Option (Except Err (σ × Int)) :=
  if right > o.size then some (.error .inval)
  else if left = right then some (.ok (s, 0))
  else
    match o with
    | .arr a => (iterA a.read a.start f (right - left) left s).map .ok
    | .tree t => some (.ok (iterI f left right t.root 0 s))

/-- `iterate_ptr_internal`, omt.cc:908-932: `f` changes the value in place. -/
def iterPtrI (f : α → Nat → σ → α × σ) (left right : Nat) : T α → Nat → σ → T α × σ
  | .nil, _, s => (.nil, s)
  | .node w m b l x r, idx, s =>
    let root := idx + l.weight
    let (l, s) := if left < root then iterPtrI f left right l idx s else (l, s)
    let (x, s) := if left ≤ root ∧ root < right then f x root s else (x, s)
    let (r, s) := if root + 1 < right then iterPtrI f left right r (root + 1) s else (r, s)
    (.node w m b l x r, s)

/-- The loop of `iterate_ptr_internal_array`, omt.cc:935-947. -/
def iterPtrA (start cap : Nat) (f : α → Nat → σ → α × σ) : Nat → Nat → (Nat → Option α) → σ → Option ((Nat → Option α) × σ)
  | 0, _, buf, s => some (buf, s)
  | n + 1, i, buf, s => do
    let v ← (if start + i < cap then buf (start + i) else none)
    let (v, s) := f v i s
    let buf ← put cap buf (start + i) v
    iterPtrA start cap f n (i + 1) buf s

/-- `iterate_ptr`, omt.cc:513-524.  A callback that does not return 0 is a failed assertion: `f` always does. -/
def iteratePtr (o : O α) (f : α → Nat → σ → α × σ) (s : σ) : Option (O α × σ) :=
  match o with
  | .arr a => (iterPtrA a.start a.cap f a.num 0 a.buf s).map (fun x => (.arr { a with buf := x.1 }, x.2))
  | .tree t => match iterPtrI f 0 t.root.weight t.root 0 s with
    | (root, s) => some (.tree { t with root := root }, s)

/-- `iterate_and_mark_range_internal`, omt.cc:988-1020. -/
def markI (f : α → Nat → σ → σ × Int) (left right : Nat) : T α → Nat → σ → T α × σ × Int
  | .nil, _, s => (.nil, s, 0)
  | .node w m b l x r, idx, s =>
    let root := idx + l.weight
    let goL := left < root && !l.isNil
    let goR := root + 1 < right && !r.isNil
    let (l', s, e) := if goL then markI f left right l idx s else (l, s, 0)
    if e ≠ 0 then (.node w m true l' x r, s, e)
    else
      let here := left ≤ root && root < right
      let (s, e) := if here then f x root s else (s, 0)
      if e ≠ 0 then (.node w (m || here) (b || goL) l' x r, s, e)
      else if goR then
        let (r', s, e) := markI f left right r (root + 1) s
        (.node w (m || here) true l' x r', s, e)
      else (.node w (m || here) (b || goL) l' x r, s, 0)

/-- `iterate_and_mark_range`, omt.cc:396-413. -/
def iterateMark (o : O α) (f : α → Nat → σ → σ × Int) (left right : Nat) (s : σ) : Option (Except Err (σ × Int) × O α) :=
  if right > o.size then some (.error .inval, o)
  else if left = right then some (.ok (s, 0), o)
  else
    match o with
    | .arr _ => none
    | .tree t =>
      if t.root.isNil then none
      else match markI f left right t.root 0 s with
        | (root, s, e) => some (.ok (s, e), .tree { t with root := root })

/-- `iterate_over_marked_internal`, omt.cc:1023-1055. -/
def markedI (f : α → Nat → σ → σ × Int) : T α → Nat → σ → σ × Int
  | .nil, _, s => (s, 0)
  | .node _ m b l x r, idx, s =>
    let root := idx + l.weight
    let (s, e) := if b then markedI f l idx s else (s, 0)
    if e ≠ 0 then (s, e)
    else
      let (s, e) := if m then f x root s else (s, 0)
      if e ≠ 0 then (s, e)
      else if b then markedI f r (root + 1) s
      else (s, 0)

/-- `iterate_over_marked`, omt.cc:418-427. -/
def iterateMarked (o : O α) (f : α → Nat → σ → σ × Int) (s : σ) : Option (σ × Int) :=
  match o with
  | .arr _ => none
  | .tree t => some (markedI f t.root 0 s)

/-- `unmark`, omt.cc:429-451: the tree without marks, and the indexes pushed. -/
def unmarkI : T α → Nat → T α × List Nat
  | .nil, _ => (.nil, [])
  | .node w m b l x r, idx =>
    let root := idx + l.weight
    let (l', a) := if b then unmarkI l idx else (l, [])
    let (r', c) := if b then unmarkI r (root + 1) else (r, [])
    (.node w false false l' x r', a ++ (if m then [root] else []) ++ c)

/-- The loop of `delete_all_marked`, omt.cc:468-473. -/
def deleteAll (sm : Bool) : List Nat → Nat → O α → Option (O α)
  | [], _, o => some o
  | i :: l, k, o => do
    match ← deleteAt sm o (i - k) with
    | (.ok _, o) => deleteAll sm l (k + 1) o
    | (.error _, _) => none

/-- `delete_all_marked`, omt.cc:453-476, in a container that supports marks. -/
def deleteMarked (o : O α) : Option (O α) :=
  match o with
  | .arr _ => none
  | .tree t =>
    if !t.root.hasMarks then some o
    else do
      let (root, is) := unmarkI t.root 0
      let o ← deleteAll true is 0 (.tree { t with root := root })
      barf true o
      return o

/-- `clear`, omt.cc:200-209. -/
def clear : O α → O α
  | .arr a => .arr { a with start := 0, num := 0 }
  | .tree t => .tree { t with root := .nil, free := 0 }

/-- `split_at`, omt.cc:109-129: what stays and the new container. -/
def splitAt (sm : Bool) (o : O α) (i : Nat) : Option (Except Err (O α) × O α) := do
  barf sm o
  if i > o.size then return (.error .inval, o)
  else
    let a ← o.toArr
    let m := a.num - i
    let buf ← copy m a.read (a.start + i) 0 m (fun _ => none)
    let new ← finish sm ⟨m, 0, m, buf⟩
    let a ← { a with num := i }.resize i
    let o ← finish sm a
    return (.ok new, o)

/-- The values of a container copied to an array: the branches of `clone` and `merge` that do not take over an array. -/
def O.copyTo (o : O α) (cap dst : Nat) (buf : Nat → Option α) : Option (Nat → Option α) :=
  match o with
  | .arr a => copy cap a.read a.start dst a.num buf
  | .tree t => fill (fun _ _ v => v) cap buf dst t.root

/-- `clone`, omt.cc:182-198. -/
def clone (sm : Bool) (o : O α) : Option (O α) := do
  let buf ← o.copyTo o.size 0 (fun _ => none)
  finish sm ⟨o.size, 0, o.size, buf⟩

/-- The left part of `merge`, omt.cc:142-162. -/
def mergeLeft (l : O α) (rsize : Nat) : Option (Arr α) :=
  match l with
  | .arr a =>
    if a.cap - (a.start + a.num) ≥ rsize then some a
    else do
      let buf ← copy (a.num + rsize) a.read a.start 0 a.num (fun _ => none)
      return ⟨a.num + rsize, 0, a.num, buf⟩
  | .tree t => do
    let buf ← fill (fun _ _ v => v) (t.root.weight + rsize) (fun _ => none) 0 t.root
    return ⟨t.root.weight + rsize, 0, t.root.weight, buf⟩

/-- `merge`, omt.cc:131-180. -/
def merge (sm : Bool) (l r : O α) : Option (O α) := do
  let a ← mergeLeft l r.size
  let buf ← r.copyTo a.cap (a.start + a.num) a.buf
  finish sm { a with buf := buf, num := a.num + r.size }

end Verif.Omt
